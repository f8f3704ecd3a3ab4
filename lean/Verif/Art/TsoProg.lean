import Verif.Art.Stores
import Verif.Props.ArtConc

/-!
# The operations with their critical sections spelled out

The programs of `Verif.Art.Prog`, with the critical sections named (`Section`, whose stores are `Section.code`) instead of given as functions on memory.
`erase` puts the functions back; `erase_call` shows that this gives the programs of `Verif.Art.Prog`. `Tidy` says which locks are held where, and what
is known of the nodes when a section begins.
-/

set_option linter.unusedSimpArgs false

namespace Art

open Surf Spec Props

/-- Programs as `Prog`, with named critical sections. -/
inductive MProg (α : Type) where
  | ret (a : α)
  | panic
  | diverge
  | wait (a : Addr) (k : Nat → MProg α)
  | load (a : Addr) (k : Nat → MProg α)
  | cas (a : Addr) (v : Nat) (k : Bool → MProg α)
  | lock (a : Addr) (k : Bool → MProg α)
  | unlock (a : Addr) (k : MProg α)
  | unlockObsolete (a : Addr) (k : MProg α)
  | read (a : Addr) (v : Nat) (k : Node → MProg α)
  | readRoot (k : Option Ref → MProg α)
  | choose (k : Bool → MProg α)
  /-- a critical section -/
  | sect (t : Section) (k : MProg α)

namespace MProg

/-- Sequencing. -/
def bind {α β : Type} : MProg α → (α → MProg β) → MProg β
  | .ret a, f => f a
  | .panic, _ => .panic
  | .diverge, _ => .diverge
  | .wait a k, f => .wait a (fun x => (k x).bind f)
  | .load a k, f => .load a (fun x => (k x).bind f)
  | .cas a v k, f => .cas a v (fun x => (k x).bind f)
  | .lock a k, f => .lock a (fun x => (k x).bind f)
  | .unlock a k, f => .unlock a (k.bind f)
  | .unlockObsolete a k, f => .unlockObsolete a (k.bind f)
  | .read a v k, f => .read a v (fun x => (k x).bind f)
  | .readRoot k, f => .readRoot (fun x => (k x).bind f)
  | .choose k, f => .choose (fun x => (k x).bind f)
  | .sect t k, f => .sect t (k.bind f)

/-- The program with the functions of its critical sections. -/
def erase {α : Type} : MProg α → Prog α
  | .ret a => .ret a
  | .panic => .panic
  | .diverge => .diverge
  | .wait a k => .wait a (fun x => (k x).erase)
  | .load a k => .load a (fun x => (k x).erase)
  | .cas a v k => .cas a v (fun x => (k x).erase)
  | .lock a k => .lock a (fun x => (k x).erase)
  | .unlock a k => .unlock a k.erase
  | .unlockObsolete a k => .unlockObsolete a k.erase
  | .read a v k => .read a v (fun x => (k x).erase)
  | .readRoot k => .readRoot (fun x => (k x).erase)
  | .choose k => .choose (fun x => (k x).erase)
  | .sect t k => .write t.fn k.erase

/-- A program without critical sections (of one with sections nothing but the beginning is left; this is not used). -/
def ofProg {α : Type} : Prog α → MProg α
  | .ret a => .ret a
  | .panic => .panic
  | .diverge => .diverge
  | .wait a k => .wait a (fun x => ofProg (k x))
  | .load a k => .load a (fun x => ofProg (k x))
  | .cas a v k => .cas a v (fun x => ofProg (k x))
  | .lock a k => .lock a (fun x => ofProg (k x))
  | .unlock a k => .unlock a (ofProg k)
  | .unlockObsolete a k => .unlockObsolete a (ofProg k)
  | .read a v k => .read a v (fun x => ofProg (k x))
  | .readRoot k => .readRoot (fun x => ofProg (k x))
  | .choose k => .choose (fun x => ofProg (k x))
  | .write _ _ => .panic

theorem erase_bind {α β : Type} (p : MProg α) (f : α → MProg β) : (p.bind f).erase = p.erase.bind fun a => (f a).erase := by
  induction p with
  | ret a => rfl
  | panic => rfl
  | diverge => rfl
  | wait a k ih => simp only [bind, erase, Prog.bind, ih]
  | load a k ih => simp only [bind, erase, Prog.bind, ih]
  | cas a v k ih => simp only [bind, erase, Prog.bind, ih]
  | lock a k ih => simp only [bind, erase, Prog.bind, ih]
  | unlock a k ih => simp only [bind, erase, Prog.bind, ih]
  | unlockObsolete a k ih => simp only [bind, erase, Prog.bind, ih]
  | read a v k ih => simp only [bind, erase, Prog.bind, ih]
  | readRoot k ih => simp only [bind, erase, Prog.bind, ih]
  | choose k ih => simp only [bind, erase, Prog.bind, ih]
  | sect t k ih => simp only [bind, erase, Prog.bind, ih]

theorem erase_ofProg {α : Type} : ∀ (p : Prog α), Writes (fun _ => False) p → (ofProg p).erase = p := by
  intro p
  induction p with
  | ret a => intro _; rfl
  | panic => intro _; rfl
  | diverge => intro _; rfl
  | wait a k ih => intro h; simp only [ofProg, erase]; congr; funext x; exact ih x (h x)
  | load a k ih => intro h; simp only [ofProg, erase]; congr; funext x; exact ih x (h x)
  | cas a v k ih => intro h; simp only [ofProg, erase]; congr; funext x; exact ih x (h x)
  | lock a k ih => intro h; simp only [ofProg, erase]; congr; funext x; exact ih x (h x)
  | unlock a k ih => intro h; simp only [ofProg, erase, ih h]
  | unlockObsolete a k ih => intro h; simp only [ofProg, erase, ih h]
  | read a v k ih => intro h; simp only [ofProg, erase]; congr; funext x; exact ih x (h x)
  | readRoot k ih => intro h; simp only [ofProg, erase]; congr; funext x; exact ih x (h x)
  | choose k ih => intro h; simp only [ofProg, erase]; congr; funext x; exact ih x (h x)
  | write f k ih => intro h; exact h.1.elim

end MProg

/-! ## The operations -/

namespace M

/-- art.go:38, 48, 58: `t.root` is read and `t.dummy.waitUnlock()` is called, in an order Go does not fix -/
def start {α : Type} (k : Addr → Nat → MProg α) : MProg α :=
  .choose fun rootFirst =>
  if rootFirst then
    .readRoot fun r => .wait 0 fun v => match r with
      | some (.node a) => k a v
      | _ => .panic
  else
    .wait 0 fun v => .readRoot fun r => match r with
      | some (.node a) => k a v
      | _ => .panic

/-- art.go:189-212: no child under the next byte `b` -/
def insertHere (key value : Bytes) (b : UInt8) (parent : Addr) (parentVersion : Nat) (curr : Addr) (version : Nat)
    (loc : Loc) : MProg Bool :=
  .read curr version fun n =>
  match n.isFull with
  | none => .panic
  | some true =>
    .cas parent parentVersion fun ok => if !ok then .ret false else
    .cas curr version fun ok => if !ok then .unlock parent (.ret false) else
    .sect (.grow curr b (.leaf (newLeaf key value)) loc) <|
    .unlockObsolete curr <|
    .unlock parent <|
    .ret true
  | some false =>
    .cas curr version fun ok => if !ok then .ret false else
    .load parent fun w => if w ≠ parentVersion then .unlock curr (.ret false) else
    .sect (.insertChild curr b (.leaf (newLeaf key value))) <|
    .unlock curr <|
    .ret true

/-- art.go:127-240 `insert` -/
def insert (key value : Bytes) : Nat → Nat → Addr → Nat → Addr → Loc → MProg Bool
  | 0, _, _, _, _, _ => .diverge
  | fuel + 1, depth, parent, parentVersion, curr, loc =>
    .wait curr fun version =>
    if obsolete version then .ret false else
    (MProg.ofProg <| prefixMismatch fuel key depth curr version parent parentVersion).bind fun
    | none => .ret false
    | some (p, full) =>
      .read curr version fun n =>
      if p ≠ n.prefixLen then
        .cas parent parentVersion fun ok => if !ok then .ret false else
        .cas curr version fun ok => if !ok then .unlock parent (.ret false) else
        .sect (.split curr key full value depth p loc) <|
        .unlock curr <|
        .unlock parent <|
        .ret true
      else
      .read curr version fun n =>
      if depth + n.prefixLen = key.length then
        .cas curr version fun ok => if !ok then .ret false else
        .load parent fun w => if w ≠ parentVersion then .unlock curr (.ret false) else
        .sect (.prefixLeaf curr (some (newLeaf key value))) <|
        .unlock curr <|
        .ret true
      else
      match key[depth + n.prefixLen]? with
      | none => .panic
      | some b =>
        .read curr version fun n' =>
        .load curr fun w => if w ≠ version then .ret false else
        match n'.findChild b with
        | none => insertHere key value b parent parentVersion curr version loc
        | some (next, slot, _) =>
          .load parent fun w => if w ≠ parentVersion then .ret false else
          match next with
          | .leaf l =>
            .cas curr version fun ok => if !ok then .ret false else
            .sect (.expand l key value (depth + n.prefixLen + 1) (curr, slot)) <|
            .unlock curr <|
            .ret true
          | .node c => insert key value fuel (depth + n.prefixLen + 1) curr version c (curr, slot)

/-- art.go:46-52 `Put` -/
def put (key value : Bytes) : Nat → MProg Unit
  | 0 => .diverge
  | fuel + 1 => (start fun r v => insert key value fuel 0 0 v r (0, 0)).bind fun
    | true => .ret ()
    | false => put key value fuel

/-- node.go:419-444 `compressChild`, then art.go:284-290, 330-336. The node `curr` is locked at version `version + 2`. (The last
store of the section comes after the child was unlocked: `Sec.late`.) -/
def compressChild (idx : Nat) (parent curr : Addr) (version : Nat) (loc : Loc) : MProg Bool :=
  .read curr (version + 2) fun n =>
  match n.kids with
  | .n4 keys children =>
    match children[idx]?.join, keys[idx]? with
    | some (.leaf l), _ =>
      .sect (.move loc (.leaf l)) <|
      .unlockObsolete curr <|
      .unlock parent <|
      .ret true
    | some (.node c), some b =>
      .lock c fun ok =>
      if !ok then .unlock curr (.unlock parent (.ret false)) else
      .sect (.compress curr c b loc) <|
      .unlock c <|
      .unlockObsolete curr <|
      .unlock parent <|
      .ret true
    | _, _ => .panic
  | _ => .panic

/-- node.go:387-417 `removeChildAndShrink`, then art.go:330-336. The node `curr` is locked at version `version + 2`. -/
def removeChildAndShrink (b : UInt8) (parent curr : Addr) (version : Nat) (loc : Loc) : MProg Bool :=
  .read curr (version + 2) fun n =>
  match n.kids with
  | .n4 keys _ =>
    match n.prefixLeaf with
    | some l =>
      .sect (.move loc (.leaf l)) <|
      .unlockObsolete curr <|
      .unlock parent <|
      .ret true
    | none =>
      if n.numChildren = 1 then
        .sect (.fresh loc) <|
        .unlockObsolete curr <|
        .unlock parent <|
        .ret true
      else if keys[0]? = some b then compressChild 1 parent curr version loc
      else compressChild 0 parent curr version loc
  | _ =>
    .sect (.shrink curr b loc) <|
    .unlockObsolete curr <|
    .unlock parent <|
    .ret true

/-- art.go:263-299: the key ends at this node -/
def removeHere (key : Bytes) (parent : Addr) (parentVersion : Nat) (curr : Addr) (version : Nat) (loc : Loc) : MProg Bool :=
  .read curr version fun n =>
  .load curr fun w => if w ≠ version then .ret false else
  if prefixMatch n key = false then
    .load curr fun w => .ret (w = version)
  else
  .read curr version fun n =>
  if n.shouldCompress (parent == 0) then
    .cas parent parentVersion fun ok => if !ok then .ret false else
    .cas curr version fun ok => if !ok then .unlock parent (.ret false) else
    compressChild 0 parent curr version loc
  else
    .cas curr version fun ok => if !ok then .ret false else
    .sect (.prefixLeaf curr none) <|
    .unlock curr <|
    .ret true

/-- art.go:315-344: the next pointer is the leaf `l` under the byte `b` -/
def removeLeaf (key : Bytes) (b : UInt8) (l : Leaf) (pos : Nat) (parent : Addr) (parentVersion : Nat) (curr : Addr)
    (version : Nat) (loc : Loc) : MProg Bool :=
  if l.matchKey key = false then
    .load curr fun w => .ret (w ≠ version)
  else
  .read curr version fun n =>
  match n.shouldShrink (parent == 0) with
  | none => .panic
  | some true =>
    .cas parent parentVersion fun ok => if !ok then .ret false else
    .cas curr version fun ok => if !ok then .unlock parent (.ret false) else
    removeChildAndShrink b parent curr version loc
  | some false =>
    .cas curr version fun ok => if !ok then .ret false else
    .sect (.removeChild curr pos) <|
    .unlock curr <|
    .ret true

/-- art.go:243-352 `remove`. (Line 301: `depth > len(key)` cannot be, as `checkPrefix` has failed then; it is kept.) -/
def remove (key : Bytes) : Nat → Nat → Addr → Nat → Addr → Loc → MProg Bool
  | 0, _, _, _, _, _ => .diverge
  | fuel + 1, depth, parent, parentVersion, curr, loc =>
    .wait curr fun version =>
    if obsolete version then .ret false else
    .load parent fun w =>
    if w ≠ parentVersion then .ret false else
    .read curr version fun n =>
    if (n.checkPrefix key depth).2 = false then
      .load curr fun w => .ret (w = version)
    else
    if (n.checkPrefix key depth).1 = key.length then removeHere key parent parentVersion curr version loc
    else
    match key[(n.checkPrefix key depth).1]? with
    | none => .load curr fun w => .ret (w = version)
    | some b =>
      .read curr version fun n' =>
      .load curr fun w => if w ≠ version then .ret false else
      match n'.findChild b with
      | none => .ret true
      | some (.leaf l, _, pos) => removeLeaf key b l pos parent parentVersion curr version loc
      | some (.node c, slot, _) => remove key fuel ((n.checkPrefix key depth).1 + 1) curr version c (curr, slot)

/-- art.go:56-62 `Delete` -/
def delete (key : Bytes) : Nat → MProg Unit
  | 0 => .diverge
  | fuel + 1 => (start fun r v => remove key fuel 0 0 v r (0, 0)).bind fun
    | true => .ret ()
    | false => delete key fuel

end M

/-- The program of a call. -/
def _root_.Art.Props.Call.mprog : Call → Nat → MProg (Option Bytes)
  | .get k, fuel => MProg.ofProg (Art.get k fuel)
  | .put k v, fuel => (M.put k v fuel).bind fun _ => .ret none
  | .delete k, fuel => (M.delete k fuel).bind fun _ => .ret none

/-! ## They are the programs of `Verif.Art.Prog` -/

section
open MProg

theorem erase_ite {α : Type} {c : Prop} [Decidable c] (p q : MProg α) : (if c then p else q).erase = if c then p.erase else q.erase := by
  split <;> rfl

theorem erase_start {α : Type} (k : Addr → Nat → MProg α) : (M.start k).erase = start fun a v => (k a v).erase := by
  unfold M.start start
  simp only [erase]
  congr
  funext b
  cases b
  · simp only [Bool.false_eq_true, if_false, erase]
    congr
    funext v
    congr
    funext r
    rcases r with _ | (l | a) <;> rfl
  · simp only [if_true, erase]
    congr
    funext r
    congr
    funext v
    rcases r with _ | (l | a) <;> rfl

theorem erase_insertHere (key value : Bytes) (b : UInt8) (parent : Addr) (pv : Nat) (curr : Addr) (v : Nat) (loc : Loc) :
    (M.insertHere key value b parent pv curr v loc).erase = insertHere key value b parent pv curr v loc := by
  unfold M.insertHere insertHere
  simp only [erase]
  congr
  funext n
  generalize n.isFull = o
  rcases o with _ | (_ | _) <;> simp only [erase, erase_ite, Section.fn]

theorem erase_insert (key value : Bytes) : ∀ (fuel depth : Nat) (parent : Addr) (pv : Nat) (curr : Addr) (loc : Loc),
    (M.insert key value fuel depth parent pv curr loc).erase = insert key value fuel depth parent pv curr loc := by
  intro fuel
  induction fuel with
  | zero => intros; rfl
  | succ fuel ih =>
    intro depth parent pv curr loc
    unfold M.insert insert
    simp only [erase, erase_ite, erase_bind]
    congr
    funext v
    congr
    · exact erase_ofProg _ (writes_prefixMismatch _ _ _ _ _ _ _)
    funext x
    cases x with
    | none => rfl
    | some x =>
      obtain ⟨p, full⟩ := x
      simp only [erase, erase_ite, Section.fn]
      congr
      funext n
      congr
      funext n
      congr
      cases key[depth + n.prefixLen]? with
      | none => rfl
      | some b =>
        simp only [erase, erase_ite]
        congr
        funext n'
        congr
        funext w
        congr
        cases n'.findChild b with
        | none => exact erase_insertHere _ _ _ _ _ _ _ _
        | some x =>
          obtain ⟨next, slot, pos⟩ := x
          simp only [erase, erase_ite]
          congr
          funext w
          congr
          cases next with
          | leaf l => simp only [erase, erase_ite, Section.fn]
          | node c => exact ih _ _ _ _ _

theorem erase_put (key value : Bytes) : ∀ fuel, (M.put key value fuel).erase = put key value fuel := by
  intro fuel
  induction fuel with
  | zero => rfl
  | succ fuel ih =>
    unfold M.put put
    rw [erase_bind, erase_start]
    simp only [erase_insert]
    congr
    funext x
    cases x
    · exact ih
    · rfl

theorem erase_compressChild (idx : Nat) (parent curr : Addr) (v : Nat) (loc : Loc) : (M.compressChild idx parent curr v loc).erase = compressChild idx parent curr v loc := by
  unfold M.compressChild compressChild
  simp only [erase]
  congr
  funext n
  cases n.kids with
  | n4 keys children =>
    dsimp only
    generalize children[idx]?.join = o
    generalize keys[idx]? = o'
    rcases o with _ | (l | c) <;> rcases o' with _ | b <;> simp only [erase, erase_ite, Section.fn]
  | _ => rfl

theorem erase_removeChildAndShrink (b : UInt8) (parent curr : Addr) (v : Nat) (loc : Loc) : (M.removeChildAndShrink b parent curr v loc).erase = removeChildAndShrink b parent curr v loc := by
  unfold M.removeChildAndShrink removeChildAndShrink
  simp only [erase]
  congr
  funext n
  cases n.kids with
  | n4 keys children =>
    dsimp only
    cases n.prefixLeaf with
    | none => simp only [erase, erase_ite, Section.fn, erase_compressChild]
    | some l => simp only [erase, erase_ite, Section.fn]
  | _ => simp only [erase, erase_ite, Section.fn]

theorem erase_removeHere (key : Bytes) (parent : Addr) (pv : Nat) (curr : Addr) (v : Nat) (loc : Loc) : (M.removeHere key parent pv curr v loc).erase = removeHere key parent pv curr v loc := by
  unfold M.removeHere removeHere
  simp only [erase, erase_ite, Section.fn, erase_compressChild]

theorem erase_removeLeaf (key : Bytes) (b : UInt8) (l : Leaf) (pos : Nat) (parent : Addr) (pv : Nat) (curr : Addr) (v : Nat) (loc : Loc) :
    (M.removeLeaf key b l pos parent pv curr v loc).erase = removeLeaf key b l pos parent pv curr v loc := by
  unfold M.removeLeaf removeLeaf
  simp only [erase, erase_ite, erase_removeChildAndShrink]
  congr
  funext n
  generalize n.shouldShrink (parent == 0) = o
  rcases o with _ | (_ | _) <;> simp only [erase, erase_ite, Section.fn, erase_removeChildAndShrink]

theorem erase_remove (key : Bytes) : ∀ (fuel depth : Nat) (parent : Addr) (pv : Nat) (curr : Addr) (loc : Loc),
    (M.remove key fuel depth parent pv curr loc).erase = remove key fuel depth parent pv curr loc := by
  intro fuel
  induction fuel with
  | zero => intros; rfl
  | succ fuel ih =>
    intro depth parent pv curr loc
    unfold M.remove remove
    simp only [erase, erase_ite, erase_removeHere]
    congr
    funext v
    congr
    funext w
    congr
    funext n
    congr
    cases key[(n.checkPrefix key depth).1]? with
    | none => rfl
    | some b =>
      simp only [erase, erase_ite]
      congr
      funext n'
      congr
      funext w
      congr
      cases n'.findChild b with
      | none => rfl
      | some x =>
        obtain ⟨next, slot, pos⟩ := x
        cases next with
        | leaf l => exact erase_removeLeaf _ _ _ _ _ _ _ _ _
        | node c => exact ih _ _ _ _ _

theorem erase_delete (key : Bytes) : ∀ fuel, (M.delete key fuel).erase = delete key fuel := by
  intro fuel
  induction fuel with
  | zero => rfl
  | succ fuel ih =>
    unfold M.delete delete
    rw [erase_bind, erase_start]
    simp only [erase_remove]
    congr
    funext x
    cases x
    · exact ih
    · rfl

theorem erase_call (c : Call) (fuel : Nat) : (c.mprog fuel).erase = c.prog fuel := by
  cases c with
  | get k => exact erase_ofProg _ (writes_get _ _)
  | put k v => show ((M.put k v fuel).bind _).erase = _; rw [erase_bind, erase_put]; rfl
  | delete k => show ((M.delete k fuel).bind _).erase = _; rw [erase_bind, erase_delete]; rfl

end

/-! ## Which locks are held, and what is known at the beginning of a section -/

/-- The program takes no lock and has no critical section. -/
def Quiet {α : Type} : Prog α → Prop
  | .ret _ => True
  | .panic => True
  | .diverge => True
  | .wait _ k => ∀ x, Quiet (k x)
  | .load _ k => ∀ x, Quiet (k x)
  | .read _ _ k => ∀ x, Quiet (k x)
  | .readRoot k => ∀ x, Quiet (k x)
  | .choose k => ∀ x, Quiet (k x)
  | _ => False

theorem Quiet.bind {α β : Type} {p : Prog α} {f : α → Prog β} (h : Quiet p) (hf : ∀ a, Quiet (f a)) : Quiet (p.bind f) := by
  induction p with
  | ret a => exact hf a
  | panic => trivial
  | diverge => trivial
  | wait a k ih => exact fun x => ih x (h x)
  | load a k ih => exact fun x => ih x (h x)
  | read a v k ih => exact fun x => ih x (h x)
  | readRoot k ih => exact fun x => ih x (h x)
  | choose k ih => exact fun x => ih x (h x)
  | _ => exact h.elim

theorem quiet_start {α : Type} {k : Addr → Nat → Prog α} (h : ∀ a v, Quiet (k a v)) : Quiet (start k) := by
  intro b
  cases b
  · intro v r
    dsimp only
    split
    · exact h _ _
    · trivial
  · intro r v
    dsimp only
    split
    · exact h _ _
    · trivial

theorem quiet_search (key : Bytes) : ∀ (fuel depth : Nat) (parent : Addr) (pv : Nat) (curr : Addr), Quiet (search key fuel depth parent pv curr) := by
  intro fuel
  induction fuel with
  | zero => intro _ _ _ _; trivial
  | succ fuel ih =>
    intro depth parent pv curr v
    dsimp only
    split
    · trivial
    intro w
    dsimp only
    split
    · trivial
    intro n
    dsimp only
    split
    · intro w; trivial
    intro n' w
    dsimp only
    split
    · trivial
    split
    · trivial
    · trivial
    · exact ih _ _ _ _

theorem quiet_get (key : Bytes) : ∀ fuel, Quiet (get key fuel) := by
  intro fuel
  induction fuel with
  | zero => trivial
  | succ fuel ih =>
    refine (quiet_start fun a v => quiet_search key fuel _ _ _ _).bind ?_
    rintro (_ | x)
    · exact ih
    · trivial

theorem quiet_fullKey : ∀ (fuel : Nat) (curr : Addr) (v : Nat), Quiet (fullKey fuel curr v) := by
  intro fuel
  induction fuel with
  | zero => intro _ _; trivial
  | succ fuel ih =>
    intro curr v n
    dsimp only
    split
    · intro w; trivial
    intro n'
    dsimp only
    split
    · trivial
    intro w
    dsimp only
    split
    · trivial
    split
    · trivial
    · intro w; trivial
    · intro v
      dsimp only
      split
      · trivial
      · exact ih _ _

theorem quiet_mismatchLoop (key : Bytes) (depth : Nat) (curr : Addr) (v : Nat) (parent : Addr) (pv : Nat) : ∀ (fuel : Nat) (got : Option Bytes),
    Quiet (mismatchLoop key depth curr v parent pv fuel got) := by
  intro fuel
  induction fuel with
  | zero => intro _; trivial
  | succ fuel ih =>
    intro got w
    dsimp only
    split
    · trivial
    intro w
    dsimp only
    split
    · trivial
    split
    · intro n
      dsimp only
      split <;> trivial
    · exact (quiet_fullKey _ _ _).bind fun got => ih got

theorem quiet_prefixMismatch (fuel : Nat) (key : Bytes) (depth : Nat) (curr : Addr) (v : Nat) (parent : Addr) (pv : Nat) :
    Quiet (prefixMismatch fuel key depth curr v parent pv) := by
  intro n
  dsimp only
  split
  · intro n'
    dsimp only
    split <;> trivial
  · exact quiet_mismatchLoop _ _ _ _ _ _ _ _


/-- After a section only locks are released, none of `O` without becoming obsolete, and then something of `P` is returned. -/
def Tail {α : Type} (P : α → Prop) (O : List Addr) : MProg α → Prop
  | .ret a => P a
  | .unlock a k => a ∉ O ∧ Tail P O k
  | .unlockObsolete _ k => Tail P O k
  | _ => False

/-- The store that `compress` leaves for later comes after the child was unlocked. -/
def Section.Next {α : Type} : Section → MProg α → Prop
  | .compress _ c _ _, k => ∃ k', k = .unlock c k'
  | _, _ => True

/-- What holds along the program of a call that holds the locks of `L`, if the node at `a` has the type `cap a`. After a section the program returns something of `P`. -/
def Tidy {α : Type} (cap : Addr → Nat) (P : α → Prop) : MProg α → List Addr → Prop
  | .ret _, L => L = []
  | .panic, _ => True
  | .diverge, _ => True
  | .wait _ k, L => ∀ v, Tidy cap P (k v) L
  | .load _ k, L => ∀ v, Tidy cap P (k v) L
  | .cas a _ k, L => (a ∉ L → Tidy cap P (k true) (a :: L)) ∧ Tidy cap P (k false) L
  | .lock a k, L => L ≠ [] ∧ (a ∉ L → a ≠ 0 → Tidy cap P (k true) (a :: L)) ∧ Tidy cap P (k false) L
  | .unlock a k, L => a ∈ L ∧ Tidy cap P k (L.filter (· ≠ a))
  | .unlockObsolete a k, L => a ∈ L ∧ Tidy cap P k (L.filter (· ≠ a))
  | .read a _ k, L => ∀ r, r.cap = cap a → Tidy cap P (k r) L
  | .readRoot k, L => ∀ r, Tidy cap P (k r) L
  | .choose k, L => ∀ b, Tidy cap P (k b) L
  | .sect t k, L => (∀ x ∈ t.nodes, x ∈ L) ∧ t.Apart ∧ Tail P t.spoils k ∧ t.Next k ∧ Tidy cap P k L

section
variable {α β : Type} {cap : Addr → Nat} {L : List Addr} {P : α → Prop} {Q : β → Prop}

theorem Tail.bind {O : List Addr} {p : MProg α} {f : α → MProg β} (h : Tail P O p) (hf : ∀ a, P a → Tail Q O (f a)) : Tail Q O (p.bind f) := by
  induction p with
  | ret a => exact hf a h
  | unlock a k ih => exact ⟨h.1, ih h.2⟩
  | unlockObsolete a k ih => exact ih h
  | _ => exact h.elim

theorem Section.Next.bind {t : Section} {k : MProg α} (f : α → MProg β) (h : t.Next k) : t.Next (k.bind f) := by
  cases t with
  | compress a c b loc =>
    obtain ⟨k', rfl⟩ := h
    exact ⟨_, rfl⟩
  | _ => trivial

theorem Tidy.bind {f : α → MProg β} (hf : ∀ a, Tidy cap Q (f a) []) (hP : ∀ a O, P a → Tail Q O (f a)) : ∀ {p : MProg α} {L : List Addr}, Tidy cap P p L → Tidy cap Q (p.bind f) L := by
  intro p
  induction p with
  | ret a => intro L h; cases h; exact hf a
  | panic => intros; trivial
  | diverge => intros; trivial
  | wait a k ih => intro L h v; exact ih v (h v)
  | load a k ih => intro L h v; exact ih v (h v)
  | cas a v k ih => intro L h; exact ⟨fun ha => ih _ (h.1 ha), ih _ h.2⟩
  | lock a k ih => intro L h; exact ⟨h.1, fun ha h0 => ih _ (h.2.1 ha h0), ih _ h.2.2⟩
  | unlock a k ih => intro L h; exact ⟨h.1, ih h.2⟩
  | unlockObsolete a k ih => intro L h; exact ⟨h.1, ih h.2⟩
  | read a v k ih => intro L h r hr; exact ih r (h r hr)
  | readRoot k ih => intro L h r; exact ih r (h r)
  | choose k ih => intro L h r; exact ih r (h r)
  | sect t k ih => intro L h; exact ⟨h.1, h.2.1, h.2.2.1.bind fun a ha => hP a _ ha, h.2.2.2.1.bind f, ih h.2.2.2.2⟩

theorem tidy_ofProg {p : Prog α} (h : Quiet p) : Tidy cap P (MProg.ofProg p) [] := by
  induction p with
  | ret a => rfl
  | panic => trivial
  | diverge => trivial
  | wait a k ih => exact fun x => ih x (h x)
  | load a k ih => exact fun x => ih x (h x)
  | read a v k ih => exact fun x _ => ih x (h x)
  | readRoot k ih => exact fun x => ih x (h x)
  | choose k ih => exact fun x => ih x (h x)
  | _ => exact h.elim

theorem tidy_start {k : Addr → Nat → MProg α} (h : ∀ a v, Tidy cap P (k a v) []) : Tidy cap P (M.start k) [] := by
  intro b
  cases b
  · intro v r
    dsimp only
    split
    · exact h _ _
    · trivial
  · intro r v
    dsimp only
    split
    · exact h _ _
    · trivial

theorem tidy_end1 {a : Addr} (x : α) : Tidy cap P (.unlock a (.ret x)) [a] := by simp [Tidy]

theorem tidy_end2 {a b : Addr} (hab : a ∉ [b]) (x : α) : Tidy cap P (.unlock a (.unlock b (.ret x))) [a, b] := by
  have : b ≠ a := by rintro rfl; simp at hab
  simp [Tidy, this]

theorem tidy_end2' {a b : Addr} (hab : a ∉ [b]) (x : α) : Tidy cap P (.unlockObsolete a (.unlock b (.ret x))) [a, b] := by
  have : b ≠ a := by rintro rfl; simp at hab
  simp [Tidy, this]

theorem tidy_end3 {a b c : Addr} (hab : a ∉ [b]) (hc : c ∉ [a, b]) (x : α) : Tidy cap P (.unlock c (.unlockObsolete a (.unlock b (.ret x)))) [c, a, b] := by
  have h1 : b ≠ a := by rintro rfl; simp at hab
  have h2 : a ≠ c := by rintro rfl; simp at hc
  have h3 : b ≠ c := by rintro rfl; simp at hc
  simp [Tidy, h1, h2, h3]

end

/-- `true`: the operation is done -/
def Did (x : Bool) : Prop := x = true

section
variable {cap : Addr → Nat} {key value : Bytes} {parent curr : Addr} {pv v : Nat} {loc : Loc}

theorem cap_kids {n : Node} : n.cap = 0 ↔ ∃ r, n.kids = .dummy r := by
  unfold Node.cap
  cases n.kids <;> simp

theorem tidy_insertHere (h0 : cap 0 = 0) (b : UInt8) (hloc : loc.1 = parent) : Tidy cap Did (M.insertHere key value b parent pv curr v loc) [] := by
  unfold M.insertHere
  intro n hn
  dsimp only
  split
  · trivial
  · refine ⟨fun _ => ?_, rfl⟩
    refine ⟨fun h => ?_, tidy_end1 _⟩
    exact ⟨by simp [Section.nodes, hloc], trivial, ⟨by simp [Section.spoils], rfl⟩, trivial, tidy_end2' h _⟩
  · next hf =>
    have hc : curr ≠ 0 := by
      rintro rfl
      rw [h0] at hn
      obtain ⟨r, hr⟩ := cap_kids.mp hn
      simp [Node.isFull, hr] at hf
    refine ⟨fun _ => ?_, rfl⟩
    intro w
    dsimp only [Bool.not_true, Bool.false_eq_true, if_false]
    by_cases e : w ≠ pv
    · simp only [if_pos e]
      exact tidy_end1 _
    · simp only [if_neg e]
      exact ⟨by simp [Section.nodes], hc, ⟨by simp [Section.spoils], rfl⟩, trivial, tidy_end1 _⟩

theorem tidy_insert (h0 : cap 0 = 0) : ∀ (fuel depth : Nat) (parent : Addr) (pv : Nat) (curr : Addr) (loc : Loc), loc.1 = parent →
    Tidy cap Did (M.insert key value fuel depth parent pv curr loc) [] := by
  intro fuel
  induction fuel with
  | zero => intros; trivial
  | succ fuel ih =>
    intro depth parent pv curr loc hloc
    unfold M.insert
    intro v
    dsimp only
    split
    · rfl
    refine Tidy.bind (P := fun _ => False) ?_ (fun _ _ h => h.elim) (tidy_ofProg (quiet_prefixMismatch _ _ _ _ _ _ _))
    rintro (_ | ⟨p, full⟩)
    · rfl
    intro n hn
    dsimp only
    split
    · refine ⟨fun _ => ?_, rfl⟩
      refine ⟨fun h => ?_, tidy_end1 _⟩
      exact ⟨by simp [Section.nodes, hloc], trivial, ⟨by simp [Section.spoils], by simp [Section.spoils], rfl⟩, trivial, tidy_end2 h _⟩
    intro n hn
    dsimp only
    split
    · refine ⟨fun _ => ?_, rfl⟩
      intro w
      dsimp only [Bool.not_true, Bool.false_eq_true, if_false]
      by_cases e : w ≠ pv
      · simp only [if_pos e]
        exact tidy_end1 _
      · simp only [if_neg e]
        exact ⟨by simp [Section.nodes], trivial, ⟨by simp [Section.spoils], rfl⟩, trivial, tidy_end1 _⟩
    split
    · trivial
    intro n' hn' w
    dsimp only
    split
    · rfl
    split
    · exact tidy_insertHere h0 _ hloc
    · intro w
      dsimp only
      split
      · rfl
      split
      · exact ⟨fun _ => ⟨by simp [Section.nodes], trivial, ⟨by simp [Section.spoils], rfl⟩, trivial, tidy_end1 _⟩, rfl⟩
      · exact ih _ _ _ _ _ rfl

theorem tidy_compress (h0 : cap 0 = 0) (idx : Nat) (hne : curr ∉ [parent]) (hloc : loc.1 = parent) (hp : cap curr = 4 → parent ≠ 0) :
    Tidy cap Did (M.compressChild idx parent curr v loc) [curr, parent] := by
  unfold M.compressChild
  intro n hn
  dsimp only
  split
  · next hk =>
    have hcap : cap curr = 4 := by rw [← hn]; simp [Node.cap, hk]
    have hc : curr ≠ 0 := by rintro rfl; omega
    have hp := hp hcap
    split
    · exact ⟨by simp [Section.nodes, hloc], trivial, ⟨by simp [Section.spoils], rfl⟩, trivial, tidy_end2' hne _⟩
    · next c b _ _ =>
      refine ⟨by simp, fun h1 h2 => ?_, tidy_end2 hne _⟩
      have hcp : curr ≠ parent := by simpa using hne
      have h1' : c ≠ curr ∧ c ≠ parent := by simpa using h1
      refine ⟨by simp [Section.nodes, hloc], ⟨h1'.1.symm, by rw [hloc]; exact hcp.symm, by rw [hloc]; exact h1'.2.symm, hc, h2, by rw [hloc]; exact hp⟩, ?_, ⟨_, rfl⟩, tidy_end3 hne h1 _⟩
      exact ⟨by simp [Section.spoils, h1'.1], by simp [Section.spoils]; exact hcp.symm, rfl⟩
    · trivial
  · trivial

theorem tidy_shrink (h0 : cap 0 = 0) (b : UInt8) (hne : curr ∉ [parent]) (hloc : loc.1 = parent) (hp : cap curr = 4 → parent ≠ 0) :
    Tidy cap Did (M.removeChildAndShrink b parent curr v loc) [curr, parent] := by
  unfold M.removeChildAndShrink
  intro n hn
  dsimp only
  split
  · split
    · exact ⟨by simp [Section.nodes, hloc], trivial, ⟨by simp [Section.spoils], rfl⟩, trivial, tidy_end2' hne _⟩
    · split
      · exact ⟨by simp [Section.nodes, hloc], trivial, ⟨by simp [Section.spoils], rfl⟩, trivial, tidy_end2' hne _⟩
      · split
        · exact tidy_compress h0 _ hne hloc hp
        · exact tidy_compress h0 _ hne hloc hp
  · exact ⟨by simp [Section.nodes, hloc], trivial, ⟨by simp [Section.spoils], rfl⟩, trivial, tidy_end2' hne _⟩

theorem tidy_removeHere (h0 : cap 0 = 0) (hloc : loc.1 = parent) : Tidy cap Did (M.removeHere key parent pv curr v loc) [] := by
  unfold M.removeHere
  intro n hn w
  dsimp only
  split
  · rfl
  split
  · intro w; rfl
  intro n hn
  dsimp only
  split
  · next hs =>
    refine ⟨fun _ => ?_, rfl⟩
    refine ⟨fun h => ?_, tidy_end1 _⟩
    refine tidy_compress h0 _ h hloc fun _ => ?_
    rintro rfl
    unfold Node.shouldCompress at hs
    split at hs <;> simp at hs
  · exact ⟨fun _ => ⟨by simp [Section.nodes], trivial, ⟨by simp [Section.spoils], rfl⟩, trivial, tidy_end1 _⟩, rfl⟩

theorem tidy_removeLeaf (h0 : cap 0 = 0) (b : UInt8) (l : Leaf) (pos : Nat) (hloc : loc.1 = parent) : Tidy cap Did (M.removeLeaf key b l pos parent pv curr v loc) [] := by
  unfold M.removeLeaf
  split
  · intro w; rfl
  intro n hn
  dsimp only
  split
  · trivial
  · next hs =>
    refine ⟨fun _ => ?_, rfl⟩
    refine ⟨fun h => ?_, tidy_end1 _⟩
    refine tidy_shrink h0 _ h hloc fun hc => ?_
    rintro rfl
    rw [← hn] at hc
    unfold Node.shouldShrink at hs
    unfold Node.cap at hc
    split at hs <;> simp_all
  · next hs =>
    have hc : curr ≠ 0 := by
      rintro rfl
      rw [h0] at hn
      obtain ⟨r, hr⟩ := cap_kids.mp hn
      simp [Node.shouldShrink, hr] at hs
    exact ⟨fun _ => ⟨by simp [Section.nodes], hc, ⟨by simp [Section.spoils], rfl⟩, trivial, tidy_end1 _⟩, rfl⟩

theorem tidy_remove (h0 : cap 0 = 0) : ∀ (fuel depth : Nat) (parent : Addr) (pv : Nat) (curr : Addr) (loc : Loc), loc.1 = parent →
    Tidy cap Did (M.remove key fuel depth parent pv curr loc) [] := by
  intro fuel
  induction fuel with
  | zero => intros; trivial
  | succ fuel ih =>
    intro depth parent pv curr loc hloc
    unfold M.remove
    intro v
    dsimp only
    split
    · rfl
    intro w
    dsimp only
    split
    · rfl
    intro n hn
    dsimp only
    split
    · intro w; rfl
    split
    · exact tidy_removeHere h0 hloc
    split
    · intro w; rfl
    intro n' hn' w
    dsimp only
    split
    · rfl
    split
    · rfl
    · exact tidy_removeLeaf h0 _ _ _ hloc
    · exact ih _ _ _ _ _ rfl

theorem tidy_put (h0 : cap 0 = 0) : ∀ fuel, Tidy cap (fun _ => True) (M.put key value fuel) [] := by
  intro fuel
  induction fuel with
  | zero => trivial
  | succ fuel ih =>
    refine Tidy.bind (P := Did) ?_ ?_ (tidy_start fun a v => tidy_insert h0 _ _ _ _ _ _ rfl)
    · rintro (_ | _)
      · exact ih
      · rfl
    · rintro a O rfl
      trivial

theorem tidy_delete (h0 : cap 0 = 0) : ∀ fuel, Tidy cap (fun _ => True) (M.delete key fuel) [] := by
  intro fuel
  induction fuel with
  | zero => trivial
  | succ fuel ih =>
    refine Tidy.bind (P := Did) ?_ ?_ (tidy_start fun a v => tidy_remove h0 _ _ _ _ _ _ rfl)
    · rintro (_ | _)
      · exact ih
      · rfl
    · rintro a O rfl
      trivial

theorem tidy_call (h0 : cap 0 = 0) (c : Call) (fuel : Nat) : Tidy cap (fun _ => True) (c.mprog fuel) [] := by
  cases c with
  | get k => exact tidy_ofProg (quiet_get _ _)
  | put k v => exact Tidy.bind (P := fun _ => True) (Q := fun _ => True) (f := fun _ => .ret none) (fun _ => rfl) (fun _ _ _ => trivial) (tidy_put h0 _)
  | delete k => exact Tidy.bind (P := fun _ => True) (Q := fun _ => True) (f := fun _ => .ret none) (fun _ => rfl) (fun _ _ _ => trivial) (tidy_delete h0 _)

end

end Art
