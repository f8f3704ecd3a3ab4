import Verif.Art.Firm

/-!
# The critical sections, store by store

In `Verif.Art.Prog` the body of a critical section is a function on memory. Here is the code of these bodies: one store after the other, each of
one field (one byte of an array of bytes), in the order of the Go code, with the loads between them. What a new node is made of is not
spelled out: nobody else can see it before the pointer to it is stored (`link`), which is always the last store of a section.
`code_run` shows that the stores done one after the other do what the function says.
-/

set_option linter.unusedSimpArgs false

namespace Art

open Surf Spec Props

/-- A field of a node (node.go:32-49, 66-70, 82-86, 103-108, 131-134) and what is stored there. `child` is also the root pointer, the only slot of the dummy node. -/
inductive Field where
  | num (x : UInt8)
  | plen (x : Nat)
  | pre (i : Nat) (b : UInt8)
  | leaf (l : Option Leaf)
  | key (i : Nat) (b : UInt8)
  | child (i : Nat) (r : Option Ref)
  | index (i : Nat) (x : Nat)
  | slots (w : Word)

/-- The node after the store; `none` if there is no such place. -/
def Field.store : Field → Node → Option Node
  | .num x, n => some { n with numChildren := x }
  | .plen x, n => some { n with prefixLen := x }
  | .pre i b, n => (setAt n.pre i b).map fun p => { n with pre := p }
  | .leaf l, n => some { n with prefixLeaf := l }
  | .key i b, n => match n.kids with
    | .n4 ks cs => (setAt ks i b).map fun ks => { n with kids := .n4 ks cs }
    | .n16 ks cs => (setAt ks i b).map fun ks => { n with kids := .n16 ks cs }
    | _ => none
  | .child i r, n => match n.kids with
    | .n4 ks cs => (setAt cs i r).map fun cs => { n with kids := .n4 ks cs }
    | .n16 ks cs => (setAt cs i r).map fun cs => { n with kids := .n16 ks cs }
    | .n48 ix cs w => (setAt cs i r).map fun cs => { n with kids := .n48 ix cs w }
    | .n256 cs => (setAt cs i r).map fun cs => { n with kids := .n256 cs }
    | .dummy _ => some { n with kids := .dummy r }
  | .index i x, n => match n.kids with
    | .n48 ix cs w => (setAt ix i x).map fun ix => { n with kids := .n48 ix cs w }
    | _ => none
  | .slots w, n => match n.kids with
    | .n48 ix cs _ => some { n with kids := .n48 ix cs w }
    | _ => none

/-- The body of a critical section. -/
inductive Sec where
  /-- the end -/
  | done
  /-- a Go panic -/
  | panic
  /-- read a node (locked by the call) -/
  | load (a : Addr) (k : Node → Sec)
  /-- store to a field -/
  | store (a : Addr) (x : Field) (k : Sec)
  /-- allocate a node, fill it, and store the pointer to it -/
  | link (n : Node) (loc : Loc)
  /-- the next unlock comes first, then the pointer is stored -/
  | late (loc : Loc) (r : Ref)

/-- Store to a field of the node at `a`. -/
def storeAt (a : Addr) (x : Field) (h : Heap) : Option Heap := h[a]?.bind fun n => (x.store n).map fun n' => h.set a n'

/-- What a section does to memory when nobody disturbs. -/
def Sec.run : Sec → Heap → Option Heap
  | .done, h => some h
  | .panic, _ => none
  | .load a k, h => h[a]?.bind fun n => (k n).run h
  | .store a x k, h => (storeAt a x h).bind k.run
  | .link n loc, h => allocAt h loc n
  | .late loc r, h => storeLoc h loc r

/-- Several stores to the same node. -/
def puts (a : Addr) : List Field → Sec → Sec
  | [], k => k
  | x :: xs, k => .store a x (puts a xs k)

/-- Stores to consecutive places of an array, in ascending order. -/
def writes {β : Type} (mk : Nat → β → Field) : List β → Nat → List Field
  | [], _ => []
  | x :: xs, i => mk i x :: writes mk xs (i + 1)

/-- The critical sections of `Put` and `Delete`. -/
inductive Section where
  /-- node.go:332-334, art.go:296 -/
  | prefixLeaf (a : Addr) (l : Option Leaf)
  /-- node.go:197-234 -/
  | insertChild (a : Addr) (b : UInt8) (r : Ref)
  /-- art.go:197, node.go:256-287 -/
  | grow (a : Addr) (b : UInt8) (r : Ref) (loc : Loc)
  /-- node.go:297-330 -/
  | expand (l : Leaf) (key value : Bytes) (depth : Nat) (loc : Loc)
  /-- node.go:545-573 -/
  | split (a : Addr) (key full value : Bytes) (depth p : Nat) (loc : Loc)
  /-- node.go:336-362 -/
  | removeChild (a : Addr) (i : Nat)
  /-- node.go:446-491 -/
  | shrink (a : Addr) (b : UInt8) (loc : Loc)
  /-- node.go:394, 442 -/
  | move (loc : Loc) (r : Ref)
  /-- node.go:398 -/
  | fresh (loc : Loc)
  /-- node.go:425-442 -/
  | compress (a c : Addr) (b : UInt8) (loc : Loc)

/-- The section as a function on memory. -/
def Section.fn : Section → Heap → Option Heap
  | .prefixLeaf a (some l) => fun h => do
    let n ← h[a]?
    return h.set a { n with prefixLeaf := some l }
  | .prefixLeaf a none => (clearPrefixLeaf · a)
  | .insertChild a b r => (insertChildAt · a b r)
  | .grow a b r loc => (growAt · a b r loc)
  | .expand l key value depth loc => (updateOrExpand · l key value depth loc)
  | .split a key full value depth p loc => (insertSplitPrefix · a key full value depth p loc)
  | .removeChild a i => (removeChildAt · a i)
  | .shrink a b loc => (shrinkAt · a b loc)
  | .move loc r => (storeLoc · loc r)
  | .fresh loc => (allocAt · loc newNode4)
  | .compress a c b loc => (compressAt · a c b loc)

/-- Allocate and link a node that was made, or panic. -/
def linkOr (o : Option Node) (loc : Loc) : Sec :=
  match o with
  | some n => .link n loc
  | none => .panic

/-- node.go:197-234 `insertChild`, of the node `n` at `a` -/
def insertCode (a : Addr) (b : UInt8) (r : Ref) (n : Node) : Sec :=
  match n.kids with
  | .n4 .. => puts a [.key n.numChildren.toNat b, .child n.numChildren.toNat (some r), .num (n.numChildren + 1)] .done
  | .n16 .. => puts a [.key n.numChildren.toNat b, .child n.numChildren.toNat (some r), .num (n.numChildren + 1)] .done
  | .n48 _ _ slots => match allocSlot slots with
    | some (pos, slots) => puts a [.slots slots, .child pos (some r), .index b.toNat (pos + 1), .num (n.numChildren + 1)] .done
    | none => .panic
  | .n256 .. => puts a [.child b.toNat (some r), .num (n.numChildren + 1)] .done
  | .dummy _ => .panic

/-- node.go:336-362 `removeChild`, of the node `n` at `a`. `copy` stores the elements in ascending order. -/
def removeCode (a : Addr) (i : Nat) (n : Node) : Sec :=
  match n.kids with
  | .n4 ks cs =>
    if i < ks.length then
      puts a (writes .key (ks.drop (i + 1)) i) <|
      if i < cs.length then
        puts a (writes .child (cs.drop (i + 1)) i) <|
        puts a [.num (n.numChildren - 1), .child (n.numChildren - 1).toNat none] .done
      else .panic
    else .panic
  | .n16 ks cs =>
    if i < ks.length then
      puts a (writes .key (ks.drop (i + 1)) i) <|
      if i < cs.length then
        puts a (writes .child (cs.drop (i + 1)) i) <|
        puts a [.num (n.numChildren - 1), .child (n.numChildren - 1).toNat none] .done
      else .panic
    else .panic
  | .n48 ix _ slots =>
    match ix[i]? with
    | none => .panic
    | some v =>
      .store a (.index i 0) <|
      match usub v 1 with
      | none => .panic
      | some pos => puts a [.child pos none, .slots (freeSlot slots pos), .num (n.numChildren - 1)] .done
  | .n256 _ => puts a [.child i none, .num (n.numChildren - 1)] .done
  | .dummy _ => .done

/-- node.go:545-573 `insertSplitPrefix`, of the node `n` at `a`. (`n.prefixLen` is read again after it was stored.) -/
def splitCode (a : Addr) (key full value : Bytes) (depth p : Nat) (loc : Loc) (n : Node) : Sec :=
  match placeLeaf newNode4 (depth + p) key (newLeaf key value) with
  | none => .panic
  | some new =>
    match (if n.prefixLen ≤ maxPrefixLen then n.pre[p]? else full[depth + p]?), usub n.prefixLen (p + 1) with
    | some pos, some newLen =>
      .store a (.plen newLen) <|
      .load a fun n' =>
      let rest := if n.prefixLen ≤ maxPrefixLen then n'.pre.drop (p + 1) else full.drop (depth + p + 1)
      if n.prefixLen ≤ maxPrefixLen ∨ depth + p + 1 + n'.prefixLen ≤ full.length then
        match ({ new with prefixLen := p, pre := Node.pad8 (n.pre.take (min maxPrefixLen p)) } : Node).insertChild pos (.node a) with
        | none => .panic
        | some new =>
          puts a (writes .pre (Node.pad8 (rest.take n'.prefixLen)) 0) <|
          .link new loc
      else .panic
    | _, _ => .panic

/-- node.go:425-443, for `n` at `a` and its child at `c`. The prefix of `n` is used to put the new prefix together. -/
def compressCode (a c : Addr) (b : UInt8) (loc : Loc) (n child : Node) : Sec :=
  let sub := min child.prefixLen (maxPrefixLen - (n.prefixLen + 1))
  let p := if n.prefixLen < maxPrefixLen then n.prefixLen + 1 + sub else n.prefixLen
  puts a (if n.prefixLen < maxPrefixLen then .pre n.prefixLen b :: writes .pre (child.pre.take sub) (n.prefixLen + 1) else []) <|
  .load a fun n' =>
  puts c (writes .pre (Node.pad8 (n'.pre.take (min p maxPrefixLen))) 0) <|
  .store c (.plen (child.prefixLen + n.prefixLen + 1)) <|
  .late loc (.node c)

/-- The section, store by store. -/
def Section.code : Section → Sec
  | .prefixLeaf a l => .store a (.leaf l) .done
  | .insertChild a b r => .load a fun n => insertCode a b r n
  | .grow a b r loc => .load a fun n => linkOr (n.growAndInsert b r) loc
  | .expand l key value depth loc =>
    if l.matchKey key then .store loc.1 (.child loc.2 (some (.leaf (newLeaf key value)))) .done
    else
      let missPos := missLoop l.key key (min key.length l.key.length - depth) depth
      let new := { newNode4 with prefixLen := missPos - depth, pre := Node.pad8 ((key.take missPos).drop depth) }
      linkOr ((placeLeaf new missPos l.key l).bind fun new => placeLeaf new missPos key (newLeaf key value)) loc
  | .split a key full value depth p loc => .load a fun n => splitCode a key full value depth p loc n
  | .removeChild a i => .load a fun n => removeCode a i n
  | .shrink a b loc => .load a fun n => linkOr (n.shrink b) loc
  | .move loc r => .store loc.1 (.child loc.2 (some r)) .done
  | .fresh loc => .link newNode4 loc
  | .compress a c b loc => .load a fun n => .load c fun child => compressCode a c b loc n child

/-- The node that may hold anything in the end, as it becomes obsolete. -/
def Section.spoils : Section → List Addr
  | .compress a _ _ _ => [a]
  | _ => []

/-! ## What the stores do -/

/-- Stores to one node, one after the other. -/
def storeAll : List Field → Node → Option Node
  | [], n => some n
  | x :: xs, n => (x.store n).bind (storeAll xs)

theorem storeAll_append (xs ys : List Field) (n : Node) : storeAll (xs ++ ys) n = (storeAll xs n).bind (storeAll ys) := by
  induction xs generalizing n with
  | nil => rfl
  | cons x xs ih =>
    show (x.store n).bind (storeAll (xs ++ ys)) = ((x.store n).bind (storeAll xs)).bind (storeAll ys)
    cases x.store n with
    | none => rfl
    | some m => exact ih m

theorem Sec.run_puts {h : Heap} {a : Addr} {n : Node} (hn : h[a]? = some n) (xs : List Field) (k : Sec) :
    (puts a xs k).run h = (storeAll xs n).bind fun n' => k.run (h.set a n') := by
  induction xs generalizing h n with
  | nil =>
    show k.run h = k.run (h.set a n)
    congr 1
    have := (List.getElem?_eq_some_iff.mp hn)
    obtain ⟨hlt, rfl⟩ := this
    rw [List.set_getElem_self]
  | cons x xs ih =>
    show ((h[a]?.bind fun n => (x.store n).map fun n' => h.set a n').bind (puts a xs k).run) = ((x.store n).bind (storeAll xs)).bind _
    rw [hn]
    show (((x.store n).map fun n' => h.set a n').bind (puts a xs k).run) = _
    cases e : x.store n with
    | none => rfl
    | some m =>
      have hlt := (List.getElem?_eq_some_iff.mp hn).1
      show (puts a xs k).run (h.set a m) = _
      rw [ih (n := m) (List.getElem?_set_self hlt)]
      simp

theorem Sec.run_store {h : Heap} {a : Addr} {n : Node} (hn : h[a]? = some n) (x : Field) (k : Sec) :
    (Sec.store a x k).run h = (x.store n).bind fun n' => k.run (h.set a n') := by
  show ((h[a]?.bind fun n => (x.store n).map fun n' => h.set a n').bind k.run) = _
  rw [hn]
  show (((x.store n).map fun n' => h.set a n').bind k.run) = _
  cases x.store n <;> rfl

/-- Consecutive stores to an array. -/
theorem storeAll_writes {β : Type} {mk : Nat → β → Field} {put : List β → Node} (hmk : ∀ (l : List β) j x, j < l.length → (mk j x).store (put l) = some (put (l.set j x))) :
    ∀ (xs l : List β) (i : Nat), i + xs.length ≤ l.length → storeAll (writes mk xs i) (put l) = some (put (l.take i ++ xs ++ l.drop (i + xs.length))) := by
  intro xs
  induction xs with
  | nil =>
    intro l i hi
    simp [writes, storeAll]
  | cons x xs ih =>
    intro l i hi
    simp only [List.length_cons] at hi
    show ((mk i x).store (put l)).bind (storeAll (writes mk xs (i + 1))) = _
    rw [hmk l i x (by omega), Option.bind_some, ih _ _ (by simp; omega)]
    congr 2
    have e : l.set i x = l.take i ++ x :: l.drop (i + 1) := by rw [List.set_eq_take_append_cons_drop, if_pos (by omega)]
    have hl : (l.take i).length = i := by rw [List.length_take]; omega
    rw [e, List.take_append, List.drop_append, hl, List.take_of_length_le (by omega), List.drop_of_length_le (l := l.take i) (by omega)]
    have e1 : i + 1 - i = 0 + 1 := by omega
    have e2 : i + 1 + xs.length - i = xs.length + 1 := by omega
    rw [e1, e2, List.take_succ_cons, List.take_zero, List.drop_succ_cons, List.drop_drop]
    simp only [List.append_assoc, List.cons_append, List.nil_append, List.length_cons]
    congr 4
    omega

theorem shift_eq {β : Type} {l : List β} {i : Nat} (h : i < l.length) : l.take i ++ l.drop (i + 1) ++ l.drop (i + (l.drop (i + 1)).length) = l.take i ++ l.drop (i + 1) ++ l.drop (l.length - 1) := by
  congr 2
  simp
  omega

theorem setSlot_eq (n : Node) (i : Nat) (r : Ref) : n.setSlot i r = (Field.child i (some r)).store n := by
  obtain ⟨v, num, pl, pr, lf, kids⟩ := n
  cases kids <;> rfl

theorem storeLoc_eq (h : Heap) (loc : Loc) (r : Ref) : storeLoc h loc r = storeAt loc.1 (.child loc.2 (some r)) h := by
  unfold storeLoc storeAt
  simp only [setSlot_eq]
  cases h[loc.1]? with
  | none => rfl
  | some n =>
    show ((Field.child loc.2 (some r)).store n).bind _ = _
    cases e : (Field.child loc.2 (some r)).store n <;> simp [e]

theorem run_linkOr (o : Option Node) (loc : Loc) (h : Heap) : (linkOr o loc).run h = o.bind fun n => allocAt h loc n := by
  cases o <;> rfl

theorem run_insertCode {h : Heap} {a : Addr} {n : Node} (hn : h[a]? = some n) (b : UInt8) (r : Ref) :
    (insertCode a b r n).run h = (n.insertChild b r).bind fun n' => some (h.set a n') := by
  obtain ⟨v, num, pl, pr, lf, kids⟩ := n
  unfold insertCode Node.insertChild
  cases kids with
  | n4 ks cs =>
    dsimp only
    rw [Sec.run_puts hn]
    simp only [storeAll, Field.store]
    cases e1 : setAt ks num.toNat b with
    | none => rfl
    | some ks' =>
      simp only [Option.map_some, Option.bind_some]
      cases e2 : setAt cs num.toNat (some r) <;> simp [e2, Sec.run]
  | n16 ks cs =>
    dsimp only
    rw [Sec.run_puts hn]
    simp only [storeAll, Field.store]
    cases e1 : setAt ks num.toNat b with
    | none => rfl
    | some ks' =>
      simp only [Option.map_some, Option.bind_some]
      cases e2 : setAt cs num.toNat (some r) <;> simp [e2, Sec.run]
  | n48 ix cs w =>
    dsimp only
    cases e0 : allocSlot w with
    | none => rfl
    | some q =>
      obtain ⟨pos, w'⟩ := q
      dsimp only
      rw [Sec.run_puts hn]
      simp only [storeAll, Field.store, Option.bind_some]
      cases e1 : setAt cs pos (some r) with
      | none => simp [e1]
      | some cs' =>
        simp only [Option.map_some, Option.bind_some]
        cases e2 : setAt ix b.toNat (pos + 1) <;> simp [e1, e2, Sec.run]
  | n256 cs =>
    dsimp only
    rw [Sec.run_puts hn]
    simp only [storeAll, Field.store]
    cases e1 : setAt cs b.toNat (some r) <;> simp [e1, Sec.run]
  | dummy _ => rfl

theorem run_removeCode {h : Heap} {a : Addr} {n : Node} (hn : h[a]? = some n) (i : Nat) :
    (removeCode a i n).run h = (n.removeChild i).bind fun n' => some (h.set a n') := by
  have hlt := (List.getElem?_eq_some_iff.mp hn).1
  obtain ⟨v, num, pl, pr, lf, kids⟩ := n
  unfold removeCode Node.removeChild
  cases kids with
  | n4 ks cs =>
    dsimp only
    unfold shiftDown
    by_cases e1 : i < ks.length
    · rw [if_pos e1, if_pos e1, Sec.run_puts hn,
        storeAll_writes (put := fun l => ⟨v, num, pl, pr, lf, .n4 l cs⟩) (fun l j x hj => by simp [Field.store, setAt, hj]) _ _ _ (by simp; omega), Option.bind_some, shift_eq e1]
      by_cases e2 : i < cs.length
      · rw [if_pos e2, if_pos e2, Sec.run_puts (List.getElem?_set_self hlt),
          storeAll_writes (put := fun l => ⟨v, num, pl, pr, lf, .n4 (ks.take i ++ ks.drop (i + 1) ++ ks.drop (ks.length - 1)) l⟩) (fun l j x hj => by simp [Field.store, setAt, hj]) _ _ _ (by simp; omega),
          Option.bind_some, shift_eq e2, Sec.run_puts (List.getElem?_set_self (by simpa using hlt))]
        simp only [storeAll, Field.store, Option.bind_some, bind, Option.bind]
        cases e3 : setAt (List.take i cs ++ List.drop (i + 1) cs ++ List.drop (cs.length - 1) cs) (num - 1).toNat none <;> simp [e3, Sec.run]
      · rw [if_neg e2, if_neg e2]
        rfl
    · rw [if_neg e1, if_neg e1]
      rfl
  | n16 ks cs =>
    dsimp only
    unfold shiftDown
    by_cases e1 : i < ks.length
    · rw [if_pos e1, if_pos e1, Sec.run_puts hn,
        storeAll_writes (put := fun l => ⟨v, num, pl, pr, lf, .n16 l cs⟩) (fun l j x hj => by simp [Field.store, setAt, hj]) _ _ _ (by simp; omega), Option.bind_some, shift_eq e1]
      by_cases e2 : i < cs.length
      · rw [if_pos e2, if_pos e2, Sec.run_puts (List.getElem?_set_self hlt),
          storeAll_writes (put := fun l => ⟨v, num, pl, pr, lf, .n16 (ks.take i ++ ks.drop (i + 1) ++ ks.drop (ks.length - 1)) l⟩) (fun l j x hj => by simp [Field.store, setAt, hj]) _ _ _ (by simp; omega),
          Option.bind_some, shift_eq e2, Sec.run_puts (List.getElem?_set_self (by simpa using hlt))]
        simp only [storeAll, Field.store, Option.bind_some, bind, Option.bind]
        cases e3 : setAt (List.take i cs ++ List.drop (i + 1) cs ++ List.drop (cs.length - 1) cs) (num - 1).toNat none <;> simp [e3, Sec.run]
      · rw [if_neg e2, if_neg e2]
        rfl
    · rw [if_neg e1, if_neg e1]
      rfl
  | n48 ix cs w =>
    dsimp only
    cases e0 : ix[i]? with
    | none => simp [e0, Sec.run]
    | some v0 =>
      dsimp only
      have hi := (List.getElem?_eq_some_iff.mp e0).1
      rw [Sec.run_store hn]
      simp only [Field.store, setAt, hi, if_true, Option.map_some, Option.bind_some, bind, Option.bind]
      cases e1 : usub v0 1 with
      | none => simp [e1, Sec.run]
      | some pos =>
        dsimp only
        rw [Sec.run_puts (List.getElem?_set_self hlt)]
        simp only [storeAll, Field.store, Option.bind_some]
        cases e2 : setAt cs pos none with
        | none =>
          have e2' : ¬ pos < cs.length := by
            intro h'
            simp [setAt, h'] at e2
          simp [e2', Sec.run]
        | some cs' =>
          have e2' : pos < cs.length := by
            apply Classical.byContradiction
            intro h'
            simp [setAt, h'] at e2
          simp [setAt, e2'] at e2
          simp [e2', e2, Sec.run]
  | n256 cs =>
    dsimp only
    rw [Sec.run_puts hn]
    simp only [storeAll, Field.store]
    cases e1 : setAt cs i none <;> simp [e1, Sec.run]
  | dummy r =>
    have := List.getElem?_eq_some_iff.mp hn
    obtain ⟨_, e⟩ := this
    simp only [Sec.run, Option.bind_some]
    rw [← e, List.set_getElem_self]

theorem storeAll_pre {n : Node} (h8 : n.pre.length = 8) {t : Bytes} (ht : t.length = 8) : storeAll (writes .pre t 0) n = some { n with pre := t } := by
  have := storeAll_writes (mk := Field.pre) (put := fun l => { n with pre := l }) (fun l j x hj => by simp [Field.store, setAt, hj]) t n.pre 0 (by omega)
  have e : ({ n with pre := n.pre } : Node) = n := rfl
  rw [e] at this
  rw [this]
  simp only [List.take_zero, List.nil_append, Nat.zero_add]
  rw [List.drop_eq_nil_of_le (by omega), List.append_nil]

/-- Both fail, or both give memories that are the same but at `O`. -/
def Like (O : List Addr) (x y : Option Heap) : Prop :=
  (x = none ∧ y = none) ∨ ∃ h1 h2, x = some h1 ∧ y = some h2 ∧ h1.length = h2.length ∧ ∀ a, a ∉ O → h1[a]? = h2[a]?

theorem Like.refl (O : List Addr) (x : Option Heap) : Like O x x := by
  cases x with
  | none => exact .inl ⟨rfl, rfl⟩
  | some h => exact .inr ⟨h, h, rfl, rfl, rfl, fun _ _ => rfl⟩

theorem Like.of_eq {O : List Addr} {x y : Option Heap} (h : x = y) : Like O x y := h ▸ Like.refl O x

theorem storeAt_like {O : List Addr} {h1 h2 : Heap} {a : Addr} (hl : h1.length = h2.length) (ha : ∀ a, a ∉ O → h1[a]? = h2[a]?) (hO : a ∉ O) (x : Field) :
    Like O (storeAt a x h1) (storeAt a x h2) := by
  unfold storeAt
  rw [← ha a hO]
  cases e : h1[a]? with
  | none => exact .inl ⟨rfl, rfl⟩
  | some n =>
    show Like O ((x.store n).map _) ((x.store n).map _)
    cases x.store n with
    | none => exact .inl ⟨rfl, rfl⟩
    | some n' =>
      refine .inr ⟨_, _, rfl, rfl, by simp [hl], ?_⟩
      intro c hc
      rw [List.getElem?_set, List.getElem?_set, hl, ha c hc]

/-- The nodes a section reads and writes. -/
def Section.nodes : Section → List Addr
  | .prefixLeaf a _ => [a]
  | .insertChild a _ _ => [a]
  | .grow a _ _ loc => [a, loc.1]
  | .expand _ _ _ _ loc => [loc.1]
  | .split a _ _ _ _ _ loc => [a, loc.1]
  | .removeChild a _ => [a]
  | .shrink a _ loc => [a, loc.1]
  | .move loc _ => [loc.1]
  | .fresh loc => [loc.1]
  | .compress a c _ loc => [c, a, loc.1]

/-- The nodes of `compress` are three, none of them the dummy node; a node that is changed in more than one store is not the dummy node. -/
def Section.Apart : Section → Prop
  | .insertChild a _ _ => a ≠ 0
  | .removeChild a _ => a ≠ 0
  | .compress a c _ loc => a ≠ c ∧ loc.1 ≠ a ∧ loc.1 ≠ c ∧ a ≠ 0 ∧ c ≠ 0 ∧ loc.1 ≠ 0
  | _ => True

theorem run_split {h : Heap} {a : Addr} {n : Node} (hn : h[a]? = some n) (h8 : n.pre.length = 8) (key full value : Bytes) (depth p : Nat) (loc : Loc) :
    (splitCode a key full value depth p loc n).run h = insertSplitPrefix h a key full value depth p loc := by
  have hlt := (List.getElem?_eq_some_iff.mp hn).1
  unfold splitCode insertSplitPrefix splitRest
  rw [hn]
  simp only [Option.bind_eq_bind, Option.bind_some]
  cases e1 : placeLeaf newNode4 (depth + p) key (newLeaf key value) with
  | none => rfl
  | some new =>
    simp only [Option.bind_some]
    cases e2 : usub n.prefixLen (p + 1) with
    | none =>
      simp only [Option.bind_none]
      split
      next h' => simp at h'
      next => rfl
    | some newLen =>
      simp only [Option.bind_some]
      by_cases e3 : n.prefixLen ≤ maxPrefixLen
      · simp only [if_pos e3]
        cases e4 : n.pre[p]? with
        | none => rfl
        | some pos =>
          simp only [Option.bind_some, Option.pure_def, e3, true_or, if_true]
          rw [Sec.run_store hn]
          simp only [Field.store, Option.bind_some, Sec.run, List.getElem?_set_self hlt]
          cases e5 : ({ new with prefixLen := p, pre := Node.pad8 (n.pre.take (min maxPrefixLen p)) } : Node).insertChild pos (.node a) with
          | none => rfl
          | some new' =>
            simp only [Option.bind_some]
            rw [Sec.run_puts (List.getElem?_set_self hlt), storeAll_pre (by exact h8) (pad8_length _), Option.bind_some, List.set_set]
            rfl
      · simp only [e3, if_false, false_or]
        cases e4 : full[depth + p]? with
        | none => rfl
        | some pos =>
          simp only [Option.bind_some, Option.pure_def]
          rw [Sec.run_store hn]
          simp only [Field.store, Option.bind_some, Sec.run, List.getElem?_set_self hlt]
          by_cases e6 : depth + p + 1 + newLen ≤ full.length
          · simp only [if_pos e6, Option.bind_some]
            cases e5 : ({ new with prefixLen := p, pre := Node.pad8 (n.pre.take (min maxPrefixLen p)) } : Node).insertChild pos (.node a) with
            | none => rfl
            | some new' =>
              simp only [Option.bind_some]
              rw [Sec.run_puts (List.getElem?_set_self hlt), storeAll_pre (by exact h8) (pad8_length _), Option.bind_some, List.set_set]
              rfl
          · simp only [if_neg e6, Option.bind_none]
            rfl

theorem pad8_full {b : Bytes} (h : b.length = 8) : Node.pad8 b = b := by
  unfold Node.pad8
  rw [List.take_of_length_le (by omega), h]
  simp [zeroBytes]

/-- node.go:426-437: the prefix put together in the node that becomes obsolete -/
theorem storeAll_compress {n child : Node} (h8 : n.pre.length = 8) (hc8 : child.pre.length = 8) (b : UInt8) :
    ∃ q, storeAll (if n.prefixLen < maxPrefixLen then .pre n.prefixLen b :: writes .pre (child.pre.take (min child.prefixLen (maxPrefixLen - (n.prefixLen + 1)))) (n.prefixLen + 1) else []) n =
        some { n with pre := q } ∧
      Node.pad8 (q.take (min (if n.prefixLen < maxPrefixLen then n.prefixLen + 1 + min child.prefixLen (maxPrefixLen - (n.prefixLen + 1)) else n.prefixLen) maxPrefixLen)) = compressedPrefix n child b := by
  unfold compressedPrefix
  have e8 : maxPrefixLen = 8 := rfl
  by_cases h1 : n.prefixLen < maxPrefixLen
  · simp only [if_pos h1]
    generalize hs : min child.prefixLen (maxPrefixLen - (n.prefixLen + 1)) = sub
    have hsub : sub ≤ 8 - (n.prefixLen + 1) := by omega
    have hlen : (child.pre.take sub).length = sub := by rw [List.length_take]; omega
    have := storeAll_writes (mk := Field.pre) (put := fun l => { n with pre := l }) (fun l j x hj => by simp [Field.store, setAt, hj]) (child.pre.take sub) (n.pre.set n.prefixLen b) (n.prefixLen + 1)
      (by rw [hlen, List.length_set]; omega)
    refine ⟨(n.pre.set n.prefixLen b).take (n.prefixLen + 1) ++ child.pre.take sub ++ (n.pre.set n.prefixLen b).drop (n.prefixLen + 1 + (child.pre.take sub).length), ?_, ?_⟩
    · show ((setAt n.pre n.prefixLen b).map _).bind _ = _
      rw [setAt, if_pos (by omega)]
      exact this
    · have e1 : (n.pre.set n.prefixLen b).take (n.prefixLen + 1) = n.pre.take n.prefixLen ++ [b] := by
        have hl : (n.pre.take n.prefixLen).length = n.prefixLen := by rw [List.length_take]; omega
        rw [List.set_eq_take_append_cons_drop, if_pos (by omega), List.take_append, hl, List.take_of_length_le (by omega)]
        have : n.prefixLen + 1 - n.prefixLen = 0 + 1 := by omega
        rw [this, List.take_succ_cons, List.take_zero]
      have e2 : (n.pre.take n.prefixLen ++ [b]).length = n.prefixLen + 1 := by
        rw [List.length_append, List.length_take]
        simp
        omega
      have e3 : min (n.prefixLen + 1 + sub) maxPrefixLen = n.prefixLen + 1 + sub := by omega
      rw [e1, e2, e3, hs]
      congr 1
      rw [List.take_append_of_le_length (by rw [List.length_append, e2, hlen]), List.take_of_length_le (by rw [List.length_append, e2, hlen])]
  · simp only [if_neg h1]
    refine ⟨n.pre, rfl, ?_⟩
    have : min n.prefixLen maxPrefixLen = 8 := by omega
    rw [this, List.take_of_length_le (by omega), pad8_full h8]

/-- The stores of a section do what the section is to do. -/
theorem code_run (t : Section) (ht : t.Apart) {h : Heap} (h8 : ∀ x ∈ t.nodes, ∀ n, h[x]? = some n → n.pre.length = 8) : Like t.spoils (t.code.run h) (t.fn h) := by
  cases t with
  | prefixLeaf a l =>
    apply Like.of_eq
    show ((h[a]?.bind fun n => ((Field.leaf l).store n).map fun n' => h.set a n').bind Sec.done.run) = _
    cases l with
    | none =>
      show _ = clearPrefixLeaf h a
      unfold clearPrefixLeaf
      cases h[a]? <;> rfl
    | some l =>
      show _ = h[a]?.bind _
      cases h[a]? <;> rfl
  | insertChild a b r =>
    apply Like.of_eq
    show (h[a]?.bind fun n => (insertCode a b r n).run h) = insertChildAt h a b r
    unfold insertChildAt
    cases e : h[a]? with
    | none => rfl
    | some n => exact run_insertCode e b r
  | removeChild a i =>
    apply Like.of_eq
    show (h[a]?.bind fun n => (removeCode a i n).run h) = removeChildAt h a i
    unfold removeChildAt
    cases e : h[a]? with
    | none => rfl
    | some n => exact run_removeCode e i
  | grow a b r loc =>
    apply Like.of_eq
    show (h[a]?.bind fun n => (linkOr (n.growAndInsert b r) loc).run h) = growAt h a b r loc
    unfold growAt
    cases e : h[a]? with
    | none => rfl
    | some n => exact run_linkOr _ _ _
  | shrink a b loc =>
    apply Like.of_eq
    show (h[a]?.bind fun n => (linkOr (n.shrink b) loc).run h) = shrinkAt h a b loc
    unfold shrinkAt
    cases e : h[a]? with
    | none => rfl
    | some n => exact run_linkOr _ _ _
  | expand l key value depth loc =>
    apply Like.of_eq
    show (Section.expand l key value depth loc).code.run h = updateOrExpand h l key value depth loc
    unfold Section.code updateOrExpand
    dsimp only
    by_cases e : l.matchKey key = true
    · rw [if_pos e, if_pos e, storeLoc_eq]
      show (storeAt _ _ h).bind Sec.done.run = _
      cases storeAt loc.1 (.child loc.2 (some (.leaf (newLeaf key value)))) h <;> rfl
    · rw [if_neg e, if_neg e, run_linkOr]
      simp only [Option.bind_eq_bind, Option.bind_assoc]
  | split a key full value depth p loc =>
    apply Like.of_eq
    show (h[a]?.bind fun n => (splitCode a key full value depth p loc n).run h) = insertSplitPrefix h a key full value depth p loc
    cases e : h[a]? with
    | none => unfold insertSplitPrefix; rw [e]; rfl
    | some n => exact run_split e (h8 a (by simp [Section.nodes]) n e) _ _ _ _ _ _
  | move loc r =>
    apply Like.of_eq
    show (storeAt _ _ h).bind Sec.done.run = storeLoc h loc r
    rw [storeLoc_eq]
    cases storeAt loc.1 (.child loc.2 (some r)) h <;> rfl
  | fresh loc => exact Like.refl _ _
  | compress a c b loc =>
    obtain ⟨h1, h2, h3, -⟩ := ht
    show Like [a] (h[a]?.bind fun n => (h[c]?.bind fun child => (compressCode a c b loc n child).run h)) (compressAt h a c b loc)
    unfold compressAt
    cases ea : h[a]? with
    | none => exact .inl ⟨rfl, rfl⟩
    | some n =>
      cases ec : h[c]? with
      | none => exact .inl ⟨rfl, rfl⟩
      | some child =>
        simp only [Option.bind_eq_bind, Option.bind_some]
        have hla := (List.getElem?_eq_some_iff.mp ea).1
        have hlc := (List.getElem?_eq_some_iff.mp ec).1
        have hn8 := h8 a (by simp [Section.nodes]) n ea
        have hc8 := h8 c (by simp [Section.nodes]) child ec
        obtain ⟨q, e1, e2⟩ := storeAll_compress hn8 hc8 b
        unfold compressCode
        dsimp only
        rw [Sec.run_puts ea, e1]
        simp only [Option.bind_some, Sec.run]
        rw [List.getElem?_set_self hla, Option.bind_some, e2]
        have ec' : (h.set a { n with pre := q })[c]? = some child := by rw [List.getElem?_set_ne h1, ec]
        have hcp : (compressedPrefix n child b).length = 8 := by rw [← e2]; exact pad8_length _
        rw [Sec.run_puts ec', storeAll_pre hc8 hcp, Option.bind_some, Sec.run_store (List.getElem?_set_self (by simpa using hlc))]
        simp only [Field.store, Option.bind_some, List.set_set, Sec.run]
        rw [storeLoc_eq, storeLoc_eq]
        apply storeAt_like (by simp)
        · intro x hx
          have hx : x ≠ a := by simpa using hx
          simp only [List.getElem?_set, List.length_set, if_neg (Ne.symm hx)]
        · simpa using h2

end Art
