import Verif.Art.Sound

/-!
# What nodes keep when they have left the tree

Critical sections change the container of one node only, and this node stays in the tree. So a node that has left the tree
still has its children. `Put` never makes a prefix longer.
-/

set_option linter.unusedSimpArgs false

namespace Art

open Surf Spec Props

/-- All prefix arrays have 8 bytes (node.go:36: this is their type). -/
def All8 (h : Heap) : Prop := ∀ (x : Addr) n, h[x]? = some n → n.pre.length = 8

/-- The heap `h` becomes `h'`; the container changes in the node `d` only; prefixes grow only if `up`. -/
structure Mild (up : Prop) (d : Addr) (h h' : Heap) : Prop where
  len : h.length ≤ h'.length
  old : ∀ (x : Addr) n, h[x]? = some n → ∃ n', h'[x]? = some n' ∧ n'.version = n.version ∧
    (up ∨ n'.prefixLen ≤ n.prefixLen) ∧ (x ≠ d → n'.kids = n.kids ∧ n'.numChildren = n.numChildren)
  new : ∀ (x : Addr) n', h.length ≤ x → h'[x]? = some n' → n'.version = 0
  pre8 : All8 h → All8 h'

theorem Mild.refl (up : Prop) (d : Addr) (h : Heap) : Mild up d h h := by
  refine ⟨Nat.le_refl _, fun x n hn => ⟨n, hn, rfl, Or.inr (Nat.le_refl _), fun _ => ⟨rfl, rfl⟩⟩, ?_, id⟩
  intro x n hx hn
  have := (List.getElem?_eq_some_iff.mp hn).1
  omega

theorem Mild.trans {up : Prop} {d : Addr} {h h' h'' : Heap} (h1 : Mild up d h h') (h2 : Mild up d h' h'') : Mild up d h h'' := by
  refine ⟨Nat.le_trans h1.len h2.len, ?_, ?_, fun e => h2.pre8 (h1.pre8 e)⟩
  · intro x n hn
    obtain ⟨n', a1, a2, a4, a5⟩ := h1.old x n hn
    obtain ⟨n'', b1, b2, b4, b5⟩ := h2.old x n' a1
    refine ⟨n'', b1, by rw [b2, a2], ?_, fun e => ⟨by rw [(b5 e).1, (a5 e).1], by rw [(b5 e).2, (a5 e).2]⟩⟩
    rcases a4 with a4 | a4
    · exact Or.inl a4
    · exact b4.imp id (fun b4 => by omega)
  · intro x n hx hn
    by_cases hl : x < h'.length
    · have hg := List.getElem?_eq_getElem hl
      generalize h'[x] = n' at hg
      obtain ⟨n'', b1, b2, -⟩ := h2.old x n' hg
      rw [hn] at b1
      cases b1
      rw [b2]
      exact h1.new x n' hx hg
    · exact h2.new x n (Nat.le_of_not_lt hl) hn

theorem Mild.set {up : Prop} {d a : Addr} {h : Heap} {n n' : Node} (hn : h[a]? = some n) (h1 : n'.version = n.version)
    (h2 : All8 h → n'.pre.length = 8) (h3 : up ∨ n'.prefixLen ≤ n.prefixLen) (h4 : a ≠ d → n'.kids = n.kids ∧ n'.numChildren = n.numChildren) :
    Mild up d h (h.set a n') := by
  have hlt := (List.getElem?_eq_some_iff.mp hn).1
  refine ⟨by simp, ?_, ?_, ?_⟩
  · intro x k hk
    by_cases e : x = a
    · subst e
      rw [hn] at hk
      cases hk
      exact ⟨n', by rw [List.getElem?_set_self hlt], h1, h3, h4⟩
    · exact ⟨k, by rw [List.getElem?_set_ne (Ne.symm e)]; exact hk, rfl, Or.inr (Nat.le_refl _), fun _ => ⟨rfl, rfl⟩⟩
  · intro x k hx hk
    have := (List.getElem?_eq_some_iff.mp hk).1
    simp at this
    omega
  · intro h8 x k hk
    by_cases e : x = a
    · subst e
      rw [List.getElem?_set_self hlt] at hk
      cases hk
      exact h2 h8
    · rw [List.getElem?_set_ne (Ne.symm e)] at hk
      exact h8 x k hk

theorem Mild.append {up : Prop} {d : Addr} {h : Heap} {n : Node} (hv : n.version = 0) (hp : All8 h → n.pre.length = 8) : Mild up d h (h ++ [n]) := by
  have hlast : ∀ (x : Addr) k, h.length ≤ x → (h ++ [n])[x]? = some k → k = n := by
    intro x k hx hk
    rw [List.getElem?_append_right hx] at hk
    exact (List.mem_singleton.mp (List.mem_of_getElem? hk))
  refine ⟨by simp, ?_, ?_, ?_⟩
  · intro x k hk
    exact ⟨k, by rw [List.getElem?_append_left (List.getElem?_eq_some_iff.mp hk).1]; exact hk, rfl, Or.inr (Nat.le_refl _), fun _ => ⟨rfl, rfl⟩⟩
  · intro x k hx hk
    rw [hlast x k hx hk]
    exact hv
  · intro h8 x k hk
    by_cases hx : x < h.length
    · rw [List.getElem?_append_left hx] at hk
      exact h8 x k hk
    · rw [hlast x k (Nat.le_of_not_lt hx) hk]
      exact hp h8

/-! ## The functions that change nodes -/

/-- Version, prefix and prefix length are the same. -/
def SamePre (n n' : Node) : Prop := n'.version = n.version ∧ n'.pre = n.pre ∧ n'.prefixLen = n.prefixLen

theorem insertChild_same {n n' : Node} {b : UInt8} {r : Ref} (h : n.insertChild b r = some n') : SamePre n n' := by
  unfold Node.insertChild at h
  split at h <;> simp only [Option.bind_eq_bind, Option.bind_eq_some_iff, Option.pure_def, Option.some.injEq, Prod.exists, reduceCtorEq] at h
  · obtain ⟨_, _, _, _, rfl⟩ := h; exact ⟨rfl, rfl, rfl⟩
  · obtain ⟨_, _, _, _, rfl⟩ := h; exact ⟨rfl, rfl, rfl⟩
  · obtain ⟨_, _, _, _, _, _, _, rfl⟩ := h; exact ⟨rfl, rfl, rfl⟩
  · obtain ⟨_, _, rfl⟩ := h; exact ⟨rfl, rfl, rfl⟩

theorem removeChild_same {n n' : Node} {i : Nat} (h : n.removeChild i = some n') : SamePre n n' := by
  unfold Node.removeChild at h
  split at h <;> simp only [Option.bind_eq_bind, Option.bind_eq_some_iff, Option.pure_def, Option.some.injEq, Prod.exists] at h
  · obtain ⟨_, _, _, _, _, _, rfl⟩ := h; exact ⟨rfl, rfl, rfl⟩
  · obtain ⟨_, _, _, _, _, _, rfl⟩ := h; exact ⟨rfl, rfl, rfl⟩
  · obtain ⟨_, _, _, _, _, _, _, _, rfl⟩ := h; exact ⟨rfl, rfl, rfl⟩
  · obtain ⟨_, _, rfl⟩ := h; exact ⟨rfl, rfl, rfl⟩
  · subst h; exact ⟨rfl, rfl, rfl⟩

theorem setSlot_same {n n' : Node} {i : Nat} {r : Ref} (h : n.setSlot i r = some n') : SamePre n n' := by
  unfold Node.setSlot at h
  split at h <;> simp only [Option.map_eq_some_iff, Option.some.injEq] at h
  · obtain ⟨_, _, rfl⟩ := h; exact ⟨rfl, rfl, rfl⟩
  · obtain ⟨_, _, rfl⟩ := h; exact ⟨rfl, rfl, rfl⟩
  · obtain ⟨_, _, rfl⟩ := h; exact ⟨rfl, rfl, rfl⟩
  · obtain ⟨_, _, rfl⟩ := h; exact ⟨rfl, rfl, rfl⟩
  · subst h; exact ⟨rfl, rfl, rfl⟩

theorem growAndInsert_ver {n n' : Node} {b : UInt8} {r : Ref} (h : n.growAndInsert b r = some n') : n'.version = 0 ∧ n'.pre = n.pre := by
  unfold Node.growAndInsert at h
  split at h
  · exact ⟨(insertChild_same h).1, (insertChild_same h).2.1⟩
  · simp only [Option.bind_eq_bind, Option.bind_eq_some_iff] at h
    obtain ⟨_, _, h⟩ := h
    exact ⟨(insertChild_same h).1, (insertChild_same h).2.1⟩
  · simp only [Option.bind_eq_bind, Option.bind_eq_some_iff] at h
    obtain ⟨_, _, h⟩ := h
    exact ⟨(insertChild_same h).1, (insertChild_same h).2.1⟩
  · simp at h

theorem shrink_ver {n n' : Node} {b : UInt8} (h : n.shrink b = some n') : n'.version = 0 ∧ n'.pre = n.pre := by
  unfold Node.shrink at h
  split at h <;> simp only [Option.bind_eq_bind, Option.bind_eq_some_iff, Option.pure_def, Option.some.injEq, Prod.exists, reduceCtorEq] at h
  · obtain ⟨_, _, _, rfl⟩ := h; exact ⟨rfl, rfl⟩
  · obtain ⟨_, _, _, _, _, rfl⟩ := h; exact ⟨rfl, rfl⟩
  · obtain ⟨_, _, _, _, rfl⟩ := h; exact ⟨rfl, rfl⟩

theorem placeLeaf_same {n n' : Node} {pos : Nat} {key : Bytes} {l : Leaf} (h : placeLeaf n pos key l = some n') : SamePre n n' := by
  unfold placeLeaf at h
  split at h
  · cases h; exact ⟨rfl, rfl, rfl⟩
  · simp only [Option.bind_eq_bind, Option.bind_eq_some_iff] at h
    obtain ⟨_, _, h⟩ := h
    exact insertChild_same h

theorem SamePre.mild {up : Prop} {a : Addr} {h : Heap} {n n' : Node} (hs : SamePre n n') (hn : h[a]? = some n) : Mild up a h (h.set a n') :=
  Mild.set hn hs.1 (fun h8 => by rw [hs.2.1]; exact h8 a n hn) (Or.inr (by rw [hs.2.2])) (fun e => absurd rfl e)

/-! ## Critical sections -/

/-- What all critical sections have in common; prefixes grow only if `up`. -/
def Tame (up : Prop) (f : Heap → Option Heap) : Prop := ∀ h h', f h = some h' → ∃ d, Mild up d h h'

theorem storeLoc_mild {up : Prop} {h h' : Heap} {loc : Loc} {r : Ref} (e : storeLoc h loc r = some h') : Mild up loc.1 h h' := by
  simp only [storeLoc, Option.bind_eq_bind, Option.bind_eq_some_iff, Option.pure_def, Option.some.injEq] at e
  obtain ⟨n, h1, n', h2, rfl⟩ := e
  exact (setSlot_same h2).mild h1

theorem allocAt_mild {up : Prop} {h h' : Heap} {loc : Loc} {n : Node} (hv : n.version = 0) (hp : All8 h → n.pre.length = 8)
    (e : allocAt h loc n = some h') : Mild up loc.1 h h' :=
  (Mild.append hv hp).trans (storeLoc_mild e)

section
variable {up : Prop}

theorem tame_storeLoc (loc : Loc) (r : Ref) : Tame up (storeLoc · loc r) := fun _ _ e => ⟨_, storeLoc_mild e⟩

theorem tame_allocAt (loc : Loc) : Tame up (allocAt · loc newNode4) := fun _ _ e => ⟨_, allocAt_mild rfl (fun _ => rfl) e⟩

theorem tame_updatePrefixLeaf (a : Addr) (key value : Bytes) : Tame up (updatePrefixLeaf · a key value) := by
  intro h h' e
  simp only [updatePrefixLeaf, Option.bind_eq_bind, Option.bind_eq_some_iff, Option.pure_def, Option.some.injEq] at e
  obtain ⟨n, h1, rfl⟩ := e
  exact ⟨a, SamePre.mild (n := n) ⟨rfl, rfl, rfl⟩ h1⟩

theorem tame_clearPrefixLeaf (a : Addr) : Tame up (clearPrefixLeaf · a) := by
  intro h h' e
  simp only [clearPrefixLeaf, Option.bind_eq_bind, Option.bind_eq_some_iff, Option.pure_def, Option.some.injEq] at e
  obtain ⟨n, h1, rfl⟩ := e
  exact ⟨a, SamePre.mild (n := n) ⟨rfl, rfl, rfl⟩ h1⟩

theorem tame_insertChildAt (a : Addr) (b : UInt8) (r : Ref) : Tame up (insertChildAt · a b r) := by
  intro h h' e
  simp only [insertChildAt, Option.bind_eq_bind, Option.bind_eq_some_iff, Option.pure_def, Option.some.injEq] at e
  obtain ⟨n, h1, n', h2, rfl⟩ := e
  exact ⟨a, (insertChild_same h2).mild h1⟩

theorem tame_removeChildAt (a : Addr) (i : Nat) : Tame up (removeChildAt · a i) := by
  intro h h' e
  simp only [removeChildAt, Option.bind_eq_bind, Option.bind_eq_some_iff, Option.pure_def, Option.some.injEq] at e
  obtain ⟨n, h1, n', h2, rfl⟩ := e
  exact ⟨a, (removeChild_same h2).mild h1⟩

theorem tame_growAt (a : Addr) (b : UInt8) (r : Ref) (loc : Loc) : Tame up (growAt · a b r loc) := by
  intro h h' e
  simp only [growAt, Option.bind_eq_bind, Option.bind_eq_some_iff] at e
  obtain ⟨n, h1, n', h2, e⟩ := e
  exact ⟨_, allocAt_mild (growAndInsert_ver h2).1 (fun h8 => by rw [(growAndInsert_ver h2).2]; exact h8 a n h1) e⟩

theorem tame_shrinkAt (a : Addr) (b : UInt8) (loc : Loc) : Tame up (shrinkAt · a b loc) := by
  intro h h' e
  simp only [shrinkAt, Option.bind_eq_bind, Option.bind_eq_some_iff] at e
  obtain ⟨n, h1, n', h2, e⟩ := e
  exact ⟨_, allocAt_mild (shrink_ver h2).1 (fun h8 => by rw [(shrink_ver h2).2]; exact h8 a n h1) e⟩

theorem tame_updateOrExpand (l : Leaf) (key value : Bytes) (depth : Nat) (loc : Loc) : Tame up (updateOrExpand · l key value depth loc) := by
  intro h h' e
  simp only [updateOrExpand] at e
  split at e
  · exact ⟨_, storeLoc_mild e⟩
  · simp only [Option.bind_eq_bind, Option.bind_eq_some_iff] at e
    obtain ⟨n, h1, n', h2, e⟩ := e
    exact ⟨_, allocAt_mild (by rw [(placeLeaf_same h2).1, (placeLeaf_same h1).1]; rfl)
      (fun _ => by rw [(placeLeaf_same h2).2.1, (placeLeaf_same h1).2.1]; exact pad8_length _) e⟩

theorem tame_insertSplitPrefix (a : Addr) (key full value : Bytes) (depth p : Nat) (loc : Loc) :
    Tame up (insertSplitPrefix · a key full value depth p loc) := by
  intro h h' e
  simp only [insertSplitPrefix, Option.bind_eq_bind, Option.bind_eq_some_iff, Prod.exists] at e
  obtain ⟨n, h1, n1, h2, b, newLen, tmp, h3, n2, h4, e⟩ := e
  have hs : newLen ≤ n.prefixLen ∧ tmp.length = 8 := by
    simp only [splitRest, Option.bind_eq_bind, Option.bind_eq_some_iff] at h3
    obtain ⟨x, k1, k2⟩ := h3
    have hx : x ≤ n.prefixLen := by
      unfold usub at k1
      split at k1 <;> simp at k1
      omega
    split at k2
    · simp only [Option.bind_eq_some_iff, Option.pure_def, Option.some.injEq, Prod.mk.injEq] at k2
      obtain ⟨_, _, -, rfl, rfl⟩ := k2
      exact ⟨hx, pad8_length _⟩
    · simp only [Option.bind_eq_some_iff] at k2
      obtain ⟨_, _, k2⟩ := k2
      split at k2
      · simp only [Option.pure_def, Option.some.injEq, Prod.mk.injEq] at k2
        obtain ⟨-, rfl, rfl⟩ := k2
        exact ⟨hx, pad8_length _⟩
      · simp at k2
  refine ⟨_, Mild.trans (Mild.set (n' := { n with prefixLen := newLen, pre := tmp }) h1 rfl (fun _ => hs.2) (Or.inr hs.1) (fun _ => ⟨rfl, rfl⟩))
    (allocAt_mild ?_ (fun _ => ?_) e)⟩
  · rw [(insertChild_same h4).1]
    exact (placeLeaf_same h2).1
  · rw [(insertChild_same h4).2.1]
    exact pad8_length _

theorem tame_compressAt (hu : up) (a c : Addr) (b : UInt8) (loc : Loc) : Tame up (compressAt · a c b loc) := by
  intro h h' e
  simp only [compressAt, Option.bind_eq_bind, Option.bind_eq_some_iff] at e
  obtain ⟨n, h1, nc, h2, e⟩ := e
  refine ⟨_, Mild.trans (Mild.set (n' := { nc with pre := compressedPrefix n nc b, prefixLen := nc.prefixLen + n.prefixLen + 1 }) h2 rfl (fun h8 => ?_)
    (Or.inl hu) (fun _ => ⟨rfl, rfl⟩)) (storeLoc_mild e)⟩
  show (compressedPrefix n nc b).length = 8
  unfold compressedPrefix
  split
  · exact pad8_length _
  · exact h8 a n h1

end

/-- All critical sections of the program satisfy `P`. -/
def Writes (P : (Heap → Option Heap) → Prop) {α : Type} : Prog α → Prop
  | .ret _ => True
  | .panic => True
  | .diverge => True
  | .wait _ k => ∀ x, Writes P (k x)
  | .load _ k => ∀ x, Writes P (k x)
  | .cas _ _ k => ∀ x, Writes P (k x)
  | .lock _ k => ∀ x, Writes P (k x)
  | .unlock _ k => Writes P k
  | .unlockObsolete _ k => Writes P k
  | .read _ _ k => ∀ x, Writes P (k x)
  | .readRoot k => ∀ x, Writes P (k x)
  | .choose k => ∀ x, Writes P (k x)
  | .write f k => P f ∧ Writes P k

section
variable {P : (Heap → Option Heap) → Prop} {α β : Type}

theorem Writes.bind {p : Prog α} {f : α → Prog β} (h : Writes P p) (hf : ∀ a, Writes P (f a)) : Writes P (p.bind f) := by
  induction p with
  | ret a => exact hf a
  | panic => trivial
  | diverge => trivial
  | wait a k ih => exact fun x => ih x (h x)
  | load a k ih => exact fun x => ih x (h x)
  | cas a v k ih => exact fun x => ih x (h x)
  | lock a k ih => exact fun x => ih x (h x)
  | unlock a k ih => exact ih h
  | unlockObsolete a k ih => exact ih h
  | read a v k ih => exact fun x => ih x (h x)
  | readRoot k ih => exact fun x => ih x (h x)
  | choose k ih => exact fun x => ih x (h x)
  | write g k ih => exact ⟨h.1, ih h.2⟩

theorem writes_start {k : Addr → Nat → Prog α} (h : ∀ a v, Writes P (k a v)) : Writes P (start k) := by
  intro b
  cases b
  · intro v r
    dsimp only
    split
    · exact h _ _
    · trivial
  · intro r v
    dsimp only
    split
    · exact h _ _
    · trivial

end

/-! ## All critical sections of the three operations -/

section
variable {P : (Heap → Option Heap) → Prop}

theorem writes_search (key : Bytes) : ∀ (fuel depth : Nat) (parent : Addr) (pv : Nat) (curr : Addr), Writes P (search key fuel depth parent pv curr) := by
  intro fuel
  induction fuel with
  | zero => intro _ _ _ _; trivial
  | succ fuel ih =>
    intro depth parent pv curr v
    dsimp only
    split
    · trivial
    intro w
    dsimp only
    split
    · trivial
    intro n
    dsimp only
    split
    · intro w; trivial
    intro n' w
    dsimp only
    split
    · trivial
    split
    · trivial
    · trivial
    · exact ih _ _ _ _

theorem writes_get (key : Bytes) : ∀ fuel, Writes P (get key fuel) := by
  intro fuel
  induction fuel with
  | zero => trivial
  | succ fuel ih =>
    refine (writes_start fun a v => writes_search key fuel _ _ _ _).bind ?_
    rintro (_ | x)
    · exact ih
    · trivial

theorem writes_fullKey : ∀ (fuel : Nat) (curr : Addr) (v : Nat), Writes P (fullKey fuel curr v) := by
  intro fuel
  induction fuel with
  | zero => intro _ _; trivial
  | succ fuel ih =>
    intro curr v n
    dsimp only
    split
    · intro w; trivial
    intro n'
    dsimp only
    split
    · trivial
    intro w
    dsimp only
    split
    · trivial
    split
    · trivial
    · intro w; trivial
    · intro v
      dsimp only
      split
      · trivial
      · exact ih _ _

theorem writes_mismatchLoop (key : Bytes) (depth : Nat) (curr : Addr) (v : Nat) (parent : Addr) (pv : Nat) : ∀ (fuel : Nat) (got : Option Bytes),
    Writes P (mismatchLoop key depth curr v parent pv fuel got) := by
  intro fuel
  induction fuel with
  | zero => intro _; trivial
  | succ fuel ih =>
    intro got w
    dsimp only
    split
    · trivial
    intro w
    dsimp only
    split
    · trivial
    split
    · intro n
      dsimp only
      split <;> trivial
    · exact (writes_fullKey _ _ _).bind fun got => ih got

theorem writes_prefixMismatch (fuel : Nat) (key : Bytes) (depth : Nat) (curr : Addr) (v : Nat) (parent : Addr) (pv : Nat) :
    Writes P (prefixMismatch fuel key depth curr v parent pv) := by
  intro n
  dsimp only
  split
  · intro n'
    dsimp only
    split <;> trivial
  · exact writes_mismatchLoop _ _ _ _ _ _ _ _

end

section
variable {up : Prop}

theorem writes_insertHere (key value : Bytes) (b : UInt8) (parent : Addr) (pv : Nat) (curr : Addr) (v : Nat) (loc : Loc) :
    Writes (Tame up) (insertHere key value b parent pv curr v loc) := by
  intro n
  dsimp only
  split
  · trivial
  · intro ok
    dsimp only
    split
    · trivial
    intro ok
    dsimp only
    split
    · trivial
    exact ⟨tame_growAt _ _ _ _, trivial⟩
  · intro ok
    dsimp only
    split
    · trivial
    intro w
    dsimp only
    split
    · trivial
    exact ⟨tame_insertChildAt _ _ _, trivial⟩

theorem writes_insert (key value : Bytes) : ∀ (fuel depth : Nat) (parent : Addr) (pv : Nat) (curr : Addr) (loc : Loc),
    Writes (Tame up) (insert key value fuel depth parent pv curr loc) := by
  intro fuel
  induction fuel with
  | zero => intro _ _ _ _ _; trivial
  | succ fuel ih =>
    intro depth parent pv curr loc v
    dsimp only
    split
    · trivial
    refine (writes_prefixMismatch _ _ _ _ _ _ _).bind ?_
    rintro (_ | ⟨p, full⟩)
    · trivial
    intro n
    dsimp only
    split
    · intro ok
      dsimp only
      split
      · trivial
      intro ok
      dsimp only
      split
      · trivial
      exact ⟨tame_insertSplitPrefix _ _ _ _ _ _ _, trivial⟩
    intro n
    dsimp only
    split
    · intro ok
      dsimp only
      split
      · trivial
      intro w
      dsimp only
      split
      · trivial
      exact ⟨tame_updatePrefixLeaf _ _ _, trivial⟩
    split
    · trivial
    intro n' w
    dsimp only
    split
    · trivial
    split
    · exact writes_insertHere _ _ _ _ _ _ _ _
    intro w
    dsimp only
    split
    · trivial
    split
    · intro ok
      dsimp only
      split
      · trivial
      exact ⟨tame_updateOrExpand _ _ _ _ _, trivial⟩
    · exact ih _ _ _ _ _

theorem writes_put (key value : Bytes) : ∀ fuel, Writes (Tame up) (put key value fuel) := by
  intro fuel
  induction fuel with
  | zero => trivial
  | succ fuel ih =>
    refine (writes_start fun a v => writes_insert key value fuel _ _ _ _ _).bind ?_
    rintro (_ | _)
    · exact ih
    · trivial

variable (hu : up)
include hu

theorem writes_compressChild (idx : Nat) (parent curr : Addr) (v : Nat) (loc : Loc) : Writes (Tame up) (compressChild idx parent curr v loc) := by
  intro n
  dsimp only
  split
  · split
    · exact ⟨tame_storeLoc _ _, trivial⟩
    · intro ok
      dsimp only
      split
      · trivial
      exact ⟨tame_compressAt hu _ _ _ _, trivial⟩
    · trivial
  · trivial

theorem writes_removeChildAndShrink (b : UInt8) (parent curr : Addr) (v : Nat) (loc : Loc) :
    Writes (Tame up) (removeChildAndShrink b parent curr v loc) := by
  intro n
  dsimp only
  split
  · split
    · exact ⟨tame_storeLoc _ _, trivial⟩
    · split
      · exact ⟨tame_allocAt _, trivial⟩
      split
      · exact writes_compressChild hu _ _ _ _ _
      · exact writes_compressChild hu _ _ _ _ _
  · exact ⟨tame_shrinkAt _ _ _, trivial⟩

theorem writes_removeHere (key : Bytes) (parent : Addr) (pv : Nat) (curr : Addr) (v : Nat) (loc : Loc) :
    Writes (Tame up) (removeHere key parent pv curr v loc) := by
  intro n w
  dsimp only
  split
  · trivial
  split
  · intro w; trivial
  intro n
  dsimp only
  split
  · intro ok
    dsimp only
    split
    · trivial
    intro ok
    dsimp only
    split
    · trivial
    exact writes_compressChild hu _ _ _ _ _
  · intro ok
    dsimp only
    split
    · trivial
    exact ⟨tame_clearPrefixLeaf _, trivial⟩

theorem writes_removeLeaf (key : Bytes) (b : UInt8) (l : Leaf) (pos : Nat) (parent : Addr) (pv : Nat) (curr : Addr) (v : Nat) (loc : Loc) :
    Writes (Tame up) (removeLeaf key b l pos parent pv curr v loc) := by
  unfold removeLeaf
  split
  · intro w; trivial
  intro n
  dsimp only
  split
  · trivial
  · intro ok
    dsimp only
    split
    · trivial
    intro ok
    dsimp only
    split
    · trivial
    exact writes_removeChildAndShrink hu _ _ _ _ _
  · intro ok
    dsimp only
    split
    · trivial
    exact ⟨tame_removeChildAt _ _, trivial⟩

theorem writes_remove (key : Bytes) : ∀ (fuel depth : Nat) (parent : Addr) (pv : Nat) (curr : Addr) (loc : Loc),
    Writes (Tame up) (remove key fuel depth parent pv curr loc) := by
  intro fuel
  induction fuel with
  | zero => intro _ _ _ _ _; trivial
  | succ fuel ih =>
    intro depth parent pv curr loc v
    dsimp only
    split
    · trivial
    intro w
    dsimp only
    split
    · trivial
    intro n
    dsimp only
    split
    · intro w; trivial
    split
    · exact writes_removeHere hu _ _ _ _ _ _
    split
    · intro w; trivial
    intro n' w
    dsimp only
    split
    · trivial
    split
    · trivial
    · exact writes_removeLeaf hu _ _ _ _ _ _ _ _ _
    · exact ih _ _ _ _ _

theorem writes_delete (key : Bytes) : ∀ fuel, Writes (Tame up) (delete key fuel) := by
  intro fuel
  induction fuel with
  | zero => trivial
  | succ fuel ih =>
    refine (writes_start fun a v => writes_remove hu key fuel _ _ _ _ _).bind ?_
    rintro (_ | _)
    · exact ih
    · trivial

end

/-- The call is a `Delete`. -/
def _root_.Art.Props.Call.IsDelete : Call → Prop
  | .delete _ => True
  | _ => False

theorem writes_call (c : Call) (fuel : Nat) : Writes (Tame c.IsDelete) (c.prog fuel) := by
  cases c with
  | get k => exact writes_get k fuel
  | put k v => exact (writes_put k v fuel).bind fun _ => trivial
  | delete k => exact (writes_delete trivial k fuel).bind fun _ => trivial

/-! ## In a run -/

theorem Step.writes {i : Nat} {σ σ' : Conf} (h : Step i σ σ') (hw : ∀ j c p, σ.procs j = .running c p → Writes (Tame c.IsDelete) p) :
    ∀ j c p, σ'.procs j = .running c p → Writes (Tame c.IsDelete) p := by
  intro j c p hp
  by_cases e : j = i
  swap
  · rw [h.other e] at hp
    exact hw j c p hp
  subst e
  cases h <;> simp only [to_procs, own_procs, if_true, Proc.running.injEq, reduceCtorEq] at hp
  case call => obtain ⟨rfl, rfl⟩ := hp; exact writes_call _ _
  case wait h _ _ => obtain ⟨rfl, rfl⟩ := hp; exact hw _ _ _ h _
  case load h _ => obtain ⟨rfl, rfl⟩ := hp; exact hw _ _ _ h _
  case cas h _ _ => obtain ⟨rfl, rfl⟩ := hp; exact hw _ _ _ h _
  case casFail h _ _ => obtain ⟨rfl, rfl⟩ := hp; exact hw _ _ _ h _
  case lockFail h _ _ _ => obtain ⟨rfl, rfl⟩ := hp; exact hw _ _ _ h _
  case lock h _ _ _ => obtain ⟨rfl, rfl⟩ := hp; exact hw _ _ _ h _
  case unlock h _ => obtain ⟨rfl, rfl⟩ := hp; have := hw _ _ _ h; exact this
  case unlockObsolete h _ => obtain ⟨rfl, rfl⟩ := hp; have := hw _ _ _ h; exact this
  case read h _ _ _ => obtain ⟨rfl, rfl⟩ := hp; exact hw _ _ _ h _
  case readRoot h _ => obtain ⟨rfl, rfl⟩ := hp; exact hw _ _ _ h _
  case choose h => obtain ⟨rfl, rfl⟩ := hp; exact hw _ _ _ h _
  case write h _ => obtain ⟨rfl, rfl⟩ := hp; exact (hw _ _ _ h).2

theorem Run.writes {T : Nat} {σ : Nat → Conf} {who : Nat → Nat} (h : Run T σ who) : ∀ t, t ≤ T → ∀ j c p, (σ t).procs j = .running c p →
    Writes (Tame c.IsDelete) p := by
  intro t
  induction t with
  | zero =>
    intro _ j c p hp
    rw [h.init] at hp
    simp [Conf.init] at hp
  | succ t ih => intro ht; exact (h.step t (by omega)).writes (ih (by omega))

/-- Nothing but the version of `n'` differs from `n`. -/
theorem getElem?_setVer_same {h : Heap} {a : Addr} {v : Nat} {x : Addr} {n : Node} (hn : h[x]? = some n) :
    ∃ n', (setVer h a v)[x]? = some n' ∧ n' = { n with version := n'.version } := by
  rw [getElem?_setVer]
  by_cases e : x = a
  · rw [if_pos e, hn]
    exact ⟨_, rfl, rfl⟩
  · rw [if_neg e]
    exact ⟨n, hn, rfl⟩

/-- What a step does to the heap: it changes a version, or it is a critical section. -/
theorem Run.mild {T : Nat} {σ : Nat → Conf} {who : Nat → Nat} (h : Run T σ who) {t : Nat} (ht : t < T) :
    ((σ (t + 1)).heap.length = (σ t).heap.length ∧ ∀ (x : Addr) n, (σ t).heap[x]? = some n →
      ∃ n', (σ (t + 1)).heap[x]? = some n' ∧ n' = { n with version := n'.version }) ∨
    ∃ c p d, (σ t).procs (who t) = .running c p ∧ Mild c.IsDelete d (σ t).heap (σ (t + 1)).heap := by
  have hs := h.step t ht
  have hw := h.writes t (by omega) (who t)
  generalize σ (t + 1) = σ' at hs
  cases hs with
  | write h1 h2 =>
    obtain ⟨d, hd⟩ := (hw _ _ h1).1 _ _ h2
    exact Or.inr ⟨_, _, d, h1, hd⟩
  | cas => exact Or.inl ⟨length_setVer _ _ _, fun x n hn => getElem?_setVer_same hn⟩
  | lock => exact Or.inl ⟨length_setVer _ _ _, fun x n hn => getElem?_setVer_same hn⟩
  | unlock => exact Or.inl ⟨length_setVer _ _ _, fun x n hn => getElem?_setVer_same hn⟩
  | unlockObsolete => exact Or.inl ⟨length_setVer _ _ _, fun x n hn => getElem?_setVer_same hn⟩
  | _ => exact Or.inl ⟨rfl, fun x n hn => ⟨n, hn, rfl⟩⟩

/-! ## Firm nodes -/

/-- `firstChild` finds a child. -/
def Node.First (n : Node) : Prop := ∃ x, n.firstChild = some (some x)

/-- Every node but the dummy is a container; every prefix array has 8 bytes; every node that is not, and was not, the root has a first child. -/
structure Firm (s : St) : Prop where
  pre8 : All8 s.heap
  node : ∀ (a : Addr) n, a ≠ 0 → s.heap[a]? = some n → n.cap ≠ 0 ∧ (s.E a ≠ [] → n.First)

theorem Node.WF.cap_ne {n : Node} (h : n.WF) : n.cap ≠ 0 := by
  unfold Node.WF at h
  unfold Node.cap
  split <;> simp_all

theorem Inv.firm_live {s : St} (hI : Inv s) {a : Addr} {n : Node} (hn : s.heap[a]? = some n) (hl : s.live a) :
    n.cap ≠ 0 ∧ (s.E a ≠ [] → n.First) := by
  obtain ⟨m, -, root, ht⟩ := hI.tree
  obtain ⟨n', h1, -, hok⟩ := ht.view_live hl
  rw [hn] at h1
  cases h1
  refine ⟨hok.wf.cap_ne, fun hE => ?_⟩
  have h2 := hok.two (by
    rintro rfl
    exact hE ht.tree.root_E)
  have hb : n.prefixLeaf.isSome.toNat ≤ 1 := Bool.toNat_le _
  obtain ⟨r, b, q1, -⟩ := firstChild_spec hok.wf (by omega)
  exact ⟨r, q1⟩

theorem firstChild_congr {n n' : Node} (h : n'.kids = n.kids) : n'.firstChild = n.firstChild := by
  unfold Node.firstChild
  rw [h]

theorem child_congr {n n' : Node} (h : n'.kids = n.kids) (h2 : n'.numChildren = n.numChildren) (b : UInt8) : n'.child b = n.child b := by
  unfold Node.child Node.findChild
  rw [h, h2]

theorem Mild.inTree {up : Prop} {d : Addr} {h h' : Heap} (hm : Mild up d h h') (hd : d ≠ 0) {x : Addr} (hx : InTree h x) : InTree h' x ∨ InTree h' d := by
  induction hx with
  | root h1 h2 =>
    obtain ⟨n', g1, -, -, g2⟩ := hm.old _ _ h1
    exact Or.inl (.root g1 (by rw [(g2 (Ne.symm hd)).1]; exact h2))
  | @child a n b c _ h1 h2 ih =>
    rcases ih with ih | ih
    · by_cases e : a = d
      · rw [e] at ih
        exact Or.inr ih
      · obtain ⟨n', g1, -, -, g2⟩ := hm.old _ _ h1
        exact Or.inl (.child ih g1 (by rw [child_congr (g2 e).1 (g2 e).2]; exact h2))
    · exact Or.inr ih

theorem Firm.step {T : Nat} {σ : Nat → Conf} {who : Nat → Nat} (h : Run T σ who) {t : Nat} (ht : t < T) {s s2 : St} (hs : SI σ who t s) (hF : Firm s)
    {c : Call} (hsim : Sim σ (who t) t s s2 c) : Firm s2 := by
  have hI := hs.inv
  have hI2 := hsim.g.inv hI
  have hR : Rely (who t + 1) s s2 := hsim.g.rely hI (by omega)
  have hok := h.stepOk ht
  have hmild := h.mild ht
  rw [← hs.heap, ← hsim.heap] at hmild
  refine ⟨?_, ?_⟩
  · rcases hmild with ⟨hl, hv⟩ | ⟨c, p, d, hp, hm⟩
    · intro x n' hn'
      have hx := (List.getElem?_eq_some_iff.mp hn').1
      rw [hl] at hx
      have hg := List.getElem?_eq_getElem hx
      obtain ⟨n'', g1, g2⟩ := hv x _ hg
      rw [hn'] at g1
      cases g1
      have := hF.pre8 x _ hg
      rw [g2]
      exact this
    · exact hm.pre8 hF.pre8
  · intro a n' h0 hn'
    by_cases hl2 : s2.live a
    · exact hI2.firm_live hn' hl2
    have ha : a < s.heap.length := by
      by_contra hge
      rcases hmild with ⟨hl, -⟩ | ⟨c, p, d, hp, hm⟩
      · have := (List.getElem?_eq_some_iff.mp hn').1
        rw [hl] at this
        exact hge this
      · have hv := hm.new a n' (Nat.le_of_not_lt hge) hn'
        have ho := (hI2.own a n' hn').mpr (by rw [hv]; rfl)
        have := hI2.dead a n' hn' h0 hl2 ho
        omega
    have hn := List.getElem?_eq_getElem ha
    generalize s.heap[a] = n at hn
    obtain ⟨g1, g2⟩ := hF.node a n h0 hn
    obtain ⟨n'', k1, k2, -⟩ := hR.node a n hn
    rw [hn'] at k1
    cases k1
    refine ⟨by rw [k2]; exact g1, ?_⟩
    rw [hR.E a ha]
    intro hE
    obtain ⟨y, hy⟩ := g2 hE
    refine ⟨y, ?_⟩
    rw [← hy]
    apply firstChild_congr
    by_cases hl : s.live a
    · rcases hmild with ⟨-, hv⟩ | ⟨c, p, d, hp, hm⟩
      · obtain ⟨n'', q1, q2⟩ := hv a n hn
        rw [hn'] at q1
        cases q1
        rw [q2]
      · by_cases e : a = d
        · subst e
          exfalso
          have := (hm.inTree h0 ((hI.inTree_iff a).mpr hl)).elim id id
          exact hl2 ((hI2.inTree_iff a).mp this)
        · obtain ⟨n'', q1, -, -, q2⟩ := hm.old a n hn
          rw [hn'] at q1
          cases q1
          exact (q2 e).1
    · have hd := hok.dead a n h0 (by rw [← hs.heap]; exact hn) (by rw [← hs.heap, hI.inTree_iff]; exact hl)
      obtain ⟨-, n'', q1, q2⟩ := hd
      rw [← hsim.heap, hn'] at q1
      cases q1
      rw [q2]

theorem firm_init {σ : Nat → Conf} {who : Nat → Nat} (h0 : σ 0 = Conf.init) {s : St} (hs : SI σ who 0 s) : Firm s := by
  have hh : s.heap = new := by rw [hs.heap, h0]; rfl
  refine ⟨?_, ?_⟩
  · rw [hh]
    intro x n hn
    match x, hn with
    | 0, hn => cases hn; rfl
    | 1, hn => cases hn; rfl
    | x + 2, hn => simp [new] at hn
  · intro a n ha hn
    have hl : s.live a := by
      rw [hh] at hn
      have e : a = 1 := by
        match a, hn with
        | 0, hn => exact absurd rfl ha
        | 1, hn => rfl
        | x + 2, hn => simp [new] at hn
      rw [← hs.inv.inTree_iff, hh, e]
      exact .root (d := { kids := .dummy (some (.node 1)) }) rfl rfl
    exact hs.inv.firm_live hn hl

end Art
