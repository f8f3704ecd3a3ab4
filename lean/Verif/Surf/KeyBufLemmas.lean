import Verif.Surf.KeyBuf

/-! # The iterator with memory moves as the one with lists -/

set_option linter.unusedSimpArgs false

namespace Surf

/-! ## Memory -/

/-- The slice is one of an allocated array. -/
structure Mem.Ok (m : Mem) (s : Sl) : Prop where
  id : s.id < m.length
  len : s.len ≤ (m.arr s.id).length

theorem store_length {a : Bytes} {off : Nat} {w : Bytes} (h : off + w.length ≤ a.length) : (store a off w).length = a.length := by
  simp [store]
  omega

theorem store_take {a : Bytes} {off : Nat} {w : Bytes} (h : off + w.length ≤ a.length) : (store a off w).take (off + w.length) = a.take off ++ w := by
  unfold store
  rw [List.take_append_of_le_length (by simp; omega), List.take_of_length_le (by simp; omega)]

theorem store_drop {a : Bytes} {off : Nat} {w : Bytes} (h : off + w.length ≤ a.length) : (store a off w).drop (off + w.length) = a.drop (off + w.length) := by
  unfold store
  rw [List.drop_append_of_le_length (by simp; omega), List.drop_of_length_le (by simp; omega), List.nil_append]

theorem Mem.arr_set_self {m : Mem} {id : Nat} {a : Bytes} (h : id < m.length) : Mem.arr (m.set id a) id = a := by
  simp [Mem.arr, h]

theorem Mem.arr_set_ne {m : Mem} {id j : Nat} {a : Bytes} (h : j ≠ id) : Mem.arr (m.set id a) j = m.arr j := by
  simp [Mem.arr, List.getElem?_set_ne (Ne.symm h)]

theorem Mem.arr_push_lt {m : Mem} {j : Nat} {a : Bytes} (h : j < m.length) : Mem.arr (m ++ [a]) j = m.arr j := by
  simp [Mem.arr, List.getElem?_append_left h]

theorem Mem.arr_push_self {m : Mem} {a : Bytes} : Mem.arr (m ++ [a]) m.length = a := by
  simp [Mem.arr]

section
variable {g : Nat → Nat → Nat} {m : Mem} {s : Sl} {w : Bytes}

theorem Mem.read_length (h : m.Ok s) : (m.read s).length = s.len := by
  simp [Mem.read, h.len]

theorem Mem.append_ok (h : m.Ok s) : (m.append g s w).1.Ok (m.append g s w).2 := by
  unfold Mem.append
  split
  next e => exact ⟨by simpa using h.id, by rw [Mem.arr_set_self h.id, store_length e]; exact e⟩
  next e =>
    refine ⟨by simp, ?_⟩
    rw [Mem.arr_push_self]
    have := Mem.read_length h
    simp [this]

theorem Mem.append_read (h : m.Ok s) : (m.append g s w).1.read (m.append g s w).2 = m.read s ++ w := by
  unfold Mem.append
  split
  next e =>
    unfold Mem.read
    rw [Mem.arr_set_self h.id, store_take e]
  next e =>
    have := Mem.read_length h
    unfold Mem.read at this ⊢
    rw [Mem.arr_push_self, List.take_append_of_le_length (by rw [List.length_append, this]; exact Nat.le_refl _), List.take_of_length_le (by rw [List.length_append, this]; exact Nat.le_refl _)]

theorem Mem.append_len : (m.append g s w).2.len = s.len + w.length := by
  unfold Mem.append
  split <;> rfl

theorem Mem.append_grows : m.length ≤ (m.append g s w).1.length := by
  unfold Mem.append
  split <;> simp

theorem Mem.append_other {j : Nat} (hj : j < m.length) (h : j ≠ s.id) : (m.append g s w).1.arr j = m.arr j := by
  unfold Mem.append
  split
  · exact Mem.arr_set_ne h
  · exact Mem.arr_push_lt hj

theorem Mem.append_id : (m.append g s w).2.id = s.id ∨ (m.append g s w).2.id = m.length := by
  unfold Mem.append
  split
  · exact .inl rfl
  · exact .inr rfl

theorem Mem.append_same (h : m.Ok s) (hi : (m.append g s w).2.id = s.id) : (m.append g s w).1.arr s.id = store (m.arr s.id) s.len w ∧ s.len + w.length ≤ (m.arr s.id).length := by
  unfold Mem.append at hi ⊢
  split at hi
  next e => rw [if_pos e]; exact ⟨Mem.arr_set_self h.id, e⟩
  next e => exact absurd hi (by have := h.id; dsimp only; omega)

theorem Mem.append_moved (h : m.Ok s) (hi : (m.append g s w).2.id ≠ s.id) : (m.append g s w).1.arr s.id = m.arr s.id := by
  unfold Mem.append at hi ⊢
  split at hi
  next e => exact absurd rfl hi
  next e => rw [if_neg e]; exact Mem.arr_push_lt h.id

end

/-! ## Sequences of appends -/

/-- The second state comes from the first by appending to the slice, any number of times. -/
inductive Apps (g : Nat → Nat → Nat) (m : Mem) (s : Sl) : Mem → Sl → Prop
  | refl : Apps g m s m s
  | app {m' s'} (w : Bytes) : Apps g m s m' s' → Apps g m s (m'.append g s' w).1 (m'.append g s' w).2

/-- ... by cutting it, and then appending. -/
def Moves (g : Nat → Nat → Nat) (m : Mem) (s : Sl) (m' : Mem) (s' : Sl) : Prop := ∃ n, n ≤ s.len ∧ Apps g m ⟨s.id, n⟩ m' s'

/-- ... by both, in any order. -/
inductive Works (g : Nat → Nat → Nat) (m : Mem) (s : Sl) : Mem → Sl → Prop
  | refl : Works g m s m s
  | app {m' s'} (w : Bytes) : Works g m s m' s' → Works g m s (m'.append g s' w).1 (m'.append g s' w).2
  | cut {m' s'} (n : Nat) : n ≤ s'.len → Works g m s m' s' → Works g m s m' ⟨s'.id, n⟩

section
variable {g : Nat → Nat → Nat} {m m' m'' : Mem} {s s' s'' : Sl}

theorem Apps.trans (h1 : Apps g m s m' s') (h2 : Apps g m' s' m'' s'') : Apps g m s m'' s'' := by
  induction h2 with
  | refl => exact h1
  | app w _ ih => exact .app w ih

theorem Apps.moves (h : Apps g m s m' s') : Moves g m s m' s' := ⟨s.len, Nat.le_refl _, h⟩

theorem Moves.refl : Moves g m s m s := Apps.refl.moves

theorem Moves.apps (h1 : Moves g m s m' s') (h2 : Apps g m' s' m'' s'') : Moves g m s m'' s'' := by
  obtain ⟨n, hn, h1⟩ := h1
  exact ⟨n, hn, h1.trans h2⟩

theorem Works.trans (h1 : Works g m s m' s') (h2 : Works g m' s' m'' s'') : Works g m s m'' s'' := by
  induction h2 with
  | refl => exact h1
  | app w _ ih => exact .app w ih
  | cut n hn _ ih => exact .cut n hn ih

theorem Apps.works (h : Apps g m s m' s') : Works g m s m' s' := by
  induction h with
  | refl => exact .refl
  | app w _ ih => exact .app w ih

theorem Moves.works (h : Moves g m s m' s') : Works g m s m' s' := by
  obtain ⟨n, hn, h⟩ := h
  exact (Works.cut n hn .refl).trans h.works

theorem Mem.Ok.cut (h : m.Ok s) {n : Nat} (hn : n ≤ s.len) : m.Ok ⟨s.id, n⟩ := ⟨h.id, Nat.le_trans hn h.len⟩

theorem Works.ok (h : Works g m s m' s') (ho : m.Ok s) : m'.Ok s' := by
  induction h with
  | refl => exact ho
  | app w _ ih => exact Mem.append_ok ih
  | cut n hn _ ih => exact ih.cut hn

theorem Works.grows (h : Works g m s m' s') : m.length ≤ m'.length := by
  induction h with
  | refl => exact Nat.le_refl _
  | app w _ ih => exact Nat.le_trans ih Mem.append_grows
  | cut n hn _ ih => exact ih

/-- The slice stays in its array or goes to a new one. -/
theorem Works.id (h : Works g m s m' s') : s'.id = s.id ∨ m.length ≤ s'.id := by
  induction h with
  | refl => exact .inl rfl
  | @app m' s' w h ih =>
    rcases Mem.append_id (g := g) (m := m') (s := s') (w := w) with e | e
    · rw [e]
      exact ih
    · exact .inr (by rw [e]; exact h.grows)
  | cut n hn _ ih => exact ih

/-- The other arrays stay as they are. -/
theorem Works.other (h : Works g m s m' s') {j : Nat} (hj : j < m.length) (hne : j ≠ s.id) : m'.arr j = m.arr j := by
  induction h with
  | refl => rfl
  | @app m' s' w h ih =>
    rw [Mem.append_other (Nat.lt_of_lt_of_le hj h.grows), ih]
    rcases h.id with e | e <;> omega
  | cut n hn _ ih => exact ih

/-- What becomes of the array: it begins with the first `p` bytes of what the slice is now, and the rest is as before; `p` is all, if the slice is still in this array. -/
theorem Apps.base (h : Apps g m s m' s') (ho : m.Ok s) : ∃ p, p ≤ s'.len ∧ s.len ≤ p ∧ p ≤ (m.arr s.id).length ∧ (s'.id = s.id → p = s'.len) ∧ m'.arr s.id = (m'.read s').take p ++ (m.arr s.id).drop p := by
  induction h with
  | refl =>
    refine ⟨s.len, Nat.le_refl _, Nat.le_refl _, ho.len, fun _ => rfl, ?_⟩
    unfold Mem.read
    rw [List.take_take, Nat.min_self, List.take_append_drop]
  | @app m' s' w h ih =>
    obtain ⟨p, h1, hsp, hcap, h2, h3⟩ := ih
    have ok := h.works.ok ho
    have hl := Mem.append_len (g := g) (m := m') (s := s') (w := w)
    have hr : (m'.read s').length = s'.len := Mem.read_length ok
    by_cases e : s'.id = s.id
    · have hp := h2 e
      subst hp
      rw [← e] at h3
      by_cases e' : (m'.append g s' w).2.id = s'.id
      · obtain ⟨a1, a2⟩ := Mem.append_same ok e'
        have hlen : (m'.arr s'.id).length = (m.arr s.id).length := by
          rw [h3]
          simp [hr]
          rw [e]
          omega
        refine ⟨s'.len + w.length, Nat.le_of_eq hl.symm, by omega, by omega, fun _ => hl.symm, ?_⟩
        rw [← e, a1, Mem.append_read ok, List.take_of_length_le (by simp [hr])]
        unfold store
        rw [h3]
        have e1 : (m'.read s').take s'.len = m'.read s' := List.take_of_length_le (by omega)
        rw [e1]
        have e2 : (m'.read s' ++ (m.arr s'.id).drop s'.len).take s'.len = m'.read s' := by
          rw [List.take_append_of_le_length (by omega), e1]
        have e3 : (m'.read s' ++ (m.arr s'.id).drop s'.len).drop (s'.len + w.length) = (m.arr s'.id).drop (s'.len + w.length) := by
          rw [List.drop_append, List.drop_of_length_le (by omega), List.nil_append, List.drop_drop]
          congr 1
          omega
        rw [e2, e3]
      · refine ⟨s'.len, by rw [hl]; omega, hsp, hcap, fun e2 => absurd (e2.trans e.symm) e', ?_⟩
        rw [← e, Mem.append_moved ok e', Mem.append_read ok, List.take_append_of_le_length (by omega)]
        exact h3
    · have hne : (m'.append g s' w).2.id ≠ s.id := by
        rcases Mem.append_id (g := g) (m := m') (s := s') (w := w) with q | q
        · rw [q]; exact e
        · rw [q]
          have := h.works.grows
          have := ho.id
          omega
      refine ⟨p, by rw [hl]; omega, hsp, hcap, fun q => absurd q hne, ?_⟩
      rw [Mem.append_other (Nat.lt_of_lt_of_le ho.id h.works.grows) (Ne.symm e), h3, Mem.append_read ok, List.take_append_of_le_length (by omega)]

theorem Moves.base (h : Moves g m s m' s') (ho : m.Ok s) : ∃ p, p ≤ s'.len ∧ (s'.id = s.id → p = s'.len) ∧ m'.arr s.id = (m'.read s').take p ++ (m.arr s.id).drop p := by
  obtain ⟨n, hn, h⟩ := h
  obtain ⟨p, h1, -, -, h2, h3⟩ := h.base (ho.cut hn)
  exact ⟨p, h1, h2, h3⟩

end

/-! ## denseIter -/

namespace DenseMem

variable {g : Nat → Nat → Nat} {ld : LoudsDense}

/-- The slice is one of an allocated array. -/
def Ok (x : DenseMem) : Prop := x.mem.Ok x.s

/-- The result of a call of the iterator with memory, when that of the iterator with lists is `r`: it is the same, by work on the buffer as `P` says. -/
def Follows (P : Mem → Sl → Mem → Sl → Prop) (x : DenseMem) (r : DenseIter) (y : Option DenseMem) : Prop := ∃ x', y = some x' ∧ x'.view = r ∧ P x.mem x.s x'.mem x'.s

theorem view_len {x : DenseMem} (ho : x.Ok) : x.view.keyBuf.length = x.s.len := Mem.read_length ho

theorem append_follows {x : DenseMem} {pos : Nat} {r : DenseIter} (ho : x.Ok) (h : x.view.append ld pos = some r) : Follows (Apps g) x r (x.append g ld pos) := by
  unfold DenseIter.append at h
  simp only [Option.bind_eq_bind, Option.bind_eq_some_iff, Option.pure_def, Option.some.injEq] at h
  obtain ⟨pre, h1, ps, h2, n, h3, ls, h4, rfl⟩ := h
  unfold DenseMem.append
  rw [h1]
  have h2' : putAt x.d.posInTrie x.d.level pos = some ps := h2
  have h3' : x.d.upLen (pre.length + 1) = some n := h3
  have h4' : putAt x.d.prefixLen x.d.level n = some ls := h4
  refine ⟨_, by
    simp only [Option.bind_eq_bind, Option.bind_some, h2', h3', h4', Option.pure_def]
    rfl, ?_, .app _ (.app _ .refl)⟩
  unfold view
  dsimp only
  rw [Mem.append_read (Mem.append_ok ho), Mem.append_read ho]

theorem setAt_follows {x : DenseMem} {pos : Nat} {r : DenseIter} (ho : x.Ok) (h : x.view.setAt pos = some r) : Follows (Moves g) x r (x.setAt g pos) := by
  unfold DenseIter.setAt at h
  simp only [Option.bind_eq_bind, Option.bind_eq_some_iff, Option.pure_def, Option.some.injEq] at h
  obtain ⟨n, h1, n', h2, b, h3, ps, h4, rfl⟩ := h
  have h1' : x.d.prefixLen[x.d.level]? = some n := h1
  have h4' : putAt x.d.posInTrie x.d.level pos = some ps := h4
  unfold cutTo at h3
  split at h3
  next e =>
    cases h3
    rw [view_len ho] at e
    have hc : x.mem.cut x.s n' = some ⟨x.s.id, n'⟩ := if_pos (Nat.le_trans e ho.len)
    unfold DenseMem.setAt
    refine ⟨_, by
      simp only [Option.bind_eq_bind, Option.bind_some, h1', h2, hc, h4', Option.pure_def]
      rfl, ?_, n', e, .app _ .refl⟩
    unfold view
    dsimp only
    rw [Mem.append_read (ho.cut e)]
    congr 2
    unfold Mem.read
    rw [List.take_take, Nat.min_eq_left e]
  next => cases h3

theorem truncate_follows {x : DenseMem} {r : DenseIter} (ho : x.Ok) (h : x.view.truncate = some r) : Follows (Moves g) x r x.truncate := by
  unfold DenseIter.truncate at h
  simp only [Option.bind_eq_bind, Option.bind_eq_some_iff, Option.pure_def, Option.some.injEq] at h
  obtain ⟨n, h1, b, h3, rfl⟩ := h
  have h1' : x.d.prefixLen[x.d.level]? = some n := h1
  unfold cutTo at h3
  split at h3
  next e =>
    cases h3
    rw [view_len ho] at e
    have hc : x.mem.cut x.s n = some ⟨x.s.id, n⟩ := if_pos (Nat.le_trans e ho.len)
    unfold DenseMem.truncate
    refine ⟨_, by
      simp only [Option.bind_eq_bind, Option.bind_some, h1', hc, Option.pure_def]
      rfl, ?_, n, e, .refl⟩
    unfold view
    dsimp only
    congr 1
    unfold Mem.read
    dsimp only
    rw [List.take_take, Nat.min_eq_left e]
  next => cases h3

theorem Follows.trans {P Q R : Mem → Sl → Mem → Sl → Prop} {x x' : DenseMem} {y : Option DenseMem} {r : DenseIter} (hPQ : ∀ {m s m' s' m'' s''}, P m s m' s' → Q m' s' m'' s'' → R m s m'' s'')
    (h1 : P x.mem x.s x'.mem x'.s) (h2 : Follows Q x' r y) : Follows R x r y := by
  obtain ⟨x2, e1, e2, e3⟩ := h2
  exact ⟨x2, e1, e2, hPQ h1 e3⟩

theorem leftLoop_follows : ∀ (n : Nat) {x : DenseMem} {pos : Nat} {r : DenseIter}, x.Ok → DenseIter.leftLoop ld n x.view pos = some r → Follows (Apps g) x r (leftLoop g ld n x pos) := by
  intro n
  induction n with
  | zero =>
    intro x pos r ho h
    unfold DenseIter.leftLoop at h
    simp only [Option.bind_eq_bind, Option.bind_eq_some_iff, Option.pure_def, Option.some.injEq] at h
    obtain ⟨c, h1, rfl⟩ := h
    unfold leftLoop
    simp only [Option.bind_eq_bind, Option.bind_some, h1, Option.pure_def]
    refine ⟨_, rfl, ?_, .refl⟩
    rw [view_len ho]
    rfl
  | succ n ih =>
    intro x pos r ho h
    unfold DenseIter.leftLoop at h
    simp only [Option.bind_eq_bind, Option.bind_eq_some_iff] at h
    obtain ⟨nodeID, h1, p, h2, q, h3, pos', h4, it, h5, h6⟩ := h
    obtain ⟨x', e1, e2, e3⟩ := append_follows (g := g) (x := { x with d := { x.d with level := x.d.level + 1 } }) ho h5
    have ho' : x'.Ok := e3.works.ok ho
    unfold leftLoop
    simp only [Option.bind_eq_bind, Option.bind_some, h1, h2, h3, h4, e1]
    subst e2
    by_cases hp : p = true
    · rw [if_pos hp] at h6 ⊢
      cases h6
      exact ⟨_, rfl, rfl, e3⟩
    · rw [if_neg hp] at h6 ⊢
      simp only [Option.bind_eq_bind, Option.bind_eq_some_iff] at h6
      obtain ⟨hc, h7, h8⟩ := h6
      rw [h7, Option.bind_some]
      by_cases hh : (!hc) = true
      · rw [if_pos hh] at h8 ⊢
        cases h8
        exact ⟨_, rfl, rfl, e3⟩
      · rw [if_neg hh] at h8 ⊢
        exact Follows.trans (P := Apps g) (x := x) Apps.trans e3 (ih ho' h8)

theorem moveLeft_follows {x : DenseMem} {r : DenseIter} (ho : x.Ok) (h : x.view.moveLeft ld = some r) : Follows (Apps g) x r (x.moveLeft g ld) := by
  unfold DenseIter.moveLeft at h
  simp only [Option.bind_eq_bind, Option.bind_eq_some_iff] at h
  obtain ⟨pos, h1, hc, h2, h3⟩ := h
  have h1' : x.d.posInTrie[x.d.level]? = some pos := h1
  unfold moveLeft
  simp only [Option.bind_eq_bind, Option.bind_some, h1', h2]
  by_cases hh : (!hc) = true
  · rw [if_pos hh] at h3 ⊢
    cases h3
    exact ⟨_, rfl, rfl, .refl⟩
  · rw [if_neg hh] at h3 ⊢
    exact leftLoop_follows _ ho h3

theorem rightLoop_follows : ∀ (n : Nat) {x : DenseMem} {pos : Nat} {r : DenseIter}, x.Ok → DenseIter.rightLoop ld n x.view pos = some r → Follows (Apps g) x r (rightLoop g ld n x pos) := by
  intro n
  induction n with
  | zero =>
    intro x pos r ho h
    unfold DenseIter.rightLoop at h
    simp only [Option.bind_eq_bind, Option.bind_eq_some_iff, Option.pure_def, Option.some.injEq] at h
    obtain ⟨c, h1, rfl⟩ := h
    unfold rightLoop
    simp only [Option.bind_eq_bind, Option.bind_some, h1, Option.pure_def]
    refine ⟨_, rfl, ?_, .refl⟩
    rw [view_len ho]
    rfl
  | succ n ih =>
    intro x pos r ho h
    unfold DenseIter.rightLoop at h
    simp only [Option.bind_eq_bind, Option.bind_eq_some_iff] at h
    obtain ⟨nodeID, h1, ⟨pos', out⟩, h2, h3⟩ := h
    unfold rightLoop
    simp only [Option.bind_eq_bind, Option.bind_some, h1, h2]
    by_cases hp : out = true
    · rw [if_pos hp] at h3 ⊢
      cases h3
      exact ⟨_, rfl, rfl, .refl⟩
    · rw [if_neg hp] at h3 ⊢
      simp only [Option.bind_eq_bind, Option.bind_eq_some_iff] at h3
      obtain ⟨it, h5, hc, h7, h8⟩ := h3
      obtain ⟨x', e1, e2, e3⟩ := append_follows (g := g) (x := { x with d := { x.d with level := x.d.level + 1 } }) ho h5
      have ho' : x'.Ok := e3.works.ok ho
      rw [e1, Option.bind_some, h7, Option.bind_some]
      subst e2
      by_cases hh : (!hc) = true
      · rw [if_pos hh] at h8 ⊢
        cases h8
        exact ⟨_, rfl, rfl, e3⟩
      · rw [if_neg hh] at h8 ⊢
        exact Follows.trans (P := Apps g) (x := x) Apps.trans e3 (ih ho' h8)

theorem moveRight_follows {x : DenseMem} {r : DenseIter} (ho : x.Ok) (h : x.view.moveRight ld = some r) : Follows (Apps g) x r (x.moveRight g ld) := by
  unfold DenseIter.moveRight at h
  simp only [Option.bind_eq_bind, Option.bind_eq_some_iff] at h
  obtain ⟨pos, h1, hc, h2, h3⟩ := h
  have h1' : x.d.posInTrie[x.d.level]? = some pos := h1
  unfold moveRight
  simp only [Option.bind_eq_bind, Option.bind_some, h1', h2]
  by_cases hh : (!hc) = true
  · rw [if_pos hh] at h3 ⊢
    cases h3
    exact ⟨_, rfl, rfl, .refl⟩
  · rw [if_neg hh] at h3 ⊢
    exact rightLoop_follows _ ho h3

theorem setToFirstInRoot_follows {x : DenseMem} {r : DenseIter} (ho : x.Ok) (h : x.view.setToFirstInRoot ld = some r) : Follows (Apps g) x r (x.setToFirstInRoot g ld) := by
  unfold DenseIter.setToFirstInRoot at h
  simp only [Option.bind_eq_bind, Option.bind_eq_some_iff] at h
  obtain ⟨b, h1, h2⟩ := h
  unfold setToFirstInRoot
  simp only [Option.bind_eq_bind, Option.bind_some, h1]
  by_cases hb : b = true
  · rw [if_pos hb] at h2 ⊢
    exact append_follows ho h2
  · rw [if_neg hb] at h2 ⊢
    obtain ⟨p, h3, h4⟩ := Option.bind_eq_some_iff.mp h2
    rw [h3, Option.bind_some]
    exact append_follows ho h4

theorem setToLastInRoot_follows {x : DenseMem} {r : DenseIter} (ho : x.Ok) (h : x.view.setToLastInRoot ld = some r) : Follows (Apps g) x r (x.setToLastInRoot g ld) := by
  unfold DenseIter.setToLastInRoot at h
  simp only [Option.bind_eq_bind, Option.bind_eq_some_iff] at h
  obtain ⟨⟨p, o⟩, h1, h2⟩ := h
  unfold setToLastInRoot
  simp only [Option.bind_eq_bind, Option.bind_some, h1]
  exact append_follows ho h2

theorem next_follows {x : DenseMem} {r : DenseIter} (ho : x.Ok) (h : x.view.next ld = some r) : Follows (Moves g) x r (x.next g ld) := by
  unfold DenseIter.next at h
  unfold next
  by_cases h0 : ld.height = 0
  · rw [if_pos h0] at h ⊢
    cases h
    exact ⟨_, rfl, rfl, .refl⟩
  · rw [if_neg h0] at h ⊢
    by_cases h1 : x.d.atPrefixKey = true
    · rw [if_pos h1]
      rw [if_pos (show x.view.atPrefixKey = true from h1)] at h
      obtain ⟨x', e1, e2, e3⟩ := moveLeft_follows (g := g) (x := { x with d := { x.d with atPrefixKey := false } }) ho h
      exact ⟨x', e1, e2, e3.moves⟩
    · rw [if_neg h1]
      rw [if_neg (show ¬ x.view.atPrefixKey = true from h1)] at h
      simp only [Option.bind_eq_bind, Option.bind_eq_some_iff] at h
      obtain ⟨o, h2, h3⟩ := h
      have h2' : DenseIter.nextLoop ld x.d.posInTrie x.d.level = some o := h2
      simp only [Option.bind_eq_bind, Option.bind_some, h2']
      cases o with
      | none =>
        cases h3
        exact ⟨_, rfl, rfl, .refl⟩
      | some o =>
        obtain ⟨lev, np⟩ := o
        obtain ⟨it, h4, h5⟩ := Option.bind_eq_some_iff.mp h3
        obtain ⟨x', e1, e2, e3⟩ := setAt_follows (g := g) (x := { x with d := { x.d with level := lev } }) ho h4
        subst e2
        show Follows _ _ _ ((setAt g _ np).bind _)
        rw [e1, Option.bind_some]
        exact Follows.trans (P := Moves g) (x := x) Moves.apps e3 (moveLeft_follows (e3.works.ok ho) h5)

theorem prev_follows {x : DenseMem} {r : DenseIter} (ho : x.Ok) (h : x.view.prev ld = some r) : Follows (Moves g) x r (x.prev g ld) := by
  unfold DenseIter.prev at h
  unfold prev
  by_cases h0 : ld.height = 0
  · rw [if_pos h0] at h ⊢
    cases h
    exact ⟨_, rfl, rfl, .refl⟩
  · rw [if_neg h0] at h ⊢
    have key : ∀ y : DenseMem, y.mem = x.mem → y.s = x.s → ((DenseIter.prevLoop ld y.view.posInTrie y.view.level).bind fun o => match o with
        | .out lev => some { y.view with level := lev, valid := false }
        | .atPrefix lev => ({ y.view with level := lev } : DenseIter).truncate.bind fun it => some ({ it with atPrefixKey := true }.flags true true true)
        | .found lev pp => (({ y.view with level := lev } : DenseIter).setAt pp).bind fun it => it.moveRight ld) = some r →
        Follows (Moves g) x r ((DenseIter.prevLoop ld y.d.posInTrie y.d.level).bind fun o => match o with
        | .out lev => some { y with d := { y.d with level := lev, valid := false } }
        | .atPrefix lev => ({ y with d := { y.d with level := lev } } : DenseMem).truncate.bind fun x => some ({ x with d := { x.d with atPrefixKey := true } }.flags true true true)
        | .found lev pp => (({ y with d := { y.d with level := lev } } : DenseMem).setAt g pp).bind fun x => x.moveRight g ld) := by
      intro y hm hs hy
      have hoy : y.Ok := by
        unfold Ok
        rw [hm, hs]
        exact ho
      obtain ⟨o, h2, h3⟩ := Option.bind_eq_some_iff.mp hy
      have h2' : DenseIter.prevLoop ld y.d.posInTrie y.d.level = some o := h2
      rw [h2', Option.bind_some]
      cases o with
      | out lev =>
        cases h3
        exact ⟨_, rfl, rfl, by dsimp only; rw [hm, hs]; exact .refl⟩
      | atPrefix lev =>
        obtain ⟨it, h4, h5⟩ := Option.bind_eq_some_iff.mp h3
        cases h5
        obtain ⟨x', e1, e2, e3⟩ := truncate_follows (g := g) (x := { y with d := { y.d with level := lev } }) hoy h4
        subst e2
        dsimp only
        rw [e1, Option.bind_some]
        rw [hm, hs] at e3
        exact ⟨_, rfl, rfl, e3⟩
      | found lev pp =>
        obtain ⟨it, h4, h5⟩ := Option.bind_eq_some_iff.mp h3
        obtain ⟨x', e1, e2, e3⟩ := setAt_follows (g := g) (x := { y with d := { y.d with level := lev } }) hoy h4
        subst e2
        dsimp only
        rw [e1, Option.bind_some]
        rw [hm, hs] at e3
        exact Follows.trans (P := Moves g) (x := x) Moves.apps e3 (moveRight_follows (e3.works.ok ho) h5)
    by_cases h1 : x.d.atPrefixKey = true
    · have h1' : x.view.atPrefixKey = true := h1
      rw [if_pos h1'] at h
      rw [if_pos h1]
      exact key { x with d := { x.d with atPrefixKey := false, level := dec32 x.d.level } } rfl rfl h
    · have h1' : ¬ x.view.atPrefixKey = true := h1
      rw [if_neg h1'] at h
      rw [if_neg h1]
      exact key x rfl rfl h

/-- The same for calls that also return whether the search may have found its key. -/
def Follows2 (g : Nat → Nat → Nat) (x : DenseMem) (r : DenseIter × Bool) (y : Option (DenseMem × Bool)) : Prop := ∃ x', y = some (x', r.2) ∧ x'.view = r.1 ∧ Works g x.mem x.s x'.mem x'.s

theorem Follows2.trans {x x' : DenseMem} {y : Option (DenseMem × Bool)} {r : DenseIter × Bool}
    (h1 : Works g x.mem x.s x'.mem x'.s) (h2 : Follows2 g x' r y) : Follows2 g x r y := by
  obtain ⟨x2, e1, e2, e3⟩ := h2
  exact ⟨x2, e1, e2, h1.trans e3⟩

theorem compareSuffixGreaterThan_follows {x : DenseMem} {key : Bytes} {pos level : Nat} {r : DenseIter × Bool} (ho : x.Ok) (h : x.view.compareSuffixGreaterThan ld key pos level = some r) :
    Follows2 g x r (x.compareSuffixGreaterThan g ld key pos level) := by
  unfold DenseIter.compareSuffixGreaterThan at h
  simp only [Option.bind_eq_bind, Option.bind_eq_some_iff] at h
  obtain ⟨sp, h1, cmp, h2, h3⟩ := h
  unfold compareSuffixGreaterThan
  simp only [Option.bind_eq_bind, Option.bind_some, h1, h2]
  by_cases hc : cmp < 0
  · rw [if_pos hc] at h3 ⊢
    obtain ⟨it, h4, h5⟩ := Option.bind_eq_some_iff.mp h3
    cases h5
    obtain ⟨x', e1, e2, e3⟩ := next_follows (g := g) ho h4
    rw [e1, Option.bind_some]
    exact ⟨x', rfl, e2, e3.works⟩
  · rw [if_neg hc] at h3 ⊢
    cases h3
    exact ⟨_, rfl, rfl, .refl⟩

theorem seekFirst_follows {x : DenseMem} {nodeID : Nat} {eq : Bool} {r : DenseIter × Bool} (ho : x.Ok) (h : x.view.seekFirst ld nodeID eq = some r) : Follows2 g x r (x.seekFirst g ld nodeID eq) := by
  have key : ∀ {it : DenseIter} {y : Option DenseMem}, Follows (Apps g) x it y →
      ((ld.isPrefixVec.bv.isSet nodeID).bind fun p => if p then (some ({ it with atPrefixKey := true }.flags true true true)).bind fun it => some (it, eq) else (it.moveLeft ld).bind fun it => some (it, eq)) = some r →
      Follows2 g x r (y.bind fun x => (ld.isPrefixVec.bv.isSet nodeID).bind fun p => if p then (some ({ x with d := { x.d with atPrefixKey := true } }.flags true true true)).bind fun x => some (x, eq)
        else (x.moveLeft g ld).bind fun x => some (x, eq)) := by
    rintro it y ⟨x', rfl, rfl, e3⟩ h2
    obtain ⟨p, h5, h6⟩ := Option.bind_eq_some_iff.mp h2
    rw [Option.bind_some, h5, Option.bind_some]
    by_cases hp : p = true
    · rw [if_pos hp] at h6 ⊢
      cases h6
      exact ⟨_, rfl, rfl, e3.works⟩
    · rw [if_neg hp] at h6 ⊢
      obtain ⟨it2, h7, h8⟩ := Option.bind_eq_some_iff.mp h6
      cases h8
      obtain ⟨x2, a1, a2, a3⟩ := moveLeft_follows (g := g) (e3.works.ok ho) h7
      rw [a1, Option.bind_some]
      exact ⟨x2, rfl, a2, (e3.trans a3).works⟩
  unfold DenseIter.seekFirst at h
  unfold seekFirst
  simp only [Option.bind_eq_bind] at h ⊢
  by_cases hp : nodeID * denseFanout > 0
  · rw [if_pos hp] at h ⊢
    obtain ⟨p, h3, h4⟩ := Option.bind_eq_some_iff.mp h
    obtain ⟨it, h5, h6⟩ := Option.bind_eq_some_iff.mp h4
    rw [h3, Option.bind_some]
    exact key (append_follows ho h5) h6
  · rw [if_neg hp] at h ⊢
    obtain ⟨it, h5, h6⟩ := Option.bind_eq_some_iff.mp h
    exact key (setToFirstInRoot_follows ho h5) h6

/-- The same for `seekLabel`. -/
def Follows3 (g : Nat → Nat → Nat) (x : DenseMem) (r : (DenseIter × Bool) ⊕ (DenseIter × Nat)) (y : Option ((DenseMem × Bool) ⊕ (DenseMem × Nat))) : Prop :=
  match r with
  | .inl r => ∃ x', y = some (.inl (x', r.2)) ∧ x'.view = r.1 ∧ Works g x.mem x.s x'.mem x'.s
  | .inr r => ∃ x', y = some (.inr (x', r.2)) ∧ x'.view = r.1 ∧ Works g x.mem x.s x'.mem x'.s

theorem seekLabel_follows {x : DenseMem} {key : Bytes} {depth nodeID : Nat} {r : (DenseIter × Bool) ⊕ (DenseIter × Nat)} (ho : x.Ok) (h : x.view.seekLabel ld key depth nodeID = some r) :
    Follows3 g x r (x.seekLabel g ld key depth nodeID) := by
  unfold DenseIter.seekLabel at h
  unfold seekLabel
  simp only [Option.bind_eq_bind, Option.bind_eq_some_iff] at h
  obtain ⟨c, h1, it, h2, l, h3, h4⟩ := h
  obtain ⟨x', e1, e2, e3⟩ := append_follows (g := g) ho h2
  subst e2
  simp only [Option.bind_eq_bind, Option.bind_some, h1, e1, h3]
  have ho' : x'.Ok := e3.works.ok ho
  by_cases hl : (!l) = true
  · rw [if_pos hl] at h4 ⊢
    obtain ⟨it2, h5, h6⟩ := Option.bind_eq_some_iff.mp h4
    cases h6
    obtain ⟨x2, a1, a2, a3⟩ := next_follows (g := g) ho' h5
    rw [a1, Option.bind_some]
    exact ⟨x2, rfl, a2, e3.works.trans a3.works⟩
  · rw [if_neg hl] at h4 ⊢
    obtain ⟨hc, h5, h6⟩ := Option.bind_eq_some_iff.mp h4
    rw [h5, Option.bind_some]
    by_cases hh : (!hc) = true
    · rw [if_pos hh] at h6 ⊢
      obtain ⟨r2, h7, h8⟩ := Option.bind_eq_some_iff.mp h6
      cases h8
      obtain ⟨x2, a1, a2, a3⟩ := compareSuffixGreaterThan_follows (g := g) ho' h7
      rw [a1, Option.bind_some]
      exact ⟨x2, rfl, a2, e3.works.trans a3⟩
    · rw [if_neg hh] at h6 ⊢
      cases h6
      exact ⟨x', rfl, rfl, e3.works⟩

theorem seekLoop_follows {key : Bytes} : ∀ (n : Nat) {x : DenseMem} {depth nodeID : Nat} {r : DenseIter × Bool}, x.Ok → DenseIter.seekLoop ld key n x.view depth nodeID = some r →
    Follows2 g x r (seekLoop g ld key n x depth nodeID) := by
  intro n
  induction n with
  | zero =>
    intro x depth nodeID r ho h
    cases h
    exact ⟨_, rfl, rfl, .refl⟩
  | succ n ih =>
    intro x depth nodeID r ho h
    unfold DenseIter.seekLoop at h
    unfold seekLoop
    simp only [Option.bind_eq_bind, Option.bind_eq_some_iff] at h
    obtain ⟨pre, h1, cmp, h2, h3⟩ := h
    simp only [Option.bind_eq_bind, Option.bind_some, h1, h2]
    by_cases hc : cmp < 0
    · rw [if_pos hc] at h3 ⊢
      by_cases h0 : nodeID = 0
      · rw [if_pos h0] at h3 ⊢
        cases h3
        exact ⟨_, rfl, rfl, .refl⟩
      · rw [if_neg h0] at h3 ⊢
        obtain ⟨it2, h5, h6⟩ := Option.bind_eq_some_iff.mp h3
        cases h6
        obtain ⟨x2, a1, a2, a3⟩ := next_follows (g := g) (x := { x with d := { x.d with level := dec32 x.d.level } }) ho h5
        rw [a1, Option.bind_some]
        exact ⟨x2, rfl, a2, a3.works⟩
    · rw [if_neg hc] at h3 ⊢
      by_cases hd : depth + pre.length ≥ key.length ∨ cmp > 0
      · rw [if_pos hd] at h3 ⊢
        exact seekFirst_follows ho h3
      · rw [if_neg hd] at h3 ⊢
        obtain ⟨o, h5, h6⟩ := Option.bind_eq_some_iff.mp h3
        have h7 := seekLabel_follows (g := g) ho h5
        cases o with
        | inl r2 =>
          obtain ⟨x2, a1, a2, a3⟩ := h7
          rw [a1, Option.bind_some]
          cases h6
          exact ⟨x2, rfl, a2, a3⟩
        | inr r2 =>
          obtain ⟨it, pos⟩ := r2
          obtain ⟨x2, a1, a2, a3⟩ := h7
          rw [a1, Option.bind_some]
          obtain ⟨c, h8, h9⟩ := Option.bind_eq_some_iff.mp h6
          dsimp only at a2 ⊢
          subst a2
          rw [h8, Option.bind_some]
          exact Follows2.trans a3 (ih (x := { x2 with d := { x2.d with level := x2.d.level + 1 } }) (a3.ok ho) h9)

theorem seek_follows {x : DenseMem} {key : Bytes} {r : DenseIter × Bool} (ho : x.Ok) (h : x.view.seek ld key = some r) : Follows2 g x r (x.seek g ld key) :=
  seekLoop_follows _ (x := { x with d := { x.d with level := 0 } }) ho h

theorem key_follows {x : DenseMem} {k : Bytes} (ho : x.Ok) (h : x.view.key = some k) : ∃ s, x.key = some s ∧ s.id = x.s.id ∧ s.len ≤ x.s.len ∧ x.mem.read s = k := by
  unfold DenseIter.key at h
  unfold DenseMem.key
  by_cases h1 : x.d.atPrefixKey = true
  · rw [if_pos h1]
    rw [if_pos (show x.view.atPrefixKey = true from h1), view_len ho] at h
    obtain ⟨n, h2, h3⟩ := Option.bind_eq_some_iff.mp h
    rw [h2, Option.bind_some]
    unfold cutTo at h3
    split at h3
    next e =>
      cases h3
      rw [view_len ho] at e
      refine ⟨⟨x.s.id, n⟩, if_pos (Nat.le_trans e ho.len), rfl, e, ?_⟩
      show (x.mem.arr x.s.id).take n = ((x.mem.arr x.s.id).take x.s.len).take n
      rw [List.take_take, Nat.min_eq_left e]
    next => cases h3
  · rw [if_neg h1]
    rw [if_neg (show ¬ x.view.atPrefixKey = true from h1)] at h
    cases h
    exact ⟨x.s, rfl, rfl, Nat.le_refl _, rfl⟩

end DenseMem

end Surf
