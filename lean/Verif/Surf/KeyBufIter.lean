import Verif.Surf.KeyBufLemmas

/-! # The iterator with memory: all of its calls -/

set_option linter.unusedSimpArgs false

namespace Surf

namespace IterMem

variable {g : Nat → Nat → Nat} {bmi : Bool} {f : SuRF}

/-- Both slices are slices of allocated arrays, and not of the same. -/
structure Sep (x : IterMem) : Prop where
  s : x.mem.Ok x.s
  k : x.mem.Ok x.k
  ne : x.s.id ≠ x.k.id

theorem newIterMem_sep (f : SuRF) : f.newIterMem.Sep := ⟨⟨Nat.zero_lt_two, Nat.zero_le _⟩, ⟨Nat.one_lt_two, Nat.zero_le _⟩, Nat.zero_ne_one⟩

theorem newIterMem_view (f : SuRF) : f.newIterMem.view = f.newIterator := rfl

/-- The result of a call of the iterator with memory, when that of the iterator with lists is `r`: it is the same, by work on the buffer of the dense part as `P` says; that of `Key` is left alone. -/
def Follows (P : Mem → Sl → Mem → Sl → Prop) (x : IterMem) (r : Iterator) (y : Option IterMem) : Prop := ∃ x', y = some x' ∧ x'.view = r ∧ P x.mem x.s x'.mem x'.s ∧ x'.k = x.k

theorem Sep.works {x x' : IterMem} (h : x.Sep) (hw : Works g x.mem x.s x'.mem x'.s) (hk : x'.k = x.k) : x'.Sep := by
  have h0 : x'.mem.arr x.k.id = x.mem.arr x.k.id := hw.other h.k.id (Ne.symm h.ne)
  refine ⟨hw.ok h.s, ⟨?_, ?_⟩, ?_⟩
  · rw [hk]
    exact Nat.lt_of_lt_of_le h.k.id hw.grows
  · rw [hk, h0]
    exact h.k.len
  · rw [hk]
    rcases hw.id with e | e
    · rw [e]
      exact h.ne
    · have := h.k.id
      omega

theorem withDense_view {x : IterMem} {d : DenseMem} : (x.withDense d).view = { x.view with d := d.view } := rfl

theorem intoSparse_follows {x : IterMem} {first : Bool} {r : Iterator} (h : x.view.intoSparse bmi f first = some r) : Follows (fun m s m' s' => m' = m ∧ s' = s) x r (x.intoSparse bmi f first) := by
  unfold Iterator.intoSparse at h
  obtain ⟨s, h1, h2⟩ := Option.bind_eq_some_iff.mp h
  cases h2
  have h1' : x.it.passToSparse.s.move bmi f.ls first = some s := h1
  refine ⟨{ x with it := { x.it with s := s } }, ?_, rfl, ⟨rfl, rfl⟩, rfl⟩
  unfold intoSparse
  rw [h1']
  rfl

theorem incrDense_follows {x : IterMem} {r : Iterator} (ho : x.mem.Ok x.s) (h : x.view.incrDense bmi f = some r) : Follows (Moves g) x r (x.incrDense g bmi f) := by
  unfold Iterator.incrDense at h
  unfold incrDense
  by_cases h0 : (!x.it.d.valid) = true
  · rw [if_pos h0]
    rw [if_pos (show (!x.view.d.valid) = true from h0)] at h
    cases h
    exact ⟨_, rfl, rfl, .refl, rfl⟩
  · rw [if_neg h0]
    rw [if_neg (show ¬ (!x.view.d.valid) = true from h0)] at h
    obtain ⟨d, h1, h2⟩ := Option.bind_eq_some_iff.mp h
    obtain ⟨d', e1, e2, e3⟩ := DenseMem.next_follows (g := g) (x := x.dense) ho h1
    subst e2
    show Follows _ _ _ ((x.dense.next g f.ld).bind _)
    rw [e1, Option.bind_some]
    dsimp only
    dsimp only at h2
    by_cases hv : (!d'.d.valid) = true
    · rw [if_pos hv]
      rw [if_pos (show (!d'.view.valid) = true from hv)] at h2
      cases h2
      exact ⟨_, rfl, rfl, e3, rfl⟩
    · rw [if_neg hv]
      rw [if_neg (show ¬ (!d'.view.valid) = true from hv)] at h2
      by_cases hl : d'.d.leftComp = true
      · rw [if_pos hl]
        rw [if_pos (show d'.view.leftComp = true from hl)] at h2
        cases h2
        exact ⟨_, rfl, rfl, e3, rfl⟩
      · rw [if_neg hl]
        rw [if_neg (show ¬ d'.view.leftComp = true from hl)] at h2
        obtain ⟨x2, a1, a2, ⟨a3, a4⟩, a5⟩ := intoSparse_follows (x := x.withDense d') h2
        exact ⟨x2, a1, a2, by rw [a3, a4]; exact e3, a5⟩

theorem decrDense_follows {x : IterMem} {r : Iterator} (ho : x.mem.Ok x.s) (h : x.view.decrDense bmi f = some r) : Follows (Moves g) x r (x.decrDense g bmi f) := by
  unfold Iterator.decrDense at h
  unfold decrDense
  by_cases h0 : (!x.it.d.valid) = true
  · rw [if_pos h0]
    rw [if_pos (show (!x.view.d.valid) = true from h0)] at h
    cases h
    exact ⟨_, rfl, rfl, .refl, rfl⟩
  · rw [if_neg h0]
    rw [if_neg (show ¬ (!x.view.d.valid) = true from h0)] at h
    obtain ⟨d, h1, h2⟩ := Option.bind_eq_some_iff.mp h
    obtain ⟨d', e1, e2, e3⟩ := DenseMem.prev_follows (g := g) (x := x.dense) ho h1
    subst e2
    show Follows _ _ _ ((x.dense.prev g f.ld).bind _)
    rw [e1, Option.bind_some]
    dsimp only
    dsimp only at h2
    by_cases hv : (!d'.d.valid) = true
    · rw [if_pos hv]
      rw [if_pos (show (!d'.view.valid) = true from hv)] at h2
      cases h2
      exact ⟨_, rfl, rfl, e3, rfl⟩
    · rw [if_neg hv]
      rw [if_neg (show ¬ (!d'.view.valid) = true from hv)] at h2
      by_cases hl : d'.d.rightComp = true
      · rw [if_pos hl]
        rw [if_pos (show d'.view.rightComp = true from hl)] at h2
        cases h2
        exact ⟨_, rfl, rfl, e3, rfl⟩
      · rw [if_neg hl]
        rw [if_neg (show ¬ d'.view.rightComp = true from hl)] at h2
        obtain ⟨x2, a1, a2, ⟨a3, a4⟩, a5⟩ := intoSparse_follows (x := x.withDense d') h2
        exact ⟨x2, a1, a2, by rw [a3, a4]; exact e3, a5⟩

theorem next_follows {x : IterMem} {r : Iterator} (ho : x.mem.Ok x.s) (h : x.view.next bmi f = some r) : Follows (Moves g) x r (x.next g bmi f) := by
  unfold Iterator.next at h
  unfold next
  by_cases h0 : x.it.s.valid = true
  · rw [if_pos h0]
    rw [if_pos (show x.view.s.valid = true from h0)] at h
    obtain ⟨s, h1, h2⟩ := Option.bind_eq_some_iff.mp h
    have h1' : x.it.s.next bmi f.ls = some s := h1
    show Follows _ _ _ ((x.it.s.next bmi f.ls).bind _)
    rw [h1', Option.bind_some]
    dsimp only at h2 ⊢
    by_cases hv : s.valid = true
    · rw [if_pos hv] at h2 ⊢
      cases h2
      exact ⟨_, rfl, rfl, .refl, rfl⟩
    · rw [if_neg hv] at h2 ⊢
      exact incrDense_follows (x := { x with it := { x.it with s := s } }) ho h2
  · rw [if_neg h0]
    rw [if_neg (show ¬ x.view.s.valid = true from h0)] at h
    exact incrDense_follows ho h

theorem prev_follows {x : IterMem} {r : Iterator} (ho : x.mem.Ok x.s) (h : x.view.prev bmi f = some r) : Follows (Moves g) x r (x.prev g bmi f) := by
  unfold Iterator.prev at h
  unfold prev
  by_cases h0 : x.it.s.valid = true
  · rw [if_pos h0]
    rw [if_pos (show x.view.s.valid = true from h0)] at h
    obtain ⟨s, h1, h2⟩ := Option.bind_eq_some_iff.mp h
    have h1' : x.it.s.prev bmi f.ls = some s := h1
    show Follows _ _ _ ((x.it.s.prev bmi f.ls).bind _)
    rw [h1', Option.bind_some]
    dsimp only at h2 ⊢
    by_cases hv : s.valid = true
    · rw [if_pos hv] at h2 ⊢
      cases h2
      exact ⟨_, rfl, rfl, .refl, rfl⟩
    · rw [if_neg hv] at h2 ⊢
      exact decrDense_follows (x := { x with it := { x.it with s := s } }) ho h2
  · rw [if_neg h0]
    rw [if_neg (show ¬ x.view.s.valid = true from h0)] at h
    exact decrDense_follows ho h

theorem reset_view {x : IterMem} : x.reset.view = x.view.reset := by
  show (⟨{ x.dense.reset.d with keyBuf := (x.mem.arr x.s.id).take 0 }, _⟩ : Iterator) = _
  rw [List.take_zero]
  rfl

/-- After `Reset` the slice is empty. -/
theorem reset_cut {x : IterMem} : x.reset.mem = x.mem ∧ x.reset.s = ⟨x.s.id, 0⟩ ∧ x.reset.k = x.k := ⟨rfl, rfl, rfl⟩

theorem seekToFirst_follows {x : IterMem} {r : Iterator} (ho : x.mem.Ok x.s) (h : x.view.seekToFirst bmi f = some r) : Follows (Moves g) x r (x.seekToFirst g bmi f) := by
  unfold Iterator.seekToFirst at h
  rw [← reset_view] at h
  unfold seekToFirst
  dsimp only at h ⊢
  have hx : x.reset.mem.Ok x.reset.s := ho.cut (Nat.zero_le _)
  have up : ∀ {m' s'}, Apps g x.reset.mem x.reset.s m' s' → Moves g x.mem x.s m' s' := fun h => ⟨0, Nat.zero_le _, h⟩
  have hk : x.reset.k = x.k := rfl
  generalize x.reset = y at h hx up hk ⊢
  by_cases h0 : f.ld.height > 0
  · rw [if_pos h0] at h ⊢
    simp only [Option.bind_eq_bind] at h ⊢
    obtain ⟨d, h1, h2⟩ := Option.bind_eq_some_iff.mp h
    obtain ⟨d', e1, e2, e3⟩ := DenseMem.setToFirstInRoot_follows (g := g) (x := y.dense) hx h1
    subst e2
    rw [e1, Option.bind_some]
    obtain ⟨d2, h3, h4⟩ := Option.bind_eq_some_iff.mp h2
    obtain ⟨d3, a1, a2, a3⟩ := DenseMem.moveLeft_follows (g := g) (e3.works.ok hx) h3
    subst a2
    rw [a1, Option.bind_some]
    have mv := up (e3.trans a3)
    by_cases hl : d3.d.leftComp = true
    · rw [if_pos hl]
      rw [if_pos (show d3.view.leftComp = true from hl)] at h4
      cases h4
      exact ⟨_, rfl, rfl, mv, hk⟩
    · rw [if_neg hl]
      rw [if_neg (show ¬ d3.view.leftComp = true from hl)] at h4
      obtain ⟨x2, b1, b2, ⟨b3, b4⟩, b5⟩ := intoSparse_follows (x := y.withDense d3) h4
      exact ⟨x2, b1, b2, by rw [b3, b4]; exact mv, b5.trans hk⟩
  · rw [if_neg h0] at h ⊢
    by_cases h1 : f.ls.height > 0
    · rw [if_pos h1] at h ⊢
      simp only [Option.bind_eq_bind] at h ⊢
      obtain ⟨s, h2, h3⟩ := Option.bind_eq_some_iff.mp h
      obtain ⟨s2, h4, h5⟩ := Option.bind_eq_some_iff.mp h3
      have h2' : y.it.s.setToFirstInRoot f.ls = some s := h2
      rw [h2', Option.bind_some, h4, Option.bind_some]
      cases h5
      exact ⟨_, rfl, rfl, up .refl, hk⟩
    · rw [if_neg h1] at h ⊢
      cases h
      exact ⟨_, rfl, rfl, up .refl, hk⟩

theorem seekToLast_follows {x : IterMem} {r : Iterator} (ho : x.mem.Ok x.s) (h : x.view.seekToLast bmi f = some r) : Follows (Moves g) x r (x.seekToLast g bmi f) := by
  unfold Iterator.seekToLast at h
  rw [← reset_view] at h
  unfold seekToLast
  dsimp only at h ⊢
  have hx : x.reset.mem.Ok x.reset.s := ho.cut (Nat.zero_le _)
  have up : ∀ {m' s'}, Apps g x.reset.mem x.reset.s m' s' → Moves g x.mem x.s m' s' := fun h => ⟨0, Nat.zero_le _, h⟩
  have hk : x.reset.k = x.k := rfl
  generalize x.reset = y at h hx up hk ⊢
  by_cases h0 : f.ld.height > 0
  · rw [if_pos h0] at h ⊢
    simp only [Option.bind_eq_bind] at h ⊢
    obtain ⟨d, h1, h2⟩ := Option.bind_eq_some_iff.mp h
    obtain ⟨d', e1, e2, e3⟩ := DenseMem.setToLastInRoot_follows (g := g) (x := y.dense) hx h1
    subst e2
    rw [e1, Option.bind_some]
    obtain ⟨d2, h3, h4⟩ := Option.bind_eq_some_iff.mp h2
    obtain ⟨d3, a1, a2, a3⟩ := DenseMem.moveRight_follows (g := g) (e3.works.ok hx) h3
    subst a2
    rw [a1, Option.bind_some]
    have mv := up (e3.trans a3)
    by_cases hl : d3.d.rightComp = true
    · rw [if_pos hl]
      rw [if_pos (show d3.view.rightComp = true from hl)] at h4
      cases h4
      exact ⟨_, rfl, rfl, mv, hk⟩
    · rw [if_neg hl]
      rw [if_neg (show ¬ d3.view.rightComp = true from hl)] at h4
      obtain ⟨x2, b1, b2, ⟨b3, b4⟩, b5⟩ := intoSparse_follows (x := y.withDense d3) h4
      exact ⟨x2, b1, b2, by rw [b3, b4]; exact mv, b5.trans hk⟩
  · rw [if_neg h0] at h ⊢
    by_cases h1 : f.ls.height > 0
    · rw [if_pos h1] at h ⊢
      simp only [Option.bind_eq_bind] at h ⊢
      obtain ⟨s, h2, h3⟩ := Option.bind_eq_some_iff.mp h
      obtain ⟨s2, h4, h5⟩ := Option.bind_eq_some_iff.mp h3
      have h2' : y.it.s.setToLastInRoot bmi f.ls = some s := h2
      rw [h2', Option.bind_some, h4, Option.bind_some]
      cases h5
      exact ⟨_, rfl, rfl, up .refl, hk⟩
    · rw [if_neg h1] at h ⊢
      cases h
      exact ⟨_, rfl, rfl, up .refl, hk⟩

/-- The same for `Seek`, which also returns whether it may have found its key. -/
def Follows2 (g : Nat → Nat → Nat) (x : IterMem) (r : Iterator × Bool) (y : Option (IterMem × Bool)) : Prop := ∃ x', y = some (x', r.2) ∧ x'.view = r.1 ∧ Works g x.mem x.s x'.mem x'.s ∧ x'.k = x.k

theorem seek_follows {x : IterMem} {key : Bytes} {r : Iterator × Bool} (ho : x.mem.Ok x.s) (h : x.view.seek bmi f key = some r) : Follows2 g x r (x.seek g bmi f key) := by
  unfold Iterator.seek at h
  rw [← reset_view] at h
  unfold seek
  dsimp only at h ⊢
  have hx : x.reset.mem.Ok x.reset.s := ho.cut (Nat.zero_le _)
  have up : ∀ {m' s'}, Works g x.reset.mem x.reset.s m' s' → Works g x.mem x.s m' s' := fun h => (Works.cut 0 (Nat.zero_le _) .refl).trans h
  have hk : x.reset.k = x.k := rfl
  generalize x.reset = y at h hx up hk ⊢
  by_cases h0 : f.ls.height = 0 ∧ f.ld.height = 0
  · rw [if_pos h0] at h ⊢
    cases h
    exact ⟨_, rfl, rfl, up .refl, hk⟩
  · rw [if_neg h0] at h ⊢
    simp only [Option.bind_eq_bind] at h ⊢
    obtain ⟨⟨d, fp⟩, h1, h2⟩ := Option.bind_eq_some_iff.mp h
    obtain ⟨d', e1, e2, e3⟩ := DenseMem.seek_follows (g := g) (x := y.dense) hx h1
    dsimp only at e1 e2 h2
    subst e2
    rw [e1, Option.bind_some]
    dsimp only
    by_cases hv : (!d'.d.valid || d'.d.isComplete) = true
    · rw [if_pos hv]
      rw [if_pos (show (!d'.view.valid || d'.view.isComplete) = true from hv)] at h2
      cases h2
      exact ⟨_, rfl, rfl, up e3, hk⟩
    · rw [if_neg hv]
      rw [if_neg (show ¬ (!d'.view.valid || d'.view.isComplete) = true from hv)] at h2
      by_cases hs : (!d'.d.searchComp) = true
      · rw [if_pos hs]
        rw [if_pos (show (!d'.view.searchComp) = true from hs)] at h2
        obtain ⟨⟨s, fp2⟩, h3, h4⟩ := Option.bind_eq_some_iff.mp h2
        have h3' : (y.withDense d').it.passToSparse.s.seek bmi f.ls key = some (s, fp2) := h3
        rw [h3', Option.bind_some]
        dsimp only at h4 ⊢
        by_cases hsv : (!s.valid) = true
        · rw [if_pos hsv] at h4 ⊢
          obtain ⟨it, h5, h6⟩ := Option.bind_eq_some_iff.mp h4
          cases h6
          obtain ⟨x2, b1, b2, b3, b4⟩ := incrDense_follows (g := g) (x := { y.withDense d' with it := { (y.withDense d').it.passToSparse with s := s } }) (e3.ok hx) h5
          rw [b1, Option.bind_some]
          exact ⟨x2, rfl, b2, up (e3.trans b3.works), b4.trans hk⟩
        · rw [if_neg hsv] at h4 ⊢
          cases h4
          exact ⟨_, rfl, rfl, up e3, hk⟩
      · rw [if_neg hs]
        rw [if_neg (show ¬ (!d'.view.searchComp) = true from hs)] at h2
        by_cases hl : (!d'.d.leftComp) = true
        · rw [if_pos hl]
          rw [if_pos (show (!d'.view.leftComp) = true from hl)] at h2
          obtain ⟨it, h5, h6⟩ := Option.bind_eq_some_iff.mp h2
          cases h6
          obtain ⟨x2, b1, b2, ⟨b3, b4⟩, b5⟩ := intoSparse_follows (x := y.withDense d') h5
          rw [b1, Option.bind_some]
          exact ⟨x2, rfl, b2, by rw [b3, b4]; exact up e3, b5.trans hk⟩
        · rw [if_neg (show ¬ (!d'.view.leftComp) = true from hl)] at h2
          cases h2

/-- `Key`: what it returns, and what it does to memory. -/
theorem key_follows {x : IterMem} {k : Bytes} (hx : x.Sep) (h : x.view.key = some k) : ∃ x' sl, x.key g = some (x', sl) ∧ x'.mem.read sl = k ∧ x'.it = x.it ∧ x'.s = x.s ∧ x'.mem.Ok sl ∧
    if x.it.d.isComplete then x' = x ∧ sl.id = x.s.id ∧ sl.len ≤ x.s.len
    else Apps g x.mem ⟨x.k.id, 0⟩ x'.mem sl ∧ (x'.k.id = x.k.id ∨ x.mem.length ≤ x'.k.id) ∧ x'.mem.Ok x'.k ∧ (sl.id = x'.k.id ∨ (x.mem.length ≤ sl.id ∧ sl.id ≠ x'.k.id)) := by
  unfold Iterator.key at h
  unfold key
  by_cases hc : x.it.d.isComplete = true
  · rw [if_pos (show x.view.d.isComplete = true from hc)] at h
    obtain ⟨sl, e1, e2, e3, e4⟩ := DenseMem.key_follows (x := x.dense) hx.s h
    refine ⟨x, sl, ?_, e4, rfl, rfl, ⟨by rw [e2]; exact hx.s.id, by rw [e2]; exact Nat.le_trans e3 hx.s.len⟩, ?_⟩
    · simp only [Option.bind_eq_bind]
      rw [e1, Option.bind_some, if_pos hc]
      rfl
    · rw [if_pos hc]
      exact ⟨rfl, e2, e3⟩
  · rw [if_neg (show ¬ x.view.d.isComplete = true from hc)] at h
    obtain ⟨dk, h1, h2⟩ := Option.bind_eq_some_iff.mp h
    obtain ⟨sk, h3, h4⟩ := Option.bind_eq_some_iff.mp h2
    cases h4
    obtain ⟨sl, e1, e2, e3, e4⟩ := DenseMem.key_follows (x := x.dense) hx.s h1
    have h3' : x.it.s.key = some sk := h3
    have e4' : x.mem.read sl = dk := e4
    have ok0 : x.mem.Ok ⟨x.k.id, 0⟩ := hx.k.cut (Nat.zero_le _)
    have ok1 := Mem.append_ok (g := g) (w := dk) ok0
    have ok2 := Mem.append_ok (g := g) (w := sk) ok1
    have gr := Mem.append_grows (g := g) (m := x.mem) (s := ⟨x.k.id, 0⟩) (w := dk)
    simp only [Option.bind_eq_bind]
    rw [e1, Option.bind_some, if_neg hc, h3', Option.bind_some, e4']
    refine ⟨_, _, rfl, ?_, rfl, rfl, ok2, ?_⟩
    · dsimp only
      rw [Mem.append_read ok1, Mem.append_read ok0]
      simp [Mem.read]
    · rw [if_neg hc]
      refine ⟨.app _ (.app _ .refl), ?_, ?_, ?_⟩
      · rcases Mem.append_id (g := g) (m := x.mem) (s := ⟨x.k.id, 0⟩) (w := dk) with q | q
        · exact .inl q
        · exact .inr (Nat.le_of_eq q.symm)
      · have hid := ok1.id
        refine ⟨Nat.lt_of_lt_of_le hid Mem.append_grows, ?_⟩
        dsimp only
        by_cases q : ((x.mem.append g ⟨x.k.id, 0⟩ dk).1.append g (x.mem.append g ⟨x.k.id, 0⟩ dk).2 sk).2.id = (x.mem.append g ⟨x.k.id, 0⟩ dk).2.id
        · obtain ⟨q1, q2⟩ := Mem.append_same ok1 q
          rw [q1, store_length q2]
          exact ok1.len
        · rw [Mem.append_moved ok1 q]
          exact ok1.len
      · dsimp only
        rcases Mem.append_id (g := g) (m := (x.mem.append g ⟨x.k.id, 0⟩ dk).1) (s := (x.mem.append g ⟨x.k.id, 0⟩ dk).2) (w := sk) with q | q
        · exact .inl q
        · refine .inr ⟨by rw [q]; exact gr, ?_⟩
          rw [q]
          exact Ne.symm (Nat.ne_of_lt ok1.id)

end IterMem

end Surf
