import Verif.Surf.Iter

/-!
# Moves do not look at the bytes of the key

The same call on two iterators that differ only in the bytes of the key buffer of the dense part.
-/

set_option linter.unusedSimpArgs false

namespace Surf

/-- Two buffers that come from `c` and `c'` by the same work: some of the first bytes are left, and the same bytes follow. -/
def NearB (c c' b b' : Bytes) : Prop := ∃ m fresh, m ≤ c.length ∧ b = c.take m ++ fresh ∧ b' = c'.take m ++ fresh

/-- Both calls fail, or both succeed with results that are related. -/
inductive Both {α β : Type} (R : α → β → Prop) : Option α → Option β → Prop
  | none : Both R none none
  | some {a b} : R a b → Both R (some a) (some b)

section
variable {c c' : Bytes}

theorem NearB.start : NearB c c' c c' ∨ c.length ≠ c'.length := by
  by_cases h : c.length = c'.length
  · exact .inl ⟨c.length, [], Nat.le_refl _, by simp, by rw [h]; simp⟩
  · exact .inr h

theorem NearB.len {b b' : Bytes} (hl : c.length = c'.length) (h : NearB c c' b b') : b.length = b'.length := by
  obtain ⟨m, fr, _, rfl, rfl⟩ := h
  simp [hl]

theorem NearB.app {b b' : Bytes} (h : NearB c c' b b') (w : Bytes) : NearB c c' (b ++ w) (b' ++ w) := by
  obtain ⟨m, fr, hm, rfl, rfl⟩ := h
  exact ⟨m, fr ++ w, hm, by simp, by simp⟩

theorem NearB.cut {b b' : Bytes} (hl : c.length = c'.length) (h : NearB c c' b b') (n : Nat) : NearB c c' (b.take n) (b'.take n) := by
  obtain ⟨m, fr, hm, rfl, rfl⟩ := h
  by_cases hn : n ≤ m
  · refine ⟨n, [], Nat.le_trans hn hm, ?_, ?_⟩
    · rw [List.take_append_of_le_length (by simp; omega), List.take_take, Nat.min_eq_left hn, List.append_nil]
    · rw [List.take_append_of_le_length (by simp; omega), List.take_take, Nat.min_eq_left hn, List.append_nil]
  · refine ⟨m, fr.take (n - m), hm, ?_, ?_⟩
    · rw [List.take_append, List.take_of_length_le (by simp; omega)]
      congr 2
      simp
      omega
    · rw [List.take_append, List.take_of_length_le (by simp; omega)]
      congr 2
      simp
      omega

theorem Both.refl {α : Type} {R : α → α → Prop} (h : ∀ a, R a a) : ∀ x, Both R x x
  | .none => .none
  | .some a => .some (h a)

theorem Both.bind {α β γ δ : Type} {R : α → β → Prop} {Q : γ → δ → Prop} {x : Option α} {y : Option β} {F : α → Option γ} {G : β → Option δ} (h : Both R x y) (hk : ∀ a b, R a b → Both Q (F a) (G b)) : Both Q (x.bind F) (y.bind G) := by
  cases h with
  | none => exact .none
  | some h => exact hk _ _ h

theorem Both.same {α γ δ : Type} {Q : γ → δ → Prop} (x : Option α) {F : α → Option γ} {G : α → Option δ} (hk : ∀ a, Both Q (F a) (G a)) : Both Q (x.bind F) (x.bind G) := by
  cases x with
  | none => exact .none
  | some a => exact hk a

theorem Both.ite {α β : Type} {R : α → β → Prop} (p : Prop) [Decidable p] {x x' : Option α} {y y' : Option β} (h1 : Both R x y) (h2 : Both R x' y') : Both R (if p then x else x') (if p then y else y') := by
  split
  · exact h1
  · exact h2

/-- Two dense iterators that differ in the buffer only, and there as above. -/
def Near (c c' : Bytes) (d d' : DenseIter) : Prop := ∃ b', d' = { d with keyBuf := b' } ∧ NearB c c' d.keyBuf b'

namespace DenseIter

variable {ld : LoudsDense}

theorem append_near {d d' : DenseIter} (h : Near c c' d d') (pos : Nat) : Both (Near c c') (d.append ld pos) (d'.append ld pos) := by
  obtain ⟨b', rfl, h⟩ := h
  unfold append
  simp only [Option.bind_eq_bind]
  refine .same _ fun pre => .same _ fun ps => .same _ fun n => .same _ fun ls => .some ⟨_, rfl, (h.app _).app _⟩

theorem cutTo_near {b b' : Bytes} (hl : c.length = c'.length) (h : NearB c c' b b') (n : Nat) : Both (NearB c c') (cutTo b n) (cutTo b' n) := by
  unfold cutTo
  rw [← h.len hl]
  split
  · exact .some (h.cut hl n)
  · exact .none

theorem setAt_near {d d' : DenseIter} (hl : c.length = c'.length) (h : Near c c' d d') (pos : Nat) : Both (Near c c') (d.setAt pos) (d'.setAt pos) := by
  obtain ⟨b', rfl, h⟩ := h
  unfold setAt
  simp only [Option.bind_eq_bind]
  refine .same _ fun n => .same _ fun n' => .bind (cutTo_near hl h n') fun b b2 hb => .same _ fun ps => .some ⟨_, rfl, hb.app _⟩

theorem truncate_near {d d' : DenseIter} (hl : c.length = c'.length) (h : Near c c' d d') : Both (Near c c') d.truncate d'.truncate := by
  obtain ⟨b', rfl, h⟩ := h
  unfold truncate
  simp only [Option.bind_eq_bind]
  refine .same _ fun n => .bind (cutTo_near hl h n) fun b b2 hb => .some ⟨_, rfl, hb⟩

theorem flags_near {d d' : DenseIter} {s l r : Bool} (h : Near c c' d d') : Near c c' (d.flags s l r) (d'.flags s l r) := by
  obtain ⟨b', rfl, h⟩ := h
  exact ⟨_, rfl, h⟩

theorem leftLoop_near (hl : c.length = c'.length) : ∀ (n : Nat) {d d' : DenseIter} (pos : Nat), Near c c' d d' → Both (Near c c') (leftLoop ld n d pos) (leftLoop ld n d' pos) := by
  intro n
  induction n with
  | zero =>
    intro d d' pos h
    obtain ⟨b', rfl, h⟩ := h
    unfold leftLoop
    simp only [Option.bind_eq_bind]
    refine .same _ fun x => .some (flags_near ⟨b', ?_, h⟩)
    dsimp only
    rw [h.len hl]
  | succ n ih =>
    intro d d' pos h
    have h' : Near c c' { d with level := d.level + 1 } { d' with level := d'.level + 1 } := by
      obtain ⟨b', rfl, h⟩ := h
      exact ⟨_, rfl, h⟩
    unfold leftLoop
    simp only [Option.bind_eq_bind]
    refine .same _ fun nodeID => .same _ fun p => .same _ fun q => .same _ fun pos' => .bind (append_near h' pos') fun a a' ha => ?_
    refine .ite _ (.some ?_) (.same _ fun hc => .ite _ (.some (flags_near ha)) (ih _ ha))
    obtain ⟨b', rfl, ha⟩ := ha
    exact ⟨_, rfl, ha⟩

theorem moveLeft_near {d d' : DenseIter} (hl : c.length = c'.length) (h : Near c c' d d') : Both (Near c c') (d.moveLeft ld) (d'.moveLeft ld) := by
  have h2 := h
  obtain ⟨b', rfl, h⟩ := h
  unfold moveLeft
  simp only [Option.bind_eq_bind]
  exact .same _ fun pos => .same _ fun hc => .ite _ (.some (flags_near h2)) (leftLoop_near hl _ _ h2)

theorem rightLoop_near (hl : c.length = c'.length) : ∀ (n : Nat) {d d' : DenseIter} (pos : Nat), Near c c' d d' → Both (Near c c') (rightLoop ld n d pos) (rightLoop ld n d' pos) := by
  intro n
  induction n with
  | zero =>
    intro d d' pos h
    obtain ⟨b', rfl, h⟩ := h
    unfold rightLoop
    simp only [Option.bind_eq_bind]
    refine .same _ fun x => .some (flags_near ⟨b', ?_, h⟩)
    dsimp only
    rw [h.len hl]
  | succ n ih =>
    intro d d' pos h
    have h' : Near c c' { d with level := d.level + 1 } { d' with level := d'.level + 1 } := by
      obtain ⟨b', rfl, h⟩ := h
      exact ⟨_, rfl, h⟩
    unfold rightLoop
    simp only [Option.bind_eq_bind]
    refine .same _ fun nodeID => .same _ fun p => ?_
    refine .ite _ (.some ?_) (.bind (append_near h' _) fun a a' ha => .same _ fun hc => .ite _ (.some (flags_near ha)) (ih _ ha))
    obtain ⟨b', rfl, h⟩ := h
    exact ⟨_, rfl, h⟩

theorem moveRight_near {d d' : DenseIter} (hl : c.length = c'.length) (h : Near c c' d d') : Both (Near c c') (d.moveRight ld) (d'.moveRight ld) := by
  have h2 := h
  obtain ⟨b', rfl, h⟩ := h
  unfold moveRight
  simp only [Option.bind_eq_bind]
  exact .same _ fun pos => .same _ fun hc => .ite _ (.some (flags_near h2)) (rightLoop_near hl _ _ h2)

theorem next_near {d d' : DenseIter} (hl : c.length = c'.length) (h : Near c c' d d') : Both (Near c c') (d.next ld) (d'.next ld) := by
  have h2 := h
  obtain ⟨b', rfl, h⟩ := h
  unfold next
  simp only [Option.bind_eq_bind]
  refine .ite _ (.some h2) (.ite _ (moveLeft_near hl ⟨_, rfl, h⟩) (.same _ fun o => ?_))
  cases o with
  | none => exact .some ⟨_, rfl, h⟩
  | some o => exact .bind (setAt_near (d := { d with level := o.1 }) hl ⟨_, rfl, h⟩ _) fun a a' ha => moveLeft_near hl ha

theorem prev_near {d d' : DenseIter} (hl : c.length = c'.length) (h : Near c c' d d') : Both (Near c c') (d.prev ld) (d'.prev ld) := by
  have h2 := h
  obtain ⟨b', rfl, h⟩ := h
  unfold prev
  simp only [Option.bind_eq_bind]
  refine .ite _ (.some h2) ?_
  have key : ∀ {y y' : DenseIter}, Near c c' y y' → Both (Near c c') ((prevLoop ld y.posInTrie y.level).bind fun o => match o with
        | .out lev => some { y with level := lev, valid := false }
        | .atPrefix lev => ({ y with level := lev } : DenseIter).truncate.bind fun it => some ({ it with atPrefixKey := true }.flags true true true)
        | .found lev pp => (({ y with level := lev } : DenseIter).setAt pp).bind fun it => it.moveRight ld)
      ((prevLoop ld y'.posInTrie y'.level).bind fun o => match o with
        | .out lev => some { y' with level := lev, valid := false }
        | .atPrefix lev => ({ y' with level := lev } : DenseIter).truncate.bind fun it => some ({ it with atPrefixKey := true }.flags true true true)
        | .found lev pp => (({ y' with level := lev } : DenseIter).setAt pp).bind fun it => it.moveRight ld) := by
    rintro y y' ⟨b, rfl, hb⟩
    refine .same _ fun o => ?_
    cases o with
    | out lev => exact .some ⟨_, rfl, hb⟩
    | atPrefix lev =>
      refine .bind (truncate_near hl ⟨_, rfl, hb⟩) fun a a' ha => .some ?_
      obtain ⟨b2, rfl, h3⟩ := ha
      exact ⟨_, rfl, h3⟩
    | found lev pp => exact .bind (setAt_near (d := { y with level := lev }) hl ⟨_, rfl, hb⟩ _) fun a a' ha => moveRight_near hl ha
  refine key ?_
  by_cases hp : d.atPrefixKey = true
  · rw [if_pos hp, if_pos (show ({ d with keyBuf := b' } : DenseIter).atPrefixKey = true from hp)]
    exact ⟨_, rfl, h⟩
  · rw [if_neg hp, if_neg (show ¬ ({ d with keyBuf := b' } : DenseIter).atPrefixKey = true from hp)]
    exact h2

theorem key_near {d d' : DenseIter} (hl : c.length = c'.length) (h : Near c c' d d') : Both (NearB c c') d.key d'.key := by
  obtain ⟨b', rfl, h⟩ := h
  unfold key
  refine .ite _ ?_ (.some h)
  rw [← h.len hl]
  exact .same _ fun n => cutTo_near hl h n

end DenseIter

/-- Two iterators that differ in the buffer of the dense part only, and there as above. -/
def NearI (c c' : Bytes) (it it' : Iterator) : Prop := Near c c' it.d it'.d ∧ it'.s = it.s

namespace Iterator

variable {bmi : Bool} {f : SuRF}

theorem near_eq {it it' : Iterator} (h : NearI c c' it it') : ∃ b', it' = { it with d := { it.d with keyBuf := b' } } ∧ NearB c c' it.d.keyBuf b' := by
  obtain ⟨⟨b', h1, h2⟩, h3⟩ := h
  refine ⟨b', ?_, h2⟩
  cases it'
  cases it
  cases h1
  cases h3
  rfl

theorem intoSparse_near {it it' : Iterator} (first : Bool) (h : NearI c c' it it') : Both (NearI c c') (it.intoSparse bmi f first) (it'.intoSparse bmi f first) := by
  obtain ⟨b', rfl, hb⟩ := near_eq h
  unfold intoSparse
  exact .same _ fun s => .some ⟨⟨_, rfl, hb⟩, rfl⟩

theorem incrDense_near {it it' : Iterator} (hl : c.length = c'.length) (h : NearI c c' it it') : Both (NearI c c') (it.incrDense bmi f) (it'.incrDense bmi f) := by
  have h2 := h
  obtain ⟨b', rfl, hb⟩ := near_eq h
  unfold incrDense
  simp only [Option.bind_eq_bind]
  refine .ite _ (.some h2) (.bind (DenseIter.next_near hl ⟨b', rfl, hb⟩) fun a a' ha => ?_)
  obtain ⟨b2, rfl, h3⟩ := ha
  exact .ite _ (.some ⟨⟨_, rfl, h3⟩, rfl⟩) (.ite _ (.some ⟨⟨_, rfl, h3⟩, rfl⟩) (intoSparse_near _ ⟨⟨_, rfl, h3⟩, rfl⟩))

theorem decrDense_near {it it' : Iterator} (hl : c.length = c'.length) (h : NearI c c' it it') : Both (NearI c c') (it.decrDense bmi f) (it'.decrDense bmi f) := by
  have h2 := h
  obtain ⟨b', rfl, hb⟩ := near_eq h
  unfold decrDense
  simp only [Option.bind_eq_bind]
  refine .ite _ (.some h2) (.bind (DenseIter.prev_near hl ⟨b', rfl, hb⟩) fun a a' ha => ?_)
  obtain ⟨b2, rfl, h3⟩ := ha
  exact .ite _ (.some ⟨⟨_, rfl, h3⟩, rfl⟩) (.ite _ (.some ⟨⟨_, rfl, h3⟩, rfl⟩) (intoSparse_near _ ⟨⟨_, rfl, h3⟩, rfl⟩))

theorem next_near {it it' : Iterator} (hl : c.length = c'.length) (h : NearI c c' it it') : Both (NearI c c') (it.next bmi f) (it'.next bmi f) := by
  have h2 := h
  obtain ⟨b', rfl, hb⟩ := near_eq h
  unfold next
  simp only [Option.bind_eq_bind]
  exact .ite _ (.same _ fun s => .ite _ (.some ⟨⟨_, rfl, hb⟩, rfl⟩) (incrDense_near hl ⟨⟨_, rfl, hb⟩, rfl⟩)) (incrDense_near hl h2)

theorem prev_near {it it' : Iterator} (hl : c.length = c'.length) (h : NearI c c' it it') : Both (NearI c c') (it.prev bmi f) (it'.prev bmi f) := by
  have h2 := h
  obtain ⟨b', rfl, hb⟩ := near_eq h
  unfold prev
  simp only [Option.bind_eq_bind]
  exact .ite _ (.same _ fun s => .ite _ (.some ⟨⟨_, rfl, hb⟩, rfl⟩) (decrDense_near hl ⟨⟨_, rfl, hb⟩, rfl⟩)) (decrDense_near hl h2)

theorem key_near {it it' : Iterator} (hl : c.length = c'.length) (h : NearI c c' it it') : Both (NearB c c') it.key it'.key := by
  obtain ⟨b', rfl, hb⟩ := near_eq h
  unfold key
  simp only [Option.bind_eq_bind]
  have := DenseIter.key_near (d := it.d) (d' := { it.d with keyBuf := b' }) hl ⟨_, rfl, hb⟩
  exact .ite _ this (.bind this fun a a' ha => .same _ fun s => .some (ha.app s))

/-- Validity and value do not depend on the bytes of the buffer. -/
theorem value_near {it it' : Iterator} (h : NearI c c' it it') : it'.valid = it.valid ∧ it'.value f = it.value f := by
  obtain ⟨b', rfl, hb⟩ := near_eq h
  exact ⟨rfl, rfl⟩

/-- `Reset` makes them the same. -/
theorem reset_near {it it' : Iterator} (h : NearI c c' it it') : it'.reset = it.reset := by
  obtain ⟨b', rfl, hb⟩ := near_eq h
  rfl

end Iterator

end

end Surf
