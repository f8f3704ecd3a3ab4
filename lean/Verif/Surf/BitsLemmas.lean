import Verif.Common
import Verif.Surf.Bits

/-! Lemmas about `Verif.Surf.Bits`: words as boolean lists. -/

set_option linter.unusedSimpArgs false

namespace Surf

@[simp] theorem wbits_length (w : Word) : (wbits w).length = 64 := by simp [wbits]

theorem wbits_getElem? (w : Word) (i : Nat) :
    (wbits w)[i]? = if i < 64 then some (w.getLsbD i) else none := by
  unfold wbits
  by_cases h : i < 64 <;> simp [h]

@[simp] theorem wbits_getElem (w : Word) (i : Nat) (h : i < (wbits w).length) :
    (wbits w)[i] = w.getLsbD i := by
  simp [wbits]

@[simp] theorem bitsOf_nil : bitsOf [] = [] := rfl
@[simp] theorem bitsOf_cons (w : Word) (ws) : bitsOf (w :: ws) = wbits w ++ bitsOf ws := rfl
@[simp] theorem bitsOf_append (a b : List Word) : bitsOf (a ++ b) = bitsOf a ++ bitsOf b := by
  simp [bitsOf]

@[simp] theorem bitsOf_length (ws : List Word) : (bitsOf ws).length = 64 * ws.length := by
  induction ws with
  | nil => rfl
  | cons w ws ih => simp [ih]; omega

theorem bitsOf_getElem? (ws : List Word) (p : Nat) :
    (bitsOf ws)[p]? = (ws[p / 64]?).map (fun w => w.getLsbD (p % 64)) := by
  induction ws generalizing p with
  | nil => simp
  | cons w ws ih =>
    rw [bitsOf_cons]
    by_cases h : p < 64
    · rw [List.getElem?_append_left (by simpa using h), wbits_getElem?]
      have h1 : p / 64 = 0 := by omega
      have h2 : p % 64 = p := by omega
      simp [h, h1, h2]
    · rw [List.getElem?_append_right (by simp; omega)]
      have h1 : p / 64 = (p - 64) / 64 + 1 := by omega
      have h2 : p % 64 = (p - 64) % 64 := by omega
      simp [ih, h1, h2]

theorem and_one_shl_ne_zero (w : Word) (i : Nat) (h : i < 64) :
    ((w &&& (1#64 <<< i)) != 0#64) = w.getLsbD i := by
  cases hb : w.getLsbD i with
  | false =>
    have : w &&& (1#64 <<< i) = 0#64 := by
      apply BitVec.eq_of_getLsbD_eq
      intro j hj
      simp only [BitVec.getLsbD_and, BitVec.getLsbD_shiftLeft, BitVec.getLsbD_one]
      by_cases hji : j = i
      · subst hji; simp [hb]
      · by_cases h2 : j < i
        · simp [h2]
        · have : ¬ (j - i = 0) := by omega
          simp [this]
    simp [this]
  | true =>
    have : (w &&& (1#64 <<< i)).getLsbD i = true := by
      simp [BitVec.getLsbD_and, BitVec.getLsbD_shiftLeft, hb, h]
    rw [bne_iff_ne]
    intro hc
    rw [hc] at this
    simp at this

/-- Reading a bit is indexing the bit sequence; it panics exactly outside the slice. -/
theorem readBit_eq (bs : List Word) (pos : Nat) : readBit bs pos = (bitsOf bs)[pos]? := by
  rw [bitsOf_getElem?]
  unfold readBit
  cases h : bs[pos / 64]? with
  | none => rfl
  | some w =>
    simp only [Option.bind_eq_bind, Option.bind_some, Option.map_some]
    rw [and_one_shl_ne_zero w _ (Nat.mod_lt _ (by omega))]
    rfl

/-- Setting a bit updates exactly that position of the bit sequence. -/
theorem setBit_eq (bs : List Word) (pos : Nat) (h : pos < 64 * bs.length) :
    ∃ bs', setBit bs pos = some bs' ∧ bitsOf bs' = (bitsOf bs).set pos true ∧ bs'.length = bs.length := by
  have hlt : pos / 64 < bs.length := by omega
  refine ⟨bs.set (pos / 64) (bs[pos / 64] ||| (1#64 <<< (pos % 64))), ?_, ?_, by simp⟩
  · simp [setBit, List.getElem?_eq_getElem hlt]
  · apply List.ext_getElem?
    intro i
    rw [bitsOf_getElem?, List.getElem?_set, List.getElem?_set, bitsOf_getElem?]
    by_cases hi : pos = i
    · subst hi
      simp only [if_pos rfl, if_pos hlt, bitsOf_length, h, if_true, Option.map_some, BitVec.getLsbD_or,
        BitVec.getLsbD_shiftLeft, BitVec.getLsbD_one]
      have := Nat.mod_lt pos (show 64 > 0 by omega)
      simp [this]
    · simp only [if_neg hi]
      by_cases hd : pos / 64 = i / 64
      · have hne : i % 64 ≠ pos % 64 := by omega
        simp only [if_pos hd]
        have hlt' : i / 64 < bs.length := by omega
        simp only [hlt, if_true, Option.map_some, BitVec.getLsbD_or, BitVec.getLsbD_shiftLeft, BitVec.getLsbD_one]
        rw [List.getElem?_eq_getElem hlt']
        by_cases h3 : i % 64 < pos % 64
        · simp [h3, hd]
        · have : i % 64 - pos % 64 ≠ 0 := by omega
          simp [this, hd]
      · simp only [if_neg hd]

/-- counting in a list of booleans -/
abbrev ones (l : List Bool) : Nat := l.count true

theorem popcountLoop_eq (bs : List Word) (off n : Nat) (h : off + n ≤ bs.length) :
    popcountLoop bs off n = some (ones (((bitsOf bs).drop (64 * off)).take (64 * n))) := by
  induction n with
  | zero => simp [popcountLoop]
  | succ n ih =>
    have hlt : off + n < bs.length := by omega
    simp only [popcountLoop, ih (by omega), Option.bind_eq_bind, Option.bind_some,
      List.getElem?_eq_getElem hlt]
    congr 1
    have e : 64 * (n + 1) = 64 * n + 64 := by omega
    rw [e, List.take_add, ones, ones, List.count_append]
    congr 1
    unfold onesCount
    congr 1
    apply List.ext_getElem?
    intro i
    rw [wbits_getElem?, List.getElem?_take]
    by_cases hi : i < 64
    · simp only [hi, if_true, List.getElem?_drop]
      rw [bitsOf_getElem?]
      have h1 : (64 * off + (64 * n + i)) / 64 = off + n := by omega
      have h2 : (64 * off + (64 * n + i)) % 64 = i := by omega
      rw [h1, h2, List.getElem?_eq_getElem hlt]; rfl
    · simp [hi]

theorem wbits_shiftLeft (w : Word) (s : Nat) (h : s ≤ 64) :
    wbits (w <<< s) = List.replicate s false ++ (wbits w).take (64 - s) := by
  apply List.ext_getElem?
  intro i
  rw [wbits_getElem?]
  by_cases hi : i < s
  · rw [List.getElem?_append_left (by simpa using hi)]
    have : i < 64 := by omega
    simp [this, hi, List.getElem?_replicate]
  · rw [List.getElem?_append_right (by simp; omega), List.getElem?_take]
    simp only [List.length_replicate]
    by_cases h64 : i < 64
    · have : i - s < 64 - s := by omega
      have h2 : i - s < 64 := by omega
      simp [h64, hi, this, wbits_getElem?, h2, BitVec.getLsbD_shiftLeft]
    · have : ¬ (i - s < 64 - s) := by omega
      simp [h64, this]

theorem wbits_ushiftRight (w : Word) (s : Nat) (h : s ≤ 64) :
    wbits (w >>> s) = (wbits w).drop s ++ List.replicate s false := by
  apply List.ext_getElem?
  intro i
  rw [wbits_getElem?]
  by_cases hi : i < 64 - s
  · rw [List.getElem?_append_left (by simp; omega)]
    have h1 : i < 64 := by omega
    have h2 : s + i < 64 := by omega
    simp [h1, wbits_getElem?, h2]
  · rw [List.getElem?_append_right (by simp; omega)]
    simp only [List.length_drop, wbits_length, List.getElem?_replicate]
    by_cases h64 : i < 64
    · have h2 : 64 ≤ s + i := by omega
      have h3 : i - (64 - s) < s := by omega
      simp [h64, BitVec.getLsbD_of_ge _ _ h2, h3]
    · have h3 : ¬ (i - (64 - s) < s) := by omega
      simp [h64, h3]

/-- `popcountBlock bs off n` counts the set bits among the `n` bits starting at word `off`. -/
theorem popcountBlock_eq (bs : List Word) (off nbits : Nat) (h : 64 * off + nbits ≤ 64 * bs.length) :
    popcountBlock bs off nbits = some (ones (((bitsOf bs).drop (64 * off)).take nbits)) := by
  unfold popcountBlock
  by_cases h0 : nbits = 0
  · simp [h0]
  · have hlt : off + (nbits - 1) / 64 < bs.length := by omega
    simp only [h0, if_false, popcountLoop_eq bs off ((nbits - 1) / 64) (by omega), Option.bind_eq_bind,
      Option.bind_some, List.getElem?_eq_getElem hlt]
    congr 1
    have e : nbits = 64 * ((nbits - 1) / 64) + ((nbits - 1) % 64 + 1) := by omega
    conv_rhs => rw [e]
    rw [List.take_add, ones, ones, List.count_append]
    congr 1
    unfold onesCount
    rw [wbits_shiftLeft _ _ (by omega)]
    rw [List.count_append, List.count_replicate]
    simp only [Bool.false_eq_true, beq_iff_eq, if_false, Nat.zero_add]
    congr 1
    apply List.ext_getElem?
    intro i
    rw [List.getElem?_take, List.getElem?_take]
    have : 64 - (64 - 1 - (nbits - 1) % 64) = (nbits - 1) % 64 + 1 := by omega
    rw [this]
    by_cases hi : i < (nbits - 1) % 64 + 1
    · have hi64 : i < 64 := by omega
      simp only [hi, if_true, List.getElem?_drop, wbits_getElem?, hi64]
      rw [bitsOf_getElem?]
      have h1 : (64 * off + (64 * ((nbits - 1) / 64) + i)) / 64 = off + (nbits - 1) / 64 := by omega
      have h2 : (64 * off + (64 * ((nbits - 1) / 64) + i)) % 64 = i := by omega
      rw [h1, h2, List.getElem?_eq_getElem hlt]; rfl
    · simp [hi]

theorem getLsbD_eq_false_of_zero_bits (w : Word) : w = 0#64 ↔ ∀ i, i < 64 → w.getLsbD i = false := by
  constructor
  · rintro rfl i _; simp
  · intro h
    apply BitVec.eq_of_getLsbD_eq
    intro i hi
    simp [h i hi]

/-- `trailingZeros` of a non-zero word is the index of its first set bit. -/
theorem trailingZeros_spec (w : Word) (h : w ≠ 0#64) :
    trailingZeros w < 64 ∧ w.getLsbD (trailingZeros w) = true ∧ ∀ i, i < trailingZeros w → w.getLsbD i = false := by
  have hex : ∃ i, i < 64 ∧ w.getLsbD i = true := by
    by_contra hc
    apply h
    rw [getLsbD_eq_false_of_zero_bits]
    intro i hi
    cases hb : w.getLsbD i
    · rfl
    · exact absurd ⟨i, hi, hb⟩ hc
  obtain ⟨i, hi, hb⟩ := hex
  have hlt : trailingZeros w < (wbits w).length := by
    apply List.findIdx_lt_length_of_exists
    refine ⟨true, ?_, rfl⟩
    rw [List.mem_iff_getElem?]
    exact ⟨i, by rw [wbits_getElem?]; simp [hi, hb]⟩
  refine ⟨by simpa using hlt, ?_, ?_⟩
  · have := List.findIdx_getElem (w := hlt)
    simpa [trailingZeros] using this
  · intro j hj
    have hj' : j < (wbits w).length := Nat.lt_trans hj hlt
    have := List.not_of_lt_findIdx (p := (· == true)) (xs := wbits w) hj
    simpa using this

theorem trailingZeros_zero : trailingZeros 0#64 = 64 := by decide

end Surf
