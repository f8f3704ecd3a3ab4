import Verif.Common
import Verif.Surf.RankLemmas

/-! The distance queries against the bit sequence. -/

set_option linter.unusedSimpArgs false

namespace Surf

/-- Index of the first `true` (the length if there is none). -/
abbrev firstTrue (l : List Bool) : Nat := l.findIdx (· == true)

theorem firstTrue_append_left {l m : List Bool} (h : true ∈ l) : firstTrue (l ++ m) = firstTrue l := by
  unfold firstTrue
  rw [List.findIdx_append, if_pos]
  exact List.findIdx_lt_length_of_exists ⟨true, h, rfl⟩

theorem firstTrue_append_right {l m : List Bool} (h : true ∉ l) : firstTrue (l ++ m) = l.length + firstTrue m := by
  unfold firstTrue
  rw [List.findIdx_append, if_neg]
  · omega
  · rw [List.findIdx_eq_length_of_false]
    · omega
    · intro x hx
      cases x
      · rfl
      · exact absurd hx h

theorem firstTrue_none {l : List Bool} (h : true ∉ l) : firstTrue l = l.length := by
  have := firstTrue_append_right (m := []) h
  simpa using this

theorem mem_wbits (w : Word) : true ∈ wbits w ↔ w ≠ 0#64 := by
  constructor
  · rintro h rfl
    have := List.count_pos_iff.2 h
    rw [wbits_zero_count] at this
    omega
  · intro h
    have := (isSelect_first w h).1
    exact List.mem_of_getElem? this

theorem trailingZeros_eq (w : Word) : trailingZeros w = firstTrue (wbits w) := rfl
theorem leadingZeros_eq (w : Word) : leadingZeros w = firstTrue (wbits w).reverse := rfl

/-- The first set bit at or after an offset in a word. -/
theorem trailingZeros_shift (w : Word) (s : Nat) (hs : s ≤ 64) :
    (w >>> s ≠ 0#64 ↔ true ∈ (wbits w).drop s) ∧
    (true ∈ (wbits w).drop s → trailingZeros (w >>> s) = firstTrue ((wbits w).drop s)) := by
  have e := wbits_ushiftRight w s hs
  have hm : true ∈ wbits (w >>> s) ↔ true ∈ (wbits w).drop s := by
    rw [e, List.mem_append]; simp
  refine ⟨by rw [← mem_wbits, hm], ?_⟩
  intro h
  rw [trailingZeros_eq, e, firstTrue_append_left h]

theorem leadingZeros_shift (w : Word) (s : Nat) (hs : s ≤ 64) :
    (w <<< s ≠ 0#64 ↔ true ∈ (wbits w).take (64 - s)) ∧
    (true ∈ (wbits w).take (64 - s) → leadingZeros (w <<< s) = firstTrue ((wbits w).take (64 - s)).reverse) := by
  have e := wbits_shiftLeft w s hs
  have hm : true ∈ wbits (w <<< s) ↔ true ∈ (wbits w).take (64 - s) := by
    rw [e, List.mem_append]; simp
  refine ⟨by rw [← mem_wbits, hm], ?_⟩
  intro h
  rw [leadingZeros_eq, e, List.reverse_append, firstTrue_append_left (by simpa using h)]

namespace BitVector

theorem distNextLoop_spec (v : BitVector) (hl : v.bits.length = v.numWords) (k wordOff d : Nat)
    (hk : wordOff + k + 1 = v.numWords) (hd : 64 ≤ d + 64 * k) :
    distNextLoop v k wordOff d = some
      (if true ∈ bitsOf (v.bits.drop (wordOff + 1)) then d + firstTrue (bitsOf (v.bits.drop (wordOff + 1)))
       else d + 64 * k - (64 * v.numWords - v.numBits)) := by
  have hw := numWordsOf_bounds v.numBits
  have hww : v.numWords = numWordsOf v.numBits := rfl
  induction k generalizing wordOff d with
  | zero =>
    have hdrop : v.bits.drop (wordOff + 1) = [] := by rw [List.drop_eq_nil_iff]; omega
    have hn : ¬ (true ∈ ([] : List Bool)) := by simp
    rw [distNextLoop, hdrop, bitsOf_nil, if_neg hn]
    by_cases h : v.numBits % 64 ≠ 0
    · rw [if_pos ⟨by omega, h⟩, usub, if_pos (by omega)]
      congr 1; omega
    · rw [if_neg (by rintro ⟨_, h2⟩; exact h h2)]
      congr 1; push Not at h; omega
  | succ k ih =>
    have hlt : wordOff + 1 < v.bits.length := by omega
    rw [distNextLoop]
    simp only [List.getElem?_eq_getElem hlt, Option.bind_eq_bind, Option.bind_some]
    rw [List.drop_eq_getElem_cons hlt, bitsOf_cons]
    by_cases hz : v.bits[wordOff + 1] = 0#64
    · have hnm : true ∉ wbits v.bits[wordOff + 1] := by rw [mem_wbits]; simpa using hz
      rw [if_neg (by simpa using hz), ih (wordOff + 1) (d + 64) (by omega) (by omega)]
      simp only [List.mem_append, hnm, false_or]
      rw [firstTrue_append_right hnm, wbits_length]
      congr 1
      split <;> omega
    · have hm : true ∈ wbits v.bits[wordOff + 1] := by rw [mem_wbits]; exact hz
      rw [if_pos hz, if_pos (by simp [hm]), firstTrue_append_left hm]
      rfl

/-- Next set bit: the distance to it, or to the end of the vector if there is none. -/
theorem distanceToNextSetBit_spec (v : BitVector) (hl : v.bits.length = v.numWords) (pos : Nat)
    (hp : pos < v.numBits) (hw : pos + 1 < 64 * v.numWords) :
    v.distanceToNextSetBit pos = some
      (if true ∈ (bitsOf v.bits).drop (pos + 1) then 1 + firstTrue ((bitsOf v.bits).drop (pos + 1))
       else v.numBits - pos) := by
  have hb := numWordsOf_bounds v.numBits
  have hww : v.numWords = numWordsOf v.numBits := rfl
  have hlt : (pos + 1) / 64 < v.bits.length := by omega
  have hn : ¬ ((pos + 1) / 64 ≥ v.bits.length) := by omega
  have hdrop := bitsOf_drop v.bits (pos + 1) hlt
  obtain ⟨hs1, hs2⟩ := trailingZeros_shift v.bits[(pos + 1) / 64] ((pos + 1) % 64) (by omega)
  unfold distanceToNextSetBit
  simp only [hn, if_false, List.getElem?_eq_getElem hlt, Option.bind_eq_bind, Option.bind_some]
  rw [hdrop]
  by_cases hm : true ∈ (wbits v.bits[(pos + 1) / 64]).drop ((pos + 1) % 64)
  · rw [if_pos (hs1.2 hm), if_pos (by simp [hm]), firstTrue_append_left hm, hs2 hm]
    rfl
  · rw [if_neg (by rw [hs1]; exact hm)]
    have hsub : usub v.numWords 1 = some (v.numWords - 1) := by rw [usub, if_pos (by omega)]
    simp only [hsub, Option.bind_some]
    by_cases hlast : (pos + 1) / 64 = v.numWords - 1
    · have hd0 : v.bits.drop ((pos + 1) / 64 + 1) = [] := by rw [List.drop_eq_nil_iff]; omega
      rw [if_pos hlast, hd0, usub, if_pos (by omega), if_neg]
      simpa using hm
    · rw [if_neg hlast, distNextLoop_spec v hl _ _ _ (by omega) (by omega)]
      simp only [List.mem_append, hm, false_or]
      rw [firstTrue_append_right hm]
      simp only [List.length_drop, wbits_length]
      congr 1
      split <;> omega

/-- Past the last word the code returns 0 (bits_vec.go:79-81). -/
theorem distanceToNextSetBit_past (v : BitVector) (pos : Nat) (hw : 64 * v.bits.length ≤ pos + 1) :
    v.distanceToNextSetBit pos = some 0 := by
  unfold distanceToNextSetBit
  rw [if_pos (by omega)]; rfl

theorem bitsOf_take (l : List Word) (n : Nat) : bitsOf (l.take n) = (bitsOf l).take (64 * n) := by
  induction l generalizing n with
  | nil => simp
  | cons w l ih =>
    cases n with
    | zero => simp
    | succ n =>
      have hl : (wbits w).length = 64 := by simp
      have e : 64 * (n + 1) = (wbits w).length + 64 * n := by omega
      rw [List.take_succ_cons, bitsOf_cons, bitsOf_cons, e, List.take_length_add_append, ih]

theorem distPrevLoop_spec (v : BitVector) (wordOff d : Nat) (hw : wordOff ≤ v.bits.length) :
    distPrevLoop v wordOff d = some (d + firstTrue ((bitsOf v.bits).take (64 * wordOff)).reverse) := by
  induction wordOff generalizing d with
  | zero => simp [distPrevLoop]
  | succ n ih =>
    have hlt : n < v.bits.length := by omega
    rw [distPrevLoop]
    simp only [List.getElem?_eq_getElem hlt, Option.bind_eq_bind, Option.bind_some]
    rw [take_succ_chunk _ _ hlt, List.reverse_append]
    by_cases hz : v.bits[n] = 0#64
    · have hnm : true ∉ (wbits v.bits[n]).reverse := by rw [List.mem_reverse, mem_wbits]; simpa using hz
      rw [if_neg (by simpa using hz), ih _ (by omega), firstTrue_append_right hnm]
      simp only [List.length_reverse, wbits_length]
      congr 1; omega
    · have hm : true ∈ (wbits v.bits[n]).reverse := by rw [List.mem_reverse, mem_wbits]; exact hz
      rw [if_pos hz, firstTrue_append_left hm]
      rfl

/-- Previous set bit: the distance to it, or `pos + 1` if there is none. -/
theorem distanceToPrevSetBit_spec (v : BitVector) (pos : Nat) (hp : pos ≤ 64 * v.bits.length) :
    v.distanceToPrevSetBit pos = some (1 + firstTrue ((bitsOf v.bits).take pos).reverse) := by
  unfold distanceToPrevSetBit
  by_cases h0 : pos = 0
  · simp [h0]
  · have hlt : (pos - 1) / 64 < v.bits.length := by omega
    simp only [h0, if_false, List.getElem?_eq_getElem hlt, Option.bind_eq_bind, Option.bind_some]
    have hsplit : (bitsOf v.bits).take pos = (bitsOf v.bits).take (64 * ((pos - 1) / 64)) ++
        (wbits v.bits[(pos - 1) / 64]).take (64 - (64 - 1 - (pos - 1) % 64)) := by
      have e : pos = 64 * ((pos - 1) / 64) + ((pos - 1) % 64 + 1) := by omega
      have e2 : 64 - (64 - 1 - (pos - 1) % 64) = (pos - 1) % 64 + 1 := by omega
      conv_lhs => rw [e]
      rw [List.take_add, e2]
      congr 1
      rw [bitsOf_drop v.bits (64 * ((pos - 1) / 64)) (by omega)]
      have e3 : 64 * ((pos - 1) / 64) / 64 = (pos - 1) / 64 := by omega
      have e4 : 64 * ((pos - 1) / 64) % 64 = 0 := by omega
      rw [e4, List.drop_zero, List.take_append_of_le_length (by simp; omega)]
      simp only [e3]
    obtain ⟨hs1, hs2⟩ := leadingZeros_shift v.bits[(pos - 1) / 64] (64 - 1 - (pos - 1) % 64) (by omega)
    rw [hsplit, List.reverse_append]
    by_cases hm : true ∈ (wbits v.bits[(pos - 1) / 64]).take (64 - (64 - 1 - (pos - 1) % 64))
    · rw [if_pos (hs1.2 hm), firstTrue_append_left (by simpa using hm), hs2 hm]
      rfl
    · rw [if_neg (by rw [hs1]; exact hm), distPrevLoop_spec v _ _ (by omega),
        firstTrue_append_right (by simpa using hm)]
      simp only [List.length_reverse, List.length_take, wbits_length]
      congr 1; omega

end BitVector
end Surf
