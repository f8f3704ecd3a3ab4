import Verif.Common
import Verif.Surf.InitLemmas
import Verif.Surf.Select64

/-! Rank, select and distance queries against the bit sequence. -/

set_option linter.unusedSimpArgs false

namespace Surf

theorem bitsOf_drop (l : List Word) (n : Nat) (hn : n / 64 < l.length) :
    (bitsOf l).drop n = (wbits l[n / 64]).drop (n % 64) ++ bitsOf (l.drop (n / 64 + 1)) := by
  induction l generalizing n with
  | nil => simp at hn
  | cons w l ih =>
    by_cases hn64 : n < 64
    · have e1 : n / 64 = 0 := by omega
      have e2 : n % 64 = n := by omega
      simp only [e1, e2, bitsOf_cons, List.getElem_cons_zero, List.drop_succ_cons, List.drop_zero, Nat.zero_add]
      rw [List.drop_append_of_le_length (by simp; omega)]
    · obtain ⟨m, rfl⟩ : ∃ m, n = 64 + m := ⟨n - 64, by omega⟩
      have e1 : (64 + m) / 64 = m / 64 + 1 := by omega
      have e2 : (64 + m) % 64 = m % 64 := by omega
      have hl : (wbits w).length = 64 := by simp
      have e3 : (wbits w ++ bitsOf l).drop (64 + m) = (bitsOf l).drop m := by
        rw [← hl, List.drop_length_add_append]
      simp only [e1, e2, bitsOf_cons, List.getElem_cons_succ, List.drop_succ_cons]
      rw [e3]
      exact ih m (by rw [e1] at hn; simpa using hn)

/-! ### Rank -/

namespace RankVector

/-- A rank vector whose table is the one `init` computes. -/
structure WF (v : RankVector) : Prop where
  words : v.bv.bits.length = numWordsOf v.bv.numBits
  lut : ∀ i, i ≤ v.bv.numBits / v.blockSize →
    v.rankLut[i]? = some (ones ((bitsOf v.bv.bits).take (i * v.blockSize)))

theorem lutLoop_spec (bits : List Word) (blockSize wpb n : Nat) (hb : blockSize = 64 * wpb)
    (h : n * blockSize ≤ 64 * bits.length) :
    lutLoop bits blockSize wpb n = some ((List.range n).map (fun i => ones ((bitsOf bits).take (i * blockSize))),
      ones ((bitsOf bits).take (n * blockSize))) := by
  induction n with
  | zero => simp [lutLoop]
  | succ n ih =>
    have hs : (n + 1) * blockSize = n * blockSize + blockSize := Nat.succ_mul _ _
    have e64 : 64 * (n * wpb) = n * blockSize := by rw [hb]; ring
    simp only [lutLoop, ih (by omega), Option.bind_eq_bind, Option.bind_some]
    rw [popcountBlock_eq bits (n * wpb) blockSize (by omega)]
    simp only [Option.bind_some, Option.pure_def, List.range_succ, List.map_append, List.map_cons, List.map_nil]
    rw [hs, List.take_add, ones, ones, ones, List.count_append, e64]

theorem init_wf (blockSize : Nat) (srcs ns) (v : RankVector) (bv : BitVector)
    (hbv : BitVector.init srcs ns = some bv) (hl : bv.bits.length = numWordsOf bv.numBits)
    (hd : 64 * (blockSize / 64) = blockSize) (hpos : 0 < blockSize)
    (h : init blockSize srcs ns = some v) : v.WF ∧ v.bv = bv ∧ v.blockSize = blockSize := by
  have hb := BitVector.numWordsOf_bounds bv.numBits
  have hle : bv.numBits / blockSize * blockSize ≤ bv.numBits := Nat.div_mul_le_self _ _
  have hlut := lutLoop_spec bv.bits blockSize (blockSize / 64) (bv.numBits / blockSize) hd.symm (by omega)
  simp only [init, hbv, Option.bind_eq_bind, Option.bind_some, hlut, Option.pure_def, Option.some.injEq] at h
  subst h
  refine ⟨⟨hl, ?_⟩, rfl, rfl⟩
  intro i hi
  simp only at hi ⊢
  by_cases hlt : i < bv.numBits / blockSize
  · rw [List.getElem?_append_left (by simpa using hlt)]
    simp [hlt]
  · have : i = bv.numBits / blockSize := by omega
    rw [List.getElem?_append_right (by simp; omega)]
    simp [this]

theorem init_total (blockSize : Nat) (srcs ns) (bv : BitVector)
    (hbv : BitVector.init srcs ns = some bv) (hl : bv.bits.length = numWordsOf bv.numBits)
    (hd : 64 * (blockSize / 64) = blockSize) :
    ∃ v, init blockSize srcs ns = some v := by
  have hb := BitVector.numWordsOf_bounds bv.numBits
  have hle : bv.numBits / blockSize * blockSize ≤ bv.numBits := Nat.div_mul_le_self _ _
  have hlut := lutLoop_spec bv.bits blockSize (blockSize / 64) (bv.numBits / blockSize) hd.symm (by omega)
  exact ⟨_, by simp [init, hbv, hlut]; rfl⟩

theorem rankDense_spec (v : RankVector) (h : v.WF) (hb : v.blockSize = 64) (pos : Nat) (hp : pos < v.bv.numBits) :
    v.rankDense pos = some (ones ((bitsOf v.bv.bits).take (pos + 1))) := by
  have hw := BitVector.numWordsOf_bounds v.bv.numBits
  have hl := h.words
  have hlut := h.lut (pos / 64) (by rw [hb]; omega)
  simp only [rankDense, rankDenseBlockSize, hlut, Option.bind_eq_bind, Option.bind_some, hb]
  have e1 : pos / 64 * (64 / 64) = pos / 64 := by omega
  rw [e1, popcountBlock_eq _ _ _ (by omega)]
  simp only [Option.bind_some, Option.pure_def, Option.some.injEq]
  have e2 : pos + 1 = pos / 64 * 64 + (pos % 64 + 1) := by omega
  have e3 : 64 * (pos / 64) = pos / 64 * 64 := by omega
  have e4 := List.take_add (l := bitsOf v.bv.bits) (i := pos / 64 * 64) (j := pos % 64 + 1)
  conv_rhs => rw [e2, e4]
  rw [ones, ones, ones, List.count_append, e3]

theorem rankSparse_spec (v : RankVector) (h : v.WF) (hb : v.blockSize = 512) (pos : Nat) (hp : pos < v.bv.numBits) :
    v.rankSparse pos = some (ones ((bitsOf v.bv.bits).take (pos + 1))) := by
  have hw := BitVector.numWordsOf_bounds v.bv.numBits
  have hl := h.words
  have hlut := h.lut (pos / 512) (by rw [hb]; omega)
  simp only [rankSparse, rankSparseBlockSize, hlut, Option.bind_eq_bind, Option.bind_some, hb]
  have e1 : pos / 512 * (512 / 64) = pos / 512 * 8 := by omega
  rw [e1, popcountBlock_eq _ _ _ (by omega)]
  simp only [Option.bind_some, Option.pure_def, Option.some.injEq]
  have e2 : pos + 1 = pos / 512 * 512 + (pos % 512 + 1) := by omega
  have e3 : 64 * (pos / 512 * 8) = pos / 512 * 512 := by omega
  have e4 := List.take_add (l := bitsOf v.bv.bits) (i := pos / 512 * 512) (j := pos % 512 + 1)
  conv_rhs => rw [e2, e4]
  rw [ones, ones, ones, List.count_append, e3]

end RankVector

/-! ### Select -/

theorem isSelect_append_right {l m : List Bool} {n p : Nat} (h : IsSelect m n p) :
    IsSelect (l ++ m) (l.count true + n) (l.length + p) := by
  refine ⟨by rw [List.getElem?_append_right (by omega)]; simpa using h.1, ?_⟩
  rw [List.take_length_add_append, List.count_append]
  have := h.2; omega

theorem isSelect_append_cases {l m : List Bool} {n p : Nat} (h : IsSelect (l ++ m) n p) :
    (n ≤ l.count true ∧ p < l.length ∧ IsSelect l n p) ∨
    (l.count true < n ∧ l.length ≤ p ∧ IsSelect m (n - l.count true) (p - l.length)) := by
  by_cases hp : p < l.length
  · left
    have hs : IsSelect l n p := by
      refine ⟨by have := h.1; rwa [List.getElem?_append_left hp] at this, ?_⟩
      have := h.2
      rwa [List.take_append_of_le_length (by omega)] at this
    exact ⟨hs.bounds.2.2, hp, hs⟩
  · right
    have h2 := h.2
    obtain ⟨d, rfl⟩ : ∃ d, p = l.length + d := ⟨p - l.length, by omega⟩
    rw [List.take_length_add_append, List.count_append] at h2
    refine ⟨by omega, by omega, ?_⟩
    refine ⟨?_, ?_⟩
    · have := h.1
      rwa [List.getElem?_append_right (by omega)] at this
    · have : l.length + d - l.length = d := by omega
      rw [this]; omega

namespace SelectVector

theorem selectLoop_spec (bmi : Bool) (bits : List Word) (fuel wordOff : Nat) (w : Word) (r q : Nat)
    (hf : bits.length - wordOff < fuel)
    (h : IsSelect (wbits w ++ bitsOf (bits.drop (wordOff + 1))) r q) :
    selectLoop bmi bits fuel wordOff w r = some (wordOff * 64 + q) := by
  induction fuel generalizing wordOff w r q with
  | zero => omega
  | succ fuel ih =>
    unfold selectLoop
    rcases isSelect_append_cases h with ⟨a, b, c⟩ | ⟨a, b, c⟩
    · have : ¬ (onesCount w < r) := by unfold onesCount; omega
      simp only [this, if_false]
      obtain ⟨p, e, hp⟩ := select64_spec bmi w r c.bounds.2.1 a
      have := hp.unique c
      simp [e, this]
    · have : onesCount w < r := a
      simp only [this, if_true]
      have hlt : wordOff + 1 < bits.length := by
        have := c.bounds.1
        rw [bitsOf_length, List.length_drop] at this
        omega
      rw [List.drop_eq_getElem_cons hlt, bitsOf_cons] at c
      simp only [List.getElem?_eq_getElem hlt, Option.bind_eq_bind, Option.bind_some]
      have := ih (wordOff + 1) bits[wordOff + 1] (r - onesCount w) (q - 64) (by omega) (by
        unfold onesCount; simpa using c)
      rw [this]
      simp at b
      congr 1; omega

/-- A select vector whose table is the one `Init` computes. -/
structure WF (v : SelectVector) : Prop where
  words : v.bv.bits.length = numWordsOf v.bv.numBits
  ones_eq : v.numOnes = ones (bitsOf v.bv.bits)
  len : v.selectLut.length = v.numOnes / 64 + 1
  zero : v.selectLut[0]? = some 0
  lut : ∀ j, 1 ≤ j → j ≤ v.numOnes / 64 → ∃ p, v.selectLut[j]? = some p ∧ IsSelect (bitsOf v.bv.bits) (64 * j) p

/-- The state of the sampling loop after the words `pre`. -/
structure LutInv (pre : List Word) (lut : List Nat) (sampledOnes : Nat) : Prop where
  len : lut.length = ones (bitsOf pre) / 64 + 1
  sampled : sampledOnes = 64 * (ones (bitsOf pre) / 64 + 1)
  zero : lut[0]? = some 0
  lut : ∀ j, 1 ≤ j → j ≤ ones (bitsOf pre) / 64 → ∃ p, lut[j]? = some p ∧ IsSelect (bitsOf pre) (64 * j) p

theorem sampleLoop_spec (bmi : Bool) (pre : List Word) (w : Word) (lut : List Nat) (s : Nat) (inv : LutInv pre lut s) :
    ∃ lut' s', sampleLoop bmi w pre.length (ones (bitsOf pre)) (onesCount w) lut s = some (lut', s') ∧
      LutInv (pre ++ [w]) lut' s' := by
  have hc : onesCount w ≤ 64 := by
    have := List.count_le_length (a := true) (l := wbits w)
    rwa [wbits_length] at this
  have hones : ones (bitsOf (pre ++ [w])) = ones (bitsOf pre) + onesCount w := by
    simp [ones, onesCount, List.count_append]
  have hold : ∀ j, 1 ≤ j → j ≤ ones (bitsOf pre) / 64 → ∃ p, lut[j]? = some p ∧
      IsSelect (bitsOf (pre ++ [w])) (64 * j) p := by
    intro j h1 h2
    obtain ⟨p, e, hp⟩ := inv.lut j h1 h2
    exact ⟨p, e, by rw [bitsOf_append]; exact isSelect_append_left hp⟩
  have hsam := inv.sampled
  rw [sampleLoop]
  by_cases h1 : s ≤ ones (bitsOf pre) + onesCount w
  · simp only [h1, if_true]
    have hs : ones (bitsOf pre) ≤ s := by omega
    obtain ⟨p, e, hp⟩ := select64_spec bmi w (s - ones (bitsOf pre)) (by omega) (by
      show _ ≤ onesCount w; omega)
    simp only [usub, hs, if_true, Option.bind_eq_bind, Option.bind_some, e]
    rw [sampleLoop]
    have h2 : ¬ (s + selectSampleInterval ≤ ones (bitsOf pre) + onesCount w) := by
      simp only [selectSampleInterval]; omega
    simp only [h2, if_false]
    refine ⟨_, _, rfl, ?_⟩
    have hdiv : ones (bitsOf (pre ++ [w])) / 64 = ones (bitsOf pre) / 64 + 1 := by omega
    refine ⟨?_, ?_, ?_, ?_⟩
    · rw [hdiv, List.length_append, inv.len]; rfl
    · rw [hdiv]; simp only [selectSampleInterval]; omega
    · have := inv.len
      rw [List.getElem?_append_left (by omega)]; exact inv.zero
    · intro j hj1 hj2
      have hlen := inv.len
      by_cases hj : j ≤ ones (bitsOf pre) / 64
      · obtain ⟨p', e', hp'⟩ := hold j hj1 hj
        exact ⟨p', by rw [List.getElem?_append_left (by omega)]; exact e', hp'⟩
      · have : j = lut.length := by omega
        refine ⟨_, by rw [List.getElem?_append_right (by omega), this, Nat.sub_self]; rfl, ?_⟩
        have := isSelect_append_right (l := bitsOf pre) hp
        rw [bitsOf_append, bitsOf_cons, bitsOf_nil, List.append_nil]
        have e1 : (bitsOf pre).count true + (s - ones (bitsOf pre)) = 64 * j := by
          show ones (bitsOf pre) + _ = _; omega
        rw [e1, bitsOf_length] at this
        have e2 : pre.length * 64 + p = 64 * pre.length + p := by omega
        rw [e2]; exact this
  · simp only [h1, if_false]
    refine ⟨_, _, rfl, ?_⟩
    have hdiv : ones (bitsOf (pre ++ [w])) / 64 = ones (bitsOf pre) / 64 := by omega
    exact ⟨by rw [hdiv]; exact inv.len, by rw [hdiv]; exact inv.sampled, inv.zero, by rw [hdiv]; exact hold⟩

theorem lutLoop_spec (bmi : Bool) (ws pre : List Word) (lut : List Nat) (s : Nat) (inv : LutInv pre lut s) :
    ∃ lut' s', lutLoop bmi ws pre.length (ones (bitsOf pre)) lut s = some (lut', ones (bitsOf (pre ++ ws))) ∧
      LutInv (pre ++ ws) lut' s' := by
  induction ws generalizing pre lut s with
  | nil => exact ⟨lut, s, by simp [lutLoop], by simpa using inv⟩
  | cons w ws ih =>
    obtain ⟨lut1, s1, e1, i1⟩ := sampleLoop_spec bmi pre w lut s inv
    have hones : ones (bitsOf (pre ++ [w])) = ones (bitsOf pre) + onesCount w := by
      simp [ones, onesCount, List.count_append]
    obtain ⟨lut2, s2, e2, i2⟩ := ih (pre ++ [w]) lut1 s1 i1
    rw [hones] at e2
    simp only [List.length_append, List.length_cons, List.length_nil, Nat.zero_add] at e2
    refine ⟨lut2, s2, ?_, by simpa using i2⟩
    simp only [lutLoop, e1, Option.bind_eq_bind, Option.bind_some, e2]
    simp

theorem init_wf (bmi : Bool) (srcs ns) (bv : BitVector)
    (hbv : BitVector.init srcs ns = some bv) (hl : bv.bits.length = numWordsOf bv.numBits) :
    ∃ v, init bmi srcs ns = some v ∧ v.WF ∧ v.bv = bv := by
  have hinv : LutInv [] [0] selectSampleInterval := by
    refine ⟨by simp, by simp [selectSampleInterval], rfl, ?_⟩
    intro j h1 h2; simp at h2; omega
  obtain ⟨lut, s, e, i⟩ := lutLoop_spec bmi bv.bits [] [0] selectSampleInterval hinv
  simp only [List.nil_append, bitsOf_nil, List.length_nil] at e i
  have e0 : ones [] = 0 := rfl
  rw [e0] at e
  refine ⟨_, by simp only [init, hbv, Option.bind_eq_bind, Option.bind_some, e]; rfl, ?_, rfl⟩
  exact ⟨hl, rfl, i.len, i.zero, i.lut⟩

theorem wbits_mask_low (w : Word) (s : Nat) (h : s ≤ 64) :
    wbits ((w >>> s) <<< s) = List.replicate s false ++ (wbits w).drop s := by
  rw [wbits_shiftLeft _ _ h, wbits_ushiftRight _ _ h, List.take_append_of_le_length (by simp)]
  congr 1
  exact List.take_of_length_le (by simp)

/-- `Select` returns the position of the `rank`-th set bit, if bit 0 is set (as it is in every LOUDS vector). -/
theorem select_spec (bmi : Bool) (v : SelectVector) (h : v.WF) (rank : Nat) (h1 : 1 ≤ rank)
    (h2 : rank ≤ ones (bitsOf v.bv.bits)) (h0 : (bitsOf v.bv.bits)[0]? = some true) :
    ∃ p, v.select bmi rank = some p ∧ IsSelect (bitsOf v.bv.bits) rank p := by
  -- the sampled start: a position of the `r0`-th bit
  have hstart : ∃ pos rankLeft, v.selectLut[rank / 64]? = some pos ∧
      selectRankLeft rank = some rankLeft ∧ rankLeft < rank ∧
      IsSelect (bitsOf v.bv.bits) (rank - rankLeft) pos := by
    by_cases hz : rank / 64 = 0
    · refine ⟨0, rank - 1, by rw [hz]; exact h.zero, ?_, by omega, ?_⟩
      · rw [selectRankLeft, selectSampleInterval, if_pos hz, usub, if_pos (by omega)]; congr 1; omega
      · exact ⟨h0, by simp; omega⟩
    · obtain ⟨p, e, hp⟩ := h.lut (rank / 64) (by omega) (by rw [h.ones_eq]; omega)
      refine ⟨p, rank % 64, e, by rw [selectRankLeft, selectSampleInterval, if_neg hz], by omega, ?_⟩
      have : rank - rank % 64 = 64 * (rank / 64) := by omega
      rw [this]; exact hp
  obtain ⟨pos, rankLeft, e1, e2, hlt, hpos⟩ := hstart
  simp only [select, selectSampleInterval, Option.bind_eq_bind, e1, e2, Option.bind_some, selectFrom]
  by_cases hr0 : rankLeft = 0
  · simp only [hr0, if_true]
    exact ⟨pos, rfl, by simpa [hr0] using hpos⟩
  · simp only [hr0, if_false]
    obtain ⟨p, hp⟩ := exists_isSelect _ _ h1 h2
    -- p is beyond pos
    have hbnd := hpos.bounds
    have hsplit : bitsOf v.bv.bits = (bitsOf v.bv.bits).take (pos + 1) ++ (bitsOf v.bv.bits).drop (pos + 1) := by simp
    have hcnt : ((bitsOf v.bv.bits).take (pos + 1)).count true = rank - rankLeft := by
      rw [List.take_add_one, List.count_append, hpos.1]
      have := hpos.2
      simp; omega
    have hp' : IsSelect ((bitsOf v.bv.bits).drop (pos + 1)) rankLeft (p - (pos + 1)) ∧ pos + 1 ≤ p := by
      have hp2 := hp
      rw [hsplit] at hp2
      have hlen : ((bitsOf v.bv.bits).take (pos + 1)).length = pos + 1 := by rw [List.length_take]; omega
      rcases isSelect_append_cases hp2 with ⟨a, _, _⟩ | ⟨a, b, c⟩
      · omega
      · rw [hcnt, hlen] at c
        rw [hlen] at b
        have : rank - (rank - rankLeft) = rankLeft := by omega
        rw [this] at c
        exact ⟨c, b⟩
    obtain ⟨hp', hge⟩ := hp'
    have hpl := hp.bounds.1
    rw [bitsOf_length] at hpl
    -- word and offset
    have hw1 : (if pos % 64 = 64 - 1 then pos / 64 + 1 else pos / 64) = (pos + 1) / 64 := by
      split <;> omega
    have hw2 : (if pos % 64 = 64 - 1 then 0 else pos % 64 + 1) = (pos + 1) % 64 := by
      split <;> omega
    rw [hw1, hw2]
    have hwl : (pos + 1) / 64 < v.bv.bits.length := by omega
    simp only [List.getElem?_eq_getElem hwl, Option.bind_some]
    have hdrop : (bitsOf v.bv.bits).drop (pos + 1) =
        (wbits v.bv.bits[(pos + 1) / 64]).drop ((pos + 1) % 64) ++ bitsOf (v.bv.bits.drop ((pos + 1) / 64 + 1)) := by
      exact bitsOf_drop _ _ hwl
    refine ⟨p, ?_, hp⟩
    have hsel : IsSelect (wbits ((v.bv.bits[(pos + 1) / 64] >>> ((pos + 1) % 64)) <<< ((pos + 1) % 64)) ++
        bitsOf (v.bv.bits.drop ((pos + 1) / 64 + 1))) rankLeft (p - 64 * ((pos + 1) / 64)) := by
      rw [wbits_mask_low _ _ (by omega), List.append_assoc, ← hdrop]
      have := isSelect_append_right (l := List.replicate ((pos + 1) % 64) false) hp'
      rw [List.count_replicate, List.length_replicate] at this
      have e : (pos + 1) % 64 + (p - (pos + 1)) = p - 64 * ((pos + 1) / 64) := by omega
      rw [e] at this
      simpa using this
    have := selectLoop_spec bmi v.bv.bits (v.bv.bits.length + 1) ((pos + 1) / 64) _ _ _ (by omega) hsel
    rw [this]
    congr 1; omega

end SelectVector
end Surf
