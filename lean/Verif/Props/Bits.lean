import Verif.Spec.Bits
import Verif.Surf.Select64
import Verif.Surf.RankLemmas
import Verif.Surf.DistLemmas
import Verif.Surf.MiscLemmas
import Verif.Surf.Holds

/-!
# Properties C39–C45: the bit level

Each theorem is followed by a concrete instance.
-/

set_option linter.unusedSimpArgs false

namespace Surf.Props
open Spec

/-! ### From the specification's bit functions to bit lists -/

theorem bitSeq_eq (ws : List Word) (p : Nat) : bitSeq ws p = bitAt ws p := by
  rw [bitAt_eq, bitSeq]
  cases ws[p / 64]? <;> rfl

theorem countBelow_list (l : List Bool) (n : Nat) (b : Nat → Bool) (h : ∀ p, p < n → b p = (l[p]?).getD false) :
    countBelow b n = (l.take n).count true := by
  induction n with
  | zero => simp [countBelow]
  | succ n ih =>
    rw [countBelow, ih (fun p hp => h p (by omega)), List.take_add_one, List.count_append, h n (by omega)]
    cases l[n]? with
    | none => simp
    | some c => cases c <;> simp

theorem countBelow_eq (ws : List Word) (n : Nat) : countBelow (bitSeq ws) n = ((bitsOf ws).take n).count true :=
  countBelow_list _ _ _ (fun p _ => by rw [bitSeq_eq, bitAt])

theorem countBelow_word (x : Word) (n : Nat) (hn : n ≤ 64) :
    countBelow x.getLsbD n = ((wbits x).take n).count true :=
  countBelow_list _ _ _ (fun p hp => by rw [wbits_getElem?, if_pos (by omega)]; rfl)

theorem isNth_list {l : List Bool} {b : Nat → Bool} (h : ∀ p, p < l.length → b p = (l[p]?).getD false)
    {n p : Nat} (hs : IsSelect l n p) : IsNth b n p := by
  have hb := hs.bounds
  refine ⟨by rw [h p hb.1, hs.1]; rfl, ?_, hb.2.1⟩
  rw [countBelow_list l p b (fun q hq => h q (by omega))]
  have := hs.2; omega

theorem levelStored_iff (src : List Word) (n : Nat) : LevelStored src n ↔ BitVector.LevelOK src n := by
  simp only [LevelStored, BitVector.LevelOK, bitSeq_eq]

/-- All levels handed to `Init` are well stored. -/
def LevelsStored (srcs : List (List Word)) (ns : List Nat) : Prop :=
  srcs.length = ns.length ∧ ∀ (i : Nat) src n, srcs[i]? = some src → ns[i]? = some n → LevelStored src n

theorem LevelsStored.ok {srcs : List (List Word)} {ns : List Nat} (h : LevelsStored srcs ns) :
    ∀ p ∈ srcs.zip ns, BitVector.LevelOK p.1 p.2 := by
  intro p hp
  obtain ⟨i, hi, e⟩ := List.getElem_of_mem hp
  rw [List.getElem_zip] at e
  have h1 : i < srcs.length := by simp at hi; omega
  have h2 : i < ns.length := by simp at hi; omega
  rw [← e]
  exact (levelStored_iff _ _).1 (h.2 i _ _ (List.getElem?_eq_getElem h1) (List.getElem?_eq_getElem h2))

/-! ### C39 -/

/-- C39: the portable `select64` returns the position of the `n`-th set bit, for all words and ranks. -/
theorem C39_select64_portable (x : Word) (n : Nat) (h1 : 1 ≤ n) (h2 : n ≤ countBelow x.getLsbD 64) :
    ∃ p, select64Broadword x n = some p ∧ p < 64 ∧ IsNth x.getLsbD n p := by
  rw [countBelow_word x 64 (by omega), List.take_of_length_le (by simp)] at h2
  obtain ⟨p, e, hp⟩ := select64Broadword_spec x n h1 h2
  refine ⟨p, e, by simpa using hp.bounds.1, isNth_list (fun q hq => ?_) hp⟩
  rw [wbits_getElem?, if_pos (by simpa using hq)]; rfl

example : 1 ≤ 3 ∧ 3 ≤ countBelow (0x8000000000000101#64).getLsbD 64 := by decide +kernel
example : select64Broadword 0x8000000000000101#64 3 = some 63 := by decide +kernel

/-! ### C40 -/

/-- C40: with BMI2 (PDEP/TZCNT) and without, `select64` gives the same result. -/
theorem C40_select64_bmi2_agrees (x : Word) (n : Nat) (h1 : 1 ≤ n) (h2 : n ≤ countBelow x.getLsbD 64) :
    select64 true x n = select64 false x n ∧ (select64 true x n).isSome := by
  rw [countBelow_word x 64 (by omega), List.take_of_length_le (by simp)] at h2
  obtain ⟨p, e, hp⟩ := select64_spec true x n h1 h2
  obtain ⟨q, f, hq⟩ := select64_spec false x n h1 h2
  rw [e, f, hp.unique hq]
  exact ⟨rfl, rfl⟩

example : select64 true 0x8000000000000101#64 2 = some 8 := by decide +kernel

/-! ### C44 -/

/-- C44: `Init` does not panic, `numBits` is the total, and bit `j` of level `i` is at offset (bits of earlier levels) + `j`;
behind the last bit there are zeros. -/
theorem C44_init_concatenates (srcs : List (List Word)) (ns : List Nat) (h : LevelsStored srcs ns) :
    ∃ v, BitVector.init srcs ns = some v ∧ v.numBits = ns.sum ∧ 64 * v.bits.length < v.numBits + 64 ∧
      v.numBits ≤ 64 * v.bits.length ∧
      (∀ i src n j, srcs[i]? = some src → ns[i]? = some n → j < n →
        bitSeq v.bits ((ns.take i).sum + j) = bitSeq src j) ∧
      (∀ p, v.numBits ≤ p → bitSeq v.bits p = false) := by
  obtain ⟨v, e, hn, hl, hb⟩ := BitVector.init_spec srcs ns (by have := h.1; omega) h.ok
  have hw := BitVector.numWordsOf_bounds ns.sum
  have hcl := BitVector.concatLevels_length srcs ns (by have := h.1; omega) h.ok
  have hh := Holds.of_bitsOf hb
  refine ⟨v, e, hn, by omega, by omega, ?_, ?_⟩
  · intro i src n j hs hnn hj
    rw [bitSeq_eq, hh.bit, bitSeq_eq, bitAt]
    congr 1
    clear hcl e hn hl hb hh hw v
    have hok := h.ok
    have hlen := h.1
    clear h
    induction srcs generalizing ns i with
    | nil => simp at hs
    | cons a srcs ih =>
      cases ns with
      | nil => simp at hnn
      | cons m ns =>
        have h0 := hok (a, m) (by simp)
        have hal : ((bitsOf a).take m).length = m := by
          have := h0.1
          simp only [List.length_take, bitsOf_length]; simp at this; omega
        have hsplit : BitVector.concatLevels (a :: srcs) (m :: ns) =
            (bitsOf a).take m ++ BitVector.concatLevels srcs ns := by
          simp [BitVector.concatLevels]
        rw [hsplit]
        cases i with
        | zero =>
          simp only [List.getElem?_cons_zero, Option.some.injEq] at hs hnn
          subst hs; subst hnn
          rw [List.take_zero, List.sum_nil, Nat.zero_add, List.getElem?_append_left (by omega),
            List.getElem?_take_of_lt hj]
        | succ i =>
          simp only [List.getElem?_cons_succ] at hs hnn
          have e : ((m :: ns).take (i + 1)).sum + j = m + ((ns.take i).sum + j) := by simp; omega
          rw [e, List.getElem?_append_right (by omega), hal, Nat.add_sub_cancel_left]
          exact ih ns i hs hnn (fun p hp => hok p (by simp [hp])) (by simpa using hlen)
  · intro p hp
    rw [bitSeq_eq, hh.bit, List.getElem?_eq_none]; · rfl
    have : (ns.take srcs.length) = ns := List.take_of_length_le (by have := h.1; omega)
    rw [this] at hcl; omega

/-- Three levels of 3, 64 and 2 bits. -/
example : (BitVector.init [[5#64], [0x8000000000000001#64], [2#64]] [3, 64, 2]).map (·.numBits) = some 69 ∧
    ((BitVector.init [[5#64], [0x8000000000000001#64], [2#64]] [3, 64, 2]).map
      (fun v => (List.range 69).filter (bitSeq v.bits))) = some [0, 2, 3, 66, 68] := by decide +kernel
example : LevelsStored [[5#64], [0x8000000000000001#64], [2#64]] [3, 64, 2] := by
  refine ⟨rfl, fun i src n h1 h2 => ?_⟩
  rw [levelStored_iff]
  have : i = 0 ∨ i = 1 ∨ i = 2 := by
    by_contra hc
    rw [List.getElem?_eq_none (by simp; omega)] at h1; simp at h1
  have key : ∀ (w : Word) (n : Nat), n ≤ 64 → (∀ k < 64, n ≤ k → w.getLsbD k = false) → BitVector.LevelOK [w] n := by
    intro w n hn hk
    refine ⟨by simpa using hn, fun p hp he => ?_⟩
    rw [bitAt_eq]
    by_cases h64 : p < 64
    · have : p / 64 = 0 := by omega
      have e : p % 64 = p := by omega
      simp [this, e, hk p h64 hp]
    · rw [List.getElem?_eq_none (by simp; omega)]; rfl
  rcases this with rfl | rfl | rfl <;> simp only [List.getElem?_cons_zero, List.getElem?_cons_succ,
    Option.some.injEq] at h1 h2 <;> subst h1 <;> subst h2 <;> apply key <;> decide

/-! ### C41 -/

/-- C41: both rank vectors: after `Init`, `Rank(p)` is the number of set bits at positions `0..p`. -/
theorem C41_rank (srcs : List (List Word)) (ns : List Nat) (h : LevelsStored srcs ns) :
    (∃ v, RankVector.initDense srcs ns = some v ∧ BitVector.init srcs ns = some v.bv ∧
      ∀ p, p < ns.sum → v.rankDense p = some (countBelow (bitSeq v.bv.bits) (p + 1))) ∧
    (∃ v, RankVector.initSparse srcs ns = some v ∧ BitVector.init srcs ns = some v.bv ∧
      ∀ p, p < ns.sum → v.rankSparse p = some (countBelow (bitSeq v.bv.bits) (p + 1))) := by
  obtain ⟨bv, e, hn, hl, -⟩ := BitVector.init_spec srcs ns (by have := h.1; omega) h.ok
  rw [← hn] at hl
  constructor
  · obtain ⟨v, hv⟩ := RankVector.init_total rankDenseBlockSize srcs ns bv e hl (by decide)
    obtain ⟨wf, hbv, hbs⟩ := RankVector.init_wf rankDenseBlockSize srcs ns v bv e hl (by decide) (by decide) hv
    refine ⟨v, hv, by rw [hbv, e], fun p hp => ?_⟩
    rw [RankVector.rankDense_spec v wf hbs p (by rw [hbv, hn]; exact hp), countBelow_eq, ones]
  · obtain ⟨v, hv⟩ := RankVector.init_total rankSparseBlockSize srcs ns bv e hl (by decide)
    obtain ⟨wf, hbv, hbs⟩ := RankVector.init_wf rankSparseBlockSize srcs ns v bv e hl (by decide) (by decide) hv
    refine ⟨v, hv, by rw [hbv, e], fun p hp => ?_⟩
    rw [RankVector.rankSparse_spec v wf hbs p (by rw [hbv, hn]; exact hp), countBelow_eq, ones]

example : ((RankVector.initDense [[5#64], [0x8000000000000001#64], [2#64]] [3, 64, 2]).bind (·.rankDense 66)) = some 4 := by
  decide +kernel

/-! ### C42 -/

/-- C42: on a vector whose bit 0 is set, `Select(n)` is the position of the `n`-th set bit. -/
theorem C42_select (bmi : Bool) (srcs : List (List Word)) (ns : List Nat) (h : LevelsStored srcs ns) :
    ∃ v, SelectVector.init bmi srcs ns = some v ∧ BitVector.init srcs ns = some v.bv ∧
      (bitSeq v.bv.bits 0 = true →
        ∀ n, 1 ≤ n → n ≤ countBelow (bitSeq v.bv.bits) ns.sum →
          ∃ p, v.select bmi n = some p ∧ p < ns.sum ∧ IsNth (bitSeq v.bv.bits) n p) := by
  obtain ⟨bv, e, hn, hl, hb⟩ := BitVector.init_spec srcs ns (by have := h.1; omega) h.ok
  rw [← hn] at hl
  obtain ⟨v, hv, wf, hbv⟩ := SelectVector.init_wf bmi srcs ns bv e hl
  refine ⟨v, hv, by rw [hbv, e], fun h0 n h1 h2 => ?_⟩
  have hcl := BitVector.concatLevels_length srcs ns (by have := h.1; omega) h.ok
  have htk : (ns.take srcs.length) = ns := List.take_of_length_le (by have := h.1; omega)
  rw [htk] at hcl
  have h0' : (bitsOf v.bv.bits)[0]? = some true := by
    rw [bitSeq_eq, bitAt] at h0
    cases hc : (bitsOf v.bv.bits)[0]? with
    | none => rw [hc] at h0; simp at h0
    | some c => rw [hc] at h0; simpa using h0
  have h2' : n ≤ ones (bitsOf v.bv.bits) := by
    rw [countBelow_eq] at h2
    exact h2.trans (count_take_le _ _)
  obtain ⟨p, ep, hp⟩ := SelectVector.select_spec bmi v wf n h1 h2' h0'
  refine ⟨p, ep, ?_, isNth_list (fun q _ => by rw [bitSeq_eq, bitAt]) hp⟩
  rw [hbv, hb] at hp
  have := (isSelect_of_append_zeros hp).bounds.1
  omega

example : ((SelectVector.init false [[5#64], [0x8000000000000001#64], [2#64]] [3, 64, 2]).bind (·.select false 5)) = some 68 := by
  decide +kernel

/-! ### C43 -/

/-- Specification: `d` is the distance from `pos` to the next set bit, or to the end (`n` bits) if there is none. -/
def IsNextDist (b : Nat → Bool) (n pos d : Nat) : Prop :=
  1 ≤ d ∧ (∀ q, pos < q → q < pos + d → b q = false) ∧ (b (pos + d) = true ∧ pos + d < n ∨ pos + d = n)

/-- Specification: `d` is the distance back to the previous set bit, or to position -1 if there is none. -/
def IsPrevDist (b : Nat → Bool) (pos d : Nat) : Prop :=
  1 ≤ d ∧ d ≤ pos + 1 ∧ (∀ q, q < pos → pos < q + d → b q = false) ∧ (d ≤ pos → b (pos - d) = true)

theorem firstTrue_spec (l : List Bool) : (∀ i, i < firstTrue l → l[i]? = some false) ∧ firstTrue l ≤ l.length ∧
    (firstTrue l < l.length → l[firstTrue l]? = some true) := by
  have e : firstTrue l = l.findIdx (· == true) := rfl
  refine ⟨fun i hi => ?_, by rw [e]; exact List.findIdx_le_length, fun h => ?_⟩
  · rw [e] at hi
    have hlt : i < l.length := Nat.lt_of_lt_of_le hi List.findIdx_le_length
    have := List.not_of_lt_findIdx hi
    rw [List.getElem?_eq_getElem hlt]
    simpa using this
  · rw [e] at h ⊢
    have := List.findIdx_getElem (w := h)
    rw [List.getElem?_eq_getElem h]
    simpa using this

/-- C43, next: the exact distance to the next set bit, or to the end. The full property would hold at every position; the
code returns 0 at the very last bit of a vector whose length is a multiple of 64 (see `C43_next_violated`). -/
theorem C43_next_partial (srcs : List (List Word)) (ns : List Nat) (h : LevelsStored srcs ns) :
    ∃ v, BitVector.init srcs ns = some v ∧ ∀ pos, pos < ns.sum → (pos + 1 = ns.sum → ns.sum % 64 ≠ 0) →
      ∃ d, v.distanceToNextSetBit pos = some d ∧ IsNextDist (bitSeq v.bits) ns.sum pos d := by
  obtain ⟨v, e, hn, hl, hb⟩ := BitVector.init_spec srcs ns (by have := h.1; omega) h.ok
  have hcl := BitVector.concatLevels_length srcs ns (by have := h.1; omega) h.ok
  have htk : (ns.take srcs.length) = ns := List.take_of_length_le (by have := h.1; omega)
  rw [htk] at hcl
  have hw := BitVector.numWordsOf_bounds ns.sum
  refine ⟨v, e, fun pos hp hlast => ?_⟩
  have hwl : v.bits.length = v.numWords := by rw [hl, BitVector.numWords, hn]
  have hspec := BitVector.distanceToNextSetBit_spec v hwl pos (by omega) (by rw [← hwl, hl]; omega)
  refine ⟨_, hspec, ?_⟩
  have hzero : ∀ q, ns.sum ≤ q → bitAt v.bits q = false := by
    intro q hq
    rw [(Holds.of_bitsOf hb).bit, List.getElem?_eq_none (by omega)]; rfl
  have hbit : ∀ q, pos < q → bitAt v.bits q = (((bitsOf v.bits).drop (pos + 1))[q - (pos + 1)]?).getD false := by
    intro q hq
    rw [List.getElem?_drop, bitAt]; congr 2; omega
  obtain ⟨f1, f2, f3⟩ := firstTrue_spec ((bitsOf v.bits).drop (pos + 1))
  by_cases ht : true ∈ (bitsOf v.bits).drop (pos + 1)
  · rw [if_pos ht]
    have hflt : firstTrue ((bitsOf v.bits).drop (pos + 1)) < ((bitsOf v.bits).drop (pos + 1)).length := by
      rcases Nat.lt_or_ge (firstTrue ((bitsOf v.bits).drop (pos + 1))) ((bitsOf v.bits).drop (pos + 1)).length with h' | h'
      · exact h'
      · obtain ⟨i, hi, ei⟩ := List.getElem_of_mem ht
        have := f1 i (by omega)
        rw [List.getElem?_eq_getElem hi, ei] at this; simp at this
    generalize hf : firstTrue ((bitsOf v.bits).drop (pos + 1)) = f at *
    have hset : bitAt v.bits (pos + (1 + f)) = true := by
      rw [hbit _ (by omega)]
      have : pos + (1 + f) - (pos + 1) = f := by omega
      rw [this, f3 hflt]; rfl
    refine ⟨by omega, fun q h1 h2 => ?_, Or.inl ⟨by rw [bitSeq_eq, hset], ?_⟩⟩
    · rw [bitSeq_eq, hbit q h1, f1 _ (by omega)]; rfl
    · by_contra hc
      rw [hzero _ (by omega)] at hset; simp at hset
  · rw [if_neg ht, hn]
    refine ⟨by omega, fun q h1 h2 => ?_, Or.inr (by omega)⟩
    rw [bitSeq_eq, hbit q h1]
    cases hc : ((bitsOf v.bits).drop (pos + 1))[q - (pos + 1)]? with
    | none => rfl
    | some c =>
      cases c with
      | false => rfl
      | true => exact absurd (List.mem_of_getElem? hc) ht

/-- The excluded case is real: on a 64-bit vector the distance from the last position is 0 instead of 1. -/
theorem C43_next_violated : ∃ v, BitVector.init [[1#64]] [64] = some v ∧ v.distanceToNextSetBit 63 = some 0 ∧
    ¬ IsNextDist (bitSeq v.bits) 64 63 0 :=
  ⟨⟨64, [1#64]⟩, by decide +kernel, by decide +kernel, fun h => by have := h.1; omega⟩

/-- C43, next, in the excluded case: at the last bit of a vector whose length is a multiple of 64 the answer is always 0. With `C43_next_partial` this says what the code returns at every
position. -/
theorem C43_next_last (srcs : List (List Word)) (ns : List Nat) (h : LevelsStored srcs ns) :
    ∃ v, BitVector.init srcs ns = some v ∧ ∀ pos, pos + 1 = ns.sum → ns.sum % 64 = 0 → v.distanceToNextSetBit pos = some 0 := by
  obtain ⟨v, e, hn, hl, hb⟩ := BitVector.init_spec srcs ns (by have := h.1; omega) h.ok
  refine ⟨v, e, fun pos hp hm => ?_⟩
  have hw := BitVector.numWordsOf_bounds ns.sum
  unfold BitVector.distanceToNextSetBit
  have h1 : (pos + 1) / 64 ≥ v.bits.length := by rw [hl, hp]; omega
  simp only [h1, if_true]
  rfl

/-- C43, previous: the exact distance to the previous set bit, or to position -1. -/
theorem C43_prev (srcs : List (List Word)) (ns : List Nat) (h : LevelsStored srcs ns) :
    ∃ v, BitVector.init srcs ns = some v ∧ ∀ pos, pos ≤ ns.sum →
      ∃ d, v.distanceToPrevSetBit pos = some d ∧ IsPrevDist (bitSeq v.bits) pos d := by
  obtain ⟨v, e, hn, hl, hb⟩ := BitVector.init_spec srcs ns (by have := h.1; omega) h.ok
  have hw := BitVector.numWordsOf_bounds ns.sum
  refine ⟨v, e, fun pos hp => ⟨_, BitVector.distanceToPrevSetBit_spec v pos (by omega), ?_⟩⟩
  have hlen : ((bitsOf v.bits).take pos).length = pos := by simp; omega
  have hbit : ∀ q, q < pos → bitAt v.bits q = ((((bitsOf v.bits).take pos).reverse)[pos - 1 - q]?).getD false := by
    intro q hq
    have h1 : pos - 1 - (pos - 1 - q) = q := by omega
    rw [List.getElem?_reverse (by omega), hlen, h1, List.getElem?_take_of_lt hq, bitAt]
  obtain ⟨f1, f2, f3⟩ := firstTrue_spec (((bitsOf v.bits).take pos).reverse)
  rw [List.length_reverse, hlen] at f2 f3
  generalize firstTrue (((bitsOf v.bits).take pos).reverse) = f at *
  refine ⟨by omega, by omega, fun q h1 h2 => ?_, fun h1 => ?_⟩
  · rw [bitSeq_eq, hbit q h1, f1 _ (by omega)]; rfl
  · have e : pos - 1 - (pos - (1 + f)) = f := by omega
    rw [bitSeq_eq, hbit _ (by omega), e, f3 (by omega)]; rfl

example : ((BitVector.init [[5#64], [0x8000000000000001#64], [2#64]] [3, 64, 2]).bind (·.distanceToNextSetBit 3)) = some 63 ∧
    ((BitVector.init [[5#64], [0x8000000000000001#64], [2#64]] [3, 64, 2]).bind (·.distanceToPrevSetBit 66)) = some 63 := by
  decide +kernel

/-! ### C45 -/

/-- Write a list of suffixes into a fresh level, as `insertSuffix` does. -/
def writeSuffixes (len : Nat) (ss : List Word) : Option Level :=
  ss.foldlM (fun l s => l.insertSuffixBits len s) Level.fresh

theorem writeSuffixes_spec (len : Nat) (hl : len ≤ 64) (ss : List Word) (hs : ∀ s ∈ ss, s.toNat < 2 ^ len) :
    ∃ l, writeSuffixes len ss = some l ∧ SufInv len ss l := by
  have key : ∀ (ss acc : List Word) (l : Level), (∀ s ∈ ss, s.toNat < 2 ^ len) → SufInv len acc l →
      ∃ l', ss.foldlM (fun l s => l.insertSuffixBits len s) l = some l' ∧ SufInv len (acc ++ ss) l' := by
    intro ss
    induction ss with
    | nil => intro acc l _ h; exact ⟨l, rfl, by simpa using h⟩
    | cons s ss ih =>
      intro acc l hs h
      have hz : ∀ i, len ≤ i → s.getLsbD i = false := by
        intro i hi
        rw [BitVec.getLsbD, Nat.testBit_lt_two_pow]
        exact Nat.lt_of_lt_of_le (hs s List.mem_cons_self) (Nat.pow_le_pow_right (by omega) hi)
      obtain ⟨ws, e, inv⟩ := insertSuffixBits_spec len hl s hz acc l h
      obtain ⟨l', e', inv'⟩ := ih (acc ++ [s]) _ (fun t ht => hs t (List.mem_cons_of_mem _ ht)) inv
      refine ⟨l', ?_, by simpa using inv'⟩
      rw [List.foldlM_cons, e]
      exact e'
  obtain ⟨l, e, inv⟩ := key ss [] Level.fresh hs (sufInv_fresh len)
  exact ⟨l, e, by simpa using inv⟩

theorem drop_take_flatMap (len : Nat) (hl : len ≤ 64) (ss : List Word) (i : Nat) (s : Word) (h : ss[i]? = some s) :
    ((ss.flatMap (lowBits len)).drop (i * len)).take len = lowBits len s := by
  have hll : ∀ w : Word, (lowBits len w).length = len := by intro w; simp [lowBits]; omega
  induction ss generalizing i with
  | nil => simp at h
  | cons a ss ih =>
    cases i with
    | zero =>
      simp only [List.getElem?_cons_zero, Option.some.injEq] at h
      subst h
      rw [Nat.zero_mul, List.drop_zero, List.flatMap_cons, List.take_append_of_le_length (by rw [hll]),
        List.take_of_length_le (by rw [hll])]
    | succ i =>
      simp only [List.getElem?_cons_succ] at h
      have e : (i + 1) * len = (lowBits len a).length + i * len := by rw [hll, Nat.succ_mul]; omega
      rw [List.flatMap_cons, e, List.drop_append]
      have e2 : (lowBits len a).length + i * len - (lowBits len a).length = i * len := by omega
      rw [e2, List.drop_of_length_le (by omega), List.nil_append]
      exact ih i h

/-- C45: suffixes of `hl + rl` bits (1..64) written level by level by the builder and gathered by `suffixVector.Init`
are read back exactly, at their position in level order. -/
theorem C45_suffix_roundtrip (ty : SuffixType) (hashLen realLen : Nat) (h0 : 0 < hashLen + realLen)
    (h64 : hashLen + realLen ≤ 64) (sss : List (List Word))
    (hs : ∀ ss ∈ sss, ∀ s ∈ ss, s.toNat < 2 ^ (hashLen + realLen)) :
    ∃ levels v, sss.mapM (writeSuffixes (hashLen + realLen)) = some levels ∧
      SuffixVector.init ty hashLen realLen (levels.map (·.suffixes))
        (levels.map (fun l => l.suffixCount * (hashLen + realLen))) = some v ∧
      ∀ i s, sss.flatten[i]? = some s → v.read i = some s := by
  have hlev : ∃ levels, sss.mapM (writeSuffixes (hashLen + realLen)) = some levels ∧
      List.Forall₂ (SufInv (hashLen + realLen)) sss levels := by
    induction sss with
    | nil => exact ⟨[], rfl, .nil⟩
    | cons ss sss ih =>
      obtain ⟨levels, e, f⟩ := ih (fun x hx => hs x (List.mem_cons_of_mem _ hx))
      obtain ⟨l, e1, f1⟩ := writeSuffixes_spec _ h64 ss (hs ss List.mem_cons_self)
      exact ⟨l :: levels, by rw [List.mapM_cons, e1, e]; rfl, .cons f1 f⟩
  obtain ⟨levels, e, f⟩ := hlev
  generalize hlen : hashLen + realLen = len at *
  have hcounts : levels.map (fun l => l.suffixCount * len) =
      (sss.zip levels).map (fun p => (p.1.flatMap (lowBits len)).length) ++ [] := by
    rw [List.append_nil]
    clear e hs
    induction f with
    | nil => rfl
    | cons h _ ih =>
      simp only [List.map_cons, List.zip_cons_cons, ih, flatMap_lowBits_length len h64, h.count]
  have hwords : levels.map (·.suffixes) = (sss.zip levels).map (fun p => p.2.suffixes) := by
    clear e hs hcounts
    induction f with
    | nil => rfl
    | cons h _ ih => simp only [List.map_cons, List.zip_cons_cons, ih]
  obtain ⟨bv, e1, e2, e3, e4⟩ := BitVector.init_holds (sss.zip levels) (fun p => p.2.suffixes)
    (fun p => p.1.flatMap (lowBits len)) (by
      intro p hp
      clear e hs hcounts hwords
      induction f with
      | nil => simp at hp
      | cons h _ ih =>
        simp only [List.zip_cons_cons, List.mem_cons] at hp
        rcases hp with rfl | hp
        · exact h.holds
        · exact ih hp) []
  rw [← hwords, ← hcounts] at e1
  refine ⟨levels, { bv, suffixType := ty, hashSuffixLen := hashLen, realSuffixLen := realLen }, e,
    by simp [SuffixVector.init, e1], ?_⟩
  intro i s his
  have hflat : (sss.zip levels).flatMap (fun p => p.1.flatMap (lowBits len)) = sss.flatten.flatMap (lowBits len) := by
    clear e hs hcounts hwords e1 e2 e3 e4 his
    induction f with
    | nil => rfl
    | cons h _ ih => simp only [List.zip_cons_cons, List.flatMap_cons, List.flatten_cons, List.flatMap_append, ih]
  rw [hflat] at e4
  have hflen := flatMap_lowBits_length len h64 sss.flatten
  have hilt : i < sss.flatten.length := by
    by_contra hc
    rw [List.getElem?_eq_none (by omega)] at his; simp at his
  have hle : (i + 1) * len ≤ sss.flatten.length * len := Nat.mul_le_mul_right _ hilt
  have h4 := e4.len
  rw [hflen] at h4
  obtain ⟨w, hw, hwb⟩ := SuffixVector.read_spec
    { bv, suffixType := ty, hashSuffixLen := hashLen, realSuffixLen := realLen } i
    (by simpa [SuffixVector.suffixLen, hlen] using h0) (by simpa [SuffixVector.suffixLen, hlen] using h64)
    (by simp only [SuffixVector.suffixLen, hlen]; omega)
  rw [hw]
  congr 1
  apply wbits_ext
  simp only [SuffixVector.suffixLen, hlen] at hwb
  rw [hwb, e4.bitsOf_eq, List.drop_append_of_le_length (by rw [hflen]; have : (i + 1) * len = i * len + len := Nat.succ_mul i len; omega),
    List.take_append_of_le_length (by rw [List.length_drop, hflen]; have : (i + 1) * len = i * len + len := Nat.succ_mul i len; omega),
    drop_take_flatMap len h64 _ i s his]
  have hmem : s ∈ sss.flatten := List.mem_of_getElem? his
  obtain ⟨ss, hss, hsm⟩ := List.mem_flatten.1 hmem
  have hlt := hs ss hss s hsm
  apply List.ext_getElem?
  intro j
  rw [wbits_getElem?, lowBits]
  by_cases hj : j < len
  · rw [List.getElem?_append_left (by simp; omega), List.getElem?_take_of_lt hj, wbits_getElem?]
  · rw [List.getElem?_append_right (by simp; omega), List.getElem?_replicate]
    have hz : s.getLsbD j = false := by
      rw [BitVec.getLsbD, Nat.testBit_lt_two_pow]
      exact Nat.lt_of_lt_of_le hlt (Nat.pow_le_pow_right (by omega) (by omega))
    have hml : ((wbits s).take len).length = len := by simp; omega
    rw [hml]
    by_cases h64' : j < 64
    · rw [if_pos (by omega), if_pos h64', hz]
    · rw [if_neg (by omega), if_neg h64']

/-- Two levels of 37-bit suffixes (crossing word boundaries). -/
example : ((([[0x1fffffffff#64, 1#64], [0x1234567890#64]] : List (List Word)).mapM (writeSuffixes 37)).bind (fun ls =>
    (SuffixVector.init .hash 37 0 (ls.map (·.suffixes)) (ls.map (fun l => l.suffixCount * 37))).map
      (fun v => (v.read 0, v.read 1, v.read 2)))) = some (some 0x1fffffffff#64, some 1#64, some 0x1234567890#64) := by
  decide +kernel

end Surf.Props
