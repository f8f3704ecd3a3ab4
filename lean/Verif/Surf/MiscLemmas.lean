import Verif.Common
import Verif.Surf.RankLemmas

/-! Suffix read-back, label search, prefix and value lookup. -/

set_option linter.unusedSimpArgs false

namespace Surf

/-! ### Suffixes -/

theorem mask_getLsbD (s i : Nat) : ((1#64 <<< s) - 1#64).getLsbD i = (decide (i < s) && decide (i < 64)) := by
  by_cases hs : s < 64
  · have hpow : 2 ^ s < 2 ^ 64 := Nat.pow_lt_pow_right (by omega) hs
    have h1 : (1#64 <<< s).toNat = 2 ^ s := by
      rw [BitVec.toNat_shiftLeft, Nat.shiftLeft_eq]
      simp; exact hpow
    have hpos : 0 < 2 ^ s := Nat.two_pow_pos s
    have h2 : ((1#64 <<< s) - 1#64).toNat = 2 ^ s - 1 := by
      rw [BitVec.toNat_sub_of_le, h1]
      · rfl
      · rw [BitVec.le_def, h1]; show 1 ≤ 2 ^ s; omega
    rw [← BitVec.testBit_toNat, h2, Nat.testBit_two_pow_sub_one]
    by_cases hi : i < s
    · have : i < 64 := by omega
      simp [hi, this]
    · simp [hi]
  · have h0 : (1#64 <<< s) = 0#64 := BitVec.shiftLeft_eq_zero (by omega)
    rw [h0]
    have : (0#64 - 1#64) = BitVec.allOnes 64 := by decide
    rw [this, BitVec.getLsbD_allOnes]
    by_cases hi : i < 64
    · have : i < s := by omega
      simp [hi, this]
    · simp [hi]

theorem wbits_and_mask (w : Word) (s : Nat) (hs : s ≤ 64) :
    wbits (w &&& ((1#64 <<< s) - 1#64)) = (wbits w).take s ++ List.replicate (64 - s) false := by
  apply List.ext_getElem?
  intro i
  rw [wbits_getElem?]
  by_cases hi : i < s
  · have : i < 64 := by omega
    rw [List.getElem?_append_left (by simp; omega), List.getElem?_take, if_pos hi, wbits_getElem?, if_pos this,
      if_pos this, BitVec.getLsbD_and, mask_getLsbD]
    simp [hi, this]
  · rw [List.getElem?_append_right (by simp; omega), List.getElem?_replicate]
    by_cases h64 : i < 64
    · rw [if_pos h64, if_pos (by simp; omega), BitVec.getLsbD_and, mask_getLsbD]
      simp [hi]
    · rw [if_neg h64, if_neg (by simp; omega)]

theorem bits_slice (l : List Word) (pos len : Nat) (hl : pos / 64 < l.length) (hfit : pos % 64 + len ≤ 64) :
    ((bitsOf l).drop pos).take len = ((wbits l[pos / 64]).drop (pos % 64)).take len := by
  rw [bitsOf_drop l pos hl, List.take_append_of_le_length (by simp; omega)]

theorem wbits_ext {a b : Word} (h : wbits a = wbits b) : a = b := by
  apply BitVec.eq_of_getLsbD_eq
  intro i hi
  have h1 : (wbits a)[i]? = (wbits b)[i]? := by rw [h]
  rw [wbits_getElem?, wbits_getElem?, if_pos hi, if_pos hi] at h1
  simpa using h1

namespace SuffixVector

/-- `read` returns the bits of the slot, as a number. -/
theorem read_spec (v : SuffixVector) (idx : Nat) (h1 : 0 < v.suffixLen) (h2 : v.suffixLen ≤ 64)
    (h : (idx + 1) * v.suffixLen ≤ 64 * v.bv.bits.length) :
    ∃ w, v.read idx = some w ∧
      wbits w = ((bitsOf v.bv.bits).drop (idx * v.suffixLen)).take v.suffixLen ++
        List.replicate (64 - v.suffixLen) false := by
  have hmul : (idx + 1) * v.suffixLen = idx * v.suffixLen + v.suffixLen := Nat.succ_mul _ _
  generalize hpos : idx * v.suffixLen = pos at *
  generalize hlen : v.suffixLen = len at *
  have hlt : pos / 64 < v.bv.bits.length := by omega
  unfold read
  simp only [hlen, hpos, List.getElem?_eq_getElem hlt, Option.bind_eq_bind, Option.bind_some]
  by_cases hfit : pos % 64 + len > 64
  · have hlt2 : pos / 64 + 1 < v.bv.bits.length := by omega
    simp only [hfit, if_true, List.getElem?_eq_getElem hlt2, Option.bind_some]
    refine ⟨_, rfl, ?_⟩
    apply List.ext_getElem?
    intro i
    rw [wbits_getElem?]
    have hsl : ((bitsOf v.bv.bits).drop pos).length = 64 * v.bv.bits.length - pos := by simp
    by_cases hi : i < len
    · have hi64 : i < 64 := by omega
      rw [List.getElem?_append_left (by rw [List.length_take, hsl]; omega), List.getElem?_take, if_pos hi,
        List.getElem?_drop, bitsOf_getElem?, if_pos hi64, BitVec.getLsbD_or, BitVec.getLsbD_and, mask_getLsbD,
        BitVec.getLsbD_ushiftRight, BitVec.getLsbD_shiftLeft, BitVec.getLsbD_and, mask_getLsbD]
      by_cases hw : i < 64 - pos % 64
      · have e1 : (pos + i) / 64 = pos / 64 := by omega
        have e2 : (pos + i) % 64 = pos % 64 + i := by omega
        rw [e1, e2, List.getElem?_eq_getElem hlt]
        simp [hi, hi64, hw]
      · have e1 : (pos + i) / 64 = pos / 64 + 1 := by omega
        have e2 : (pos + i) % 64 = i - (64 - pos % 64) := by omega
        rw [e1, e2, List.getElem?_eq_getElem hlt2, BitVec.getLsbD_of_ge _ (pos % 64 + i) (by omega)]
        have h3 : i - (64 - pos % 64) < len - (64 - pos % 64) := by omega
        have h4 : i - (64 - pos % 64) < 64 := by omega
        simp only [hw, h3, h4, hi64, hi, decide_true, decide_false, Bool.false_and, Bool.true_and, Bool.and_true,
          Bool.not_false, Bool.false_or, Option.map_some]
    · rw [List.getElem?_append_right (by rw [List.length_take, hsl]; omega), List.getElem?_replicate]
      by_cases h64 : i < 64
      · rw [if_pos h64, if_pos (by rw [List.length_take, hsl]; omega), BitVec.getLsbD_or, BitVec.getLsbD_and,
          mask_getLsbD, BitVec.getLsbD_shiftLeft, BitVec.getLsbD_and, mask_getLsbD]
        have h3 : ¬ (i - (64 - pos % 64) < len - (64 - pos % 64)) := by omega
        simp [hi, h3]
      · rw [if_neg h64, if_neg (by rw [List.length_take, hsl]; omega)]
  · simp only [hfit, if_false]
    refine ⟨_, rfl, ?_⟩
    rw [wbits_and_mask _ _ h2, bits_slice _ _ _ hlt (by omega), wbits_ushiftRight _ _ (by omega),
      List.take_append_of_le_length (by simp; omega)]

end SuffixVector

/-! ### `sort.Search` -/

/-- `sort.Search` finds the least index where a monotone predicate holds. -/
theorem sortSearchLoop_spec (f : Nat → Option Bool) (n : Nat)
    (htot : ∀ i, i < n → ∃ b, f i = some b)
    (hmono : ∀ i j, i ≤ j → j < n → f i = some true → f j = some true)
    (i j : Nat) (hij : i ≤ j) (hjn : j ≤ n)
    (hlo : ∀ k, k < i → f k = some false) (hhi : ∀ k, j ≤ k → k < n → f k = some true) :
    ∃ r, sortSearchLoop f i j = some r ∧ r ≤ n ∧ (∀ k, k < r → f k = some false) ∧
      (∀ k, r ≤ k → k < n → f k = some true) := by
  induction hm : j - i using Nat.strongRecOn generalizing i j with
  | ind m ih =>
    rw [sortSearchLoop]
    by_cases hlt : i < j
    · have hh : (i + j) / 2 < n := by omega
      obtain ⟨b, hb⟩ := htot _ hh
      simp only [hlt, if_true, hb, Option.bind_eq_bind, Option.bind_some]
      cases b with
      | false =>
        simp only [Bool.not_false, if_true]
        refine ih (j - ((i + j) / 2 + 1)) (by omega) _ _ (by omega) hjn ?_ hhi rfl
        intro k hk
        obtain ⟨c, hc⟩ := htot k (by omega)
        cases c with
        | false => exact hc
        | true =>
          have := hmono k ((i + j) / 2) (by omega) hh hc
          rw [hb] at this; cases this
      | true =>
        simp only [Bool.not_true, Bool.false_eq_true, if_false]
        refine ih ((i + j) / 2 - i) (by omega) _ _ (by omega) (by omega) hlo ?_ rfl
        intro k hk hkn
        exact hmono _ k hk hkn hb
    · simp only [hlt, if_false]
      have : i = j := by omega
      subst this
      exact ⟨i, rfl, by omega, hlo, hhi⟩

theorem sortSearch_spec (f : Nat → Option Bool) (n : Nat)
    (htot : ∀ i, i < n → ∃ b, f i = some b)
    (hmono : ∀ i j, i ≤ j → j < n → f i = some true → f j = some true) :
    ∃ r, sortSearch n f = some r ∧ r ≤ n ∧ (∀ k, k < r → f k = some false) ∧
      (∀ k, r ≤ k → k < n → f k = some true) :=
  sortSearchLoop_spec f n htot hmono 0 n (by omega) (by omega) (by intro k hk; omega) (by intro k h1 h2; omega)

/-! ### `binary.LittleEndian` -/

theorem uint32_put (n : Nat) (h : n < 2 ^ 32) (rest : Bytes) : uint32 (putUint32 n ++ rest) = some n := by
  simp only [putUint32, List.cons_append, List.nil_append, uint32, Option.some.injEq, UInt8.toNat_ofNat']
  omega

@[simp] theorem putUint32_length (n : Nat) : (putUint32 n).length = 4 := rfl

theorem uint32_drop_flatMap (ns : List Nat) (i : Nat) (hi : i < ns.length) (h : ns[i] < 2 ^ 32) :
    (sliceFrom (ns.flatMap putUint32) (i * 4)).bind uint32 = some ns[i] := by
  have hl : ∀ l : List Nat, (l.flatMap putUint32).length = 4 * l.length := by
    intro l; induction l with
    | nil => rfl
    | cons a l ih => simp [ih]; omega
  have hdrop : ∀ (l : List Nat) (k : Nat), (l.flatMap putUint32).drop (k * 4) = (l.drop k).flatMap putUint32 := by
    intro l
    induction l with
    | nil => intro k; simp
    | cons a l ih =>
      intro k
      cases k with
      | zero => simp
      | succ k =>
        have e : (k + 1) * 4 = (putUint32 a).length + k * 4 := by simp; omega
        rw [List.flatMap_cons, e, List.drop_length_add_append, ih, List.drop_succ_cons]
  rw [sliceFrom, if_pos (by rw [hl]; omega), Option.bind_some, hdrop, List.drop_eq_getElem_cons hi, List.flatMap_cons,
    uint32_put _ h]

/-! ### Prefixes -/

namespace PrefixVec

/-- Start offsets of the prefixes. -/
def offsetsOf (offset : Nat) : List Bytes → List Nat
  | [] => []
  | p :: ps => offset :: offsetsOf (offset + p.length) ps

theorem initLoop_eq (ps : List Bytes) (offset : Nat) (offs data : Bytes) :
    initLoop ps offset offs data = (offs ++ (offsetsOf offset ps).flatMap putUint32, data ++ ps.flatten) := by
  induction ps generalizing offset offs data with
  | nil => simp [initLoop, offsetsOf]
  | cons p ps ih => simp [initLoop, offsetsOf, ih]

theorem offsetsOf_length (offset : Nat) (ps : List Bytes) : (offsetsOf offset ps).length = ps.length := by
  induction ps generalizing offset with
  | nil => rfl
  | cons p ps ih => simp [offsetsOf, ih]

theorem offsetsOf_get (offset : Nat) (ps : List Bytes) (i : Nat) (hi : i < ps.length) :
    (offsetsOf offset ps)[i]? = some (offset + (ps.take i).flatten.length) := by
  induction ps generalizing offset i with
  | nil => simp at hi
  | cons p ps ih =>
    cases i with
    | zero => simp [offsetsOf]
    | succ i =>
      simp only [offsetsOf, List.getElem?_cons_succ, List.take_succ_cons, List.flatten_cons, List.length_append]
      rw [ih _ _ (by simpa using hi)]
      congr 1; omega

/-- A prefix vector as `Init` builds it, for the list `ps` of all prefixes in level order. -/
structure WF (v : PrefixVec) (ps : List Bytes) : Prop where
  rank : v.hasPrefixVec.WF
  block : v.hasPrefixVec.blockSize = 512
  count : ones (bitsOf v.hasPrefixVec.bv.bits) = ps.length
  offs : v.prefixOffsets = (offsetsOf 0 ps).flatMap putUint32
  data : v.prefixData = ps.flatten
  small : ps.flatten.length < 2 ^ 32

theorem slice_flatten (ps : List Bytes) (i : Nat) (hi : i < ps.length) (stop : Nat)
    (hs : stop = (ps.take (i + 1)).flatten.length) :
    slice ps.flatten (ps.take i).flatten.length stop = some ps[i] := by
  subst hs
  have hsplit : ps.flatten = (ps.take (i + 1)).flatten ++ (ps.drop (i + 1)).flatten := by
    rw [← List.flatten_append, List.take_append_drop]
  have hst : (ps.take (i + 1)).flatten = (ps.take i).flatten ++ ps[i] := by
    rw [List.take_add_one, List.getElem?_eq_getElem hi, List.flatten_append]
    simp only [Option.toList_some, List.flatten_cons, List.flatten_nil, List.append_nil]
  rw [slice, if_pos]
  · rw [hsplit, List.take_left, hst, List.drop_left]
  · constructor
    · rw [hst, List.length_append]; omega
    · rw [hsplit, List.length_append]; omega

/-- `GetPrefix` returns the prefix of the node, or nothing if the node has none. -/
theorem getPrefix_spec (v : PrefixVec) (ps : List Bytes) (h : v.WF ps) (id : Nat)
    (hid : id < v.hasPrefixVec.bv.numBits) :
    ∃ b, (bitsOf v.hasPrefixVec.bv.bits)[id]? = some b ∧
      v.getPrefix id = some (if b then (ps[ones ((bitsOf v.hasPrefixVec.bv.bits).take id)]?).getD [] else []) := by
  have hw := BitVector.numWordsOf_bounds v.hasPrefixVec.bv.numBits
  have hwl := h.rank.words
  have hlt : id < (bitsOf v.hasPrefixVec.bv.bits).length := by simp; omega
  refine ⟨(bitsOf v.hasPrefixVec.bv.bits)[id], List.getElem?_eq_getElem hlt, ?_⟩
  unfold getPrefix
  simp only [BitVector.isSet, readBit_eq, List.getElem?_eq_getElem hlt, Option.bind_eq_bind, Option.bind_some]
  cases hb : (bitsOf v.hasPrefixVec.bv.bits)[id] with
  | false => simp
  | true =>
    have hr := RankVector.rankSparse_spec v.hasPrefixVec h.rank h.block id hid
    have hcount : ones ((bitsOf v.hasPrefixVec.bv.bits).take (id + 1)) =
        ones ((bitsOf v.hasPrefixVec.bv.bits).take id) + 1 := by
      rw [ones, ones, List.take_add_one, List.getElem?_eq_getElem hlt, hb, List.count_append]; rfl
    have hle := count_take_le (bitsOf v.hasPrefixVec.bv.bits) (id + 1)
    have hcnt := h.count
    generalize hi : ones ((bitsOf v.hasPrefixVec.bv.bits).take id) = i at *
    have hil : i < ps.length := by
      have : ones ((bitsOf v.hasPrefixVec.bv.bits).take (id + 1)) ≤ ones (bitsOf v.hasPrefixVec.bv.bits) := hle
      omega
    simp only [Bool.not_true, Bool.false_eq_true, if_false, hr, hcount, Option.bind_some, usub, Nat.le_add_left,
      if_true, Nat.add_sub_cancel]
    have hol := offsetsOf_length 0 ps
    have hbound : ∀ k, (ps.take k).flatten.length < 2 ^ 32 := by
      intro k
      have e : ps.flatten = (ps.take k).flatten ++ (ps.drop k).flatten := by
        rw [← List.flatten_append, List.take_append_drop]
      have := h.small
      rw [e, List.length_append] at this
      omega
    have hoff : ∀ k (hk : k < (offsetsOf 0 ps).length), (offsetsOf 0 ps)[k] = (ps.take k).flatten.length := by
      intro k hk
      have := offsetsOf_get 0 ps k (by omega)
      rw [List.getElem?_eq_getElem hk] at this
      simpa using this
    have hst : v.offsetAt i = some (ps.take i).flatten.length := by
      rw [offsetAt, h.offs, uint32_drop_flatMap _ i (by omega) (by rw [hoff]; exact hbound i), hoff]
    have hfl : ∀ l : List Nat, (l.flatMap putUint32).length = 4 * l.length := by
      intro l; induction l with
      | nil => rfl
      | cons a l ih => simp [ih]; omega
    have hstop : v.prefixEnd i = some (ps.take (i + 1)).flatten.length := by
      unfold prefixEnd offsetAt
      by_cases hc : i + 1 < ps.length
      · rw [if_pos (by rw [h.offs, hfl, hol]; omega), h.offs,
          uint32_drop_flatMap _ (i + 1) (by omega) (by rw [hoff]; exact hbound _), hoff]
      · have : i + 1 = ps.length := by omega
        rw [if_neg (by rw [h.offs, hfl, hol]; omega), h.data, this, List.take_length]
    rw [hst, Option.bind_some, hstop, Option.bind_some, h.data, slice_flatten ps i hil _ rfl,
      List.getElem?_eq_getElem hil]
    rfl

end PrefixVec
end Surf
