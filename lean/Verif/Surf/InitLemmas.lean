import Verif.Common
import Verif.Surf.Vec
import Verif.Surf.BitsLemmas

/-! `bitVector.Init` concatenates the level bit strings. -/

set_option linter.unusedSimpArgs false

namespace Surf

/-- Bit `p` of a slice of words, `false` outside. -/
def bitAt (bs : List Word) (p : Nat) : Bool := ((bitsOf bs)[p]?).getD false

theorem bitAt_eq (bs : List Word) (p : Nat) :
    bitAt bs p = ((bs[p / 64]?).map (fun w => w.getLsbD (p % 64))).getD false := by
  rw [bitAt, bitsOf_getElem?]

theorem orAt_eq (bs : List Word) (i : Nat) (x : Word) (h : i < bs.length) :
    ∃ bs', orAt bs i x = some bs' ∧ bs'.length = bs.length ∧
      ∀ p, bitAt bs' p = (bitAt bs p || (decide (p / 64 = i) && x.getLsbD (p % 64))) := by
  refine ⟨bs.set i (bs[i] ||| x), by simp [orAt, List.getElem?_eq_getElem h], by simp, ?_⟩
  intro p
  rw [bitAt_eq, bitAt_eq, List.getElem?_set]
  by_cases hp : p / 64 = i
  · simp [hp, h]
  · simp [hp, Ne.symm hp]

/-- ORing a word in at bit position `L`, over one or two words. -/
theorem or_chunk (bs : List Word) (L : Nat) (x : Word) (h1 : L / 64 < bs.length)
    (h2 : L % 64 > 0 → L / 64 + 1 < bs.length) :
    ∃ bs1, orAt bs (L / 64) (x <<< (L % 64)) = some bs1 ∧ bs1.length = bs.length ∧
      (L % 64 = 0 → ∀ p, bitAt bs1 p = (bitAt bs p || (decide (L ≤ p) && x.getLsbD (p - L)))) ∧
      (L % 64 > 0 → ∃ bs2, orAt bs1 (L / 64 + 1) (x >>> (64 - L % 64)) = some bs2 ∧ bs2.length = bs.length ∧
        ∀ p, bitAt bs2 p = (bitAt bs p || (decide (L ≤ p) && x.getLsbD (p - L)))) := by
  obtain ⟨bs1, e1, l1, b1⟩ := orAt_eq bs (L / 64) (x <<< (L % 64)) h1
  refine ⟨bs1, e1, l1, ?_, ?_⟩
  · intro h0 p
    rw [b1, h0]
    congr 1
    by_cases hp : p / 64 = L / 64
    · have : L ≤ p := by omega
      have e : p - L = p % 64 := by omega
      simp [hp, this, e]
    · by_cases hl : L ≤ p
      · have : 64 ≤ p - L := by omega
        simp [hp, BitVec.getLsbD_of_ge _ _ this]
      · simp [hp, hl]
  · intro hpos
    obtain ⟨bs2, e2, l2, b2⟩ := orAt_eq bs1 (L / 64 + 1) (x >>> (64 - L % 64)) (by rw [l1]; exact h2 hpos)
    refine ⟨bs2, e2, by rw [l2, l1], ?_⟩
    intro p
    rw [b2, b1, Bool.or_assoc]
    congr 1
    by_cases hp : p / 64 = L / 64
    · have hn : ¬ (L / 64 = L / 64 + 1) := by omega
      simp only [hp, decide_true, Bool.true_and, hn, decide_false, Bool.false_and, Bool.or_false,
        BitVec.getLsbD_shiftLeft]
      by_cases hl : L ≤ p
      · have e : p % 64 - L % 64 = p - L := by omega
        have h3 : ¬ (p % 64 < L % 64) := by omega
        have h4 : p % 64 < 64 := by omega
        simp [hl, e, h3, h4]
      · have h3 : (p % 64 < L % 64) := by omega
        simp [hl, h3]
    · by_cases hp2 : p / 64 = L / 64 + 1
      · have hn : ¬ (L / 64 + 1 = L / 64) := by omega
        have hl : L ≤ p := by omega
        have e : 64 - L % 64 + p % 64 = p - L := by omega
        simp [hp2, hl, e]
      · simp only [hp, hp2, decide_false, Bool.false_and, Bool.or_false]
        by_cases hl : L ≤ p
        · have : 64 ≤ p - L := by omega
          simp [BitVec.getLsbD_of_ge _ _ this]
        · simp [hl]

namespace BitVector

/-- The invariant of `Init`: the first `A.length` bits are `A`, all later bits are zero. -/
structure InitInv (W : Nat) (A : List Bool) (st : InitSt) : Prop where
  len : st.bits.length = W
  word : st.wordID = A.length / 64
  shift : st.bitShift = A.length % 64
  bit : ∀ p, bitAt st.bits p = (A[p]?).getD false

theorem initInv_append {A : List Bool} {bs : List Word} {w : Word} {m : Nat} {c : List Bool} (hm : m ≤ 64) (hc : c = (wbits w).take m)
    (hz : ∀ i, m ≤ i → w.getLsbD i = false)
    (hA : ∀ p, bitAt bs p = (A[p]?).getD false) {bs' : List Word}
    (hb : ∀ p, bitAt bs' p = (bitAt bs p || (decide (A.length ≤ p) && w.getLsbD (p - A.length)))) :
    ∀ p, bitAt bs' p = ((A ++ c)[p]?).getD false := by
  intro p
  rw [hb, hA]
  by_cases hp : p < A.length
  · have : ¬ (A.length ≤ p) := by omega
    rw [List.getElem?_append_left hp]; simp [this]
  · rw [List.getElem?_append_right (by omega), hc, List.getElem?_take, wbits_getElem?]
    have h1 : A.length ≤ p := by omega
    rw [List.getElem?_eq_none h1]
    by_cases h2 : p - A.length < m
    · have : p - A.length < 64 := by omega
      simp [h1, h2, this]
    · simp only [h1, h2, hz _ (Nat.le_of_not_lt h2)]; simp

theorem take_succ_chunk (src : List Word) (n : Nat) (h : n < src.length) :
    (bitsOf src).take (64 * (n + 1)) = (bitsOf src).take (64 * n) ++ wbits src[n] := by
  have e : 64 * (n + 1) = 64 * n + 64 := by omega
  rw [e, List.take_add]
  congr 1
  apply List.ext_getElem?
  intro i
  rw [List.getElem?_take, wbits_getElem?]
  by_cases hi : i < 64
  · have h1 : (64 * n + i) / 64 = n := by omega
    have h2 : (64 * n + i) % 64 = i := by omega
    simp [hi, bitsOf_getElem?, h1, h2, h]
  · simp [hi]

theorem initWords_spec (W : Nat) (A : List Bool) (st : InitSt) (src : List Word) (n : Nat)
    (hn : n ≤ src.length) (hW : A.length + 64 * n ≤ 64 * W) (inv : InitInv W A st) :
    ∃ st', initWords src st n = some st' ∧ InitInv W (A ++ (bitsOf src).take (64 * n)) st' := by
  induction n with
  | zero => exact ⟨st, rfl, by simpa using inv⟩
  | succ n ih =>
    obtain ⟨st1, e1, i1⟩ := ih (by omega) (by omega)
    have hlen : (A ++ (bitsOf src).take (64 * n)).length = A.length + 64 * n := by
      simp; omega
    have hnl : n < src.length := by omega
    obtain ⟨bs1, eb1, lb1, c1, c2⟩ := or_chunk st1.bits (A ++ (bitsOf src).take (64 * n)).length src[n]
      (by rw [i1.len]; omega) (by rw [i1.len]; omega)
    simp only [initWords, e1, Option.bind_eq_bind, Option.bind_some, List.getElem?_eq_getElem hnl, i1.word, i1.shift,
      eb1]
    have fin : ∀ bs', bs'.length = st1.bits.length →
        (∀ p, bitAt bs' p = (bitAt st1.bits p || (decide ((A ++ (bitsOf src).take (64 * n)).length ≤ p) &&
          (src[n]).getLsbD (p - (A ++ (bitsOf src).take (64 * n)).length)))) →
        InitInv W (A ++ (bitsOf src).take (64 * (n + 1)))
          { bits := bs', wordID := (A ++ (bitsOf src).take (64 * n)).length / 64 + 1,
            bitShift := (A ++ (bitsOf src).take (64 * n)).length % 64 } := by
      intro bs' hl hb
      have hA' := initInv_append (m := 64) (by omega) rfl
        (fun i hi => BitVec.getLsbD_of_ge _ _ hi) i1.bit hb
      have hta : (wbits src[n]).take 64 = wbits src[n] := List.take_of_length_le (by simp)
      rw [hta, List.append_assoc, ← take_succ_chunk src n hnl] at hA'
      have hlen' : (A ++ (bitsOf src).take (64 * (n + 1))).length = A.length + 64 * n + 64 := by
        simp; omega
      exact ⟨by rw [hl, i1.len], by simp only [hlen, hlen']; omega, by simp only [hlen, hlen']; omega, hA'⟩
    by_cases hs : (A ++ (bitsOf src).take (64 * n)).length % 64 > 0
    · obtain ⟨bs2, eb2, lb2, b2⟩ := c2 hs
      rw [if_pos hs]
      simp only [eb2, Option.bind_some]
      have := fin bs2 lb2 b2
      rw [← i1.shift] at this ⊢
      exact ⟨_, rfl, this⟩
    · rw [if_neg hs]
      have := fin bs1 lb1 (c1 (by omega))
      rw [← i1.shift] at this ⊢
      exact ⟨_, rfl, this⟩

theorem take_rem_chunk (src : List Word) (n : Nat) (h : n / 64 < src.length) :
    (bitsOf src).take n = (bitsOf src).take (64 * (n / 64)) ++ (wbits src[n / 64]).take (n % 64) := by
  have e : n = 64 * (n / 64) + n % 64 := by omega
  conv_lhs => rw [e]
  rw [List.take_add]
  congr 1
  apply List.ext_getElem?
  intro i
  rw [List.getElem?_take, List.getElem?_take, wbits_getElem?]
  by_cases hi : i < n % 64
  · have h0 : i < 64 := by omega
    have h1 : (64 * (n / 64) + i) / 64 = n / 64 := by omega
    have h2 : (64 * (n / 64) + i) % 64 = i := by omega
    simp [hi, bitsOf_getElem?, h0, h1, h2, h]
  · simp [hi]

/-- What `Init` needs of a level's source words: they hold at least `n` bits and the unused bits of the last
word used are zero. -/
def LevelOK (src : List Word) (n : Nat) : Prop :=
  n ≤ 64 * src.length ∧ ∀ p, n ≤ p → p / 64 = n / 64 → bitAt src p = false

theorem initRemain_spec (W : Nat) (A : List Bool) (st : InitSt) (src : List Word) (n : Nat)
    (hok : LevelOK src n) (hW : A.length + n % 64 ≤ 64 * W)
    (inv : InitInv W A st) :
    ∃ st', initRemain src n st = some st' ∧
      InitInv W (A ++ ((bitsOf src).drop (64 * (n / 64))).take (n % 64)) st' := by
  unfold initRemain
  by_cases hr : n % 64 > 0
  · have hnl : n / 64 < src.length := by have := hok.1; omega
    have hdrop : ((bitsOf src).drop (64 * (n / 64))).take (n % 64) = (wbits src[n / 64]).take (n % 64) := by
      have := take_rem_chunk src n hnl
      have e : n = 64 * (n / 64) + n % 64 := by omega
      conv_lhs at this => rw [e]
      rw [List.take_add] at this
      exact List.append_cancel_left this
    have hz : ∀ i, n % 64 ≤ i → (src[n / 64]).getLsbD i = false := by
      intro i hi
      by_cases h64 : i < 64
      · have := hok.2 (64 * (n / 64) + i) (by omega) (by omega)
        rw [bitAt_eq] at this
        have h1 : (64 * (n / 64) + i) / 64 = n / 64 := by omega
        have h2 : (64 * (n / 64) + i) % 64 = i := by omega
        simpa [h1, h2, hnl] using this
      · exact BitVec.getLsbD_of_ge _ _ (by omega)
    simp only [hr, if_true, Option.bind_eq_bind, List.getElem?_eq_getElem hnl, Option.bind_some, inv.word, inv.shift]
    have hlen : (A ++ ((bitsOf src).drop (64 * (n / 64))).take (n % 64)).length = A.length + n % 64 := by
      rw [hdrop]; simp; omega
    by_cases hfit : A.length % 64 + n % 64 ≤ 64
    · obtain ⟨bs1, eb1, lb1, b1⟩ := orAt_eq st.bits (A.length / 64) (src[n / 64] <<< (A.length % 64))
        (by rw [inv.len]; omega)
      simp only [eb1, Option.bind_some, hfit, if_true]
      have hb : ∀ p, bitAt bs1 p = (bitAt st.bits p || (decide (A.length ≤ p) &&
          (src[n / 64]).getLsbD (p - A.length))) := by
        intro p
        rw [b1]
        congr 1
        by_cases hp : p / 64 = A.length / 64
        · simp only [hp, decide_true, Bool.true_and, BitVec.getLsbD_shiftLeft]
          have h4 : p % 64 < 64 := by omega
          by_cases hl : A.length ≤ p
          · have e : p % 64 - A.length % 64 = p - A.length := by omega
            have h3 : ¬ (p % 64 < A.length % 64) := by omega
            simp [hl, e, h3, h4]
          · have h3 : (p % 64 < A.length % 64) := by omega
            simp [hl, h3]
        · by_cases hl : A.length ≤ p
          · simp [hp, hz (p - A.length) (by omega)]
          · simp [hp, hl]
      have hA' := initInv_append (m := n % 64) (by omega) hdrop hz inv.bit hb
      by_cases h0 : (A.length % 64 + n % 64) % 64 = 0
      · simp only [h0, if_true]
        refine ⟨_, rfl, ⟨by simp [lb1, inv.len], ?_, ?_, hA'⟩⟩ <;> simp only [hlen] <;> omega
      · simp only [h0, if_false]
        refine ⟨_, rfl, ⟨by simp [lb1, inv.len], ?_, ?_, hA'⟩⟩ <;> simp only [hlen] <;> omega
    · obtain ⟨bs1, eb1, lb1, _, c2⟩ := or_chunk st.bits A.length src[n / 64]
        (by rw [inv.len]; omega) (by rw [inv.len]; omega)
      obtain ⟨bs2, eb2, lb2, b2⟩ := c2 (by omega)
      simp only [eb1, Option.bind_some, hfit, if_false, eb2]
      have hA' := initInv_append (m := n % 64) (by omega) hdrop hz inv.bit b2
      refine ⟨_, rfl, ⟨by simp [lb2, inv.len], ?_, ?_, hA'⟩⟩ <;> simp only [hlen] <;> omega
  · have h0 : n % 64 = 0 := by omega
    simp only [hr, if_false]
    exact ⟨st, rfl, by simpa [h0] using inv⟩

/-- The concatenation that `Init` builds. -/
def concatLevels (srcs : List (List Word)) (ns : List Nat) : List Bool :=
  (List.zipWith (fun src n => (bitsOf src).take n) srcs ns).flatten

theorem initLevels_spec (W : Nat) (srcs : List (List Word)) (ns : List Nat) (A : List Bool) (st : InitSt)
    (hlen : srcs.length ≤ ns.length)
    (hok : ∀ p ∈ srcs.zip ns, LevelOK p.1 p.2)
    (hW : A.length + ns.sum ≤ 64 * W) (inv : InitInv W A st) :
    ∃ st', initLevels srcs ns st = some st' ∧ InitInv W (A ++ concatLevels srcs ns) st' := by
  induction srcs generalizing ns A st with
  | nil => exact ⟨st, rfl, by simpa [concatLevels] using inv⟩
  | cons src srcs ih =>
    cases ns with
    | nil => simp at hlen
    | cons n ns =>
      have hok1 : LevelOK src n := hok (src, n) (by simp)
      have hoks : ∀ p ∈ srcs.zip ns, LevelOK p.1 p.2 := fun p hp => hok p (by simp [hp])
      simp only [List.sum_cons] at hW
      have hlen' : srcs.length ≤ ns.length := by simpa using hlen
      by_cases h0 : n = 0
      · obtain ⟨st', e', i'⟩ := ih ns A st hlen' hoks (by omega) inv
        refine ⟨st', by simp [initLevels, h0, e'], ?_⟩
        simpa [concatLevels, h0] using i'
      · have hnl := hok1.1
        obtain ⟨st1, e1, i1⟩ := initWords_spec W A st src (n / 64) (by omega) (by omega) inv
        have hl1 : (A ++ (bitsOf src).take (64 * (n / 64))).length = A.length + 64 * (n / 64) := by
          simp; omega
        obtain ⟨st2, e2, i2⟩ := initRemain_spec W _ st1 src n hok1 (by rw [hl1]; omega) i1
        have hcat : A ++ (bitsOf src).take (64 * (n / 64)) ++ ((bitsOf src).drop (64 * (n / 64))).take (n % 64)
            = A ++ (bitsOf src).take n := by
          have e : n = 64 * (n / 64) + n % 64 := by omega
          conv_rhs => rw [e]
          rw [List.append_assoc, List.take_add]
        rw [hcat] at i2
        have hl2 : (A ++ (bitsOf src).take n).length = A.length + n := by simp; omega
        obtain ⟨st3, e3, i3⟩ := ih ns _ st2 hlen' hoks (by rw [hl2]; omega) i2
        refine ⟨st3, by simp [initLevels, h0, e1, e2, e3], ?_⟩
        simpa [concatLevels] using i3

theorem concatLevels_length (srcs : List (List Word)) (ns : List Nat) (hlen : srcs.length ≤ ns.length)
    (hok : ∀ p ∈ srcs.zip ns, LevelOK p.1 p.2) :
    (concatLevels srcs ns).length = (ns.take srcs.length).sum := by
  induction srcs generalizing ns with
  | nil => simp [concatLevels]
  | cons src srcs ih =>
    cases ns with
    | nil => simp at hlen
    | cons n ns =>
      have hok1 : LevelOK src n := hok (src, n) (by simp)
      have := ih ns (by simpa using hlen) (fun p hp => hok p (by simp [hp]))
      have hnl := hok1.1
      simp only [concatLevels] at this
      simp only [concatLevels, List.zipWith_cons_cons, List.flatten_cons, List.length_append, this,
        List.length_take, bitsOf_length, List.length_cons, List.take_succ_cons, List.sum_cons]
      omega

theorem numWordsOf_bounds (n : Nat) : n ≤ 64 * numWordsOf n ∧ 64 * numWordsOf n < n + 64 := by
  unfold numWordsOf; split <;> omega

theorem list_sum_take_le (ns : List Nat) (k : Nat) : (ns.take k).sum ≤ ns.sum := by
  conv_rhs => rw [← List.take_append_drop k ns]
  rw [List.sum_append]; omega

/-- `Init` never panics on well-formed level strings and its bit sequence is their concatenation, zero-padded. -/
theorem init_spec (srcs : List (List Word)) (ns : List Nat) (hlen : srcs.length ≤ ns.length)
    (hok : ∀ p ∈ srcs.zip ns, LevelOK p.1 p.2) :
    ∃ v, init srcs ns = some v ∧ v.numBits = ns.sum ∧ v.bits.length = numWordsOf ns.sum ∧
      bitsOf v.bits = concatLevels srcs ns ++
        List.replicate (64 * numWordsOf ns.sum - (concatLevels srcs ns).length) false := by
  have hb := numWordsOf_bounds ns.sum
  have hinv : InitInv (numWordsOf ns.sum) []
      { bits := List.replicate (numWordsOf ns.sum) 0#64, wordID := 0, bitShift := 0 } := by
    refine ⟨by simp, rfl, rfl, ?_⟩
    intro p
    rw [bitAt_eq, List.getElem?_replicate]
    split <;> simp
  obtain ⟨st, e, i⟩ := initLevels_spec (numWordsOf ns.sum) srcs ns [] _ hlen hok (by simpa using hb.1) hinv
  refine ⟨⟨ns.sum, st.bits⟩, by simp [init, e], rfl, i.len, ?_⟩
  have hcl := concatLevels_length srcs ns hlen hok
  have hle := list_sum_take_le ns srcs.length
  apply List.ext_getElem?
  intro p
  have hp := i.bit p
  simp only [List.nil_append] at hp
  by_cases h1 : p < 64 * st.bits.length
  · have h1' : p < (bitsOf st.bits).length := by simpa using h1
    rw [bitAt, List.getElem?_eq_getElem h1'] at hp
    rw [List.getElem?_eq_getElem h1']
    simp only [Option.getD_some] at hp
    rw [hp]
    by_cases h2 : p < (concatLevels srcs ns).length
    · rw [List.getElem?_append_left h2, List.getElem?_eq_getElem h2]; rfl
    · rw [List.getElem?_append_right (by omega), List.getElem?_eq_none (by omega), List.getElem?_replicate]
      have := i.len
      have h3 : p - (concatLevels srcs ns).length < 64 * numWordsOf ns.sum - (concatLevels srcs ns).length := by omega
      simp [h3]
  · have := i.len
    rw [List.getElem?_eq_none (by simp; omega), List.getElem?_eq_none]
    simp; omega

end BitVector
end Surf
