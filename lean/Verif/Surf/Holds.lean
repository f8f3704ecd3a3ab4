import Verif.Surf.InitLemmas
import Verif.Surf.RankLemmas
import Verif.Surf.MiscLemmas
import Verif.Surf.Builder

/-! Words seen as a growing bit sequence: `Holds ws A` – the words `ws` hold the bits `A`, followed by zeros. -/

set_option linter.unusedSimpArgs false

namespace Surf

/-- The words hold the bit sequence `A`; everything behind it is zero. -/
structure Holds (ws : List Word) (A : List Bool) : Prop where
  len : A.length ≤ 64 * ws.length
  bit : ∀ p, bitAt ws p = (A[p]?).getD false

namespace Holds

theorem levelOK {ws : List Word} {A : List Bool} (h : Holds ws A) : BitVector.LevelOK ws A.length := by
  refine ⟨h.len, fun p hp _ => ?_⟩
  rw [h.bit, List.getElem?_eq_none hp]; rfl

theorem take {ws : List Word} {A : List Bool} (h : Holds ws A) : (bitsOf ws).take A.length = A := by
  have hl := h.len
  apply List.ext_getElem?
  intro i
  rw [List.getElem?_take]
  by_cases hi : i < A.length
  · have hb := h.bit i
    have hi2 : i < (bitsOf ws).length := by simp; omega
    rw [bitAt, List.getElem?_eq_getElem hi2, List.getElem?_eq_getElem hi] at hb
    rw [if_pos hi, List.getElem?_eq_getElem hi2, List.getElem?_eq_getElem hi]
    simpa using hb
  · rw [if_neg hi, List.getElem?_eq_none (by omega)]

theorem bitsOf_eq {ws : List Word} {A : List Bool} (h : Holds ws A) :
    bitsOf ws = A ++ List.replicate (64 * ws.length - A.length) false := by
  have hl := h.len
  apply List.ext_getElem?
  intro i
  by_cases hi2 : i < (bitsOf ws).length
  · have hb := h.bit i
    rw [bitAt, List.getElem?_eq_getElem hi2] at hb
    rw [List.getElem?_eq_getElem hi2]
    by_cases hi : i < A.length
    · rw [List.getElem?_append_left hi]
      rw [List.getElem?_eq_getElem hi] at hb ⊢
      simpa using hb
    · rw [List.getElem?_append_right (by omega), List.getElem?_replicate]
      rw [List.getElem?_eq_none (by omega)] at hb
      simp only [bitsOf_length] at hi2
      rw [if_pos (by omega)]
      simpa using hb
  · rw [List.getElem?_eq_none (by omega), List.getElem?_eq_none]
    simp at hi2 ⊢; omega

theorem of_bitsOf {ws : List Word} {A : List Bool} {k : Nat} (h : bitsOf ws = A ++ List.replicate k false) :
    Holds ws A := by
  refine ⟨?_, ?_⟩
  · have := congrArg List.length h
    simp at this; omega
  · intro p
    rw [bitAt, h]
    by_cases hp : p < A.length
    · rw [List.getElem?_append_left hp]
    · rw [List.getElem?_append_right (by omega), List.getElem?_replicate, List.getElem?_eq_none (l := A) (by omega)]
      split <;> simp

theorem nil (ws : List Word) (h : ∀ p, bitAt ws p = false) : Holds ws [] := ⟨by simp, by simpa using h⟩

theorem replicate_zero (n : Nat) : Holds (List.replicate n 0#64) [] := by
  refine nil _ (fun p => ?_)
  rw [bitAt_eq, List.getElem?_replicate]
  split <;> simp

theorem append_zero {ws : List Word} {A : List Bool} (h : Holds ws A) : Holds (ws ++ [0#64]) A := by
  refine ⟨by have := h.len; simp; omega, fun p => ?_⟩
  rw [← h.bit, bitAt_eq, bitAt_eq]
  by_cases hp : p / 64 < ws.length
  · rw [List.getElem?_append_left hp]
  · rw [List.getElem?_append_right (by omega), List.getElem?_eq_none (l := ws) (by omega)]
    rcases Nat.lt_or_ge (p / 64 - ws.length) 1 with h1 | h1
    · have : p / 64 - ws.length = 0 := by omega
      simp [this]
    · rw [List.getElem?_eq_none (by simpa using h1)]

theorem snoc_false {ws : List Word} {A : List Bool} (h : Holds ws A) (hl : A.length < 64 * ws.length) :
    Holds ws (A ++ [false]) := by
  refine ⟨by simp; omega, fun p => ?_⟩
  rw [h.bit]
  by_cases hp : p < A.length
  · rw [List.getElem?_append_left hp]
  · rw [List.getElem?_append_right (by omega), List.getElem?_eq_none (l := A) (by omega)]
    rcases Nat.lt_or_ge (p - A.length) 1 with h1 | h1
    · have : p - A.length = 0 := by omega
      simp [this]
    · rw [List.getElem?_eq_none (by simpa using h1)]

theorem append_false {ws : List Word} {A : List Bool} (h : Holds ws A) (n : Nat) (hl : A.length + n ≤ 64 * ws.length) :
    Holds ws (A ++ List.replicate n false) := by
  induction n with
  | zero => simpa using h
  | succ n ih =>
    have := (ih (by omega)).snoc_false (by simp; omega)
    rwa [List.append_assoc, ← List.replicate_succ'] at this

theorem setBit {ws : List Word} {A : List Bool} (h : Holds ws A) (p : Nat) (hp : p < A.length) :
    ∃ ws', Surf.setBit ws p = some ws' ∧ ws'.length = ws.length ∧ Holds ws' (A.set p true) := by
  have hl := h.len
  have hlt : p / 64 < ws.length := by omega
  refine ⟨ws.set (p / 64) (ws[p / 64] ||| (1#64 <<< (p % 64))), ?_, by simp, ?_, ?_⟩
  · simp [Surf.setBit, List.getElem?_eq_getElem hlt]
  · simpa using hl
  · intro q
    have hb := h.bit q
    rw [bitAt_eq] at hb
    rw [bitAt_eq, List.getElem?_set, List.getElem?_set]
    have h1 : p % 64 < 64 := by omega
    have h2 : q % 64 < 64 := by omega
    have hbit : ((1#64 <<< (p % 64)).getLsbD (q % 64)) = decide (p % 64 = q % 64) := by
      rw [BitVec.getLsbD_shiftLeft]
      by_cases e : p % 64 = q % 64
      · simp [e]
        omega
      · by_cases e2 : q % 64 < p % 64
        · simp [e2, e]
        · have : q % 64 - p % 64 ≠ 0 := by omega
          simp [e2, e, this, BitVec.getLsbD_one, h2]
    by_cases hpq : p = q
    · subst hpq
      rw [if_pos rfl, if_pos hlt, if_pos rfl, if_pos hp]
      simp only [Option.map_some, Option.getD_some, BitVec.getLsbD_or, hbit, decide_true, Bool.or_true]
    · rw [if_neg hpq]
      by_cases hw : p / 64 = q / 64
      · have hne : ¬ (p % 64 = q % 64) := by omega
        rw [if_pos hw, if_pos hlt]
        rw [← hb, ← hw, List.getElem?_eq_getElem hlt]
        simp only [Option.map_some, Option.getD_some, BitVec.getLsbD_or, hbit, hne, decide_false, Bool.or_false]
      · rw [if_neg hw, hb]

theorem readBit {ws : List Word} {A : List Bool} (h : Holds ws A) (p : Nat) (hp : p < A.length) :
    Surf.readBit ws p = some A[p] := by
  have := h.take
  rw [readBit_eq, ← List.getElem?_take_of_lt hp, this, List.getElem?_eq_getElem hp]

end Holds

/-- `bitVector.Init` over levels: the bit sequences are concatenated. -/
theorem BitVector.init_holds {α : Type} (L : List α) (f : α → List Word) (g : α → List Bool)
    (h : ∀ l ∈ L, Holds (f l) (g l)) (extra : List Nat) :
    ∃ v, BitVector.init (L.map f) (L.map (fun l => (g l).length) ++ extra) = some v ∧
      v.numBits = (L.flatMap g).length + extra.sum ∧ v.bits.length = numWordsOf v.numBits ∧
      Holds v.bits (L.flatMap g) := by
  obtain ⟨v, e1, e2, e3, e4⟩ := BitVector.init_spec (L.map f) (L.map (fun l => (g l).length) ++ extra)
    (by simp) (by
      induction L with
      | nil => simp
      | cons a L ih =>
        intro p hp
        simp only [List.map_cons, List.cons_append, List.zip_cons_cons, List.mem_cons] at hp
        rcases hp with rfl | hp
        · exact (h a List.mem_cons_self).levelOK
        · exact ih (fun l hl => h l (List.mem_cons_of_mem _ hl)) p hp)
  have hs : (L.map (fun l => (g l).length) ++ extra).sum = (L.flatMap g).length + extra.sum := by
    simp [List.length_flatMap]
  refine ⟨v, e1, by rw [e2, hs], by rw [e3, e2], ?_⟩
  have hc : BitVector.concatLevels (L.map f) (L.map (fun l => (g l).length) ++ extra) = L.flatMap g := by
    clear e1 e2 e3 e4 hs
    induction L with
    | nil => simp [BitVector.concatLevels]
    | cons a L ih =>
      have ih := ih (fun l hl => h l (List.mem_cons_of_mem _ hl))
      simp only [BitVector.concatLevels] at ih ⊢
      simp only [List.map_cons, List.cons_append, List.zipWith_cons_cons, List.flatten_cons, List.flatMap_cons, ih,
        (h a (List.mem_cons_self)).take]
  rw [hc] at e4
  exact Holds.of_bitsOf e4

/-! ### Suffix bits -/

/-- The low `len` bits of a word. -/
def lowBits (len : Nat) (w : Word) : List Bool := (wbits w).take len

/-- The words of `suffixes` hold the suffixes `ss`, `len` bits each. -/
structure SufInv (len : Nat) (ss : List Word) (l : Level) : Prop where
  count : l.suffixCount = ss.length
  words : 0 < len → l.suffixes.length = numWordsOf (ss.length * len)
  holds : Holds l.suffixes (ss.flatMap (lowBits len))
  /-- no more words than suffixes -/
  room : l.suffixes.length ≤ ss.length

theorem flatMap_lowBits_length (len : Nat) (hl : len ≤ 64) (ss : List Word) :
    (ss.flatMap (lowBits len)).length = ss.length * len := by
  induction ss with
  | nil => simp
  | cons a ss ih =>
    have h2 : min len 64 = len := by omega
    simp only [List.flatMap_cons, List.length_append, ih, lowBits, List.length_take, wbits_length,
      List.length_cons, Nat.succ_mul, h2]
    omega

theorem sufInv_fresh (len : Nat) : SufInv len [] Level.fresh :=
  ⟨rfl, fun _ => by simp [Level.fresh, numWordsOf], ⟨by simp, fun p => by simp [Level.fresh, bitAt]⟩, by simp [Level.fresh]⟩

/-- `insertSuffix` appends exactly `len` bits. -/
theorem insertSuffixBits_spec (len : Nat) (hl : len ≤ 64) (s : Word) (hs : ∀ i, len ≤ i → s.getLsbD i = false)
    (ss : List Word) (l : Level) (h : SufInv len ss l) :
    ∃ ws, l.insertSuffixBits len s = some { l with suffixes := ws, suffixCount := l.suffixCount + 1 } ∧
      SufInv len (ss ++ [s]) { l with suffixes := ws, suffixCount := l.suffixCount + 1 } := by
  have hlen := flatMap_lowBits_length len hl ss
  have hA : (ss ++ [s]).flatMap (lowBits len) = ss.flatMap (lowBits len) ++ lowBits len s := by simp
  have hlen' : (ss ++ [s]).length * len = ss.length * len + len := by simp [Nat.succ_mul]
  generalize hAdef : ss.flatMap (lowBits len) = A at *
  have hcount := h.count
  have hhold := h.holds
  rw [hAdef] at hhold
  unfold Level.insertSuffixBits
  rw [hcount]
  -- the slice after making room
  generalize hpos : ss.length * len = pos at *
  have hroom : ∃ ws0, (if pos = l.suffixes.length * 64 then l.suffixes ++ [0#64] else l.suffixes) = ws0 ∧
      Holds ws0 A ∧ pos / 64 < ws0.length ∧ (0 < len → ws0.length = pos / 64 + 1) ∧ ws0.length ≤ ss.length + 1 := by
    have hroom := h.room
    by_cases hf : pos = l.suffixes.length * 64
    · refine ⟨_, if_pos hf, hhold.append_zero, by simp; omega, fun _ => by simp; omega, by simp; omega⟩
    · refine ⟨_, if_neg hf, hhold, ?_, ?_, by omega⟩
      · have := hhold.len; omega
      · intro hz
        have := h.words hz
        rw [hpos] at this
        have := BitVector.numWordsOf_bounds pos
        have := hhold.len
        omega
  obtain ⟨ws0, e0, h0, h1, h2, h2r⟩ := hroom
  dsimp only
  rw [e0]
  obtain ⟨ws1, e1, l1, b1⟩ := orAt_eq ws0 (pos / 64) (s <<< (pos % 64)) h1
  simp only [e1, Option.bind_eq_bind, Option.bind_some]
  refine ⟨_, rfl, by simp [hcount], ?_, ?_, ?_⟩
  · intro hz
    have := h2 hz
    have hb := BitVector.numWordsOf_bounds (pos + len)
    simp only [hlen']
    by_cases hr : len > 64 - pos % 64
    · simp only [if_pos hr, List.length_append, l1, List.length_singleton]; omega
    · simp only [if_neg hr, l1]; omega
  · simp only
    rw [hA]
    refine ⟨?_, ?_⟩
    · have hll : (lowBits len s).length = len := by simp [lowBits]; omega
      rw [List.length_append, hlen, hll]
      by_cases hr : len > 64 - pos % 64
      · simp only [if_pos hr, List.length_append, l1, List.length_singleton]; omega
      · simp only [if_neg hr, l1]; omega
    · apply BitVector.initInv_append hl rfl hs h0.bit
      intro p
      rw [hlen]
      by_cases hr : len > 64 - pos % 64
      · have hz : 0 < len := by omega
        have hwl := h2 hz
        rw [if_pos hr]
        have hsplit : bitAt (ws1 ++ [s >>> (64 - pos % 64)]) p =
            (bitAt ws1 p || (decide (p / 64 = pos / 64 + 1) && (s >>> (64 - pos % 64)).getLsbD (p % 64))) := by
          rw [bitAt_eq, bitAt_eq]
          by_cases hp : p / 64 < ws1.length
          · have : ¬ (p / 64 = pos / 64 + 1) := by omega
            rw [List.getElem?_append_left hp]; simp [this]
          · rw [List.getElem?_append_right (by omega), List.getElem?_eq_none (l := ws1) (by omega)]
            by_cases h3 : p / 64 = pos / 64 + 1
            · have : pos / 64 + 1 - ws1.length = 0 := by omega
              simp only [h3, this, List.getElem?_cons_zero, h3, decide_true, Bool.true_and, Option.map_some,
                Option.getD_some, Option.map_none, Option.getD_none, Bool.false_or]
            · rw [List.getElem?_eq_none (by simp; omega)]; simp [h3]
        rw [hsplit, b1, Bool.or_assoc]
        congr 1
        by_cases hp : p / 64 = pos / 64
        · have hn : ¬ (pos / 64 = pos / 64 + 1) := by omega
          simp only [hp, decide_true, Bool.true_and, hn, decide_false, Bool.false_and, Bool.or_false,
            BitVec.getLsbD_shiftLeft]
          by_cases hle : pos ≤ p
          · have e : p % 64 - pos % 64 = p - pos := by omega
            have h3 : ¬ (p % 64 < pos % 64) := by omega
            have h4 : p % 64 < 64 := by omega
            simp [hle, e, h3, h4]
          · have h3 : (p % 64 < pos % 64) := by omega
            simp [hle, h3]
        · by_cases hp2 : p / 64 = pos / 64 + 1
          · have hn : ¬ (pos / 64 + 1 = pos / 64) := by omega
            have hle : pos ≤ p := by omega
            have e : 64 - pos % 64 + p % 64 = p - pos := by omega
            simp [hp2, hle, e]
          · simp only [hp, hp2, decide_false, Bool.false_and, Bool.or_false]
            by_cases hle : pos ≤ p
            · have : 64 ≤ p - pos := by omega
              simp [BitVec.getLsbD_of_ge _ _ this]
            · simp [hle]
      · rw [if_neg hr, b1]
        congr 1
        by_cases hp : p / 64 = pos / 64
        · simp only [hp, decide_true, Bool.true_and, BitVec.getLsbD_shiftLeft]
          by_cases hle : pos ≤ p
          · have e : p % 64 - pos % 64 = p - pos := by omega
            have h3 : ¬ (p % 64 < pos % 64) := by omega
            have h4 : p % 64 < 64 := by omega
            simp [hle, e, h3, h4]
          · have h3 : (p % 64 < pos % 64) := by omega
            simp [hle, h3]
        · simp only [hp, decide_false, Bool.false_and]
          by_cases hle : pos ≤ p
          · rw [hs (p - pos) (by omega)]; simp
          · simp [hle]
  · simp only [List.length_append, List.length_singleton]
    by_cases hr : len > 64 - pos % 64
    · have hw := h2 (by omega)
      have hm : ss.length * len ≤ ss.length * 64 := Nat.mul_le_mul_left _ hl
      simp only [if_pos hr, List.length_append, l1, List.length_singleton]; omega
    · simp only [if_neg hr, l1]; exact h2r

end Surf
