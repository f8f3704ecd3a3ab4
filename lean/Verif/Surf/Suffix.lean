import Verif.Surf.Holds

/-! The suffix words: they can always be computed, and have no more bits than configured. -/

set_option linter.unusedSimpArgs false

namespace Surf

theorem shiftAmount_eq {a : Nat} (h : a ≤ 64) : shiftAmount a = 64 - a := by
  unfold shiftAmount
  omega

theorem hashSuffix_lt (fp : Bytes → Word) (key : Bytes) {h : Nat} (hh : h ≤ 64) : (constructHashSuffix fp key h).toNat < 2 ^ h := by
  unfold constructHashSuffix
  rw [shiftAmount_eq hh, BitVec.toNat_ushiftRight, Nat.shiftRight_eq_div_pow]
  generalize fp key <<< shiftAmount (h + hashShift) = x
  have := x.isLt
  rw [Nat.div_lt_iff_lt_mul (by positivity), ← Nat.pow_add]
  rwa [show h + (64 - h) = 64 by omega]

theorem realSuffixLoop_spec (key : Bytes) (s : Word) (hs : s.toNat < 2 ^ 8) : ∀ n, n < key.length → n < 8 → ∃ w, realSuffixLoop key s n = some w ∧ w.toNat < 2 ^ (8 * (n + 1)) := by
  intro n
  induction n with
  | zero => intro _ _; exact ⟨s, rfl, hs⟩
  | succ n ih =>
    intro h1 h2
    obtain ⟨w, e, hw⟩ := ih (by omega) (by omega)
    refine ⟨_, by rw [realSuffixLoop, e]; simp only [Option.bind_eq_bind, Option.bind_some]; rw [List.getElem?_eq_getElem h1]; rfl, ?_⟩
    generalize hb : key[n + 1] = b
    have hbl : b.toNat < 256 := b.toNat_lt
    generalize b.toNat = c at hbl
    have hp : 2 ^ (8 * (n + 1 + 1)) ≤ 2 ^ 64 := Nat.pow_le_pow_right (by omega) (by omega)
    have hpe : (2 : Nat) ^ (8 * (n + 1 + 1)) = 2 ^ (8 * (n + 1)) * 256 := by rw [show 8 * (n + 1 + 1) = 8 * (n + 1) + 8 by omega, Nat.pow_add]
    generalize (2 : Nat) ^ (8 * (n + 1)) = q at *
    generalize (2 : Nat) ^ (8 * (n + 1 + 1)) = r at *
    rw [BitVec.toNat_add, BitVec.toNat_shiftLeft, BitVec.toNat_ofNat, Nat.shiftLeft_eq]
    generalize w.toNat = v at *
    omega

theorem realSuffix_lt (key : Bytes) (level : Nat) {r : Nat} (hr : r ≤ 64) : ∃ w, constructRealSuffix key level r = some w ∧ w.toNat < 2 ^ r := by
  unfold constructRealSuffix
  by_cases h0 : key.length < level ∨ (key.length - level) * 8 < r
  · rw [if_pos h0]
    exact ⟨0, rfl, by simp⟩
  · rw [if_neg h0]
    have hmain : ∃ w, (if r / 8 > 0 then do
          let b ← key[level]?
          realSuffixLoop key (0#64 + BitVec.ofNat 64 b.toNat) (r / 8 - 1)
        else some 0#64) = some w ∧ w.toNat < 2 ^ (8 * (r / 8)) := by
      by_cases hn : r / 8 > 0
      · rw [if_pos hn, List.getElem?_eq_getElem (by omega)]
        simp only [Option.bind_eq_bind, Option.bind_some]
        obtain ⟨w, e, hw⟩ := realSuffixLoop_spec key (0#64 + BitVec.ofNat 64 (key[level]'(by omega)).toNat)
          (by have := (key[level]'(by omega)).toNat_lt; simp; omega) (r / 8 - 1) (by omega) (by omega)
        refine ⟨w, e, ?_⟩
        rwa [show r / 8 - 1 + 1 = r / 8 by omega] at hw
      · rw [if_neg hn]
        exact ⟨0#64, rfl, by simp⟩
    obtain ⟨w, e, hw⟩ := hmain
    simp only [Option.bind_eq_bind] at e ⊢
    have hpush : ∀ (f : Word → Option Word), (if r / 8 > 0 then key[level]?.bind fun b =>
        (realSuffixLoop key (0#64 + BitVec.ofNat 64 b.toNat) (r / 8 - 1)).bind f else (some 0#64).bind f) =
        (if r / 8 > 0 then key[level]?.bind fun b => realSuffixLoop key (0#64 + BitVec.ofNat 64 b.toNat) (r / 8 - 1) else some 0#64).bind f := by
      intro f
      split
      · rw [Option.bind_assoc]
      · rfl
    rw [hpush, e, Option.bind_some]
    by_cases ho : r % 8 > 0
    · rw [if_pos ho, List.getElem?_eq_getElem (show level + r / 8 < key.length by omega), Option.bind_some]
      refine ⟨_, rfl, ?_⟩
      generalize (key[level + r / 8]'(by omega)) = b
      have hbl : b.toNat < 256 := b.toNat_lt
      generalize b.toNat = c at hbl
      have hp : 2 ^ r ≤ 2 ^ 64 := Nat.pow_le_pow_right (by omega) (by omega)
      have hpe : (2 : Nat) ^ r = 2 ^ (8 * (r / 8)) * 2 ^ (r % 8) := by rw [← Nat.pow_add]; congr 1; omega
      have hrem : c / 2 ^ (8 - r % 8) < 2 ^ (r % 8) := by
        rw [Nat.div_lt_iff_lt_mul (by positivity), ← Nat.pow_add, show r % 8 + (8 - r % 8) = 8 by omega]
        exact hbl
      have hc : c % 2 ^ 64 = c := Nat.mod_eq_of_lt (by omega)
      rw [BitVec.toNat_add, BitVec.toNat_shiftLeft, BitVec.toNat_ushiftRight, BitVec.toNat_ofNat, Nat.shiftLeft_eq, Nat.shiftRight_eq_div_pow, hc]
      generalize c / 2 ^ (8 - r % 8) = z at *
      generalize w.toNat = v at *
      generalize (2 : Nat) ^ (8 * (r / 8)) = q at *
      generalize (2 : Nat) ^ (r % 8) = u at *
      generalize (2 : Nat) ^ r = y at *
      have h1 : v * u + u ≤ q * u := by
        have := Nat.mul_le_mul_right u (show v + 1 ≤ q by omega)
        rwa [Nat.add_mul, Nat.one_mul] at this
      have h2 : v * u % 2 ^ 64 = v * u := Nat.mod_eq_of_lt (by omega)
      rw [h2, Nat.mod_eq_of_lt (by omega)]
      omega
    · rw [if_neg ho]
      refine ⟨w, rfl, ?_⟩
      rwa [show 8 * (r / 8) = r by omega] at hw

/-- A configuration as `NewBuilder` makes it, with suffixes that fit a word. -/
structure Config.Fine (c : Config) : Prop where
  made : c = newBuilder c.valueSize c.hashSuffixLen c.realSuffixLen
  fits : c.suffixLen ≤ 64

/-- The suffix stored for a leaf. -/
def Config.suffix (c : Config) (fp : Bytes → Word) (key : Bytes) (level : Nat) : Word :=
  (constructSuffix fp key level c.suffixType c.realSuffixLen c.hashSuffixLen).getD 0

theorem Config.Fine.suffix_spec {c : Config} (h : c.Fine) (fp : Bytes → Word) (key : Bytes) (level : Nat) :
    constructSuffix fp key level c.suffixType c.realSuffixLen c.hashSuffixLen = some (c.suffix fp key level) ∧
      ∀ i, c.suffixLen ≤ i → (c.suffix fp key level).getLsbD i = false := by
  have key : ∃ w, constructSuffix fp key level c.suffixType c.realSuffixLen c.hashSuffixLen = some w ∧ w.toNat < 2 ^ c.suffixLen := by
    have hf := h.fits
    unfold Config.suffixLen at hf ⊢
    cases ht : c.suffixType with
    | none => exact ⟨0, rfl, by simp⟩
    | hash =>
      refine ⟨_, rfl, Nat.lt_of_lt_of_le (hashSuffix_lt fp key (by omega)) (Nat.pow_le_pow_right (by omega) (by omega))⟩
    | real =>
      obtain ⟨w, e, hw⟩ := realSuffix_lt key level (r := c.realSuffixLen) (by omega)
      exact ⟨w, e, Nat.lt_of_lt_of_le hw (Nat.pow_le_pow_right (by omega) (by omega))⟩
    | mixed =>
      obtain ⟨w, e, hw⟩ := realSuffix_lt key level (r := c.realSuffixLen) (by omega)
      refine ⟨constructHashSuffix fp key c.hashSuffixLen <<< c.realSuffixLen ||| w, by simp only [constructSuffix, constructMixedSuffix, e]; rfl, ?_⟩
      have hh := hashSuffix_lt fp key (h := c.hashSuffixLen) (by omega)
      have hp : 2 ^ (c.hashSuffixLen + c.realSuffixLen) ≤ 2 ^ 64 := Nat.pow_le_pow_right (by omega) (by omega)
      rw [BitVec.toNat_or]
      apply Nat.or_lt_two_pow
      · rw [BitVec.toNat_shiftLeft, Nat.shiftLeft_eq]
        refine Nat.lt_of_le_of_lt (Nat.mod_le _ _) ?_
        rw [Nat.pow_add]
        exact Nat.mul_lt_mul_of_pos_right hh (by positivity)
      · exact Nat.lt_of_lt_of_le hw (Nat.pow_le_pow_right (by omega) (by omega))
  obtain ⟨w, e, hw⟩ := key
  unfold Config.suffix
  rw [e]
  refine ⟨rfl, ?_⟩
  intro i hi
  show w.getLsbD i = false
  rw [BitVec.getLsbD, Nat.testBit_lt_two_pow]
  exact Nat.lt_of_lt_of_le hw (Nat.pow_le_pow_right (by omega) hi)

theorem Config.Fine.none_iff {c : Config} (h : c.Fine) : c.suffixType = .none ↔ c.suffixLen = 0 := by
  have := congrArg Config.suffixType h.made
  rw [newBuilder] at this
  simp only at this
  rw [this]
  unfold Config.suffixLen
  split
  next h => simp [h]
  next h1 =>
    have : c.hashSuffixLen + c.realSuffixLen ≠ 0 := by omega
    split
    · simp [this]; omega
    · split <;> · simp [this]; omega

end Surf
