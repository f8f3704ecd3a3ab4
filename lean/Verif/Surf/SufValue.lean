import Verif.Surf.Suffix

/-! What the bits of a suffix are. -/

set_option linter.unusedSimpArgs false

namespace Surf

/-- Bytes as a number, the first one highest. -/
def bigEndian (bs : Bytes) : Nat := bs.foldl (fun a b => a * 256 + b.toNat) 0

/-- The bits of the hash that are kept: `h` bits from bit 7 on. With more than 57 bits the code keeps none. -/
def hashBits (fp : Bytes → Word) (h : Nat) (key : Bytes) : Nat := if h ≤ 57 then (fp key).toNat / 2 ^ 7 % 2 ^ h else 0

/-- The `r` bits that are kept of a key behind its first `m` bytes, if it has so many: whole bytes first, then the upper bits of one more. (From the second whole byte on, the code takes the bytes
from the beginning of the key, and not from behind the first `m`.) -/
def realBits (r m : Nat) (key : Bytes) : Option Nat :=
  if m ≤ key.length ∧ r ≤ (key.length - m) * 8 then
    let whole := bigEndian (if r / 8 = 0 then [] else (key.drop m).take 1 ++ (key.drop 1).take (r / 8 - 1))
    some (if r % 8 = 0 then whole else whole * 2 ^ (r % 8) + (key[m + r / 8]?.getD 0).toNat / 2 ^ (8 - r % 8))
  else none

theorem hashSuffix_eq (fp : Bytes → Word) (key : Bytes) {h : Nat} (hh : h ≤ 64) : (constructHashSuffix fp key h).toNat = hashBits fp h key := by
  unfold constructHashSuffix hashBits hashShift
  generalize fp key = x
  rw [shiftAmount_eq hh, BitVec.toNat_ushiftRight, Nat.shiftRight_eq_div_pow, BitVec.toNat_shiftLeft, Nat.shiftLeft_eq]
  by_cases h57 : h ≤ 57
  · rw [if_pos h57, shiftAmount_eq (by omega)]
    have e1 : (2 : Nat) ^ 64 = 2 ^ (64 - (h + 7)) * 2 ^ (7 + h) := by rw [← Nat.pow_add]; congr 1; omega
    have e2 : (2 : Nat) ^ (64 - h) = 2 ^ (64 - (h + 7)) * 2 ^ 7 := by rw [← Nat.pow_add]; congr 1; omega
    rw [e1, Nat.mul_comm x.toNat, Nat.mul_mod_mul_left, e2, Nat.mul_div_mul_left _ _ (by positivity), Nat.pow_add, Nat.mod_mul_right_div_self]
  · rw [if_neg h57]
    have e : ∃ m, shiftAmount (h + 7) = 64 + m := ⟨shiftAmount (h + 7) - 64, by unfold shiftAmount; omega⟩
    obtain ⟨m, e⟩ := e
    rw [e, Nat.pow_add, ← Nat.mul_assoc, Nat.mul_right_comm, Nat.mul_mod_left, Nat.zero_div]

theorem bigEndian_snoc (bs : Bytes) (b : UInt8) : bigEndian (bs ++ [b]) = bigEndian bs * 256 + b.toNat := by
  unfold bigEndian
  rw [List.foldl_append]
  rfl

theorem realSuffixLoop_eq (key : Bytes) (c : UInt8) : ∀ n, n < key.length → n < 8 → ∃ w, realSuffixLoop key (0#64 + BitVec.ofNat 64 c.toNat) n = some w ∧ w.toNat < 2 ^ (8 * (n + 1)) ∧
    w.toNat = bigEndian ([c] ++ (key.drop 1).take n) := by
  intro n
  have hcl := c.toNat_lt
  induction n with
  | zero =>
    intro _ _
    refine ⟨_, rfl, ?_, ?_⟩
    · simp only [BitVec.zero_add, BitVec.toNat_ofNat]
      omega
    · simp only [BitVec.zero_add, BitVec.toNat_ofNat, List.take_zero, List.append_nil, bigEndian, List.foldl_cons, List.foldl_nil]
      omega
  | succ n ih =>
    intro h1 h2
    obtain ⟨w, e, hw, hv⟩ := ih (by omega) (by omega)
    refine ⟨(w <<< 8) + BitVec.ofNat 64 (key[n + 1]).toNat, by rw [realSuffixLoop, e]; simp only [Option.bind_eq_bind, Option.bind_some]; rw [List.getElem?_eq_getElem h1]; rfl, ?_, ?_⟩
    all_goals
      have hbl : (key[n + 1]).toNat < 256 := (key[n + 1]).toNat_lt
    · have hp : 2 ^ (8 * (n + 1 + 1)) ≤ 2 ^ 64 := Nat.pow_le_pow_right (by omega) (by omega)
      have hpe : (2 : Nat) ^ (8 * (n + 1 + 1)) = 2 ^ (8 * (n + 1)) * 256 := by rw [show 8 * (n + 1 + 1) = 8 * (n + 1) + 8 by omega, Nat.pow_add]
      generalize (2 : Nat) ^ (8 * (n + 1)) = q at *
      generalize (2 : Nat) ^ (8 * (n + 1 + 1)) = r at *
      rw [BitVec.toNat_add, BitVec.toNat_shiftLeft, BitVec.toNat_ofNat, Nat.shiftLeft_eq]
      generalize w.toNat = v at *
      generalize (key[n + 1]).toNat = c at *
      omega
    · have ht : (key.drop 1).take (n + 1) = (key.drop 1).take n ++ [key[n + 1]] := by
        rw [List.take_add_one, List.getElem?_drop, show 1 + n = n + 1 by omega, List.getElem?_eq_getElem h1]
        rfl
      rw [ht, ← List.append_assoc, bigEndian_snoc, ← hv]
      have hp : 2 ^ (8 * (n + 1 + 1)) ≤ 2 ^ 64 := Nat.pow_le_pow_right (by omega) (by omega)
      have hpe : (2 : Nat) ^ (8 * (n + 1 + 1)) = 2 ^ (8 * (n + 1)) * 256 := by rw [show 8 * (n + 1 + 1) = 8 * (n + 1) + 8 by omega, Nat.pow_add]
      generalize (2 : Nat) ^ (8 * (n + 1)) = q at *
      generalize (2 : Nat) ^ (8 * (n + 1 + 1)) = r at *
      rw [BitVec.toNat_add, BitVec.toNat_shiftLeft, BitVec.toNat_ofNat, Nat.shiftLeft_eq]
      generalize w.toNat = v at *
      generalize (key[n + 1]).toNat = c at *
      omega

theorem realSuffix_eq (key : Bytes) (m : Nat) {r : Nat} (hr : r ≤ 64) : ∃ w, constructRealSuffix key m r = some w ∧ w.toNat = (realBits r m key).getD 0 := by
  unfold constructRealSuffix
  by_cases h0 : key.length < m ∨ (key.length - m) * 8 < r
  · rw [if_pos h0]
    unfold realBits
    rw [if_neg (by omega)]
    exact ⟨0, rfl, rfl⟩
  · rw [if_neg h0]
    have hmain : ∃ w, (if r / 8 > 0 then do
          let b ← key[m]?
          realSuffixLoop key (0#64 + BitVec.ofNat 64 b.toNat) (r / 8 - 1)
        else some 0#64) = some w ∧ w.toNat < 2 ^ (8 * (r / 8)) ∧ w.toNat = bigEndian (if r / 8 = 0 then [] else (key.drop m).take 1 ++ (key.drop 1).take (r / 8 - 1)) := by
      by_cases hn : r / 8 > 0
      · rw [if_pos hn, if_neg (by omega), List.getElem?_eq_getElem (by omega)]
        simp only [Option.bind_eq_bind, Option.bind_some]
        obtain ⟨w, e, hw, hv⟩ := realSuffixLoop_eq key (key[m]'(by omega)) (r / 8 - 1) (by omega) (by omega)
        refine ⟨w, e, ?_, ?_⟩
        · rwa [show r / 8 - 1 + 1 = r / 8 by omega] at hw
        · rw [hv]
          congr 2
          rw [List.drop_eq_getElem_cons (by omega)]
          rfl
      · rw [if_neg hn, if_pos (by omega)]
        exact ⟨0#64, rfl, by simp, rfl⟩
    obtain ⟨w, e, hw, hv⟩ := hmain
    simp only [Option.bind_eq_bind] at e ⊢
    have hpush : ∀ (f : Word → Option Word), (if r / 8 > 0 then key[m]?.bind fun b =>
        (realSuffixLoop key (0#64 + BitVec.ofNat 64 b.toNat) (r / 8 - 1)).bind f else (some 0#64).bind f) =
        (if r / 8 > 0 then key[m]?.bind fun b => realSuffixLoop key (0#64 + BitVec.ofNat 64 b.toNat) (r / 8 - 1) else some 0#64).bind f := by
      intro f
      split
      · rw [Option.bind_assoc]
      · rfl
    rw [hpush, e, Option.bind_some]
    unfold realBits
    rw [if_pos (show m ≤ key.length ∧ r ≤ (key.length - m) * 8 by omega), ← hv]
    clear hpush e hv
    dsimp only [Option.getD_some]
    by_cases h8 : r % 8 = 0
    · rw [if_neg (by omega), if_pos h8]
      exact ⟨w, rfl, rfl⟩
    · rw [if_pos (by omega), if_neg h8, List.getElem?_eq_getElem (show m + r / 8 < key.length by omega)]
      refine ⟨_, rfl, ?_⟩
      generalize hb : key[m + r / 8] = b
      have hbl := b.toNat_lt
      simp only [Option.getD_some]
      rw [BitVec.toNat_add, BitVec.toNat_shiftLeft, BitVec.toNat_ushiftRight, BitVec.toNat_ofNat, Nat.shiftLeft_eq, Nat.shiftRight_eq_div_pow, Nat.mod_eq_of_lt (show b.toNat < 2 ^ 64 by omega)]
      generalize b.toNat = c at *
      have h1 : w.toNat * 2 ^ (r % 8) + c / 2 ^ (8 - r % 8) < 2 ^ 64 := by
        have h2 : c / 2 ^ (8 - r % 8) < 2 ^ (r % 8) := by
          rw [Nat.div_lt_iff_lt_mul (by positivity), ← Nat.pow_add, show r % 8 + (8 - r % 8) = 8 by omega]
          omega
        have h3 : (2 : Nat) ^ (8 * (r / 8)) * 2 ^ (r % 8) = 2 ^ r := by rw [← Nat.pow_add]; congr 1; omega
        have h4 : (w.toNat + 1) * 2 ^ (r % 8) ≤ 2 ^ (8 * (r / 8)) * 2 ^ (r % 8) := Nat.mul_le_mul_right _ hw
        have h5 : (2 : Nat) ^ r ≤ 2 ^ 64 := Nat.pow_le_pow_right (by omega) hr
        rw [Nat.add_mul, Nat.one_mul] at h4
        omega
      rw [Nat.mod_eq_of_lt (Nat.lt_of_le_of_lt (Nat.le_add_right _ _) h1), Nat.mod_eq_of_lt h1]

end Surf
