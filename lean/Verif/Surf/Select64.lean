import Verif.Common
import Verif.Surf.BitsLemmas

/-! `select64` (portable and BMI2) returns the position of the k-th set bit. -/

set_option linter.unusedSimpArgs false

namespace Surf

/-- `p` is the position of the `n`-th (from 1) `true` of `l`. -/
def IsSelect (l : List Bool) (n p : Nat) : Prop := l[p]? = some true ∧ (l.take p).count true + 1 = n

theorem IsSelect.unique {l : List Bool} {n p q : Nat} (hp : IsSelect l n p) (hq : IsSelect l n q) : p = q := by
  have key : ∀ {a b}, IsSelect l n a → IsSelect l n b → ¬ a < b := by
    intro a b ha hb hlt
    have : (l.take (a + 1)).count true ≤ (l.take b).count true := by
      apply List.Sublist.count_le
      exact List.Sublist.trans (List.Sublist.refl _) (by
        have : l.take (a + 1) = (l.take b).take (a + 1) := by rw [List.take_take]; congr 1; omega
        rw [this]; exact List.take_sublist _ _)
    rw [List.take_add_one, ha.1, List.count_append] at this
    have h1 := ha.2; have h2 := hb.2
    simp at this; omega
  rcases Nat.lt_trichotomy p q with h | h | h
  · exact absurd h (key hp hq)
  · exact h
  · exact absurd h (key hq hp)

theorem exists_isSelect (l : List Bool) (n : Nat) (h1 : 1 ≤ n) (h2 : n ≤ l.count true) : ∃ p, IsSelect l n p := by
  induction l generalizing n with
  | nil => simp at h2; omega
  | cons b l ih =>
    cases b with
    | false =>
      obtain ⟨p, hp, hc⟩ := ih n h1 (by simpa using h2)
      exact ⟨p + 1, by simpa using hp, by simpa using hc⟩
    | true =>
      by_cases hn : n = 1
      · exact ⟨0, by simp, by simp [hn]⟩
      · obtain ⟨p, hp, hc⟩ := ih (n - 1) (by omega) (by simp at h2; omega)
        exact ⟨p + 1, by simpa using hp, by simp; omega⟩

theorem count_take_le (l : List Bool) (p : Nat) : (l.take p).count true ≤ l.count true :=
  List.Sublist.count_le _ (List.take_sublist _ _)

theorem IsSelect.bounds {l : List Bool} {n p : Nat} (h : IsSelect l n p) : p < l.length ∧ 1 ≤ n ∧ n ≤ l.count true := by
  have hlt : p < l.length := by
    by_contra hc
    have := h.1
    rw [List.getElem?_eq_none (by omega)] at this
    simp at this
  refine ⟨hlt, by have := h.2; omega, ?_⟩
  have h3 := count_take_le l (p + 1)
  rw [List.take_add_one, h.1, List.count_append] at h3
  have := h.2
  simp at h3
  omega

theorem isSelect_drop {l : List Bool} {n p s : Nat} (h : IsSelect (l.drop s) n p) :
    IsSelect l ((l.take s).count true + n) (s + p) := by
  refine ⟨by rw [← List.getElem?_drop]; exact h.1, ?_⟩
  rw [List.take_add, List.count_append]
  have := h.2
  omega

theorem isSelect_append_left {l m : List Bool} {n p : Nat} (h : IsSelect l n p) : IsSelect (l ++ m) n p := by
  have hb := h.bounds.1
  refine ⟨by rw [List.getElem?_append_left hb]; exact h.1, ?_⟩
  rw [List.take_append_of_le_length (by omega)]
  exact h.2

theorem isSelect_of_append_zeros {l : List Bool} {k n p : Nat}
    (h : IsSelect (l ++ List.replicate k false) n p) : IsSelect l n p := by
  have hlt : p < l.length := by
    by_contra hc
    have := h.1
    rw [List.getElem?_append_right (by omega), List.getElem?_replicate] at this
    split at this <;> simp at this
  refine ⟨by have := h.1; rwa [List.getElem?_append_left hlt] at this, ?_⟩
  have := h.2
  rwa [List.take_append_of_le_length (by omega)] at this

/-! ### findFirstSet and the byte table -/

theorem trailingZeros_first (w : Word) (i : Nat) (hi : i < 64) (h1 : w.getLsbD i = true)
    (h2 : ∀ j, j < i → w.getLsbD j = false) : trailingZeros w = i := by
  have hw : w ≠ 0#64 := by rintro rfl; simp at h1
  obtain ⟨a, b, c⟩ := trailingZeros_spec w hw
  rcases Nat.lt_trichotomy (trailingZeros w) i with h | h | h
  · rw [h2 _ h] at b; cases b
  · exact h
  · rw [c _ h] at h1; cases h1

theorem findFirstSet_eq (w : Word) (h : w ≠ 0#64) : findFirstSet w = trailingZeros w + 1 := by
  obtain ⟨a, b, c⟩ := trailingZeros_spec w h
  unfold findFirstSet
  congr 1
  apply trailingZeros_first _ _ a
  · rw [BitVec.getLsbD_and, BitVec.getLsbD_neg, b]
    have : ¬ ∃ j, j < trailingZeros w ∧ w.getLsbD j = true := by
      rintro ⟨j, hj, hb⟩; rw [c j hj] at hb; cases hb
    simp [a, this]
  · intro j hj
    rw [BitVec.getLsbD_and, c j hj, Bool.false_and]

theorem take_count_zero (w : Word) (h : w ≠ 0#64) : ((wbits w).take (trailingZeros w)).count true = 0 := by
  obtain ⟨a, b, c⟩ := trailingZeros_spec w h
  rw [List.count_eq_zero]
  intro hm
  rw [List.mem_iff_getElem?] at hm
  obtain ⟨i, hi⟩ := hm
  rw [List.getElem?_take, wbits_getElem?] at hi
  by_cases h1 : i < trailingZeros w
  · have : i < 64 := by omega
    rw [if_pos h1, if_pos this, c i h1] at hi; cases hi
  · simp [h1] at hi

theorem isSelect_first (w : Word) (h : w ≠ 0#64) : IsSelect (wbits w) 1 (trailingZeros w) := by
  obtain ⟨a, b, c⟩ := trailingZeros_spec w h
  exact ⟨by rw [wbits_getElem?]; simp [a, b], by rw [take_count_zero w h]⟩

theorem wbits_zero_count : (wbits 0#64).count true = 0 := by decide

theorem selectInByteLoop_spec (j : Nat) (i : Word) (r : Nat) (h : j < (wbits i).count true) :
    ∃ p, selectInByteLoop i r j = r + p ∧ IsSelect (wbits i) (j + 1) p := by
  induction j generalizing i r with
  | zero =>
    have hi : i ≠ 0#64 := by rintro rfl; rw [wbits_zero_count] at h; omega
    refine ⟨trailingZeros i, ?_, isSelect_first i hi⟩
    simp only [selectInByteLoop, hi, if_false, findFirstSet_eq i hi]; omega
  | succ j ih =>
    have hi : i ≠ 0#64 := by rintro rfl; rw [wbits_zero_count] at h; omega
    obtain ⟨a, b, c⟩ := trailingZeros_spec i hi
    have hs : trailingZeros i + 1 ≤ 64 := by omega
    have hsplit : ((wbits i).take (trailingZeros i + 1)).count true = 1 := by
      rw [List.take_add_one, List.count_append, take_count_zero i hi, wbits_getElem?, if_pos a, b]
      rfl
    have htot : (wbits i).count true = 1 + ((wbits i).drop (trailingZeros i + 1)).count true := by
      conv_lhs => rw [← List.take_append_drop (trailingZeros i + 1) (wbits i)]
      rw [List.count_append, hsplit]
    have hw := wbits_ushiftRight i _ hs
    obtain ⟨p, e, hsel⟩ := ih (i >>> (trailingZeros i + 1)) (r + (trailingZeros i + 1)) (by
      rw [hw, List.count_append, List.count_replicate]; simp; omega)
    refine ⟨trailingZeros i + 1 + p, ?_, ?_⟩
    · simp only [selectInByteLoop, findFirstSet_eq i hi, e]; omega
    · rw [hw] at hsel
      have := isSelect_drop (isSelect_of_append_zeros hsel)
      rw [hsplit] at this
      rwa [Nat.add_comm 1] at this

/-! ### Base-256 digits -/

/-- The number with base-256 digits `ds`, least significant first. -/
def od : List Nat → Nat
  | [] => 0
  | d :: ds => d + 256 * od ds

theorem land_step (a b m n : Nat) (ha : a < 256) (hm : m < 256) :
    (a + 256 * b) &&& (m + 256 * n) = (a &&& m) + 256 * (b &&& n) := by
  have h1 := Nat.and_mod_two_pow (n := 8) (a := a + 256 * b) (b := m + 256 * n)
  have h2 := Nat.and_div_two_pow (n := 8) (a := a + 256 * b) (b := m + 256 * n)
  have e1 : (a + 256 * b) % 2 ^ 8 = a := by omega
  have e2 : (m + 256 * n) % 2 ^ 8 = m := by omega
  have e3 : (a + 256 * b) / 2 ^ 8 = b := by omega
  have e4 : (m + 256 * n) / 2 ^ 8 = n := by omega
  rw [e1, e2] at h1
  rw [e3, e4] at h2
  omega

theorem lor_step (a b m n : Nat) (ha : a < 256) (hm : m < 256) :
    (a + 256 * b) ||| (m + 256 * n) = (a ||| m) + 256 * (b ||| n) := by
  have h1 := Nat.or_mod_two_pow (n := 8) (a := a + 256 * b) (b := m + 256 * n)
  have h2 := Nat.or_div_two_pow (n := 8) (a := a + 256 * b) (b := m + 256 * n)
  have e1 : (a + 256 * b) % 2 ^ 8 = a := by omega
  have e2 : (m + 256 * n) % 2 ^ 8 = m := by omega
  have e3 : (a + 256 * b) / 2 ^ 8 = b := by omega
  have e4 : (m + 256 * n) / 2 ^ 8 = n := by omega
  rw [e1, e2] at h1
  rw [e3, e4] at h2
  omega

theorem od_land (m : Nat) (hm : m < 256) (ds : List Nat) (h : ∀ d ∈ ds, d < 256) :
    od ds &&& od (List.replicate ds.length m) = od (ds.map (· &&& m)) := by
  induction ds with
  | nil => simp [od]
  | cons d ds ih =>
    simp only [List.length_cons, List.replicate_succ, od, List.map_cons]
    rw [land_step _ _ _ _ (h d (by simp)) hm, ih (fun d hd => h d (by simp [hd]))]

theorem and33 : ∀ u : Fin 64, ∀ r : Fin 4, (u.val + 64 * r.val) &&& 0x33 = u.val &&& 0x33 := by decide

theorem od_shift2 (ds : List Nat) (h : ∀ d ∈ ds, d < 256) :
    od ds / 4 &&& od (List.replicate ds.length 0x33) = od (ds.map (fun d => (d / 4) &&& 0x33)) := by
  induction ds with
  | nil => rfl
  | cons d ds ih =>
    have hd := h d (by simp)
    simp only [List.length_cons, List.replicate_succ, od, List.map_cons]
    have e : (d + 256 * od ds) / 4 = (d / 4 + 64 * (od ds % 4)) + 256 * (od ds / 4) := by omega
    rw [e, land_step _ _ _ _ (by omega) (by omega), ih (fun d hd => h d (by simp [hd]))]
    have := and33 ⟨d / 4, by omega⟩ ⟨od ds % 4, by omega⟩
    simp only at this
    rw [this]

theorem and0f (x r : Nat) : (x + 16 * r) &&& 0xf = x &&& 0xf := by
  have h1 := Nat.and_two_pow_sub_one_eq_mod (x + 16 * r) 4
  have h2 := Nat.and_two_pow_sub_one_eq_mod x 4
  norm_num at h1 h2
  rw [h1, h2]

theorem od_shift4 (ds : List Nat) (h : ∀ d ∈ ds, d ≤ 68 ∧ d % 16 ≤ 4) :
    (od ds + od ds / 16) &&& od (List.replicate ds.length 0x0f) = od (ds.map (fun d => (d + d / 16) &&& 0x0f)) ∧
      od ds % 16 ≤ 4 := by
  induction ds with
  | nil => exact ⟨rfl, by simp [od]⟩
  | cons d ds ih =>
    have hd := h d (by simp)
    have ⟨ih1, ih2⟩ := ih (fun d hd => h d (by simp [hd]))
    simp only [List.length_cons, List.replicate_succ, od, List.map_cons]
    have e : (d + 256 * od ds) + (d + 256 * od ds) / 16 =
        (d + d / 16 + 16 * (od ds % 16)) + 256 * (od ds + od ds / 16) := by omega
    rw [e, land_step _ _ _ _ (by omega) (by omega), ih1, and0f]
    exact ⟨rfl, by omega⟩

theorem od_map_add (f g : Nat → Nat) (ds : List Nat) :
    od (ds.map f) + od (ds.map g) = od (ds.map (fun d => f d + g d)) := by
  induction ds with
  | nil => rfl
  | cons d ds ih => simp only [List.map_cons, od, ← ih]; omega

theorem od_map_le (f g : Nat → Nat) (ds : List Nat) (h : ∀ d ∈ ds, g d ≤ f d) : od (ds.map g) ≤ od (ds.map f) := by
  induction ds with
  | nil => simp [od]
  | cons d ds ih =>
    have := ih (fun d hd => h d (by simp [hd]))
    have := h d (by simp)
    simp only [List.map_cons, od]; omega

theorem od_map_sub (f g : Nat → Nat) (ds : List Nat) (h : ∀ d ∈ ds, g d ≤ f d) :
    od (ds.map f) - od (ds.map g) = od (ds.map (fun d => f d - g d)) := by
  induction ds with
  | nil => rfl
  | cons d ds ih =>
    have h1 := ih (fun d hd => h d (by simp [hd]))
    have h2 := od_map_le f g ds (fun d hd => h d (by simp [hd]))
    have := h d (by simp)
    simp only [List.map_cons, od, ← h1]; omega

theorem od_half (f : Nat → Nat) (ds : List Nat) (h : ∀ d ∈ ds, 2 * (f d / 2) = f d) :
    od (ds.map f) / 2 = od (ds.map (fun d => f d / 2)) := by
  have key : 2 * od (ds.map (fun d => f d / 2)) = od (ds.map f) := by
    induction ds with
    | nil => simp [od]
    | cons d ds ih =>
      have h1 := ih (fun d hd => h d (by simp [hd]))
      have := h d (by simp)
      simp only [List.map_cons, od, ← h1]; omega
  omega

theorem od_lt (ds : List Nat) (h : ∀ d ∈ ds, d < 256) : od ds < 256 ^ ds.length := by
  induction ds with
  | nil => simp [od]
  | cons d ds ih =>
    have := h d (by simp)
    have := ih (fun d hd => h d (by simp [hd]))
    simp only [od, List.length_cons, Nat.pow_succ]; omega

/-- The bits of a byte. -/
def byteBits (d : Nat) : List Bool := (List.range 8).map d.testBit

theorem od_testBit (ds : List Nat) (h : ∀ d ∈ ds, d < 256) (i : Nat) :
    ((ds.flatMap byteBits)[i]?).getD false = (od ds).testBit i := by
  induction ds generalizing i with
  | nil => simp [od]
  | cons d ds ih =>
    have hd := h d (by simp)
    have e : od (d :: ds) = 2 ^ 8 * od ds + d := by simp [od]; omega
    rw [List.flatMap_cons, e, Nat.testBit_two_pow_mul_add _ (by simpa using hd)]
    by_cases hi : i < 8
    · rw [List.getElem?_append_left (by simpa [byteBits] using hi)]
      simp [byteBits, hi]
    · have hl : (byteBits d).length = 8 := by simp [byteBits]
      rw [List.getElem?_append_right (by omega), hl, ih (fun d hd => h d (by simp [hd]))]
      simp [hi]

theorem wbits_od (w : Word) (ds : List Nat) (h : ∀ d ∈ ds, d < 256) (hl : ds.length = 8) (hw : w.toNat = od ds) :
    wbits w = ds.flatMap byteBits := by
  have hlen : (ds.flatMap byteBits).length = 64 := by
    have : ∀ l : List Nat, (l.flatMap byteBits).length = 8 * l.length := by
      intro l; induction l with
      | nil => rfl
      | cons a l ih => simp [ih, byteBits]; omega
    rw [this, hl]
  apply List.ext_getElem (by simp [hlen])
  intro i h1 h2
  have := od_testBit ds h i
  rw [List.getElem?_eq_getElem h2] at this
  simp only [Option.getD_some] at this
  rw [this, wbits_getElem, ← hw, BitVec.testBit_toNat]

theorem flatMap_byteBits_take (ds : List Nat) (m : Nat) :
    (ds.flatMap byteBits).take (8 * m) = (ds.take m).flatMap byteBits := by
  induction ds generalizing m with
  | nil => simp
  | cons d ds ih =>
    cases m with
    | zero => simp
    | succ m =>
      have hl : (byteBits d).length = 8 := by simp [byteBits]
      have e : 8 * (m + 1) = (byteBits d).length + 8 * m := by omega
      rw [List.flatMap_cons, e, List.take_length_add_append, ih, List.take_succ_cons, List.flatMap_cons]

theorem flatMap_byteBits_drop (ds : List Nat) (m : Nat) :
    (ds.flatMap byteBits).drop (8 * m) = (ds.drop m).flatMap byteBits := by
  induction ds generalizing m with
  | nil => simp
  | cons d ds ih =>
    cases m with
    | zero => simp
    | succ m =>
      have hl : (byteBits d).length = 8 := by simp [byteBits]
      have e : 8 * (m + 1) = (byteBits d).length + 8 * m := by omega
      rw [List.flatMap_cons, e, List.drop_length_add_append, ih, List.drop_succ_cons]

/-- The popcount steps on one byte. -/
def t1 (b : Nat) : Nat := b - (b &&& 0xaa) / 2
def t2 (b : Nat) : Nat := (t1 b &&& 0x33) + ((t1 b / 4) &&& 0x33)
def t3 (b : Nat) : Nat := (t2 b + t2 b / 16) &&& 0x0f

theorem byte_tables : ∀ b : Fin 256, 2 * ((b.val &&& 0xaa) / 2) = (b.val &&& 0xaa) ∧ (b.val &&& 0xaa) / 2 ≤ b.val ∧
    t1 b.val < 256 ∧ t2 b.val ≤ 68 ∧ t2 b.val % 16 ≤ 4 ∧ t3 b.val = (byteBits b.val).count true ∧ t3 b.val ≤ 8 := by
  decide +kernel

theorem geq_table : ∀ k : Fin 64, ∀ B : Fin 65, (k.val + 128 - B.val) &&& 128 = if B.val ≤ k.val then 128 else 0 := by
  decide +kernel

theorem or128 : ∀ k : Fin 64, k.val ||| 128 = k.val + 128 := by decide

/-- The eight bytes of a word. -/
def bytesOf (n : Nat) : List Nat :=
  [n % 256, n / 256 % 256, n / 65536 % 256, n / 16777216 % 256, n / 4294967296 % 256,
   n / 1099511627776 % 256, n / 281474976710656 % 256, n / 72057594037927936 % 256]

theorem od_bytesOf (n : Nat) (h : n < 18446744073709551616) : od (bytesOf n) = n := by
  simp only [bytesOf, od]; omega

theorem bytesOf_lt (n : Nat) : ∀ d ∈ bytesOf n, d < 256 := by
  intro d hd
  simp only [bytesOf, List.mem_cons, List.not_mem_nil, or_false] at hd
  rcases hd with h | h | h | h | h | h | h | h <;> omega

/-- The byte-wise population count of `select64Broadword`. -/
theorem popSteps (x : Word) : (bytePopcounts x).toNat = od ((bytesOf x.toNat).map t3) := by
  let s1 := x - ((x &&& (0xa#64 * onesStep4)) >>> 1)
  let s2 := (s1 &&& (0x3#64 * onesStep4)) + ((s1 >>> 2) &&& (0x3#64 * onesStep4))
  show ((s2 + (s2 >>> 4)) &&& (0xf#64 * onesStep8)).toNat = _
  have hx := x.isLt
  have hx' : x.toNat < 18446744073709551616 := by simpa using hx
  have hb := bytesOf_lt x.toNat
  generalize hds : bytesOf x.toNat = ds at hb
  have hod : x.toNat = od ds := by rw [← hds, od_bytesOf _ hx']
  have hlen : ds.length = 8 := by rw [← hds]; rfl
  have tbl : ∀ d ∈ ds, 2 * ((d &&& 0xaa) / 2) = (d &&& 0xaa) ∧ (d &&& 0xaa) / 2 ≤ d ∧
    t1 d < 256 ∧ t2 d ≤ 68 ∧ t2 d % 16 ≤ 4 ∧ t3 d = (byteBits d).count true ∧ t3 d ≤ 8 :=
    fun d hd => byte_tables ⟨d, hb d hd⟩
  have m1 : (0xa#64 * onesStep4).toNat = od (List.replicate ds.length 0xaa) := by rw [hlen]; decide
  have m2 : (0x3#64 * onesStep4).toNat = od (List.replicate ds.length 0x33) := by rw [hlen]; decide
  have m3 : (0xf#64 * onesStep8).toNat = od (List.replicate ds.length 0x0f) := by rw [hlen]; decide
  have h1 : s1.toNat = od (ds.map t1) := by
    have e1 : ((x &&& (0xa#64 * onesStep4)) >>> 1).toNat = od (ds.map (fun d => (d &&& 0xaa) / 2)) := by
      rw [BitVec.toNat_ushiftRight, BitVec.toNat_and, m1, hod, od_land 0xaa (by omega) ds hb, Nat.shiftRight_eq_div_pow,
        pow_one, od_half _ ds (fun d hd => (tbl d hd).1)]
    have hle : od (ds.map (fun d => (d &&& 0xaa) / 2)) ≤ x.toNat := by
      rw [hod]; conv_rhs => rw [← List.map_id ds]
      exact od_map_le id _ ds (fun d hd => (tbl d hd).2.1)
    show (x - _).toNat = _
    rw [BitVec.toNat_sub_of_le (by rw [BitVec.le_def, e1]; exact hle), e1, hod]
    conv_lhs => lhs; rw [← List.map_id ds]
    exact od_map_sub id _ ds (fun d hd => (tbl d hd).2.1)
  have hb1 : ∀ d ∈ ds.map t1, d < 256 := by
    intro d hd; simp only [List.mem_map] at hd; obtain ⟨a, ha, rfl⟩ := hd; exact (tbl a ha).2.2.1
  have h2 : s2.toNat = od (ds.map t2) := by
    have e1 : (s1 &&& (0x3#64 * onesStep4)).toNat = od (ds.map (fun d => t1 d &&& 0x33)) := by
      have := od_land 0x33 (by omega) (ds.map t1) hb1
      rw [List.length_map, List.map_map] at this
      rw [BitVec.toNat_and, m2, h1, this]; rfl
    have e2 : ((s1 >>> 2) &&& (0x3#64 * onesStep4)).toNat = od (ds.map (fun d => (t1 d / 4) &&& 0x33)) := by
      have := od_shift2 (ds.map t1) hb1
      rw [List.length_map, List.map_map] at this
      rw [BitVec.toNat_and, m2, BitVec.toNat_ushiftRight, h1, Nat.shiftRight_eq_div_pow]
      exact this
    have e3 := od_map_add (fun d => t1 d &&& 0x33) (fun d => (t1 d / 4) &&& 0x33) ds
    have hlt : od (ds.map t2) < 256 ^ (ds.map t2).length := by
      apply od_lt; intro d hd
      simp only [List.mem_map] at hd; obtain ⟨a, ha, rfl⟩ := hd
      have := (tbl a ha).2.2.2.1; omega
    rw [List.length_map, hlen] at hlt
    show (_ + _ : Word).toNat = _
    rw [BitVec.toNat_add, e1, e2, e3]
    exact Nat.mod_eq_of_lt (a := od (ds.map t2)) (by simpa using hlt)
  have hb2 : ∀ d ∈ ds.map t2, d ≤ 68 ∧ d % 16 ≤ 4 := by
    intro d hd; simp only [List.mem_map] at hd; obtain ⟨a, ha, rfl⟩ := hd
    exact ⟨(tbl a ha).2.2.2.1, (tbl a ha).2.2.2.2.1⟩
  have h3 := (od_shift4 (ds.map t2) hb2).1
  rw [List.length_map, List.map_map] at h3
  have hnw : od (ds.map t2) + od (ds.map t2) / 16 < 2 ^ 64 := by
    have : od (ds.map t2) ≤ od (ds.map (fun _ => 68)) := od_map_le _ _ ds (fun d hd => (tbl d hd).2.2.2.1)
    have e : od (ds.map (fun _ => 68)) = od (List.replicate 8 68) := by
      rw [List.map_const', hlen]
    have e2 : od (List.replicate 8 68) = 4919131752989213764 := by decide
    omega
  show (_ &&& _ : Word).toNat = _
  rw [BitVec.toNat_and, m3, BitVec.toNat_add, BitVec.toNat_ushiftRight, h2, Nat.shiftRight_eq_div_pow]
  rw [show (2:Nat) ^ 4 = 16 from rfl, Nat.mod_eq_of_lt hnw, h3]
  rfl

theorem onesCount_od (w : Word) (ds : List Nat) (h : ∀ d ∈ ds, d < 256) (hl : ds.length = 8) (hw : w.toNat = od ds) :
    onesCount w = (ds.map (fun d => (byteBits d).count true)).sum := by
  rw [onesCount, wbits_od w ds h hl hw, List.count_flatMap]
  rfl

/-- Running sums. -/
def scan (acc : Nat) : List Nat → List Nat
  | [] => []
  | c :: cs => (acc + c) :: scan (acc + c) cs

/-- Multiplying by `0x0101..01` makes every byte the sum of the bytes up to it. -/
theorem sums_digits (c0 c1 c2 c3 c4 c5 c6 c7 : Nat) (h0 : c0 ≤ 8) (h1 : c1 ≤ 8) (h2 : c2 ≤ 8) (h3 : c3 ≤ 8)
    (h4 : c4 ≤ 8) (h5 : c5 ≤ 8) (h6 : c6 ≤ 8) (h7 : c7 ≤ 8) :
    od [c0, c1, c2, c3, c4, c5, c6, c7] * 72340172838076673 % 2 ^ 64 =
      od (scan 0 [c0, c1, c2, c3, c4, c5, c6, c7]) := by
  simp only [od, scan]; omega

theorem scan_length (acc : Nat) (cs : List Nat) : (scan acc cs).length = cs.length := by
  induction cs generalizing acc with
  | nil => rfl
  | cons c cs ih => simp [scan, ih]

theorem scan_bound (acc : Nat) (cs : List Nat) : ∀ B ∈ scan acc cs, acc ≤ B ∧ B ≤ acc + cs.sum := by
  induction cs generalizing acc with
  | nil => simp [scan]
  | cons c cs ih =>
    intro B hB
    simp only [scan, List.mem_cons] at hB
    rcases hB with rfl | hB
    · simp only [List.sum_cons]; omega
    · have := ih _ B hB
      simp only [List.sum_cons]; omega

theorem scan_count (k acc : Nat) (cs : List Nat) (h1 : acc ≤ k) (h2 : k < acc + cs.sum) :
    ∃ m, ∃ _ : m < cs.length, (scan acc cs).countP (fun B => decide (B ≤ k)) = m ∧ acc + (cs.take m).sum ≤ k ∧
      k < acc + (cs.take m).sum + cs[m] := by
  induction cs generalizing acc with
  | nil => simp at h2; omega
  | cons c cs ih =>
    simp only [List.sum_cons] at h2
    by_cases hc : acc + c ≤ k
    · obtain ⟨m, hm, e, a, b⟩ := ih (acc + c) hc (by omega)
      refine ⟨m + 1, by simpa using hm, ?_, ?_, ?_⟩
      · simp [scan, List.countP_cons, hc, e]
      · simp only [List.take_succ_cons, List.sum_cons]; omega
      · simp only [List.take_succ_cons, List.sum_cons, List.getElem_cons_succ]; omega
    · refine ⟨0, by simp, ?_, by simpa using h1, by simp; omega⟩
      rw [List.countP_eq_zero]
      intro B hB
      simp only [scan, List.mem_cons] at hB
      rcases hB with rfl | hB
      · simpa using hc
      · have := scan_bound _ _ B hB
        simp; omega

theorem od_digit (ds : List Nat) (h : ∀ d ∈ ds, d < 256) (m : Nat) : od ds / 256 ^ m % 256 = (ds[m]?).getD 0 := by
  induction ds generalizing m with
  | nil => simp [od]
  | cons d ds ih =>
    have hd := h d (by simp)
    cases m with
    | zero => simp [od]; omega
    | succ m =>
      rw [Nat.pow_succ, Nat.mul_comm, ← Nat.div_div_eq_div_mul]
      have : od (d :: ds) / 256 = od ds := by simp only [od]; omega
      rw [this, ih (fun d hd => h d (by simp [hd]))]
      simp

theorem scan_cons_get (acc : Nat) (cs : List Nat) (m : Nat) (hm : m ≤ cs.length) :
    ((acc :: scan acc cs)[m]?).getD 0 = acc + (cs.take m).sum := by
  induction cs generalizing acc m with
  | nil => have : m = 0 := by simpa using hm
           subst this; simp
  | cons c cs ih =>
    cases m with
    | zero => simp
    | succ m =>
      have := ih (acc + c) m (by simpa using hm)
      simp only [scan, List.getElem?_cons_succ, List.take_succ_cons, List.sum_cons]
      rw [this]; omega

theorem mod_div_pow (n m : Nat) (hm : m < 8) : n % 2 ^ 64 / 256 ^ m % 256 = n / 256 ^ m % 256 := by
  interval_cases m <;> omega

theorem od_geq (k : Nat) (hk : k < 64) (Bs : List Nat) (hB : ∀ B ∈ Bs, B ≤ 64) :
    (od (List.replicate Bs.length (k + 128)) - od Bs) &&& od (List.replicate Bs.length 128) =
      od (Bs.map (fun B => if B ≤ k then 128 else 0)) := by
  have e1 : od (List.replicate Bs.length (k + 128)) - od Bs = od (Bs.map (fun B => k + 128 - B)) := by
    have := od_map_sub (fun _ => k + 128) id Bs (fun B hB' => by have := hB B hB'; simp; omega)
    rw [List.map_const', List.map_id] at this
    exact this
  rw [e1]
  have e2 := od_land 128 (by omega) (Bs.map (fun B => k + 128 - B)) (by
    intro d hd; simp only [List.mem_map] at hd; obtain ⟨a, ha, rfl⟩ := hd; omega)
  rw [List.length_map, List.map_map] at e2
  rw [e2]
  congr 1
  apply List.map_congr_left
  intro B hB'
  exact geq_table ⟨k, hk⟩ ⟨B, by have := hB B hB'; omega⟩

theorem byteBits_zero_count : (byteBits 0).count true = 0 := by decide
theorem byteBits_128_count : (byteBits 128).count true = 1 := by decide

theorem geq_count (k : Nat) (Bs : List Nat) :
    ((Bs.map (fun B => if B ≤ k then 128 else 0)).map (fun d => (byteBits d).count true)).sum =
      Bs.countP (fun B => decide (B ≤ k)) := by
  induction Bs with
  | nil => rfl
  | cons B Bs ih =>
    simp only [List.map_cons, List.sum_cons, ih, List.countP_cons]
    by_cases h : B ≤ k
    · simp [h, byteBits_128_count]; omega
    · simp [h, byteBits_zero_count]

theorem wbits_byte (d : Nat) (h : d < 256) : wbits (BitVec.ofNat 64 d) = byteBits d ++ List.replicate 56 false := by
  rw [wbits_od (BitVec.ofNat 64 d) [d, 0, 0, 0, 0, 0, 0, 0]]
  · simp only [List.flatMap_cons, List.flatMap_nil, List.append_nil]
    congr 1
  · simp; exact h
  · rfl
  · simp [od]; omega

theorem lut_spec (d r : Nat) (hd : d < 256) (hr : r < (byteBits d).count true) :
    ∃ p, selectInByteLut (BitVec.ofNat 64 d) (BitVec.ofNat 64 r) = some p ∧ IsSelect (byteBits d) (r + 1) p := by
  have hc : (byteBits d).count true ≤ 8 := by
    have := List.count_le_length (a := true) (l := byteBits d)
    simpa [byteBits] using this
  have hw := wbits_byte d hd
  have hcnt : (wbits (BitVec.ofNat 64 d)).count true = (byteBits d).count true := by
    rw [hw, List.count_append, List.count_replicate]; simp
  have hrn : (BitVec.ofNat 64 r).toNat = r := by simp; omega
  have hdn : (BitVec.ofNat 64 d).toNat = d := by simp; omega
  obtain ⟨p, e, hs⟩ := selectInByteLoop_spec r (BitVec.ofNat 64 d) 0 (by rw [hcnt]; exact hr)
  refine ⟨p, ?_, ?_⟩
  · unfold selectInByteLut selectInByte
    rw [hrn, hdn, if_pos ⟨hd, by omega⟩, e, Nat.zero_add]
  · rw [hw] at hs; exact isSelect_of_append_zeros hs

/-- Selecting inside byte `m` of the word. -/
theorem select_in_byte (ds : List Nat) (m r p : Nat) (hm : m < ds.length)
    (hs : IsSelect (byteBits ds[m]) (r + 1) p) :
    IsSelect (ds.flatMap byteBits) (((ds.take m).flatMap byteBits).count true + (r + 1)) (8 * m + p) := by
  rw [← flatMap_byteBits_take]
  apply isSelect_drop
  rw [flatMap_byteBits_drop, List.drop_eq_getElem_cons hm, List.flatMap_cons]
  exact isSelect_append_left hs

theorem count_flatMap_sum (ds : List Nat) :
    (ds.flatMap byteBits).count true = (ds.map (fun d => (byteBits d).count true)).sum := by
  rw [List.count_flatMap]; rfl

/-- The flags of `geqKStep8`. -/
theorem geq_toNat (bs : Word) (k : Nat) (hk : k < 64) (Bs : List Nat) (hBl : Bs.length = 8)
    (hB64 : ∀ B ∈ Bs, B ≤ 64) (hbs : bs.toNat = od Bs) :
    (geqFlags bs (BitVec.ofNat 64 k)).toNat =
      od (Bs.map (fun B => if B ≤ k then 128 else 0)) := by
  have hstep : (BitVec.ofNat 64 k * onesStep8).toNat = od (List.replicate 8 k) := by
    rw [BitVec.toNat_mul, BitVec.toNat_ofNat]
    have : onesStep8.toNat = 72340172838076673 := rfl
    rw [this]
    simp only [List.replicate, od]; omega
  have hmsb : msbsStep8.toNat = od (List.replicate 8 128) := by decide
  have hor : ((BitVec.ofNat 64 k * onesStep8) ||| msbsStep8).toNat = od (List.replicate 8 (k + 128)) := by
    rw [BitVec.toNat_or, hstep, hmsb]
    have e := or128 ⟨k, hk⟩
    simp only at e
    have gen : ∀ n, od (List.replicate n k) ||| od (List.replicate n 128) = od (List.replicate n (k + 128)) := by
      intro n
      induction n with
      | zero => simp [od]
      | succ n ih => simp only [List.replicate_succ, od]; rw [lor_step _ _ _ _ (by omega) (by omega), e, ih]
    exact gen 8
  unfold geqFlags
  rw [← od_geq k hk Bs hB64, BitVec.toNat_and, hBl, hmsb]
  congr 1
  rw [BitVec.toNat_sub_of_le, hor, hbs]
  rw [BitVec.le_def, hor, hbs]
  have := od_map_le (fun _ => k + 128) id Bs (fun B hB' => by have := hB64 B hB'; simp; omega)
  rw [List.map_const', List.map_id, hBl] at this
  exact this


/-- bits.go:53-59 for given byte counts. -/
theorem broadword_tail (x s : Word) (ds : List Nat) (hl : ds.length = 8) (hb : ∀ d ∈ ds, d < 256)
    (hx : x.toNat = od ds) (hbs : (s * onesStep8).toNat = od (scan 0 (ds.map (fun d => (byteBits d).count true))))
    (k : Nat) (h2 : k < (wbits x).count true) :
    ∃ p, selectFromByte x (s * onesStep8) (BitVec.ofNat 64 k)
      (onesCount (geqFlags (s * onesStep8) (BitVec.ofNat 64 k))) = some p ∧ IsSelect (wbits x) (k + 1) p := by
  have hwb := wbits_od x ds hb hl hx
  have hk : k < 64 := by
    have := List.count_le_length (a := true) (l := wbits x)
    rw [wbits_length] at this; omega
  have hcl : (ds.map (fun d => (byteBits d).count true)).length = 8 := by simp [hl]
  have htot : (wbits x).count true = (ds.map (fun d => (byteBits d).count true)).sum := by
    rw [hwb, count_flatMap_sum]
  have hle64 : (ds.map (fun d => (byteBits d).count true)).sum ≤ 64 := by
    rw [← htot]
    have := List.count_le_length (a := true) (l := wbits x)
    rwa [wbits_length] at this
  have hB64 : ∀ B ∈ scan 0 (ds.map (fun d => (byteBits d).count true)), B ≤ 64 := by
    intro B hB; have := scan_bound _ _ B hB; omega
  have hgeq := geq_toNat (s * onesStep8) k hk _ (by rw [scan_length, hcl]) hB64 hbs
  have hcount := onesCount_od _ _ (by
    intro d hd; simp only [List.mem_map] at hd; obtain ⟨a, _, rfl⟩ := hd; split <;> omega)
    (by rw [List.length_map, scan_length, hcl]) hgeq
  rw [geq_count] at hcount
  obtain ⟨m, hm, em, am, bm⟩ := scan_count k 0 (ds.map (fun d => (byteBits d).count true)) (by omega) (by omega)
  rw [em] at hcount
  have hm8 : m < 8 := by omega
  have hmd : m < ds.length := by omega
  rw [hcount]
  unfold selectFromByte
  simp only []
  simp only [Nat.zero_add, List.getElem_map] at am bm
  have hpow : (2:Nat) ^ (m * 8) = 256 ^ m := by rw [Nat.mul_comm, Nat.pow_mul]
  have hsh : ((((s * onesStep8) <<< 8) >>> (m * 8)) &&& 0xff#64) =
      BitVec.ofNat 64 ((ds.map (fun d => (byteBits d).count true)).take m).sum := by
    apply BitVec.eq_of_toNat_eq
    rw [BitVec.toNat_and, BitVec.toNat_ushiftRight, BitVec.toNat_shiftLeft, hbs, Nat.shiftRight_eq_div_pow,
      Nat.shiftLeft_eq, hpow]
    have e255 : (0xff#64).toNat = 2 ^ 8 - 1 := rfl
    rw [e255, Nat.and_two_pow_sub_one_eq_mod]
    have e256 : (2:Nat) ^ 8 = 256 := rfl
    rw [e256, mod_div_pow _ _ hm8]
    have e0 : od (scan 0 (ds.map (fun d => (byteBits d).count true))) * 256 =
        od (0 :: scan 0 (ds.map (fun d => (byteBits d).count true))) := by simp only [od]; omega
    rw [e0, od_digit _ (by
      intro d hd; simp only [List.mem_cons] at hd
      rcases hd with rfl | hd
      · omega
      · have := hB64 d hd; omega), scan_cons_get _ _ _ (by omega), BitVec.toNat_ofNat]
    omega
  have hby : ((x >>> (m * 8)) &&& 0xff#64) = BitVec.ofNat 64 ds[m] := by
    apply BitVec.eq_of_toNat_eq
    rw [BitVec.toNat_and, BitVec.toNat_ushiftRight, hx, Nat.shiftRight_eq_div_pow, hpow]
    have e255 : (0xff#64).toNat = 2 ^ 8 - 1 := rfl
    rw [e255, Nat.and_two_pow_sub_one_eq_mod]
    have e256 : (2:Nat) ^ 8 = 256 := rfl
    rw [e256, od_digit _ hb, List.getElem?_eq_getElem hmd, BitVec.toNat_ofNat, Option.getD_some]
    have := hb _ (List.getElem_mem hmd)
    omega
  have hrank : BitVec.ofNat 64 k - BitVec.ofNat 64 ((ds.map (fun d => (byteBits d).count true)).take m).sum =
      BitVec.ofNat 64 (k - ((ds.map (fun d => (byteBits d).count true)).take m).sum) := by
    apply BitVec.eq_of_toNat_eq
    rw [BitVec.toNat_sub, BitVec.toNat_ofNat, BitVec.toNat_ofNat, BitVec.toNat_ofNat]
    omega
  rw [hsh, hby, hrank]
  obtain ⟨p, e, hs⟩ := lut_spec ds[m] (k - ((ds.map (fun d => (byteBits d).count true)).take m).sum)
    (hb _ (List.getElem_mem hmd)) (by omega)
  rw [e]
  refine ⟨_, rfl, ?_⟩
  have := select_in_byte ds m _ p hmd hs
  rw [count_flatMap_sum, ← List.map_take] at *
  rw [hwb, Nat.mul_comm]
  convert this using 1
  omega



theorem sums_of_counts (s : Word) (ds : List Nat) (hl : ds.length = 8) (h8 : ∀ d ∈ ds, t3 d ≤ 8)
    (hs : s.toNat = od (ds.map t3)) : (s * onesStep8).toNat = od (scan 0 (ds.map t3)) := by
  have e : onesStep8.toNat = 72340172838076673 := rfl
  rw [BitVec.toNat_mul, hs, e]
  match ds, hl with
  | [b0, b1, b2, b3, b4, b5, b6, b7], _ =>
    simp only [List.mem_cons, List.not_mem_nil, or_false, forall_eq_or_imp, forall_eq] at h8
    obtain ⟨q0, q1, q2, q3, q4, q5, q6, q7⟩ := h8
    simp only [List.map_cons, List.map_nil]
    exact sums_digits _ _ _ _ _ _ _ _ q0 q1 q2 q3 q4 q5 q6 q7

/-- bits.go:41-60: the portable select returns the position of the `n`-th set bit. -/
theorem select64Broadword_spec (x : Word) (n : Nat) (h1 : 1 ≤ n) (h2 : n ≤ (wbits x).count true) :
    ∃ p, select64Broadword x n = some p ∧ IsSelect (wbits x) n p := by
  have hx' : x.toNat < 18446744073709551616 := by simpa using x.isLt
  have hb := bytesOf_lt x.toNat
  have hpop := popSteps x
  have hod := od_bytesOf _ hx'
  have hbl : (bytesOf x.toNat).length = 8 := rfl
  generalize hds : bytesOf x.toNat = ds at hb hpop hod hbl
  have htab : ∀ d ∈ ds, t3 d = (byteBits d).count true ∧ t3 d ≤ 8 :=
    fun d hd => ⟨(byte_tables ⟨d, hb d hd⟩).2.2.2.2.2.1, (byte_tables ⟨d, hb d hd⟩).2.2.2.2.2.2⟩
  have hmap : ds.map t3 = ds.map (fun d => (byteBits d).count true) :=
    List.map_congr_left (fun d hd => (htab d hd).1)
  obtain ⟨k, rfl⟩ : ∃ k, n = k + 1 := ⟨n - 1, by omega⟩
  have hkw : BitVec.ofNat 64 (k + 1) - 1#64 = BitVec.ofNat 64 k := by
    apply BitVec.eq_of_toNat_eq
    simp; omega
  have hun : select64Broadword x (k + 1) =
      selectFromByte x (bytePopcounts x * onesStep8) (BitVec.ofNat 64 (k + 1) - 1#64)
        (onesCount (geqFlags (bytePopcounts x * onesStep8) (BitVec.ofNat 64 (k + 1) - 1#64))) := rfl
  rw [hun, hkw]
  refine broadword_tail x (bytePopcounts x) ds hbl hb hod.symm ?_ k (by omega)
  rw [← hmap]
  exact sums_of_counts _ ds hbl (fun d hd => (htab d hd).2) hpop

/-! ### The BMI2 version -/

theorem foldl_or_getLsbD (P : Nat → Bool) (l : List Nat) (acc : Word) (i : Nat) (hi : i < 64) :
    (l.foldl (fun acc p => if P p then acc ||| (1#64 <<< p) else acc) acc).getLsbD i =
      (acc.getLsbD i || (decide (i ∈ l) && P i)) := by
  induction l generalizing acc with
  | nil => simp
  | cons p l ih =>
    rw [List.foldl_cons, ih]
    by_cases hp : P p = true
    · simp only [hp, if_true, BitVec.getLsbD_or, BitVec.getLsbD_shiftLeft, BitVec.getLsbD_one]
      by_cases hip : i = p
      · subst hip; simp [hi, hp]
      · have : (decide (i < 64) && !decide (i < p) && (decide (0 < 64) && decide (i - p = 0))) = false := by
          by_cases h : i < p
          · simp [h]
          · have : ¬ (i - p = 0) := by omega
            simp [this]
        simp only [List.mem_cons, hip, false_or]
        simp at this ⊢
        by_cases h : i < p
        · simp [h]
        · have : ¬ (i - p = 0) := by omega
          simp [this]
    · simp only [hp, if_false]
      by_cases hip : i = p
      · subst hip
        have : P i = false := by simpa using hp
        simp [this]
      · simp [hip]

theorem pdep_getLsbD (src mask : Word) (i : Nat) (hi : i < 64) :
    (pdep src mask).getLsbD i = (mask.getLsbD i && src.getLsbD (((wbits mask).take i).count true)) := by
  unfold pdep
  rw [foldl_or_getLsbD (fun p => mask.getLsbD p && src.getLsbD (((wbits mask).take p).count true)) _ _ _ hi]
  simp [hi]

/-- bits_amd64.s: select via PDEP/TZCNT returns the position of the `n`-th set bit. -/
theorem select64BMI2_spec (x : Word) (n : Nat) (h1 : 1 ≤ n) (h2 : n ≤ (wbits x).count true) :
    ∃ p, select64 true x n = some p ∧ IsSelect (wbits x) n p := by
  obtain ⟨p, hp⟩ := exists_isSelect _ _ h1 h2
  refine ⟨p, ?_, hp⟩
  have hp64 : p < 64 := by have := hp.bounds.1; simpa using this
  have hn64 : n ≤ 64 := by
    have := List.count_le_length (a := true) (l := wbits x)
    rw [wbits_length] at this; omega
  have hmod : (n - 1) % 64 = n - 1 := by omega
  simp only [select64, if_true, hmod]
  congr 1
  have hsrc : ∀ j, j < 64 → (1#64 <<< (n - 1)).getLsbD j = decide (j = n - 1) := by
    intro j hj
    simp only [BitVec.getLsbD_shiftLeft, BitVec.getLsbD_one]
    by_cases h : j < n - 1
    · have : j ≠ n - 1 := by omega
      simp [h, this]
    · by_cases h' : j = n - 1
      · subst h'; simp [hj]
      · have : ¬ (j - (n - 1) = 0) := by omega
        simp [this, h']
  have hcnt : ∀ i, i < 64 → ((wbits x).take i).count true < 64 := by
    intro i hi
    have := List.count_le_length (a := true) (l := (wbits x).take i)
    simp at this; omega
  have hbit : ∀ i, i < 64 → ((pdep (1#64 <<< (n - 1)) x).getLsbD i = true ↔ IsSelect (wbits x) n i) := by
    intro i hi
    rw [pdep_getLsbD _ _ _ hi, hsrc _ (hcnt i hi), IsSelect, wbits_getElem?, if_pos hi]
    simp only [Bool.and_eq_true, decide_eq_true_eq, Option.some.injEq]
    constructor
    · rintro ⟨a, b⟩; exact ⟨a, by omega⟩
    · rintro ⟨a, b⟩; exact ⟨a, by omega⟩
  apply trailingZeros_first _ _ hp64
  · exact (hbit p hp64).2 hp
  · intro j hj
    cases hb : (pdep (1#64 <<< (n - 1)) x).getLsbD j with
    | false => rfl
    | true =>
      have := ((hbit j (by omega)).1 hb).unique hp
      omega

/-- Either implementation of `select64`. -/
theorem select64_spec (bmi : Bool) (x : Word) (n : Nat) (h1 : 1 ≤ n) (h2 : n ≤ (wbits x).count true) :
    ∃ p, select64 bmi x n = some p ∧ IsSelect (wbits x) n p := by
  cases bmi with
  | true => exact select64BMI2_spec x n h1 h2
  | false =>
    obtain ⟨p, e, h⟩ := select64Broadword_spec x n h1 h2
    refine ⟨p, ?_, h⟩
    rw [select64, if_neg (by decide), e]

end Surf
