import Verif.Surf.SeekSparse

/-!
# Short real suffixes keep the order

A real suffix of less than 16 bits is made from the one or two bytes of the key behind the part kept in the trie. Comparing such suffixes does not contradict the order of the keys if
these bytes are there. (For at most eight bits it never does. Longer ones do: see `Surf.Props.C27`.)
-/

set_option linter.unusedSimpArgs false

namespace Surf

/-- The real suffix, as a number. -/
def rsuf (key : Bytes) (level r : Nat) : Nat := ((constructRealSuffix key level r).getD 0).toNat

theorem rsuf_lt (key : Bytes) (level : Nat) {r : Nat} (hr : r ≤ 64) : rsuf key level r < 2 ^ r := by
  unfold rsuf
  obtain ⟨w, e, hw⟩ := realSuffix_lt key level hr
  rw [e]
  exact hw

theorem rsuf_short {key : Bytes} {level r : Nat} (h : key.length < level ∨ (key.length - level) * 8 < r) : rsuf key level r = 0 := by
  unfold rsuf constructRealSuffix
  rw [if_pos h]
  rfl

/-- A suffix of less than 16 bits. -/
theorem rsuf_eq {key : Bytes} {level r : Nat} (hr : r < 16) (h : ¬ (key.length < level ∨ (key.length - level) * 8 < r)) :
    rsuf key level r = ((key[level]?.getD 0).toNat * 256 + (key[level + 1]?.getD 0).toNat) / 2 ^ (16 - r) := by
  unfold rsuf constructRealSuffix
  rw [if_neg h]
  generalize hc : key[level]? = c
  generalize hd : key[level + 1]? = d
  have hcl : (c.getD 0).toNat < 256 := (c.getD 0).toNat_lt
  have hdl : (d.getD 0).toNat < 256 := (d.getD 0).toNat_lt
  have hlen : 0 < r → ∃ x, c = some x := fun h0 => ⟨_, by rw [← hc]; exact List.getElem?_eq_getElem (by omega)⟩
  have hlen' : 8 < r → ∃ x, d = some x := fun h0 => ⟨_, by rw [← hd]; exact List.getElem?_eq_getElem (by omega)⟩
  have hmod : ∀ n, n < 256 → n % 2 ^ 64 = n := fun n hn => Nat.mod_eq_of_lt (by omega)
  rcases Nat.lt_or_ge r 8 with h8 | h8
  · have e1 : r / 8 = 0 := by omega
    have e2 : r % 8 = r := by omega
    rw [e1, e2]
    by_cases h0 : r = 0
    · subst h0
      simp only [Nat.lt_irrefl, if_false, gt_iff_lt, Option.pure_def, Option.bind_eq_bind, Option.bind_some]
      show 0 = _
      symm
      apply Nat.div_eq_of_lt
      simp only [Nat.sub_zero]
      omega
    · obtain ⟨x, rfl⟩ := hlen (by omega)
      simp only [Nat.lt_irrefl, if_false, gt_iff_lt, show 0 < r by omega, if_true, Nat.add_zero, Option.bind_eq_bind, Option.bind_some, Option.pure_def, hc, Option.getD_some] at hcl ⊢
      rw [BitVec.toNat_add, BitVec.toNat_shiftLeft, BitVec.toNat_ushiftRight, BitVec.toNat_ofNat, BitVec.toNat_ofNat, hmod _ hcl, Nat.shiftRight_eq_div_pow]
      generalize x.toNat = a at *
      generalize (d.getD 0).toNat = b at *
      simp only [BitVec.toNat_ofNat, Nat.zero_mod, Nat.zero_shiftLeft, Nat.zero_add]
      interval_cases r <;> simp only [Nat.reduceSub, Nat.reducePow] <;> omega
  · have e1 : r / 8 = 1 := by omega
    rw [e1]
    obtain ⟨x, rfl⟩ := hlen (by omega)
    simp only [gt_iff_lt, Nat.lt_add_one, if_true, Nat.sub_self, realSuffixLoop, hc, hd, Option.bind_eq_bind, Option.bind_some, Option.pure_def, Option.getD_some] at hcl ⊢
    by_cases h0 : r = 8
    · subst h0
      simp only [Nat.reduceMod, Nat.lt_irrefl, if_false, Option.getD_some, Nat.reduceSub, Nat.reducePow]
      rw [BitVec.toNat_add, BitVec.toNat_ofNat, BitVec.toNat_ofNat, hmod _ hcl]
      generalize x.toNat = a at *
      generalize (d.getD 0).toNat = b at *
      omega
    · obtain ⟨y, rfl⟩ := hlen' (by omega)
      rw [if_pos (by omega)]
      simp only [Option.bind_some, Option.getD_some] at hdl ⊢
      rw [BitVec.toNat_add, BitVec.toNat_shiftLeft, BitVec.toNat_ushiftRight, BitVec.toNat_add, BitVec.toNat_ofNat, BitVec.toNat_ofNat, BitVec.toNat_ofNat, hmod _ hcl, hmod _ hdl, Nat.shiftRight_eq_div_pow, Nat.shiftLeft_eq]
      generalize x.toNat = a at *
      generalize y.toNat = b at *
      interval_cases r <;> first | omega | (simp only [Nat.reduceSub, Nat.reducePow, Nat.reduceMod]; omega)

theorem extract_real (w : Word) {r : Nat} (hr : r ≤ 64) : (extractRealSuffix w r).toNat = w.toNat % 2 ^ r := by
  unfold extractRealSuffix
  have e : ((1#64 <<< r) - 1#64).toNat = 2 ^ r - 1 := by
    interval_cases r <;> rfl
  rw [BitVec.toNat_and, e, Nat.and_two_pow_sub_one_eq_mod]

variable {cfg : Config} {fp : Bytes → Word}

/-- The real part of the suffix that is stored for a key. -/
theorem stored_part (hcfg : cfg.Fine) (h0 : ¬ (cfg.suffixType = .none ∨ cfg.suffixType = .hash)) (key : Bytes) (level : Nat) :
    (if cfg.suffixType = .mixed then extractRealSuffix (cfg.suffix fp key level) cfg.realSuffixLen else cfg.suffix fp key level).toNat = rsuf key level cfg.realSuffixLen := by
  have h64 : cfg.realSuffixLen ≤ 64 := by
    have := hcfg.fits
    unfold Config.suffixLen at this
    omega
  have hm := congrArg Config.suffixType hcfg.made
  rw [newBuilder] at hm
  simp only at hm
  obtain ⟨w, ew, hw⟩ := realSuffix_lt key level h64
  by_cases c0 : cfg.hashSuffixLen = 0
  · by_cases c1 : cfg.realSuffixLen = 0
    · rw [if_pos ⟨c0, c1⟩] at hm
      exact absurd (.inl hm) h0
    · rw [if_neg (by omega), if_pos c0] at hm
      rw [hm, if_neg (by simp)]
      unfold Config.suffix constructSuffix rsuf
      rw [hm]
  · by_cases c1 : cfg.realSuffixLen = 0
    · rw [if_neg (by omega), if_neg c0, if_pos c1] at hm
      exact absurd (.inr hm) h0
    · rw [if_neg (by omega), if_neg c0, if_neg c1] at hm
      rw [hm, if_pos rfl]
      rw [extract_real _ h64]
      unfold Config.suffix constructSuffix constructMixedSuffix rsuf
      rw [hm]
      simp only
      rw [ew]
      simp only [Option.bind_eq_bind, Option.bind_some, Option.pure_def, Option.getD_some]
      generalize constructHashSuffix fp key cfg.hashSuffixLen = hw'
      generalize cfg.realSuffixLen = r at *
      rw [BitVec.toNat_or, BitVec.toNat_shiftLeft, Nat.or_mod_two_pow, Nat.mod_mod_of_dvd _ (Nat.pow_dvd_pow 2 h64), Nat.shiftLeft_eq,
        Nat.mul_mod_left, Nat.zero_or, Nat.mod_eq_of_lt hw]

/-- The outcome of the comparison, by the suffixes as numbers. -/
theorem sufCmp_cases (hcfg : cfg.Fine) (x q : Bytes) (m l : Nat) :
    sufCmp cfg (cfg.suffix fp x m) q l = couldBePositive ∨
    (sufCmp cfg (cfg.suffix fp x m) q l = -1 ∧ rsuf x m cfg.realSuffixLen < rsuf q l cfg.realSuffixLen) ∨
    (sufCmp cfg (cfg.suffix fp x m) q l = 1 ∧ rsuf q l cfg.realSuffixLen < rsuf x m cfg.realSuffixLen) := by
  unfold sufCmp
  split
  · exact .inl rfl
  · rename_i h0
    have e := stored_part (fp := fp) hcfg h0 x m
    generalize (if cfg.suffixType = .mixed then extractRealSuffix (cfg.suffix fp x m) cfg.realSuffixLen else cfg.suffix fp x m) = a at *
    rw [← e]
    have e2 : rsuf q l cfg.realSuffixLen = ((constructRealSuffix q l cfg.realSuffixLen).getD 0).toNat := rfl
    rw [e2]
    generalize (constructRealSuffix q l cfg.realSuffixLen).getD 0 = b at *
    simp only [← BitVec.toNat_inj, BitVec.lt_def, show (0#64).toNat = 0 from rfl]
    generalize a.toNat = a at *
    generalize b.toNat = b at *
    split
    · exact .inl rfl
    · split
      · exact .inr (.inl ⟨rfl, by omega⟩)
      · split
        · exact .inl rfl
        · exact .inr (.inr ⟨rfl, by omega⟩)

/-- A suffix compared with its own key. -/
theorem sufCmp_self (hcfg : cfg.Fine) (x q : Bytes) (m l : Nat) (h : rsuf x m cfg.realSuffixLen = rsuf q l cfg.realSuffixLen) : sufCmp cfg (cfg.suffix fp x m) q l = couldBePositive := by
  rcases sufCmp_cases (fp := fp) hcfg x q m l with e | ⟨-, hlt⟩ | ⟨-, hlt⟩
  · exact e
  · omega
  · omega

/-- There are `r` bits behind the first `n` bytes of the key, or at most eight are asked for. -/
def Room (r n : Nat) (x : Bytes) : Prop := r ≤ 8 ∨ n * 8 + r ≤ x.length * 8

/-- Keys that agree up to a byte are in the order of the suffixes at that byte, when these differ. -/
theorem rsuf_order {x q p : Bytes} (hx : p <+: x) (hq : p <+: q) {r : Nat} (h16 : r < 16) (hr : Room r p.length x) (hlt : rsuf x p.length r < rsuf q p.length r) : x < q := by
  have hql : ¬ (q.length < p.length ∨ (q.length - p.length) * 8 < r) := by
    intro h
    rw [rsuf_short h] at hlt
    omega
  rw [rsuf_eq h16 hql] at hlt
  obtain ⟨u, rfl⟩ := hx
  obtain ⟨v, rfl⟩ := hq
  apply append_lt_append
  rw [List.getElem?_append_right (Nat.le_refl _), List.getElem?_append_right (by omega), Nat.sub_self, Nat.add_sub_cancel_left] at hlt
  simp only [List.length_append] at hql hr
  by_cases hxl : (p ++ u).length < p.length ∨ ((p ++ u).length - p.length) * 8 < r
  · have h8 : r ≤ 8 := by
      rcases hr with hr | hr
      · exact hr
      · rw [List.length_append] at hxl
        have := hr
        rw [List.length_append] at this
        omega
    have hu : u = [] := by
      apply List.eq_nil_of_length_eq_zero
      rw [List.length_append] at hxl
      omega
    subst hu
    cases v with
    | nil =>
      simp only [List.length_nil] at hql
      have : r = 0 := by omega
      subst this
      simp at hlt
    | cons d v => exact List.nil_lt_cons d v
  · rw [rsuf_eq h16 hxl, List.getElem?_append_right (Nat.le_refl _), List.getElem?_append_right (by omega), Nat.sub_self, Nat.add_sub_cancel_left] at hlt
    rw [List.length_append] at hxl
    have hlt' : (u[0]?.getD 0).toNat * 256 + (u[1]?.getD 0).toNat < (v[0]?.getD 0).toNat * 256 + (v[1]?.getD 0).toNat := by
      by_contra hc
      exact absurd (Nat.div_le_div_right (c := 2 ^ (16 - r)) (Nat.le_of_not_lt hc)) (by omega)
    have hu0 := (u[0]?.getD 0).toNat_lt
    have hu1 := (u[1]?.getD 0).toNat_lt
    have hv0 := (v[0]?.getD 0).toNat_lt
    have hv1 := (v[1]?.getD 0).toNat_lt
    cases v with
    | nil => simp at hlt'
    | cons d v =>
      cases u with
      | nil => exact List.nil_lt_cons d v
      | cons c u =>
        simp only [List.getElem?_cons_zero, Option.getD_some, List.getElem?_cons_succ] at hlt' hu0 hu1 hv0 hv1 hlt
        rw [List.cons_lt_cons_iff, UInt8.lt_iff_toNat_lt]
        rcases Nat.lt_or_ge c.toNat d.toNat with h1 | h1
        · exact .inl h1
        · right
          have h2 : c.toNat = d.toNat := by omega
          refine ⟨UInt8.toNat_inj.mp h2, ?_⟩
          rw [h2] at hlt'
          cases v with
          | nil => simp at hlt'
          | cons d' v =>
            cases u with
            | nil => exact List.nil_lt_cons d' v
            | cons c' u =>
              simp only [List.getElem?_cons_zero, Option.getD_some] at hlt'
              rw [List.cons_lt_cons_iff, UInt8.lt_iff_toNat_lt]
              exact .inl (by omega)

theorem rsuf_drop {q : Bytes} {n : Nat} (hn : n ≤ q.length) (l : Nat) {r : Nat} (hr : r < 16) : rsuf (q.drop n) l r = rsuf q (n + l) r := by
  by_cases h : (q.drop n).length < l ∨ ((q.drop n).length - l) * 8 < r
  · rw [rsuf_short h, rsuf_short]
    rw [List.length_drop] at h
    omega
  · rw [rsuf_eq hr h, rsuf_eq hr, List.getElem?_drop, List.getElem?_drop, Nat.add_assoc]
    rw [List.length_drop] at h
    omega

/-- The stored keys have room for the suffix. -/
def Roomy (cfg : Config) (t0 : Grp) : Prop := ∀ x m, Leaf t0 x m false → Room cfg.realSuffixLen (m + 1) x.1

/-- A bound has room for the suffix, where a stored key may be like it. -/
def RoomyFor (cfg : Config) (t0 : Grp) (q : Bytes) : Prop := ∀ x m, Leaf t0 x m false → x.1.take (m + 1) <+: q → Room cfg.realSuffixLen (m + 1) q

theorem Leaf.long {t0 : Grp} (h0 : t0.Good) {x : KV} {m : Nat} (hL : Leaf t0 x m false) : m + 1 ≤ x.1.length := by
  obtain ⟨W, t, ip, i, iq, w, e, hx, rfl, ht⟩ := hL
  exact (item_label (w.good h0).toOK (i := i) (by rw [e]; simp) ht (by rw [hx]; simp)).2.1

/-- What a search passes over is below what it looks for. -/
theorem Passed.lt {t0 : Grp} (h0 : t0.Good) {q : Bytes} {x : KV} (hcfg : cfg.Fine) (h16 : cfg.realSuffixLen < 16) (h8 : Roomy cfg t0) (hp : Passed cfg fp t0 q x) : x.1 < q := by
  obtain ⟨m, tm, hL, h | ⟨-, h1, h2⟩ | ⟨rfl, h1, h2⟩⟩ := hp
  · exact (h.ext_left (List.take_prefix _ _)).lt
  · exact prefix_lt h1 h2
  · rcases sufCmp_cases (fp := fp) hcfg x.1 q (m + 1) (m + 1) with e | ⟨-, hlt⟩ | ⟨e, -⟩
    · rw [e] at h2
      exact absurd h2 (by decide)
    · have hl := hL.long h0
      have hlen : (x.1.take (m + 1)).length = m + 1 := by rw [List.length_take, Nat.min_eq_left hl]
      refine rsuf_order (List.take_prefix (m + 1) x.1) h1 h16 ?_ ?_
      · rw [hlen]
        exact h8 x m hL
      · rw [hlen]
        exact hlt
    · rw [e] at h2
      exact absurd h2 (by decide)

/-- Without suffix bits the comparison says nothing. -/
theorem sufCmp_none (hcfg : cfg.Fine) (h0 : cfg.realSuffixLen = 0) (w : Word) (q : Bytes) (l : Nat) : sufCmp cfg w q l = couldBePositive := by
  unfold sufCmp
  rw [if_pos]
  have hm := congrArg Config.suffixType hcfg.made
  rw [newBuilder] at hm
  simp only at hm
  by_cases c0 : cfg.hashSuffixLen = 0
  · rw [if_pos ⟨c0, h0⟩] at hm
    exact .inl hm
  · rw [if_neg (by omega), if_neg c0, if_pos h0] at hm
    exact .inr hm

end Surf
