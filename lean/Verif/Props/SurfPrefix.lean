import Verif.Props.SurfWiden

/-!
# Property C112: asking for keys with a prefix

A client that wants to know whether there are keys that begin with `p` asks for the range from `p` to below the next string of the same length.
-/

set_option linter.unusedSimpArgs false

namespace Surf.Props

/-- What is between `a ++ [c]` and the next string of the same length begins with `a ++ [c]`. -/
theorem between {c : UInt8} (hc : c < 255) : ∀ {a f : Bytes}, ¬ f < a ++ [c] → f < a ++ [c + 1] → a ++ [c] <+: f := by
  have hc1 : (c + 1).toNat = c.toNat + 1 := by
    rw [UInt8.toNat_add]
    rw [UInt8.lt_iff_toNat_lt] at hc
    have : (255 : UInt8).toNat = 255 := rfl
    have : (1 : UInt8).toNat = 1 := rfl
    omega
  intro a
  induction a with
  | nil =>
    intro f h1 h2
    cases f with
    | nil => exact absurd (List.nil_lt_cons _ _) h1
    | cons x t =>
      rw [List.nil_append, List.cons_lt_cons_iff] at h1 h2
      have h3 : x < c + 1 := by
        rcases h2 with h | ⟨-, h⟩
        · exact h
        · exact absurd h (List.not_lt_nil _)
      have h4 : ¬ x < c := fun h => h1 (.inl h)
      rw [UInt8.lt_iff_toNat_lt] at h3 h4
      have : x = c := by
        apply UInt8.toNat_inj.mp
        omega
      subst this
      exact ⟨t, rfl⟩
  | cons b a ih =>
    intro f h1 h2
    cases f with
    | nil => exact absurd (List.nil_lt_cons _ _) h1
    | cons x t =>
      rw [List.cons_append, List.cons_lt_cons_iff] at h1 h2
      have hx : x = b := by
        rcases h2 with h | ⟨h, -⟩
        · exact absurd (.inl h) h1
        · exact h
      subst hx
      have h3 : t < a ++ [c + 1] := by
        rcases h2 with h | ⟨-, h⟩
        · exact absurd h (UInt8.lt_irrefl _)
        · exact h
      have h4 := ih (fun h => h1 (.inr ⟨rfl, h⟩)) h3
      rw [List.cons_append, List.cons_prefix_cons]
      exact ⟨rfl, h4⟩

theorem next_div {c : UInt8} (hc : c < 255) (a : Bytes) : Div (a ++ [c]) (a ++ [c + 1]) := by
  refine ⟨a, c, c + 1, [], [], rfl, rfl, ?_⟩
  rw [UInt8.lt_iff_toNat_lt] at hc ⊢
  rw [UInt8.toNat_add]
  have : (255 : UInt8).toNat = 255 := rfl
  have : (1 : UInt8).toNat = 1 := rfl
  omega

/-- **C112.** In a filter without real suffixes, for `p = a ++ [c]` with `c` less than 0xff, if the search for `p` does not go astray: `HasOverlap(p, p', false)` with `p' = a ++ [c + 1]` is true exactly if there is a key that begins with
`p`, or one that is not known whole and kept as a prefix of `p` or as `p'`. -/
theorem C112_prefix (fp : Bytes → Word) (bmi : Bool) (vs h : Nat) (hh : h ≤ 64) (keys vals : List Bytes) (hin : Input vs keys vals) (hint : Int) (s : SuRF)
    (hs : build fp bmi (newBuilder vs h 0) keys vals hint = some s) (a : Bytes) (c : UInt8) (hc : c < 255) (he : Supported keys s (a ++ [c])) :
    ∃ b, s.hasOverlap bmi (a ++ [c]) (a ++ [c + 1]) false = some b ∧
      (b = true ↔ ∃ k ∈ keys, a ++ [c] <+: k ∨ (¬ isEnd keys k ∧ (form keys k <+: a ++ [c] ∨ form keys k = a ++ [c + 1]))) := by
  obtain ⟨b, e, hb⟩ := C55_overlap fp bmi vs h 0 (by omega) (by omega) keys vals hin hint s hs (a ++ [c]) (a ++ [c + 1]) he false
  refine ⟨b, e, hb.trans ?_⟩
  have hnext := next_div hc a
  have hfk : ∀ k : Bytes, form keys k <+: k := fun k => List.take_prefix _ _
  constructor
  · rintro ⟨n, k, hk, hp, -, hM | ⟨hM, -⟩⟩
    · refine ⟨k, List.mem_of_getElem? hk, ?_⟩
      rw [may_zero] at hM
      rcases hM with hM | ⟨h1, h2⟩
      · by_cases hf : form keys k <+: a ++ [c]
        · by_cases hi : isEnd keys k
          · left
            rw [end_form hi] at hf
            by_cases hkq : k = a ++ [c]
            · exact hkq ▸ List.prefix_rfl
            · exact absurd (.inr (.inl ⟨hi, hf, hkq⟩)) hp
          · exact .inr ⟨hi, .inl hf⟩
        · left
          exact (between hc (fun h => hp (.inl ⟨h, hf⟩)) hM).trans (hfk k)
      · exact .inr ⟨h1, .inr h2⟩
    · cases hM
  · rintro ⟨k, hkm, hcase⟩
    have hst : ¬ PassedBy keys 0 (a ++ [c]) k ∧ MayPrecede keys 0 (a ++ [c + 1]) k := by
      rcases hcase with hp | ⟨hi, hf | hf⟩
      · refine ⟨fun hP => ?_, ?_⟩
        · rcases hP with q | ⟨-, q, q'⟩ | ⟨-, -, q⟩
          · exact absurd (((div_iff.mpr q).ext_left (hfk k)).lt) (List.not_lt.mpr (prefix_le hp))
          · exact q' (q.eq_of_length (Nat.le_antisymm q.length_le hp.length_le))
          · rw [real_zero, real_zero] at q
            omega
        · rw [may_zero]
          left
          have hlt : k < a ++ [c + 1] := (hnext.ext_left hp).lt
          by_contra hge
          exact absurd hlt (List.not_lt.mpr (List.le_trans (List.not_lt.mp hge) (prefix_le (hfk k))))
      · refine ⟨fun hP => ?_, ?_⟩
        · rcases hP with q | ⟨q, -⟩ | ⟨-, -, q⟩
          · exact q.2 hf
          · exact hi q
          · rw [real_zero, real_zero] at q
            omega
        · rw [may_zero]
          left
          by_contra hge
          exact absurd hnext.lt (List.not_lt.mpr (List.le_trans (List.not_lt.mp hge) (prefix_le hf)))
      · refine ⟨fun hP => ?_, ?_⟩
        · rcases hP with q | ⟨q, -⟩ | ⟨-, -, q⟩
          · rw [hf] at q
            exact List.lt_irrefl _ (List.lt_trans q.1 hnext.lt)
          · exact hi q
          · rw [real_zero, real_zero] at q
            omega
        · rw [may_zero]
          exact .inr ⟨hi, hf⟩
    obtain ⟨n, hk⟩ := List.mem_iff_getElem?.mp hkm
    obtain ⟨m, y, hmn, hy, hp', hb'⟩ := first_le hin (Nat.zero_le 8) (List.le_refl _) hk hst.1
    refine ⟨m, y, hy, hp', hb', .inl (may_mono hin (Nat.zero_le 8) (List.le_refl _) (List.mem_of_getElem? hy) hkm ?_ hst.2)⟩
    rcases Nat.lt_or_eq_of_le hmn with h | rfl
    · right
      obtain ⟨hi, rfl⟩ := List.getElem?_eq_some_iff.mp hy
      obtain ⟨hj, rfl⟩ := List.getElem?_eq_some_iff.mp hk
      exact List.pairwise_iff_getElem.mp hin.sorted m n hi hj h
    · left
      rw [hk] at hy
      exact (Option.some.inj hy).symm

/-! ### Examples -/

/-- In a filter with "abc", "abd" and "kxx": there is a key that begins with "ab"; none that begins with "ac"; one kept as "k", a prefix of "kz"; and one kept as "k", the string after "j". -/
theorem C112_example : (build (fun _ => 0) true (newBuilder 1 0 0) [[97, 98, 99], [97, 98, 100], [107, 120, 120]] [[0], [1], [2]] 10000).bind (fun s =>
    (s.hasOverlap true [97, 98] [97, 99] false).bind fun a => (s.hasOverlap true [97, 99] [97, 100] false).bind fun b => (s.hasOverlap true [107, 122] [107, 123] false).bind fun c =>
    (s.hasOverlap true [106] [107] false).map fun d => [a, b, c, d]) = some [true, false, true, true] := by
  decide +kernel

end Surf.Props
