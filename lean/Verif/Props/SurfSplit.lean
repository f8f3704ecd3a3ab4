import Verif.Props.SurfMono

/-!
# Property C111: a range overlaps exactly if one of its parts does
-/

set_option linter.unusedSimpArgs false

namespace Surf.Props

/-- **C111.** In a filter with real suffixes of at most eight bits, or none, for `a ≤ b ≤ c`, if neither the search for `a` nor that for `b` goes astray, the range from `a` to `c` overlaps exactly if that from `a` to below `b` or that from `b` to `c` does, whether `c`
is included or not. -/
theorem C111_split (fp : Bytes → Word) (bmi : Bool) (vs h r : Nat) (hhr : h + r ≤ 64) (hr : r ≤ 8) (keys vals : List Bytes) (hin : Input vs keys vals) (hint : Int) (s : SuRF)
    (hs : build fp bmi (newBuilder vs h r) keys vals hint = some s) (a b c : Bytes) (hab : a ≤ b) (hbc : b ≤ c) (ha : Supported keys s a) (hb : Supported keys s b) (includeEnd : Bool) :
    ∃ y z, s.hasOverlap bmi a b false = some y ∧ s.hasOverlap bmi b c includeEnd = some z ∧ s.hasOverlap bmi a c includeEnd = some (y || z) := by
  obtain ⟨x, e1, h1⟩ := C55_overlap fp bmi vs h r hhr (by omega) keys vals hin hint s hs a c ha includeEnd
  obtain ⟨y, e2, h2⟩ := C55_overlap fp bmi vs h r hhr (by omega) keys vals hin hint s hs a b ha false
  obtain ⟨z, e3, h3⟩ := C55_overlap fp bmi vs h r hhr (by omega) keys vals hin hint s hs b c hb includeEnd
  refine ⟨y, z, e2, e3, ?_⟩
  rw [e1, Option.some.injEq, Bool.eq_iff_iff, Bool.or_eq_true]
  constructor
  · intro hx
    obtain ⟨n, k, hk, hp, hbef, hM⟩ := h1.mp hx
    by_cases hkb : MayPrecede keys r b k
    · exact .inl (h2.mpr ⟨n, k, hk, hp, hbef, .inl hkb⟩)
    · refine .inr (h3.mpr ⟨n, k, hk, fun hP => hkb (passed_may hP), fun m hm k' hk' => passed_mono hin hr (List.mem_of_getElem? hk') hab (hbef m hm k' hk'), hM⟩)
  · rintro (hy | hz)
    · have := C109_open fp bmi vs h r hhr hr keys vals hin hint s hs a b a c ha ha (List.le_refl _) hbc includeEnd (by rw [e2, hy])
      rw [e1] at this
      exact Option.some.inj this
    · obtain ⟨n, k, hk, hp, hbef, hM⟩ := h3.mp hz
      obtain ⟨m, y, hmn, hy, hp', hb'⟩ := first_le hin hr hab hk hp
      refine h1.mpr ⟨m, y, hy, hp', hb', ?_⟩
      rcases Nat.lt_or_eq_of_le hmn with hlt | rfl
      · exact .inl (passed_may (passed_mono hin hr (List.mem_of_getElem? hy) hbc (hbef m hlt y hy)))
      · rw [hk] at hy
        cases hy
        exact hM

/-! ### Examples -/

/-- In a filter with "ab", "ac" and "k": the range from "b" to "m" overlaps, and so does its part from "c" on, but not that up to "c"; the range from "b" to "j" does not, and neither do its parts. -/
theorem C111_example : (build (fun _ => 0) true (newBuilder 1 0 0) [[97, 98], [97, 99], [107]] [[0], [1], [2]] 10000).bind (fun s =>
    (s.hasOverlap true [98] [109] true).bind fun a => (s.hasOverlap true [98] [99] false).bind fun b => (s.hasOverlap true [99] [109] true).bind fun c =>
    (s.hasOverlap true [98] [106] true).bind fun d => (s.hasOverlap true [99] [106] true).map fun e => [a, b, c, d, e]) = some [true, false, true, false, false] := by
  decide +kernel

/-- With real suffixes of eight bits, and the keys "aP\x10" and "bcc": the range from "aA" to below "aZ" overlaps; split at "aQ", its first part does, and split at "aB", its second. -/
theorem C111_example_real : (build (fun _ => 0) true (newBuilder 1 0 8) [[97, 80, 16], [98, 99, 99]] [[0], [1]] 10000).bind (fun s =>
    (s.hasOverlap true [97, 65] [97, 90] false).bind fun a => (s.hasOverlap true [97, 65] [97, 81] false).bind fun b => (s.hasOverlap true [97, 81] [97, 90] false).bind fun c =>
    (s.hasOverlap true [97, 65] [97, 66] false).bind fun d => (s.hasOverlap true [97, 66] [97, 90] false).map fun e => [a, b, c, d, e]) = some [true, true, false, false, true] := by
  decide +kernel

/-- With longer real suffixes this fails: with "aP\x10" and "bcc", and suffixes of twelve bits, the range from "a" to below "aQ" is said not to overlap, but its part to below "aP\x20" is. -/
theorem C111_witness : (build (fun _ => 0) true (newBuilder 1 0 12) [[97, 80, 16], [98, 99, 99]] [[0], [1]] 10000).bind (fun s =>
    (s.hasOverlap true [97] [97, 81] false).bind fun a => (s.hasOverlap true [97] [97, 80, 32] false).bind fun b => (s.hasOverlap true [97, 80, 32] [97, 81] false).map fun c => [a, b, c]) = some [false, true, false] := by
  decide +kernel

end Surf.Props
