import Verif.Props.SurfRange

/-!
# Property C102: whether `HasOverlap` and a loop over the range agree
-/

set_option linter.unusedSimpArgs false

namespace Surf.Props

/-- The first stored key that a search for `q` in a filter without real suffixes does not pass over -/
def foundBy (keys : List Bytes) (q : Bytes) : Option Bytes := keys.find? fun k => ¬ PassedBy keys 0 q k

theorem found_iff {keys : List Bytes} {q k : Bytes} :
    foundBy keys q = some k ↔ ∃ n, keys[n]? = some k ∧ ¬ PassedBy keys 0 q k ∧ ∀ m : Nat, m < n → ∀ k' : Bytes, keys[m]? = some k' → PassedBy keys 0 q k' := by
  unfold foundBy
  rw [List.find?_eq_some_iff_getElem]
  constructor
  · rintro ⟨h1, n, hn, h2, h3⟩
    refine ⟨n, by rw [List.getElem?_eq_getElem hn, h2], by simpa using h1, fun m hm k' hk => ?_⟩
    have := h3 m hm
    rw [List.getElem?_eq_getElem (by omega)] at hk
    cases hk
    simpa using this
  · rintro ⟨n, h1, h2, h3⟩
    obtain ⟨hn, e⟩ := List.getElem?_eq_some_iff.mp h1
    refine ⟨by simpa using h2, n, hn, e, fun j hj => ?_⟩
    simpa using h3 j hj _ (List.getElem?_eq_getElem (by omega))

theorem real_zero (keys : List Bytes) (k q : Bytes) : real keys 0 k q = 0 := by
  have := rsuf_lt q (shared keys k + 1) (r := 0) (by omega)
  rw [rsuf_real (by omega)] at this
  omega

/-- Without real suffixes, what is kept of the key does not rule out that it is below `stop` if it is less, or if it is `stop` and not known to be the whole key. -/
theorem may_zero {keys : List Bytes} {stop k : Bytes} : MayPrecede keys 0 stop k ↔ form keys k < stop ∨ (¬ isEnd keys k ∧ form keys k = stop) := by
  unfold MayPrecede
  rw [real_zero, real_zero]
  constructor
  · rintro (⟨h, -⟩ | ⟨h1, h2, -⟩)
    · exact .inl h
    · by_cases he : form keys k = stop
      · refine .inr ⟨fun hi => h2 ⟨hi, ?_⟩, he⟩
        rw [← he, end_form hi]
      · exact .inl (prefix_lt h1 he)
  · rintro (h | ⟨h1, h2⟩)
    · by_cases hp : form keys k <+: stop
      · refine .inr ⟨hp, ?_, Nat.le_refl _⟩
        rintro ⟨hi, rfl⟩
        rw [end_form hi] at h
        exact absurd h (List.lt_irrefl _)
      · exact .inl ⟨h, hp⟩
    · exact .inr ⟨h2 ▸ List.prefix_refl _, fun h => h1 h.1, Nat.le_refl _⟩

/-- A loop shows something exactly if the first key that is not passed over is wanted. -/
theorem loop_some {vs : Nat} {keys vals : List Bytes} (hin : Input vs keys vals) (q : Bytes) (more : Bytes → Bool) (n : Nat) :
    (((((keys.zip vals).filter (fun kv => ¬ PassedBy keys 0 q kv.1)).map (shown keys vs)).takeWhile (fun y => more y.1)).take (n + 1)) ≠ [] ↔ ∃ k, foundBy keys q = some k ∧ more (form keys k) = true := by
  have hf : foundBy keys q = ((keys.zip vals).filter (fun kv => ¬ PassedBy keys 0 q kv.1)).head?.map (·.1) := by
    unfold foundBy
    have : ∀ (p : Bytes → Bool), keys.find? p = ((keys.zip vals).filter (fun kv => p kv.1)).head?.map (·.1) := by
      intro p
      conv_lhs => rw [← hin.fst]
      rw [List.find?_map, List.head?_filter]
      rfl
    exact this _
  rw [hf]
  cases (keys.zip vals).filter (fun kv => ¬ PassedBy keys 0 q kv.1) with
  | nil => simp
  | cons x c =>
    simp only [List.map_cons, List.head?_cons, Option.map_some, Option.some.injEq, exists_eq_left', List.takeWhile_cons]
    by_cases hm : more (form keys x.1) = true
    · rw [if_pos (show more (shown keys vs x).1 = true from hm)]
      simp [hm]
    · rw [if_neg (show ¬ more (shown keys vs x).1 = true from hm)]
      simp [hm]

/-! ### C102 -/

/-- **C102.** In a filter without real suffixes, if the search for `start` is supported, `HasOverlap(start, stop, false)` is true exactly if a loop from `start` as long as the key shown is less than `stop` shows a key, or the first
key it would show is kept as `stop` and not known to be whole. -/
theorem C102_open (fp : Bytes → Word) (bmi : Bool) (vs h : Nat) (hh : h ≤ 64) (keys vals : List Bytes) (hin : Input vs keys vals) (hint : Int) (s : SuRF)
    (hs : build fp bmi (newBuilder vs h 0) keys vals hint = some s) (start stop : Bytes) (he : Supported keys s start) (n : Nat) :
    ∃ b it fl l, s.hasOverlap bmi start stop false = some b ∧ s.newIterator.seek bmi s start = some (it, fl) ∧ rangeLoop bmi s (fun k => k < stop) (n + 1) it = some l ∧
      (b = true ↔ l ≠ [] ∨ ∃ k, foundBy keys start = some k ∧ ¬ isEnd keys k ∧ form keys k = stop) := by
  obtain ⟨b, h1, h2⟩ := C55_overlap fp bmi vs h 0 (by omega) (by omega) keys vals hin hint s hs start stop he false
  obtain ⟨it, fl, h3, h4⟩ := C101_range fp bmi vs h 0 (by omega) keys vals hin hint s hs s.newIterator .new start he (fun k => k < stop) (n + 1)
  refine ⟨b, it, fl, _, h1, h3, h4, ?_⟩
  rw [loop_some hin start (fun k => k < stop) n, h2]
  constructor
  · rintro ⟨m, k, a1, a2, a3, a4⟩
    have hf := found_iff.mpr ⟨m, a1, a2, a3⟩
    rcases a4 with a4 | ⟨a4, -⟩
    · rcases may_zero.mp a4 with a4 | a4
      · exact .inl ⟨k, hf, decide_eq_true a4⟩
      · exact .inr ⟨k, hf, a4⟩
    · cases a4
  · rintro (⟨k, hf, a⟩ | ⟨k, hf, a⟩)
    · obtain ⟨m, a1, a2, a3⟩ := found_iff.mp hf
      exact ⟨m, k, a1, a2, a3, .inl (may_zero.mpr (.inl (of_decide_eq_true a)))⟩
    · obtain ⟨m, a1, a2, a3⟩ := found_iff.mp hf
      exact ⟨m, k, a1, a2, a3, .inl (may_zero.mpr (.inr a))⟩

/-- **C102.** `HasOverlap(start, stop, true)` is true exactly if a loop from `start` as long as the key shown is at most `stop` shows a key, or the first key it would show is wrongly taken for `stop` (see C55). -/
theorem C102_closed (fp : Bytes → Word) (bmi : Bool) (vs h : Nat) (hh : h ≤ 64) (keys vals : List Bytes) (hin : Input vs keys vals) (hint : Int) (s : SuRF)
    (hs : build fp bmi (newBuilder vs h 0) keys vals hint = some s) (start stop : Bytes) (he : Supported keys s start) (n : Nat) :
    ∃ b it fl l, s.hasOverlap bmi start stop true = some b ∧ s.newIterator.seek bmi s start = some (it, fl) ∧ rangeLoop bmi s (fun k => k ≤ stop) (n + 1) it = some l ∧
      (b = true ↔ l ≠ [] ∨ ∃ k, foundBy keys start = some k ∧ TakenFor keys s.ld.height stop k ∧ k ≠ stop) := by
  obtain ⟨b, h1, h2⟩ := C55_overlap fp bmi vs h 0 (by omega) (by omega) keys vals hin hint s hs start stop he true
  obtain ⟨it, fl, h3, h4⟩ := C101_range fp bmi vs h 0 (by omega) keys vals hin hint s hs s.newIterator .new start he (fun k => k ≤ stop) (n + 1)
  refine ⟨b, it, fl, _, h1, h3, h4, ?_⟩
  rw [loop_some hin start (fun k => k ≤ stop) n, h2]
  constructor
  · rintro ⟨m, k, a1, a2, a3, a4⟩
    have hf := found_iff.mpr ⟨m, a1, a2, a3⟩
    rcases a4 with a4 | ⟨-, a4⟩
    · refine .inl ⟨k, hf, decide_eq_true ?_⟩
      rcases may_zero.mp a4 with a4 | a4
      · exact List.le_of_lt a4
      · rw [a4.2]
        exact List.le_refl _
    · by_cases hk : k = stop
      · refine .inl ⟨k, hf, decide_eq_true ?_⟩
        rw [← hk]
        exact prefix_le (List.take_prefix _ _)
      · exact .inr ⟨k, hf, a4, hk⟩
  · rintro (⟨k, hf, a⟩ | ⟨k, hf, a, -⟩)
    · obtain ⟨m, a1, a2, a3⟩ := found_iff.mp hf
      have a : form keys k ≤ stop := of_decide_eq_true a
      refine ⟨m, k, a1, a2, a3, ?_⟩
      by_cases hk : form keys k = stop
      · by_cases hi : isEnd keys k
        · exact .inr ⟨rfl, hi, .inl (by rw [← hk, end_form hi])⟩
        · exact .inl (may_zero.mpr (.inr ⟨hi, hk⟩))
      · refine .inl (may_zero.mpr (.inl ?_))
        rcases List.le_iff_lt_or_eq.mp a with a | a
        · exact a
        · exact absurd a hk
    · obtain ⟨m, a1, a2, a3⟩ := found_iff.mp hf
      exact ⟨m, k, a1, a2, a3, .inr ⟨rfl, a⟩⟩

/-! ### Examples -/

/-- In a filter with "ab", "ac", "c1" and "c2": `HasOverlap` from "ad" to "c", to "c2" and to "c1", without the end, and what the loops over these ranges show. In the third case the two disagree: the key "c1" is kept whole, but not
known to be whole. -/
theorem C102_example : (build (fun _ => 0) true (newBuilder 1 0 0) [[97, 98], [97, 99], [99, 49], [99, 50]] [[0], [1], [2], [3]] 10000).bind (fun s =>
    (s.hasOverlap true [97, 100] [99] false).bind fun b1 => (s.hasOverlap true [97, 100] [99, 50] false).bind fun b2 => (s.hasOverlap true [97, 100] [99, 49] false).bind fun b3 =>
    (s.newIterator.seek true s [97, 100]).bind fun x => (rangeLoop true s (fun k => k < [99]) 5 x.1).bind fun l1 => (rangeLoop true s (fun k => k < [99, 50]) 5 x.1).bind fun l2 =>
    (rangeLoop true s (fun k => k < [99, 49]) 5 x.1).map fun l3 => ([b1, b2, b3], [l1, l2, l3])) = some ([false, true, true], [[], [([99, 49], [2])], []]) := by
  decide +kernel

end Surf.Props
