import Verif.Surf.ReadsOverlap
import Verif.Props.SurfReadsSeek

/-!
# Property C96: what `HasOverlap` and `Value` read

`Cnt.hasOverlap` and `Cnt.value` are `HasOverlap` and `Value` with a counter of the elements they read from the arrays of the filter (Surf/ReadsOverlap.lean).
-/

set_option linter.unusedSimpArgs false

namespace Surf.Props

/-! ### C96 -/

/-- **C96.** `HasOverlap` of a built filter reads what `Seek` to the first bound reads and at most 21 elements more, and nothing of the filter on account of the second bound or of the number of keys; and it answers what the model of
`HasOverlap` answers. -/
theorem C96_overlap (fp : Bytes → Word) (bmi : Bool) (vs h r : Nat) (hhr : h + r ≤ 64) (keys vals : List Bytes) (hin : Input vs keys vals) (hint : Int) (s : SuRF)
    (hs : build fp bmi (newBuilder vs h r) keys vals hint = some s) (start stop : Bytes) (includeEnd : Bool) :
    ∃ it' fl m b n, Cnt.seek bmi s s.newIterator start 0 = some ((it', fl), m) ∧ s.hasOverlap bmi start stop includeEnd = some b ∧ Cnt.hasOverlap bmi s start stop includeEnd 0 = some (b, n) ∧
      m ≤ n ∧ n ≤ m + 21 ∧ (it'.valid = false → n = m) := by
  obtain ⟨it', fl, m, h1, h2, -, -⟩ := C95_seek fp bmi vs h r hhr keys vals hin hint s hs s.newIterator .new start
  obtain ⟨b, hb⟩ := C59_overlap fp bmi vs h r hhr keys vals hin hint s hs start stop includeEnd
  refine ⟨it', fl, m, b, ?_⟩
  unfold SuRF.hasOverlap at hb
  unfold Cnt.hasOverlap
  obtain ⟨ht, B⟩ := the_built hhr hin hs
  have h0 : ¬ (s.ld.height = 0 ∧ s.ls.height = 0) := by
    have := B.lt
    rw [B.hs]
    omega
  rw [if_neg h0] at hb ⊢
  rw [h1] at hb
  have run : ∀ (k : Iterator × Bool → Cnt Bool) (n : Nat), k (it', fl) m = some (b, n) → (Cnt.seek bmi s s.newIterator start >>= k) 0 = some (b, n) := by
    intro k n hk
    show ((Cnt.seek bmi s s.newIterator start 0).bind fun x => k x.1 x.2) = _
    rw [h2]
    exact hk
  change (if !it'.valid then some false else _) = some b at hb
  cases hv : it'.valid with
  | false =>
    rw [hv] at hb
    cases hb
    refine ⟨m, h2, ?_, run _ _ ?_, Nat.le_refl _, by omega, fun _ => rfl⟩
    · unfold SuRF.hasOverlap
      rw [if_neg h0, h1]
      show (if !it'.valid then some false else _) = _
      rw [hv]
      rfl
    · show (if !it'.valid then (pure false : Cnt Bool) else _) m = _
      rw [hv]
      rfl
  | true =>
    rw [hv] at hb
    obtain ⟨cmp, hc, hb'⟩ := Option.bind_eq_some_iff.mp hb
    obtain ⟨k, hk1, hk2⟩ := (Cnt.tally_compare s it' stop m).2 _ hc
    refine ⟨m + k, h2, ?_, run _ _ ?_, by omega, by omega, fun h => by cases h⟩
    · unfold SuRF.hasOverlap
      rw [if_neg h0, h1]
      show (if !it'.valid then some false else _) = _
      rw [hv]
      exact hb
    · show (if !it'.valid then (pure false : Cnt Bool) else _) m = _
      rw [hv]
      show ((Cnt.compare s it' stop m).bind _) = _
      rw [hk2]
      cases hb'
      rfl

/-- **C96.** In terms of the longest key, if the search for the first bound does not go astray: at most 1110 elements for each byte of the longest key, four for each byte of the first bound and 1946 more. -/
theorem C96_keys (fp : Bytes → Word) (bmi : Bool) (vs h r : Nat) (hhr : h + r ≤ 64) (keys vals : List Bytes) (hin : Input vs keys vals) (hint : Int) (s : SuRF)
    (hs : build fp bmi (newBuilder vs h r) keys vals hint = some s) (M : Nat) (hM : ∀ k ∈ keys, k.length ≤ M) (start stop : Bytes) (hq : Supported keys s start) (includeEnd : Bool) :
    ∃ b n, s.hasOverlap bmi start stop includeEnd = some b ∧ Cnt.hasOverlap bmi s start stop includeEnd 0 = some (b, n) ∧ n ≤ 1110 * M + 4 * start.length + 1946 := by
  obtain ⟨it', fl, m, b, n, h1, h2, h3, -, h4, -⟩ := C96_overlap fp bmi vs h r hhr keys vals hin hint s hs start stop includeEnd
  obtain ⟨it'', fl', m', -, h6, h7⟩ := C95_keys fp bmi vs h r hhr keys vals hin hint s hs M hM s.newIterator .new start hq
  rw [h6] at h1
  cases h1
  exact ⟨b, n, h2, h3, by omega⟩

/-- **C96.** `Value` on an iterator that has not run out reads at most nine elements besides the value. -/
theorem C96_value (fp : Bytes → Word) (bmi : Bool) (vs h r : Nat) (hhr : h + r ≤ 64) (keys vals : List Bytes) (hin : Input vs keys vals) (hint : Int) (s : SuRF)
    (hs : build fp bmi (newBuilder vs h r) keys vals hint = some s) (it : Iterator) (hr : Reached bmi s (fun _ => True) it) (hv : it.valid = true) :
    ∃ v n, it.value s = some v ∧ Cnt.value s it 0 = some (v, n) ∧ n ≤ 9 := by
  obtain ⟨ht, B⟩ := the_built hhr hin hs
  obtain ⟨-, ⟨x, -, a2⟩, -⟩ := (reached_roam hin B hr).read B rfl hv
  obtain ⟨k, h1, h2⟩ := (Cnt.tally_value s it 0).2 _ a2
  exact ⟨_, k, a2, by rw [h2, Nat.zero_add], h1⟩

/-! ### Examples -/

/-- The answer and the reads of `HasOverlap` for ranges (both ends included). -/
def readRanges (s : SuRF) : List (Bytes × Bytes) → Option (List (Bool × Nat))
  | [] => some []
  | q :: qs => (Cnt.hasOverlap true s q.1 q.2 true 0).bind fun x => (readRanges s qs).map fun l => x :: l

/-- Ranges "ac" to "ad", "ad" to "b" and "l" to "m" in a filter with a dense and a sparse level. -/
theorem C96_example : (build (fun _ => 0) true (newBuilder 1 0 8) [[97, 98], [97, 99], List.replicate 300 107] [[0], [1], [2]] 10000).bind (fun s =>
    (readRanges s [([97, 99], [97, 100]), ([97, 100], [98]), ([108], [109])]).map fun l => ((s.ld.height, s.ls.sparseLevels), l)) =
    some ((1, 1), [(true, 17), (false, 18), (false, 6)]) := by
  decide +kernel

end Surf.Props
