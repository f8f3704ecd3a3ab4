import Verif.Props.SurfWiden

/-!
# Property C110: a search for more stops later
-/

set_option linter.unusedSimpArgs false

namespace Surf.Props

/-- The keys that a search does not pass over are the last ones. -/
theorem stays_suffix {fp : Bytes → Word} {bmi : Bool} {vs h r : Nat} (hhr : h + r ≤ 64) {keys vals : List Bytes} (hin : Input vs keys vals) {hint : Int} {s : SuRF}
    (hs : build fp bmi (newBuilder vs h r) keys vals hint = some s) {q : Bytes} (he : Supported keys s q) : (keys.zip vals).filter (fun kv => ¬ PassedBy keys r q kv.1) <:+ keys.zip vals := by
  obtain ⟨ht, B⟩ := the_built hhr hin hs
  obtain ⟨it', fl, b, a1, ⟨hb, c, ec, hc⟩, a2⟩ := B.i_seek bmi rfl q (he.clear hin B) B.newReady
  have ec : keys.zip vals = b ++ c := ec
  have hfil : (keys.zip vals).filter (fun kv => ¬ PassedBy keys r q kv.1) = c := by
    rw [ec, List.filter_append, List.filter_eq_nil_iff.mpr, List.filter_eq_self.mpr, List.nil_append]
    · intro x hx
      exact decide_eq_true ((passed_by hhr hin B).2 (hc x hx))
    · intro x hx
      simpa using (passed_by hhr hin B).1 (hb x hx)
  rw [hfil]
  exact ⟨b, ec.symm⟩

theorem take_all {α : Type} : ∀ l : List α, l.takeWhile (fun _ => true) = l
  | [] => rfl
  | a :: l => by rw [List.takeWhile_cons, if_pos rfl, take_all l]

/-- What is passed over is shown as less. -/
theorem passed_lt {keys : List Bytes} {r : Nat} {q k : Bytes} (hP : PassedBy keys r q k) : form keys k < q := by
  rcases id hP with p | ⟨he, p, hne⟩ | ⟨-, p, -⟩
  · exact p.1
  · rw [end_form he]
    exact prefix_lt p hne
  · refine prefix_lt p fun h => ?_
    rw [← h] at hP
    exact form_stays k hP

/-- **C110.** In a filter with real suffixes of at most eight bits, or none, with `q ≤ q'`, if neither search goes astray, what `Seek(q')` and a loop with `Next` show is the end of what `Seek(q)` and a loop show, on iterators after any calls of which no search
went astray; what is shown in front of it is below `q'`. -/
theorem C110_seek (fp : Bytes → Word) (bmi : Bool) (vs h r : Nat) (hhr : h + r ≤ 64) (hr8 : r ≤ 8) (keys vals : List Bytes) (hin : Input vs keys vals) (hint : Int) (s : SuRF)
    (hs : build fp bmi (newBuilder vs h r) keys vals hint = some s) (it it' : Iterator) (hr : Reached bmi s (Supported keys s) it) (hr' : Reached bmi s (Supported keys s) it') (q q' : Bytes)
    (he : Supported keys s q) (he' : Supported keys s q') (hqq : q ≤ q') :
    ∃ (i : Iterator) (fl : Bool) (i' : Iterator) (fl' : Bool) (l l' : List (Bytes × Bytes)), it.seek bmi s q = some (i, fl) ∧ it'.seek bmi s q' = some (i', fl') ∧
      (∀ n, rangeLoop bmi s (fun _ => true) n i = some ((l ++ l').take n)) ∧ (∀ n, rangeLoop bmi s (fun _ => true) n i' = some (l'.take n)) ∧ ∀ y ∈ l, y.1 < q' := by
  have key : ∀ (p : Bytes) (j : Iterator), Supported keys s p → Reached bmi s (Supported keys s) j →
      ∃ i fl, j.seek bmi s p = some (i, fl) ∧ ∀ n, rangeLoop bmi s (fun _ => true) n i = some ((((keys.zip vals).filter (fun kv => ¬ PassedBy keys r p kv.1)).map (shown keys vs)).take n) := by
    intro p j hp hj
    obtain ⟨i, fl, e, -⟩ := C101_range fp bmi vs h r hhr keys vals hin hint s hs j hj p hp (fun _ => true) 0
    refine ⟨i, fl, e, fun n => ?_⟩
    obtain ⟨i2, fl2, e2, e3⟩ := C101_range fp bmi vs h r hhr keys vals hin hint s hs j hj p hp (fun _ => true) n
    rw [e] at e2
    cases e2
    rw [e3, take_all]
  obtain ⟨i, fl, e, hl⟩ := key q it he hr
  obtain ⟨i', fl', e', hl'⟩ := key q' it' he' hr'
  have hsub : (keys.zip vals).filter (fun kv => ¬ PassedBy keys r q' kv.1) = ((keys.zip vals).filter (fun kv => ¬ PassedBy keys r q kv.1)).filter (fun kv => ¬ PassedBy keys r q' kv.1) := by
    rw [List.filter_filter]
    refine List.filter_congr fun kv hkv => ?_
    by_cases h1 : PassedBy keys r q' kv.1
    · simp [h1]
    · have h2 : ¬ PassedBy keys r q kv.1 := fun h => h1 (passed_mono hin hr8 (List.of_mem_zip hkv).1 hqq h)
      simp [h1, h2]
  have hsuf := List.suffix_of_suffix_length_le (stays_suffix hhr hin hs he') (stays_suffix hhr hin hs he) (by rw [hsub]; exact List.length_filter_le _ _)
  obtain ⟨m, hm⟩ := hsuf
  have hmp : ∀ z ∈ m, PassedBy keys r q' z.1 := by
    have hlen : (m.filter (fun kv => ¬ PassedBy keys r q' kv.1)) = [] := by
      have := hsub
      rw [← hm, List.filter_append, List.filter_filter] at this
      simp only [Bool.and_self] at this
      have := congrArg List.length this
      rw [List.length_append] at this
      exact List.length_eq_zero_iff.mp (by omega)
    intro z hz
    by_contra hc
    exact (List.filter_eq_nil_iff.mp hlen) z hz (decide_eq_true hc)
  refine ⟨i, fl, i', fl', m.map (shown keys vs), ((keys.zip vals).filter (fun kv => ¬ PassedBy keys r q' kv.1)).map (shown keys vs), e, e', fun n => ?_, hl', ?_⟩
  · rw [hl n, ← hm, List.map_append]
  · intro y hy
    obtain ⟨z, hz, rfl⟩ := List.mem_map.mp hy
    show form keys z.1 < q'
    exact passed_lt (hmp z hz)

/-! ### Examples -/

/-- In a filter with "ab", "ac", "k" and "kb", a loop from "ac" shows "ac", "k" and "kb", and one from "b" the last two of them. -/
theorem C110_example : (build (fun _ => 0) true (newBuilder 1 0 0) [[97, 98], [97, 99], [107], [107, 98]] [[0], [1], [2], [3]] 10000).bind (fun s =>
    (s.newIterator.seek true s [97, 99]).bind fun x => (s.newIterator.seek true s [98]).bind fun x' => (rangeLoop true s (fun _ => true) 9 x.1).bind fun l => (rangeLoop true s (fun _ => true) 9 x'.1).map fun l' => (l, l')) =
    some ([([97, 99], [1]), ([107], [2]), ([107, 98], [3])], [([107], [2]), ([107, 98], [3])]) := by
  decide +kernel

/-- With real suffixes of more than eight bits this fails: with "aP\x10" and "bcc", and suffixes of twelve bits, `Seek("aP\x20")` passes over the first key, but `Seek("aQ")` stops on it. -/
theorem C110_witness : (build (fun _ => 0) true (newBuilder 1 0 12) [[97, 80, 16], [98, 99, 99]] [[0], [1]] 10000).bind (fun s =>
    (s.newIterator.seek true s [97, 80, 32]).bind fun x => (s.newIterator.seek true s [97, 81]).map fun x' => (x.1.key, x'.1.key)) = some (some [98], some [97]) := by
  decide +kernel

end Surf.Props
