import Verif.Surf.ReadsFind
import Verif.Props.SurfReadsScan
import Verif.Props.SurfReadsOverlap

/-!
# Property C99: what `Seek` and `HasOverlap` read in terms of the searched bytes and the key found

`Cnt.seek` and `Cnt.hasOverlap` are `Seek` and `HasOverlap` with a counter of the elements they read from the arrays of the filter (Surf/ReadsSeek.lean, Surf/ReadsOverlap.lean).
-/

set_option linter.unusedSimpArgs false

namespace Surf.Props

/-! ### C99 -/

/-- **C99.** On an iterator of a built filter, wherever it has been left, and for any searched bytes, `Seek` reads at most 603 elements for each searched byte and 329 more, and, unless it runs out, 278 for each byte of the key
it gets to and 556 more: neither the number of keys nor the height of the filter matters. -/
theorem C99_seek (fp : Bytes → Word) (bmi : Bool) (vs h r : Nat) (hhr : h + r ≤ 64) (keys vals : List Bytes) (hin : Input vs keys vals) (hint : Int) (s : SuRF)
    (hs : build fp bmi (newBuilder vs h r) keys vals hint = some s) (it : Iterator) (hr : Reached bmi s (fun _ => True) it) (q : Bytes) :
    ∃ it' b n, it.seek bmi s q = some (it', b) ∧ Cnt.seek bmi s it q 0 = some ((it', b), n) ∧
      (it'.valid = false → n ≤ 603 * q.length + 329) ∧ ∀ y, it'.key = some y → n ≤ 603 * q.length + 278 * y.length + 885 := by
  obtain ⟨ht, B⟩ := the_built hhr hin hs
  have hready := (reached_roam hin B hr).ready
  obtain ⟨it', b, e, hroam'⟩ := B.r_seek bmi rfl q hready
  obtain ⟨n, h1, h2⟩ := (Cnt.cost_seek B.close B.near bmi it hready.p q 0).2 _ e
  rw [Nat.zero_add] at h2
  dsimp only at h1
  refine ⟨it', b, n, e, h2, fun hv => ?_, fun k hk => ?_⟩
  · have := paid_done (roam_done hroam' hv)
    omega
  · have := paid_key hk (roam_part hroam')
    omega

/-- **C99.** `HasOverlap` reads at most 603 elements for each byte of the first bound and 350 more, and, unless the search for it runs out, 278 for each byte of the key the search gets to and 556 more, whatever the second bound is. -/
theorem C99_overlap (fp : Bytes → Word) (bmi : Bool) (vs h r : Nat) (hhr : h + r ≤ 64) (keys vals : List Bytes) (hin : Input vs keys vals) (hint : Int) (s : SuRF)
    (hs : build fp bmi (newBuilder vs h r) keys vals hint = some s) (start stop : Bytes) (includeEnd : Bool) :
    ∃ it' fl b n, s.newIterator.seek bmi s start = some (it', fl) ∧ s.hasOverlap bmi start stop includeEnd = some b ∧ Cnt.hasOverlap bmi s start stop includeEnd 0 = some (b, n) ∧
      (it'.valid = false → n ≤ 603 * start.length + 329) ∧ ∀ y, it'.key = some y → n ≤ 603 * start.length + 278 * y.length + 906 := by
  obtain ⟨it', fl, m, b, n, h1, h2, h3, -, h4, h5⟩ := C96_overlap fp bmi vs h r hhr keys vals hin hint s hs start stop includeEnd
  obtain ⟨it'', fl', m', g1, g2, g3, g4⟩ := C99_seek fp bmi vs h r hhr keys vals hin hint s hs s.newIterator .new start
  rw [g2] at h1
  cases h1
  refine ⟨it', fl, b, n, g1, h2, h3, fun hv => ?_, fun y hy => ?_⟩
  · rw [h5 hv]
    exact g3 hv
  · have := g4 y hy
    omega

/-- `for it.Valid() && more(it.Key()) { use(it.Key()); it.Next() }`, at most `n` times, keeping the keys used and counting the reads -/
def walk (bmi : Bool) (s : SuRF) (more : Bytes → Bool) : Nat → Iterator → Cnt (Iterator × List Bytes)
  | 0, it => pure (it, [])
  | n + 1, it => if it.valid then do
      let k ← Cnt.free it.key
      if more k then do
        let it ← Cnt.next bmi s it
        let r ← walk bmi s more n it
        return (r.1, k :: r.2)
      else pure (it, [])
    else pure (it, [])

theorem walk_cost {fp : Bytes → Word} {vs h r ht : Nat} {keys vals : List Bytes} {s : SuRF} (hin : Input vs keys vals) (B : Built (newBuilder vs h r) fp s ⟨keys.zip vals, 0⟩ s.ld.height ht) (bmi : Bool) (more : Bytes → Bool) :
    ∀ (n : Nat) (it : Iterator) (start : Nat), Reached bmi s (Supported keys s) it →
    ∃ it' l k, walk bmi s more n it start = some ((it', l), start + k) ∧ Reached bmi s (Supported keys s) it' ∧ Cnt.itPaid it + k ≤ 287 * (l.map List.length).sum + 584 * l.length + Cnt.itPaid it' := by
  intro n
  induction n with
  | zero => intro it start hr; exact ⟨it, [], 0, rfl, hr, by simp⟩
  | succ n ih =>
    intro it start hr
    unfold walk
    by_cases hv : it.valid = true
    · rw [if_pos hv]
      obtain ⟨b, x, ha⟩ : ∃ b x, At ⟨keys.zip vals, 0⟩ s.ld.height ht it b x := by
        rcases reached_inv hin B hr with ha | hd
        · exact ha
        · rw [hd.valid] at hv
          cases hv
      have hk := (at_read hin B ha).2.1
      rw [hk]
      show ∃ it' l k, (if more (form keys x.1) then _ else _ : Cnt (Iterator × List Bytes)) start = _ ∧ _
      by_cases hm : more (form keys x.1) = true
      · rw [if_pos hm]
        have hroam := ha.roam B
        obtain ⟨it1, e, -⟩ := B.i_next bmi ha
        have hl := itLen_key hk (roam_part hroam)
        have hp := paid_key hk (roam_part hroam)
        unfold Cnt.itLen at hl
        obtain ⟨k, h1, h2⟩ := (Cnt.cost_next B.close B.near bmi it (at_steep ha) ha.ready.p start).2 _ e
        obtain ⟨it', l, k', h3, h4, h5⟩ := ih it1 (start + k) (.next hr e)
        refine ⟨it', form keys x.1 :: l, k + k', ?_, h4, by simp only [List.map_cons, List.sum_cons, List.length_cons]; omega⟩
        show StateT.bind _ _ _ = _
        unfold StateT.bind
        rw [h2]
        show StateT.bind (walk bmi s more n it1) (fun r => (pure (r.1, form keys x.1 :: r.2) : Cnt (Iterator × List Bytes))) (start + k) = _
        unfold StateT.bind
        rw [h3, Nat.add_assoc]
        rfl
      · rw [if_neg hm]
        exact ⟨it, [], 0, rfl, hr, by simp⟩
    · rw [if_neg hv]
      exact ⟨it, [], 0, rfl, hr, by simp⟩

/-- **C99.** A `Seek` for bytes that do not lead astray (`Supported`, see C28), followed by `Next` as long as the keys shown are wanted, reads at most 603 elements for each searched byte, 287 for each byte of the keys shown and
wanted, 584 for each of them and 329 more, and 278 for each byte of the key it stops at, if any, and 556 more: a search for a range costs what it shows. -/
theorem C99_range (fp : Bytes → Word) (bmi : Bool) (vs h r : Nat) (hhr : h + r ≤ 64) (keys vals : List Bytes) (hin : Input vs keys vals) (hint : Int) (s : SuRF)
    (hs : build fp bmi (newBuilder vs h r) keys vals hint = some s) (it : Iterator) (hr : Reached bmi s (Supported keys s) it) (q : Bytes) (hq : Supported keys s q) (more : Bytes → Bool) (steps : Nat) :
    ∃ it' l n, (do let x ← Cnt.seek bmi s it q; walk bmi s more steps x.1 : Cnt (Iterator × List Bytes)) 0 = some ((it', l), n) ∧
      (it'.valid = false → n ≤ 603 * q.length + 287 * (l.map List.length).sum + 584 * l.length + 329) ∧
      ∀ y, it'.key = some y → n ≤ 603 * q.length + 287 * (l.map List.length).sum + 584 * l.length + 278 * y.length + 885 := by
  obtain ⟨ht, B⟩ := the_built hhr hin hs
  have hready := (reached_roam hin B (reached_any hr)).ready
  obtain ⟨it1, b, e, -⟩ := B.r_seek bmi rfl q hready
  obtain ⟨n, h1, h2⟩ := (Cnt.cost_seek B.close B.near bmi it hready.p q 0).2 _ e
  dsimp only at h1
  obtain ⟨it', l, k, h3, h4, h5⟩ := walk_cost hin B bmi more steps it1 (0 + n) (.seek hq hr e)
  have hroam' := reached_roam hin B (reached_any h4)
  refine ⟨it', l, 0 + n + k, ?_, fun hv => ?_, fun y hy => ?_⟩
  · show StateT.bind _ _ _ = _
    unfold StateT.bind
    rw [h2]
    exact h3
  · have := paid_done (roam_done hroam' hv)
    omega
  · have := paid_key hy (roam_part hroam')
    omega

/-! ### Examples -/

/-- The height does not matter: in a filter of 20 levels the searches for "a", "b" and "y" read 11, 5 and 10 elements, and a search for "z", running out, 8. -/
theorem C99_example : (build (fun _ => 0) true (newBuilder 1 0 0) ((List.range 20).map (fun n => List.replicate (n + 1) 97) ++ [[120], [121]]) (List.replicate 22 [0]) 10000).bind (fun s =>
    (readSeeks s [[97], [98], [121], [122]]).map fun l => ((s.ld.height, s.ls.sparseLevels), l)) =
    some ((19, 1), [([97], 11), ([120], 5), ([121], 10), ([], 8)]) := by
  decide +kernel

/-- A search for the range from "aab" to "y" in a filter with the keys "a", "aa", …, "w", "x" and "y" shows "w" and "x", stops at "y" and reads 31 elements. -/
theorem C99_example_range : (build (fun _ => 0) true (newBuilder 1 0 0) ((List.range 20).map (fun n => List.replicate (n + 1) 97) ++ [[119], [120], [121]]) (List.replicate 23 [0]) 10000).bind (fun s =>
    ((do let x ← Cnt.seek true s s.newIterator [97, 97, 98]; walk true s (fun k => k < [121]) 100 x.1 : Cnt (Iterator × List Bytes)) 0).map fun y => (y.1.1.valid, y.1.2, y.2)) = some (true, [[119], [120]], 31) := by
  decide +kernel

end Surf.Props
