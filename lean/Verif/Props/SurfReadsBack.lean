import Verif.Props.SurfReadsFind

/-!
# Property C100: what scans from either end read

`Cnt.seekToFirst`, `Cnt.seekToLast` and `Cnt.prev` are `SeekToFirst`, `SeekToLast` and `Prev` with a counter of the elements they read from the arrays of the filter (Surf/ReadsIter.lean, Surf/ReadsPrev.lean).
-/

set_option linter.unusedSimpArgs false

namespace Surf
namespace Cnt

theorem Behind.cost_last {ld : LoudsDense} (hb : Behind ld) (it : DenseIter) : Grow dCost (dCost it) (dLast ld it) (it.setToLastInRoot ld) 21 :=
  (hb.tally_prev denseFanout).grow (fun p _ => (cost_dAppend ld it p.1).weak (by omega)) (by omega)

theorem cost_seekToFirst {f : SuRF} (hc : Close f.ls) (hn : Near f.ld) (bmi : Bool) (it : Iterator) (hd : 0 < f.ld.height) : Grow itPaid 0 (seekToFirst bmi f it) (it.seekToFirst bmi f) 28 := by
  unfold seekToFirst Iterator.seekToFirst
  dsimp only
  rw [if_pos hd, if_pos hd]
  refine Grow.bind (l := dCost) (N := 22) (M := 6) ((hn.cost_first it.reset.d).weak (Nat.zero_le _)) (fun d _ => ?_) (by omega)
  refine Grow.bind (l := dPaid) (N := 3) (M := 3) (hn.cost_move d) (fun d _ => ?_) (by omega)
  refine grow_ite (fun _ => grow_pure (by unfold itPaid; simp; omega)) (fun _ => ?_)
  exact (cost_into hc bmi { it.reset with d := d }).weak (by unfold itPaid; simp)

theorem cost_seekToLast {f : SuRF} (hc : Close f.ls) (hb : Behind f.ld) (bmi : Bool) (it : Iterator) (hd : 0 < f.ld.height) : Grow itPaid 0 (seekToLast bmi f it) (it.seekToLast bmi f) 27 := by
  unfold seekToLast Iterator.seekToLast
  dsimp only
  rw [if_pos hd, if_pos hd]
  refine Grow.bind (l := dCost) (N := 21) (M := 6) ((hb.cost_last it.reset.d).weak (Nat.zero_le _)) (fun d _ => ?_) (by omega)
  refine Grow.bind (l := dPaid) (N := 3) (M := 3) (hb.cost_move d) (fun d _ => ?_) (by omega)
  refine grow_ite (fun _ => grow_pure (by unfold itPaid; simp; omega)) (fun _ => ?_)
  exact (cost_intoR hc bmi { it.reset with d := d }).weak (by unfold itPaid; simp)

end Cnt

namespace Props

/-! ### C100 -/

/-- **C100.** `SeekToFirst` on a built filter with a dense level, wherever the iterator was, reads at most 278 elements for each byte of the key it gets to and 584 more. -/
theorem C100_first (fp : Bytes → Word) (bmi : Bool) (vs h r : Nat) (hhr : h + r ≤ 64) (keys vals : List Bytes) (hin : Input vs keys vals) (hint : Int) (s : SuRF)
    (hs : build fp bmi (newBuilder vs h r) keys vals hint = some s) (hd : 0 < s.ld.height) (it : Iterator) (hr : Reached bmi s (fun _ => True) it) :
    ∃ it' n k, it.seekToFirst bmi s = some it' ∧ Cnt.seekToFirst bmi s it 0 = some (it', n) ∧ it'.key = some k ∧ n ≤ 278 * k.length + 584 := by
  obtain ⟨ht, B⟩ := the_built hhr hin hs
  have hroam := reached_roam hin B hr
  obtain ⟨ip, i, iq, e0, e1, e2⟩ := first_items B.root
  obtain ⟨it', y, a1, a2⟩ := B.i_first bmi hd hroam.ready e0 e1 e2
  obtain ⟨n, h1, h2⟩ := (Cnt.cost_seekToFirst B.close B.near bmi it hd 0).2 _ a1
  have hk := (at_read hin B a2).2.1
  have := paid_key hk (roam_part (a2.roam B))
  exact ⟨it', n, _, a1, by rw [h2, Nat.zero_add], hk, by omega⟩

/-- **C100.** `SeekToLast` likewise, with 583 in place of 584. -/
theorem C100_last (fp : Bytes → Word) (bmi : Bool) (vs h r : Nat) (hhr : h + r ≤ 64) (keys vals : List Bytes) (hin : Input vs keys vals) (hint : Int) (s : SuRF)
    (hs : build fp bmi (newBuilder vs h r) keys vals hint = some s) (hd : 0 < s.ld.height) (it : Iterator) (hr : Reached bmi s (fun _ => True) it) :
    ∃ it' n k, it.seekToLast bmi s = some it' ∧ Cnt.seekToLast bmi s it 0 = some (it', n) ∧ it'.key = some k ∧ n ≤ 278 * k.length + 583 := by
  obtain ⟨ht, B⟩ := the_built hhr hin hs
  have hroam := reached_roam hin B hr
  obtain ⟨it', b, y, a1, a2, -⟩ := B.i_last bmi hd hroam.ready (root_two B hd)
  obtain ⟨n, h1, h2⟩ := (Cnt.cost_seekToLast B.close B.behind bmi it hd 0).2 _ a1
  have hk := (at_read hin B a2).2.1
  have := paid_key hk (roam_part (a2.roam B))
  exact ⟨it', n, _, a1, by rw [h2, Nat.zero_add], hk, by omega⟩

/-- `for it.Valid() && more(it.Key()) { use(it.Key()); it.Prev() }`, at most `n` times, keeping the keys used and counting the reads -/
def walkBack (bmi : Bool) (s : SuRF) (more : Bytes → Bool) : Nat → Iterator → Cnt (Iterator × List Bytes)
  | 0, it => pure (it, [])
  | n + 1, it => if it.valid then do
      let k ← Cnt.free it.key
      if more k then do
        let it ← Cnt.prev bmi s it
        let r ← walkBack bmi s more n it
        return (r.1, k :: r.2)
      else pure (it, [])
    else pure (it, [])

theorem back_cost {fp : Bytes → Word} {vs h r ht : Nat} {keys vals : List Bytes} {s : SuRF} (hin : Input vs keys vals) (B : Built (newBuilder vs h r) fp s ⟨keys.zip vals, 0⟩ s.ld.height ht) (h32 : s.ld.height < 2 ^ 32)
    (bmi : Bool) (more : Bytes → Bool) : ∀ (n : Nat) (it : Iterator) (start : Nat) (it' : Iterator) (l : List Bytes) (fin : Nat), Reached bmi s (Supported keys s) it → walkBack bmi s more n it start = some ((it', l), fin) →
    Reached bmi s (Supported keys s) it' ∧ Cnt.itPaid it + fin ≤ start + 288 * (l.map List.length).sum + 586 * l.length + Cnt.itPaid it' := by
  intro n
  induction n with
  | zero =>
    intro it start it' l fin hr hw
    cases hw
    exact ⟨hr, by simp; omega⟩
  | succ n ih =>
    intro it start it' l fin hr hw
    unfold walkBack at hw
    by_cases hv : it.valid = true
    · rw [if_pos hv] at hw
      obtain ⟨b, x, ha⟩ : ∃ b x, At ⟨keys.zip vals, 0⟩ s.ld.height ht it b x := by
        rcases reached_inv hin B hr with ha | hd
        · exact ha
        · rw [hd.valid] at hv
          cases hv
      have hk := (at_read hin B ha).2.1
      rw [hk] at hw
      by_cases hm : more (form keys x.1) = true
      · have hroam := ha.roam B
        have hl := itLen_key hk (roam_part hroam)
        have hp := paid_key hk (roam_part hroam)
        unfold Cnt.itLen at hl
        have hc := Cnt.cost_prev B.close B.behind h32 bmi it (at_steep ha) ha.ready.p start
        have hw : (if more (form keys x.1) then (StateT.bind (Cnt.prev bmi s it) fun it => StateT.bind (walkBack bmi s more n it) fun r => (pure (r.1, form keys x.1 :: r.2) : Cnt (Iterator × List Bytes)))
            else (pure (it, []) : Cnt (Iterator × List Bytes))) start = some ((it', l), fin) := hw
        rw [if_pos hm] at hw
        unfold StateT.bind at hw
        cases e : it.prev bmi s with
        | none =>
          rw [hc.1 e] at hw
          cases hw
        | some it1 =>
          obtain ⟨k, h1, h2⟩ := hc.2 _ e
          rw [h2] at hw
          have hw : (do
              let x' ← walkBack bmi s more n it1 (start + k)
              (pure (x'.1.1, form keys x.1 :: x'.1.2) : Cnt (Iterator × List Bytes)) x'.2) = some ((it', l), fin) := hw
          obtain ⟨⟨⟨i2, l2⟩, f2⟩, h3, h4⟩ := Option.bind_eq_some_iff.mp hw
          obtain ⟨h5, h6⟩ := ih it1 (start + k) i2 l2 f2 (.prev h32 hr e) h3
          cases h4
          refine ⟨h5, ?_⟩
          simp only [List.map_cons, List.sum_cons, List.length_cons]
          omega
      · have hw : (if more (form keys x.1) then (StateT.bind (Cnt.prev bmi s it) fun it => StateT.bind (walkBack bmi s more n it) fun r => (pure (r.1, form keys x.1 :: r.2) : Cnt (Iterator × List Bytes)))
            else (pure (it, []) : Cnt (Iterator × List Bytes))) start = some ((it', l), fin) := hw
        rw [if_neg hm] at hw
        cases hw
        exact ⟨hr, by simp; omega⟩
    · rw [if_neg hv] at hw
      cases hw
      exact ⟨hr, by simp; omega⟩

/-- **C100.** From wherever calls have left an iterator of a built filter without a search that goes astray, `Prev` as long as the keys shown are wanted, where no call panics (see C59), reads at most 288 elements for each byte of
the keys shown and wanted and 586 for each of them, and 278 for each byte of the key it stops at, if any, and 556 more. -/
theorem C100_back (fp : Bytes → Word) (bmi : Bool) (vs h r : Nat) (hhr : h + r ≤ 64) (keys vals : List Bytes) (hin : Input vs keys vals) (hint : Int) (s : SuRF)
    (hs : build fp bmi (newBuilder vs h r) keys vals hint = some s) (h32 : s.ld.height < 2 ^ 32) (it : Iterator) (hr : Reached bmi s (Supported keys s) it) (more : Bytes → Bool) (steps : Nat)
    (it' : Iterator) (l : List Bytes) (n : Nat) (hw : walkBack bmi s more steps it 0 = some ((it', l), n)) :
    (it'.valid = false → n ≤ 288 * (l.map List.length).sum + 586 * l.length) ∧ ∀ y, it'.key = some y → n ≤ 288 * (l.map List.length).sum + 586 * l.length + 278 * y.length + 556 := by
  obtain ⟨ht, B⟩ := the_built hhr hin hs
  obtain ⟨h1, h2⟩ := back_cost hin B h32 bmi more steps it 0 it' l n hr hw
  have hroam' := reached_roam hin B (reached_any h1)
  refine ⟨fun hv => ?_, fun y hy => ?_⟩
  · have := paid_done (roam_done hroam' hv)
    omega
  · have := paid_key hy (roam_part hroam')
    omega

/-! ### Examples -/

/-- In a filter of 20 levels with the keys "a", "aa", …, "w", "x" and "y", `SeekToFirst` reads 11 elements and `SeekToLast` five, and a scan from there back to "w" four. -/
theorem C100_example : (build (fun _ => 0) true (newBuilder 1 0 0) ((List.range 20).map (fun n => List.replicate (n + 1) 97) ++ [[119], [120], [121]]) (List.replicate 23 [0]) 10000).bind (fun s =>
    (Cnt.seekToFirst true s s.newIterator 0).bind fun f => (Cnt.seekToLast true s s.newIterator 0).bind fun x => (walkBack true s (fun k => [119] < k) 100 x.1 0).map fun y =>
      ([f.1.key, x.1.key, y.1.1.key], y.1.2, [s.ld.height, s.ls.sparseLevels, f.2, x.2, y.2])) =
    some ([some [97], some [121], some [119]], [[121], [120]], [19, 1, 11, 5, 4]) := by
  decide +kernel

end Props
end Surf
