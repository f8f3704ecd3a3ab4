import Verif.Surf.ReadsScan
import Verif.Props.SurfReadsPrev

/-!
# Property C98: what a scan reads

`Cnt.next` and `Cnt.prev` are `Next` and `Prev` with a counter of the elements they read from the arrays of the filter (Surf/ReadsIter.lean, Surf/ReadsPrev.lean).
-/

set_option linter.unusedSimpArgs false

namespace Surf.Props

theorem at_steep {t0 : Grp} {cut h : Nat} {it : Iterator} {b : List KV} {x : KV} (ha : At t0 cut h it b x) : Cnt.Steep it := by
  obtain ⟨W, t, ip, i, iq, hs, -⟩ := ha
  exact hs.steep

theorem paid_key {it : Iterator} {k : Bytes} (hk : it.key = some k) (hs : it.d.isComplete = true → it.s.valid = false) : Cnt.itPaid it ≤ 278 * k.length + 556 := by
  have := itLen_key hk hs
  unfold Cnt.itLen at this
  unfold Cnt.itPaid Cnt.dPaid Cnt.sPaid
  omega

theorem paid_done {cut h : Nat} {it : Iterator} (hd : Done cut h it) : Cnt.itPaid it = 0 := by
  have := itLen_done hd
  unfold Cnt.itLen at this
  unfold Cnt.itPaid Cnt.dPaid Cnt.sPaid
  omega

theorem form_len (keys : List Bytes) (y : Bytes) : (form keys y).length ≤ y.length := by
  unfold form
  rw [List.length_take]
  omega

/-! ### C98 -/

/-- **C98.** On an iterator of a built filter that stands on a key `x`, wherever calls have left it without a search that goes astray (`Supported`, see C28), `Next` reads at most nine elements for each byte of `x` and 28 more
if it runs out, and at most 278 more for each byte of the key it gets to and 556 more if it does not: neither the number of keys nor the height of the filter matters. -/
theorem C98_next (fp : Bytes → Word) (bmi : Bool) (vs h r : Nat) (hhr : h + r ≤ 64) (keys vals : List Bytes) (hin : Input vs keys vals) (hint : Int) (s : SuRF)
    (hs : build fp bmi (newBuilder vs h r) keys vals hint = some s) (it : Iterator) (hr : Reached bmi s (Supported keys s) it) (hv : it.valid = true) (x : Bytes) (hx : it.key = some x) :
    ∃ it' n, it.next bmi s = some it' ∧ Cnt.next bmi s it 0 = some (it', n) ∧
      (it'.valid = false → n ≤ 9 * x.length + 28) ∧ ∀ y, it'.key = some y → n ≤ 9 * x.length + 278 * y.length + 584 := by
  obtain ⟨ht, B⟩ := the_built hhr hin hs
  have hroam := reached_roam hin B (reached_any hr)
  obtain ⟨it', e, hroam'⟩ := B.r_next bmi hroam
  have hst : Cnt.Steep it := by
    rcases reached_inv hin B hr with ⟨b, y, ha⟩ | hd
    · exact at_steep ha
    · rw [hd.valid] at hv
      cases hv
  have hl := itLen_key hx (roam_part hroam)
  unfold Cnt.itLen at hl
  obtain ⟨n, h1, h2⟩ := (Cnt.cost_next B.close B.near bmi it hst hroam.ready.p 0).2 _ e
  rw [Nat.zero_add] at h2
  refine ⟨it', n, e, h2, fun hv => ?_, fun k hk => ?_⟩
  · have := paid_done (roam_done hroam' hv)
    omega
  · have := paid_key hk (roam_part hroam')
    omega

/-- **C98.** The same for `Prev`, where it does not panic (see C59), with ten elements for each byte of `x`. -/
theorem C98_prev (fp : Bytes → Word) (bmi : Bool) (vs h r : Nat) (hhr : h + r ≤ 64) (keys vals : List Bytes) (hin : Input vs keys vals) (hint : Int) (s : SuRF)
    (hs : build fp bmi (newBuilder vs h r) keys vals hint = some s) (h32 : s.ld.height < 2 ^ 32) (it it' : Iterator) (hr : Reached bmi s (Supported keys s) it) (hv : it.valid = true) (x : Bytes) (hx : it.key = some x)
    (hp : it.prev bmi s = some it') :
    ∃ n, Cnt.prev bmi s it 0 = some (it', n) ∧ (it'.valid = false → n ≤ 10 * x.length + 30) ∧ ∀ y, it'.key = some y → n ≤ 10 * x.length + 278 * y.length + 586 := by
  obtain ⟨ht, B⟩ := the_built hhr hin hs
  have hroam := reached_roam hin B (reached_any hr)
  have hroam' := reached_roam hin B (.prev h32 (reached_any hr) hp)
  have hst : Cnt.Steep it := by
    rcases reached_inv hin B hr with ⟨b, y, ha⟩ | hd
    · exact at_steep ha
    · rw [hd.valid] at hv
      cases hv
  have hl := itLen_key hx (roam_part hroam)
  unfold Cnt.itLen at hl
  obtain ⟨n, h1, h2⟩ := (Cnt.cost_prev B.close B.behind h32 bmi it hst hroam.ready.p 0).2 _ hp
  rw [Nat.zero_add] at h2
  refine ⟨n, h2, fun hv => ?_, fun k hk => ?_⟩
  · have := paid_done (roam_done hroam' hv)
    omega
  · have := paid_key hk (roam_part hroam')
    omega

/-- `for it.Valid() { it.Next() }`, at most `n` times, counting the reads -/
def runOut (bmi : Bool) (s : SuRF) : Nat → Iterator → Cnt Iterator
  | 0, it => pure it
  | n + 1, it => if it.valid then do
      let it ← Cnt.next bmi s it
      runOut bmi s n it
    else pure it

theorem run_at {fp : Bytes → Word} {vs h r ht : Nat} {keys vals : List Bytes} {s : SuRF} (hin : Input vs keys vals) (B : Built (newBuilder vs h r) fp s ⟨keys.zip vals, 0⟩ s.ld.height ht) (bmi : Bool) :
    ∀ (c : List KV) (n : Nat) (it : Iterator) (b : List KV) (x : KV) (start : Nat), c.length < n → At ⟨keys.zip vals, 0⟩ s.ld.height ht it b x → keys.zip vals = b ++ x :: c →
    ∃ it' k, runOut bmi s n it start = some (it', start + k) ∧ it'.valid = false ∧ k ≤ 9 * x.1.length + 287 * (c.map (·.1.length)).sum + 584 * (c.length + 1) := by
  intro c
  induction c with
  | nil =>
    intro n it b x start hn ha ec
    obtain ⟨n, rfl⟩ : ∃ m, n = m + 1 := ⟨n - 1, by simp at hn; omega⟩
    obtain ⟨it', e, hnx⟩ := B.i_next bmi ha
    have hkx := (at_read hin B ha).2.1
    have hl := itLen_key hkx (roam_part (ha.roam B))
    have hf := form_len keys x.1
    unfold Cnt.itLen at hl
    obtain ⟨k, h1, h2⟩ := (Cnt.cost_next B.close B.near bmi it (at_steep ha) ha.ready.p start).2 _ e
    have hd : Done s.ld.height ht it' := by
      rcases hnx with ⟨-, hd⟩ | ⟨y, hy⟩
      · exact hd
      · exfalso
        obtain ⟨c', ec'⟩ := hy.split
        have ec' : keys.zip vals = b ++ [x] ++ y :: c' := ec'
        rw [ec] at ec'
        have := congrArg List.length ec'
        simp at this
    have hp := paid_done hd
    refine ⟨it', k, ?_, hd.valid, by simp; omega⟩
    unfold runOut
    rw [if_pos ha.valid]
    show StateT.bind _ _ _ = _
    unfold StateT.bind
    rw [h2]
    show runOut bmi s n it' _ = _
    cases n with
    | zero => rfl
    | succ n =>
      unfold runOut
      rw [hd.valid]
      rfl
  | cons y c ih =>
    intro n it b x start hn ha ec
    obtain ⟨n, rfl⟩ : ∃ m, n = m + 1 := ⟨n - 1, by simp at hn; omega⟩
    obtain ⟨it', e, hnx⟩ := B.i_next bmi ha
    have hkx := (at_read hin B ha).2.1
    have hl := itLen_key hkx (roam_part (ha.roam B))
    have hf := form_len keys x.1
    unfold Cnt.itLen at hl
    obtain ⟨k, h1, h2⟩ := (Cnt.cost_next B.close B.near bmi it (at_steep ha) ha.ready.p start).2 _ e
    obtain ⟨y', hy⟩ : ∃ y, At ⟨keys.zip vals, 0⟩ s.ld.height ht it' (b ++ [x]) y := by
      rcases hnx with ⟨hd, -⟩ | hy
      · exfalso
        have hd : b ++ [x] = keys.zip vals := hd
        rw [ec] at hd
        have := congrArg List.length hd
        simp at this
      · exact hy
    obtain ⟨c', ec'⟩ := hy.split
    have ec' : keys.zip vals = b ++ [x] ++ y' :: c' := ec'
    have ecc : y' = y ∧ c' = c := by
      rw [ec] at ec'
      have : b ++ [x] ++ (y :: c) = b ++ [x] ++ y' :: c' := by simpa using ec'
      have := List.append_cancel_left this
      simp at this
      exact ⟨this.1.symm, this.2.symm⟩
    obtain ⟨rfl, rfl⟩ := ecc
    have hky := (at_read hin B hy).2.1
    have hp := paid_key hky (roam_part (hy.roam B))
    have hg := form_len keys y'.1
    obtain ⟨it'', k', h3, h4, h5⟩ := ih n it' (b ++ [x]) y' (start + k) (by simp at hn; omega) hy ec'
    refine ⟨it'', k + k', ?_, h4, by simp only [List.map_cons, List.sum_cons, List.length_cons]; omega⟩
    unfold runOut
    rw [if_pos ha.valid]
    show StateT.bind _ _ _ = _
    unfold StateT.bind
    rw [h2]
    show runOut bmi s n it' _ = _
    rw [h3, Nat.add_assoc]

/-- **C98.** A scan from wherever the iterator is to the end, whatever the calls before, as long as no search went astray, reads at most 287 elements for each byte of the stored keys and 584 for each key. -/
theorem C98_scan (fp : Bytes → Word) (bmi : Bool) (vs h r : Nat) (hhr : h + r ≤ 64) (keys vals : List Bytes) (hin : Input vs keys vals) (hint : Int) (s : SuRF)
    (hs : build fp bmi (newBuilder vs h r) keys vals hint = some s) (it : Iterator) (hr : Reached bmi s (Supported keys s) it) :
    ∃ it' n, runOut bmi s keys.length it 0 = some (it', n) ∧ it'.valid = false ∧ n ≤ 287 * (keys.map List.length).sum + 584 * keys.length := by
  obtain ⟨ht, B⟩ := the_built hhr hin hs
  rcases reached_inv hin B hr with ⟨b, x, ha⟩ | hd
  · obtain ⟨c, ec⟩ := ha.split
    have ec : keys.zip vals = b ++ x :: c := ec
    have hle : (keys.zip vals).length ≤ keys.length := by rw [List.length_zip]; omega
    have hcl := congrArg List.length ec
    rw [List.length_append, List.length_cons] at hcl
    obtain ⟨it', k, h1, h2, h3⟩ := run_at hin B bmi c keys.length it b x 0 (by omega) ha ec
    rw [Nat.zero_add] at h1
    refine ⟨it', k, h1, h2, ?_⟩
    have hsum : ((keys.zip vals).map (·.1.length)).sum ≤ (keys.map List.length).sum := by
      have : ∀ (ks : List Bytes) (vs : List Bytes), ((ks.zip vs).map (·.1.length)).sum ≤ (ks.map List.length).sum := by
        intro ks
        induction ks with
        | nil => intro vs; simp
        | cons k ks ih =>
          intro vs
          cases vs with
          | nil => simp
          | cons v vs =>
            have := ih vs
            simp only [List.zip_cons_cons, List.map_cons, List.sum_cons]
            omega
      exact this keys vals
    rw [ec, List.map_append, List.sum_append, List.map_cons, List.sum_cons] at hsum
    have h3 : k ≤ 9 * x.1.length + 287 * (c.map (fun x : Bytes × Bytes => x.1.length)).sum + 584 * (c.length + 1) := h3
    omega
  · refine ⟨it, 0, ?_, hd.valid, Nat.zero_le _⟩
    cases keys.length with
    | zero => rfl
    | succ n =>
      unfold runOut
      rw [hd.valid]
      rfl

/-! ### Examples -/

/-- A scan over five keys, two of them of more than 300 bytes, reads 328 elements. -/
theorem C98_example : (build (fun _ => 0) true (newBuilder 1 0 0) [[97, 98], [97, 99], 98 :: List.replicate 300 107, 98 :: List.replicate 301 107, [108]] [[0], [1], [2], [3], [4]] 10000).bind (fun s =>
    (s.newIterator.seek true s []).bind fun x => (runOut true s 5 x.1 0).map fun y => (x.1.valid, y.1.valid, y.2)) = some (true, false, 328) := by
  decide +kernel

/-- The height does not matter: in a filter of 20 levels `Next` from "x" to "y" reads two elements, and five to run out. -/
theorem C98_example_high : (build (fun _ => 0) true (newBuilder 1 0 0) ((List.range 20).map (fun n => List.replicate (n + 1) 97) ++ [[120], [121]]) (List.replicate 22 [0]) 10000).bind (fun s =>
    (s.newIterator.seek true s [120]).bind fun x => (readRun s 2 x.1).map fun l => ((s.ld.height, s.ls.sparseLevels), l)) = some ((19, 1), [([121], 2), ([], 5)]) := by
  decide +kernel

end Surf.Props
