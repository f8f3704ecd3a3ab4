import Verif.Props.SurfOverlap

/-!
# Property C101: what a loop over a range shows

A client that wants the keys from `q` on as long as a condition holds calls `Seek(q)` and then `Next`.
-/

set_option linter.unusedSimpArgs false

namespace Surf.Props

/-! ### C101 -/

/-- `for it.Valid() && more(it.Key()) { use(it.Key(), it.Value()); it.Next() }`, at most `n` times; `none` if a call panics -/
def rangeLoop (bmi : Bool) (s : SuRF) (more : Bytes → Bool) : Nat → Iterator → Option (List (Bytes × Bytes))
  | 0, _ => some []
  | n + 1, it => if it.valid then do
      let k ← it.key
      if more k then do
        let v ← it.value s
        let it ← it.next bmi s
        let l ← rangeLoop bmi s more n it
        return (k, v) :: l
      else return []
    else return []

theorem range_done {bmi : Bool} {s : SuRF} {more : Bytes → Bool} {n : Nat} {it : Iterator} (hv : it.valid = false) : rangeLoop bmi s more n it = some [] := by
  cases n with
  | zero => rfl
  | succ n =>
    unfold rangeLoop
    rw [hv]
    rfl

theorem range_at {fp : Bytes → Word} {vs h r ht : Nat} {keys vals : List Bytes} {s : SuRF} (hin : Input vs keys vals) (B : Built (newBuilder vs h r) fp s ⟨keys.zip vals, 0⟩ s.ld.height ht) (bmi : Bool) (more : Bytes → Bool) :
    ∀ (n : Nat) (it : Iterator) (b : List KV) (x : KV) (c : List KV), At ⟨keys.zip vals, 0⟩ s.ld.height ht it b x → keys.zip vals = b ++ x :: c →
    rangeLoop bmi s more n it = some ((((x :: c).map (shown keys vs)).takeWhile (fun y => more y.1)).take n) := by
  intro n
  induction n with
  | zero => intros; rfl
  | succ n ih =>
    intro it b x c ha ec
    obtain ⟨r1, r2, r3⟩ := at_read hin B ha
    unfold rangeLoop
    rw [if_pos r1, r2]
    simp only [Option.bind_eq_bind, Option.bind_some, List.map_cons]
    by_cases hm : more (form keys x.1) = true
    · rw [if_pos hm, r3, List.takeWhile_cons, if_pos (show more (shown keys vs x).1 = true from hm), List.take_succ_cons]
      obtain ⟨it', e, hnx⟩ := B.i_next bmi ha
      simp only [Option.bind_some, e]
      have hrest : rangeLoop bmi s more n it' = some (((c.map (shown keys vs)).takeWhile (fun y => more y.1)).take n) := by
        rcases hnx with ⟨hd, hd'⟩ | ⟨y, hy⟩
        · have hd : b ++ [x] = keys.zip vals := hd
          rw [ec] at hd
          have hc : c = [] := by
            have := congrArg List.length hd
            simp at this
            exact this
          subst hc
          rw [range_done hd'.valid]
          simp
        · obtain ⟨c', ec'⟩ := hy.split
          have ec' : keys.zip vals = b ++ [x] ++ y :: c' := ec'
          have hc : c = y :: c' := by
            rw [ec] at ec'
            have : b ++ [x] ++ c = b ++ [x] ++ y :: c' := by simpa using ec'
            exact List.append_cancel_left this
          subst hc
          exact ih it' (b ++ [x]) y c' hy ec'
      rw [hrest]
      rfl
    · rw [if_neg hm, List.takeWhile_cons, if_neg (show ¬ more (shown keys vs x).1 = true from hm)]
      rfl

/-- **C101.** After `Seek(q)` for a supported search, on an iterator after any calls, a loop over the keys as long as they are wanted does not panic and shows exactly: of the stored pairs whose key `q` does not pass over (see C55),
in their order, those in front of the first one that is not wanted. -/
theorem C101_range (fp : Bytes → Word) (bmi : Bool) (vs h r : Nat) (hhr : h + r ≤ 64) (keys vals : List Bytes) (hin : Input vs keys vals) (hint : Int) (s : SuRF)
    (hs : build fp bmi (newBuilder vs h r) keys vals hint = some s) (it : Iterator) (hr : Reached bmi s (Supported keys s) it) (q : Bytes) (he : Supported keys s q) (more : Bytes → Bool) (n : Nat) :
    ∃ it' fl, it.seek bmi s q = some (it', fl) ∧
      rangeLoop bmi s more n it' = some (((((keys.zip vals).filter (fun kv => ¬ PassedBy keys r q kv.1)).map (shown keys vs)).takeWhile (fun y => more y.1)).take n) := by
  obtain ⟨ht, B⟩ := the_built hhr hin hs
  have hready := inv_ready (reached_inv hin B hr)
  obtain ⟨it', fl, b, a1, ⟨hb, c, ec, hc⟩, a2⟩ := B.i_seek bmi rfl q (he.clear hin B) hready
  have ec : keys.zip vals = b ++ c := ec
  have hfil : (keys.zip vals).filter (fun kv => ¬ PassedBy keys r q kv.1) = c := by
    rw [ec, List.filter_append, List.filter_eq_nil_iff.mpr, List.filter_eq_self.mpr, List.nil_append]
    · intro x hx
      exact decide_eq_true ((passed_by hhr hin B).2 (hc x hx))
    · intro x hx
      simpa using (passed_by hhr hin B).1 (hb x hx)
  refine ⟨it', fl, a1, ?_⟩
  rw [hfil]
  rcases a2 with ⟨hbe, a2⟩ | ⟨y, a2⟩
  · have hbe : b = keys.zip vals := hbe
    have hcn : c = [] := by
      rw [hbe] at ec
      have := congrArg List.length ec
      simp only [List.length_append] at this
      exact List.length_eq_zero_iff.mp (by omega)
    rw [hcn, range_done a2.valid]
    simp
  · obtain ⟨c', ec'⟩ := a2.split
    have ec' : keys.zip vals = b ++ y :: c' := ec'
    have hcc : c = y :: c' := List.append_cancel_left (ec.symm.trans ec')
    rw [hcc]
    exact range_at hin B bmi more n it' b y c' a2 ec'

/-- **C101.** No key of a range is missed: with hash suffixes of any length and real suffixes as in C27, after `Seek(start)` a loop as long as the key shown is less than `stop`, given enough rounds, shows every stored key from
`start` to `stop` with its value. -/
theorem C101_complete (fp : Bytes → Word) (bmi : Bool) (vs h r : Nat) (hhr : h + r ≤ 64) (h16 : r < 16) (keys vals : List Bytes) (hlong : LongKeys keys r) (hin : Input vs keys vals) (hint : Int) (s : SuRF)
    (hs : build fp bmi (newBuilder vs h r) keys vals hint = some s) (it : Iterator) (hr : Reached bmi s (Supported keys s) it) (start stop : Bytes) (he : Supported keys s start) (n : Nat) (hn : keys.length ≤ n) :
    ∃ it' fl l, it.seek bmi s start = some (it', fl) ∧ rangeLoop bmi s (fun k => k < stop) n it' = some l ∧
      ∀ k v, (k, v) ∈ keys.zip vals → start ≤ k → k < stop → (form keys k, v.take vs) ∈ l := by
  obtain ⟨ht, B⟩ := the_built hhr hin hs
  have hready := inv_ready (reached_inv hin B hr)
  obtain ⟨it', fl, b, a1, ⟨hb, c, ec, hc⟩, a2⟩ := B.i_seek bmi rfl start (he.clear hin B) hready
  have ec : keys.zip vals = b ++ c := ec
  have hloop : rangeLoop bmi s (fun k => k < stop) n it' = some (((c.map (shown keys vs)).takeWhile (fun y => decide (y.1 < stop))).take n) := by
    rcases a2 with ⟨hbe, a2⟩ | ⟨y, a2⟩
    · have hbe : b = keys.zip vals := hbe
      have hcn : c = [] := by
        rw [hbe] at ec
        have := congrArg List.length ec
        simp only [List.length_append] at this
        exact List.length_eq_zero_iff.mp (by omega)
      rw [hcn, range_done a2.valid]
      simp
    · obtain ⟨c', ec'⟩ := a2.split
      have ec' : keys.zip vals = b ++ y :: c' := ec'
      have hcc : c = y :: c' := List.append_cancel_left (ec.symm.trans ec')
      rw [hcc]
      exact range_at hin B bmi _ n it' b y c' a2 ec'
  refine ⟨it', fl, _, a1, hloop, fun k v hm h1 h2 => ?_⟩
  have hlen : c.length ≤ n := by
    have := congrArg List.length ec
    rw [List.length_zip, List.length_append] at this
    omega
  rw [List.take_of_length_le (by
    refine Nat.le_trans (List.takeWhile_sublist _).length_le ?_
    rw [List.length_map]
    exact hlen)]
  have hmc : (k, v) ∈ c := by
    rw [ec, List.mem_append] at hm
    rcases hm with hm | hm
    · have : k < start := Passed.lt B.root B.cfgok h16 (hlong.roomy hin B) (hb _ hm)
      exact absurd this (List.not_lt.mpr h1)
    · exact hm
  obtain ⟨c1, c2, e⟩ := List.append_of_mem hmc
  have hsort : (c1 ++ (k, v) :: c2).Pairwise (fun x y => x.1 < y.1) := by
    have hs := hin.kvs.sorted
    have : (keys.zip vals).Pairwise (fun x y => x.1 < y.1) := hs
    rw [ec, e] at this
    exact (List.pairwise_append.mp this).2.1
  have hbelow : ∀ x ∈ c1 ++ [(k, v)], (shown keys vs x).1 < stop := by
    intro x hx
    have hle : form keys x.1 ≤ x.1 := prefix_le (List.take_prefix _ _)
    rw [List.mem_append] at hx
    rcases hx with hx | hx
    · have := (List.pairwise_append.mp hsort).2.2 x hx (k, v) (by simp)
      exact List.lt_of_le_of_lt hle (List.lt_trans this h2)
    · rw [List.mem_singleton] at hx
      subst hx
      exact List.lt_of_le_of_lt hle h2
  rw [e, show c1 ++ (k, v) :: c2 = (c1 ++ [(k, v)]) ++ c2 by simp, List.map_append, List.takeWhile_append_of_pos]
  · rw [List.mem_append]
    left
    rw [List.mem_map]
    exact ⟨(k, v), by simp, rfl⟩
  · intro y hy
    rw [List.mem_map] at hy
    obtain ⟨x, hx, rfl⟩ := hy
    exact decide_eq_true (hbelow x hx)

/-! ### Examples -/

/-- A loop from "b" to "d" over six keys shows three of them, as far as they are kept, with their values; one without a condition and limited to two rounds the first two of these. (No key is a prefix of another, so every search is supported.) -/
theorem C101_example : (build (fun _ => 0) true (newBuilder 1 0 0) [[97, 98], [98, 1], [98, 2, 7], [99], [100, 5], [100, 6]] [[0], [1], [2], [3], [4], [5]] 10000).bind (fun s =>
    (s.newIterator.seek true s [98]).bind fun x => (rangeLoop true s (fun k => k < [100]) 10 x.1).bind fun l => (rangeLoop true s (fun _ => true) 2 x.1).map fun l' => (l, l')) =
    some ([([98, 1], [1]), ([98, 2], [2]), ([99], [3])], [([98, 1], [1]), ([98, 2], [2])]) := by
  decide +kernel

end Surf.Props
