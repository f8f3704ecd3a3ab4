import Verif.Props.SurfRange

/-!
# Property C108: `Prev` and `Next` undo each other
-/

set_option linter.unusedSimpArgs false

namespace Surf.Props

/-- The two iterators show the same from here on: key, value, and all that a loop with `Next` shows. -/
def SameView (bmi : Bool) (s : SuRF) (a b : Iterator) : Prop :=
  a.valid = b.valid ∧ a.key = b.key ∧ a.value s = b.value s ∧ ∀ (more : Bytes → Bool) (n : Nat), rangeLoop bmi s more n a = rangeLoop bmi s more n b

section
variable {fp : Bytes → Word} {vs h r ht : Nat} {keys vals : List Bytes} {s : SuRF}

theorem same_view (hin : Input vs keys vals) (B : Built (newBuilder vs h r) fp s ⟨keys.zip vals, 0⟩ s.ld.height ht) (bmi : Bool) {a b : Iterator} {l : List KV} {y : KV} (ha : At ⟨keys.zip vals, 0⟩ s.ld.height ht a l y)
    (hb : At ⟨keys.zip vals, 0⟩ s.ld.height ht b l y) : SameView bmi s a b := by
  obtain ⟨a1, a2, a3⟩ := at_read hin B ha
  obtain ⟨b1, b2, b3⟩ := at_read hin B hb
  obtain ⟨c, ec⟩ := ha.split
  refine ⟨a1.trans b1.symm, a2.trans b2.symm, a3.trans b3.symm, fun more n => ?_⟩
  rw [range_at hin B bmi more n a l y c ha ec, range_at hin B bmi more n b l y c hb ec]

end

/-- **C108.** If `Prev`, on an iterator after any calls of which no search went astray, leaves it valid, `Next` goes back to where it was. -/
theorem C108_prev_next (fp : Bytes → Word) (bmi : Bool) (vs h r : Nat) (hhr : h + r ≤ 64) (keys vals : List Bytes) (hin : Input vs keys vals) (hint : Int) (s : SuRF)
    (hs : build fp bmi (newBuilder vs h r) keys vals hint = some s) (h32 : s.ld.height < 2 ^ 32) (it it' : Iterator) (hr : Reached bmi s (Supported keys s) it) (hv : it.valid = true)
    (hp : it.prev bmi s = some it') (hv' : it'.valid = true) : ∃ it'', it'.next bmi s = some it'' ∧ SameView bmi s it'' it := by
  obtain ⟨ht, B⟩ := the_built hhr hin hs
  rcases reached_inv hin B hr with ⟨b, y, ha⟩ | hd
  · have hne : s.ld.height = 0 ∨ y.1.length ≠ (⟨keys.zip vals, 0⟩ : Grp).bd := by
      rcases Nat.eq_zero_or_pos s.ld.height with h0 | hc
      · exact .inl h0
      · refine .inr fun hl => ?_
        rw [B.i_prev_end bmi ha hc h32 hl] at hp
        cases hp
    obtain ⟨it1, e1, h1⟩ := B.i_prev bmi ha hne
    rw [e1] at hp
    cases hp
    rcases h1 with ⟨-, h1⟩ | ⟨b', z, rfl, -, h1⟩
    · rw [h1.valid] at hv'
      cases hv'
    · obtain ⟨it2, e2, h2⟩ := B.i_next bmi h1
      refine ⟨it2, e2, ?_⟩
      obtain ⟨c, ec⟩ := ha.split
      rcases h2 with ⟨h2, -⟩ | ⟨w, h2⟩
      · rw [ec] at h2
        have := congrArg List.length h2
        simp at this
      · obtain ⟨c', ec'⟩ := h2.split
        have := List.append_cancel_left (ec'.symm.trans ec)
        cases this
        exact same_view hin B bmi h2 ha
  · rw [hd.valid] at hv
    cases hv

/-- **C108.** If `Next`, on a valid iterator after such calls, leaves it valid, `Prev` does not panic, and goes back to where it was if this key is in reach of `Prev` from the next one (see C53), as it always is in a filter without
dense levels; else it leaves the iterator invalid. -/
theorem C108_next_prev (fp : Bytes → Word) (bmi : Bool) (vs h r : Nat) (hhr : h + r ≤ 64) (keys vals : List Bytes) (hin : Input vs keys vals) (hint : Int) (s : SuRF)
    (hs : build fp bmi (newBuilder vs h r) keys vals hint = some s) (it it' : Iterator) (hr : Reached bmi s (Supported keys s) it) (hv : it.valid = true)
    (hp : it.next bmi s = some it') (hv' : it'.valid = true) :
    ∃ k k' it'', k ∈ keys ∧ k' ∈ keys ∧ it.key = some (form keys k) ∧ it'.key = some (form keys k') ∧ k < k' ∧ it'.prev bmi s = some it'' ∧
      (backTo keys s.ld.height k' k = true ∧ SameView bmi s it'' it ∨ backTo keys s.ld.height k' k = false ∧ it''.valid = false) := by
  obtain ⟨ht, B⟩ := the_built hhr hin hs
  rcases reached_inv hin B hr with ⟨b, y, ha⟩ | hd
  · obtain ⟨it1, e1, h1⟩ := B.i_next bmi ha
    rw [e1] at hp
    cases hp
    rcases h1 with ⟨-, h1⟩ | ⟨z, h1⟩
    · rw [h1.valid] at hv'
      cases hv'
    · obtain ⟨c, ec⟩ := h1.split
      have ec : keys.zip vals = b ++ [y] ++ z :: c := ec
      have hsort : (b ++ [y] ++ z :: c).Pairwise (fun a b => a.1 < b.1) := by
        rw [← ec]
        exact hin.kvs.sorted
      have hlt : y.1 < z.1 := (List.pairwise_append.mp hsort).2.2 y (by simp) z (by simp)
      have hy : y ∈ keys.zip vals := by rw [ec]; simp
      have hz : z ∈ keys.zip vals := by rw [ec]; simp
      have hne : s.ld.height = 0 ∨ z.1.length ≠ (⟨keys.zip vals, 0⟩ : Grp).bd := by
        rcases Nat.eq_zero_or_pos s.ld.height with h0 | hc
        · exact .inl h0
        · refine .inr fun hl => ?_
          have := (prefix_all hin B.root (root_two B hc) (x := z) hz).mp hl y.1 (List.of_mem_zip hy).1
          exact absurd hlt (List.not_lt.mpr (prefix_le this))
      obtain ⟨it2, e2, h2⟩ := B.i_prev bmi h1 hne
      refine ⟨y.1, z.1, it2, (List.of_mem_zip hy).1, (List.of_mem_zip hz).1, (at_read hin B ha).2.1, (at_read hin B h1).2.1, hlt, e2, ?_⟩
      rcases h2 with ⟨hf, h2⟩ | ⟨b', w, eb, hf, h2⟩
      · refine .inr ⟨?_, h2.valid⟩
        rw [← Bool.not_eq_true, backTo_free hin B z y]
        exact hf y (by simp)
      · obtain ⟨rfl, hw⟩ := List.append_inj' eb rfl
        cases hw
        exact .inl ⟨(backTo_free hin B z y).mpr hf, same_view hin B bmi h2 ha⟩
  · rw [hd.valid] at hv
    cases hv

/-! ### Examples -/

/-- In a filter with dense levels and the keys "ab", "ac", "b" and "bd": from "ac", `Prev` goes to "ab" and `Next` back to "ac"; `Next` goes to "b" and `Prev` back to "ac". -/
theorem C108_example : (build (fun _ => 0) true (newBuilder 1 0 0) [[97, 98], [97, 99], [98], [98, 100]] [[0], [1], [2], [3]] 10000).bind (fun s =>
    (s.newIterator.seek true s [97, 99]).bind fun x => (x.1.prev true s).bind fun p => (p.next true s).bind fun pn => (x.1.next true s).bind fun n => (n.prev true s).map fun np =>
    ([x.1.key, p.key, pn.key, n.key, np.key], [pn.value s, np.value s])) =
    some ([some [97, 99], some [97, 98], some [97, 99], some [98], some [97, 99]], [some [1], some [1]]) := by
  decide +kernel

/-- `Prev` may not find the way back: the keys are "\x00a", "\x00b" and "b", `Next` goes from the second to the third, and `Prev` leaves the iterator invalid. -/
theorem C108_witness : (build (fun _ => 0) true (newBuilder 1 0 0) [[0, 97], [0, 98], [98]] [[0], [1], [2]] 10000).bind (fun s =>
    (s.newIterator.seek true s [0, 98]).bind fun x => (x.1.next true s).bind fun n => (n.prev true s).map fun np => ([x.1.valid, n.valid, np.valid], [x.1.key, n.key], s.ld.height)) =
    some ([true, true, false], [some [0, 98], some [98]], 1) := by
  decide +kernel

end Surf.Props
