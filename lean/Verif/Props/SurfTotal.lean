import Verif.Surf.Astray
import Verif.Props.SurfOverlap

/-!
# Property C59: what panics, for every search

`C32_total_partial` and `C55_overlap` are about the searches that `Seek` supports. Behind a key that is a prefix of others, on a sparse level, other searches take a child of another node:
the iterator leaves the way of the key (`C59_witness_astray`). Here nothing is assumed of the searches.
-/

set_option linter.unusedSimpArgs false

namespace Surf.Props

section
variable {fp : Bytes → Word} {bmi : Bool} {vs h r : Nat} {keys vals : List Bytes} {s : SuRF} {ht : Nat}

theorem reached_roam (hin : Input vs keys vals) (B : Built (newBuilder vs h r) fp s ⟨keys.zip vals, 0⟩ s.ld.height ht) {it : Iterator}
    (hr : Reached bmi s (fun _ => True) it) : Roam ⟨keys.zip vals, 0⟩ s.ld.height ht it := by
  generalize hcut : s.ld.height = cut at *
  induction hr with
  | new => exact .inr (.inr ⟨B.newReady, rfl, .inl rfl⟩)
  | @first it0 it1 hr hd hq ih =>
    obtain ⟨ip, i, iq, e, e1, e2⟩ := first_items B.root
    obtain ⟨it', y, a1, a2⟩ := B.i_first bmi (by omega) ih.ready e e1 e2
    rw [hq, Option.some.injEq] at a1
    rw [a1]
    exact a2.roam B
  | @last it0 it1 hr hd hq ih =>
    obtain ⟨it', b, y, a1, a2, -⟩ := B.i_last bmi (by omega) ih.ready (root_two B (by omega))
    rw [hq, Option.some.injEq] at a1
    rw [a1]
    exact a2.roam B
  | @seek it0 it1 q fl hok hr hq ih =>
    obtain ⟨it', fl, a1, a2⟩ := B.r_seek bmi rfl q ih.ready
    rw [hq, Option.some.injEq, Prod.mk.injEq] at a1
    rw [a1.1]
    exact a2
  | next hr hn ih =>
    obtain ⟨it', a1, a2⟩ := B.r_next bmi ih
    rw [hn, Option.some.injEq] at a1
    rw [a1]
    exact a2
  | prev h32 hr hn ih =>
    rcases B.r_prev bmi (by omega) ih with ⟨-, a1⟩ | ⟨it', a1, a2⟩
    · rw [hn] at a1
      simp at a1
    · rw [hn, Option.some.injEq] at a1
      rw [a1]
      exact a2

/-- The key that is a prefix of all others is shown whole. -/
theorem form_whole (hin : Input vs keys vals) (h2 : 2 ≤ (keys.zip vals).length) {y : Bytes} (hall : ∀ z ∈ keys, y <+: z) : form keys y = y := by
  unfold form
  rw [List.take_of_length_le]
  obtain ⟨z, hz, hzy⟩ : ∃ z ∈ keys, z ≠ y := by
    by_contra hcon
    push Not at hcon
    have hnd := hin.kvs.sorted
    match hzz : keys.zip vals, h2 with
    | a :: b :: l, _ =>
      rw [hzz, List.pairwise_cons] at hnd
      have h3 := hnd.1 b (by simp)
      rw [hcon a.1 (List.of_mem_zip (show a ∈ keys.zip vals by rw [hzz]; simp)).1, hcon b.1 (List.of_mem_zip (show b ∈ keys.zip vals by rw [hzz]; simp)).1] at h3
      exact List.lt_irrefl _ h3
  have h4 : y.length ≤ shared keys y := by
    unfold shared
    rw [← lcpLen_prefix (hall z hz)]
    exact le_foldr_max (List.mem_map.mpr ⟨z, List.mem_filter.mpr ⟨hz, by simpa using hzy⟩, rfl⟩)
  omega

/-- On a dense leaf the key is what is kept of a stored one. -/
theorem dleaf_key (hin : Input vs keys vals) (B : Built (newBuilder vs h r) fp s ⟨keys.zip vals, 0⟩ s.ld.height ht) {it : Iterator} {R : List Frame} {t : Grp} {ip iq : List Item} {i : Item}
    (h1 : DLeaf ⟨keys.zip vals, 0⟩ s.ld.height it.d R t ip i iq) : ∃ x ∈ keys.zip vals, i.kvs = [x] ∧ it.key = some (form keys x.1) := by
  have hx := ((h1.way.good B.root).toOK.leafKV (by rw [h1.items]; simp : i ∈ t.items) h1.leaf).1
  have hm : leafKV (t.bd, i) ∈ (⟨keys.zip vals, 0⟩ : Grp).kvs := by
    rw [sbef_kvs h1.way h1.items]
    simp [hx]
  refine ⟨_, hm, hx, ?_⟩
  unfold Iterator.key
  rw [h1.whole, h1.key B rfl hx]
  have := leaf_shared B.root rfl hin.kvs.sorted h1.way h1.items hx
  rw [show (⟨keys.zip vals, 0⟩ : Grp).kvs.map (·.1) = keys from hin.fst] at this
  unfold form
  rw [this]
  rfl

end

/-- **C59**, after any sequence of `Seek`, for any keys, `Next`, `Prev`, and, with a dense level, `SeekToFirst` and `SeekToLast`:
* none of these calls panics, except `Prev` on a key that is a prefix of all keys in a filter with a dense level, which does;
* if the iterator is valid, `Key` and `Value` do not panic, and the value is a stored one. -/
theorem C59_total (fp : Bytes → Word) (bmi : Bool) (vs h r : Nat) (hhr : h + r ≤ 64) (keys vals : List Bytes) (hin : Input vs keys vals) (hint : Int) (s : SuRF)
    (hs : build fp bmi (newBuilder vs h r) keys vals hint = some s) (h32 : s.ld.height < 2 ^ 32) (it : Iterator) (hr : Reached bmi s (fun _ => True) it) :
    (∀ q, ∃ it' fl, it.seek bmi s q = some (it', fl)) ∧ (∃ it', it.next bmi s = some it') ∧
    (0 < s.ld.height → (∃ it', it.seekToFirst bmi s = some it') ∧ ∃ it', it.seekToLast bmi s = some it') ∧
    (it.prev bmi s = none ↔ 0 < s.ld.height ∧ it.valid = true ∧ ∃ k ∈ keys, (∀ y ∈ keys, k <+: y) ∧ it.key = some k) ∧
    (it.valid = true → (∃ k, it.key = some k) ∧ ∃ v ∈ vals, it.value s = some (v.take vs)) := by
  obtain ⟨ht, B⟩ := the_built hhr hin hs
  have hroam := reached_roam hin B hr
  refine ⟨fun q => ?_, ?_, fun hd => ⟨?_, ?_⟩, ⟨fun hn => ?_, ?_⟩, fun hv => ?_⟩
  · obtain ⟨it', fl, a1, -⟩ := B.r_seek bmi rfl q hroam.ready
    exact ⟨it', fl, a1⟩
  · obtain ⟨it', a1, -⟩ := B.r_next bmi hroam
    exact ⟨it', a1⟩
  · obtain ⟨ip, i, iq, e, e1, e2⟩ := first_items B.root
    obtain ⟨it', y, a1, -⟩ := B.i_first bmi hd hroam.ready e e1 e2
    exact ⟨it', a1⟩
  · obtain ⟨it', b, y, a1, -⟩ := B.i_last bmi hd hroam.ready (root_two B hd)
    exact ⟨it', a1⟩
  · rcases B.r_prev bmi h32 hroam with ⟨⟨t, ip, i, iq, a1, a2⟩, -⟩ | ⟨it', a1, -⟩
    · obtain ⟨x, hx, hxi, hkey⟩ := dleaf_key hin B a1
      have hc : 0 < s.ld.height := by
        have := a1.lt
        omega
      have hlen : x.1.length = (⟨keys.zip vals, 0⟩ : Grp).bd := by
        have := ((a1.way.leaf_key B rfl a1.items hxi).2.2 a2).2
        cases a1.way
        exact this
      have hall := (prefix_all hin B.root (root_two B hc) hx).mp hlen
      refine ⟨hc, ?_, x.1, (List.of_mem_zip hx).1, hall, ?_⟩
      · unfold Iterator.valid
        rw [a1.valid, a1.whole]
        rfl
      · rw [hkey, form_whole hin (root_two B hc) hall]
    · rw [hn] at a1
      simp at a1
  · rintro ⟨hc, hv, k, hk, hall, he⟩
    rw [← hin.fst, List.mem_map] at hk
    obtain ⟨kv, hkm, rfl⟩ := hk
    have hlen := (prefix_all hin B.root (root_two B hc) hkm).mpr hall
    rcases hroam.key_long B rfl hc hv he with ⟨⟨R, t, ip, i, iq, a1⟩, a2⟩ | a1
    · obtain ⟨x, hx, hxi, hkey⟩ := dleaf_key hin B a1
      rw [hkey, Option.some.injEq] at he
      have := form_end hin hkm hall hx he
      exact a1.prev_none B bmi h32 a2 hxi (by rw [this]; exact hlen)
    · omega
  · obtain ⟨a1, ⟨x, hx, a2⟩, -⟩ := hroam.read B rfl hv
    exact ⟨a1, x.2, (List.of_mem_zip hx).2, a2⟩

/-- **C59**, `HasOverlap` does not panic, whatever the bounds. -/
theorem C59_overlap (fp : Bytes → Word) (bmi : Bool) (vs h r : Nat) (hhr : h + r ≤ 64) (keys vals : List Bytes) (hin : Input vs keys vals) (hint : Int) (s : SuRF)
    (hs : build fp bmi (newBuilder vs h r) keys vals hint = some s) (start stop : Bytes) (includeEnd : Bool) : ∃ b, s.hasOverlap bmi start stop includeEnd = some b := by
  obtain ⟨ht, B⟩ := the_built hhr hin hs
  exact B.overlap_some bmi rfl start stop includeEnd

/-! ### A search that leaves the way, and examples -/

/-- "k", "kb", "l\x01", "l\x02": "k" is a prefix of "kb". -/
def astrayKeys : List Bytes := [[107], [107, 98], [108, 1], [108, 2]]
def astrayVals : List Bytes := [[0], [1], [2], [3]]

/-- Without dense levels, `Seek("kc")` stops on "k\x02", with the value of "l\x02"; no stored key begins with "k\x02". -/
theorem C59_witness_astray :
    (build (fun _ => 0) true (newBuilder 1 0 0) astrayKeys astrayVals 0).bind (fun s => (s.newIterator.seek true s [107, 99]).map (fun x => (x.1.valid, x.1.key, x.1.value s))) =
      some (true, some [107, 2], some [3]) ∧ ∀ k ∈ astrayKeys, ¬ [107, 2] <+: k := by
  decide +kernel

theorem astray_input : Input 1 astrayKeys astrayVals := by
  constructor <;> decide

theorem astray_build : ∃ s, build (fun _ => 0) true (newBuilder 1 0 0) astrayKeys astrayVals 0 = some s ∧ s.ld.height < 2 ^ 32 := by
  have h : ((build (fun _ => 0) true (newBuilder 1 0 0) astrayKeys astrayVals 0).map (fun s => decide (s.ld.height < 2 ^ 32))) = some true := by decide +kernel
  obtain ⟨s, e1, e2⟩ := Option.map_eq_some_iff.mp h
  exact ⟨s, e1, by simpa using e2⟩

/-- The hypotheses of `C59_total` hold for the iterator that has gone astray, and what follows. -/
example : ∃ (s : SuRF) (it : Iterator) (fl : Bool), build (fun _ => 0) true (newBuilder 1 0 0) astrayKeys astrayVals 0 = some s ∧ s.newIterator.seek true s [107, 99] = some (it, fl) ∧
    (∃ it', it.next true s = some it') ∧ it.prev true s ≠ none := by
  obtain ⟨s, hs, h32⟩ := astray_build
  obtain ⟨⟨it, fl, e⟩, -⟩ := (C59_total _ _ 1 0 0 (by omega) _ _ astray_input 0 s hs h32 s.newIterator .new).imp_left (fun h => h [107, 99])
  have hr : Reached true s (fun _ => True) it := .seek trivial .new e
  obtain ⟨-, h2, -, h4, -⟩ := C59_total _ _ 1 0 0 (by omega) _ _ astray_input 0 s hs h32 it hr
  refine ⟨s, it, fl, hs, e, h2, fun hn => ?_⟩
  obtain ⟨-, -, k, hk, hall, -⟩ := h4.mp hn
  have : ∀ k ∈ astrayKeys, ¬ ∀ y ∈ astrayKeys, k <+: y := by decide
  exact this k hk hall

example : ∃ s, build (fun _ => 0) true (newBuilder 1 0 0) astrayKeys astrayVals 0 = some s ∧ ∃ b, s.hasOverlap true [107, 99] [107, 255] false = some b := by
  obtain ⟨s, hs, -⟩ := astray_build
  exact ⟨s, hs, C59_overlap _ _ 1 0 0 (by omega) _ _ astray_input 0 s hs _ _ _⟩

end Surf.Props
