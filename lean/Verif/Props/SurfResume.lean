import Verif.Props.SurfHit
import Verif.Props.SurfAgree

/-!
# Properties C106, C107: `Get` by `Seek`, and how to resume a loop
-/

set_option linter.unusedSimpArgs false

namespace Surf.Props

/-! ### C106 -/

/-- **C106.** In a filter without suffixes, if no key is a prefix of another, `Get(q)` for a non-empty `q` finds the value `v` exactly if `Seek(q)`, on an iterator after any calls, stops on a key that is shown as a prefix of `q`, with the
value `v`. -/
theorem C106_free (fp : Bytes → Word) (bmi : Bool) (vs : Nat) (keys vals : List Bytes) (hin : Input vs keys vals) (hint : Int) (s : SuRF)
    (hs : build fp bmi (newBuilder vs 0 0) keys vals hint = some s) (it : Iterator) (hr : Reached bmi s (fun _ => True) it) (hfree : ∀ k ∈ keys, ∀ y ∈ keys, k <+: y → y = k) (q v : Bytes) (hq : q ≠ []) :
    s.get fp bmi q = some (v, true) ↔ ∃ it' fl x, it.seek bmi s q = some (it', fl) ∧ it'.valid = true ∧ it'.key = some x ∧ x <+: q ∧ it'.value s = some v := by
  have hi : ∀ {y}, y ∈ keys → ¬ isEnd keys y := by
    rintro y hy ⟨z, hz, hne, hp⟩
    exact hne (hfree y hy z hz hp)
  have hsup : ∀ p, Supported keys s p := fun p k0 hk0 he0 => absurd he0 (hi hk0)
  have hr' : Reached bmi s (Supported keys s) it := by
    have : (fun _ => True) = Supported keys s := funext fun p => (eq_true (hsup p)).symm
    rw [← this]
    exact hr
  obtain ⟨it', fl, e, hcase⟩ := C55_seek fp bmi vs 0 0 (by omega) keys vals hin hint s hs it hr' q (hsup q)
  constructor
  · intro hg
    obtain ⟨n, k, w, D, hk, hw, rfl, hM, -, hstay, hpass⟩ := hit_found (by omega) (.inl rfl) hin hs hg
    have hkm := List.mem_of_getElem? hk
    rcases hcase with ⟨-, hall⟩ | ⟨n', k', w', hk', hw', hv, hkey, hval, hp, hbef⟩
    · exact absurd (hall k hkm) hstay
    · obtain rfl := first_unique hk hk' hstay hpass hp hbef
      rw [hk] at hk'
      rw [hw] at hw'
      cases hk'
      cases hw'
      refine ⟨it', fl, _, e, hv, hkey, ?_, hval⟩
      rcases hM with ⟨-, hf, -⟩ | ⟨he, -⟩ | ⟨he, -⟩ | ⟨-, h, -⟩
      · exact hf
      · exact absurd he (hi hkm)
      · exact absurd he (hi hkm)
      · exact absurd h hq
  · rintro ⟨it2, fl2, x, e2, hv2, hkey2, hx, hval2⟩
    rw [e] at e2
    cases e2
    rcases hcase with ⟨hv, -⟩ | ⟨n, k, w, hk, hw, -, hkey, hval, -, -⟩
    · rw [hv] at hv2
      cases hv2
    · rw [hkey] at hkey2
      rw [hval] at hval2
      cases hkey2
      cases hval2
      refine (C54_hit fp bmi vs 0 0 (by omega) keys vals hin hint s hs q _).mpr ⟨n, k, w, shared keys k, hk, hw, .inl ⟨hi (List.mem_of_getElem? hk), hx, rfl⟩, ?_, rfl⟩
      unfold sameSuffix
      rw [if_pos rfl]
      unfold hashBits
      simp [Nat.mod_one]

/-! ### C107 -/

/-- A search for what is kept of `k` does not pass over `k`. -/
theorem form_stays {keys : List Bytes} {r : Nat} (k : Bytes) : ¬ PassedBy keys r (form keys k) k := by
  rintro (⟨p, -⟩ | ⟨-, p, p'⟩ | ⟨-, -, p⟩)
  · exact List.lt_irrefl _ p
  · exact p' (p.eq_of_length (Nat.le_antisymm p.length_le (List.take_prefix _ _).length_le))
  · rcases Nat.eq_zero_or_pos r with rfl | hr
    · rw [real_zero, real_zero] at p
      omega
    · have h : realBits r (shared keys k + 1) (form keys k) = none := by
        rw [realBits_none]
        have : (form keys k).length ≤ shared keys k + 1 := List.length_take_le _ _
        omega
      unfold real at p
      rw [h] at p
      simp at p

/-- It passes over the keys before `k`. -/
theorem form_before {keys : List Bytes} {r : Nat} {k y : Bytes} (hk : k ∈ keys) (hy : y ∈ keys) (hlt : y < k) : PassedBy keys r (form keys k) y :=
  before_passed hk (fun z hz hne _ => List.take_prefix_take_left (by have := lcp_shared hz hne; omega)) hy hlt

/-- It passes over no key behind `k`. -/
theorem form_after {keys : List Bytes} {r : Nat} {k y : Bytes} (hk : k ∈ keys) (hlt : k < y) : ¬ PassedBy keys r (form keys k) y := by
  have hne : k ≠ y := by
    rintro rfl
    exact List.lt_irrefl _ hlt
  have hfk : form keys k <+: k := List.take_prefix _ _
  have hs := lcp_shared hk hne
  rintro (p | ⟨-, p, -⟩ | ⟨-, p, p'⟩)
  · have h1 := ((div_iff.mpr p).ext_right hfk).ext_left (List.take_prefix _ _)
    exact List.lt_irrefl _ (List.lt_trans h1.lt hlt)
  · exact absurd hlt (List.not_lt.mpr (prefix_le (p.trans hfk)))
  · by_cases hp : k <+: y
    · rw [lcpLen_comm, lcpLen_prefix hp] at hs
      have h : realBits r (shared keys y + 1) (form keys k) = none := by
        rw [realBits_none]
        have := hfk.length_le
        omega
      unfold real at p'
      rw [h] at p'
      simp at p'
    · obtain ⟨a, c, d, u, v, rfl, rfl, hcd⟩ := div_iff.mpr ⟨hlt, hp⟩
      have hcd' : c ≠ d := by
        rintro rfl
        exact UInt8.lt_irrefl _ hcd
      rw [lcp_div a v u hcd'.symm] at hs
      have h2 := p.trans hfk
      unfold form at h2
      rw [List.take_append, List.take_of_length_le (by omega), show shared keys (a ++ d :: v) + 1 - a.length = shared keys (a ++ d :: v) - a.length + 1 by omega, List.take_succ_cons] at h2
      exact (div_not_prefix ⟨a, c, d, u, _, rfl, rfl, hcd⟩).2 h2

/-- **C107.** If an iterator, after any calls of which no search went astray, is valid and shows the key `x`, then `Seek(x)` on any iterator, after any such calls, in any filter, does not go astray, stops on `x` again, with the same value,
and a loop from there goes on as a loop with the first iterator does. -/
theorem C107_resume (fp : Bytes → Word) (bmi : Bool) (vs h r : Nat) (hhr : h + r ≤ 64) (keys vals : List Bytes) (hin : Input vs keys vals) (hint : Int) (s : SuRF)
    (hs : build fp bmi (newBuilder vs h r) keys vals hint = some s) (it it2 : Iterator) (hr : Reached bmi s (Supported keys s) it) (hr2 : Reached bmi s (Supported keys s) it2) (hv : it.valid = true) :
    ∃ x it' fl, it.key = some x ∧ Supported keys s x ∧ it2.seek bmi s x = some (it', fl) ∧ it'.valid = true ∧ it'.key = some x ∧ it'.value s = it.value s ∧
      ∀ (more : Bytes → Bool) (n : Nat), rangeLoop bmi s more n it' = rangeLoop bmi s more n it := by
  obtain ⟨ht, B⟩ := the_built hhr hin hs
  rcases reached_inv hin B hr with ⟨b, y, ha⟩ | hd
  · obtain ⟨-, k2, k3⟩ := at_read hin B ha
    obtain ⟨c, ec⟩ := ha.split
    have ec : keys.zip vals = b ++ y :: c := ec
    have hmem : ∀ {z}, z ∈ keys.zip vals → z.1 ∈ keys := fun hz => (List.of_mem_zip hz).1
    have hy : y.1 ∈ keys := hmem (by rw [ec]; simp)
    have hsup : Supported keys s (form keys y.1) := supported_prefix s hy (List.take_prefix _ _)
    have hsort : (b ++ y :: c).Pairwise (fun a b => a.1 < b.1) := by
      rw [← ec]
      exact hin.kvs.sorted
    rw [List.pairwise_append, List.pairwise_cons] at hsort
    obtain ⟨-, ⟨hyc, -⟩, hby⟩ := hsort
    obtain ⟨it', fl, b', a1, ⟨hb, c', ec', hc⟩, a2⟩ := B.i_seek bmi rfl (form keys y.1) (hsup.clear hin B) (inv_ready (reached_inv hin B hr2))
    have ec' : keys.zip vals = b' ++ c' := ec'
    have f1 : (keys.zip vals).filter (fun kv => PassedBy keys r (form keys y.1) kv.1) = b' := by
      rw [ec', List.filter_append, List.filter_eq_self.mpr, List.filter_eq_nil_iff.mpr, List.append_nil]
      · intro z hz
        simpa using (passed_by hhr hin B).2 (hc z hz)
      · intro z hz
        exact decide_eq_true ((passed_by hhr hin B).1 (hb z hz))
    have f2 : (keys.zip vals).filter (fun kv => PassedBy keys r (form keys y.1) kv.1) = b := by
      conv_lhs => rw [ec]
      rw [List.filter_append, List.filter_eq_self.mpr, List.filter_eq_nil_iff.mpr, List.append_nil]
      · intro z hz
        rw [List.mem_cons] at hz
        rcases hz with rfl | hz
        · simpa using form_stays (keys := keys) (r := r) z.1
        · simpa using form_after (keys := keys) (r := r) hy (hyc z hz)
      · intro z hz
        exact decide_eq_true (form_before hy (hmem (by rw [ec]; simp [hz])) (hby z hz y (by simp)))
    obtain rfl : b' = b := f1.symm.trans f2
    rcases a2 with ⟨hbe, -⟩ | ⟨y', a2⟩
    · have hbe : b' = keys.zip vals := hbe
      rw [ec] at hbe
      have := congrArg List.length hbe
      simp at this
    · obtain ⟨c2, ec2⟩ := a2.split
      have ec2 : keys.zip vals = b' ++ y' :: c2 := ec2
      have hyy := List.append_cancel_left (ec2.symm.trans ec)
      cases hyy
      obtain ⟨r1, r2, r3⟩ := at_read hin B a2
      refine ⟨_, it', fl, k2, hsup, a1, r1, r2, r3.trans k3.symm, fun more n => ?_⟩
      rw [range_at hin B bmi more n it' b' y c a2 ec, range_at hin B bmi more n it b' y c ha ec]
  · rw [hd.valid] at hv
    cases hv

/-! ### Examples -/

/-- In a filter with "ab", "ac" and "k": `Get` of "acz" finds the value of "ac", which `Seek` shows as "ac"; `Get` of "adz" finds nothing, and `Seek` stops on "k", no prefix of it. -/
theorem C106_example : (build (fun _ => 0) true (newBuilder 1 0 0) [[97, 98], [97, 99], [107]] [[0], [1], [2]] 10000).bind (fun s =>
    (s.get (fun _ => 0) true [97, 99, 122]).bind fun g1 => (s.get (fun _ => 0) true [97, 100, 122]).bind fun g2 =>
    (s.newIterator.seek true s [97, 99, 122]).bind fun x1 => (s.newIterator.seek true s [97, 100, 122]).map fun x2 => ([g1.2, g2.2], [x1.1.key, x2.1.key])) =
    some ([true, false], [some [97, 99], some [107]]) := by
  decide +kernel

/-- With real suffixes, and a key that is a prefix of another: after `Seek("b")` and one `Next` an iterator shows "bc"; another one that searches for this goes on in the same way. -/
theorem C107_example : (build (fun _ => 0) true (newBuilder 1 0 4) [[97], [98], [98, 99], [98, 99, 100, 101], [107, 108]] [[0], [1], [2], [3], [4]] 10000).bind (fun s =>
    (s.newIterator.seek true s [98]).bind fun x => (x.1.next true s).bind fun it => it.key.bind fun k => (s.newIterator.seek true s k).bind fun x' =>
    (rangeLoop true s (fun _ => true) 9 it).bind fun l => (rangeLoop true s (fun _ => true) 9 x'.1).map fun l' => (k, l, l')) =
    some ([98, 99], [([98, 99], [2]), ([98, 99, 100], [3]), ([107], [4])], [([98, 99], [2]), ([98, 99, 100], [3]), ([107], [4])]) := by
  decide +kernel

end Surf.Props
