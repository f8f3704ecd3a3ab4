import Verif.Props.SurfResume

/-!
# Property C109: a wider range overlaps if a narrower one does
-/

set_option linter.unusedSimpArgs false

namespace Surf.Props

/-- What is kept of the keys is in the order of the keys. -/
theorem forms_lt {keys : List Bytes} {k y : Bytes} (hk : k ∈ keys) (hy : y ∈ keys) (hlt : k < y) : form keys k < form keys y := by
  have hne : k ≠ y := by
    rintro rfl
    exact List.lt_irrefl _ hlt
  have h1 := lcp_shared hk hne
  have h2 := lcp_shared hy hne.symm
  by_cases hp : k <+: y
  · rw [end_form ⟨y, hy, hne.symm, hp⟩]
    rw [lcpLen_comm, lcpLen_prefix hp] at h1
    have hl : k.length < y.length := Nat.lt_of_le_of_ne hp.length_le (fun h => hne (hp.eq_of_length h))
    have hpf : k <+: form keys y := by
      unfold form
      rw [List.prefix_take_iff]
      exact ⟨hp, by omega⟩
    refine prefix_lt hpf fun h => ?_
    have hl' := congrArg List.length h
    unfold form at hl'
    rw [List.length_take] at hl'
    omega
  · obtain ⟨p, c, d, u, v, rfl, rfl, hcd⟩ := div_iff.mpr ⟨hlt, hp⟩
    have hcd' : c ≠ d := by
      rintro rfl
      exact UInt8.lt_irrefl _ hcd
    rw [lcp_div p v u hcd'.symm] at h1
    rw [lcp_div p u v hcd'] at h2
    have key : ∀ (m : Nat) (a : UInt8) (x : Bytes), p.length ≤ m → (p ++ a :: x).take (m + 1) = p ++ a :: x.take (m - p.length) := by
      intro m a x hm
      rw [List.take_append, List.take_of_length_le (by omega), show m + 1 - p.length = m - p.length + 1 by omega, List.take_succ_cons]
    unfold form
    rw [key _ _ _ h1, key _ _ _ h2]
    exact Div.lt ⟨p, c, d, _, _, rfl, rfl, hcd⟩

theorem lt_of_lt_le {a b c : Bytes} (h1 : a < b) (h2 : b ≤ c) : a < c := by
  rcases List.le_iff_lt_or_eq.mp h2 with h | rfl
  · exact List.lt_trans h1 h
  · exact h1

/-- A key that is a prefix of another has no real suffix. -/
theorem end_real {keys : List Bytes} {r : Nat} {k : Bytes} (he : isEnd keys k) : real keys r k k = 0 := by
  obtain ⟨y, hy, hne, hp⟩ := he
  have hs := lcp_shared hy hne
  rw [lcpLen_prefix hp] at hs
  have h : realBits r (shared keys k + 1) k = none := by
    rw [realBits_none]
    omega
  unfold real
  rw [h]
  rfl

/-- Of a key that is no prefix of another one byte more is kept than it shares with others. -/
theorem kept_length {vs : Nat} {keys vals : List Bytes} (hin : Input vs keys vals) {k : Bytes} (hk : k ∈ keys) (hi : ¬ isEnd keys k) : (form keys k).length = shared keys k + 1 := by
  have hpos : 0 < k.length := by
    rcases Nat.eq_zero_or_pos k.length with h0 | h0
    · exfalso
      have hk0 := List.length_eq_zero_iff.mp h0
      subst hk0
      have hall : ∀ y ∈ keys, y = [] := by
        intro y hy
        by_contra hne
        exact hi ⟨y, hy, hne, List.nil_prefix⟩
      have hsort := hin.sorted
      match hkeys : keys, hall, hsort, hin.ne, hin.notEmpty with
      | [], _, _, h, _ => exact h rfl
      | [x], hall, _, _, h => exact h (by rw [hall x (by simp)])
      | x :: y :: l, hall, hs, _, _ =>
        have h1 := (List.pairwise_cons.mp hs).1 y (by simp)
        rw [hall x (by simp), hall y (by simp)] at h1
        exact List.lt_irrefl _ h1
    · exact h0
  have hlt : shared keys k ≤ k.length - 1 := by
    unfold shared
    apply foldr_max_le
    intro m hm
    obtain ⟨y, hy, rfl⟩ := List.mem_map.mp hm
    obtain ⟨hy, hne⟩ := List.mem_filter.mp hy
    obtain ⟨-, hle, -⟩ := lcpLen_take k y
    have : lcpLen k y ≠ k.length := fun h => hi ⟨y, hy, by simpa using hne, prefix_of_lcpLen h⟩
    omega
  unfold form
  rw [List.length_take]
  omega

/-- Up to eight real bits are the upper bits of the byte behind what is kept. -/
theorem real_byte {r m : Nat} (h0 : 0 < r) (hr : r ≤ 8) (q : Bytes) : (realBits r m q).getD 0 = (q[m]?.getD 0).toNat / 2 ^ (8 - r) := by
  by_cases hl : m < q.length
  · unfold realBits
    rw [if_pos ⟨by omega, by omega⟩]
    rcases Nat.lt_or_eq_of_le hr with h8 | rfl
    · have e1 : r / 8 = 0 := by omega
      have e2 : r % 8 = r := by omega
      simp only [e1, e2, if_pos, if_neg (show ¬ r = 0 by omega), Nat.add_zero, Option.getD_some]
      simp [bigEndian]
    · have e : (q.drop m).take 1 = [q[m]] := by
        rw [List.drop_eq_getElem_cons hl]
        rfl
      simp [bigEndian, e, hl]
  · have h : realBits r m q = none := by
      rw [realBits_none]
      omega
    rw [h, List.getElem?_eq_none (by omega)]
    simp

theorem real_mono {vs : Nat} {keys vals : List Bytes} (hin : Input vs keys vals) {r : Nat} (hr : r ≤ 8) {k q q' : Bytes} (hk : k ∈ keys) (hi : ¬ isEnd keys k) (h1 : form keys k <+: q) (h2 : form keys k <+: q') (hqq : q ≤ q') :
    real keys r k q ≤ real keys r k q' := by
  rcases Nat.eq_zero_or_pos r with rfl | h0
  · rw [real_zero, real_zero]
  · unfold real
    rw [real_byte h0 hr, real_byte h0 hr]
    apply Nat.div_le_div_right
    obtain ⟨u, rfl⟩ := h1
    obtain ⟨v, rfl⟩ := h2
    rw [← kept_length hin hk hi, List.getElem?_append_right (Nat.le_refl _), List.getElem?_append_right (Nat.le_refl _), Nat.sub_self]
    cases u with
    | nil => simp
    | cons c u =>
      cases v with
      | nil =>
        exfalso
        refine absurd (prefix_lt (a := form keys k ++ []) (b := form keys k ++ c :: u) (by simp) ?_) (List.not_lt.mpr hqq)
        intro h
        have := congrArg List.length h
        simp at this
      | cons d v =>
        simp only [List.getElem?_cons_zero, Option.getD_some]
        by_contra hc
        have hdc : d < c := by
          rw [UInt8.lt_iff_toNat_lt]
          omega
        exact absurd (Div.lt ⟨form keys k, d, c, v, u, rfl, rfl, hdc⟩) (List.not_lt.mpr hqq)

/-- What is kept of a key is a prefix of all in between. -/
theorem div_up {a q q' : Bytes} (hqq : q ≤ q') (hd : a < q ∧ ¬ a <+: q) : a < q' ∧ ¬ a <+: q' := by
  refine ⟨lt_of_lt_le hd.1 hqq, fun hp => ?_⟩
  obtain ⟨p, c, d, u, v, rfl, rfl, hcd⟩ := div_iff.mpr hd
  obtain ⟨w, rfl⟩ := hp
  have : Div (p ++ c :: u ++ w) (p ++ d :: v) := ⟨p, c, d, u ++ w, v, by simp, rfl, hcd⟩
  exact absurd this.lt (List.not_lt.mpr hqq)

theorem end_passed {keys : List Bytes} {r : Nat} {q k : Bytes} (he : isEnd keys k) (hlt : k < q) : PassedBy keys r q k := by
  by_cases hp : k <+: q
  · refine .inr (.inl ⟨he, hp, ?_⟩)
    rintro rfl
    exact List.lt_irrefl _ hlt
  · left
    rw [end_form he]
    exact ⟨hlt, hp⟩

/-- What is passed over may precede what is searched. -/
theorem passed_may {keys : List Bytes} {r : Nat} {q k : Bytes} (hP : PassedBy keys r q k) : MayPrecede keys r q k := by
  rcases hP with p | ⟨he, p, hne⟩ | ⟨hi, p, p'⟩
  · exact .inl p
  · refine .inr ⟨(List.take_prefix _ _).trans p, fun h => hne h.2, ?_⟩
    rw [end_real he]
    exact Nat.zero_le _
  · exact .inr ⟨p, fun h => hi h.1, Nat.le_of_lt p'⟩

section
variable {vs : Nat} {keys vals : List Bytes} (hin : Input vs keys vals) {r : Nat} (hr : r ≤ 8) {start start' stop stop' q q' : Bytes} {n : Nat} {k : Bytes}
include hin hr

/-- With real suffixes of at most eight bits, a search for more passes over more. -/
theorem passed_mono (hk : k ∈ keys) (hqq : q ≤ q') (hP : PassedBy keys r q k) : PassedBy keys r q' k := by
  rcases hP with p | ⟨he, p, hne⟩ | ⟨hi, p, p'⟩
  · exact .inl (div_up hqq p)
  · exact end_passed he (lt_of_lt_le (prefix_lt p hne) hqq)
  · by_cases h : form keys k <+: q'
    · exact .inr (.inr ⟨hi, h, Nat.lt_of_lt_of_le p' (real_mono hin hr hk hi p h hqq)⟩)
    · refine .inl ⟨?_, h⟩
      rcases List.le_iff_lt_or_eq.mp (List.le_trans (prefix_le p) hqq) with h' | h'
      · exact h'
      · exact absurd (h' ▸ List.prefix_rfl) h

/-- The first key that a search for less does not pass over is that of the search for more, or one before. -/
theorem first_le (hss : start' ≤ start) (hk : keys[n]? = some k) (hp : ¬ PassedBy keys r start k) :
    ∃ m y, m ≤ n ∧ keys[m]? = some y ∧ ¬ PassedBy keys r start' y ∧ ∀ i : Nat, i < m → ∀ z : Bytes, keys[i]? = some z → PassedBy keys r start' z := by
  have hn : ¬ PassedBy keys r start' k := fun h => hp (passed_mono hin hr (List.mem_of_getElem? hk) hss h)
  have hex : ∃ m, ∃ y, keys[m]? = some y ∧ ¬ PassedBy keys r start' y := ⟨n, k, hk, hn⟩
  classical
  obtain ⟨y, h1, h2⟩ := Nat.find_spec hex
  refine ⟨Nat.find hex, y, Nat.find_min' hex ⟨k, hk, hn⟩, h1, h2, fun i hi z hz => ?_⟩
  by_contra hc
  exact Nat.find_min hex hi ⟨z, hz, hc⟩

omit hin hr in
/-- A key may precede all that is not below a later key. -/
theorem may_before {y : Bytes} (hy : y ∈ keys) (hk : k ∈ keys) (hlt : y < k) (hle : form keys k ≤ stop) : MayPrecede keys r stop y := by
  have hf := forms_lt hy hk hlt
  by_cases hi : isEnd keys y
  · refine passed_may (end_passed hi ?_)
    rw [← end_form hi]
    exact lt_of_lt_le hf hle
  · left
    have hne : k ≠ y := by
      rintro rfl
      exact List.lt_irrefl _ hlt
    refine div_up hle ⟨hf, fun hp => ?_⟩
    have h1 : form keys y <+: k := hp.trans (List.take_prefix _ _)
    have hfy : form keys y <+: y := List.take_prefix _ _
    have hl : (form keys y).length ≤ lcpLen y k := le_lcpLen (by rw [← List.prefix_iff_eq_take.mp hfy, ← List.prefix_iff_eq_take.mp h1]) hfy.length_le h1.length_le
    have hs := lcp_shared hk hne
    have hlen : (form keys y).length = min (shared keys y + 1) y.length := by unfold form; rw [List.length_take]
    have : form keys y = y := hfy.eq_of_length (by omega)
    rw [this] at h1
    exact hi ⟨k, hk, hne, h1⟩

omit hin hr in
theorem may_le (hM : MayPrecede keys r stop k) : form keys k ≤ stop := by
  rcases hM with h | h
  · exact List.le_of_lt h.1
  · exact prefix_le h.1

/-- What may precede an end may precede a later one. -/
theorem may_up (hk : k ∈ keys) (hss : stop ≤ stop') (hM : MayPrecede keys r stop k) : MayPrecede keys r stop' k := by
  by_cases hi : isEnd keys k
  · refine passed_may (end_passed hi ?_)
    have hle := may_le hM
    rw [end_form hi] at hle
    rcases List.le_iff_lt_or_eq.mp hle with h | h
    · exact lt_of_lt_le h hss
    · exfalso
      rcases hM with p | p
      · exact p.2 (by rw [end_form hi, h]; exact List.prefix_rfl)
      · exact p.2.1 ⟨hi, h⟩
  · rcases hM with p | ⟨p1, -, p3⟩
    · exact .inl (div_up hss p)
    · by_cases h : form keys k <+: stop'
      · exact .inr ⟨h, fun h => hi h.1, Nat.le_trans p3 (real_mono hin hr hk hi p1 h hss)⟩
      · refine .inl ⟨?_, h⟩
        rcases List.le_iff_lt_or_eq.mp (List.le_trans (prefix_le p1) hss) with h' | h'
        · exact h'
        · exact absurd (h' ▸ List.prefix_rfl) h

theorem may_mono (hss : stop ≤ stop') {y : Bytes} (hy : y ∈ keys) (hk : k ∈ keys) (hyk : y = k ∨ y < k) (hM : MayPrecede keys r stop k) : MayPrecede keys r stop' y := by
  rcases hyk with rfl | hlt
  · exact may_up hin hr hk hss hM
  · exact may_before hy hk hlt (List.le_trans (may_le hM) hss)

end

/-- **C109.** In a filter with real suffixes of at most eight bits, or none, if the range from `start` to below `stop` overlaps, so does every range from `start'` to below `stop'`, or to `stop'`, that contains it, if neither search goes astray. -/
theorem C109_open (fp : Bytes → Word) (bmi : Bool) (vs h r : Nat) (hhr : h + r ≤ 64) (hr : r ≤ 8) (keys vals : List Bytes) (hin : Input vs keys vals) (hint : Int) (s : SuRF)
    (hs : build fp bmi (newBuilder vs h r) keys vals hint = some s) (start stop start' stop' : Bytes) (he : Supported keys s start) (he' : Supported keys s start') (h1 : start' ≤ start) (h2 : stop ≤ stop') (includeEnd : Bool)
    (ho : s.hasOverlap bmi start stop false = some true) : s.hasOverlap bmi start' stop' includeEnd = some true := by
  obtain ⟨b, e1, e2⟩ := C55_overlap fp bmi vs h r hhr (by omega) keys vals hin hint s hs start stop he false
  obtain ⟨b', e1', e2'⟩ := C55_overlap fp bmi vs h r hhr (by omega) keys vals hin hint s hs start' stop' he' includeEnd
  rw [e1] at ho
  cases ho
  obtain ⟨n, k, hk, hp, -, hM⟩ := e2.mp rfl
  rw [e1', Option.some.injEq, e2']
  obtain ⟨m, y, hmn, hy, hp', hb⟩ := first_le hin hr h1 hk hp
  refine ⟨m, y, hy, hp', hb, .inl ?_⟩
  rcases hM with hM | ⟨hM, -⟩
  · refine may_mono hin hr h2 (List.mem_of_getElem? hy) (List.mem_of_getElem? hk) ?_ hM
    rcases Nat.lt_or_eq_of_le hmn with h | rfl
    · right
      obtain ⟨hi, rfl⟩ := List.getElem?_eq_some_iff.mp hy
      obtain ⟨hj, rfl⟩ := List.getElem?_eq_some_iff.mp hk
      exact List.pairwise_iff_getElem.mp hin.sorted m n hi hj h
    · left
      rw [hk] at hy
      exact (Option.some.inj hy).symm
  · cases hM

/-- **C109.** The same for ranges that include their end, if no other key is taken for the end of the narrower one (see C55). -/
theorem C109_closed (fp : Bytes → Word) (bmi : Bool) (vs h r : Nat) (hhr : h + r ≤ 64) (hr : r ≤ 8) (keys vals : List Bytes) (hin : Input vs keys vals) (hint : Int) (s : SuRF)
    (hs : build fp bmi (newBuilder vs h r) keys vals hint = some s) (start stop start' stop' : Bytes) (he : Supported keys s start) (he' : Supported keys s start') (h1 : start' ≤ start) (h2 : stop ≤ stop')
    (ht : ∀ k ∈ keys, TakenFor keys s.ld.height stop k → k = stop) (ho : s.hasOverlap bmi start stop true = some true) : s.hasOverlap bmi start' stop' true = some true := by
  obtain ⟨b, e1, e2⟩ := C55_overlap fp bmi vs h r hhr (by omega) keys vals hin hint s hs start stop he true
  obtain ⟨b', e1', e2'⟩ := C55_overlap fp bmi vs h r hhr (by omega) keys vals hin hint s hs start' stop' he' true
  rw [e1] at ho
  cases ho
  obtain ⟨n, k, hk, hp, -, hM⟩ := e2.mp rfl
  rw [e1', Option.some.injEq, e2']
  obtain ⟨m, y, hmn, hy, hp', hb⟩ := first_le hin hr h1 hk hp
  refine ⟨m, y, hy, hp', hb, ?_⟩
  have hyk : y = k ∨ y < k := by
    rcases Nat.lt_or_eq_of_le hmn with h | rfl
    · right
      obtain ⟨hi, rfl⟩ := List.getElem?_eq_some_iff.mp hy
      obtain ⟨hj, rfl⟩ := List.getElem?_eq_some_iff.mp hk
      exact List.pairwise_iff_getElem.mp hin.sorted m n hi hj h
    · left
      rw [hk] at hy
      exact (Option.some.inj hy).symm
  have hkm := List.mem_of_getElem? hk
  rcases hM with hM | ⟨-, hM⟩
  · exact .inl (may_mono hin hr h2 (List.mem_of_getElem? hy) hkm hyk hM)
  · obtain rfl := ht k hkm hM
    have hf := end_form hM.1
    rcases hyk with rfl | hlt
    · rcases List.le_iff_lt_or_eq.mp h2 with h | rfl
      · exact .inl (passed_may (end_passed hM.1 h))
      · exact .inr ⟨rfl, hM⟩
    · exact .inl (may_before (List.mem_of_getElem? hy) hkm hlt (by rw [hf]; exact h2))

/-! ### Examples -/

/-- In a filter with "ab", "ac" and "k" the range from "acc" to below "b" overlaps, and so do that from "aa" to below "c" and that from "aa" to "c". -/
theorem C109_example : (build (fun _ => 0) true (newBuilder 1 0 0) [[97, 98], [97, 99], [107]] [[0], [1], [2]] 10000).bind (fun s =>
    (s.hasOverlap true [97, 99, 99] [98] false).bind fun a => (s.hasOverlap true [97, 97] [99] false).bind fun b => (s.hasOverlap true [97, 97] [99] true).map fun c => [a, b, c]) = some [true, true, true] := by
  decide +kernel

/-- If another key is taken for the end, a wider range may be said not to overlap: with "ka" and "kab" and no dense level, the range from "" to "" is said to overlap, but not that from "" to "k". -/
theorem C109_witness : (build (fun _ => 0) true (newBuilder 1 0 0) [[107, 97], [107, 97, 98]] [[0], [1]] 0).bind (fun s =>
    (s.hasOverlap true [] [] true).bind fun a => (s.hasOverlap true [] [107] true).map fun b => [a, b]) = some [true, false] := by
  decide +kernel

/-- So it may with longer real suffixes: with "aP\x10" and "bcc", and suffixes of twelve bits, the range from "a" to below "aP\x20" is said to overlap, but not that from "a" to below "aQ", which is too short for a suffix. -/
theorem C109_witness_real : (build (fun _ => 0) true (newBuilder 1 0 12) [[97, 80, 16], [98, 99, 99]] [[0], [1]] 10000).bind (fun s =>
    (s.hasOverlap true [97] [97, 80, 32] false).bind fun a => (s.hasOverlap true [97] [97, 81] false).map fun b => [a, b]) = some [true, false] := by
  decide +kernel

end Surf.Props
