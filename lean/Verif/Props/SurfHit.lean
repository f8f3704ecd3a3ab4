import Verif.Props.SurfOverlap

/-!
# Properties C103, C104, C105: a hit of `Get` and where `Seek` stops
-/

set_option linter.unusedSimpArgs false

namespace Surf.Props

theorem lcp_shared {keys : List Bytes} {k y : Bytes} (hy : y ∈ keys) (hne : y ≠ k) : lcpLen k y ≤ shared keys k := by
  unfold shared
  apply le_foldr_max
  rw [List.mem_map]
  exact ⟨y, by simp [hy, hne], rfl⟩

theorem lcp_div (p u v : Bytes) {c d : UInt8} (h : c ≠ d) : lcpLen (p ++ c :: u) (p ++ d :: v) = p.length :=
  lcpLen_of (by simp) (by simp) (by simp) (by simpa using h)

/-- If `q` begins with what it takes to tell `k` from the other keys where these do not go on behind `k`, a search for `q` passes over all keys before `k`. -/
theorem before_passed {keys : List Bytes} {r : Nat} {q k : Bytes} (hk : k ∈ keys) (hq : ∀ y ∈ keys, y ≠ k → lcpLen k y < k.length → k.take (lcpLen k y + 1) <+: q) {y : Bytes} (hy : y ∈ keys) (hlt : y < k) :
    PassedBy keys r q y := by
  have hne : y ≠ k := by
    rintro rfl
    exact List.lt_irrefl _ hlt
  by_cases hp : y <+: k
  · have hl : lcpLen k y = y.length := by rw [lcpLen_comm, lcpLen_prefix hp]
    have hlen : y.length < k.length := Nat.lt_of_le_of_ne hp.length_le (fun h => hne (hp.eq_of_length h))
    have h1 := hq y hy hne (by omega)
    rw [hl] at h1
    have hyq : y <+: q := by
      refine List.IsPrefix.trans ?_ h1
      rw [List.prefix_take_iff]
      exact ⟨hp, by omega⟩
    refine .inr (.inl ⟨⟨k, hk, hne.symm, hp⟩, hyq, ?_⟩)
    rintro rfl
    have := h1.length_le
    rw [List.length_take] at this
    omega
  · obtain ⟨p, c, d, u, v, rfl, rfl, hcd⟩ := div_iff.mpr ⟨hlt, hp⟩
    have hcd' : c ≠ d := by
      rintro rfl
      exact UInt8.lt_irrefl _ hcd
    have hl := lcp_div p v u hcd'.symm
    have h1 := hq _ hy hne (by rw [hl]; simp)
    rw [hl] at h1
    have hs := lcp_shared hk hne.symm
    rw [lcp_div p u v hcd'] at hs
    obtain ⟨w, rfl⟩ := h1
    refine .inl (div_iff.mp ⟨p, c, d, u.take (shared keys (p ++ c :: u) - p.length), w, ?_, ?_, hcd⟩)
    · unfold form
      rw [List.take_append, List.take_of_length_le (by omega), show shared keys (p ++ c :: u) + 1 - p.length = shared keys (p ++ c :: u) - p.length + 1 by omega, List.take_succ_cons]
    · rw [List.take_append, List.take_of_length_le (by omega), show p.length + 1 - p.length = 0 + 1 by omega, List.take_succ_cons]
      simp

theorem meets_tells {keys : List Bytes} {cut D : Nat} {q k : Bytes} (hM : Meets keys cut q k D) : ∀ y ∈ keys, y ≠ k → lcpLen k y < k.length → k.take (lcpLen k y + 1) <+: q := by
  intro y hy hne hlt
  have hs := lcp_shared hy hne
  have hform : form keys k <+: q → k.take (lcpLen k y + 1) <+: q := fun h =>
    (List.take_prefix_take_left (by omega)).trans h
  rcases hM with ⟨-, h, -⟩ | ⟨he, rfl, -⟩ | ⟨he, -, rfl, -⟩ | ⟨h, -, -, -⟩
  · exact hform h
  · exact List.take_prefix _ _
  · apply List.take_prefix_take_left
    unfold entry
    apply le_foldr_max
    rw [List.mem_map]
    refine ⟨_, List.mem_filter.mpr ⟨List.mem_map.mpr ⟨y, hy, rfl⟩, ?_⟩, rfl⟩
    obtain ⟨z, hz, hzk, hp⟩ := he
    have := lcp_shared hz hzk
    rw [lcpLen_prefix hp] at this
    exact decide_eq_true (by omega)
  · rw [h, List.mem_singleton] at hy
    exact absurd hy hne

theorem meets_stays {keys : List Bytes} {cut D r : Nat} {q k : Bytes} (hM : Meets keys cut q k D) (hr : D = shared keys k → real keys r k q ≤ real keys r k k) : ¬ PassedBy keys r q k := by
  rcases hM with ⟨hi, h, hD⟩ | ⟨he, rfl, -⟩ | ⟨he, -, rfl, -⟩ | ⟨h, rfl, hh, -⟩
  · rintro (⟨-, p⟩ | ⟨p, -⟩ | ⟨-, -, p⟩)
    · exact p h
    · exact hi p
    · have := hr hD
      omega
  · rintro (⟨p, -⟩ | ⟨-, -, p⟩ | ⟨p, -⟩)
    · rw [end_form he] at p
      exact List.lt_irrefl _ p
    · exact p rfl
    · exact p he
  · rintro (⟨p, -⟩ | ⟨-, p, p'⟩ | ⟨p, -⟩)
    · rw [end_form he] at p
      exact absurd p (List.not_lt.mpr (prefix_le (List.take_prefix _ _)))
    · exact p' (p.eq_of_length (Nat.le_antisymm p.length_le (List.take_prefix _ _).length_le))
    · exact p he
  · have hne : form keys k ≠ [] := by
      cases k with
      | nil => cases hh
      | cons a k => simp [form]
    rintro (⟨p, -⟩ | ⟨⟨y, hy, hyk, -⟩, -⟩ | ⟨-, p, -⟩)
    · exact absurd p (List.not_lt_nil _)
    · rw [h, List.mem_singleton] at hy
      exact hyk hy
    · exact hne (List.prefix_nil.mp p)

/-- A query that leads to a key does not go astray. -/
theorem meets_supported {keys : List Bytes} {s : SuRF} {cut D : Nat} {q k : Bytes} (hk : k ∈ keys) (hM : Meets keys cut q k D) : Supported keys s q := by
  intro k0 hk0 he0 _ c hc
  rcases hM with ⟨hi, h, -⟩ | ⟨-, rfl, -⟩ | ⟨-, -, rfl, -⟩ | ⟨-, rfl, -, -⟩
  · by_cases hl : (k0 ++ [c]).length ≤ (form keys k).length
    · exact ⟨k, hk, (List.prefix_of_prefix_length_le hc h hl).trans (List.take_prefix _ _)⟩
    · exfalso
      have hf : form keys k <+: k0 := List.prefix_of_prefix_length_le h ((List.prefix_append _ _).trans hc) (by rw [List.length_append] at hl; simp at hl; omega)
      have hne : k0 ≠ k := by
        rintro rfl
        exact hi he0
      have hs := lcp_shared hk0 hne
      have hfk : form keys k <+: k := List.take_prefix _ _
      have hle : (form keys k).length ≤ lcpLen k k0 :=
        le_lcpLen (by rw [← List.prefix_iff_eq_take.mp hfk, ← List.prefix_iff_eq_take.mp hf]) hfk.length_le hf.length_le
      have hlen : (form keys k).length = min (shared keys k + 1) k.length := by unfold form; rw [List.length_take]
      have : form keys k = k := hfk.eq_of_length (by omega)
      rw [this] at hf
      exact hi ⟨k0, hk0, hne, hf⟩
  · exact ⟨_, hk, hc⟩
  · exact ⟨k, hk, hc.trans (List.take_prefix _ _)⟩
  · have := hc.length_le
    simp at this

/-- The key that `Get(q)` finds is the first that a search for `q` does not pass over. -/
theorem hit_found {fp : Bytes → Word} {bmi : Bool} {vs h r : Nat} (hhr : h + r ≤ 64) (hsuf : r = 0 ∨ h ≠ 0) {keys vals : List Bytes} (hin : Input vs keys vals) {hint : Int} {s : SuRF}
    (hs : build fp bmi (newBuilder vs h r) keys vals hint = some s) {q v : Bytes} (hg : s.get fp bmi q = some (v, true)) :
    ∃ n k w D, keys[n]? = some k ∧ vals[n]? = some w ∧ v = w.take vs ∧ Meets keys s.ld.height q k D ∧ (D = shared keys k → real keys r k k = real keys r k q) ∧
      ¬ PassedBy keys r q k ∧ ∀ m : Nat, m < n → ∀ k' : Bytes, keys[m]? = some k' → PassedBy keys r q k' := by
  obtain ⟨n, k, w, D, hk, hw, hM, hS, rfl⟩ := (C54_hit fp bmi vs h r hhr keys vals hin hint s hs q v).mp hg
  have hreal : D = shared keys k → real keys r k k = real keys r k q := by
    intro hD
    by_cases h0 : r = 0
    · subst h0
      have a := rsuf_lt q (shared keys k + 1) (r := 0) (by omega)
      have b := rsuf_lt k (shared keys k + 1) (r := 0) (by omega)
      rw [rsuf_real (by omega)] at a b
      omega
    · unfold sameSuffix at hS
      rw [if_neg h0, if_neg (by omega), hD] at hS
      exact hS.2
  refine ⟨n, k, w, D, hk, hw, rfl, hM, hreal, meets_stays hM (fun hD => (hreal hD).ge), fun m hm k' hk' => ?_⟩
  refine before_passed (List.mem_of_getElem? hk) (meets_tells hM) (List.mem_of_getElem? hk') ?_
  obtain ⟨hi, rfl⟩ := List.getElem?_eq_some_iff.mp hk'
  obtain ⟨hj, rfl⟩ := List.getElem?_eq_some_iff.mp hk
  exact List.pairwise_iff_getElem.mp hin.sorted m n hi hj hm

/-- There is one first key that is not passed over. -/
theorem first_unique {keys : List Bytes} {P : Bytes → Prop} {n m : Nat} {k y : Bytes} (hk : keys[n]? = some k) (hy : keys[m]? = some y) (h1 : ¬ P k) (h2 : ∀ i : Nat, i < n → ∀ k' : Bytes, keys[i]? = some k' → P k')
    (h3 : ¬ P y) (h4 : ∀ i : Nat, i < m → ∀ k' : Bytes, keys[i]? = some k' → P k') : n = m := by
  rcases Nat.lt_trichotomy n m with h | h | h
  · exact absurd (h4 n h k hk) h1
  · exact h
  · exact absurd (h2 m h y hy) h3

/-! ### C103 -/

/-- **C103.** In a filter without real suffixes, or with both kinds of suffixes, if `Get(q)` finds a value, `Seek(q)`, on an iterator after any calls of which no search went astray, stops on a key with this value; and this search does
not go astray either. -/
theorem C103_hit (fp : Bytes → Word) (bmi : Bool) (vs h r : Nat) (hhr : h + r ≤ 64) (hsuf : r = 0 ∨ h ≠ 0) (keys vals : List Bytes) (hin : Input vs keys vals) (hint : Int) (s : SuRF)
    (hs : build fp bmi (newBuilder vs h r) keys vals hint = some s) (it : Iterator) (hr : Reached bmi s (Supported keys s) it) (q v : Bytes) (hg : s.get fp bmi q = some (v, true)) :
    ∃ it' fl k, Supported keys s q ∧ it.seek bmi s q = some (it', fl) ∧ it'.valid = true ∧ k ∈ keys ∧ it'.key = some (form keys k) ∧ it'.value s = some v := by
  obtain ⟨n, k, w, D, hk, hw, rfl, hM, -, hstay, hpass⟩ := hit_found hhr hsuf hin hs hg
  have hkm := List.mem_of_getElem? hk
  have hsup : Supported keys s q := meets_supported hkm hM
  obtain ⟨it', fl, e, hcase⟩ := C55_seek fp bmi vs h r hhr keys vals hin hint s hs it hr q hsup
  rcases hcase with ⟨-, hall⟩ | ⟨n', k', w', hk', hw', hv, hkey, hval, hp, hbef⟩
  · exact absurd (hall k hkm) hstay
  · obtain rfl := first_unique hk hk' hstay hpass hp hbef
    rw [hk] at hk'
    rw [hw] at hw'
    cases hk'
    cases hw'
    exact ⟨it', fl, k, hsup, e, hv, hkm, hkey, hval⟩

/-! ### C104 -/

/-- **C104.** In a filter without real suffixes, or with both kinds of suffixes and real suffixes of less than 16 bits, if `Get(q)` finds a value, `HasOverlap(q, q, true)` is true exactly if the key that `Seek(q)` shows is a prefix of
`q`, or the key it stands for is taken for `q` (see C55). -/
theorem C104_point (fp : Bytes → Word) (bmi : Bool) (vs h r : Nat) (hhr : h + r ≤ 64) (h16 : r < 16) (hsuf : r = 0 ∨ h ≠ 0) (keys vals : List Bytes) (hin : Input vs keys vals) (hint : Int) (s : SuRF)
    (hs : build fp bmi (newBuilder vs h r) keys vals hint = some s) (q v : Bytes) (hg : s.get fp bmi q = some (v, true)) :
    ∃ it fl k b, s.newIterator.seek bmi s q = some (it, fl) ∧ it.valid = true ∧ k ∈ keys ∧ it.key = some (form keys k) ∧ it.value s = some v ∧ s.hasOverlap bmi q q true = some b ∧
      (b = true ↔ form keys k <+: q ∨ TakenFor keys s.ld.height q k) := by
  obtain ⟨n, k, w, D, hk, hw, rfl, hM, hreal, hstay, hpass⟩ := hit_found hhr hsuf hin hs hg
  have hkm := List.mem_of_getElem? hk
  have hsup : Supported keys s q := meets_supported hkm hM
  obtain ⟨it', fl, e, hcase⟩ := C55_seek fp bmi vs h r hhr keys vals hin hint s hs s.newIterator .new q hsup
  obtain ⟨b, eb, hb⟩ := C55_overlap fp bmi vs h r hhr h16 keys vals hin hint s hs q q hsup true
  rcases hcase with ⟨-, hall⟩ | ⟨n', k', w', hk', hw', hv, hkey, hval, hp, hbef⟩
  · exact absurd (hall k hkm) hstay
  · obtain rfl := first_unique hk hk' hstay hpass hp hbef
    rw [hk] at hk'
    rw [hw] at hw'
    cases hk'
    cases hw'
    refine ⟨it', fl, k, b, e, hv, hkm, hkey, hval, eb, hb.trans ?_⟩
    constructor
    · rintro ⟨m, y, hy, a1, a2, a3⟩
      obtain rfl := first_unique hk hy hstay hpass a1 a2
      rw [hk] at hy
      cases hy
      rcases a3 with a3 | ⟨-, a3⟩
      · rcases a3 with a3 | a3
        · exact absurd (.inl a3) hstay
        · exact .inl a3.1
      · exact .inr a3
    · intro hcase
      refine ⟨n, k, hk, hstay, hpass, ?_⟩
      rcases hcase with hf | ht
      · by_cases hi : isEnd keys k
        · rw [end_form hi] at hf
          right
          refine ⟨rfl, hi, .inl ?_⟩
          by_contra hne
          exact hstay (.inr (.inl ⟨hi, hf, hne⟩))
        · refine .inl (.inr ⟨hf, fun h => hi h.1, ?_⟩)
          rcases hM with ⟨-, -, hD⟩ | ⟨he, -⟩ | ⟨he, -⟩ | ⟨-, rfl, hh, -⟩
          · exact (hreal hD).le
          · exact absurd he hi
          · exact absurd he hi
          · have := List.prefix_nil.mp hf
            cases k with
            | nil => cases hh
            | cons a k => simp [form] at this
      · exact .inr ⟨rfl, ht⟩

/-- If no key is a prefix of another, and `q` is not empty, a hit of `Get(q)` is an overlap of the range from `q` to `q`. -/
theorem C104_free (fp : Bytes → Word) (bmi : Bool) (vs h r : Nat) (hhr : h + r ≤ 64) (h16 : r < 16) (hsuf : r = 0 ∨ h ≠ 0) (keys vals : List Bytes) (hin : Input vs keys vals) (hint : Int) (s : SuRF)
    (hs : build fp bmi (newBuilder vs h r) keys vals hint = some s) (q v : Bytes) (hg : s.get fp bmi q = some (v, true)) (hfree : ∀ k ∈ keys, ∀ y ∈ keys, k <+: y → y = k) (hq : q ≠ []) :
    s.hasOverlap bmi q q true = some true := by
  obtain ⟨n, k, w, D, hk, hw, rfl, hM, hreal, hstay, hpass⟩ := hit_found hhr hsuf hin hs hg
  have hkm := List.mem_of_getElem? hk
  have hi : ∀ {y}, y ∈ keys → ¬ isEnd keys y := by
    rintro y hy ⟨z, hz, hne, hp⟩
    exact hne (hfree y hy z hz hp)
  obtain ⟨b, eb, hb⟩ := C55_overlap fp bmi vs h r hhr h16 keys vals hin hint s hs q q (meets_supported hkm hM) true
  rw [eb, Option.some.injEq, hb]
  refine ⟨n, k, hk, hstay, hpass, .inl ?_⟩
  rcases hM with ⟨-, hf, hD⟩ | ⟨he, -⟩ | ⟨he, -⟩ | ⟨-, h, -⟩
  · exact .inr ⟨hf, fun h => hi hkm h.1, (hreal hD).le⟩
  · exact absurd he (hi hkm)
  · exact absurd he (hi hkm)
  · exact absurd h hq

/-! ### C105 -/

/-- A search for `q` passes over no key behind one that `q` leads to. -/
theorem after_stays {keys : List Bytes} {r : Nat} {q k y : Bytes} (hk : k ∈ keys) (hy : y ∈ keys) (hi : ¬ isEnd keys k) (hf : form keys k <+: q) (hlt : k < y) : ¬ PassedBy keys r q y := by
  have hne : y ≠ k := by
    rintro rfl
    exact List.lt_irrefl _ hlt
  have hD : Div q (form keys y) := by
    obtain ⟨p, c, d, u, v, rfl, rfl, hcd⟩ := div_iff.mpr ⟨hlt, fun hp => hi ⟨y, hy, hne, hp⟩⟩
    have hcd' : c ≠ d := by
      rintro rfl
      exact UInt8.lt_irrefl _ hcd
    have h1 := lcp_shared hy hne
    have h2 := lcp_shared hk hne.symm
    rw [lcp_div p u v hcd'] at h1
    rw [lcp_div p v u hcd'.symm] at h2
    have key : ∀ (m : Nat) (a : UInt8) (x : Bytes), p.length ≤ m → (p ++ a :: x).take (m + 1) = p ++ a :: x.take (m - p.length) := by
      intro m a x hm
      rw [List.take_append, List.take_of_length_le (by omega), show m + 1 - p.length = m - p.length + 1 by omega, List.take_succ_cons]
    unfold form at hf ⊢
    rw [key _ _ _ h1] at hf
    rw [key _ _ _ h2]
    obtain ⟨w, rfl⟩ := hf
    exact ⟨p, c, d, _ ++ w, _, List.append_assoc _ _ _, rfl, hcd⟩
  rintro (⟨p, -⟩ | ⟨-, p, -⟩ | ⟨-, p, -⟩)
  · exact List.lt_irrefl _ (List.lt_trans p hD.lt)
  · exact (div_not_prefix hD).2 ((List.take_prefix _ _).trans p)
  · exact (div_not_prefix hD).2 p

/-- **C105.** In a filter with real suffixes alone, if `Get(q)` finds the value of the `n`-th key, `Seek(q)`, on an iterator after any calls of which no search went astray, stops on this key if it is a prefix of another, or its suffix is
not below that of `q`; else all bits of its suffix are 0, and `Seek(q)` stops on the next key, or is invalid if there is none. -/
theorem C105_hit (fp : Bytes → Word) (bmi : Bool) (vs r : Nat) (hr0 : 0 < r) (hr64 : r ≤ 64) (keys vals : List Bytes) (hin : Input vs keys vals) (hint : Int) (s : SuRF)
    (hs : build fp bmi (newBuilder vs 0 r) keys vals hint = some s) (it : Iterator) (hr : Reached bmi s (Supported keys s) it) (q v : Bytes) (hg : s.get fp bmi q = some (v, true)) :
    ∃ n k w it' fl, keys[n]? = some k ∧ vals[n]? = some w ∧ v = w.take vs ∧ Supported keys s q ∧ it.seek bmi s q = some (it', fl) ∧
      ((isEnd keys k ∨ real keys r k q ≤ real keys r k k) ∧ it'.valid = true ∧ it'.key = some (form keys k) ∧ it'.value s = some v ∨
       ¬ isEnd keys k ∧ real keys r k k = 0 ∧ 0 < real keys r k q ∧
        (n + 1 = keys.length ∧ it'.valid = false ∨
          ∃ k' w', keys[n + 1]? = some k' ∧ vals[n + 1]? = some w' ∧ it'.valid = true ∧ it'.key = some (form keys k') ∧ it'.value s = some (w'.take vs))) := by
  obtain ⟨n, k, w, D, hk, hw, hM, hS, rfl⟩ := (C54_hit fp bmi vs 0 r (by omega) keys vals hin hint s hs q v).mp hg
  have hkm := List.mem_of_getElem? hk
  have hsup : Supported keys s q := meets_supported hkm hM
  have hsort : ∀ {i j : Nat} {a b : Bytes}, i < j → keys[i]? = some a → keys[j]? = some b → a < b := by
    intro i j a b hij ha hb
    obtain ⟨hi, rfl⟩ := List.getElem?_eq_some_iff.mp ha
    obtain ⟨hj, rfl⟩ := List.getElem?_eq_some_iff.mp hb
    exact List.pairwise_iff_getElem.mp hin.sorted i j hi hj hij
  have hpass : ∀ m : Nat, m < n → ∀ k' : Bytes, keys[m]? = some k' → PassedBy keys r q k' := fun m hm k' hk' =>
    before_passed hkm (meets_tells hM) (List.mem_of_getElem? hk') (hsort hm hk' hk)
  obtain ⟨it', fl, e, hcase⟩ := C55_seek fp bmi vs 0 r (by omega) keys vals hin hint s hs it hr q hsup
  refine ⟨n, k, w, it', fl, hk, hw, rfl, hsup, e, ?_⟩
  by_cases hc : isEnd keys k ∨ real keys r k q ≤ real keys r k k
  · have hstay : ¬ PassedBy keys r q k := by
      rcases hM with h | ⟨h1, h2, h3⟩ | h | h
      · refine meets_stays (cut := s.ld.height) (D := D) (.inl h) (fun _ => hc.resolve_left h.1)
      · rintro (⟨p, -⟩ | ⟨-, -, p⟩ | ⟨p, -⟩)
        · rw [end_form h1, h2] at p
          exact List.lt_irrefl _ p
        · exact p h2.symm
        · exact p h1
      · obtain ⟨h1, -, h2, -⟩ := h
        rintro (⟨p, -⟩ | ⟨-, p, p'⟩ | ⟨p, -⟩)
        · rw [end_form h1, h2] at p
          exact absurd p (List.not_lt.mpr (prefix_le (List.take_prefix _ _)))
        · refine p' (p.eq_of_length (Nat.le_antisymm p.length_le ?_))
          rw [h2]
          exact (List.take_prefix _ _).length_le
        · exact p h1
      · refine meets_stays (cut := s.ld.height) (D := D) (.inr (.inr (.inr h))) (fun _ => hc.resolve_left ?_)
        rintro ⟨y, hy, hne, -⟩
        rw [h.1, List.mem_singleton] at hy
        exact hne hy
    left
    refine ⟨hc, ?_⟩
    rcases hcase with ⟨-, hall⟩ | ⟨n', k', w', hk', hw', hv, hkey, hval, hp, hbef⟩
    · exact absurd (hall k hkm) hstay
    · obtain rfl := first_unique hk hk' hstay hpass hp hbef
      rw [hk] at hk'
      rw [hw] at hw'
      cases hk'
      cases hw'
      exact ⟨hv, hkey, hval⟩
  · right
    rw [not_or, Nat.not_le] at hc
    obtain ⟨hi, hlt⟩ := hc
    have hf : form keys k <+: q ∧ D = shared keys k := by
      rcases hM with ⟨-, h, h'⟩ | ⟨h, -⟩ | ⟨h, -⟩ | ⟨-, rfl, -, -⟩
      · exact ⟨h, h'⟩
      · exact absurd h hi
      · exact absurd h hi
      · have : realBits r (shared keys k + 1) [] = none := by
          rw [realBits_none]
          simp
        unfold real at hlt
        rw [this] at hlt
        simp at hlt
    obtain ⟨hf, rfl⟩ := hf
    have h0 : real keys r k k = 0 := by
      unfold sameSuffix at hS
      rw [if_neg (by omega), if_pos rfl] at hS
      unfold real at hlt ⊢
      rcases hS with h | h | h
      · rw [h]; rfl
      · rw [h]; rfl
      · rw [h] at hlt
        omega
    refine ⟨hi, h0, by omega, ?_⟩
    have hpk : PassedBy keys r q k := .inr (.inr ⟨hi, hf, hlt⟩)
    have hnext : ∀ {i : Nat} {y : Bytes}, n < i → keys[i]? = some y → ¬ PassedBy keys r q y := fun hni hy =>
      after_stays hkm (List.mem_of_getElem? hy) hi hf (hsort hni hk hy)
    have hn := (List.getElem?_eq_some_iff.mp hk).1
    rcases hcase with ⟨hv, hall⟩ | ⟨n', k', w', hk', hw', hv, hkey, hval, hp, hbef⟩
    · left
      refine ⟨?_, hv⟩
      by_contra hne
      have hl : n + 1 < keys.length := by omega
      exact hnext (Nat.lt_succ_self n) (List.getElem?_eq_getElem hl) (hall _ (List.getElem_mem hl))
    · right
      have hn' : n' = n + 1 := by
        have h1 : ¬ n' < n := fun h => hp (hpass n' h k' hk')
        have h2 : n' ≠ n := by
          rintro rfl
          rw [hk] at hk'
          cases hk'
          exact hp hpk
        have hl := (List.getElem?_eq_some_iff.mp hk').1
        by_contra hne
        have hl' : n + 1 < keys.length := by omega
        exact hnext (Nat.lt_succ_self n) (List.getElem?_eq_getElem hl') (hbef (n + 1) (by omega) _ (List.getElem?_eq_getElem hl'))
      subst hn'
      exact ⟨k', w', hk', hw', hv, hkey, hval⟩

/-! ### Examples -/

/-- In a filter with "ab", "ac" and "k": `Get` of "acz" and of "kkk" finds values, and `Seek` stops on the keys these belong to. -/
theorem C103_example : (build (fun _ => 0) true (newBuilder 1 0 0) [[97, 98], [97, 99], [107]] [[0], [1], [2]] 10000).bind (fun s =>
    (s.get (fun _ => 0) true [97, 99, 122]).bind fun g1 => (s.get (fun _ => 0) true [107, 107, 107]).bind fun g2 =>
    (s.newIterator.seek true s [97, 99, 122]).bind fun x1 => (s.newIterator.seek true s [107, 107, 107]).map fun x2 => ([g1, g2], [x1.1.key, x2.1.key], [x1.1.value s, x2.1.value s])) =
    some ([([1], true), ([2], true)], [some [97, 99], some [107]], [some [1], some [2]]) := by
  decide +kernel

/-- With real suffixes alone they may differ (see C105): the key "a" is too short for a suffix of four bits, so `Get` of "az" finds it, but `Seek` passes over it. -/
theorem C103_witness : (build (fun _ => 0) true (newBuilder 1 0 4) [[97], [98, 99]] [[0], [1]] 10000).bind (fun s =>
    (s.get (fun _ => 0) true [97, 122]).bind fun g => (s.newIterator.seek true s [97, 122]).map fun x => (g, x.1.key, x.1.value s)) = some (([0], true), some [98], some [1]) := by
  decide +kernel

/-- In a filter with "ab", "ac" and "k", `Get` of "acz" finds a value, and the range from "acz" to "acz" overlaps. -/
theorem C104_example : (build (fun _ => 0) true (newBuilder 1 0 0) [[97, 98], [97, 99], [107]] [[0], [1], [2]] 10000).bind (fun s =>
    (s.get (fun _ => 0) true [97, 99, 122]).bind fun g => (s.hasOverlap true [97, 99, 122] [97, 99, 122] true).map fun b => (g, b)) = some (([1], true), true) := by
  decide +kernel

/-- In a filter with "a", "kab" and "kabc" and no dense level, `Get` of "k" finds the value of "kab", `Seek` stops there, but the range from "k" to "k" does not overlap: the key is longer than the end, and the node that holds it is not
the first sparse one. -/
theorem C104_witness : (build (fun _ => 0) true (newBuilder 1 0 0) [[97], [107, 97, 98], [107, 97, 98, 99]] [[0], [1], [2]] 0).bind (fun s =>
    (s.get (fun _ => 0) true [107]).bind fun g => (s.newIterator.seek true s [107]).bind fun x => (s.hasOverlap true [107] [107] true).map fun b => (g, x.1.key, b)) = some (([1], true), some [107, 97, 98], false) := by
  decide +kernel

/-- With real suffixes of four bits and the keys "az" and "bc": `Get` of "azz" finds "az", and `Seek` stops there. The same for "a" and "bc": `Get` of "az" finds "a", but `Seek` stops on the next key. -/
theorem C105_example : (build (fun _ => 0) true (newBuilder 1 0 4) [[97, 122], [98, 99]] [[0], [1]] 10000).bind (fun s =>
    (build (fun _ => 0) true (newBuilder 1 0 4) [[97], [98, 99]] [[0], [1]] 10000).bind fun s' =>
    (s.get (fun _ => 0) true [97, 122, 122]).bind fun g => (s.newIterator.seek true s [97, 122, 122]).bind fun x =>
    (s'.get (fun _ => 0) true [97, 122]).bind fun g' => (s'.newIterator.seek true s' [97, 122]).map fun x' => ([g, g'], [x.1.value s, x'.1.value s'])) =
    some ([([0], true), ([0], true)], [some [0], some [1]]) ∧ real [[97], [98, 99]] 4 [97] [97] = 0 ∧ 0 < real [[97], [98, 99]] 4 [97] [97, 122] := by
  decide +kernel

end Surf.Props
