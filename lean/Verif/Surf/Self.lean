import Verif.Surf.Overlap
import Verif.Surf.Shape

/-!
# Searching for a stored key

A search for a stored key stops on it, and the comparison with it does not find a difference.
-/

set_option linter.unusedSimpArgs false

namespace Surf

section
variable {cfg : Config} {fp : Bytes → Word} {s : SuRF} {t0 t : Grp} {cut h : Nat} {R r W : List Frame} {ip iq : List Item} {i : Item}

/-- A stored key is not passed over by the search for it. -/
theorem not_passed (hcfg : cfg.Fine) {x : KV} : ¬ Passed cfg fp t0 x.1 x := by
  rintro ⟨m, tm, -, hd | ⟨-, -, hne⟩ | ⟨-, -, hlt⟩⟩
  · exact absurd (hd.ext_left (List.take_prefix _ _)).lt (List.lt_irrefl _)
  · exact hne rfl
  · rw [sufCmp_self hcfg _ _ _ _ rfl] at hlt
    exact absurd hlt (by decide)

/-- The keys below a stored key do not stop the search for it. -/
theorem not_stays (h0 : t0.Good) {x y : KV} (hx : x ∈ t0.kvs) (hlt : y.1 < x.1) : ¬ Stays cfg fp t0 x.1 y := by
  rintro ⟨m, tm, hL, hd | hp | ⟨rfl, hp, -⟩⟩
  · exact absurd (List.lt_trans hlt (hd.ext_right (List.take_prefix _ _)).lt) (List.lt_irrefl _)
  · exact absurd hlt (List.not_lt.mpr (prefix_le (hp.trans (List.take_prefix _ _))))
  · have hl := hL.long h0
    obtain ⟨W, t, ip, i, iq, w, e, hy, rfl, -⟩ := hL
    have hne : x ≠ y := by
      rintro rfl
      exact absurd hlt (List.lt_irrefl _)
    have hle : lcpLen y.1 x.1 ≤ t.bd := by
      rcases leaf_lcp h0 w e hy hx hne with ⟨-, h1⟩ | ⟨h1, -⟩ <;> omega
    obtain ⟨u, hu⟩ := hp
    have := lcpLen_append (y.1.take (t.bd + 1)) (y.1.drop (t.bd + 1)) u
    rw [List.take_append_drop, hu, List.length_take] at this
    omega

/-- **Searching for a stored key.** -/
theorem Built.i_seek_self (B : Built cfg fp s t0 cut h) (bmi : Bool) (hd : t0.d = 0) (hs : t0.kvs.Pairwise (·.1 < ·.1)) {x : KV} {b c : List KV} (hx : t0.kvs = b ++ x :: c) (hns : Clear t0 cut x.1) {it : Iterator} (hr : Ready cut h it) :
    ∃ it' fl, it.seek bmi s x.1 = some (it', fl) ∧ At t0 cut h it' b x := by
  obtain ⟨it', fl, b', a1, ⟨hb, c', ec, hc⟩, a2⟩ := B.i_seek bmi hd x.1 hns hr
  refine ⟨it', fl, a1, ?_⟩
  have hxm : x ∈ t0.kvs := by rw [hx]; simp
  have hxc : x ∈ c' := by
    have := hxm
    rw [ec, List.mem_append] at this
    rcases this with h1 | h1
    · exact absurd (hb x h1) (not_passed B.cfgok)
    · exact h1
  rcases a2 with ⟨rfl, -⟩ | ⟨y, a2⟩
  · have : c' = [] := by simpa using ec
    rw [this] at hxc
    simp at hxc
  · obtain ⟨d, ed⟩ := a2.split
    have hyd : c' = y :: d := by
      rw [ec] at ed
      exact List.append_cancel_left ed
    subst hyd
    have hyx : y = x := by
      rw [List.mem_cons] at hxc
      rcases hxc with h1 | h1
      · exact h1.symm
      · exfalso
        refine not_stays B.root hxm ?_ (hc y (by simp))
        rw [ed, List.pairwise_append, List.pairwise_cons] at hs
        exact hs.2.1.1 x h1
    subst hyx
    have hbb : b' = b := by
      rw [ed] at hx
      rw [ed] at hs
      rcases List.append_eq_append_iff.mp hx with ⟨u, h1, h2⟩ | ⟨u, h1, h2⟩
      · cases u with
        | nil => simpa using h1.symm
        | cons z u =>
          exfalso
          rw [List.cons_append, List.cons.injEq] at h2
          have : y ∈ d := by rw [h2.2]; simp
          rw [List.pairwise_append, List.pairwise_cons] at hs
          exact absurd (hs.2.1.1 y this) (List.lt_irrefl _)
      · cases u with
        | nil => simpa using h1
        | cons z u =>
          exfalso
          rw [List.cons_append, List.cons.injEq] at h2
          have : y ∈ b' := by rw [h1, h2.1]; simp
          rw [List.pairwise_append] at hs
          exact absurd (hs.2.2 y this y (by simp)) (List.lt_irrefl _)
    rw [← hbb]
    exact a2

theorem bytesCompare_self (a : Bytes) : bytesCompare a a = 0 := by
  induction a with
  | nil => rfl
  | cons c a ih =>
    unfold bytesCompare
    rw [if_neg (UInt8.lt_irrefl c), if_neg (UInt8.lt_irrefl c), ih]

theorem cmp_prefix {f q : Bytes} (h : f <+: q) : bytesCompare (f.take (min f.length q.length)) (q.take (min f.length q.length)) = 0 := by
  have := h.length_le
  rw [Nat.min_eq_left this, List.take_length, ← List.prefix_iff_eq_take.mp h, bytesCompare_self]

theorem DLeaf.compare_self {it : DenseIter} (B : Built cfg fp s t0 cut h) (hd : t0.d = 0) (hl : DLeaf t0 cut it W t ip i iq) {x : KV} (hx : i.kvs = [x]) :
    ∃ c, it.compare s.ld x.1 = some c ∧ (c = 0 ∨ c = couldBePositive) := by
  have hk := hl.key B hd hx
  obtain ⟨a1, a2, a3⟩ := hl.way.leaf_key B hd hl.items hx
  have hf : x.1.take (t.bd + 1) <+: x.1 := List.take_prefix _ _
  have hpk : it.atPrefixKey = i.term := by
    rcases hl.place with ⟨b1, b2, -⟩ | ⟨b1, b2, -⟩ <;> rw [b1, b2]
  have hcomp : it.isComplete = true := by
    unfold DenseIter.isComplete
    rw [hl.comp.1, hl.comp.2.1, hl.comp.2.2]
    rfl
  have hsuf : ∃ pos, it.posInTrie[it.level]? = some pos ∧ ∀ level, (s.ld.suffixPos pos it.atPrefixKey).bind (fun sp => s.ld.suffixes.compare x.1 sp level) = some (sufCmp cfg (cfg.suffix fp x.1 (t.bd + 1)) x.1 level) := by
    have hg := (hl.way.good B.root).toOK
    rcases hl.place with ⟨b1, b2, b3⟩ | ⟨b1, b2, j, iq', b4, b3⟩
    · refine ⟨_, by rw [b3.lev]; exact b3.pos, fun level => B.d_compare hl.way hl.lt hl.items hl.leaf hx ?_ x.1 level⟩
      intro pre post e2 e3 hv
      rw [b2, ← e2]
      exact hv.leafPos e3 hg hl.items b1 hl.leaf
    · have hip : ip = [] := by
        cases ip with
        | nil => rfl
        | cons z ip =>
          have := (sorted_after (ip := []) (j := z) hg hl.items i (by simp)).1
          rw [b1] at this
          simp at this
      subst hip
      have hit := hl.items
      rw [b4] at hit
      refine ⟨_, by rw [b3.lev]; exact b3.pos, fun level => B.d_compare hl.way hl.lt hl.items hl.leaf hx ?_ x.1 level⟩
      intro pre post e2 e3 hv
      rw [b2, ← e2]
      exact hv.endPosAt e3 hg hit b1 ((sorted_after (ip := []) hg hit j (by simp)).1)
  obtain ⟨pos, p1, p2⟩ := hsuf
  unfold DenseIter.compare
  rw [hk]
  simp only [Option.bind_eq_bind, Option.bind_some, Option.pure_def]
  rw [cmp_prefix hf, if_neg (by omega), if_neg (by have := hf.length_le; omega), hpk, hcomp]
  by_cases hq : (x.1.take (t.bd + 1)).length = x.1.length ∧ i.term = true
  · rw [if_pos hq]
    exact ⟨_, rfl, .inl rfl⟩
  · rw [if_neg hq, if_pos rfl, p1]
    simp only [Option.bind_some]
    rw [← hpk, p2]
    refine ⟨_, rfl, .inr (sufCmp_self B.cfgok _ _ _ _ ?_)⟩
    cases hterm : i.term with
    | true =>
      exfalso
      refine hq ⟨?_, hterm⟩
      rw [List.take_of_length_le (by have := (a3 hterm).2; omega)]
    | false =>
      have hL : Leaf t0 x t.bd false := ⟨W, t, ip, i, iq, hl.way, hl.items, hx, rfl, hterm⟩
      rw [List.length_take, Nat.min_eq_left (hL.long B.root)]

theorem SLeaf.compare_self {it : SparseIter} (B : Built cfg fp s t0 cut h) (hd : t0.d = 0) (h16 : cfg.realSuffixLen < 16 ∨ cut = 0) (hl : SLeaf t0 cut h it R r t ip i iq) {x : KV} (hx : i.kvs = [x]) :
    ∃ c, it.compare s.ls x.1 = some c ∧ (c = 0 ∨ c = couldBePositive) := by
  have hk := hl.key
  obtain ⟨a1, a2, a3⟩ := hl.way.leaf_key B hd hl.items hx
  have hf : x.1.take (t.bd + 1) <+: x.1 := List.take_prefix _ _
  have hfe : x.1.take (t.bd + 1) = str R ++ (str r ++ t.pre ++ if i.term then [] else [i.label]) := by
    rw [str_append] at a2 a3
    cases ht : i.term with
    | false =>
      rw [← a2 ht]
      simp
    | true =>
      obtain ⟨b1, b2⟩ := a3 ht
      rw [List.take_of_length_le (by omega), ← b1]
      simp
  have hcut : cut ≤ (r ++ R).length := by
    rw [List.length_append, hl.len]
    omega
  have hR : str R <+: x.1 := by
    refine List.IsPrefix.trans ?_ hf
    rw [hfe]
    exact List.prefix_append _ _
  unfold SparseIter.compare
  rw [hk, hl.depth, hl.term]
  simp only [Option.bind_eq_bind, Option.bind_some, Option.pure_def]
  have hRl := hR.length_le
  rw [if_neg (by omega)]
  generalize hke : (str r ++ t.pre ++ if i.term then [] else [i.label]) = k at *
  have hkd : k <+: x.1.drop (str R).length := by
    have := hf
    rw [hfe] at this
    obtain ⟨u, hu⟩ := this
    refine ⟨u, ?_⟩
    rw [← hu, List.append_assoc, List.drop_left' rfl]
  have hlen : (x.1.take (t.bd + 1)).length = (str R).length + k.length := by rw [hfe, List.length_append]
  by_cases h0 : (str R).length = x.1.length
  · rw [if_pos h0]
    cases ht : i.term with
    | true => exact ⟨_, rfl, .inl rfl⟩
    | false =>
      exfalso
      have h1 := hf.length_le
      rw [ht] at hke
      rw [hlen, ← hke] at h1
      simp at h1
      omega
  · rw [if_neg h0, cmp_prefix hkd, if_neg (by omega), if_neg (by have := hkd.length_le; omega)]
    by_cases hq : k.length = (x.1.drop (str R).length).length ∧ i.term = true
    · rw [if_pos hq]
      exact ⟨_, rfl, .inl rfl⟩
    · rw [if_neg hq, hl.place.lev, hl.place.pos]
      simp only [Option.bind_some]
      rw [B.s_compare hl.way hcut hl.items hl.leaf hx]
      refine ⟨_, rfl, .inr (sufCmp_self B.cfgok _ _ _ _ ?_)⟩
      cases hterm : i.term with
      | true =>
        exfalso
        refine hq ⟨?_, hterm⟩
        rw [List.take_of_length_le (by have := (a3 hterm).2; omega)] at hlen
        rw [List.length_drop]
        omega
      | false =>
        have hL : Leaf t0 x t.bd false := ⟨r ++ R, t, ip, i, iq, hl.way, hl.items, hx, rfl, hterm⟩
        rw [List.length_take, Nat.min_eq_left (hL.long B.root)] at hlen
        rcases h16 with h16 | h16
        · rw [rsuf_drop hRl _ h16, ← hlen]
        · have : R = [] := List.eq_nil_of_length_eq_zero (by rw [hl.len, h16])
          subst this
          simp only [str, List.length_nil, Nat.zero_add, List.drop_zero] at hlen ⊢
          rw [← hlen]

/-- The comparison of the position with its own key. -/
theorem Stand.compare_self {it : Iterator} (B : Built cfg fp s t0 cut h) (hd : t0.d = 0) (h16 : cfg.realSuffixLen < 16 ∨ cut = 0) (hs : Stand t0 cut h it W t ip i iq) {x : KV} (hx : i.kvs = [x]) :
    ∃ c, it.compare s x.1 = some c ∧ (c = 0 ∨ c = couldBePositive) := by
  unfold Iterator.compare
  rcases hs with ⟨h1, -⟩ | ⟨R, r, T, sc, l, rc, rfl, h1, hf, -, h2⟩
  · obtain ⟨c, e, v⟩ := h1.compare_self B hd hx
    rw [e]
    have hcomp : it.d.isComplete = true := by
      unfold DenseIter.isComplete
      rw [h1.comp.1, h1.comp.2.1, h1.comp.2.2]
      rfl
    refine ⟨c, ?_, v⟩
    simp [hcomp]
  · have hcomp : it.d.isComplete = false := by
      unfold DenseIter.isComplete
      rw [h1.comp.1, h1.comp.2.1, h1.comp.2.2, hf]
    have hk : it.d.key = some (str R) := by
      unfold DenseIter.key
      rw [h1.pref, h1.buf]
      rfl
    obtain ⟨a1, a2, a3⟩ := h2.way.leaf_key B hd h2.items hx
    have hR : str R <+: x.1 := by
      have : str R <+: str (r ++ R) ++ t.pre := by rw [str_append]; simp
      rw [← h2.way.str_bd B.root hd a1] at this
      exact this.trans (List.take_prefix _ _)
    unfold DenseIter.compare
    rw [hk, hcomp, h1.pref]
    simp only [Option.bind_eq_bind, Option.bind_some, Option.pure_def]
    rw [cmp_prefix hR, if_neg (by omega), if_neg (by have := hR.length_le; omega), if_neg (by simp), if_neg (by simp)]
    simp only [Option.bind_some]
    rw [if_neg (by simp)]
    exact h2.compare_self B hd h16 hx

theorem Built.overlap_self (B : Built cfg fp s t0 cut h) (bmi : Bool) (hd : t0.d = 0) (h16 : cfg.realSuffixLen < 16 ∨ cut = 0) (hs : t0.kvs.Pairwise (·.1 < ·.1)) {x : KV} (hx : x ∈ t0.kvs) (hns : Clear t0 cut x.1) :
    s.hasOverlap bmi x.1 x.1 true = some true := by
  obtain ⟨b, c, e⟩ := List.append_of_mem hx
  obtain ⟨it', fl, a1, a2⟩ := B.i_seek_self bmi hd hs e hns B.newReady
  obtain ⟨W, t, ip, i, iq, hst, -, hiy⟩ := id a2
  obtain ⟨cmp, e2, v⟩ := hst.compare_self B hd h16 hiy
  unfold SuRF.hasOverlap
  have hne : ¬ (s.ld.height = 0 ∧ s.ls.height = 0) := by
    rw [B.hs]
    have := B.lt
    omega
  rw [if_neg hne, a1]
  simp only [Option.bind_eq_bind, Option.bind_some, Option.pure_def]
  rw [a2.valid]
  simp only [Bool.not_true, Bool.false_eq_true, if_false]
  rw [e2]
  simp only [Option.bind_some, if_true]
  rcases v with rfl | rfl
  · rfl
  · rfl

end

end Surf
