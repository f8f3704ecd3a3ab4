import Verif.Surf.SufOrder

/-!
# Comparing the position of an iterator with a key

What `Iterator.compare` and, with it, `HasOverlap` answer, for real suffixes of less than 16 bits.
-/

set_option linter.unusedSimpArgs false

namespace Surf

/-- The outcome `c` of a comparison does not contradict the order of the keys `x` and `q`. -/
structure Verdict (x q : Bytes) (c : Int) : Prop where
  neg : c < 0 → x < q
  zero : c = 0 → q ≤ x
  pos : 0 < c → c ≠ couldBePositive → q < x

theorem bytesCompare_pos : ∀ (a b : Bytes), bytesCompare a b = -1 ∨ bytesCompare a b = 0 ∨ bytesCompare a b = 1 := by
  intro a
  induction a with
  | nil => intro b; cases b <;> simp [bytesCompare]
  | cons c a ih =>
    intro b
    cases b with
    | nil => simp [bytesCompare]
    | cons d b =>
      unfold bytesCompare
      split
      · simp
      · split
        · simp
        · exact ih b

/-- Comparing as far as both go. -/
theorem cmpTake_spec (a q : Bytes) {n : Nat} (hn : n = min a.length q.length) :
    (bytesCompare (a.take n) (q.take n) = -1 ∧ Div a q) ∨ (bytesCompare (a.take n) (q.take n) = 0 ∧ a.length ≤ q.length ∧ a <+: q) ∨
    (bytesCompare (a.take n) (q.take n) = 0 ∧ q.length < a.length ∧ q <+: a) ∨ (bytesCompare (a.take n) (q.take n) = 1 ∧ Div q a) := by
  obtain ⟨h1, h2, h3⟩ := bytesCompare_spec (a.take n) (q.take n)
  have hl1 : (a.take n).length = n := by rw [List.length_take]; omega
  have hl2 : (q.take n).length = n := by rw [List.length_take]; omega
  have hno : ∀ {u v : Bytes}, u.length = n → v.length = n → u <+: v → u ≠ v → False := fun e1 e2 hp hne => hne (hp.eq_of_length (by omega))
  rcases bytesCompare_pos (a.take n) (q.take n) with e | e | e
  · rcases h1 (by omega) with h | ⟨h, hne⟩
    · exact .inl ⟨e, (h.ext_left (List.take_prefix _ _)).ext_right (List.take_prefix _ _)⟩
    · exact (hno hl1 hl2 h hne).elim
  · have h := h2 e
    rcases Nat.lt_or_ge q.length a.length with hlt | hle
    · refine .inr (.inr (.inl ⟨e, hlt, ?_⟩))
      rw [List.take_of_length_le (l := q) (by omega)] at h
      rw [← h]
      exact List.take_prefix _ _
    · refine .inr (.inl ⟨e, hle, ?_⟩)
      rw [List.take_of_length_le (l := a) (by omega)] at h
      rw [h]
      exact List.take_prefix _ _
  · rcases h3 (by omega) with h | ⟨h, hne⟩
    · exact .inr (.inr (.inr ⟨e, (h.ext_left (List.take_prefix _ _)).ext_right (List.take_prefix _ _)⟩))
    · exact (hno hl2 hl1 h hne).elim

section
variable {cfg : Config} {fp : Bytes → Word} {s : SuRF} {t0 t : Grp} {cut h : Nat} {R r W : List Frame} {ip iq : List Item} {i : Item}

theorem Verdict.of_div {x q f : Bytes} (hf : f <+: x) (hd : Div f q) : Verdict x q (-1) :=
  ⟨fun _ => (hd.ext_left hf).lt, fun h => absurd h (by omega), fun h => absurd h (by omega)⟩

theorem Verdict.of_div' {x q f : Bytes} (hf : f <+: x) (hd : Div q f) : Verdict x q 1 :=
  ⟨fun h => absurd h (by omega), fun h => absurd h (by omega), fun _ _ => (hd.ext_right hf).lt⟩

theorem Verdict.longer {x q f : Bytes} (hf : f <+: x) (hp : q <+: f) (hl : q.length < f.length) : Verdict x q 1 := by
  refine ⟨fun h => absurd h (by omega), fun h => absurd h (by omega), fun _ _ => prefix_lt (hp.trans hf) ?_⟩
  rintro rfl
  have := hf.length_le
  omega

/-- The comparison of suffixes. -/
theorem verdict_suf (B : Built cfg fp s t0 cut h) (hd : t0.d = 0) (h16 : cfg.realSuffixLen < 16) (h8 : Roomy cfg t0) (w : Way t0 W t) (e : t.items = ip ++ i :: iq) {x : KV} (hx : i.kvs = [x]) {q q' : Bytes} {l : Nat}
    (hp : x.1.take (t.bd + 1) <+: q) (ht : i.term = true → x.1 ≠ q) (hr : RoomyFor cfg t0 q) (hq : rsuf q' l cfg.realSuffixLen = rsuf q (x.1.take (t.bd + 1)).length cfg.realSuffixLen) :
    Verdict x.1 q (sufCmp cfg (cfg.suffix fp x.1 (t.bd + 1)) q' l) := by
  obtain ⟨a1, a2, a3⟩ := w.leaf_key B hd e hx
  have hcases := sufCmp_cases (fp := fp) B.cfgok x.1 q' (t.bd + 1) l
  rw [hq] at hcases
  have hi : i ∈ t.items := by rw [e]; simp
  cases hterm : i.term with
  | false =>
    have hl := (item_label (w.good B.root).toOK hi hterm (x := x) (by rw [hx]; simp)).2.1
    have hlen : (x.1.take (t.bd + 1)).length = t.bd + 1 := by rw [List.length_take]; omega
    rw [hlen] at hcases
    have hL : Leaf t0 x t.bd false := ⟨W, t, ip, i, iq, w, e, hx, rfl, hterm⟩
    have ho : rsuf x.1 (t.bd + 1) cfg.realSuffixLen < rsuf q (t.bd + 1) cfg.realSuffixLen → x.1 < q := by
      intro hlt
      rw [← hlen] at hlt
      exact rsuf_order (List.take_prefix _ _) hp h16 (by rw [hlen]; exact h8 x _ hL) hlt
    have ho' : rsuf q (t.bd + 1) cfg.realSuffixLen < rsuf x.1 (t.bd + 1) cfg.realSuffixLen → q < x.1 := by
      intro hlt
      rw [← hlen] at hlt
      exact rsuf_order hp (List.take_prefix _ _) h16 (by rw [hlen]; exact hr x _ hL hp) hlt
    rcases hcases with e | ⟨e, hlt⟩ | ⟨e, hlt⟩
    · rw [e]
      exact ⟨fun h => absurd h (by decide), fun h => absurd h (by decide), fun _ h => absurd rfl h⟩
    · rw [e]
      exact ⟨fun _ => ho hlt, fun h => absurd h (by omega), fun h => absurd h (by omega)⟩
    · rw [e]
      exact ⟨fun h => absurd h (by omega), fun h => absurd h (by omega), fun _ _ => ho' hlt⟩
  | true =>
    have hl := (a3 hterm).2
    rw [List.take_of_length_le (by omega)] at hp
    rcases hcases with e | ⟨e, hlt⟩ | ⟨e, hlt⟩
    · rw [e]
      exact ⟨fun h => absurd h (by decide), fun h => absurd h (by decide), fun _ h => absurd rfl h⟩
    · rw [e]
      exact ⟨fun _ => prefix_lt hp (ht hterm), fun h => absurd h (by omega), fun h => absurd h (by omega)⟩
    · exfalso
      have : rsuf x.1 (t.bd + 1) cfg.realSuffixLen = 0 := rsuf_short (by omega)
      omega

theorem DLeaf.compare {it : DenseIter} (B : Built cfg fp s t0 cut h) (hd : t0.d = 0) (h16 : cfg.realSuffixLen < 16) (h8 : Roomy cfg t0) (hl : DLeaf t0 cut it W t ip i iq) {x : KV} (hx : i.kvs = [x]) (q : Bytes) (hr : RoomyFor cfg t0 q) :
    ∃ c, it.compare s.ld q = some c ∧ Verdict x.1 q c := by
  have hk := hl.key B hd hx
  obtain ⟨a1, a2, a3⟩ := hl.way.leaf_key B hd hl.items hx
  have hf : x.1.take (t.bd + 1) <+: x.1 := List.take_prefix _ _
  have hpk : it.atPrefixKey = i.term := by
    rcases hl.place with ⟨b1, b2, -⟩ | ⟨b1, b2, -⟩ <;> rw [b1, b2]
  have hcomp : it.isComplete = true := by
    unfold DenseIter.isComplete
    rw [hl.comp.1, hl.comp.2.1, hl.comp.2.2]
    rfl
  have hsuf : ∃ pos, it.posInTrie[it.level]? = some pos ∧ ∀ level, (s.ld.suffixPos pos it.atPrefixKey).bind (fun sp => s.ld.suffixes.compare q sp level) = some (sufCmp cfg (cfg.suffix fp x.1 (t.bd + 1)) q level) := by
    have hg := (hl.way.good B.root).toOK
    rcases hl.place with ⟨b1, b2, b3⟩ | ⟨b1, b2, j, iq', b4, b3⟩
    · refine ⟨_, by rw [b3.lev]; exact b3.pos, fun level => B.d_compare hl.way hl.lt hl.items hl.leaf hx ?_ q level⟩
      intro pre post e2 e3 hv
      rw [b2, ← e2]
      exact hv.leafPos e3 hg hl.items b1 hl.leaf
    · have hip : ip = [] := by
        cases ip with
        | nil => rfl
        | cons z ip =>
          have := (sorted_after (ip := []) (j := z) hg hl.items i (by simp)).1
          rw [b1] at this
          simp at this
      subst hip
      have hit := hl.items
      rw [b4] at hit
      refine ⟨_, by rw [b3.lev]; exact b3.pos, fun level => B.d_compare hl.way hl.lt hl.items hl.leaf hx ?_ q level⟩
      intro pre post e2 e3 hv
      rw [b2, ← e2]
      exact hv.endPosAt e3 hg hit b1 ((sorted_after (ip := []) hg hit j (by simp)).1)
  obtain ⟨pos, p1, p2⟩ := hsuf
  unfold DenseIter.compare
  rw [hk]
  simp only [Option.bind_eq_bind, Option.bind_some, Option.pure_def]
  generalize hfe : x.1.take (t.bd + 1) = f at *
  rcases cmpTake_spec f q rfl with ⟨c1, c2⟩ | ⟨c1, c2, c3⟩ | ⟨c1, c2, c3⟩ | ⟨c1, c2⟩
  · rw [c1, if_pos (by omega)]
    exact ⟨_, rfl, .of_div hf c2⟩
  · rw [c1, if_neg (by omega), if_neg (by omega), hpk, hcomp]
    by_cases hq : f.length = q.length ∧ i.term = true
    · rw [if_pos hq]
      refine ⟨_, rfl, fun h => absurd h (by omega), fun _ => ?_, fun h => absurd h (by omega)⟩
      rw [← c3.eq_of_length hq.1]
      exact prefix_le hf
    · rw [if_neg hq, if_pos rfl, p1]
      simp only [Option.bind_some]
      rw [← hpk, p2]
      refine ⟨_, rfl, verdict_suf B hd h16 h8 hl.way hl.items hx (by rw [hfe]; exact c3) (fun ht he => hq ⟨?_, ht⟩) hr (by rw [hfe])⟩
      rw [← hfe, ← he, List.take_of_length_le (by have := (a3 ht).2; omega)]
  · rw [c1, if_neg (by omega), if_pos (by omega)]
    exact ⟨_, rfl, .longer hf c3 c2⟩
  · rw [c1, if_pos (by omega)]
    exact ⟨_, rfl, .of_div' hf c2⟩

theorem SLeaf.compare {it : SparseIter} (B : Built cfg fp s t0 cut h) (hd : t0.d = 0) (h16 : cfg.realSuffixLen < 16) (h8 : Roomy cfg t0) (hl : SLeaf t0 cut h it R r t ip i iq) {x : KV} (hx : i.kvs = [x]) {q : Bytes} (hq : str R <+: q) (hr : RoomyFor cfg t0 q) :
    ∃ c, it.compare s.ls q = some c ∧ Verdict x.1 q c := by
  have hk := hl.key
  obtain ⟨a1, a2, a3⟩ := hl.way.leaf_key B hd hl.items hx
  have hf : x.1.take (t.bd + 1) <+: x.1 := List.take_prefix _ _
  have hfe : x.1.take (t.bd + 1) = str R ++ (str r ++ t.pre ++ if i.term then [] else [i.label]) := by
    rw [str_append] at a2 a3
    cases ht : i.term with
    | false =>
      rw [← a2 ht]
      simp
    | true =>
      obtain ⟨b1, b2⟩ := a3 ht
      rw [List.take_of_length_le (by omega), ← b1]
      simp
  obtain ⟨q', rfl⟩ := hq
  have hcut : cut ≤ (r ++ R).length := by
    rw [List.length_append, hl.len]
    omega
  unfold SparseIter.compare
  rw [hk, hl.depth, hl.term]
  simp only [Option.bind_eq_bind, Option.bind_some, Option.pure_def]
  rw [if_neg (by simp)]
  by_cases h0 : (str R).length = (str R ++ q').length
  · rw [if_pos h0]
    have : q' = [] := List.eq_nil_of_length_eq_zero (by rw [List.length_append] at h0; omega)
    subst this
    rw [List.append_nil]
    have hp : str R <+: x.1.take (t.bd + 1) := by rw [hfe]; exact List.prefix_append _ _
    cases ht : i.term with
    | true => exact ⟨_, rfl, fun h => absurd h (by simp), fun _ => prefix_le (hp.trans hf), fun h => absurd h (by simp)⟩
    | false =>
      refine ⟨_, rfl, .longer hf hp ?_⟩
      rw [hfe, ht]
      simp
  · rw [if_neg h0, List.drop_left' rfl]
    generalize hke : (str r ++ t.pre ++ if i.term then [] else [i.label]) = k at *
    have hle : k <+: q' → x.1.take (t.bd + 1) <+: str R ++ q' := by
      intro h
      rw [hfe, List.prefix_append_right_inj]
      exact h
    rcases cmpTake_spec k q' rfl with ⟨c1, c2⟩ | ⟨c1, c2, c3⟩ | ⟨c1, c2, c3⟩ | ⟨c1, c2⟩
    · rw [c1, if_pos (by omega)]
      exact ⟨_, rfl, .of_div hf (by rw [hfe]; exact c2.prepend _)⟩
    · rw [c1, if_neg (by omega), if_neg (by omega)]
      by_cases hq : k.length = q'.length ∧ i.term = true
      · rw [if_pos hq]
        refine ⟨_, rfl, fun h => absurd h (by omega), fun _ => ?_, fun h => absurd h (by omega)⟩
        rw [← c3.eq_of_length hq.1, ← hfe]
        exact prefix_le hf
      · rw [if_neg hq, hl.place.lev, hl.place.pos]
        simp only [Option.bind_some]
        rw [B.s_compare hl.way hcut hl.items hl.leaf hx]
        refine ⟨_, rfl, verdict_suf B hd h16 h8 hl.way hl.items hx (hle c3) (fun ht he => hq ⟨?_, ht⟩) hr ?_⟩
        · have h1 : x.1.take (t.bd + 1) = x.1 := List.take_of_length_le (by have := (a3 ht).2; omega)
          rw [h1, he, List.append_cancel_left_eq] at hfe
          rw [hfe]
        · rw [hfe, List.length_append, ← rsuf_drop (by simp) _ h16, List.drop_left' rfl]
    · rw [c1, if_neg (by omega), if_pos (by omega)]
      exact ⟨_, rfl, .longer hf (by rw [hfe, List.prefix_append_right_inj]; exact c3) (by rw [hfe]; simp; omega)⟩
    · rw [c1, if_pos (by omega)]
      exact ⟨_, rfl, .of_div' hf (by rw [hfe]; exact c2.prepend _)⟩

/-- `compare` never contradicts the order of the keys. -/
theorem Stand.compare {it : Iterator} (B : Built cfg fp s t0 cut h) (hd : t0.d = 0) (h16 : cfg.realSuffixLen < 16) (h8 : Roomy cfg t0) (hs : Stand t0 cut h it W t ip i iq) {x : KV} (hx : i.kvs = [x]) (q : Bytes) (hr : RoomyFor cfg t0 q) :
    ∃ c, it.compare s q = some c ∧ Verdict x.1 q c := by
  unfold Iterator.compare
  rcases hs with ⟨h1, -⟩ | ⟨R, r, T, sc, l, rc, rfl, h1, hf, -, h2⟩
  · obtain ⟨c, e, v⟩ := h1.compare B hd h16 h8 hx q hr
    rw [e]
    have hcomp : it.d.isComplete = true := by
      unfold DenseIter.isComplete
      rw [h1.comp.1, h1.comp.2.1, h1.comp.2.2]
      rfl
    refine ⟨c, ?_, v⟩
    simp [hcomp]
  · have hcomp : it.d.isComplete = false := by
      unfold DenseIter.isComplete
      rw [h1.comp.1, h1.comp.2.1, h1.comp.2.2, hf]
    have hk : it.d.key = some (str R) := by
      unfold DenseIter.key
      rw [h1.pref, h1.buf]
      rfl
    obtain ⟨a1, a2, a3⟩ := h2.way.leaf_key B hd h2.items hx
    have hR : str R <+: x.1 := by
      have : str R <+: str (r ++ R) ++ t.pre := by rw [str_append]; simp
      rw [← h2.way.str_bd B.root hd a1] at this
      exact this.trans (List.take_prefix _ _)
    unfold DenseIter.compare
    rw [hk, hcomp, h1.pref]
    simp only [Option.bind_eq_bind, Option.bind_some, Option.pure_def]
    rcases cmpTake_spec (str R) q rfl with ⟨c1, c2⟩ | ⟨c1, c2, c3⟩ | ⟨c1, c2, c3⟩ | ⟨c1, c2⟩
    · rw [c1, if_pos (by omega)]
      exact ⟨_, rfl, .of_div hR c2⟩
    · rw [c1, if_neg (by omega), if_neg (by omega), if_neg (by simp), if_neg (by simp)]
      simp only [Option.bind_some]
      rw [if_neg (by simp)]
      exact h2.compare B hd h16 h8 hx c3 hr
    · rw [c1, if_neg (by omega), if_pos (by omega)]
      exact ⟨_, rfl, .longer hR c3 c2⟩
    · rw [c1, if_pos (by omega)]
      exact ⟨_, rfl, .of_div' hR c2⟩

/-- No stored key between the bounds is overlooked. -/
theorem Built.hasOverlap (B : Built cfg fp s t0 cut h) (bmi : Bool) (hd : t0.d = 0) (h16 : cfg.realSuffixLen < 16) (h8 : Roomy cfg t0) (hs : t0.kvs.Pairwise (·.1 < ·.1)) {x : KV} (hx : x ∈ t0.kvs)
    (start stop : Bytes) (hns : Clear t0 cut start) (hr : RoomyFor cfg t0 stop) (incl : Bool) (h1 : start ≤ x.1) (h2 : if incl then x.1 ≤ stop else x.1 < stop) : s.hasOverlap bmi start stop incl = some true := by
  unfold SuRF.hasOverlap
  obtain ⟨it', fl, b, e, ⟨hb, c, ec, -⟩, hcase⟩ := B.i_seek bmi hd start hns B.newReady
  have hxb : x ∉ b := fun hxb => by
    have := (hb x hxb).lt B.root B.cfgok h16 h8
    exact absurd this (List.not_lt.mpr h1)
  have hne : ¬ (s.ld.height = 0 ∧ s.ls.height = 0) := by
    rw [B.hs]
    have := B.lt
    omega
  rw [if_neg hne, e]
  simp only [Option.bind_eq_bind, Option.bind_some, Option.pure_def]
  rcases hcase with ⟨rfl, -⟩ | ⟨y, hat⟩
  · exact absurd hx hxb
  · obtain ⟨W, t, ip, i, iq, hst, hsb, hiy⟩ := id hat
    obtain ⟨c', ec'⟩ := hat.split
    rw [hat.valid]
    obtain ⟨cmp, e2, v⟩ := hst.compare B hd h16 h8 hiy stop hr
    simp only [Bool.not_true, Bool.false_eq_true, if_false]
    rw [e2]
    simp only [Option.bind_some]
    have hyx : y.1 ≤ x.1 := by
      rw [ec', List.mem_append, List.mem_cons] at hx
      rcases hx with hx | rfl | hx
      · exact absurd hx hxb
      · exact List.le_refl _
      · rw [ec', List.pairwise_append, List.pairwise_cons] at hs
        exact List.le_of_lt (hs.2.1.1 x hx)
    congr 1
    cases incl with
    | true =>
      simp only [if_true] at h2 ⊢
      have hle : y.1 ≤ stop := List.le_trans hyx h2
      rw [decide_eq_true_eq]
      by_cases hc : cmp = couldBePositive
      · rw [if_pos hc]
        omega
      · rw [if_neg hc]
        by_contra hlt
        exact absurd (v.pos (by omega) hc) (List.not_lt.mpr hle)
    | false =>
      simp only [Bool.false_eq_true, if_false] at h2 ⊢
      have hlt : y.1 < stop := List.lt_of_le_of_lt hyx h2
      rw [decide_eq_true_eq]
      by_cases hc : cmp = couldBePositive
      · rw [if_pos hc]
        omega
      · rw [if_neg hc]
        by_contra hn
        rcases Int.lt_or_le 0 cmp with hp | hp
        · exact absurd (List.lt_trans (v.pos hp hc) hlt) (List.lt_irrefl _)
        · exact absurd hlt (List.not_lt.mpr (v.zero (by omega)))

end

end Surf
