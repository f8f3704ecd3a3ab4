import Verif.Surf.Overlap
import Verif.Surf.Shape

/-!
# What comparing the position of an iterator with a key yields, exactly
-/

set_option linter.unusedSimpArgs false

namespace Surf

/-- `c` is the outcome of the comparison with `q` on a leaf at the end of the way `W`, whose key is `x`, of which `f` is kept. -/
structure Outcome (cut : Nat) (W : List Frame) (f x q : Bytes) (m : Nat) (tm : Bool) (r : Nat) (c : Int) : Prop where
  lt : (c < 0 ∨ c = couldBePositive) ↔ Div f q ∨ (f <+: q ∧ ¬ (tm = true ∧ f = q) ∧ rsuf x (m + 1) r ≤ rsuf q (m + 1) r)
  eq : c = 0 ↔ tm = true ∧ (f = q ∨ (cut ≤ W.length ∧ q = str (W.drop (W.length - cut))))

theorem sufCmp_le {cfg : Config} {fp : Bytes → Word} (hcfg : cfg.Fine) (x q : Bytes) (m l : Nat) :
    sufCmp cfg (cfg.suffix fp x m) q l ≠ 0 ∧ ((sufCmp cfg (cfg.suffix fp x m) q l < 0 ∨ sufCmp cfg (cfg.suffix fp x m) q l = couldBePositive) ↔ rsuf x m cfg.realSuffixLen ≤ rsuf q l cfg.realSuffixLen) ∧
    (sufCmp cfg (cfg.suffix fp x m) q l < 0 ↔ rsuf x m cfg.realSuffixLen < rsuf q l cfg.realSuffixLen) := by
  have h1 := sufCmp_cases (fp := fp) hcfg x q m l
  have h2 : sufCmp cfg (cfg.suffix fp x m) q l = couldBePositive → rsuf x m cfg.realSuffixLen = rsuf q l cfg.realSuffixLen := by
    intro h
    revert h
    unfold sufCmp
    split
    · rename_i h0
      intro _
      have hr : cfg.realSuffixLen = 0 := by
        have hm := congrArg Config.suffixType hcfg.made
        rw [newBuilder] at hm
        simp only at hm
        by_contra hr
        by_cases c0 : cfg.hashSuffixLen = 0
        · rw [if_neg (by omega), if_pos c0] at hm
          rw [hm] at h0
          simp at h0
        · rw [if_neg (by omega), if_neg c0, if_neg hr] at hm
          rw [hm] at h0
          simp at h0
      have a := rsuf_lt x m (r := cfg.realSuffixLen) (by omega)
      have b := rsuf_lt q l (r := cfg.realSuffixLen) (by omega)
      rw [hr] at a b ⊢
      omega
    · rename_i h0
      have e := stored_part (fp := fp) hcfg h0 x m
      generalize (if cfg.suffixType = .mixed then extractRealSuffix (cfg.suffix fp x m) cfg.realSuffixLen else cfg.suffix fp x m) = a at *
      rw [← e]
      have e2 : rsuf q l cfg.realSuffixLen = ((constructRealSuffix q l cfg.realSuffixLen).getD 0).toNat := rfl
      rw [e2]
      generalize (constructRealSuffix q l cfg.realSuffixLen).getD 0 = b at *
      simp only [← BitVec.toNat_inj, BitVec.lt_def, show (0#64).toNat = 0 from rfl]
      generalize a.toNat = a at *
      generalize b.toNat = b at *
      split
      · omega
      · split
        · intro h; exact absurd h (by decide)
        · split
          · omega
          · intro h; exact absurd h (by decide)
  generalize sufCmp cfg (cfg.suffix fp x m) q l = c at *
  have hc : couldBePositive ≠ 0 ∧ ¬ couldBePositive < 0 ∧ couldBePositive ≠ 1 := by decide
  rcases h1 with rfl | ⟨rfl, h⟩ | ⟨rfl, h⟩
  · have := h2 rfl
    refine ⟨hc.1, ?_, ?_⟩
    · simp; omega
    · simp [hc.2.1]; omega
  · refine ⟨by omega, ?_, ?_⟩
    · simp; omega
    · simp [h]
  · refine ⟨by omega, ?_, ?_⟩
    · have := hc.2.2.symm
      simp [this]; omega
    · simp; omega

section
variable {cfg : Config} {fp : Bytes → Word} {s : SuRF} {t0 t : Grp} {cut h : Nat} {R r W : List Frame} {ip iq : List Item} {i : Item} {m : Nat} {tm : Bool} {k : Nat}

theorem div_asymm {a b : Bytes} (h : Div a b) (h' : Div b a) : False := absurd (List.lt_trans h.lt h'.lt) (List.lt_irrefl _)

theorem div_pre {a b : Bytes} (h : Div a b) : ¬ a <+: b ∧ ¬ b <+: a := by
  obtain ⟨p, c, d, u, v, rfl, rfl, hlt⟩ := h
  have hne : c ≠ d := by
    rintro rfl
    exact UInt8.lt_irrefl _ hlt
  constructor
  · rw [List.prefix_append_right_inj, List.cons_prefix_cons]
    exact fun h => hne h.1
  · rw [List.prefix_append_right_inj, List.cons_prefix_cons]
    exact fun h => hne h.1.symm

/-- The way of the leaf is below what is kept. -/
theorem drop_pre {f q : Bytes} {n : Nat} (hW : str W <+: f) (hq : q = str (W.drop n)) : q <+: f := by
  refine List.IsPrefix.trans ?_ hW
  rw [hq]
  conv_rhs => rw [← List.take_append_drop n W, str_append]
  exact List.prefix_append _ _

theorem Outcome.of_div {f x q : Bytes} (hW : str W <+: f) (hd : Div f q) : Outcome cut W f x q m tm k (-1) := by
  refine ⟨⟨fun _ => .inl hd, fun _ => .inl (by omega)⟩, ⟨fun h => absurd h (by omega), ?_⟩⟩
  rintro ⟨-, rfl | ⟨-, h⟩⟩
  · exact absurd (List.prefix_refl _) (div_pre hd).1
  · exact absurd (drop_pre hW h) (div_pre hd).2

theorem Outcome.of_div' {f x q : Bytes} (hW : str W <+: f) (hd : Div q f) : Outcome cut W f x q m tm k 1 := by
  refine ⟨⟨fun h => ?_, ?_⟩, ⟨fun h => absurd h (by omega), ?_⟩⟩
  · rcases h with h | h
    · omega
    · exact absurd h (by decide)
  · rintro (h | ⟨h, -⟩)
    · exact (div_asymm hd h).elim
    · exact absurd h (div_pre hd).2
  · rintro ⟨-, rfl | ⟨-, h⟩⟩
    · exact absurd (List.prefix_refl _) (div_pre hd).1
    · exact absurd (drop_pre hW h) (div_pre hd).1

theorem Outcome.longer {f x q : Bytes} (hp : q <+: f) (hl : q.length < f.length) (hno : tm = true → ¬ (cut ≤ W.length ∧ q = str (W.drop (W.length - cut)))) : Outcome cut W f x q m tm k 1 := by
  refine ⟨⟨fun h => ?_, ?_⟩, ⟨fun h => absurd h (by omega), ?_⟩⟩
  · rcases h with h | h
    · omega
    · exact absurd h (by decide)
  · rintro (h | ⟨h, -⟩)
    · exact absurd hp (div_pre h).2
    · have := h.length_le
      omega
  · rintro ⟨ht, rfl | h⟩
    · omega
    · exact absurd h (hno ht)

theorem Outcome.same {f x q : Bytes} (hp : q <+: f) (ht : tm = true) (he : f = q ∨ (cut ≤ W.length ∧ q = str (W.drop (W.length - cut)))) : Outcome cut W f x q m tm k 0 := by
  refine ⟨⟨fun h => ?_, ?_⟩, ⟨fun _ => ⟨ht, he⟩, fun _ => rfl⟩⟩
  · rcases h with h | h
    · omega
    · exact absurd h (by decide)
  · rintro (h | ⟨h, h2, -⟩)
    · exact absurd hp (div_pre h).2
    · exact absurd ⟨ht, h.eq_of_length (Nat.le_antisymm h.length_le hp.length_le)⟩ h2

/-- The comparison of suffixes. -/
theorem outcome_suf (B : Built cfg fp s t0 cut h) (hd : t0.d = 0) (w : Way t0 W t) (e : t.items = ip ++ i :: iq) {x : KV} (hx : i.kvs = [x]) {q q' : Bytes} {l : Nat}
    (hp : x.1.take (t.bd + 1) <+: q) (ht : ¬ (i.term = true ∧ x.1.take (t.bd + 1) = q)) (hq : rsuf q' l cfg.realSuffixLen = rsuf q (x.1.take (t.bd + 1)).length cfg.realSuffixLen) :
    Outcome cut W (x.1.take (t.bd + 1)) x.1 q t.bd i.term cfg.realSuffixLen (sufCmp cfg (cfg.suffix fp x.1 (t.bd + 1)) q' l) := by
  obtain ⟨a1, a2, a3⟩ := w.leaf_key B hd e hx
  obtain ⟨c1, c2, -⟩ := sufCmp_le (fp := fp) B.cfgok x.1 q' (t.bd + 1) l
  have hi : i ∈ t.items := by rw [e]; simp
  have hle : rsuf x.1 (t.bd + 1) cfg.realSuffixLen ≤ rsuf q' l cfg.realSuffixLen ↔ rsuf x.1 (t.bd + 1) cfg.realSuffixLen ≤ rsuf q (t.bd + 1) cfg.realSuffixLen := by
    cases hterm : i.term with
    | false =>
      have hl := (item_label (w.good B.root).toOK hi hterm (x := x) (by rw [hx]; simp)).2.1
      have hlen : (x.1.take (t.bd + 1)).length = t.bd + 1 := by rw [List.length_take]; omega
      rw [hq, hlen]
    | true =>
      have hl := (a3 hterm).2
      have : rsuf x.1 (t.bd + 1) cfg.realSuffixLen = 0 := rsuf_short (by omega)
      omega
  rw [hle] at c2
  have hW : str W <+: x.1.take (t.bd + 1) := by
    have h1 := w.str_bd B.root hd a1
    have h2 : x.1.take t.bd <+: x.1.take (t.bd + 1) := List.take_prefix_take_left (by omega)
    rw [h1] at h2
    exact (List.prefix_append _ _).trans h2
  refine ⟨c2.trans ⟨fun h => .inr ⟨hp, ht, h⟩, ?_⟩, ⟨fun h => absurd h c1, ?_⟩⟩
  · rintro (h | ⟨-, -, h⟩)
    · exact absurd hp (div_pre h).1
    · exact h
  · rintro ⟨h1, h2 | ⟨-, h2⟩⟩
    · exact absurd ⟨h1, h2⟩ ht
    · have := drop_pre hW h2
      exact absurd ⟨h1, hp.eq_of_length (Nat.le_antisymm hp.length_le this.length_le)⟩ ht

theorem leaf_pre (B : Built cfg fp s t0 cut h) (hd : t0.d = 0) (w : Way t0 W t) (e : t.items = ip ++ i :: iq) {x : KV} (hx : i.kvs = [x]) : str W <+: x.1.take (t.bd + 1) := by
  obtain ⟨a1, a2, a3⟩ := w.leaf_key B hd e hx
  have h1 := w.str_bd B.root hd a1
  have h2 : x.1.take t.bd <+: x.1.take (t.bd + 1) := List.take_prefix_take_left (by omega)
  rw [h1] at h2
  exact (List.prefix_append _ _).trans h2

theorem DLeaf.outcome {it : DenseIter} (B : Built cfg fp s t0 cut h) (hd : t0.d = 0) (hl : DLeaf t0 cut it W t ip i iq) {x : KV} (hx : i.kvs = [x]) (q : Bytes) :
    ∃ c, it.compare s.ld q = some c ∧ Outcome cut W (x.1.take (t.bd + 1)) x.1 q t.bd i.term cfg.realSuffixLen c := by
  have hk := hl.key B hd hx
  obtain ⟨a1, a2, a3⟩ := hl.way.leaf_key B hd hl.items hx
  have hW := leaf_pre B hd hl.way hl.items hx
  have hpk : it.atPrefixKey = i.term := by
    rcases hl.place with ⟨b1, b2, -⟩ | ⟨b1, b2, -⟩ <;> rw [b1, b2]
  have hcomp : it.isComplete = true := by
    unfold DenseIter.isComplete
    rw [hl.comp.1, hl.comp.2.1, hl.comp.2.2]
    rfl
  have hsuf : ∃ pos, it.posInTrie[it.level]? = some pos ∧ ∀ level, (s.ld.suffixPos pos it.atPrefixKey).bind (fun sp => s.ld.suffixes.compare q sp level) = some (sufCmp cfg (cfg.suffix fp x.1 (t.bd + 1)) q level) := by
    have hg := (hl.way.good B.root).toOK
    rcases hl.place with ⟨b1, b2, b3⟩ | ⟨b1, b2, j, iq', b4, b3⟩
    · refine ⟨_, by rw [b3.lev]; exact b3.pos, fun level => B.d_compare hl.way hl.lt hl.items hl.leaf hx ?_ q level⟩
      intro pre post e2 e3 hv
      rw [b2, ← e2]
      exact hv.leafPos e3 hg hl.items b1 hl.leaf
    · have hip : ip = [] := by
        cases ip with
        | nil => rfl
        | cons z ip =>
          have := (sorted_after (ip := []) (j := z) hg hl.items i (by simp)).1
          rw [b1] at this
          simp at this
      subst hip
      have hit := hl.items
      rw [b4] at hit
      refine ⟨_, by rw [b3.lev]; exact b3.pos, fun level => B.d_compare hl.way hl.lt hl.items hl.leaf hx ?_ q level⟩
      intro pre post e2 e3 hv
      rw [b2, ← e2]
      exact hv.endPosAt e3 hg hit b1 ((sorted_after (ip := []) hg hit j (by simp)).1)
  obtain ⟨pos, p1, p2⟩ := hsuf
  have hlt := hl.lt
  unfold DenseIter.compare
  rw [hk]
  simp only [Option.bind_eq_bind, Option.bind_some, Option.pure_def]
  generalize hfe : x.1.take (t.bd + 1) = f at *
  rcases cmpTake_spec f q rfl with ⟨c1, c2⟩ | ⟨c1, c2, c3⟩ | ⟨c1, c2, c3⟩ | ⟨c1, c2⟩
  · rw [c1, if_pos (by omega)]
    exact ⟨_, rfl, .of_div hW c2⟩
  · rw [c1, if_neg (by omega), if_neg (by omega), hpk, hcomp]
    by_cases hq : f.length = q.length ∧ i.term = true
    · rw [if_pos hq]
      have := c3.eq_of_length hq.1
      exact ⟨_, rfl, .same (by rw [this]; exact List.prefix_refl _) hq.2 (.inl this)⟩
    · rw [if_neg hq, if_pos rfl, p1]
      simp only [Option.bind_some]
      rw [← hpk, p2]
      refine ⟨_, rfl, ?_⟩
      have := outcome_suf B hd hl.way hl.items hx (q := q) (q' := q) (l := f.length) (by rw [hfe]; exact c3) (fun ht => hq ⟨by rw [← ht.2, hfe], ht.1⟩) (by rw [hfe])
      rw [hfe, ← hpk] at this
      exact this
  · rw [c1, if_neg (by omega), if_pos (by omega)]
    exact ⟨_, rfl, .longer c3 c2 (fun _ h => by omega)⟩
  · rw [c1, if_pos (by omega)]
    exact ⟨_, rfl, .of_div' hW c2⟩

theorem SLeaf.outcome {it : SparseIter} (B : Built cfg fp s t0 cut h) (hd : t0.d = 0) (h16 : cfg.realSuffixLen < 16) (hl : SLeaf t0 cut h it R r t ip i iq) {x : KV} (hx : i.kvs = [x]) {q : Bytes} (hq : str R <+: q) :
    ∃ c, it.compare s.ls q = some c ∧ Outcome cut (r ++ R) (x.1.take (t.bd + 1)) x.1 q t.bd i.term cfg.realSuffixLen c := by
  have hk := hl.key
  obtain ⟨a1, a2, a3⟩ := hl.way.leaf_key B hd hl.items hx
  have hW := leaf_pre B hd hl.way hl.items hx
  have hR : str R <+: x.1.take (t.bd + 1) := by
    rw [str_append] at hW
    exact (List.prefix_append _ _).trans hW
  have hcutR : (r ++ R).drop ((r ++ R).length - cut) = R := by
    rw [List.length_append, hl.len, Nat.add_sub_cancel, List.drop_left]
  have hfe : x.1.take (t.bd + 1) = str R ++ (str r ++ t.pre ++ if i.term then [] else [i.label]) := by
    rw [str_append] at a2 a3
    cases ht : i.term with
    | false =>
      rw [← a2 ht]
      simp
    | true =>
      obtain ⟨b1, b2⟩ := a3 ht
      rw [List.take_of_length_le (by omega), ← b1]
      simp
  obtain ⟨q', rfl⟩ := hq
  have hcut : cut ≤ (r ++ R).length := by
    rw [List.length_append, hl.len]
    omega
  unfold SparseIter.compare
  rw [hk, hl.depth, hl.term]
  simp only [Option.bind_eq_bind, Option.bind_some, Option.pure_def]
  rw [if_neg (by simp)]
  by_cases h0 : (str R).length = (str R ++ q').length
  · rw [if_pos h0]
    have : q' = [] := List.eq_nil_of_length_eq_zero (by rw [List.length_append] at h0; omega)
    subst this
    rw [List.append_nil]
    cases ht : i.term with
    | true => exact ⟨_, rfl, .same hR rfl (.inr ⟨hcut, by rw [hcutR]⟩)⟩
    | false =>
      refine ⟨_, rfl, .longer hR ?_ (by simp)⟩
      rw [hfe, ht]
      simp
  · rw [if_neg h0, List.drop_left' rfl]
    have hq0 : q' ≠ [] := by
      rintro rfl
      simp at h0
    generalize hke : (str r ++ t.pre ++ if i.term then [] else [i.label]) = k at *
    have hle : k <+: q' → x.1.take (t.bd + 1) <+: str R ++ q' := by
      intro h
      rw [hfe, List.prefix_append_right_inj]
      exact h
    rcases cmpTake_spec k q' rfl with ⟨c1, c2⟩ | ⟨c1, c2, c3⟩ | ⟨c1, c2, c3⟩ | ⟨c1, c2⟩
    · rw [c1, if_pos (by omega)]
      exact ⟨_, rfl, .of_div hW (by rw [hfe]; exact c2.prepend _)⟩
    · rw [c1, if_neg (by omega), if_neg (by omega)]
      by_cases hq : k.length = q'.length ∧ i.term = true
      · rw [if_pos hq]
        have hkq := c3.eq_of_length hq.1
        exact ⟨_, rfl, .same (by rw [hfe, hkq]; exact List.prefix_refl _) hq.2 (.inl (by rw [hfe, hkq]))⟩
      · rw [if_neg hq, hl.place.lev, hl.place.pos]
        simp only [Option.bind_some]
        rw [B.s_compare hl.way hcut hl.items hl.leaf hx]
        refine ⟨_, rfl, outcome_suf B hd hl.way hl.items hx (hle c3) ?_ ?_⟩
        · rintro ⟨h1, h2⟩
          rw [hfe, List.append_cancel_left_eq] at h2
          exact hq ⟨by rw [h2], h1⟩
        · rw [hfe, List.length_append, ← rsuf_drop (by simp) _ h16, List.drop_left' rfl]
    · rw [c1, if_neg (by omega), if_pos (by omega)]
      refine ⟨_, rfl, .longer (by rw [hfe, List.prefix_append_right_inj]; exact c3) (by rw [hfe]; simp; omega) ?_⟩
      rintro - ⟨-, h1⟩
      rw [hcutR] at h1
      simp at h1
      exact hq0 h1
    · rw [c1, if_pos (by omega)]
      exact ⟨_, rfl, .of_div' hW (by rw [hfe]; exact c2.prepend _)⟩

/-- What `compare` yields. -/
theorem Stand.outcome {it : Iterator} (B : Built cfg fp s t0 cut h) (hd : t0.d = 0) (h16 : cfg.realSuffixLen < 16) (hs : Stand t0 cut h it W t ip i iq) {x : KV} (hx : i.kvs = [x]) (q : Bytes) :
    ∃ c, it.compare s q = some c ∧ Outcome cut W (x.1.take (t.bd + 1)) x.1 q t.bd i.term cfg.realSuffixLen c := by
  unfold Iterator.compare
  rcases hs with ⟨h1, -⟩ | ⟨R, r, T, sc, l, rc, rfl, h1, hf, -, h2⟩
  · obtain ⟨c, e, v⟩ := h1.outcome B hd hx q
    rw [e]
    have hcomp : it.d.isComplete = true := by
      unfold DenseIter.isComplete
      rw [h1.comp.1, h1.comp.2.1, h1.comp.2.2]
      rfl
    refine ⟨c, ?_, v⟩
    simp [hcomp]
  · have hcomp : it.d.isComplete = false := by
      unfold DenseIter.isComplete
      rw [h1.comp.1, h1.comp.2.1, h1.comp.2.2, hf]
    have hk : it.d.key = some (str R) := by
      unfold DenseIter.key
      rw [h1.pref, h1.buf]
      rfl
    have hW := leaf_pre B hd h2.way h2.items hx
    have hR : str R <+: x.1.take (t.bd + 1) := by
      have := hW
      rw [str_append] at this
      exact (List.prefix_append _ _).trans this
    have hcutR : (r ++ R).drop ((r ++ R).length - cut) = R := by
      rw [List.length_append, h2.len, Nat.add_sub_cancel, List.drop_left]
    unfold DenseIter.compare
    rw [hk, hcomp, h1.pref]
    simp only [Option.bind_eq_bind, Option.bind_some, Option.pure_def]
    rcases cmpTake_spec (str R) q rfl with ⟨c1, c2⟩ | ⟨c1, c2, c3⟩ | ⟨c1, c2, c3⟩ | ⟨c1, c2⟩
    · rw [c1, if_pos (by omega)]
      exact ⟨_, rfl, .of_div hW (c2.ext_left hR)⟩
    · rw [c1, if_neg (by omega), if_neg (by omega), if_neg (by simp), if_neg (by simp)]
      simp only [Option.bind_some]
      rw [if_neg (by simp)]
      exact h2.outcome B hd h16 hx c3
    · rw [c1, if_neg (by omega), if_pos (by omega)]
      refine ⟨_, rfl, .longer (c3.trans hR) (Nat.lt_of_lt_of_le c2 hR.length_le) ?_⟩
      rintro - ⟨-, h3⟩
      rw [hcutR] at h3
      rw [h3] at c2
      omega
    · rw [c1, if_pos (by omega)]
      exact ⟨_, rfl, .of_div' hW (c2.ext_right hR)⟩

end

/-! ### Where the sparse part of a way begins -/

/-- A node on the way of `k` begins behind the first `n` bytes, on level `cut`. -/
def Begins (ks : List Bytes) (cut : Nat) (k : Bytes) (n : Nat) : Prop :=
  (n = 0 ∨ ∃ y ∈ ks, n = lcpLen k y + 1 ∧ n ≤ shared ks k) ∧ ((ks.map (lcpLen k)).filter (· < n)).dedup.length = cut

instance (ks : List Bytes) (cut : Nat) (k : Bytes) (n : Nat) : Decidable (Begins ks cut k n) := by unfold Begins; infer_instance

section
variable {t0 t T : Grp} {R r W : List Frame} {ip iq : List Item} {i : Item}

theorem Way.above (w : Way T r t) : T.d ≤ t.d ∧ ∀ f ∈ r, T.d ≤ f.t.bd := by
  induction w with
  | nil => simp
  | @cons r f w e hc ih =>
    have hge := f.t.bd_ge
    refine ⟨show T.d ≤ f.t.bd + 1 by omega, ?_⟩
    intro g hg
    rw [List.mem_cons] at hg
    rcases hg with rfl | hg
    · omega
    · exact ih.2 g hg

variable (h0 : t0.Good) (hd : t0.d = 0) (hs : t0.kvs.Pairwise (·.1 < ·.1)) (e : t.items = ip ++ i :: iq) {x : KV} (hx : i.kvs = [x])
include h0 hd hs e hx

theorem depth_at (w : Way t0 (r ++ R) t) : (((t0.kvs.map (·.1)).map (lcpLen x.1)).filter (· < (str R).length)).dedup.length = R.length := by
  obtain ⟨T, w1, w2⟩ := w.split
  have hxm := leaf_mem e hx
  have hdT := w1.str_len h0 hd
  rw [hdT, ← List.length_map (f := fun f : Frame => f.t.bd) (as := R)]
  apply List.Perm.length_eq
  rw [List.perm_ext_iff_of_nodup (List.nodup_dedup _) (w1.depths).2]
  have hab := w2.above
  have hbd := t.bd_ge
  intro n
  simp only [List.mem_dedup, List.mem_filter, List.mem_map, decide_eq_true_eq, exists_exists_and_eq_and]
  constructor
  · rintro ⟨⟨y, hy, rfl⟩, hlt⟩
    by_cases hne : y = x
    · subst hne
      have := lcpLen_prefix (List.prefix_refl y.1)
      have := ((w.good h0).toOK).bd_le hxm
      omega
    · rcases leaf_lcp h0 w e hx hy hne with h | ⟨-, f, hf, h⟩
      · omega
      · rw [List.mem_append] at hf
        rcases hf with hf | hf
        · have := hab.2 f hf
          omega
        · exact ⟨f, hf, h.symm⟩
  · rintro ⟨f, hf, rfl⟩
    obtain ⟨y, hy, h⟩ := w.parted h0 hxm f (by simp [hf])
    exact ⟨⟨y, hy, h⟩, (w1.depths).1 f hf⟩

/-- The sparse part of the way of a key begins where the keys say so. -/
theorem leaf_begins (w : Way t0 W t) {cut : Nat} (hc : cut ≤ W.length) (n : Nat) : Begins (t0.kvs.map (·.1)) cut x.1 n ↔ n = (str (W.drop (W.length - cut))).length := by
  have hxm := leaf_mem e hx
  have hsh := leaf_shared h0 hd hs w e hx
  have hbd := t.bd_ge
  unfold Begins
  rw [hsh]
  constructor
  · rintro ⟨rfl | ⟨k, hk, hn, hle⟩, h2⟩
    · have h3 : cut = 0 := by rw [← h2]; simp
      subst h3
      simp [str]
    · rw [List.mem_map] at hk
      obtain ⟨y, hy, rfl⟩ := hk
      have hf : ∃ f ∈ W, lcpLen x.1 y.1 = f.t.bd := by
        by_cases hne : y = x
        · subst hne
          have := lcpLen_prefix (List.prefix_refl y.1)
          have := ((w.good h0).toOK).bd_le hxm
          omega
        · rcases leaf_lcp h0 w e hx hy hne with h | ⟨-, h⟩
          · omega
          · exact h
      obtain ⟨f, hf, hff⟩ := hf
      obtain ⟨a, b, rfl⟩ := List.append_of_mem hf
      have hda := depth_at h0 hd hs e hx (r := a) (R := f :: b) w
      obtain ⟨T, w1, w2⟩ := w.split
      have hl := w1.str_len h0 hd
      cases w1
      have hl' : (str (f :: b)).length = n := by
        rw [hl, hn, hff]
        rfl
      rw [hl', h2] at hda
      rw [List.length_append, ← hda, Nat.add_sub_cancel, List.drop_left, hl']
  · intro hn
    have hlen : (W.drop (W.length - cut)).length = cut := by rw [List.length_drop]; omega
    have hw := w
    rw [← List.take_append_drop (W.length - cut) W] at hw
    have hda := depth_at h0 hd hs e hx hw
    rw [hlen, ← hn] at hda
    refine ⟨?_, hda⟩
    obtain ⟨T, w1, w2⟩ := hw.split
    have hl := w1.str_len h0 hd
    rw [← hn] at hl
    generalize hD : W.drop (W.length - cut) = D at *
    cases w1 with
    | nil => exact .inl (by rw [hl, hd])
    | @cons b f w1 e1 c1 =>
      right
      obtain ⟨y, hy, h⟩ := w.parted h0 hxm f (by rw [← List.take_append_drop (W.length - cut) W, hD]; simp)
      have hdt := w2.above.1
      have hT : n = f.t.bd + 1 := hl
      refine ⟨y.1, List.mem_map.mpr ⟨y, hy, rfl⟩, by omega, ?_⟩
      rw [← hl] at hdt
      omega

end

end Surf
