import Verif.Surf.IterSparse

/-!
# Where Prev gives up

`Prev` of the dense iterator takes the label 0 of the root for "nothing before". In terms of the pairs: which pair is reached from the one after it.
-/

set_option linter.unusedSimpArgs false

namespace Surf

section
variable {t0 t T : Grp} {r R : List Frame} {ip iq : List Item} {i j : Item} {cut : Nat} {x y : KV}

/-- The key goes on with a byte other than 0 where all keys part. -/
def Kept (t0 : Grp) (y : KV) : Prop := ∃ c : UInt8, y.1[t0.bd]? = some c ∧ c ≠ 0

/-- The key is a prefix of all keys but of the one that is a prefix of all keys. -/
def Trap (t0 : Grp) (y : KV) : Prop := y.1.length ≠ t0.bd ∧ 3 ≤ t0.kvs.length ∧ ∀ z ∈ t0.kvs, z.1.length = t0.bd ∨ y.1 <+: z.1

/-- `Prev` goes from `x` to `y`, if `y` is the pair before `x`. -/
def Free (t0 : Grp) (cut : Nat) (x y : KV) : Prop := cut = 0 ∨ ((Kept t0 y ∨ y.1[t0.bd]? = x.1[t0.bd]?) ∧ ((∃ z ∈ t0.kvs, Kept t0 z) ∨ cut = 1 ∨ ¬ Trap t0 y))

theorem mem_items (hi : i ∈ t.items) (hx : x ∈ i.kvs) : x ∈ t.kvs := by
  rw [← t.items_flat]
  exact List.mem_flatMap.mpr ⟨i, hi, hx⟩

theorem plain_kept (ht : t0.OK) (hi : i ∈ t0.items) (hp : i.plain) (hy : y ∈ i.kvs) : Kept t0 y := by
  obtain ⟨-, -, h⟩ := item_label ht hi hp.1 hy
  refine ⟨_, h, fun h0 => hp.2 ?_⟩
  rw [h0]
  rfl

theorem kept_plain (ht : t0.OK) (hi : i ∈ t0.items) (hy : y ∈ i.kvs) (hk : Kept t0 y) : i.plain := by
  obtain ⟨c, h1, h2⟩ := hk
  cases htm : i.term with
  | true =>
    obtain ⟨z, e, -, hl⟩ := item_term ht hi htm
    rw [e, List.mem_singleton] at hy
    subst hy
    rw [List.getElem?_eq_none (by omega)] at h1
    simp at h1
  | false =>
    obtain ⟨-, -, h⟩ := item_label ht hi htm hy
    rw [h1] at h
    refine ⟨htm, fun h0 => h2 ?_⟩
    rw [Option.some.inj h]
    exact UInt8.toNat_inj.mp h0

theorem lit_kept (ht : t0.OK) : Lit t0 ↔ ∃ z ∈ t0.kvs, Kept t0 z := by
  constructor
  · rintro ⟨i, hi, hp⟩
    obtain ⟨z, hz⟩ := List.exists_mem_of_ne_nil _ (ht.item_ne hi)
    exact ⟨z, mem_items hi hz, plain_kept ht hi hp hz⟩
  · rintro ⟨z, hz, hk⟩
    rw [← t0.items_flat, List.mem_flatMap] at hz
    obtain ⟨i, hi, hz⟩ := hz
    exact ⟨i, hi, kept_plain ht hi hz hk⟩

theorem Way.within (w : Way t0 (r ++ R) t) (w' : Way t0 R T) : ∀ x ∈ t.kvs, x ∈ T.kvs := by
  induction r generalizing t with
  | nil =>
    rw [w.inj w']
    exact fun _ h => h
  | cons f r ih =>
    cases w with
    | cons w e hc =>
      intro x hx
      exact ih w x (mem_items (i := f.i) (by rw [e]; simp) hx)

/-- The item of the root that a way begins with. -/
theorem Way.top {f : Frame} (w : Way t0 (f :: r) t) : ∃ i ∈ t0.items, i.child = true ∧ ∀ x ∈ t.kvs, x ∈ i.kvs := by
  induction r generalizing f t with
  | nil =>
    cases w with
    | cons w e hc =>
      cases w
      exact ⟨f.i, by rw [e]; simp, hc, fun _ h => h⟩
  | cons g r ih =>
    cases w with
    | cons w e hc =>
      obtain ⟨i, h1, h2, h3⟩ := ih w
      exact ⟨i, h1, h2, fun x hx => h3 x (mem_items (i := f.i) (by rw [e]; simp) hx)⟩

/-- The item of the second node on a way. -/
theorem Way.second {f g : Frame} (w : Way t0 (f :: g :: r) t) : ∃ g' t', Way t0 [g'] t' ∧ ∃ i ∈ t'.items, i.child = true ∧ ∀ x ∈ t.kvs, x ∈ i.kvs := by
  induction r generalizing f g t with
  | nil =>
    cases w with
    | cons w e hc => exact ⟨g, f.t, w, f.i, by rw [e]; simp, hc, fun _ h => h⟩
  | cons k r ih =>
    cases w with
    | cons w e hc =>
      obtain ⟨g', t', w', i, h1, h2, h3⟩ := ih w
      exact ⟨g', t', w', i, h1, h2, fun x hx => h3 x (mem_items (i := f.i) (by rw [e]; simp) hx)⟩

/-- Pairs below a node other than the root have the byte where all keys part in common. -/
theorem Way.same (h0 : t0.Good) {f : Frame} (w : Way t0 (f :: r) t) (hx : x ∈ t.kvs) (hy : y ∈ t.kvs) : y.1[t0.bd]? = x.1[t0.bd]? ∧ t0.bd < x.1.length := by
  obtain ⟨i, hi, hc, h⟩ := w.top
  have ht := child_nonterm h0.toOK hi hc
  obtain ⟨-, h2, h3⟩ := item_label h0.toOK hi ht (h x hx)
  obtain ⟨-, -, h4⟩ := item_label h0.toOK hi ht (h y hy)
  exact ⟨by rw [h3, h4], h2⟩

theorem not_trap_item (h0 : t0.Good) {f : Frame} (w : Way t0 [f] t) (hi : i ∈ t.items) (ht : i.term = false) (hy : y ∈ i.kvs) : ¬ Trap t0 y := by
  rintro ⟨-, -, h⟩
  have hg := (w.good h0).toOK
  obtain ⟨ip, iq, e⟩ := List.append_of_mem hi
  obtain ⟨hy1, hy2, hy3⟩ := item_label hg hi ht hy
  have h2 := (w.two h0).2
  obtain ⟨j, hj, hlt⟩ : ∃ j, j ∈ ip ++ iq ∧ ∀ z ∈ j.kvs, ¬ y.1 <+: z.1 := by
    have hne : ip ++ iq ≠ [] := by
      intro hc
      rw [List.append_eq_nil_iff] at hc
      rw [e, hc.1, hc.2] at h2
      simp at h2
    obtain ⟨j, hj⟩ := List.exists_mem_of_ne_nil _ hne
    have hjm : j ∈ t.items := by
      rw [e]
      simp only [List.mem_append, List.mem_cons] at hj ⊢
      rcases hj with hj | hj
      · exact .inl hj
      · exact .inr (.inr hj)
    refine ⟨j, hj, fun z hz hp => ?_⟩
    cases hjt : j.term with
    | true =>
      obtain ⟨z', e', -, hl⟩ := item_term hg hjm hjt
      rw [e', List.mem_singleton] at hz
      subst hz
      have := hp.length_le
      omega
    | false =>
      obtain ⟨-, -, hz3⟩ := item_label hg hjm hjt hz
      obtain ⟨u, hu⟩ := hp
      rw [← hu, List.getElem?_append_left hy2, hy3] at hz3
      have hl : i.label.toNat = j.label.toNat := by rw [Option.some.inj hz3]
      rw [List.mem_append] at hj
      rcases hj with hj | hj
      · have := sorted_before hg e j hj hjt
        omega
      · have := (sorted_after hg e j hj).2 ht
        omega
  have hjm : j ∈ t.items := by
    rw [e]
    simp only [List.mem_append, List.mem_cons] at hj ⊢
    rcases hj with hj | hj
    · exact .inl hj
    · exact .inr (.inr hj)
  obtain ⟨z, hz⟩ := List.exists_mem_of_ne_nil _ (hg.item_ne hjm)
  obtain ⟨i0, hi0, hc0, hsub⟩ := w.top
  rcases h z (mem_items hi0 (hsub z (mem_items hjm hz))) with h1 | h1
  · have := (item_label h0.toOK hi0 (child_nonterm h0.toOK hi0 hc0) (hsub z (mem_items hjm hz))).2.1
    omega
  · exact hlt z hz h1

theorem not_trap_deep (h0 : t0.Good) {f g : Frame} (w : Way t0 (f :: g :: r) t) (hy : y ∈ t.kvs) : ¬ Trap t0 y := by
  obtain ⟨g', t', w', i, hi, hc, h⟩ := w.second
  exact not_trap_item h0 w' hi (child_nonterm (w'.good h0).toOK hi hc) (h y hy)

theorem free_below (h0 : t0.Good) {f : Frame} (w : Way t0 (f :: r) t) (hl : (f :: r).length = cut) (hx : x ∈ t.kvs) (hy : y ∈ t.kvs) : Free t0 cut x y := by
  refine .inr ⟨.inr (w.same h0 hx hy).1, .inr ?_⟩
  cases r with
  | nil => exact .inl (by simpa using hl.symm)
  | cons g r => exact .inr (not_trap_deep h0 w hy)

theorem sbef_split (w : Way t0 r t) (e : t.items = ip ++ iq) : t0.kvs = sbef r ip ++ (iq.flatMap (·.kvs) ++ after r) := by
  rw [w.kvs, ← t.items_flat, e]
  simp [sbef]

theorem next_mem (h0 : t0.Good) (w : Way t0 r t) (e : t.items = ip ++ j :: iq) {c : List KV} (ec : t0.kvs = sbef r ip ++ x :: c) : x ∈ j.kvs := by
  have h := sbef_split w e
  rw [ec, List.append_cancel_left_eq, List.flatMap_cons] at h
  have hne := (w.good h0).toOK.item_ne (i := j) (by rw [e]; simp)
  cases hk : j.kvs with
  | nil => exact absurd hk hne
  | cons z zs =>
    rw [hk] at h
    simp only [List.cons_append, List.cons.injEq] at h
    rw [h.1]
    simp

theorem last_mem (ht : t.OK) (hi : i ∈ t.items) {b : List KV} (eb : sbef r (ip ++ [i]) = b ++ [y]) : y ∈ i.kvs := by
  have hne := ht.item_ne hi
  rcases List.eq_nil_or_concat i.kvs with h | ⟨l, z, h⟩
  · exact absurd h hne
  · have : sbef r (ip ++ [i]) = (sbef r ip ++ l) ++ [z] := by simp [sbef, h]
    rw [this] at eb
    have := (List.append_inj' eb rfl).2
    simp only [List.cons.injEq, and_true] at this
    rw [h, ← this]
    simp

/-- What `Prev` of the dense iterator finds. -/
theorem free_found (h0 : t0.Good) (hc : 0 < cut) (w : Way t0 r t) (e : t.items = ip ++ i :: j :: iq) (hp : r = [] → i.plain) (hl : ∀ f, r = [f] → i.term = true → Lit t0) {b c : List KV}
    (eb : sbef r (ip ++ [i]) = b ++ [y]) (ec : t0.kvs = b ++ [y] ++ x :: c) : Free t0 cut x y := by
  have hg := (w.good h0).toOK
  have him : i ∈ t.items := by rw [e]; simp
  have hy := last_mem hg him eb
  have hx := next_mem h0 w (ip := ip ++ [i]) (j := j) (iq := iq) (by rw [e]; simp) (by rw [eb]; exact ec)
  cases r with
  | nil =>
    cases w
    have hpl := hp rfl
    exact .inr ⟨.inl (plain_kept hg him hpl hy), .inl ((lit_kept hg).mp ⟨i, him, hpl⟩)⟩
  | cons f r =>
    refine .inr ⟨.inr (w.same h0 (mem_items (i := j) (by rw [e]; simp) hx) (mem_items him hy)).1, ?_⟩
    cases r with
    | nil =>
      cases hit : i.term with
      | true => exact .inl ((lit_kept h0.toOK).mp (hl f rfl hit))
      | false => exact .inr (.inr (not_trap_item h0 w him hit hy))
    | cons g r => exact .inr (.inr (not_trap_deep h0 w (mem_items him hy)))

/-- Where `Prev` of the dense iterator gives up. -/
theorem blind_stuck (h0 : t0.Good) (w : Way t0 r t) (hlen : r.length < cut) (e : t.items = ip ++ j :: iq) (hb : Blind t0 r ip) {c : List KV} (ec : t0.kvs = sbef r ip ++ x :: c) (hy : y ∈ sbef r ip) :
    ¬ Free t0 cut x y := by
  have hx := next_mem h0 w e ec
  have hg := (w.good h0).toOK
  rcases hb with ⟨rfl, hb⟩ | ⟨f, rfl, hlit, hb⟩
  · cases w
    simp only [sbef, before, List.nil_append, List.mem_flatMap] at hy
    obtain ⟨u, hu, hy⟩ := hy
    have hum : u ∈ t0.items := by rw [e]; simp [hu]
    obtain ⟨a, a', rfl⟩ := List.append_of_mem hu
    have e' : t0.items = a ++ u :: (a' ++ j :: iq) := by rw [e]; simp
    obtain ⟨hj, hj2⟩ := sorted_after hg e' j (by simp)
    obtain ⟨-, -, hx3⟩ := item_label hg (by rw [e]; simp) hj hx
    rintro (h1 | ⟨h1 | h1, -⟩)
    · simp at hlen
      omega
    · exact hb u (by simp) (kept_plain hg hum hy h1)
    · rw [hx3] at h1
      cases hut : u.term with
      | true =>
        obtain ⟨z, e1, -, hl⟩ := item_term hg hum hut
        rw [e1, List.mem_singleton] at hy
        subst hy
        rw [List.getElem?_eq_none (by omega)] at h1
        simp at h1
      | false =>
        obtain ⟨-, -, hy3⟩ := item_label hg hum hut hy
        rw [h1] at hy3
        have := hj2 hut
        rw [Option.some.inj hy3] at this
        omega
  · have hr := h0.toOK
    have h2 := w.two h0
    cases w with
    | cons w ef hcf =>
      cases w
      have hfm : f.i ∈ f.t.items := by rw [ef]; simp
      have hft := child_nonterm hr hfm hcf
      have hf0 : f.i.label.toNat = 0 := by
        by_contra hne
        exact hlit ⟨f.i, hfm, hft, hne⟩
      have hxf : x ∈ f.i.kvs := mem_items (t := f.child) (i := j) (by rw [e]; simp) hx
      obtain ⟨hx1, hx2, hx3⟩ := item_label hr hfm hft hxf
      have hip : ∀ u ∈ f.ip, u.term = true := by
        intro u hu
        by_contra hut
        have := sorted_before hr ef u hu (by simpa using hut)
        omega
      have hiq : f.iq = [] := by
        rw [List.eq_nil_iff_forall_not_mem]
        intro u hu
        obtain ⟨a1, a2⟩ := sorted_after hr ef u hu
        have := a2 hft
        exact hlit ⟨u, by rw [ef]; simp [hu], a1, by omega⟩
      rintro (h1 | ⟨h1, h3⟩)
      · simp at hlen
        omega
      simp only [sbef, before, List.nil_append, List.mem_append, List.mem_flatMap] at hy
      rcases hy with ⟨u, hu, hy⟩ | ⟨u, hu, hy⟩
      · have hum : u ∈ f.t.items := by rw [ef]; simp [hu]
        obtain ⟨z, e1, -, hl⟩ := item_term hr hum (hip u hu)
        rw [e1, List.mem_singleton] at hy
        subst hy
        rcases h1 with ⟨c', h1, -⟩ | h1
        · rw [List.getElem?_eq_none (by omega)] at h1
          simp at h1
        · rw [List.getElem?_eq_none (by omega), hx3] at h1
          simp at h1
      · have hum : u ∈ f.child.items := by rw [e]; simp [hu]
        obtain ⟨z, e1, hz, hl⟩ := item_term hg hum (hb u hu)
        rw [e1, List.mem_singleton] at hy
        subst hy
        rcases h3 with h3 | h3 | h3
        · exact hlit ((lit_kept hr).mpr h3)
        · simp at hlen
          omega
        · apply h3
          have hyf : y ∈ f.i.kvs := hz
          have hlt := (item_label hr hfm hft hyf).2.1
          refine ⟨by omega, ?_, ?_⟩
          · have h4 : 2 ≤ f.i.kvs.length := h2.1
            have h5 : f.ip ≠ [] := by
              intro h5
              have h6 := hr.two_items (by
                rw [← f.t.items_flat, ef, h5, hiq]
                simpa using h4)
              rw [ef, h5, hiq] at h6
              simp at h6
            obtain ⟨u', hu'⟩ := List.exists_mem_of_ne_nil _ h5
            have h7 := List.length_pos_iff.mpr (hr.item_ne (i := u') (by rw [ef]; simp [hu']))
            obtain ⟨a1, a2, ea⟩ := List.append_of_mem hu'
            rw [← f.t.items_flat, ef, ea]
            simp only [List.flatMap_append, List.flatMap_cons, List.length_append]
            omega
          · intro z' hz'
            rw [← f.t.items_flat, ef, hiq, List.mem_flatMap] at hz'
            obtain ⟨u', hu', hz'⟩ := hz'
            rw [List.mem_append, List.mem_singleton] at hu'
            rcases hu' with hu' | rfl
            · left
              obtain ⟨z2, e2, -, hl2⟩ := item_term hr (i := u') (by rw [ef]; simp [hu']) (hip u' hu')
              rw [e2, List.mem_singleton] at hz'
              rw [hz', hl2]
            · right
              have := hg.at_bd.1.common y hz z' hz'
              have h8 : y.1 = y.1.take f.child.bd := by rw [← hl, List.take_length]
              rw [h8]
              show y.1.take f.child.bd <+: z'.1
              rw [show y.1.take f.child.bd = z'.1.take f.child.bd from this]
              exact List.take_prefix _ _

/-! ### Several steps back -/

theorem kept_mono (ht : t0.OK) {b m c : List KV} (e : t0.kvs = b ++ y :: m ++ x :: c) (hk : Kept t0 y) : Kept t0 x := by
  have hym : y ∈ t0.kvs := by rw [e]; simp
  have hxm : x ∈ t0.kvs := by rw [e]; simp
  have hlt : y.1 < x.1 := by
    have hs := ht.sorted
    rw [e, List.append_assoc, List.pairwise_append, List.cons_append, List.pairwise_cons] at hs
    exact hs.2.1.1 x (by simp)
  have hcom := ht.at_bd.1.common y hym x hxm
  have hyl := ht.bd_le hym
  have hxl := ht.bd_le hxm
  obtain ⟨a, h1, h2⟩ := hk
  have ey : y.1 = y.1.take t0.bd ++ a :: y.1.drop (t0.bd + 1) := by
    conv_lhs => rw [← List.take_append_drop t0.bd y.1]
    obtain ⟨h3, h4⟩ := List.getElem?_eq_some_iff.mp h1
    rw [List.drop_eq_getElem_cons h3, h4]
  have ex : x.1 = y.1.take t0.bd ++ x.1.drop t0.bd := by
    conv_lhs => rw [← List.take_append_drop t0.bd x.1]
    rw [show y.1.take t0.bd = x.1.take t0.bd from hcom]
  have hlt' : y.1.take t0.bd ++ a :: y.1.drop (t0.bd + 1) < y.1.take t0.bd ++ x.1.drop t0.bd := by
    rw [← ey, ← ex]
    exact hlt
  have hlt2 : a :: y.1.drop (t0.bd + 1) < x.1.drop t0.bd := by
    revert hlt'
    generalize y.1.take t0.bd = p
    induction p with
    | nil => exact id
    | cons d p ih =>
      intro h
      rw [List.cons_append, List.cons_append, List.cons_lt_cons_iff] at h
      rcases h with h | ⟨-, h⟩
      · exact absurd h (UInt8.lt_irrefl _)
      · exact ih h
  cases hd : x.1.drop t0.bd with
  | nil =>
    rw [hd] at hlt2
    exact absurd hlt2 (List.not_lt_nil _)
  | cons d u =>
    rw [hd, List.cons_lt_cons_iff] at hlt2
    refine ⟨d, ?_, ?_⟩
    · have h3 : (x.1.drop t0.bd)[0]? = some d := by rw [hd]; rfl
      rw [List.getElem?_drop, Nat.add_zero] at h3
      exact h3
    · rintro rfl
      rcases hlt2 with h | ⟨rfl, -⟩
      · exact absurd (UInt8.lt_iff_toNat_lt.mp h) (by simp)
      · exact h2 rfl

/-- From `k` to `x` and on to `y`. -/
theorem free_trans (ht : t0.OK) {k : KV} {b m c : List KV} (e : t0.kvs = b ++ x :: m ++ k :: c) (hf : Free t0 cut k x) (y : KV) : Free t0 cut k y ↔ Free t0 cut x y := by
  rcases hf with h0 | ⟨h1, h2⟩
  · exact ⟨fun _ => .inl h0, fun _ => .inl h0⟩
  · have key : (Kept t0 y ∨ y.1[t0.bd]? = k.1[t0.bd]?) ↔ (Kept t0 y ∨ y.1[t0.bd]? = x.1[t0.bd]?) := by
      by_cases hxk : x.1[t0.bd]? = k.1[t0.bd]?
      · rw [hxk]
      · have hx := h1.resolve_right hxk
        have hk := kept_mono ht e hx
        constructor
        · rintro (h | h)
          · exact .inl h
          · obtain ⟨a, a1, a2⟩ := hk
            exact .inl ⟨a, by rw [h, a1], a2⟩
        · rintro (h | h)
          · exact .inl h
          · obtain ⟨a, a1, a2⟩ := hx
            exact .inl ⟨a, by rw [h, a1], a2⟩
    unfold Free
    rw [key]

end

end Surf
