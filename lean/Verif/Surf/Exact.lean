import Verif.Surf.Shape
import Verif.Surf.FindLemmas

/-!
# Where the walk of `Get` ends, for every query
-/

set_option linter.unusedSimpArgs false

namespace Surf

variable {t0 t : Grp} {W : List Frame} {ip iq : List Item} {i : Item} {cut : Nat} {q : Bytes}

theorem Way.len_le (w : Way t0 W t) : W.length ≤ t.d := by
  induction w with
  | nil => exact Nat.zero_le _
  | cons w e hc ih =>
    rename_i r f
    have := f.t.bd_ge
    simp only [List.length_cons, Frame.child]
    omega

/-- The walk goes down the way that the query takes. -/
theorem find_down (h0 : t0.Good) (w : Way t0 W t) {x : KV} (hx : x ∈ t.kvs) (hd : t.d ≤ q.length) (hq : q.take t.d = x.1.take t.d) :
    ∀ n, find cut q (n + W.length) 0 t0 = find cut q n W.length t := by
  induction w with
  | nil => intro n; rfl
  | cons w e hc ih =>
    rename_i r f
    intro n
    have hg := w.good h0
    have hm : f.i ∈ f.t.items := by rw [e]; simp
    have hnt := child_nonterm hg.toOK hm hc
    obtain ⟨x1, x2, x3⟩ := item_label hg.toOK hm hnt hx
    have hge := f.t.bd_ge
    have hdl : f.t.bd + 1 ≤ q.length := hd
    have hqc : q.take (f.t.bd + 1) = x.1.take (f.t.bd + 1) := hq
    have hcut : ∀ m, m ≤ f.t.bd + 1 → q.take m = x.1.take m := by
      intro m hmle
      have := congrArg (List.take m) hqc
      rwa [List.take_take, List.take_take, Nat.min_eq_left hmle] at this
    have hq1 := hcut f.t.d (by omega)
    have hlab : q[f.t.bd]? = some f.i.label := by
      have h1 : (q.take (f.t.bd + 1))[f.t.bd]? = (x.1.take (f.t.bd + 1))[f.t.bd]? := by rw [hqc]
      rw [List.getElem?_take_of_lt (by omega), List.getElem?_take_of_lt (by omega), x3] at h1
      exact h1
    have := ih x1 (by omega) hq1 (n + 1)
    rw [List.length_cons, show n + (r.length + 1) = n + 1 + r.length by omega, this]
    have hp : f.t.pre <+: q.drop f.t.d := (hg.toOK.pre_iff x1 (by omega) hq1).mpr ⟨by omega, hcut f.t.bd (by omega)⟩
    obtain ⟨j, hj, e1, e2, e3, e4⟩ := find_item hg.toOK x1 x3
    have hji : j = f.i := hg.toOK.item_unique hj hm e3 hnt e4
    rw [find_hit (by omega) hp (by omega) hlab e1, hji, if_pos hc]
    rfl

/-- How a query comes to the leaf `i` of the node `t`, at the end of the way `W`, which holds `x`; `D` is the depth the walk has reached. -/
def Comes (t0 : Grp) (cut : Nat) (q : Bytes) (W : List Frame) (t : Grp) (i : Item) (x : KV) (D : Nat) : Prop :=
  (i.term = false ∧ x.1.take (t.bd + 1) <+: q ∧ D = t.bd) ∨
  (i.term = true ∧ q = x.1 ∧ D = t.bd) ∨
  (i.term = true ∧ cut ≤ W.length ∧ q = x.1.take t.d ∧ D = t.d) ∨
  (i.term = false ∧ W = [] ∧ ¬ 2 ≤ t0.kvs.length ∧ cut = 0 ∧ q = [] ∧ i.label = 0xff ∧ D = 0)

theorem find_comes (h0 : t0.Good) (hd0 : t0.d = 0) : ∀ (n : Nat) (W : List Frame) (t : Grp), Way t0 W t → t.d ≤ q.length → (∀ x ∈ t.kvs, q.take t.d = x.1.take t.d) → ∀ j D, find cut q n W.length t = some (j, D) →
    ∃ W t ip i iq x, Way t0 W t ∧ t.items = ip ++ i :: iq ∧ i.kvs = [x] ∧ j = (t.bd, i) ∧ Comes t0 cut q W t i x D := by
  intro n
  induction n with
  | zero => intro W t _ _ _ j D h; simp [find] at h
  | succ n ih =>
    intro W t w hd hin j D hf
    have h := w.good h0
    have hge := t.bd_ge
    by_cases h1 : cut ≤ W.length ∧ q.length ≤ t.d
    · rw [find_tail h1.1 h1.2] at hf
      by_cases h2 : 2 ≤ t.kvs.length
      · rw [Grp.Two.tail_eq ⟨h, h2⟩] at hf
        cases he : t.endItem with
        | none => rw [he] at hf; simp at hf
        | some i =>
          rw [he] at hf
          simp only [Option.map_some, Option.some.injEq, Prod.mk.injEq] at hf
          obtain ⟨m1, m2, m3, x, m4, m5, m6⟩ := h.toOK.endItem_mem he
          obtain ⟨ip, iq, e⟩ := List.append_of_mem m1
          refine ⟨W, t, ip, i, iq, x, w, e, m5, hf.1.symm, .inr (.inr (.inl ⟨m2, h1.1, ?_, hf.2.symm⟩))⟩
          rw [← hin x m4, List.take_of_length_le h1.2]
      · obtain ⟨e1, x, i, e2, e3, e4, e5, e6, e7⟩ := h.single h2
        unfold Grp.tail at hf
        rw [e3] at hf
        simp only [List.head?_cons] at hf
        cases hfl : (some i).filter (fun i => i.label == 0xff && !i.child) with
        | none => rw [hfl] at hf; simp at hf
        | some i' =>
          have hii : i' = i := by
            rw [Option.filter_eq_some_iff] at hfl
            simpa using hfl.1.symm
          subst hii
          rw [Option.filter_eq_some_iff] at hfl
          simp only [Bool.and_eq_true, beq_iff_eq] at hfl
          have hW : W = [] := by
            cases W with
            | nil => rfl
            | cons f r => exact absurd (w.two h0).1 h2
          subst hW
          cases w
          rw [Option.filter, if_pos (by simp [hfl.2.1, e6])] at hf
          simp only [Option.map_some, Option.some.injEq, Prod.mk.injEq] at hf
          have h12 : cut ≤ 0 := h1.1
          refine ⟨[], t0, [], i', [], x, .nil, e3, e5, hf.1.symm, .inr (.inr (.inr ⟨e4, rfl, h2, by omega, List.eq_nil_of_length_eq_zero (by omega), hfl.2.1, by omega⟩))⟩
    · by_cases hp : t.pre <+: q.drop t.d
      · by_cases h2 : q.length ≤ t.bd
        · rw [find_end h1 hp h2] at hf
          have hbt : 2 ≤ t.kvs.length ∨ W.length < cut := by
            by_cases h3 : 2 ≤ t.kvs.length
            · exact Or.inl h3
            · right
              have := (h.single h3).1
              omega
          have : (if W.length < cut then t.endItem else t.tail) = t.endItem := by
            split
            · rfl
            · exact Grp.Two.tail_eq ⟨h, hbt.resolve_right ‹_›⟩
          rw [this] at hf
          cases he : t.endItem with
          | none => rw [he] at hf; simp at hf
          | some i =>
            rw [he] at hf
            simp only [Option.map_some, Option.some.injEq, Prod.mk.injEq] at hf
            obtain ⟨m1, m2, m3, x, m4, m5, m6⟩ := h.toOK.endItem_mem he
            obtain ⟨ip, iq, e⟩ := List.append_of_mem m1
            refine ⟨W, t, ip, i, iq, x, w, e, m5, hf.1.symm, .inr (.inl ⟨m2, ?_, hf.2.symm⟩)⟩
            have := ((h.toOK.pre_iff m4 hd (hin x m4)).mp hp).2
            rw [List.take_of_length_le h2, ← m6, List.take_length] at this
            exact this
        · have hlt : t.bd < q.length := by omega
          have hqc := List.getElem?_eq_getElem hlt
          rcases find_label (is := t.items) (c := q[t.bd]) with ⟨h3, -⟩ | ⟨ip, i, iq, h3, h4, h5, h6⟩
          · rw [find_miss h1 hp h2 hqc h3] at hf
            simp at hf
          · rw [find_hit h1 hp h2 hqc h6] at hf
            have hi : i ∈ t.items := by rw [h3]; simp
            have hin' : ∀ x ∈ i.kvs, q.take (t.bd + 1) = x.1.take (t.bd + 1) := by
              intro x hx
              obtain ⟨x1, x2, x3⟩ := item_label h.toOK hi h4 hx
              have hb := ((h.toOK.pre_iff x1 hd (hin x x1)).mp hp).2
              rw [List.take_add_one, List.take_add_one, hb, x3, hqc, h5]
            cases hc : i.child with
            | true =>
              rw [hc, if_pos rfl] at hf
              exact ih (⟨t, ip, i, iq⟩ :: W) ⟨i.kvs, t.bd + 1⟩ (w.down h3 hc) (by show t.bd + 1 ≤ _; omega) hin' j D hf
            | false =>
              rw [hc, if_neg (by simp)] at hf
              simp only [Option.some.injEq, Prod.mk.injEq] at hf
              obtain ⟨e1, e2⟩ := h.toOK.leafKV hi hc
              refine ⟨W, t, ip, i, iq, _, w, h3, e1, hf.1.symm, .inl ⟨h4, ?_, hf.2.symm⟩⟩
              rw [← hin' _ (by rw [e1]; simp)]
              exact List.take_prefix _ _
      · rw [find_nopre h1 hp] at hf
        simp at hf

theorem comes_find (h0 : t0.Good) (hd0 : t0.d = 0) (w : Way t0 W t) (e : t.items = ip ++ i :: iq) {x : KV} (hx : i.kvs = [x]) {D : Nat} (hC : Comes t0 cut q W t i x D) :
    find cut q (q.length + 1) 0 t0 = some ((t.bd, i), D) := by
  have h := w.good h0
  have hi : i ∈ t.items := by rw [e]; simp
  have hxt := leaf_mem e hx
  have hge := t.bd_ge
  have hlen := w.len_le
  have hxl := h.toOK.bd_le hxt
  -- the walk to the node
  have hdown : t.d ≤ q.length → q.take t.d = x.1.take t.d → find cut q (q.length + 1) 0 t0 = find cut q (q.length - W.length + 1) W.length t := by
    intro h1 h2
    rw [← find_down h0 w hxt h1 h2, show q.length - W.length + 1 + W.length = q.length + 1 by omega]
  have hch : i.child = false := by simp [Item.child, hx]
  rcases hC with ⟨c1, c2, rfl⟩ | ⟨c1, c2, rfl⟩ | ⟨c1, c2, c3, rfl⟩ | ⟨c1, rfl, c3, c4, rfl, c6, rfl⟩
  · obtain ⟨-, x2, x3⟩ := item_label h.toOK hi c1 (x := x) (by rw [hx]; simp)
    have hl := c2.length_le
    rw [List.length_take] at hl
    have hqb : q.take (t.bd + 1) = x.1.take (t.bd + 1) := by
      rw [List.prefix_iff_eq_take, List.length_take, Nat.min_eq_left (by omega)] at c2
      exact c2.symm
    have hcut : ∀ m, m ≤ t.bd + 1 → q.take m = x.1.take m := by
      intro m hmle
      have := congrArg (List.take m) hqb
      rwa [List.take_take, List.take_take, Nat.min_eq_left hmle] at this
    rw [hdown (by omega) (hcut t.d (by omega))]
    have hp : t.pre <+: q.drop t.d := (h.toOK.pre_iff hxt (by omega) (hcut t.d (by omega))).mpr ⟨by omega, hcut t.bd (by omega)⟩
    have hlab : q[t.bd]? = some i.label := by
      have h1 : (q.take (t.bd + 1))[t.bd]? = (x.1.take (t.bd + 1))[t.bd]? := by rw [hqb]
      rw [List.getElem?_take_of_lt (by omega), List.getElem?_take_of_lt (by omega), x3] at h1
      exact h1
    obtain ⟨j, hj, e1, e2, e3, e4⟩ := find_item h.toOK hxt x3
    have hji : j = i := h.toOK.item_unique hj hi e3 c1 e4
    rw [find_hit (by omega) hp (by omega) hlab e1, hji, hch]
    rfl
  · obtain ⟨x', k1, k2, k3⟩ := item_term h.toOK hi c1
    rw [hx] at k1
    simp only [List.cons.injEq, and_true] at k1
    subst k1
    obtain ⟨i', f1, f2, f3⟩ := h.end_found k2 (by omega)
    have hii : i' = i := by
      obtain ⟨m1, m2, -⟩ := h.toOK.endItem_mem f1
      have hs := h.toOK.items_sorted
      rcases h.toOK.endItem_cases with ⟨h6, -⟩ | ⟨-, z, js, h2, h3, h4, -⟩
      · exact absurd c1 (by rw [hasEnd_false h6 i hi]; simp)
      · have hz : ∀ y ∈ t.items, y.term = true → y = z := by
          intro y hy hyt
          rw [h2, List.mem_cons] at hy
          rcases hy with rfl | hy
          · rfl
          · rw [h2, List.pairwise_cons] at hs
            have := (hs.1 y hy).1
            rw [hyt] at this
            simp at this
        rw [hz i' m1 m2, hz i hi c1]
    subst hii
    rw [hdown (by rw [c2]; omega) (by rw [c2])]
    by_cases h1 : cut ≤ W.length ∧ q.length ≤ t.d
    · rw [find_tail h1.1 h1.2, f2]
      have : t.d = t.bd := by rw [c2] at h1; omega
      simp [this]
    · have hp : t.pre <+: q.drop t.d := (h.toOK.pre_iff hxt (by rw [c2]; omega) (by rw [c2])).mpr ⟨by rw [c2]; omega, by rw [c2]⟩
      rw [find_end h1 hp (by rw [c2]; omega), f1, f2]
      simp
  · obtain ⟨x', k1, k2, k3⟩ := item_term h.toOK hi c1
    rw [hx] at k1
    simp only [List.cons.injEq, and_true] at k1
    subst k1
    obtain ⟨i', f1, f2, f3⟩ := h.end_found k2 (by omega)
    have hii : i' = i := by
      obtain ⟨m1, m2, -⟩ := h.toOK.endItem_mem f1
      have hs := h.toOK.items_sorted
      rcases h.toOK.endItem_cases with ⟨h6, -⟩ | ⟨-, z, js, h2, h3, h4, -⟩
      · exact absurd c1 (by rw [hasEnd_false h6 i hi]; simp)
      · have hz : ∀ y ∈ t.items, y.term = true → y = z := by
          intro y hy hyt
          rw [h2, List.mem_cons] at hy
          rcases hy with rfl | hy
          · rfl
          · rw [h2, List.pairwise_cons] at hs
            have := (hs.1 y hy).1
            rw [hyt] at this
            simp at this
        rw [hz i' m1 m2, hz i hi c1]
    subst hii
    have hql : q.length = t.d := by
      rw [c3, List.length_take]
      omega
    rw [hdown (by omega) (by rw [c3, List.take_take, Nat.min_self])]
    rw [find_tail c2 (by omega), f2]
    rfl
  · cases w
    obtain ⟨e1, x', i', e2, e3, e4, e5, e6, e7⟩ := h0.single c3
    have hii : i = i' := by
      rw [e3] at hi
      simpa using hi
    subst hii
    show find cut [] 1 0 t0 = _
    rw [find_tail (by omega) (by simp)]
    unfold Grp.tail
    rw [e3]
    simp [Option.filter, c6, hch, hd0]

end Surf
