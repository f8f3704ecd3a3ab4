import Verif.Surf.GetSpec

/-!
# Ways down the trie

A way from the root to a node, and what lies to the left of it. Positions of an iterator are described by a way and a place between the items of the node it leads to.
-/

set_option linter.unusedSimpArgs false

namespace Surf

/-- A step down: a node, the items before the one taken, that item, and the items after it. -/
structure Frame where
  t : Grp
  ip : List Item
  i : Item
  iq : List Item

/-- The node a step leads to. -/
def Frame.child (f : Frame) : Grp := ⟨f.i.kvs, f.t.bd + 1⟩

/-- The steps `r` (the last one first) lead from the node `t0` to the node `t`. -/
inductive Way (t0 : Grp) : List Frame → Grp → Prop
  | nil : Way t0 [] t0
  | cons {r : List Frame} {f : Frame} : Way t0 r f.t → f.t.items = f.ip ++ f.i :: f.iq → f.i.child = true → Way t0 (f :: r) f.child

/-- The bytes on a way. -/
def str : List Frame → Bytes
  | [] => []
  | f :: r => str r ++ f.t.pre ++ [f.i.label]

/-- The pairs to the left of a way. -/
def before : List Frame → List KV
  | [] => []
  | f :: r => before r ++ f.ip.flatMap (·.kvs)

/-- The pairs to the right of a way. -/
def after : List Frame → List KV
  | [] => []
  | f :: r => f.iq.flatMap (·.kvs) ++ after r

/-- The nodes to the left of the node at the end of a way, on its level. -/
def left : List Frame → List Grp
  | [] => []
  | f :: r => (left r).flatMap Grp.children ++ kids f.t.bd f.ip

/-- The number of the node at the end of a way. -/
def num (t0 : Grp) (r : List Frame) : Nat := nid t0 r.length (left r)

section
variable {t0 t : Grp} {r : List Frame}

theorem kids_cons {b : Nat} {i : Item} {iq : List Item} (hc : i.child = true) : kids b (i :: iq) = ⟨i.kvs, b + 1⟩ :: kids b iq := by
  unfold kids
  rw [List.filter_cons, if_pos hc]
  rfl

theorem kids_leaf {b : Nat} {i : Item} {iq : List Item} (hc : i.child = false) : kids b (i :: iq) = kids b iq := by
  unfold kids
  rw [List.filter_cons, if_neg (by simp [hc])]

theorem Frame.mem_children {f : Frame} (e : f.t.items = f.ip ++ f.i :: f.iq) (hc : f.i.child = true) : f.child ∈ f.t.children := by
  rw [Grp.children_eq, e, kids_append, kids_cons hc]
  simp [Frame.child]

theorem Way.good (h0 : t0.Good) (w : Way t0 r t) : t.Good := by
  induction w with
  | nil => exact h0
  | cons w e hc ih => exact (ih.toOK.child_good (Frame.mem_children e hc)).1

theorem Way.two (h0 : t0.Good) {f : Frame} (w : Way t0 (f :: r) t) : 2 ≤ t.kvs.length ∧ 2 ≤ t.items.length := by
  cases w with
  | cons w e hc =>
    have hg := ((w.good h0).toOK.child_good (Frame.mem_children e hc))
    exact ⟨hg.2, hg.1.toOK.two_items hg.2⟩

theorem Way.desc (w : Way t0 r t) : ∃ b, t0.desc r.length = left r ++ t :: b := by
  induction w with
  | nil => exact ⟨[], rfl⟩
  | cons w e hc ih =>
    obtain ⟨b, eb⟩ := ih
    exact ⟨_, desc_child eb e hc⟩

theorem Way.kvs (w : Way t0 r t) : t0.kvs = before r ++ t.kvs ++ after r := by
  induction w with
  | nil => simp [before, after]
  | cons w e hc ih =>
    rename_i r f
    rw [ih, ← f.t.items_flat, e]
    simp [before, after, Frame.child]

theorem Way.down (w : Way t0 r t) {ip iq : List Item} {i : Item} (e : t.items = ip ++ i :: iq) (hc : i.child = true) : Way t0 (⟨t, ip, i, iq⟩ :: r) ⟨i.kvs, t.bd + 1⟩ :=
  Way.cons (f := ⟨t, ip, i, iq⟩) w e hc

theorem child_nonterm (ht : t.OK) {i : Item} (hi : i ∈ t.items) (hc : i.child = true) : i.term = false := by
  by_contra h
  have := ht.term_leaf hi (by simpa using h)
  rw [hc] at this
  exact absurd this (by simp)

theorem item_label (ht : t.OK) {i : Item} (hi : i ∈ t.items) (h : i.term = false) {x : KV} (hx : x ∈ i.kvs) : x ∈ t.kvs ∧ t.bd < x.1.length ∧ x.1[t.bd]? = some i.label := by
  rcases ht.item hi with ⟨h1, -⟩ | ⟨-, -, -, -, h2⟩
  · rw [h1] at h
    exact absurd h (by simp)
  · obtain ⟨h3, h4⟩ := h2 x hx
    obtain ⟨h5, h6⟩ := ht.rest_len h3
    exact ⟨h5, h6, h4⟩

theorem item_term (ht : t.OK) {i : Item} (hi : i ∈ t.items) (h : i.term = true) : ∃ x, i.kvs = [x] ∧ x ∈ t.kvs ∧ x.1.length = t.bd := by
  rcases ht.item hi with ⟨-, -, x, hx, e⟩ | ⟨h1, -⟩
  · exact ⟨x, e, ht.ends_len hx⟩
  · rw [h] at h1
    exact absurd h1 (by simp)

theorem take_pre (ht : t.OK) {x : KV} (hx : x ∈ t.kvs) : x.1.take t.bd = x.1.take t.d ++ t.pre := by
  have hpre : t.pre = (x.1.take t.bd).drop t.d := by
    unfold Grp.pre
    cases hk : t.kvs with
    | nil => exact absurd hk ht.ne
    | cons y ys =>
      show (y.1.take t.bd).drop t.d = _
      rw [ht.at_bd.1.common y (by rw [hk]; simp) x hx]
  have h1 := List.take_append_drop t.d (x.1.take t.bd)
  rw [List.take_take, Nat.min_eq_left t.bd_ge] at h1
  rw [hpre, h1]

theorem Way.str_len (h0 : t0.Good) (hd : t0.d = 0) (w : Way t0 r t) : (str r).length = t.d := by
  induction w with
  | nil => simp [str, hd]
  | cons w e hc ih =>
    rename_i r f
    have := (w.good h0).toOK.pre_length.2
    simp only [str, List.length_append, ih, this, Frame.child]
    rfl

theorem Way.str_take (h0 : t0.Good) (hd : t0.d = 0) (w : Way t0 r t) : ∀ x ∈ t.kvs, x.1.take t.d = str r := by
  induction w with
  | nil => simp [str, hd]
  | cons w e hc ih =>
    rename_i r f
    intro x hx
    have hg := (w.good h0).toOK
    have hm : f.i ∈ f.t.items := by rw [e]; simp
    obtain ⟨h1, h2, h3⟩ := item_label hg hm (child_nonterm hg hm hc) hx
    show x.1.take (f.t.bd + 1) = _
    rw [List.take_add_one, h3, take_pre hg h1, ih x h1]
    rfl

theorem Way.str_bd (h0 : t0.Good) (hd : t0.d = 0) (w : Way t0 r t) {x : KV} (hx : x ∈ t.kvs) : x.1.take t.bd = str r ++ t.pre := by
  rw [take_pre (w.good h0).toOK hx, w.str_take h0 hd x hx]

theorem Way.bd_len (h0 : t0.Good) (hd : t0.d = 0) (w : Way t0 r t) : (str r ++ t.pre).length = t.bd := by
  rw [List.length_append, w.str_len h0 hd, (w.good h0).toOK.pre_length.2]

/-- A way within the way. -/
theorem Way.split {s : List Frame} (w : Way t0 (s ++ r) t) : ∃ t', Way t0 r t' ∧ Way t' s t := by
  induction s generalizing t with
  | nil => exact ⟨t, w, .nil⟩
  | cons f s ih =>
    cases w with
    | cons w e hc =>
      obtain ⟨t', w1, w2⟩ := ih w
      exact ⟨t', w1, .cons w2 e hc⟩

theorem str_append (s r : List Frame) : str (s ++ r) = str r ++ str s := by
  induction s with
  | nil => simp [str]
  | cons f s ih => simp [str, ih]

/-! ### Cursors -/

/-- A place between the items of a node at the end of a way: the pairs before it, and the nodes on level `cut` before it. -/
def cur (cut : Nat) (r : List Frame) (b : Nat) (ip : List Item) : List KV × List Grp :=
  (before r ++ ip.flatMap (·.kvs), ((left r).flatMap Grp.children ++ kids b ip).flatMap (Grp.desc (cut - 1 - r.length)))

variable {cut : Nat} {f : Frame}

theorem flatMap_desc_succ (n : Nat) (l : List Grp) : l.flatMap (Grp.desc (n + 1)) = (l.flatMap Grp.children).flatMap (Grp.desc n) := by
  rw [List.flatMap_assoc]
  rfl

theorem cur_down (h : r.length + 1 < cut) (b : Nat) : cur cut (f :: r) b [] = cur cut r f.t.bd f.ip := by
  unfold cur
  rw [show cut - 1 - r.length = cut - 1 - (f :: r).length + 1 by simp only [List.length_cons]; omega, flatMap_desc_succ]
  simp [before, left, kids]

theorem cur_up (h : r.length + 1 < cut) (hc : f.i.child = true) : cur cut (f :: r) f.child.bd f.child.items = cur cut r f.t.bd (f.ip ++ [f.i]) := by
  unfold cur
  rw [show cut - 1 - r.length = cut - 1 - (f :: r).length + 1 by simp only [List.length_cons]; omega, flatMap_desc_succ, ← Grp.children_eq, f.child.items_flat, kids_append, kids_cons hc]
  simp [before, left, kids, Frame.child]

theorem cur_leaf {b : Nat} {ip : List Item} {i : Item} (hc : i.child = false) : cur cut r b (ip ++ [i]) = ((cur cut r b ip).1 ++ i.kvs, (cur cut r b ip).2) := by
  unfold cur
  rw [kids_append, kids_leaf hc]
  simp [kids]

theorem cur_in (h : r.length + 1 = cut) : cur cut r f.t.bd f.ip = (before (f :: r), left (f :: r)) := by
  unfold cur
  rw [show cut - 1 - r.length = 0 by omega]
  simp [before, left, Grp.desc]

theorem cur_out (h : r.length + 1 = cut) (hc : f.i.child = true) : cur cut r f.t.bd (f.ip ++ [f.i]) = (before (f :: r) ++ f.child.kvs, left (f :: r) ++ [f.child]) := by
  unfold cur
  rw [show cut - 1 - r.length = 0 by omega, kids_append, kids_cons hc]
  simp [before, left, Grp.desc, kids, Frame.child]

theorem cur_root (b : Nat) : cur cut [] b [] = ([], []) := by
  simp [cur, before, left, kids]

end

end Surf
