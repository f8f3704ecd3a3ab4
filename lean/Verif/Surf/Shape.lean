import Verif.Surf.Overlap
import Verif.Surf.FindLemmas
import Mathlib.Data.List.Dedup

/-!
# The trie in terms of the keys

What is kept of a key, whether it is held by an end item, and on which level: all of it follows from how far the key agrees with the other keys. The definitions here are part of the specification, they do not use the model.
-/

set_option linter.unusedSimpArgs false

namespace Surf

/-! ### Specification -/

/-- The number of bytes in which two keys agree. -/
def lcpLen : Bytes → Bytes → Nat
  | a :: as, b :: bs => if a = b then lcpLen as bs + 1 else 0
  | _, _ => 0

/-- The greatest number of bytes in which `x` agrees with another key. -/
def shared (ks : List Bytes) (x : Bytes) : Nat := ((ks.filter (· ≠ x)).map (lcpLen x)).foldr max 0

/-- What a filter without suffixes keeps of a key: as much as is needed to tell it from the other keys. -/
def form (ks : List Bytes) (x : Bytes) : Bytes := x.take (shared ks x + 1)

/-- The key is a proper prefix of another one. -/
def isEnd (ks : List Bytes) (x : Bytes) : Prop := ∃ y ∈ ks, y ≠ x ∧ x <+: y

instance (ks : List Bytes) (x : Bytes) : Decidable (isEnd ks x) := by unfold isEnd; infer_instance

/-- How often the key meets a byte at which keys part, before the last one. -/
def level (ks : List Bytes) (x : Bytes) : Nat := ((ks.map (lcpLen x)).filter (· < shared ks x)).dedup.length

/-! ### Common prefixes -/

theorem lcpLen_comm : ∀ a b : Bytes, lcpLen a b = lcpLen b a := by
  intro a
  induction a with
  | nil => intro b; cases b <;> rfl
  | cons c a ih =>
    intro b
    cases b with
    | nil => rfl
    | cons d b =>
      unfold lcpLen
      by_cases h : c = d
      · rw [if_pos h, if_pos h.symm, ih]
      · rw [if_neg h, if_neg (Ne.symm h)]

theorem lcpLen_of : ∀ {n : Nat} {a b : Bytes}, n ≤ a.length → n ≤ b.length → a.take n = b.take n → a[n]? ≠ b[n]? → lcpLen a b = n := by
  intro n
  induction n with
  | zero =>
    intro a b _ _ _ h
    cases a with
    | nil => rfl
    | cons c a =>
      cases b with
      | nil => rfl
      | cons d b =>
        unfold lcpLen
        rw [if_neg]
        rintro rfl
        simp at h
  | succ n ih =>
    intro a b h1 h2 h3 h4
    cases a with
    | nil => simp at h1
    | cons c a =>
      cases b with
      | nil => simp at h2
      | cons d b =>
        simp only [List.take_succ_cons, List.cons.injEq, List.getElem?_cons_succ, List.length_cons] at h1 h2 h3 h4
        unfold lcpLen
        rw [if_pos h3.1, ih (by omega) (by omega) h3.2 h4]

theorem lcpLen_take : ∀ (a b : Bytes), a.take (lcpLen a b) = b.take (lcpLen a b) ∧ lcpLen a b ≤ a.length ∧ lcpLen a b ≤ b.length := by
  intro a
  induction a with
  | nil => intro b; simp [lcpLen]
  | cons c a ih =>
    intro b
    cases b with
    | nil => simp [lcpLen]
    | cons d b =>
      unfold lcpLen
      split
      · rename_i h
        subst h
        obtain ⟨h1, h2, h3⟩ := ih b
        simp [h1]
        omega
      · simp

theorem lcpLen_prefix {a b : Bytes} (h : a <+: b) : lcpLen a b = a.length := by
  obtain ⟨w, rfl⟩ := h
  induction a with
  | nil => simp [lcpLen]
  | cons c a ih => simp [lcpLen, ih]

theorem lcpLen_append (a u v : Bytes) : a.length ≤ lcpLen (a ++ u) (a ++ v) := by
  induction a with
  | nil => simp
  | cons c a ih =>
    simp only [List.cons_append, lcpLen, if_true, List.length_cons]
    omega

theorem prefix_of_lcpLen {a b : Bytes} (h : lcpLen a b = a.length) : a <+: b := by
  obtain ⟨h1, -, -⟩ := lcpLen_take a b
  rw [h, List.take_length] at h1
  rw [h1]
  exact List.take_prefix _ _

theorem foldr_max_le {l : List Nat} {m : Nat} (h : ∀ x ∈ l, x ≤ m) : l.foldr max 0 ≤ m := by
  induction l with
  | nil => simp
  | cons a l ih =>
    simp only [List.foldr_cons]
    have := h a (by simp)
    have := ih (fun x hx => h x (by simp [hx]))
    omega

theorem le_foldr_max {l : List Nat} {m : Nat} (h : m ∈ l) : m ≤ l.foldr max 0 := by
  induction l with
  | nil => simp at h
  | cons a l ih =>
    simp only [List.foldr_cons]
    rw [List.mem_cons] at h
    rcases h with rfl | h
    · omega
    · have := ih h
      omega

section
variable {t0 t : Grp} {W : List Frame} {ip iq : List Item} {i j : Item}

/-! ### Where keys part -/

theorem lcp_after (ht : t.OK) (e : t.items = ip ++ i :: iq) (hj : j ∈ iq) {x y : KV} (hx : x ∈ i.kvs) (hy : y ∈ j.kvs) : lcpLen x.1 y.1 = t.bd ∧ x ∈ t.kvs ∧ y ∈ t.kvs ∧ x.1 ≠ y.1 := by
  have hi : i ∈ t.items := by rw [e]; simp
  have hj' : j ∈ t.items := by rw [e]; simp [hj]
  obtain ⟨h1, h2⟩ := sorted_after ht e j hj
  obtain ⟨y1, y2, y3⟩ := item_label ht hj' h1 hy
  have hc := fun z hz => ht.at_bd.1.common y y1 z hz
  cases hterm : i.term with
  | true =>
    obtain ⟨x', k1, k2, k3⟩ := item_term ht hi hterm
    rw [k1, List.mem_singleton] at hx
    subst hx
    have hne : x.1[t.bd]? ≠ y.1[t.bd]? := by
      rw [y3, List.getElem?_eq_none (by omega)]
      simp
    exact ⟨lcpLen_of (by omega) (by omega) (hc x k2).symm hne, k2, y1, fun h => hne (by rw [h])⟩
  | false =>
    obtain ⟨x1, x2, x3⟩ := item_label ht hi hterm hx
    have hne : x.1[t.bd]? ≠ y.1[t.bd]? := by
      rw [x3, y3]
      intro h
      have := h2 hterm
      rw [Option.some.inj h] at this
      exact absurd this (Nat.lt_irrefl _)
    exact ⟨lcpLen_of (by omega) (by omega) (hc x x1).symm hne, x1, y1, fun h => hne (by rw [h])⟩

/-- Keys of different items of a node agree up to where it branches. -/
theorem lcp_items (ht : t.OK) (e : t.items = ip ++ i :: iq) (hj : j ∈ ip ++ iq) {x y : KV} (hx : x ∈ i.kvs) (hy : y ∈ j.kvs) : lcpLen x.1 y.1 = t.bd ∧ y ∈ t.kvs ∧ y.1 ≠ x.1 := by
  rw [List.mem_append] at hj
  rcases hj with hj | hj
  · obtain ⟨a, b, rfl⟩ := List.append_of_mem hj
    have e' : t.items = a ++ j :: (b ++ i :: iq) := by rw [e]; simp
    obtain ⟨h1, h2, h3, h4⟩ := lcp_after ht e' (j := i) (by simp) hy hx
    rw [lcpLen_comm]
    exact ⟨h1, h2, h4⟩
  · obtain ⟨h1, h2, h3, h4⟩ := lcp_after ht e hj hx hy
    exact ⟨h1, h3, h4.symm⟩

/-- A key that is not below a node parts from those below it at a node above. -/
theorem Way.parts (h0 : t0.Good) (w : Way t0 W t) {x y : KV} (hx : x ∈ t.kvs) (hy : y ∈ t0.kvs) : y ∈ t.kvs ∨ ∃ f ∈ W, lcpLen x.1 y.1 = f.t.bd := by
  induction w with
  | nil => exact .inl hy
  | @cons r f w e hc ih =>
    have hg := (w.good h0).toOK
    have hx' : x ∈ f.t.kvs := by
      rw [← f.t.items_flat, e]
      simp only [List.flatMap_append, List.flatMap_cons, List.mem_append]
      exact .inr (.inl hx)
    rcases ih hx' with h | ⟨g, hg, h⟩
    · have hm := h
      rw [← f.t.items_flat, e] at hm
      simp only [List.flatMap_append, List.flatMap_cons, List.mem_append, List.mem_flatMap] at hm
      rcases hm with ⟨j, hj, hm⟩ | hm | ⟨j, hj, hm⟩
      · exact .inr ⟨f, by simp, (lcp_items hg e (j := j) (by simp [hj]) hx hm).1⟩
      · exact .inl hm
      · exact .inr ⟨f, by simp, (lcp_items hg e (j := j) (by simp [hj]) hx hm).1⟩
    · exact .inr ⟨g, by simp [hg], h⟩

theorem Way.sub (w : Way t0 W t) {x : KV} (hx : x ∈ t.kvs) : x ∈ t0.kvs := by
  rw [w.kvs]
  simp [hx]

/-- The nodes on a way branch at greater and greater depths. -/
theorem Way.depths (w : Way t0 W t) : (∀ f ∈ W, f.t.bd < t.d) ∧ (W.map (·.t.bd)).Nodup := by
  induction w with
  | nil => simp
  | @cons r f w e hc ih =>
    have hge := f.t.bd_ge
    constructor
    · intro g hg
      show g.t.bd < f.t.bd + 1
      rw [List.mem_cons] at hg
      rcases hg with rfl | hg
      · omega
      · have := ih.1 g hg
        omega
    · rw [List.map_cons, List.nodup_cons]
      refine ⟨fun hm => ?_, ih.2⟩
      obtain ⟨g, hg, he⟩ := List.mem_map.mp hm
      have := ih.1 g hg
      omega

theorem other_item (ht : t.OK) (h2 : 2 ≤ t.kvs.length) (e : t.items = ip ++ i :: iq) : ∃ j ∈ ip ++ iq, ∃ y, y ∈ j.kvs := by
  have hl := ht.two_items h2
  have : ip ++ iq ≠ [] := by
    intro hc
    rw [List.append_eq_nil_iff] at hc
    rw [e, hc.1, hc.2] at hl
    simp at hl
  obtain ⟨j, hj⟩ := List.exists_mem_of_ne_nil _ this
  refine ⟨j, hj, List.exists_mem_of_ne_nil _ (ht.item_ne ?_)⟩
  rw [e]
  rw [List.mem_append] at hj ⊢
  rcases hj with hj | hj
  · exact .inl hj
  · exact .inr (by simp [hj])

/-- At every node on a way some key parts from those below. -/
theorem Way.parted (h0 : t0.Good) (w : Way t0 W t) {x : KV} (hx : x ∈ t.kvs) : ∀ f ∈ W, ∃ y ∈ t0.kvs, lcpLen x.1 y.1 = f.t.bd := by
  induction w with
  | nil => simp
  | @cons r f w e hc ih =>
    have hg := (w.good h0).toOK
    have hx' : x ∈ f.t.kvs := by
      rw [← f.t.items_flat, e]
      simp only [List.flatMap_append, List.flatMap_cons, List.mem_append]
      exact .inr (.inl hx)
    intro g hg'
    rw [List.mem_cons] at hg'
    rcases hg' with rfl | hg'
    · have h2 : 2 ≤ g.t.kvs.length := by
        rw [← g.t.items_flat, e]
        simp only [List.flatMap_append, List.flatMap_cons, List.length_append]
        unfold Item.child at hc
        have : 1 < g.i.kvs.length := by simpa using hc
        omega
      obtain ⟨j, hj, y, hy⟩ := other_item hg h2 e
      obtain ⟨h3, h4, -⟩ := lcp_items hg e hj hx hy
      exact ⟨y, w.sub h4, h3⟩
    · exact ih hx' g hg'

/-! ### Leaves -/

theorem eq_of_fst {l : List KV} (hs : l.Pairwise (·.1 < ·.1)) {x y : KV} (hx : x ∈ l) (hy : y ∈ l) (h : x.1 = y.1) : x = y := by
  obtain ⟨a, b, rfl⟩ := List.append_of_mem hx
  rw [List.pairwise_append, List.pairwise_cons] at hs
  rw [List.mem_append, List.mem_cons] at hy
  rcases hy with hy | hy | hy
  · have := hs.2.2 y hy x (by simp)
    rw [h] at this
    exact absurd this (List.lt_irrefl _)
  · exact hy.symm
  · have := hs.2.1.1 y hy
    rw [h] at this
    exact absurd this (List.lt_irrefl _)

section
variable (h0 : t0.Good) (hd : t0.d = 0) (hs : t0.kvs.Pairwise (·.1 < ·.1)) (w : Way t0 W t) (e : t.items = ip ++ i :: iq) {x : KV} (hx : i.kvs = [x])
include h0 hd hs w e hx

omit h0 hd hs w in
theorem leaf_mem : x ∈ t.kvs := by
  rw [← t.items_flat, e]
  simp [hx]

omit hd hs in
theorem leaf_lcp {y : KV} (hy : y ∈ t0.kvs) (hne : y ≠ x) : (y ∈ t.kvs ∧ lcpLen x.1 y.1 = t.bd) ∨ (lcpLen x.1 y.1 < t.bd ∧ ∃ f ∈ W, lcpLen x.1 y.1 = f.t.bd) := by
  have hxm := leaf_mem e hx
  rcases w.parts h0 hxm hy with h | ⟨f, hf, h⟩
  · left
    refine ⟨h, ?_⟩
    have hm := h
    rw [← t.items_flat, e] at hm
    simp only [List.flatMap_append, List.flatMap_cons, List.mem_append, List.mem_flatMap] at hm
    have hg := (w.good h0).toOK
    rcases hm with ⟨j, hj, hm⟩ | hm | ⟨j, hj, hm⟩
    · exact (lcp_items hg e (j := j) (by simp [hj]) (by rw [hx]; simp) hm).1
    · rw [hx, List.mem_singleton] at hm
      exact absurd hm hne
    · exact (lcp_items hg e (j := j) (by simp [hj]) (by rw [hx]; simp) hm).1
  · right
    have := (w.depths).1 f hf
    have := t.bd_ge
    exact ⟨by omega, f, hf, h⟩

omit h0 hd in
theorem leaf_fst {y : KV} (hy : y ∈ t0.kvs) : y.1 ≠ x.1 ↔ y ≠ x := by
  constructor
  · rintro h rfl
    exact h rfl
  · intro h hc
    have hxm := w.sub (leaf_mem e hx)
    exact h (eq_of_fst hs hy hxm hc)

/-- A leaf branches where its key has parted from all others. -/
theorem leaf_shared : shared (t0.kvs.map (·.1)) x.1 = t.bd := by
  have hxm := leaf_mem e hx
  unfold shared
  apply Nat.le_antisymm
  · apply foldr_max_le
    intro n hn
    simp only [List.mem_map, List.mem_filter, decide_eq_true_eq] at hn
    obtain ⟨k, ⟨⟨y, hy, rfl⟩, hne⟩, rfl⟩ := hn
    rcases leaf_lcp h0 w e hx hy ((leaf_fst hs w e hx hy).1 hne) with h | h <;> omega
  · by_cases h2 : 2 ≤ t.kvs.length
    · obtain ⟨j, hj, y, hy⟩ := other_item (w.good h0).toOK h2 e
      obtain ⟨h3, h4, h5⟩ := lcp_items (w.good h0).toOK e hj (x := x) (by rw [hx]; simp) hy
      apply le_foldr_max
      simp only [List.mem_map, List.mem_filter, decide_eq_true_eq]
      exact ⟨y.1, ⟨⟨y, w.sub h4, rfl⟩, h5⟩, h3⟩
    · cases w with
      | nil =>
        have := (h0.single h2).1
        omega
      | cons w' e' hc => exact absurd (Way.two h0 (.cons w' e' hc)).1 h2

omit hd in
/-- The end items hold the keys that are prefixes of others. -/
theorem leaf_end : i.term = true ↔ isEnd (t0.kvs.map (·.1)) x.1 := by
  have hi : i ∈ t.items := by rw [e]; simp
  have hg := w.good h0
  have hxm := leaf_mem e hx
  constructor
  · intro ht
    obtain ⟨x', k1, k2, k3⟩ := item_term hg.toOK hi ht
    rw [hx] at k1
    simp only [List.cons.injEq, and_true] at k1
    subst k1
    have h2 : 2 ≤ t.kvs.length := by
      by_contra hc
      obtain ⟨-, x', i', -, h3, h4, -⟩ := hg.single hc
      rw [h3, List.mem_singleton] at hi
      rw [hi, h4] at ht
      exact absurd ht (by simp)
    obtain ⟨j, hj, y, hy⟩ := other_item hg.toOK h2 e
    obtain ⟨h3, h4, h5⟩ := lcp_items hg.toOK e hj (x := x) (by rw [hx]; simp) hy
    exact ⟨y.1, List.mem_map.mpr ⟨y, w.sub h4, rfl⟩, h5, prefix_of_lcpLen (by omega)⟩
  · rintro ⟨k, hk, hne, hp⟩
    obtain ⟨y, hy, rfl⟩ := List.mem_map.mp hk
    by_contra hc
    have ht : i.term = false := by simpa using hc
    have hlt := (item_label hg.toOK hi ht (x := x) (by rw [hx]; simp)).2.1
    have hl := lcpLen_prefix hp
    rcases leaf_lcp h0 w e hx hy ((leaf_fst hs w e hx hy).1 hne) with h | h <;> omega

/-- The level of a leaf is the number of times its key parts from others before. -/
theorem leaf_level : level (t0.kvs.map (·.1)) x.1 = W.length := by
  have hsh := leaf_shared h0 hd hs w e hx
  have hxm := leaf_mem e hx
  unfold level
  rw [hsh, ← List.length_map (f := fun f : Frame => f.t.bd) (as := W)]
  apply List.Perm.length_eq
  rw [List.perm_ext_iff_of_nodup (List.nodup_dedup _) (w.depths).2]
  intro n
  simp only [List.mem_dedup, List.mem_filter, List.mem_map, decide_eq_true_eq, exists_exists_and_eq_and]
  constructor
  · rintro ⟨⟨y, hy, rfl⟩, hlt⟩
    by_cases hne : y = x
    · subst hne
      have := lcpLen_prefix (List.prefix_refl y.1)
      have := ((w.good h0).toOK).bd_le hxm
      omega
    · rcases leaf_lcp h0 w e hx hy hne with h | ⟨-, f, hf, h⟩
      · omega
      · exact ⟨f, hf, h.symm⟩
  · rintro ⟨f, hf, rfl⟩
    obtain ⟨y, hy, h⟩ := w.parted h0 hxm f hf
    have := (w.depths).1 f hf
    have := t.bd_ge
    exact ⟨⟨y, hy, h⟩, by omega⟩

end

/-- A search is clear if, behind every end on a sparse level, a key goes on like it. -/
theorem clear_of {cut : Nat} {q : Bytes} (h0 : t0.Good) (hd : t0.d = 0) (hs : t0.kvs.Pairwise (·.1 < ·.1))
    (h : ∀ x ∈ t0.kvs.map (·.1), isEnd (t0.kvs.map (·.1)) x → cut ≤ level (t0.kvs.map (·.1)) x → ∀ c : UInt8, x ++ [c] <+: q → ∃ y ∈ t0.kvs.map (·.1), x ++ [c] <+: y) : Clear t0 cut q := by
  rintro W t c v w hl rfl ⟨i, hi, ht⟩
  obtain ⟨ip, iq, e⟩ := List.append_of_mem hi
  obtain ⟨x, k1, k2, k3⟩ := item_term (w.good h0).toOK hi ht
  have hk : x.1 = str W ++ t.pre := by rw [← w.str_bd h0 hd k2, ← k3, List.take_length]
  obtain ⟨y, hy, hp⟩ := h x.1 (List.mem_map.mpr ⟨x, w.sub k2, rfl⟩) ((leaf_end h0 hs w e k1).1 ht) (by rw [leaf_level h0 hd hs w e k1]; exact hl) c
    (by rw [hk]; exact ⟨v, by simp⟩)
  rw [List.mem_map] at hy
  obtain ⟨z, hz, rfl⟩ := hy
  have hxz : x.1 <+: z.1 := (List.prefix_append _ _).trans hp
  have hlen : x.1.length < z.1.length := by
    have := hp.length_le
    rw [List.length_append, List.length_singleton] at this
    omega
  have hzt : z ∈ t.kvs := by
    rcases leaf_lcp h0 w e k1 hz (by rintro rfl; exact absurd hlen (Nat.lt_irrefl _)) with ⟨h1, -⟩ | ⟨h1, -⟩
    · exact h1
    · rw [lcpLen_prefix hxz, k3] at h1
      exact absurd h1 (Nat.lt_irrefl _)
  obtain ⟨j, hj, -, hcase⟩ := (w.good h0).toOK.item_of hzt
  rcases hcase with ⟨h1, -⟩ | ⟨-, h2, h3⟩
  · omega
  · refine ⟨j, hj, h2, ?_⟩
    obtain ⟨u, hu⟩ := hp
    rw [← hu, ← k3, List.append_assoc, List.getElem?_append_right (Nat.le_refl _)] at h3
    simpa using h3.symm

theorem Leaf.spec {x : KV} {m : Nat} {tm : Bool} (h0 : t0.Good) (hd : t0.d = 0) (hs : t0.kvs.Pairwise (·.1 < ·.1)) (hL : Leaf t0 x m tm) :
    m = shared (t0.kvs.map (·.1)) x.1 ∧ (tm = true ↔ isEnd (t0.kvs.map (·.1)) x.1) := by
  obtain ⟨W, t, ip, i, iq, w, e, hx, rfl, rfl⟩ := hL
  exact ⟨(leaf_shared h0 hd hs w e hx).symm, leaf_end h0 hs w e hx⟩

end

end Surf
