import Verif.Art.Cont
import Verif.Spec.Map

/-!
# The tree invariant

Every node of the tree has a *path* `E`: the bytes that every key below the node begins with (up to the end of the prefix
of the node). `Tree` says how the paths, the children, the prefix leaves and the prefix lengths of the nodes of the tree fit together, and
which map the tree stands for. It does not depend on the kinds of nodes.
-/

set_option linter.unusedSimpArgs false

namespace Art

open Surf Spec

/-! ## Prefixes -/

theorem prefix_cases {p q K : Bytes} (h1 : p <+: K) (h2 : q <+: K) : p <+: q ∨ q <+: p := List.prefix_or_prefix_of_prefix h1 h2

theorem snoc_inj {p K : Bytes} {b c : UInt8} (h1 : p ++ [b] <+: K) (h2 : p ++ [c] <+: K) : b = c := by
  obtain ⟨s, rfl⟩ := h1
  obtain ⟨t, h⟩ := h2
  rw [List.append_assoc, List.append_assoc] at h
  have := List.append_cancel_left h
  simp at this
  exact this.1.symm

theorem prefix_of_snoc {p K : Bytes} {b : UInt8} (h : p ++ [b] <+: K) : p <+: K := (List.prefix_append p [b]).trans h

theorem snoc_of_prefix {p K : Bytes} (h : p <+: K) (hne : p ≠ K) : ∃ b, p ++ [b] <+: K := by
  obtain ⟨s, rfl⟩ := h
  cases s with
  | nil => simp at hne
  | cons b s => exact ⟨b, s, by simp⟩

theorem not_snoc_self {p : Bytes} {b : UInt8} : ¬ p ++ [b] <+: p := by
  intro h
  have := h.length_le
  simp at this

theorem prefix_antisymm {p q : Bytes} (h1 : p <+: q) (h2 : q <+: p) : p = q := h1.eq_of_length_le h2.length_le

theorem prefix_snoc_cases {p q : Bytes} {b : UInt8} (h : p <+: q ++ [b]) : p = q ++ [b] ∨ p <+: q := List.prefix_concat_iff.mp h

theorem snoc_of_longer {p q K : Bytes} {b : UInt8} (h1 : p ++ [b] <+: K) (h2 : q <+: K) (h : p <+: q) (hne : p ≠ q) : p ++ [b] <+: q := by
  rcases prefix_cases h1 h2 with h3 | h3
  · exact h3
  · rcases prefix_snoc_cases h3 with h4 | h4
    · rw [h4]; exact List.prefix_rfl
    · exact absurd (prefix_antisymm h h4) hne

/-! ## The invariant -/

/-- What the tree structure needs to know of a node. -/
structure View where
  child : UInt8 → Option Ref
  pleaf : Option Leaf
  plen : Nat

/-- A leaf that hangs directly on a node. -/
def View.Stored (v : View) (l : Leaf) : Prop := v.pleaf = some l ∨ ∃ b, v.child b = some (.leaf l)

/-- No child is an inner node. -/
def View.NoNodes (v : View) : Prop := ∀ b c, v.child b ≠ some (.node c)

/-- The leaves of a node with the path `p` are where they belong. -/
structure View.LeavesOk (v : View) (p : Bytes) : Prop where
  leaf : ∀ b l, v.child b = some (.leaf l) → p ++ [b] <+: l.key
  pleaf : ∀ l, v.pleaf = some l → l.key = p

theorem View.LeavesOk.prefix {v : View} {p : Bytes} (h : v.LeavesOk p) {l : Leaf} (hs : v.Stored l) : p <+: l.key := by
  rcases hs with hs | ⟨b, hs⟩
  · rw [h.pleaf l hs]; exact List.prefix_rfl
  · exact prefix_of_snoc (h.leaf b l hs)

/-- The nodes `live` with paths `E` and contents `V` form a tree with the given root that stands for the map `m`. -/
structure Tree (E : Addr → Bytes) (live : Addr → Prop) (V : Addr → View) (root : Addr) (m : Map) : Prop where
  root_live : live root
  root_E : E root = []
  root_plen : (V root).plen = 0
  inj : ∀ a b, live a → live b → E a = E b → a = b
  child : ∀ n b c, live n → (V n).child b = some (.node c) →
    live c ∧ E n ++ [b] <+: E c ∧ (V c).plen + (E n).length + 1 = (E c).length
  leaves : ∀ n, live n → (V n).LeavesOk (E n)
  path : ∀ n k, live n → live k → n ≠ k → E n <+: E k →
    ∃ b c, E n ++ [b] <+: E k ∧ (V n).child b = some (.node c) ∧ E c <+: E k
  mem : ∀ K v, m K = some v ↔ ∃ n l, live n ∧ (V n).Stored l ∧ l.key = K ∧ l.value = v

namespace Tree

variable {E : Addr → Bytes} {live : Addr → Prop} {V : Addr → View} {root : Addr} {m : Map}

/-- Where a stored key can be, seen from a node on its path: in this node, or below a child. -/
theorem stored_at (h : Tree E live V root m) {n a : Addr} {l : Leaf} (hn : live n) (ha : live a) (hs : (V a).Stored l)
    (hp : E n <+: l.key) : a = n ∨ ∃ b c, E n ++ [b] <+: l.key ∧ (V n).child b = some (.node c) ∧ E c <+: l.key := by
  by_cases hne : a = n
  · exact Or.inl hne
  · right
    have hap := (h.leaves a ha).prefix hs
    rcases prefix_cases hp hap with h1 | h1
    · obtain ⟨b, c, h2, h3, h4⟩ := h.path n a hn ha (Ne.symm hne) h1
      exact ⟨b, c, h2.trans hap, h3, h4.trans hap⟩
    · exfalso
      obtain ⟨b, c, h2, h3, h4⟩ := h.path a n ha hn hne h1
      rcases hs with hs | ⟨b', hs⟩
      · have := (h.leaves a ha).pleaf l hs
        rw [this] at hp
        exact not_snoc_self (h2.trans hp)
      · have := snoc_inj ((h.leaves a ha).leaf b' l hs) (h2.trans hp)
        subst this
        rw [hs] at h3
        simp at h3

/-- What the node on the path of a key says about the key. -/
theorem lookup_end (h : Tree E live V root m) {n : Addr} (hn : live n) : m (E n) = (V n).pleaf.map Leaf.value := by
  apply Option.ext
  intro v
  rw [h.mem]
  constructor
  · rintro ⟨a, l, ha, hs, hk, rfl⟩
    rcases h.stored_at hn ha hs (by rw [hk]; exact List.prefix_rfl) with rfl | ⟨b, c, h1, -⟩
    · rcases hs with hs | ⟨b, hs⟩
      · simp [hs]
      · have := (h.leaves a ha).leaf b l hs
        rw [hk] at this
        exact absurd this not_snoc_self
    · rw [hk] at h1
      exact absurd h1 not_snoc_self
  · intro e
    rw [Option.map_eq_some_iff] at e
    obtain ⟨l, h1, h2⟩ := e
    exact ⟨n, l, hn, Or.inl h1, (h.leaves n hn).pleaf l h1, h2⟩

theorem lookup_none (h : Tree E live V root m) {n : Addr} (hn : live n) {b : UInt8} {K : Bytes} (hp : E n ++ [b] <+: K)
    (hc : (V n).child b = none) : m K = none := by
  by_contra hne
  obtain ⟨v, hv⟩ := Option.ne_none_iff_exists'.mp hne
  obtain ⟨a, l, ha, hs, hk, -⟩ := (h.mem K v).mp hv
  rcases h.stored_at hn ha hs (by rw [hk]; exact prefix_of_snoc hp) with rfl | ⟨b', c, h1, h2, -⟩
  · rcases hs with hs | ⟨b', hs⟩
    · have := (h.leaves a ha).pleaf l hs
      rw [← hk, this] at hp
      exact not_snoc_self hp
    · have := (h.leaves a ha).leaf b' l hs
      rw [hk] at this
      have := snoc_inj this hp
      subst this
      rw [hc] at hs
      simp at hs
  · rw [hk] at h1
    have := snoc_inj h1 hp
    subst this
    rw [hc] at h2
    simp at h2

theorem lookup_leaf (h : Tree E live V root m) {n : Addr} (hn : live n) {b : UInt8} {K : Bytes} (hp : E n ++ [b] <+: K) {l : Leaf}
    (hc : (V n).child b = some (.leaf l)) : m K = if l.key = K then some l.value else none := by
  split
  next e => exact (h.mem K _).mpr ⟨n, l, hn, Or.inr ⟨b, hc⟩, e, rfl⟩
  next e =>
    by_contra hne
    obtain ⟨v, hv⟩ := Option.ne_none_iff_exists'.mp hne
    obtain ⟨a, l', ha, hs, hk, -⟩ := (h.mem K v).mp hv
    rcases h.stored_at hn ha hs (by rw [hk]; exact prefix_of_snoc hp) with rfl | ⟨b', c, h1, h2, -⟩
    · rcases hs with hs | ⟨b', hs⟩
      · have := (h.leaves a ha).pleaf l' hs
        rw [← hk, this] at hp
        exact not_snoc_self hp
      · have := (h.leaves a ha).leaf b' l' hs
        rw [hk] at this
        have := snoc_inj this hp
        subst this
        rw [hc] at hs
        simp at hs
        subst hs
        exact e hk
    · rw [hk] at h1
      have := snoc_inj h1 hp
      subst this
      rw [hc] at h2
      simp at h2

theorem lookup_node (h : Tree E live V root m) {n : Addr} (hn : live n) {b : UInt8} {K : Bytes} (hp : E n ++ [b] <+: K) {c : Addr}
    (hc : (V n).child b = some (.node c)) (hcK : ¬ E c <+: K) : m K = none := by
  by_contra hne
  obtain ⟨v, hv⟩ := Option.ne_none_iff_exists'.mp hne
  obtain ⟨a, l', ha, hs, hk, -⟩ := (h.mem K v).mp hv
  rcases h.stored_at hn ha hs (by rw [hk]; exact prefix_of_snoc hp) with rfl | ⟨b', c', h1, h2, h3⟩
  · rcases hs with hs | ⟨b', hs⟩
    · have := (h.leaves a ha).pleaf l' hs
      rw [← hk, this] at hp
      exact not_snoc_self hp
    · have := (h.leaves a ha).leaf b' l' hs
      rw [hk] at this
      have := snoc_inj this hp
      subst this
      rw [hc] at hs
      simp at hs
  · rw [hk] at h1 h3
    have := snoc_inj h1 hp
    subst this
    rw [hc] at h2
    simp at h2
    subst h2
    exact hcK h3

/-- Every node but the root has a parent. -/
theorem exists_parent (h : Tree E live V root m) {n : Addr} (hn : live n) (hne : n ≠ root) :
    ∃ p b, live p ∧ (V p).child b = some (.node n) := by
  -- go down from the root towards `n`
  have : ∀ k a, live a → a ≠ n → E a <+: E n → (E n).length - (E a).length ≤ k → ∃ p b, live p ∧ (V p).child b = some (.node n) := by
    intro k
    induction k with
    | zero =>
      intro a ha hne' hp hk
      exact absurd (h.inj a n ha hn (hp.eq_of_length_le (by omega))) hne'
    | succ k ih =>
      intro a ha hne' hp hk
      obtain ⟨b, c, h1, h2, h3⟩ := h.path a n ha hn hne' hp
      by_cases hc : c = n
      · subst hc
        exact ⟨a, b, ha, h2⟩
      · obtain ⟨h4, h5, -⟩ := h.child a b c ha h2
        have := h5.length_le
        have := h3.length_le
        simp at *
        exact ih c h4 hc h3 (by omega)
  exact this _ root h.root_live (Ne.symm hne) (by rw [h.root_E]; exact List.nil_prefix) (Nat.le_refl _)

/-- The parent and the byte are unique. -/
theorem parent_unique (h : Tree E live V root m) {n p p' : Addr} {b b' : UInt8} (hp : live p) (hp' : live p')
    (h1 : (V p).child b = some (.node n)) (h2 : (V p').child b' = some (.node n)) : p = p' ∧ b = b' := by
  have key : ∀ {p p' b b'}, live p → live p' → (V p).child b = some (.node n) → (V p').child b' = some (.node n) →
      E p <+: E p' → p = p' := by
    intro p p' b b' hp hp' h1 h2 hpp
    by_contra hne
    obtain ⟨c, d, h3, h4, h5⟩ := h.path p p' hp hp' hne hpp
    obtain ⟨-, h6, -⟩ := h.child p b n hp h1
    obtain ⟨-, h7, -⟩ := h.child p' b' n hp' h2
    have := snoc_inj h6 (h3.trans (prefix_of_snoc h7))
    subst this
    rw [h1] at h4
    simp at h4
    subst h4
    exact not_snoc_self (h7.trans h5)
  obtain ⟨-, h6, -⟩ := h.child p b n hp h1
  obtain ⟨-, h7, -⟩ := h.child p' b' n hp' h2
  have e : p = p' := by
    rcases prefix_cases (prefix_of_snoc h6) (prefix_of_snoc h7) with hh | hh
    · exact key hp hp' h1 h2 hh
    · exact (key hp' hp h2 h1 hh).symm
  subst e
  exact ⟨rfl, snoc_inj h6 h7⟩

/-- The root is nobody's child. -/
theorem root_not_child (h : Tree E live V root m) {p : Addr} {b : UInt8} (hp : live p) : (V p).child b ≠ some (.node root) := by
  intro e
  obtain ⟨-, h1, -⟩ := h.child p b root hp e
  have := h1.length_le
  rw [h.root_E] at this
  simp at this

theorem child_ne (h : Tree E live V root m) {p n : Addr} {b : UInt8} (hp : live p) (e : (V p).child b = some (.node n)) : n ≠ p := by
  rintro rfl
  obtain ⟨-, h1, -⟩ := h.child n b n hp e
  exact not_snoc_self h1

theorem parent_prefix (h : Tree E live V root m) {n : Addr} (hn : live n) :
    (V n).plen ≤ (E n).length ∧ (n ≠ root → ∃ p b, live p ∧ (V p).child b = some (.node n) ∧
      E p ++ [b] = (E n).take ((E n).length - (V n).plen)) := by
  constructor
  · by_cases hr : n = root
    · subst hr
      rw [h.root_plen]
      exact Nat.zero_le _
    · obtain ⟨p, b, h1, h2⟩ := h.exists_parent hn hr
      obtain ⟨-, -, h3⟩ := h.child p b n h1 h2
      omega
  · intro hr
    obtain ⟨p, b, h1, h2⟩ := h.exists_parent hn hr
    obtain ⟨-, h4, h3⟩ := h.child p b n h1 h2
    refine ⟨p, b, h1, h2, ?_⟩
    rw [List.prefix_iff_eq_take] at h4
    rw [h4]
    congr 1
    simp
    omega

/-- A key that agrees with the path of a node up to its prefix, but not further, is not in the map. -/
theorem absent_of_mismatch (h : Tree E live V root m) {n : Addr} (hn : live n) {K : Bytes}
    (h1 : (E n).take ((E n).length - (V n).plen) <+: K) (h2 : ¬ E n <+: K) : m K = none := by
  by_cases hr : n = root
  · subst hr
    rw [h.root_E] at h2
    exact absurd List.nil_prefix h2
  · obtain ⟨p, b, hp, hc, e⟩ := (h.parent_prefix hn).2 hr
    exact h.lookup_node hp (by rw [e]; exact h1) hc h2

/-! ## Changes -/

/-- Only the nodes of the tree matter. -/
theorem congr (h : Tree E live V root m) {E' : Addr → Bytes} {live' : Addr → Prop} {V' : Addr → View} (hl : ∀ a, live' a ↔ live a)
    (hE : ∀ a, live a → E' a = E a) (hV : ∀ a, live a → V' a = V a) : Tree E' live' V' root m := by
  have hl' : live' = live := funext fun a => propext (hl a)
  subst hl'
  refine ⟨h.root_live, by rw [hE _ h.root_live, h.root_E], by rw [hV _ h.root_live, h.root_plen], ?_, ?_, ?_, ?_, ?_⟩
  · intro a b ha hb e
    rw [hE a ha, hE b hb] at e
    exact h.inj a b ha hb e
  · intro n b c hn hc
    rw [hV n hn] at hc
    have := h.child n b c hn hc
    rw [hE n hn, hE c this.1, hV c this.1]
    exact this
  · intro n hn
    rw [hV n hn, hE n hn]
    exact h.leaves n hn
  · intro n k hn hk hne hp
    rw [hE n hn, hE k hk] at hp
    obtain ⟨b, c, h1, h2, h3⟩ := h.path n k hn hk hne hp
    have hc := (h.child n b c hn h2).1
    exact ⟨b, c, by rw [hE n hn, hE k hk]; exact h1, by rw [hV n hn]; exact h2, by rw [hE c hc, hE k hk]; exact h3⟩
  · intro K v
    rw [h.mem]
    constructor
    · rintro ⟨n, l, h1, h2, h3⟩
      exact ⟨n, l, h1, by rw [hV n h1]; exact h2, h3⟩
    · rintro ⟨n, l, h1, h2, h3⟩
      exact ⟨n, l, h1, by rw [hV n h1] at h2; exact h2, h3⟩

/-- Change the prefix leaf of a node. -/
theorem setPleaf (h : Tree E live V root m) {n : Addr} (hn : live n) (o : Option Leaf) (ho : ∀ l, o = some l → l.key = E n) {m' : Map}
    (hm1 : ∀ K, K ≠ E n → m' K = m K) (hm2 : m' (E n) = o.map Leaf.value) :
    Tree E live (upd V n { V n with pleaf := o }) root m' := by
  have hch : ∀ a, (upd V n { V n with pleaf := o } a).child = (V a).child := by
    intro a
    by_cases e : a = n
    · subst e; rw [upd_same]
    · rw [upd_other _ _ e]
  have hpl : ∀ a, (upd V n { V n with pleaf := o } a).plen = (V a).plen := by
    intro a
    by_cases e : a = n
    · subst e; rw [upd_same]
    · rw [upd_other _ _ e]
  refine ⟨h.root_live, h.root_E, by rw [hpl]; exact h.root_plen, h.inj, ?_, ?_, ?_, ?_⟩
  · intro a b c ha hc
    rw [hch] at hc
    rw [hpl]
    exact h.child a b c ha hc
  · intro a ha
    refine ⟨?_, ?_⟩
    · intro b l hc
      rw [hch] at hc
      exact (h.leaves a ha).leaf b l hc
    · intro l hc
      by_cases e : a = n
      · subst e
        rw [upd_same] at hc
        exact ho l hc
      · rw [upd_other _ _ e] at hc
        exact (h.leaves a ha).pleaf l hc
  · intro a k ha hk hne hp
    obtain ⟨b, c, h1, h2, h3⟩ := h.path a k ha hk hne hp
    exact ⟨b, c, h1, by rw [hch]; exact h2, h3⟩
  · intro K v
    by_cases hK : K = E n
    · subst hK
      rw [hm2]
      constructor
      · intro e
        rw [Option.map_eq_some_iff] at e
        obtain ⟨l, h1, h2⟩ := e
        exact ⟨n, l, hn, Or.inl (by rw [upd_same]; exact h1), ho l h1, h2⟩
      · rintro ⟨a, l, ha, hs, hk, rfl⟩
        by_cases e : a = n
        · subst e
          rw [upd_same] at hs
          rcases hs with hs | ⟨b, hs⟩
          · simp only at hs
            simp [hs]
          · have := (h.leaves a ha).leaf b l hs
            rw [hk] at this
            exact absurd this not_snoc_self
        · rw [upd_other _ _ e] at hs
          rcases h.stored_at hn ha hs (by rw [hk]; exact List.prefix_rfl) with hh | ⟨b, c, h1, -⟩
          · exact absurd hh e
          · rw [hk] at h1
            exact absurd h1 not_snoc_self
    · rw [hm1 K hK, h.mem]
      constructor
      · rintro ⟨a, l, ha, hs, hk, hv⟩
        refine ⟨a, l, ha, ?_, hk, hv⟩
        by_cases e : a = n
        · subst e
          rw [upd_same]
          rcases hs with hs | hs
          · rw [(h.leaves a ha).pleaf l hs] at hk
            exact absurd hk.symm hK
          · exact Or.inr hs
        · rw [upd_other _ _ e]; exact hs
      · rintro ⟨a, l, ha, hs, hk, hv⟩
        refine ⟨a, l, ha, ?_, hk, hv⟩
        by_cases e : a = n
        · subst e
          rw [upd_same] at hs
          rcases hs with hs | hs
          · rw [ho l hs] at hk
            exact absurd hk.symm hK
          · exact Or.inr hs
        · rw [upd_other _ _ e] at hs; exact hs

/-- Put `r` under `b`. -/
def _root_.Art.View.set (v : View) (b : UInt8) (r : Option Ref) : View := { v with child := upd v.child b r }

/-- Change a slot that has no inner node: add, replace or remove a leaf. -/
theorem setLeaf (h : Tree E live V root m) {n : Addr} (hn : live n) (b : UInt8) (hold : ∀ c, (V n).child b ≠ some (.node c))
    (o : Option Leaf) (ho : ∀ l, o = some l → E n ++ [b] <+: l.key) {m' : Map} (hm1 : ∀ K, ¬ E n ++ [b] <+: K → m' K = m K)
    (hm2 : ∀ K, E n ++ [b] <+: K → ∀ v, m' K = some v ↔ ∃ l, o = some l ∧ l.key = K ∧ l.value = v) :
    Tree E live (upd V n ((V n).set b (o.map .leaf))) root m' := by
  have hpl : ∀ a, (upd V n ((V n).set b (o.map .leaf)) a).plen = (V a).plen := by
    intro a
    by_cases e : a = n
    · subst e; rw [upd_same]; rfl
    · rw [upd_other _ _ e]
  have hpf : ∀ a, (upd V n ((V n).set b (o.map .leaf)) a).pleaf = (V a).pleaf := by
    intro a
    by_cases e : a = n
    · subst e; rw [upd_same]; rfl
    · rw [upd_other _ _ e]
  have hch : ∀ a b' c, (upd V n ((V n).set b (o.map .leaf)) a).child b' = some (.node c) ↔ (V a).child b' = some (.node c) := by
    intro a b' c
    by_cases e : a = n
    · subst e
      rw [upd_same]
      simp only [View.set]
      by_cases e' : b' = b
      · subst e'
        rw [upd_same]
        constructor
        · intro hh; rw [Option.map_eq_some_iff] at hh; obtain ⟨l, -, hh⟩ := hh; simp at hh
        · intro hh; exact absurd hh (hold c)
      · rw [upd_other _ _ e']
    · rw [upd_other _ _ e]
  have hlf : ∀ a b' l, (upd V n ((V n).set b (o.map .leaf)) a).child b' = some (.leaf l) ↔
      if a = n ∧ b' = b then o = some l else (V a).child b' = some (.leaf l) := by
    intro a b' l
    by_cases e : a = n
    · subst e
      rw [upd_same]
      simp only [View.set]
      by_cases e' : b' = b
      · subst e'
        rw [upd_same, if_pos (by simp), Option.map_eq_some_iff]
        simp
      · rw [upd_other _ _ e', if_neg (fun hh => e' hh.2)]
    · rw [upd_other _ _ e, if_neg (fun hh => e hh.1)]
  refine ⟨h.root_live, h.root_E, by rw [hpl]; exact h.root_plen, h.inj, ?_, ?_, ?_, ?_⟩
  · intro a b' c ha hc
    rw [hch] at hc
    rw [hpl]
    exact h.child a b' c ha hc
  · intro a ha
    refine ⟨?_, ?_⟩
    · intro b' l hc
      rw [hlf] at hc
      split at hc
      next e => rw [e.1, e.2]; exact ho l hc
      next => exact (h.leaves a ha).leaf b' l hc
    · intro l hc
      rw [hpf] at hc
      exact (h.leaves a ha).pleaf l hc
  · intro a k ha hk hne hp
    obtain ⟨b', c, h1, h2, h3⟩ := h.path a k ha hk hne hp
    exact ⟨b', c, h1, by rw [hch]; exact h2, h3⟩
  · intro K v
    by_cases hK : E n ++ [b] <+: K
    · rw [hm2 K hK]
      constructor
      · rintro ⟨l, h1, h2, h3⟩
        exact ⟨n, l, hn, Or.inr ⟨b, by rw [hlf, if_pos ⟨rfl, rfl⟩]; exact h1⟩, h2, h3⟩
      · rintro ⟨a, l, ha, hs, hk, hv⟩
        refine ⟨l, ?_, hk, hv⟩
        have hs' : (V a).Stored l ∨ a = n ∧ o = some l := by
          rcases hs with hs | ⟨b', hs⟩
          · rw [hpf] at hs; exact Or.inl (Or.inl hs)
          · rw [hlf] at hs
            split at hs
            next e => exact Or.inr ⟨e.1, hs⟩
            next => exact Or.inl (Or.inr ⟨b', hs⟩)
        rcases hs' with hs' | hs'
        · rcases h.stored_at hn ha hs' (by rw [hk]; exact prefix_of_snoc hK) with rfl | ⟨b', c, h1, h2, -⟩
          · rcases hs with hs | ⟨b', hs⟩
            · rw [hpf] at hs
              have := (h.leaves a ha).pleaf l hs
              rw [← hk, this] at hK
              exact absurd hK not_snoc_self
            · rw [hlf] at hs
              split at hs
              next => exact hs
              next hno =>
                have := (h.leaves a ha).leaf b' l hs
                rw [hk] at this
                exact absurd (snoc_inj this hK) (by simpa using hno)
          · rw [hk] at h1
            have := snoc_inj h1 hK
            subst this
            exact absurd h2 (hold c)
        · exact hs'.2
    · rw [hm1 K hK, h.mem]
      constructor
      · rintro ⟨a, l, ha, hs, hk, hv⟩
        refine ⟨a, l, ha, ?_, hk, hv⟩
        rcases hs with hs | ⟨b', hs⟩
        · exact Or.inl (by rw [hpf]; exact hs)
        · refine Or.inr ⟨b', ?_⟩
          rw [hlf, if_neg]
          · exact hs
          · rintro ⟨rfl, rfl⟩
            have := (h.leaves a ha).leaf b' l hs
            rw [hk] at this
            exact hK this
      · rintro ⟨a, l, ha, hs, hk, hv⟩
        refine ⟨a, l, ha, ?_, hk, hv⟩
        rcases hs with hs | ⟨b', hs⟩
        · exact Or.inl (by rw [hpf] at hs; exact hs)
        · refine Or.inr ⟨b', ?_⟩
          rw [hlf] at hs
          split at hs
          next e =>
            have := ho l hs
            rw [hk] at this
            exact absurd this hK
          next => exact hs

/-- Put a new node `q` into the slot `b` of `p`. An inner node that was in the slot becomes a child of `q`; leaves are free. -/
theorem insertNode (h : Tree E live V root m) {p : Addr} (hp : live p) (b : UInt8) {q : Addr} (hq : ¬ live q) {Q : Bytes}
    (hQ : E p ++ [b] <+: Q) {V' : Addr → View} (hplen : (V' q).plen + (E p).length + 1 = Q.length) (hl : (V' q).LeavesOk Q)
    (hnode : ∀ b' c, (V' q).child b' = some (.node c) → (V p).child b = some (.node c) ∧ Q ++ [b'] <+: E c)
    (hold : ∀ c, (V p).child b = some (.node c) → ∃ b', (V' q).child b' = some (.node c))
    (hVp : (V' p).child = upd (V p).child b (some (.node q)))
    (hVo : ∀ a, live a → a ≠ p → (V' a).child = (V a).child)
    (hVf : ∀ a, live a → (V' a).pleaf = (V a).pleaf)
    (hVl : ∀ a, live a → (V p).child b ≠ some (.node a) → (V' a).plen = (V a).plen)
    (hVc : ∀ c, (V p).child b = some (.node c) → (V' c).plen + Q.length + 1 = (E c).length) {m' : Map}
    (hm1 : ∀ K, ¬ E p ++ [b] <+: K → m' K = m K)
    (hm2 : ∀ K c, (V p).child b = some (.node c) → E c <+: K → m' K = m K)
    (hm3 : ∀ K, E p ++ [b] <+: K → (∀ c, (V p).child b = some (.node c) → ¬ E c <+: K) →
      ∀ v, m' K = some v ↔ ∃ l, (V' q).Stored l ∧ l.key = K ∧ l.value = v) :
    Tree (upd E q Q) (fun a => a = q ∨ live a) V' root m' := by
  have hqne : ∀ a, live a → a ≠ q := fun a ha e => hq (e ▸ ha)
  have hE : ∀ a, live a → upd E q Q a = E a := fun a ha => upd_other _ _ (hqne a ha)
  have hEq : upd E q Q q = Q := upd_same _ _ _
  have hQc : ∀ c, (V p).child b = some (.node c) → ∃ b', Q ++ [b'] <+: E c ∧ (V' q).child b' = some (.node c) := by
    intro c hc
    obtain ⟨b', hb'⟩ := hold c hc
    exact ⟨b', (hnode b' c hb').2, hb'⟩
  -- a node on the path below the slot
  have hbelow : ∀ k, live k → E p ++ [b] <+: E k → ∃ c, (V p).child b = some (.node c) ∧ E c <+: E k := by
    intro k hk hpk
    have hne : p ≠ k := by rintro rfl; exact not_snoc_self hpk
    obtain ⟨b', c, h1, h2, h3⟩ := h.path p k hp hk hne (prefix_of_snoc hpk)
    have := snoc_inj h1 hpk
    subst this
    exact ⟨c, h2, h3⟩
  have hnoQ : ∀ k, live k → E p ++ [b] <+: E k → ¬ E k <+: Q := by
    intro k hk hpk hkQ
    obtain ⟨c, h1, h2⟩ := hbelow k hk hpk
    obtain ⟨b', h3, -⟩ := hQc c h1
    exact not_snoc_self (h3.trans (h2.trans hkQ))
  have hroot : root ≠ q := hqne root h.root_live
  have hchild : ∀ a b' c, live a → (V' a).child b' = some (.node c) → (a = p ∧ b' = b ∧ c = q) ∨ ((a ≠ p ∨ b' ≠ b) ∧ (V a).child b' = some (.node c)) := by
    intro a b' c ha hc
    by_cases e : a = p
    · subst e
      rw [hVp] at hc
      by_cases e' : b' = b
      · subst e'
        rw [upd_same] at hc
        simp at hc
        exact Or.inl ⟨rfl, rfl, hc.symm⟩
      · rw [upd_other _ _ e'] at hc
        exact Or.inr ⟨Or.inr e', hc⟩
    · rw [hVo a ha e] at hc
      exact Or.inr ⟨Or.inl e, hc⟩
  have hleaf : ∀ a b' l, live a → (V' a).child b' = some (.leaf l) → (a ≠ p ∨ b' ≠ b) ∧ (V a).child b' = some (.leaf l) := by
    intro a b' l ha hc
    by_cases e : a = p
    · subst e
      rw [hVp] at hc
      by_cases e' : b' = b
      · subst e'
        rw [upd_same] at hc
        simp at hc
      · rw [upd_other _ _ e'] at hc
        exact ⟨Or.inr e', hc⟩
    · rw [hVo a ha e] at hc
      exact ⟨Or.inl e, hc⟩
  have hkeep : ∀ a b', live a → (a ≠ p ∨ b' ≠ b) → (V' a).child b' = (V a).child b' := by
    intro a b' ha hne
    by_cases e : a = p
    · subst e
      rw [hVp, upd_other]
      rcases hne with hne | hne
      · exact absurd rfl hne
      · exact hne
    · rw [hVo a ha e]
  refine ⟨Or.inr h.root_live, by rw [hE _ h.root_live]; exact h.root_E, ?_, ?_, ?_, ?_, ?_, ?_⟩
  · rw [hVl root h.root_live (h.root_not_child hp)]; exact h.root_plen
  · have key : ∀ k, live k → Q ≠ E k := by
      intro k hk e
      exact hnoQ k hk (by rw [← e]; exact hQ) (by rw [e]; exact List.prefix_rfl)
    rintro a c (rfl | ha) (rfl | hc) e
    · rfl
    · rw [hEq, hE c hc] at e; exact absurd e (key c hc)
    · rw [hEq, hE a ha] at e; exact absurd e.symm (key a ha)
    · rw [hE a ha, hE c hc] at e; exact h.inj a c ha hc e
  · rintro n b' c (rfl | hn) hc
    · obtain ⟨h1, h2⟩ := hnode b' c hc
      have h3 := (h.child p b c hp h1).1
      rw [hEq, hE c h3]
      exact ⟨Or.inr h3, h2, hVc c h1⟩
    · rcases hchild n b' c hn hc with ⟨rfl, rfl, rfl⟩ | ⟨hne, hc'⟩
      · rw [hEq, hE n hn]
        exact ⟨Or.inl rfl, hQ, hplen⟩
      · obtain ⟨h1, h2, h3⟩ := h.child n b' c hn hc'
        rw [hE n hn, hE c h1, hVl c h1]
        · exact ⟨Or.inr h1, h2, h3⟩
        · intro hpc
          obtain ⟨e1, e2⟩ := h.parent_unique hn hp hc' hpc
          rcases hne with hne | hne
          · exact hne e1
          · exact hne e2
  · rintro n (rfl | hn)
    · rw [hEq]; exact hl
    · rw [hE n hn]
      refine ⟨?_, ?_⟩
      · intro b' l hc
        exact (h.leaves n hn).leaf b' l (hleaf n b' l hn hc).2
      · intro l hc
        rw [hVf n hn] at hc
        exact (h.leaves n hn).pleaf l hc
  · rintro n k (rfl | hn) (rfl | hk) hne hnk
    · exact absurd rfl hne
    · rw [hEq, hE k hk] at *
      obtain ⟨c, h1, h2⟩ := hbelow k hk (hQ.trans hnk)
      obtain ⟨b', h3, h4⟩ := hQc c h1
      have h5 := (h.child p b c hp h1).1
      exact ⟨b', c, h3.trans h2, h4, by rw [hE c h5]; exact h2⟩
    · rw [hEq, hE n hn] at *
      by_cases e : n = p
      · subst e
        exact ⟨b, k, hQ, by rw [hVp, upd_same], by rw [upd_same]; exact List.prefix_rfl⟩
      · rcases prefix_cases hnk (prefix_of_snoc hQ) with h1 | h1
        · obtain ⟨b', c, h2, h3, h4⟩ := h.path n p hn hp e h1
          have h5 := (h.child n b' c hn h3).1
          refine ⟨b', c, h2.trans (prefix_of_snoc hQ), by rw [hVo n hn e]; exact h3, ?_⟩
          rw [hE c h5]
          exact h4.trans (prefix_of_snoc hQ)
        · exfalso
          refine hnoQ n hn (snoc_of_longer hQ hnk h1 ?_) hnk
          intro e'
          exact e (h.inj p n hp hn e').symm
    · rw [hE n hn, hE k hk] at *
      obtain ⟨b', c, h1, h2, h3⟩ := h.path n k hn hk hne hnk
      by_cases e : n = p ∧ b' = b
      · obtain ⟨rfl, rfl⟩ := e
        obtain ⟨b2, h4, -⟩ := hQc c h2
        exact ⟨b', q, h1, by rw [hVp, upd_same], by rw [hEq]; exact (prefix_of_snoc h4).trans h3⟩
      · have h5 := (h.child n b' c hn h2).1
        exact ⟨b', c, h1, by rw [hkeep n b' hn (by by_contra hh; push Not at hh; exact e hh)]; exact h2, by rw [hE c h5]; exact h3⟩
  · intro K v
    have hstored : ∀ a l, live a → (V' a).Stored l → (V a).Stored l := by
      intro a l ha hs
      rcases hs with hs | ⟨b', hs⟩
      · exact Or.inl (by rw [hVf a ha] at hs; exact hs)
      · exact Or.inr ⟨b', (hleaf a b' l ha hs).2⟩
    by_cases hK : E p ++ [b] <+: K
    · by_cases hK2 : ∃ c, (V p).child b = some (.node c) ∧ E c <+: K
      · obtain ⟨c, hc, hcK⟩ := hK2
        rw [hm2 K c hc hcK, h.mem]
        constructor
        · rintro ⟨a, l, ha, hs, hk, hv⟩
          refine ⟨a, l, Or.inr ha, ?_, hk, hv⟩
          rcases hs with hs | ⟨b', hs⟩
          · exact Or.inl (by rw [hVf a ha]; exact hs)
          · refine Or.inr ⟨b', ?_⟩
            rw [hkeep a b' ha]
            · exact hs
            · by_contra hh
              push Not at hh
              rw [hh.1, hh.2, hc] at hs
              simp at hs
        · rintro ⟨a, l, ha, hs, hk, hv⟩
          rcases ha with rfl | ha
          · exfalso
            obtain ⟨b', h3, h4⟩ := hQc c hc
            rcases hs with hs | ⟨b2, hs⟩
            · have := hl.pleaf l hs
              rw [hk] at this
              rw [this] at hcK
              exact not_snoc_self (h3.trans hcK)
            · have := hl.leaf b2 l hs
              rw [hk] at this
              have := snoc_inj this (h3.trans hcK)
              subst this
              rw [hs] at h4
              simp at h4
          · exact ⟨a, l, ha, hstored a l ha hs, hk, hv⟩
      · push Not at hK2
        rw [hm3 K hK hK2]
        constructor
        · rintro ⟨l, h1, h2⟩
          exact ⟨q, l, Or.inl rfl, h1, h2⟩
        · rintro ⟨a, l, ha, hs, hk, hv⟩
          rcases ha with rfl | ha
          · exact ⟨l, hs, hk, hv⟩
          · exfalso
            rcases h.stored_at hp ha (hstored a l ha hs) (by rw [hk]; exact prefix_of_snoc hK) with rfl | ⟨b', c, h1, h2, h3⟩
            · rcases hs with hs | ⟨b', hs⟩
              · rw [hVf a ha] at hs
                have := (h.leaves a ha).pleaf l hs
                rw [← hk, this] at hK
                exact not_snoc_self hK
              · obtain ⟨h1, h2⟩ := hleaf a b' l ha hs
                have := (h.leaves a ha).leaf b' l h2
                rw [hk] at this
                rcases h1 with h1 | h1
                · exact h1 rfl
                · exact h1 (snoc_inj this hK)
            · rw [hk] at h1 h3
              have := snoc_inj h1 hK
              subst this
              exact hK2 c h2 h3
    · rw [hm1 K hK, h.mem]
      constructor
      · rintro ⟨a, l, ha, hs, hk, hv⟩
        refine ⟨a, l, Or.inr ha, ?_, hk, hv⟩
        rcases hs with hs | ⟨b', hs⟩
        · exact Or.inl (by rw [hVf a ha]; exact hs)
        · refine Or.inr ⟨b', ?_⟩
          rw [hkeep a b' ha]
          · exact hs
          · by_contra hh
            push Not at hh
            have := (h.leaves a ha).leaf b' l hs
            rw [hk, hh.1, hh.2] at this
            exact hK this
      · rintro ⟨a, l, ha, hs, hk, hv⟩
        rcases ha with rfl | ha
        · have := hl.prefix hs
          rw [hk] at this
          exact absurd (hQ.trans this) hK
        · exact ⟨a, l, ha, hstored a l ha hs, hk, hv⟩

/-- Take the node `d` out of the slot `b` of `p`; its only inner child, or some leaf, takes its place. -/
theorem removeNode (h : Tree E live V root m) {p : Addr} (hp : live p) {b : UInt8} {d : Addr} (hd : (V p).child b = some (.node d))
    (r : Option Ref) (hnode : ∀ c, r = some (.node c) ↔ ∃ b', (V d).child b' = some (.node c))
    (hleaf : ∀ l, r = some (.leaf l) → E p ++ [b] <+: l.key) {V' : Addr → View}
    (hVp : (V' p).child = upd (V p).child b r)
    (hVo : ∀ a, live a → a ≠ d → a ≠ p → (V' a).child = (V a).child)
    (hVf : ∀ a, live a → a ≠ d → (V' a).pleaf = (V a).pleaf)
    (hVl : ∀ a, live a → a ≠ d → r ≠ some (.node a) → (V' a).plen = (V a).plen)
    (hVc : ∀ c, r = some (.node c) → (V' c).plen + (E p).length + 1 = (E c).length) {m' : Map}
    (hm1 : ∀ K, ¬ E p ++ [b] <+: K → m' K = m K)
    (hm2 : ∀ K c, r = some (.node c) → E c <+: K → m' K = m K)
    (hm3 : ∀ K, E p ++ [b] <+: K → (∀ c, r = some (.node c) → ¬ E c <+: K) →
      ∀ v, m' K = some v ↔ ∃ l, r = some (.leaf l) ∧ l.key = K ∧ l.value = v) :
    Tree E (fun a => live a ∧ a ≠ d) V' root m' := by
  obtain ⟨hdl, hdE, hdp⟩ := h.child p b d hp hd
  have hpd : p ≠ d := (h.child_ne hp hd).symm
  have hrd : root ≠ d := by rintro rfl; exact h.root_not_child hp hd
  have hkeep : ∀ a b', live a → a ≠ d → (a ≠ p ∨ b' ≠ b) → (V' a).child b' = (V a).child b' := by
    intro a b' ha had hne
    by_cases e : a = p
    · subst e
      rw [hVp, upd_other]
      rcases hne with hne | hne
      · exact absurd rfl hne
      · exact hne
    · rw [hVo a ha had e]
  have hslot : (V' p).child b = r := by rw [hVp, upd_same]
  have hrc : ∀ c, r = some (.node c) → live c ∧ c ≠ d ∧ c ≠ root ∧ E p ++ [b] <+: E c ∧ ∃ b', (V d).child b' = some (.node c) := by
    intro c hc
    obtain ⟨b', hb'⟩ := (hnode c).mp hc
    obtain ⟨h1, h2, -⟩ := h.child d b' c hdl hb'
    refine ⟨h1, h.child_ne hdl hb', ?_, hdE.trans (prefix_of_snoc h2), b', hb'⟩
    rintro rfl
    exact h.root_not_child hdl hb'
  refine ⟨⟨h.root_live, hrd⟩, h.root_E, ?_, fun a c ha hc => h.inj a c ha.1 hc.1, ?_, ?_, ?_, ?_⟩
  · rw [hVl root h.root_live hrd]
    · exact h.root_plen
    · intro e; exact (hrc root e).2.2.1 rfl
  · rintro n b' c ⟨hn, hnd⟩ hc
    by_cases e : n = p ∧ b' = b
    · obtain ⟨rfl, rfl⟩ := e
      rw [hslot] at hc
      obtain ⟨h1, h2, -, h3, -⟩ := hrc c hc
      exact ⟨⟨h1, h2⟩, h3, hVc c hc⟩
    · rw [hkeep n b' hn hnd (by by_contra hh; push Not at hh; exact e hh)] at hc
      obtain ⟨h1, h2, h3⟩ := h.child n b' c hn hc
      have hcd : c ≠ d := by
        rintro rfl
        exact e (h.parent_unique hn hp hc hd)
      refine ⟨⟨h1, hcd⟩, h2, ?_⟩
      rw [hVl c h1 hcd]
      · exact h3
      · intro hr
        obtain ⟨-, -, -, -, b2, hb2⟩ := hrc c hr
        exact hnd (h.parent_unique hn hdl hc hb2).1
  · rintro n ⟨hn, hnd⟩
    refine ⟨?_, ?_⟩
    · intro b' l hc
      by_cases e : n = p ∧ b' = b
      · obtain ⟨rfl, rfl⟩ := e
        rw [hslot] at hc
        exact hleaf l hc
      · rw [hkeep n b' hn hnd (by by_contra hh; push Not at hh; exact e hh)] at hc
        exact (h.leaves n hn).leaf b' l hc
    · intro l hc
      rw [hVf n hn hnd] at hc
      exact (h.leaves n hn).pleaf l hc
  · rintro n k ⟨hn, hnd⟩ ⟨hk, hkd⟩ hne hnk
    obtain ⟨b', c, h1, h2, h3⟩ := h.path n k hn hk hne hnk
    by_cases e : n = p ∧ b' = b
    · obtain ⟨rfl, rfl⟩ := e
      rw [hd] at h2
      simp at h2
      subst h2
      obtain ⟨b2, c2, h4, h5, h6⟩ := h.path d k hdl hk (Ne.symm hkd) h3
      exact ⟨b', c2, h1, by rw [hslot]; exact (hnode c2).mpr ⟨b2, h5⟩, h6⟩
    · exact ⟨b', c, h1, by rw [hkeep n b' hn hnd (by by_contra hh; push Not at hh; exact e hh)]; exact h2, h3⟩
  · intro K v
    by_cases hK : E p ++ [b] <+: K
    · by_cases hK2 : ∃ c, r = some (.node c) ∧ E c <+: K
      · obtain ⟨c, hc, hcK⟩ := hK2
        obtain ⟨h1, h2, -, -, b2, hb2⟩ := hrc c hc
        rw [hm2 K c hc hcK, h.mem]
        constructor
        · rintro ⟨a, l, ha, hs, hk, hv⟩
          have had : a ≠ d := by
            rintro rfl
            obtain ⟨-, h4, -⟩ := h.child a b2 c ha hb2
            rcases hs with hs | ⟨b3, hs⟩
            · have := (h.leaves a ha).pleaf l hs
              rw [hk] at this
              rw [this] at hcK
              exact not_snoc_self (h4.trans hcK)
            · have := (h.leaves a ha).leaf b3 l hs
              rw [hk] at this
              have := snoc_inj this (h4.trans hcK)
              subst this
              rw [hs] at hb2
              simp at hb2
          refine ⟨a, l, ⟨ha, had⟩, ?_, hk, hv⟩
          rcases hs with hs | ⟨b', hs⟩
          · exact Or.inl (by rw [hVf a ha had]; exact hs)
          · refine Or.inr ⟨b', ?_⟩
            rw [hkeep a b' ha had]
            · exact hs
            · by_contra hh
              push Not at hh
              rw [hh.1, hh.2, hd] at hs
              simp at hs
        · rintro ⟨a, l, ⟨ha, had⟩, hs, hk, hv⟩
          refine ⟨a, l, ha, ?_, hk, hv⟩
          rcases hs with hs | ⟨b', hs⟩
          · exact Or.inl (by rw [hVf a ha had] at hs; exact hs)
          · refine Or.inr ⟨b', ?_⟩
            by_cases e : a = p ∧ b' = b
            · rw [e.1, e.2, hslot, hc] at hs
              simp at hs
            · rw [hkeep a b' ha had (by by_contra hh; push Not at hh; exact e hh)] at hs
              exact hs
      · push Not at hK2
        rw [hm3 K hK hK2]
        constructor
        · rintro ⟨l, h1, h2⟩
          exact ⟨p, l, ⟨hp, hpd⟩, Or.inr ⟨b, by rw [hslot]; exact h1⟩, h2⟩
        · rintro ⟨a, l, ⟨ha, had⟩, hs, hk, hv⟩
          refine ⟨l, ?_, hk, hv⟩
          have hs' : (V a).Stored l ∨ r = some (.leaf l) := by
            rcases hs with hs | ⟨b', hs⟩
            · exact Or.inl (Or.inl (by rw [hVf a ha had] at hs; exact hs))
            · by_cases e : a = p ∧ b' = b
              · right
                rw [e.1, e.2, hslot] at hs
                exact hs
              · rw [hkeep a b' ha had (by by_contra hh; push Not at hh; exact e hh)] at hs
                exact Or.inl (Or.inr ⟨b', hs⟩)
          rcases hs' with hs' | hs'
          · exfalso
            rcases h.stored_at hp ha hs' (by rw [hk]; exact prefix_of_snoc hK) with rfl | ⟨b', c, h1, h2, h3⟩
            · rcases hs' with hs' | ⟨b', hs'⟩
              · have := (h.leaves a ha).pleaf l hs'
                rw [← hk, this] at hK
                exact not_snoc_self hK
              · have := (h.leaves a ha).leaf b' l hs'
                rw [hk] at this
                have := snoc_inj this hK
                subst this
                rw [hd] at hs'
                simp at hs'
            · rw [hk] at h1
              have := snoc_inj h1 hK
              subst this
              rw [hd] at h2
              simp at h2
              subst h2
              rcases h.stored_at hdl ha hs' h3 with rfl | ⟨b2, c2, h4, h5, h6⟩
              · exact had rfl
              · rw [hk] at h6
                exact hK2 c2 ((hnode c2).mpr ⟨b2, h5⟩) h6
          · exact hs'
    · rw [hm1 K hK, h.mem]
      constructor
      · rintro ⟨a, l, ha, hs, hk, hv⟩
        have had : a ≠ d := by
          rintro rfl
          have := (h.leaves a ha).prefix hs
          rw [hk] at this
          exact hK (hdE.trans this)
        refine ⟨a, l, ⟨ha, had⟩, ?_, hk, hv⟩
        rcases hs with hs | ⟨b', hs⟩
        · exact Or.inl (by rw [hVf a ha had]; exact hs)
        · refine Or.inr ⟨b', ?_⟩
          rw [hkeep a b' ha had]
          · exact hs
          · by_contra hh
            push Not at hh
            rw [hh.1, hh.2, hd] at hs
            simp at hs
      · rintro ⟨a, l, ⟨ha, had⟩, hs, hk, hv⟩
        refine ⟨a, l, ha, ?_, hk, hv⟩
        rcases hs with hs | ⟨b', hs⟩
        · exact Or.inl (by rw [hVf a ha had] at hs; exact hs)
        · refine Or.inr ⟨b', ?_⟩
          by_cases e : a = p ∧ b' = b
          · rw [e.1, e.2, hslot] at hs
            have := hleaf l hs
            rw [hk] at this
            exact absurd this hK
          · rw [hkeep a b' ha had (by by_contra hh; push Not at hh; exact e hh)] at hs
            exact hs

/-- Point to `q` instead of `n`. -/
def _root_.Art.ren (n q : Addr) : Option Ref → Option Ref
  | some (.node a) => some (.node (if a = n then q else a))
  | r => r

theorem _root_.Art.ren_leaf {n q : Addr} {r : Option Ref} {l : Leaf} : ren n q r = some (.leaf l) ↔ r = some (.leaf l) := by
  match r with
  | none => simp [ren]
  | some (.leaf _) => simp [ren]
  | some (.node _) => simp [ren]

theorem _root_.Art.ren_node {n q : Addr} {r : Option Ref} {c : Addr} :
    ren n q r = some (.node c) ↔ ∃ c', r = some (.node c') ∧ c = if c' = n then q else c' := by
  match r with
  | none => simp [ren]
  | some (.leaf _) => simp [ren]
  | some (.node a) => simp [ren, eq_comm]

/-- Replace the node `n` by a new node `q` with the same content. -/
theorem rename (h : Tree E live V root m) {n : Addr} (hn : live n) {q : Addr} (hq : ¬ live q) {V' : Addr → View} (hVq : V' q = V n)
    (hVo : ∀ a b, live a → a ≠ n → (V' a).child b = ren n q ((V a).child b))
    (hVf : ∀ a, live a → a ≠ n → (V' a).pleaf = (V a).pleaf)
    (hVl : ∀ a, live a → a ≠ n → (V' a).plen = (V a).plen) :
    Tree (upd E q (E n)) (fun a => a = q ∨ (live a ∧ a ≠ n)) V' (if root = n then q else root) m := by
  have hqne : ∀ a, live a → a ≠ q := fun a ha e => hq (e ▸ ha)
  let old : Addr → Addr := fun a => if a = q then n else a
  let new : Addr → Addr := fun a => if a = n then q else a
  have hold : ∀ a, a = q ∨ (live a ∧ a ≠ n) → live (old a) := by
    rintro a (rfl | ⟨ha, -⟩)
    · simp only [old, if_pos rfl]; exact hn
    · simp only [old, if_neg (hqne a ha)]; exact ha
  have hnew : ∀ a, live a → new a = q ∨ (live (new a) ∧ new a ≠ n) := by
    intro a ha
    by_cases e : a = n
    · left; simp only [new, if_pos e]
    · right; simp only [new, if_neg e]; exact ⟨ha, e⟩
  have hE : ∀ a, a = q ∨ (live a ∧ a ≠ n) → upd E q (E n) a = E (old a) := by
    rintro a (rfl | ⟨ha, -⟩)
    · simp only [old, if_pos rfl, upd_same]
    · simp only [old, if_neg (hqne a ha)]; exact upd_other _ _ (hqne a ha)
  have hEn : ∀ a, live a → upd E q (E n) (new a) = E a := by
    intro a ha
    by_cases e : a = n
    · subst e; simp only [new, if_true, upd_same]
    · simp only [new, if_neg e]; exact upd_other _ _ (hqne a ha)
  have hon : ∀ a, live a → old (new a) = a := by
    intro a ha
    by_cases e : a = n
    · simp only [new, if_pos e, old]; simp [e]
    · simp only [new, if_neg e, old, if_neg (hqne a ha)]
  have hno : ∀ a, a = q ∨ (live a ∧ a ≠ n) → new (old a) = a := by
    rintro a (rfl | ⟨ha, hne⟩)
    · simp [old, new]
    · simp only [old, if_neg (hqne a ha), new, if_neg hne]
  have hch : ∀ a b, a = q ∨ (live a ∧ a ≠ n) → ren n q ((V (old a)).child b) = (V' a).child b := by
    rintro a b (rfl | ⟨ha, hne⟩)
    · simp only [old, if_pos rfl, hVq]
      match hr : (V n).child b with
      | none => rfl
      | some (.leaf _) => rfl
      | some (.node c) =>
        have := h.child_ne hn hr
        simp [ren, this]
    · simp only [old, if_neg (hqne a ha)]
      exact (hVo a b ha hne).symm
  have hpf : ∀ a, a = q ∨ (live a ∧ a ≠ n) → (V' a).pleaf = (V (old a)).pleaf := by
    rintro a (rfl | ⟨ha, hne⟩)
    · simp only [old, if_pos rfl, hVq]
    · simp only [old, if_neg (hqne a ha)]; exact hVf a ha hne
  have hpl : ∀ a, a = q ∨ (live a ∧ a ≠ n) → (V' a).plen = (V (old a)).plen := by
    rintro a (rfl | ⟨ha, hne⟩)
    · simp only [old, if_pos rfl, hVq]
    · simp only [old, if_neg (hqne a ha)]; exact hVl a ha hne
  have hroot : (if root = n then q else root) = new root := rfl
  rw [hroot]
  have hst : ∀ a l, a = q ∨ (live a ∧ a ≠ n) → ((V' a).Stored l ↔ (V (old a)).Stored l) := by
    intro a l ha
    unfold View.Stored
    rw [hpf a ha]
    constructor
    · rintro (h1 | ⟨b, h1⟩)
      · exact Or.inl h1
      · rw [← hch a b ha, ren_leaf] at h1
        exact Or.inr ⟨b, h1⟩
    · rintro (h1 | ⟨b, h1⟩)
      · exact Or.inl h1
      · refine Or.inr ⟨b, ?_⟩
        rw [← hch a b ha, ren_leaf]
        exact h1
  refine ⟨hnew root h.root_live, by rw [hEn root h.root_live]; exact h.root_E, ?_, ?_, ?_, ?_, ?_, ?_⟩
  · rw [hpl _ (hnew root h.root_live), hon root h.root_live]; exact h.root_plen
  · intro a c ha hc e
    rw [hE a ha, hE c hc] at e
    have := h.inj _ _ (hold a ha) (hold c hc) e
    rw [← hno a ha, ← hno c hc, this]
  · intro a b c ha hc
    rw [← hch a b ha, ren_node] at hc
    obtain ⟨c', hc', e⟩ := hc
    obtain ⟨h1, h2, h3⟩ := h.child _ b c' (hold a ha) hc'
    have e' : c = new c' := e
    subst e'
    rw [hE a ha, hEn c' h1, hpl _ (hnew c' h1), hon c' h1]
    exact ⟨hnew c' h1, h2, h3⟩
  · intro a ha
    rw [hE a ha]
    refine ⟨?_, ?_⟩
    · intro b l hc
      rw [← hch a b ha, ren_leaf] at hc
      exact (h.leaves _ (hold a ha)).leaf b l hc
    · intro l hc
      rw [hpf a ha] at hc
      exact (h.leaves _ (hold a ha)).pleaf l hc
  · intro a k ha hk hne hp
    rw [hE a ha, hE k hk] at *
    obtain ⟨b, c, h1, h2, h3⟩ := h.path _ _ (hold a ha) (hold k hk) (by
      intro e
      apply hne
      rw [← hno a ha, ← hno k hk, e]) hp
    have h4 := (h.child _ b c (hold a ha) h2).1
    refine ⟨b, new c, h1, ?_, by rw [hEn c h4]; exact h3⟩
    rw [← hch a b ha, ren_node]
    exact ⟨c, h2, rfl⟩
  · intro K v
    rw [h.mem]
    constructor
    · rintro ⟨a, l, ha, hs, hk⟩
      exact ⟨new a, l, hnew a ha, by rw [hst _ _ (hnew a ha), hon a ha]; exact hs, hk⟩
    · rintro ⟨a, l, ha, hs, hk⟩
      exact ⟨old a, l, hold a ha, by rw [hst _ _ ha] at hs; exact hs, hk⟩

/-- Replace a node that is not the root: only the slot of its parent changes. -/
theorem renameChild (h : Tree E live V root m) {p : Addr} (hp : live p) {b : UInt8} {n : Addr} (hn : (V p).child b = some (.node n))
    {q : Addr} (hq : ¬ live q) {V' : Addr → View} (hVq : V' q = V n)
    (hVp : V' p = (V p).set b (some (.node q))) (hVo : ∀ a, live a → a ≠ n → a ≠ p → V' a = V a) :
    Tree (upd E q (E n)) (fun a => a = q ∨ (live a ∧ a ≠ n)) V' root m := by
  have hnl := (h.child p b n hp hn).1
  have hr : root ≠ n := by rintro rfl; exact h.root_not_child hp hn
  have hpn : p ≠ n := (h.child_ne hp hn).symm
  have := h.rename hnl hq hVq (V' := V') ?_ ?_ ?_
  · rw [if_neg hr] at this; exact this
  · intro a b' ha han
    by_cases e : a = p ∧ b' = b
    · obtain ⟨rfl, rfl⟩ := e
      rw [hVp, hn]
      simp [View.set, upd_same, ren]
    · have hsame : (V' a).child b' = (V a).child b' := by
        by_cases e' : a = p
        · subst e'
          rw [hVp]
          simp only [View.set]
          exact upd_other _ _ (fun e2 => e ⟨rfl, e2⟩)
        · rw [hVo a ha han e']
      rw [hsame]
      match hr2 : (V a).child b' with
      | none => rfl
      | some (.leaf _) => rfl
      | some (.node c) =>
        have : c ≠ n := by
          rintro rfl
          exact e (h.parent_unique ha hp hr2 hn)
        simp [ren, this]
  · intro a ha han
    by_cases e' : a = p
    · subst e'; rw [hVp]; rfl
    · rw [hVo a ha han e']
  · intro a ha han
    by_cases e' : a = p
    · subst e'; rw [hVp]; rfl
    · rw [hVo a ha han e']

/-- Replace the root. -/
theorem renameRoot (h : Tree E live V root m) {q : Addr} (hq : ¬ live q) {V' : Addr → View} (hVq : V' q = V root)
    (hVo : ∀ a, live a → a ≠ root → V' a = V a) : Tree (upd E q []) (fun a => a = q ∨ (live a ∧ a ≠ root)) V' q m := by
  have := h.rename h.root_live hq hVq (V' := V') ?_ ?_ ?_
  · rw [if_pos rfl, h.root_E] at this; exact this
  · intro a b' ha han
    rw [hVo a ha han]
    match hr2 : (V a).child b' with
    | none => rfl
    | some (.leaf _) => rfl
    | some (.node c) =>
      have : c ≠ root := by
        rintro rfl
        exact h.root_not_child ha hr2
      simp [ren, this]
  · intro a ha han; rw [hVo a ha han]
  · intro a ha han; rw [hVo a ha han]

end Tree

end Art
