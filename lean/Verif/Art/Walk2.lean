import Verif.Art.Walk

/-! # The step of every operation at one node -/

set_option linter.unusedSimpArgs false

namespace Art

open Surf Spec

/-! ## Small node4s -/

theorem cap4 {n : Node} (h : n.cap = 4) : ∃ keys children, n.kids = .n4 keys children := by
  unfold Node.cap at h
  cases hk : n.kids with
  | n4 keys children => exact ⟨keys, children, rfl⟩
  | n16 => rw [hk] at h; simp at h
  | n48 => rw [hk] at h; simp at h
  | n256 => rw [hk] at h; simp at h
  | dummy => rw [hk] at h; simp at h

theorem n4_num {n : Node} (hw : n.WF) (hc : n.cap = 4) : n.numChildren.toNat = cnt n.child := by
  obtain ⟨keys, children, hk⟩ := cap4 hc
  have hA : ArrWF 4 n.numChildren.toNat keys children := by
    unfold Node.WF at hw
    rw [hk] at hw
    exact hw
  have e : n.child = fun b => (arrChild n.numChildren.toNat keys children b).map (·.1) := child_n4 hk
  rw [e, hA.cnt_eq]

/-- A node4 with one child. -/
theorem n4_one {n : Node} (hw : n.WF) (hc : n.cap = 4) (hn : cnt n.child = 1) :
    ∃ keys children bc r, n.kids = .n4 keys children ∧ keys[0]? = some bc ∧ children[0]?.join = some r ∧
      ∀ b x, n.child b = some x ↔ b = bc ∧ x = r := by
  have hnum := n4_num hw hc
  obtain ⟨keys, children, hk⟩ := cap4 hc
  have hA : ArrWF 4 n.numChildren.toNat keys children := by
    unfold Node.WF at hw
    rw [hk] at hw
    exact hw
  rw [hnum, hn] at hA
  obtain ⟨r, hr⟩ := hA.isc 0 (by omega)
  have hl : 0 < keys.length := by rw [hA.lenK]; omega
  refine ⟨keys, children, keys[0], r, hk, by simp [hl], by simp [hr], ?_⟩
  intro b x
  rw [child_n4 hk, hnum, hn, hA.child_iff]
  constructor
  · rintro ⟨i, h1, h2, h3⟩
    have : i = 0 := by omega
    subst this
    rw [List.getElem?_eq_getElem hl] at h2
    rw [hr] at h3
    simp at h2 h3
    exact ⟨h2.symm, h3.symm⟩
  · rintro ⟨rfl, rfl⟩
    exact ⟨0, by omega, by simp [hl], hr⟩

/-- A node4 with two children, one of them under `b0`. -/
theorem n4_two {n : Node} (hw : n.WF) (hc : n.cap = 4) (hn : cnt n.child = 2) {b0 : UInt8} {r0 : Ref} (hb : n.child b0 = some r0) :
    ∃ keys children bc r, n.kids = .n4 keys children ∧ keys[if keys[0]? = some b0 then 1 else 0]? = some bc ∧
      children[if keys[0]? = some b0 then 1 else 0]?.join = some r ∧ bc ≠ b0 ∧
      ∀ b x, n.child b = some x ↔ (b = bc ∧ x = r) ∨ (b = b0 ∧ x = r0) := by
  have hnum := n4_num hw hc
  obtain ⟨keys, children, hk⟩ := cap4 hc
  have hA : ArrWF 4 n.numChildren.toNat keys children := by
    unfold Node.WF at hw
    rw [hk] at hw
    exact hw
  rw [hnum, hn] at hA
  have hl := hA.lenK
  rw [child_n4 hk, hnum, hn, hA.child_iff] at hb
  obtain ⟨i0, hi0, hk0, hc0⟩ := hb
  have hidx : (if keys[0]? = some b0 then 1 else 0) = 1 - i0 := by
    by_cases e : keys[0]? = some b0
    · have := hA.key_inj (by omega) hi0 e hk0
      rw [if_pos e, ← this]
    · rw [if_neg e]
      have : i0 ≠ 0 := by rintro rfl; exact e hk0
      omega
  obtain ⟨r, hr⟩ := hA.isc (1 - i0) (by omega)
  have hlt : 1 - i0 < keys.length := by omega
  refine ⟨keys, children, keys[1 - i0], r, hk, ?_, ?_, ?_, ?_⟩
  · rw [hidx, List.getElem?_eq_getElem hlt]
  · rw [hidx, hr]; rfl
  · intro e
    have := hA.key_inj (b := b0) (i := 1 - i0) (j := i0) (by omega) hi0 (by rw [List.getElem?_eq_getElem hlt, e]) hk0
    omega
  · intro b x
    rw [child_n4 hk, hnum, hn, hA.child_iff]
    constructor
    · rintro ⟨i, h1, h2, h3⟩
      by_cases e : i = i0
      · subst e
        right
        rw [hk0] at h2
        rw [hc0] at h3
        simp at h2 h3
        exact ⟨h2.symm, h3.symm⟩
      · left
        have : i = 1 - i0 := by omega
        subst this
        rw [List.getElem?_eq_getElem hlt] at h2
        rw [hr] at h3
        simp at h2 h3
        exact ⟨h2.symm, h3.symm⟩
    · rintro (⟨rfl, rfl⟩ | ⟨rfl, rfl⟩)
      · exact ⟨1 - i0, by omega, by rw [List.getElem?_eq_getElem hlt], hr⟩
      · exact ⟨i0, hi0, hk0, hc0⟩

/-! ## A step of a lookup -/

variable {E : Addr → Bytes} {live : Addr → Prop} {h : Heap} {root : Addr} {m : Map}

/-- The key differs from the path inside of the prefix of the node. -/
theorem HTr.absent (ht : HTr E live h root m) {a : Addr} (ha : live a) {n : Node} (hn : h[a]? = some n) {key : Bytes} {depth : Nat}
    (hd : depth + n.prefixLen = (E a).length) (hp : (E a).take depth <+: key) (hne : ¬ E a <+: key) : m key = none := by
  refine ht.tree.absent_of_mismatch ha ?_ hne
  rw [view_eq hn]
  have : (E a).length - n.view.plen = depth := by
    show (E a).length - n.prefixLen = depth
    omega
  rw [this]
  exact hp

/-- A child node: its path and where the next comparison starts. -/
theorem HTr.child_node (ht : HTr E live h root m) {a : Addr} (ha : live a) {n : Node} (hn : h[a]? = some n) {b : UInt8} {c : Addr}
    (hc : n.child b = some (.node c)) :
    live c ∧ c ≠ root ∧ E a ++ [b] <+: E c ∧ (E c).take ((E a).length + 1) = E a ++ [b] ∧
      ∃ nc, h[c]? = some nc ∧ (E a).length + 1 + nc.prefixLen = (E c).length := by
  have hv : (view h a).child b = some (.node c) := by rw [view_eq hn]; exact hc
  obtain ⟨h1, h2, h3⟩ := ht.tree.child a b c ha hv
  obtain ⟨nc, h4, h5, -⟩ := ht.view_live h1
  refine ⟨h1, ?_, h2, ?_, nc, h4, ?_⟩
  · rintro rfl
    exact ht.tree.root_not_child ha hv
  · have := List.prefix_iff_eq_take.mp h2
    simp at this
    exact this.symm
  · rw [h5] at h3
    simp [Node.view] at h3
    omega

theorem HTr.stored_value (ht : HTr E live h root m) {a : Addr} (ha : live a) {n : Node} (hn : h[a]? = some n) {l : Leaf}
    (hl : n.view.Stored l) : m l.key = some l.value :=
  (ht.tree.mem _ _).mpr ⟨a, l, ha, by rw [view_eq hn]; exact hl, rfl, rfl⟩

/-- What the next pointer says, when the path of the node is a prefix of the key. -/
theorem HTr.next_spec (ht : HTr E live h root m) {a : Addr} (ha : live a) {n : Node} (hn : h[a]? = some n) {key : Bytes} (hp : E a <+: key) :
    match nextNode n key (E a).length with
    | none => m key = none
    | some (.leaf l) => m key = if l.matchKey key then some l.value else none
    | some (.node c) => ∃ b, n.child b = some (.node c) ∧ key[(E a).length]? = some b ∧ E a ++ [b] <+: key := by
  unfold nextNode
  have hv := view_eq hn
  by_cases e : (E a).length = key.length
  · rw [if_pos e]
    have hk : E a = key := hp.eq_of_length e
    have hl := ht.tree.lookup_end ha
    rw [hk, hv] at hl
    rw [hl]
    show match Option.map Ref.leaf n.prefixLeaf with | none => _ | some (.leaf l) => _ | some (.node c) => _
    cases hpl : n.prefixLeaf with
    | none => simp [Node.view, hpl]
    | some l =>
      have hlk := (ht.tree.leaves a ha).pleaf l (by rw [hv]; exact hpl)
      simp [Node.view, hpl, Leaf.matchKey, hlk, hk]
  · rw [if_neg e]
    have hlt : (E a).length < key.length := by have := hp.length_le; omega
    rw [List.getElem?_eq_getElem hlt]
    have hsn := snoc_get hp (List.getElem?_eq_getElem hlt)
    have hch : (n.findChild key[(E a).length]).map (·.1) = n.child key[(E a).length] := rfl
    simp only [hch]
    cases hc : n.child key[(E a).length] with
    | none => exact ht.tree.lookup_none ha hsn (by rw [hv]; exact hc)
    | some r =>
      cases r with
      | leaf l =>
        have := ht.tree.lookup_leaf ha hsn (l := l) (by rw [hv]; exact hc)
        simp only [this, Leaf.matchKey]
        simp
      | node c => exact ⟨_, hc, rfl, hsn⟩

/-- Whatever leaf is found by following pointers is in the map. -/
theorem HTr.next_leaf (ht : HTr E live h root m) {a : Addr} (ha : live a) {n : Node} (hn : h[a]? = some n) {key : Bytes} {d : Nat} {l : Leaf}
    (hx : nextNode n key d = some (.leaf l)) (hm : l.matchKey key = true) : m key = some l.value := by
  have hs : n.view.Stored l := by
    unfold nextNode at hx
    split at hx
    · left
      show n.prefixLeaf = some l
      simpa using hx
    · split at hx
      next b _ => exact Or.inr ⟨b, hx⟩
      next => simp at hx
  rw [Leaf.matchKey_iff] at hm
  subst hm
  exact ht.stored_value ha hn hs

theorem next_node {n : Node} {key : Bytes} {d : Nat} {c : Addr} (hx : nextNode n key d = some (.node c)) :
    ∃ b, n.child b = some (.node c) ∧ key[d]? = some b ∧ d < key.length := by
  unfold nextNode at hx
  split at hx
  · simp at hx
  · split at hx
    next b e => exact ⟨b, hx, e, (List.getElem?_eq_some_iff.mp e).1⟩
    next => simp at hx

/-! ## A step of a deletion -/

/-- The node to be compressed: a leaf `l0` that goes and one more child `r` under `bc`. -/
def Only (v : View) (l0 : Leaf) (bc : UInt8) (r : Ref) : Prop :=
  (∀ l', v.Stored l' ↔ l' = l0 ∨ r = .leaf l') ∧ (∀ b' c', v.child b' = some (.node c') ↔ b' = bc ∧ r = .node c')

theorem only_pleaf {n : Node} {l0 : Leaf} {bc : UInt8} {r : Ref} (hp : n.prefixLeaf = some l0)
    (hc : ∀ b x, n.child b = some x ↔ b = bc ∧ x = r) : Only n.view l0 bc r := by
  constructor
  · intro l'
    unfold View.Stored
    show (n.prefixLeaf = some l' ∨ ∃ b, n.child b = some (.leaf l')) ↔ _
    rw [hp]
    constructor
    · rintro (e | ⟨b, e⟩)
      · simp at e; exact Or.inl e.symm
      · exact Or.inr ((hc b _).mp e).2.symm
    · rintro (rfl | e)
      · exact Or.inl rfl
      · exact Or.inr ⟨bc, (hc bc _).mpr ⟨rfl, e.symm⟩⟩
  · intro b' c'
    show n.child b' = some (.node c') ↔ _
    rw [hc]
    constructor
    · rintro ⟨h1, h2⟩; exact ⟨h1, h2.symm⟩
    · rintro ⟨h1, h2⟩; exact ⟨h1, h2.symm⟩

theorem only_child {n : Node} {l0 : Leaf} {b0 bc : UInt8} {r : Ref} (hp : n.prefixLeaf = none)
    (hc : ∀ b x, n.child b = some x ↔ (b = bc ∧ x = r) ∨ (b = b0 ∧ x = .leaf l0)) : Only n.view l0 bc r := by
  constructor
  · intro l'
    unfold View.Stored
    show (n.prefixLeaf = some l' ∨ ∃ b, n.child b = some (.leaf l')) ↔ _
    rw [hp]
    constructor
    · rintro (e | ⟨b, e⟩)
      · simp at e
      · rcases (hc b _).mp e with ⟨-, e⟩ | ⟨-, e⟩
        · exact Or.inr e.symm
        · simp at e; exact Or.inl e
    · rintro (rfl | e)
      · exact Or.inr ⟨b0, (hc b0 _).mpr (Or.inr ⟨rfl, rfl⟩)⟩
      · exact Or.inr ⟨bc, (hc bc _).mpr (Or.inl ⟨rfl, e.symm⟩)⟩
  · intro b' c'
    show n.child b' = some (.node c') ↔ _
    rw [hc]
    constructor
    · rintro (⟨h1, h2⟩ | ⟨h1, h2⟩)
      · exact ⟨h1, h2.symm⟩
      · simp at h2
    · rintro ⟨h1, h2⟩; exact Or.inl ⟨h1, h2.symm⟩

/-- The pointer to a node other than the root. -/
theorem At.parent {loc : Loc} {a : Addr} (hat : At E live h root loc a) (hne : a ≠ root) :
    ∃ b slot pos np, loc = (loc.1, slot) ∧ live loc.1 ∧ h[loc.1]? = some np ∧ np.findChild b = some (.node a, slot, pos) := by
  cases hat with
  | root => exact absurd rfl hne
  | child hp hnp hf => exact ⟨_, _, _, _, rfl, hp, hnp, hf⟩

/-- The root is pointed to by the dummy, and nothing else is. -/
theorem HTr.at_root (ht : HTr E live h root m) {loc : Loc} {a : Addr} (hat : At E live h root loc a) : loc.1 = 0 ↔ a = root := by
  cases hat with
  | root => simp
  | @child p b slot pos np c hp hnp hf =>
    constructor
    · intro e
      exact absurd hp (by simp only at e; rw [e]; exact ht.zero)
    · intro e
      have hc : (view h p).child b = some (.node a) := by
        rw [view_eq hnp]
        show (np.findChild b).map (·.1) = _
        rw [hf]; rfl
      rw [e] at hc
      exact absurd hc (ht.tree.root_not_child hp)

theorem HTr.collapse_step (ht : HTr E live h root m) {loc : Loc} {d : Addr} (hat : At E live h root loc d) (hne : d ≠ root) {n : Node}
    (hn : h[d]? = some n) {l0 l : Leaf} {bc : UInt8} (ho : Only n.view l0 bc (.leaf l)) (hk : l.key ≠ l0.key) :
    ∃ h', storeLoc h loc (.leaf l) = some h' ∧ Frame h h' [loc.1] ∧ h'.length = h.length ∧
      HT E (fun a => live a ∧ a ≠ d) h' (m.delete l0.key) := by
  obtain ⟨b, slot, pos, np, e, h1, h2, h3⟩ := hat.parent hne
  have := ht.collapse_commit (l := l) (l0 := l0) h1 h2 h3 (by
    intro l'
    rw [view_eq hn, ho.1]
    simp only [Ref.leaf.injEq]
    constructor
    · rintro (h | h)
      · exact Or.inr h
      · exact Or.inl h.symm
    · rintro (h | h)
      · exact Or.inr h.symm
      · exact Or.inl h) hk (by
    intro b c hc
    rw [view_eq hn, ho.2] at hc
    simp at hc)
  rw [← e] at this
  exact this

theorem HTr.compress_step (ht : HTr E live h root m) {loc : Loc} {d : Addr} (hat : At E live h root loc d) (hne : d ≠ root) {n : Node}
    (hn : h[d]? = some n) {l0 : Leaf} {bc : UInt8} {c : Addr} (ho : Only n.view l0 bc (.node c)) :
    ∃ h', compressAt h d c bc loc = some h' ∧ Frame h h' [loc.1, c] ∧ h'.length = h.length ∧
      HT E (fun a => live a ∧ a ≠ d) h' (m.delete l0.key) := by
  obtain ⟨b, slot, pos, np, e, h1, h2, h3⟩ := hat.parent hne
  have := ht.compress_commit (l0 := l0) (bc := bc) (c := c) h1 h2 h3 (by
    intro l'
    rw [view_eq hn, ho.1]
    simp) (by
    intro b' c'
    rw [view_eq hn, ho.2]
    simp only [Ref.node.injEq]
    constructor
    · rintro ⟨x, y⟩; exact ⟨x, y.symm⟩
    · rintro ⟨x, y⟩; exact ⟨x, y.symm⟩)
  rw [← e] at this
  exact this

/-- Two leaves in one node have different keys. -/
theorem LeavesOk.ne {v : View} {p : Bytes} (hl : v.LeavesOk p) {l l0 : Leaf} {b : UInt8} (h1 : v.child b = some (.leaf l))
    (h0 : v.pleaf = some l0 ∨ ∃ b0, b0 ≠ b ∧ v.child b0 = some (.leaf l0)) : l.key ≠ l0.key := by
  intro e
  have h2 := hl.leaf b l h1
  rcases h0 with h0 | ⟨b0, hne, h0⟩
  · have := hl.pleaf l0 h0
    rw [e, this] at h2
    exact not_snoc_self h2
  · have := hl.leaf b0 l0 h0
    rw [e] at h2
    exact hne (snoc_inj this h2)

end Art
