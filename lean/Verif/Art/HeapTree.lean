import Verif.Art.NodeLemmas
import Verif.Art.Tree

/-! # Heaps that hold a tree -/

set_option linter.unusedSimpArgs false

namespace Art

open Surf Spec

/-! ## The 8 bytes that are kept of a prefix -/

theorem pad8_def (x : Bytes) : Node.pad8 x = x.take 8 ++ List.replicate (8 - x.length) 0 := rfl

theorem pad8_take_min (x : Bytes) (p : Nat) : Node.pad8 (x.take (min 8 p)) = Node.pad8 (x.take p) := by
  simp only [pad8_def, List.take_take, List.length_take]
  congr 1
  · congr 1; omega
  · congr 1; omega

theorem take_pad8 (x : Bytes) (k : Nat) (h8 : k ≤ 8) (hx : k ≤ x.length) : (Node.pad8 x).take k = x.take k := by
  rw [pad8_def, List.take_append_of_le_length (by simp; omega), List.take_take]
  congr 1; omega

theorem pad8_eq_self (x : Bytes) (h : 8 ≤ x.length) : Node.pad8 x = x.take 8 := by
  rw [pad8_def]
  have : 8 - x.length = 0 := by omega
  rw [this]
  simp

theorem pad8_append (x y : Bytes) (h : 8 ≤ x.length) : Node.pad8 (x ++ y) = Node.pad8 x := by
  rw [pad8_eq_self _ h, pad8_eq_self _ (by simp; omega), List.take_append_of_le_length h]

theorem pad8_append_take (x y : Bytes) (h : x.length ≤ 8) : Node.pad8 (x ++ y.take (8 - x.length)) = Node.pad8 (x ++ y) := by
  simp only [pad8_def, List.take_append, List.length_append, List.length_take, List.take_take]
  congr 1
  · congr 2; omega
  · congr 1; omega

theorem getElem?_pad8 (x : Bytes) (i : Nat) (h8 : i < 8) (hx : i < x.length) : (Node.pad8 x)[i]? = x[i]? := by
  rw [pad8_def, List.getElem?_append_left (by simp; omega), List.getElem?_take, if_pos h8]

theorem pad8_length (x : Bytes) : (Node.pad8 x).length = 8 := by simp [pad8_def]; omega

/-! ## Nodes of a tree -/

/-- What the tree structure needs to know of a node. -/
def Node.view (n : Node) : View := ⟨n.child, n.prefixLeaf, n.prefixLen⟩

/-- The views of all nodes. -/
def view (h : Heap) (a : Addr) : View :=
  match h[a]? with
  | some n => n.view
  | none => ⟨fun _ => none, none, 0⟩

theorem view_eq {h : Heap} {a : Addr} {n : Node} (e : h[a]? = some n) : view h a = n.view := by
  unfold view
  rw [e]

theorem view_congr {h h' : Heap} {a : Addr} (e : h'[a]? = h[a]?) : view h' a = view h a := by
  unfold view
  rw [e]

/-- What holds of a node with the path `p`. -/
structure NodeOK (p : Bytes) (isRoot : Prop) (n : Node) : Prop where
  wf : n.WF
  plen_le : n.prefixLen ≤ p.length
  pre : n.pre = Node.pad8 (p.drop (p.length - n.prefixLen))
  min : minCount n.cap ≤ cnt n.child
  two : ¬ isRoot → 2 ≤ cnt n.child + n.prefixLeaf.isSome.toNat

/-- The heap holds a tree with the given root. -/
structure HTr (E : Addr → Bytes) (live : Addr → Prop) (h : Heap) (root : Addr) (m : Map) : Prop where
  tree : Tree E live (view h) root m
  dummy : ∃ d, h[0]? = some d ∧ d.kids = .dummy (some (.node root))
  zero : ¬ live 0
  node : ∀ a, live a → ∃ n, h[a]? = some n ∧ NodeOK (E a) (a = root) n

/-- The heap holds a tree. -/
def HT (E : Addr → Bytes) (live : Addr → Prop) (h : Heap) (m : Map) : Prop := ∃ root, HTr E live h root m

/-- The pointer to a node. -/
inductive At (E : Addr → Bytes) (live : Addr → Prop) (h : Heap) (root : Addr) : Loc → Addr → Prop
  | root (i : Nat) : At E live h root (0, i) root
  | child {p : Addr} {b : UInt8} {slot pos : Nat} {np : Node} {c : Addr} (hp : live p) (hnp : h[p]? = some np)
      (hf : np.findChild b = some (.node c, slot, pos)) : At E live h root (p, slot) c

/-- What a change leaves alone: all nodes but those in `S`; versions and node types. New nodes have version 0. -/
structure Frame (h h' : Heap) (S : List Addr) : Prop where
  len : h.length ≤ h'.length
  keep : ∀ a, a < h.length → a ∉ S → h'[a]? = h[a]?
  ver : ∀ (a : Nat) n, h[a]? = some n → ∃ n', h'[a]? = some n' ∧ n'.version = n.version ∧ n'.cap = n.cap
  new : ∀ (a : Nat) n, h.length ≤ a → h'[a]? = some n → n.version = 0 ∧ n.cap ≠ 0

theorem Frame.set {h : Heap} {a : Addr} {n n' : Node} (e : h[a]? = some n) (hv : n'.version = n.version) (hc : n'.cap = n.cap)
    {S : List Addr} (hS : a ∈ S) : Frame h (h.set a n') S := by
  have ha := (List.getElem?_eq_some_iff.mp e).1
  refine ⟨by simp, ?_, ?_, ?_⟩
  · intro c hc hcS
    rw [List.getElem?_set_ne]
    rintro rfl
    exact hcS hS
  · intro c k hk
    by_cases hca : c = a
    · subst hca
      rw [e] at hk
      simp at hk
      subst hk
      exact ⟨n', by rw [List.getElem?_set_self ha], hv, hc⟩
    · exact ⟨k, by rw [List.getElem?_set_ne (Ne.symm hca)]; exact hk, rfl, rfl⟩
  · intro c k hc hk
    have := (List.getElem?_eq_some_iff.mp hk).1
    simp at this
    omega

theorem Frame.trans {h h' h'' : Heap} {S : List Addr} (h1 : Frame h h' S) (h2 : Frame h' h'' S) : Frame h h'' S := by
  refine ⟨Nat.le_trans h1.len h2.len, ?_, ?_, ?_⟩
  · intro a ha hS
    rw [h2.keep a (by have := h1.len; omega) hS, h1.keep a ha hS]
  · intro a n hn
    obtain ⟨n', h3, h4, h5⟩ := h1.ver a n hn
    obtain ⟨n'', h6, h7, h8⟩ := h2.ver a n' h3
    exact ⟨n'', h6, by rw [h7, h4], by rw [h8, h5]⟩
  · intro a n ha hn
    by_cases hh : a < h'.length
    · obtain ⟨n', h3⟩ := (List.getElem?_eq_some_iff (l := h') (i := a) (a := h'[a])).mpr ⟨hh, rfl⟩ |> fun e => (⟨_, e⟩ : ∃ n', h'[a]? = some n')
      obtain ⟨h4, h5⟩ := h1.new a n' ha h3
      obtain ⟨n'', h6, h7, h8⟩ := h2.ver a n' h3
      rw [hn] at h6
      simp at h6
      subst h6
      exact ⟨by rw [h7, h4], by rw [h8]; exact h5⟩
    · exact h2.new a n (by omega) hn

theorem Frame.append {h : Heap} {n : Node} (hv : n.version = 0) (hc : n.cap ≠ 0) (S : List Addr) : Frame h (h ++ [n]) S := by
  refine ⟨by simp, ?_, ?_, ?_⟩
  · intro a ha _
    rw [List.getElem?_append_left ha]
  · intro a k hk
    have ha := (List.getElem?_eq_some_iff.mp hk).1
    exact ⟨k, by rw [List.getElem?_append_left ha]; exact hk, rfl, rfl⟩
  · intro a k ha hk
    have hlt := (List.getElem?_eq_some_iff.mp hk).1
    simp at hlt
    have : a = h.length := by omega
    subst this
    simp at hk
    subst hk
    exact ⟨hv, hc⟩

/-! ## Changing a slot -/

theorem storeLoc_root {h : Heap} {d : Node} {r0 : Option Ref} (i : Nat) (hd : h[0]? = some d) (hk : d.kids = .dummy r0) (r : Ref) :
    storeLoc h (0, i) r = some (h.set 0 { d with kids := .dummy (some r) }) := by
  simp only [storeLoc, hd, Option.bind_eq_bind, Option.bind_some, Node.setSlot, hk]
  rfl

theorem storeLoc_child {h : Heap} {p : Addr} {np : Node} {b : UInt8} {slot pos : Nat} {r0 : Ref} (hp : h[p]? = some np) (hw : np.WF)
    (hf : np.findChild b = some (r0, slot, pos)) (r : Ref) :
    ∃ np', storeLoc h (p, slot) r = some (h.set p np') ∧ Changed np np' (upd np.child b (some r)) np.cap ∧ np'.version = np.version := by
  obtain ⟨np', h1, h2, h3⟩ := setSlot_spec hw b r hf
  refine ⟨np', ?_, h2, h3⟩
  simp only [storeLoc, hp, Option.bind_eq_bind, Option.bind_some, h1]
  rfl

theorem Changed.view {n n' : Node} {f c} (h : Changed n n' f c) : n'.view = { n.view with child := f } := by
  obtain ⟨h1, h2, h3⟩ := h.head
  simp [Node.view, h.child, h1, h2, h3]

/-- A node whose container changes by something that keeps the sizes fine. -/
theorem Changed.ok {n n' : Node} {f c} (h : Changed n n' f c) {p : Bytes} {isRoot : Prop} (ok : NodeOK p isRoot n)
    (hmin : minCount c ≤ cnt f) (htwo : ¬ isRoot → 2 ≤ cnt f + n.prefixLeaf.isSome.toNat) : NodeOK p isRoot n' := by
  obtain ⟨h1, h2, h3⟩ := h.head
  refine ⟨h.wf, by rw [h1]; exact ok.plen_le, by rw [h1, h2]; exact ok.pre, ?_, ?_⟩
  · rw [h.cap, h.child]; exact hmin
  · intro hr
    rw [h.child, h3]
    exact htwo hr

theorem Changed.ok_upd {n n' : Node} {b : UInt8} {r : Ref} (h : Changed n n' (upd n.child b (some r)) n.cap) {p : Bytes} {isRoot : Prop}
    (ok : NodeOK p isRoot n) : NodeOK p isRoot n' := by
  have hcu := cnt_upd n.child b (some r)
  simp only [Option.isSome_some, Bool.toNat_true] at hcu
  have hb : (n.child b).isSome.toNat ≤ 1 := Bool.toNat_le _
  refine h.ok ok ?_ ?_
  · have := ok.min; omega
  · intro hr
    have := ok.two hr
    omega

namespace HTr

variable {E : Addr → Bytes} {live : Addr → Prop} {h : Heap} {root : Addr} {m : Map}

theorem view_live (ht : HTr E live h root m) {a : Addr} (ha : live a) : ∃ n, h[a]? = some n ∧ view h a = n.view ∧ NodeOK (E a) (a = root) n := by
  obtain ⟨n, h1, h2⟩ := ht.node a ha
  exact ⟨n, h1, view_eq h1, h2⟩

theorem fresh (ht : HTr E live h root m) : ¬ live h.length := by
  intro hl
  obtain ⟨n, h1, -⟩ := ht.node _ hl
  simp at h1

theorem lt (ht : HTr E live h root m) {a : Addr} (ha : live a) : a < h.length := by
  obtain ⟨n, h1, -⟩ := ht.node _ ha
  exact (List.getElem?_eq_some_iff.mp h1).1

theorem pos (ht : HTr E live h root m) : 0 < h.length := by
  obtain ⟨d, h1, -⟩ := ht.dummy
  exact (List.getElem?_eq_some_iff.mp h1).1

theorem ne_zero (ht : HTr E live h root m) {a : Addr} (ha : live a) : a ≠ 0 := by
  rintro rfl
  exact ht.zero ha

/-- Change one node without touching inner children. -/
theorem setNode (ht : HTr E live h root m) {a : Addr} (ha : live a) {n' : Node} (ok : NodeOK (E a) (a = root) n') {m' : Map}
    (hT : Tree E live (upd (view h) a n'.view) root m') : HTr E live (h.set a n') root m' := by
  have hlt := ht.lt ha
  obtain ⟨d, hd, hdk⟩ := ht.dummy
  refine ⟨hT.congr (fun _ => Iff.rfl) (fun _ _ => rfl) ?_, ?_, ht.zero, ?_⟩
  · intro c hc
    by_cases e : c = a
    · subst e
      rw [upd_same]
      exact view_eq (by rw [List.getElem?_set_self hlt])
    · rw [upd_other _ _ e]
      exact view_congr (by rw [List.getElem?_set_ne (Ne.symm e)])
  · exact ⟨d, by rw [List.getElem?_set_ne (ht.ne_zero ha)]; exact hd, hdk⟩
  · intro c hc
    by_cases e : c = a
    · subst e
      exact ⟨n', by rw [List.getElem?_set_self hlt], ok⟩
    · rw [List.getElem?_set_ne (Ne.symm e)]
      exact ht.node c hc

end HTr

end Art
