import Verif.Props.ArtShape
import Verif.Props.ArtConc

/-!
# The tree at every instant: C63 and C64

What C11 and C61 say of the tree between calls holds at every instant of every run of any number of calls, whatever is under way; and the nodes are as large as they need to be, within
bounds.
-/

set_option linter.unusedSimpArgs false

namespace Art.Props

open Surf Spec

/-- The length of the array of children. -/
def places (n : Node) : Nat :=
  match n.kids with
  | .n4 _ children => children.length
  | .n16 _ children => children.length
  | .n48 _ children _ => children.length
  | .n256 children => children.length
  | .dummy _ => 1

/-- The number of children: the bytes under which there is one. -/
def children (n : Node) : Nat := (allBytes.filter fun b => (n.child b).isSome).length

/-- A node is neither too small nor too large for its children. -/
def Fitting (n : Node) : Prop :=
  (places n = 4 ∨ places n = 16 ∧ 4 ≤ children n ∨ places n = 48 ∧ 13 ≤ children n ∨ places n = 256 ∧ 38 ≤ children n) ∧ children n ≤ places n ∧
    n.numChildren = UInt8.ofNat (children n)

theorem places_cap {n : Node} (h : n.WF) : places n = n.cap := by
  unfold Node.WF at h
  unfold places Node.cap
  split at h
  next e => rw [e]; exact h.lenC
  next e => rw [e]; exact h.lenC
  next e => rw [e]; exact h.lenC
  next e => rw [e]; exact h.1
  next => exact h.elim

theorem children_cnt (n : Node) : children n = cnt n.child := by
  rw [children, cnt, List.countP_eq_length_filter]

theorem fitting {p : Bytes} {isRoot : Prop} {n : Node} (h : NodeOK p isRoot n) : Fitting n := by
  have h1 := h.min
  have h2 := h.wf.num
  unfold Fitting
  rw [places_cap h.wf, children_cnt]
  refine ⟨?_, h2.2.2, h2.1⟩
  rcases h.wf.cap_cases with e | e | e | e <;> rw [e] at h1 ⊢ <;> simp only [minCount] at h1 <;> simp [h1]

section
variable {T : Nat} {σ : Nat → Conf} {who : Nat → Nat}

theorem run_htr (h : Run T σ who) {t : Nat} (ht : t ≤ T) {m : Map} (hm : Stands (σ t).heap m) : ∃ E live root, HTr E live (σ t).heap root m := by
  obtain ⟨s, hs⟩ := h.si t ht
  obtain ⟨m', -, root, h2⟩ := hs.inv.tree
  rw [hs.heap] at h2
  rw [hm.unique h2.stands]
  exact ⟨_, _, root, h2⟩

/-- **C63**: at every instant of every run, the shape of the tree follows from the map it stands for then, though any number of calls may be under way. -/
theorem C63_shape (h : Run T σ who) {t : Nat} (ht : t ≤ T) : ∃ m, Stands (σ t).heap m ∧ HasShape m (σ t).heap := by
  obtain ⟨m, hm⟩ := (C14_map h).2 t ht
  obtain ⟨E, live, root, h1⟩ := run_htr h ht hm
  exact ⟨m, hm, hasShape h1⟩

/-- **C64**: at every instant of every run, each inner node of the tree is neither too small nor too large for its children; a node other than the root has two children, or one and a prefix
leaf. -/
theorem C64_fitting (h : Run T σ who) {t : Nat} (ht : t ≤ T) {a : Addr} (ha : InTree (σ t).heap a) :
    ∃ n, (σ t).heap[a]? = some n ∧ Fitting n ∧ ((∃ d, (σ t).heap[0]? = some d ∧ d.kids = .dummy (some (.node a))) ∨ 2 ≤ children n ∨ 1 ≤ children n ∧ n.prefixLeaf.isSome) := by
  obtain ⟨m, hm⟩ := (C14_map h).2 t ht
  obtain ⟨E, live, root, h1⟩ := run_htr h ht hm
  obtain ⟨n, g1, -, g2⟩ := h1.view_live (inTree_live h1 ha)
  refine ⟨n, g1, fitting g2, ?_⟩
  by_cases e : a = root
  · left
    obtain ⟨d, k1, k2⟩ := h1.dummy
    exact ⟨d, k1, by rw [e]; exact k2⟩
  · right
    have := g2.two e
    rw [children_cnt]
    cases hp : n.prefixLeaf with
    | none => rw [hp] at this; exact .inl (by simpa using this)
    | some l => rw [hp] at this; exact .inr ⟨by simpa using this, rfl⟩

/-- **C64**: at every instant of every run, the places for children in all inner nodes of the tree are at most seven times the number of keys, and four: for different nodes `L` of the tree there
are so many different keys in the map. -/
theorem C64_space (h : Run T σ who) {t : Nat} (ht : t ≤ T) {m : Map} (hm : Stands (σ t).heap m) (L : List Addr) (hn : L.Nodup) (hL : ∀ a ∈ L, InTree (σ t).heap a) :
    ∃ Ks : List Bytes, Ks.Nodup ∧ (∀ K ∈ Ks, m K ≠ none) ∧ L.length ≤ Ks.length + 1 ∧ (L.map fun a => (((σ t).heap[a]?).map places).getD 0).sum ≤ 7 * Ks.length + 4 := by
  obtain ⟨E, live, root, h1⟩ := run_htr h ht hm
  have hl : ∀ a ∈ L, live a := fun a ha => inTree_live h1 (hL a ha)
  obtain ⟨Ks, g1, g2, g3⟩ := h1.count L hn hl
  obtain ⟨Ks', k1, k2, k3⟩ := h1.room L hn hl
  have heq : (L.map fun a => (((σ t).heap[a]?).map places).getD 0) = L.map (fun a => ((σ t).heap[a]?.map Node.cap).getD 0) := by
    refine List.map_congr_left fun a ha => ?_
    obtain ⟨n, q1, -, q2⟩ := h1.view_live (hl a ha)
    rw [q1]
    simp only [Option.map_some, Option.getD_some]
    exact places_cap q2.wf
  rw [heq]
  by_cases e : Ks.length ≤ Ks'.length
  · exact ⟨Ks', k1, k2, by omega, k3⟩
  · exact ⟨Ks, g1, g2, g3, by omega⟩

end

/-! ## Example -/

/-- Five `Put`s, the last of which makes the root a node16, and a sixth one that is under way. -/
def growing : List (Nat × Act) :=
  [(0, .call (.put [0] [1]) 9)] ++ goes 0 16 ++ [(1, .call (.put [1] [1]) 9)] ++ goes 1 16 ++ [(2, .call (.put [2] [1]) 9)] ++ goes 2 16 ++ [(3, .call (.put [3] [1]) 9)] ++ goes 3 16 ++
  [(4, .call (.put [4] [1]) 9)] ++ goes 4 17 ++ [(5, .call (.put [5] [1]) 9)] ++ goes 5 5

/-- The hypotheses of `C63_shape`, `C64_fitting` and `C64_space` are met by this run: at the end, the node 2 is in the tree, and has 5 children in 16 places. -/
theorem C64_example : ∃ σ who m, Run growing.length σ who ∧ Stands (σ growing.length).heap m ∧ InTree (σ growing.length).heap 2 ∧
    ∃ n, (σ growing.length).heap[2]? = some n ∧ places n = 16 ∧ children n = 5 := by
  have h : ((exec growing Conf.init).map fun σ => (match (σ.heap[0]?).map Node.kids with | some (.dummy (some (.node 2))) => true | _ => false) &&
      (σ.heap[2]?).map (fun n => (places n, children n)) == some (16, 5)) = some true := by decide +kernel
  simp only [Option.map_eq_some_iff, Bool.and_eq_true, beq_iff_eq] at h
  obtain ⟨σ', h1, h2, n, h3, h4⟩ := h
  obtain ⟨σ, who, g3, g4⟩ := exec_run h1
  subst g4
  obtain ⟨m, hm⟩ := (C14_map g3).2 _ (Nat.le_refl _)
  refine ⟨σ, who, m, g3, hm, ?_, n, h3, ?_⟩
  · split at h2
    next e =>
      obtain ⟨d, q1, q2⟩ := Option.map_eq_some_iff.mp e
      exact .root q1 q2
    next => simp at h2
  · simpa using h4

end Art.Props
