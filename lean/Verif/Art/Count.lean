import Mathlib.Algebra.BigOperators.Ring.Finset
import Mathlib.Data.Finset.Card
import Mathlib.Data.Finset.Sum
import Mathlib.Data.Finset.Sigma
import Mathlib.Data.Finset.Preimage
import Mathlib.Algebra.BigOperators.Group.Finset.Sigma
import Mathlib.Algebra.Order.BigOperators.Group.Finset
import Verif.Art.Seq

/-! # The number of inner nodes -/

set_option linter.unusedSimpArgs false

namespace Art

open Surf Spec

/-- The items of a node: its prefix leaf and its children. -/
def View.item (v : View) : Option UInt8 → Option Ref
  | none => v.pleaf.map .leaf
  | some b => v.child b

variable {E : Addr → Bytes} {live : Addr → Prop} {h : Heap} {root : Addr} {m : Map}

theorem item_stored {v : View} {i : Option UInt8} {l : Leaf} (hi : v.item i = some (.leaf l)) : v.Stored l := by
  cases i with
  | none => left; simpa [View.item] using hi
  | some b => exact Or.inr ⟨b, hi⟩

theorem item_node {v : View} {i : Option UInt8} {c : Addr} (hi : v.item i = some (.node c)) : ∃ b, i = some b ∧ v.child b = some (.node c) := by
  cases i with
  | none => simp [View.item] at hi
  | some b => exact ⟨b, rfl, hi⟩

/-- A key is stored in one place. -/
theorem Tree.item_unique {V : Addr → View} (ht : Tree E live V root m) {a a' : Addr} (ha : live a) (ha' : live a') {i i' : Option UInt8} {l l' : Leaf}
    (h1 : (V a).item i = some (.leaf l)) (h2 : (V a').item i' = some (.leaf l')) (hk : l.key = l'.key) : a = a' ∧ i = i' := by
  have hs := item_stored h1
  have hs' := item_stored h2
  have e : a = a' := by
    have hp := (ht.leaves a ha).prefix hs
    rcases ht.stored_at (n := a) ha ha' hs' (by rw [← hk]; exact hp) with e | ⟨b, c, g1, g2, g3⟩
    · exact e.symm
    · exfalso
      rw [← hk] at g1 g3
      rcases hs with hs | ⟨b', hs⟩
      · rw [(ht.leaves a ha).pleaf l hs] at g1
        exact not_snoc_self g1
      · have := snoc_inj ((ht.leaves a ha).leaf b' l hs) g1
        subst this
        rw [hs] at g2
        simp at g2
  subst e
  refine ⟨rfl, ?_⟩
  cases i with
  | none =>
    cases i' with
    | none => rfl
    | some b' =>
      exfalso
      have e1 : (V a).pleaf = some l := by simpa [View.item] using h1
      have := (ht.leaves a ha).leaf b' l' h2
      rw [← hk, (ht.leaves a ha).pleaf l e1] at this
      exact not_snoc_self this
  | some b =>
    cases i' with
    | none =>
      exfalso
      have e1 : (V a).pleaf = some l' := by simpa [View.item] using h2
      have := (ht.leaves a ha).leaf b l h1
      rw [hk, (ht.leaves a ha).pleaf l' e1] at this
      exact not_snoc_self this
    | some b' =>
      have g1 := (ht.leaves a ha).leaf b l h1
      have g2 := (ht.leaves a ha).leaf b' l' h2
      rw [hk] at g1
      rw [snoc_inj g1 g2]

open Classical in
/-- All possible items. -/
noncomputable def slots : Finset (Option UInt8) := Insert.insert none (allBytes.toFinset.image some)

open Classical in
noncomputable def items (v : View) : Finset (Option UInt8) := slots.filter (fun i => (v.item i).isSome)

theorem mem_slots (i : Option UInt8) : i ∈ slots := by
  classical
  cases i with
  | none => simp [slots]
  | some b =>
    simp only [slots, Finset.mem_insert, Finset.mem_image, List.mem_toFinset]
    exact Or.inr ⟨b, mem_allBytes b, rfl⟩

theorem mem_items (v : View) (i : Option UInt8) : i ∈ items v ↔ (v.item i).isSome := by
  simp [items, mem_slots]

theorem card_items (v : View) : (items v).card = cnt v.child + v.pleaf.isSome.toNat := by
  classical
  have h1 : items v = (if v.pleaf.isSome then {none} else ∅) ∪ ((allBytes.filter (fun b => (v.child b).isSome)).toFinset.image some) := by
    ext i
    rw [mem_items]
    cases i with
    | none =>
      cases hp : v.pleaf with
      | none => simp [View.item, hp]
      | some l => simp [View.item, hp]
    | some b =>
      have : some b ∉ (if v.pleaf.isSome then ({none} : Finset (Option UInt8)) else ∅) := by
        split <;> simp
      simp only [Finset.mem_union, this, false_or, Finset.mem_image, List.mem_toFinset, List.mem_filter]
      constructor
      · intro hh
        exact ⟨b, ⟨mem_allBytes b, hh⟩, rfl⟩
      · rintro ⟨b', ⟨-, hh⟩, e⟩
        cases e
        exact hh
  rw [h1, Finset.card_union_of_disjoint]
  · rw [Finset.card_image_of_injective _ (Option.some_injective _), List.toFinset_card_of_nodup (nodup_allBytes.filter _)]
    have : cnt v.child = (allBytes.filter (fun b => (v.child b).isSome)).length := by
      rw [cnt, List.countP_eq_length_filter]
    rw [this]
    cases hp : v.pleaf with
    | none => simp
    | some l => simp; omega
  · rw [Finset.disjoint_left]
    intro i hi
    split at hi
    · simp only [Finset.mem_singleton] at hi
      subst hi
      simp
    · simp at hi

/-- All items together are the nodes but the root, and the leaves. -/
theorem HTr.items_le (ht : HTr E live h root m) : ∃ (F : Finset Addr) (Ks : Finset Bytes), (∀ a, a ∈ F ↔ live a) ∧ (∀ K ∈ Ks, m K ≠ none) ∧
    ∑ a ∈ F, (items (view h a)).card ≤ (F.card - 1) + Ks.card := by
  classical
  let F : Finset Addr := (Finset.range h.length).filter live
  have hF : ∀ a, a ∈ F ↔ live a := by
    intro a
    simp only [F, Finset.mem_filter, Finset.mem_range]
    exact ⟨fun x => x.2, fun x => ⟨ht.lt x, x⟩⟩
  let S : Finset (Σ _ : Addr, Option UInt8) := F.sigma (fun a => items (view h a))
  let f : (Σ _ : Addr, Option UInt8) → Addr ⊕ Bytes := fun x =>
    match (view h x.1).item x.2 with
    | some (.node c) => .inl c
    | some (.leaf l) => .inr l.key
    | none => .inl 0
  have hS : ∀ x, x ∈ S ↔ live x.1 ∧ ((view h x.1).item x.2).isSome := by
    intro x
    simp only [S, Finset.mem_sigma, hF, mem_items]
  have hinj : Set.InjOn f S := by
    intro x hx y hy hxy
    simp only [Finset.mem_coe, hS] at hx hy
    obtain ⟨x1, x2⟩ := x
    obtain ⟨y1, y2⟩ := y
    obtain ⟨hx1, hx2⟩ := hx
    obtain ⟨hy1, hy2⟩ := hy
    simp only at hx1 hx2 hy1 hy2
    obtain ⟨rx, ex⟩ := Option.isSome_iff_exists.mp hx2
    obtain ⟨ry, ey⟩ := Option.isSome_iff_exists.mp hy2
    have key : x1 = y1 ∧ x2 = y2 := by
      simp only [f, ex, ey] at hxy
      cases rx with
      | node c =>
        cases ry with
        | node c' =>
          simp only [Sum.inl.injEq] at hxy
          subst hxy
          obtain ⟨b, rfl, g1⟩ := item_node ex
          obtain ⟨b', rfl, g2⟩ := item_node ey
          obtain ⟨e1, e2⟩ := ht.tree.parent_unique hx1 hy1 g1 g2
          exact ⟨e1, by rw [e2]⟩
        | leaf l => simp at hxy
      | leaf l =>
        cases ry with
        | node c' => simp at hxy
        | leaf l' =>
          simp only [Sum.inr.injEq] at hxy
          exact ht.tree.item_unique hx1 hy1 ex ey hxy
    obtain ⟨rfl, rfl⟩ := key
    rfl
  let Keys : Finset Bytes := (S.image f).preimage Sum.inr (by intro a _ b _ e; simpa using e)
  have hKeys : ∀ K, K ∈ Keys → m K ≠ none := by
    intro K hK
    obtain ⟨x, hx, e⟩ := Finset.mem_image.mp (Finset.mem_preimage.mp hK)
    rw [hS] at hx
    simp only [f] at e
    obtain ⟨r, er⟩ := Option.isSome_iff_exists.mp hx.2
    rw [er] at e
    cases r with
    | node c => simp at e
    | leaf l =>
      simp only [Sum.inr.injEq] at e
      rw [(ht.tree.mem K l.value).mpr ⟨x.1, l, hx.1, item_stored er, e, rfl⟩]
      simp
  have himg : S.image f ⊆ (F.erase root).disjSum Keys := by
    intro y hy
    cases y with
    | inr K =>
      rw [Finset.inr_mem_disjSum]
      simpa [Keys] using hy
    | inl c =>
      rw [Finset.inl_mem_disjSum]
      simp only [Finset.mem_image] at hy
      obtain ⟨x, hx, e⟩ := hy
      rw [hS] at hx
      simp only [f] at e
      obtain ⟨r, er⟩ := Option.isSome_iff_exists.mp hx.2
      rw [er] at e
      cases r with
      | leaf l => simp at e
      | node c' =>
        simp only [Sum.inl.injEq] at e
        subst e
        obtain ⟨b, -, g1⟩ := item_node er
        rw [Finset.mem_erase, hF]
        refine ⟨?_, (ht.tree.child x.1 b c' hx.1 g1).1⟩
        rintro rfl
        exact ht.tree.root_not_child hx.1 g1
  have hup : S.card ≤ (F.card - 1) + Keys.card := by
    have h1 : (S.image f).card = S.card := Finset.card_image_of_injOn hinj
    have h2 := Finset.card_le_card himg
    rw [Finset.card_disjSum, Finset.card_erase_of_mem ((hF root).mpr ht.tree.root_live)] at h2
    omega
  refine ⟨F, Keys, hF, hKeys, ?_⟩
  rw [← show S.card = ∑ a ∈ F, (items (view h a)).card from Finset.card_sigma _ _]
  exact hup

/-- At most as many inner nodes as keys, and one. -/
theorem HTr.count (ht : HTr E live h root m) (L : List Addr) (hn : L.Nodup) (hl : ∀ a ∈ L, live a) :
    ∃ Ks : List Bytes, Ks.Nodup ∧ (∀ K ∈ Ks, m K ≠ none) ∧ L.length ≤ Ks.length + 1 := by
  classical
  obtain ⟨F, Keys, hF, hKeys, hup⟩ := ht.items_le
  have hlow : 2 * (F.card - 1) ≤ ∑ a ∈ F, (items (view h a)).card := by
    have h2 : ∑ a ∈ F.erase root, 2 ≤ ∑ a ∈ F.erase root, (items (view h a)).card := by
      refine Finset.sum_le_sum fun a ha => ?_
      rw [Finset.mem_erase, hF] at ha
      obtain ⟨n, -, g2, g3⟩ := ht.view_live ha.2
      rw [g2, card_items]
      exact g3.two ha.1
    have h3 : ∑ a ∈ F.erase root, (items (view h a)).card ≤ ∑ a ∈ F, (items (view h a)).card :=
      Finset.sum_le_sum_of_subset (Finset.erase_subset _ _)
    rw [Finset.sum_const, Finset.card_erase_of_mem ((hF root).mpr ht.tree.root_live)] at h2
    rw [Nat.nsmul_eq_mul] at h2
    omega
  have hLF : L.length ≤ F.card := by
    rw [← List.toFinset_card_of_nodup hn]
    refine Finset.card_le_card fun a ha => ?_
    rw [hF]
    exact hl a (by simpa using ha)
  refine ⟨Keys.toList, Finset.nodup_toList _, ?_, ?_⟩
  · intro K hK
    exact hKeys K (by simpa using hK)
  · rw [Finset.length_toList]
    omega

/-- Places for children in all inner nodes together: at most seven per key, and four. -/
theorem HTr.room (ht : HTr E live h root m) (L : List Addr) (hn : L.Nodup) (hl : ∀ a ∈ L, live a) :
    ∃ Ks : List Bytes, Ks.Nodup ∧ (∀ K ∈ Ks, m K ≠ none) ∧ (L.map (fun a => (h[a]?.map Node.cap).getD 0)).sum ≤ 7 * Ks.length + 4 := by
  classical
  obtain ⟨F, Keys, hF, hKeys, hup⟩ := ht.items_le
  have hone : ∀ a ∈ F, (h[a]?.map Node.cap).getD 0 + 7 ≤ 7 * (items (view h a)).card + if a = root then 11 else 0 := by
    intro a ha
    rw [hF] at ha
    obtain ⟨n, g1, g2, g3⟩ := ht.view_live ha
    rw [g2, card_items, g1]
    simp only [Option.map_some, Option.getD_some, Node.view]
    have hmin := g3.min
    have htwo := g3.two
    by_cases e : a = root
    · rw [if_pos e]
      rcases g3.wf.cap_cases with h4 | h4 | h4 | h4 <;> rw [h4] at hmin ⊢ <;> simp only [minCount] at hmin <;> omega
    · have := htwo e
      rw [if_neg e]
      rcases g3.wf.cap_cases with h4 | h4 | h4 | h4 <;> rw [h4] at hmin ⊢ <;> simp only [minCount] at hmin <;> omega
  have hsum := Finset.sum_le_sum hone
  have hroot : root ∈ F := (hF root).mpr ht.tree.root_live
  rw [Finset.sum_add_distrib, Finset.sum_add_distrib, Finset.sum_const, Nat.nsmul_eq_mul, ← Finset.mul_sum, Finset.sum_ite_eq' F root, if_pos hroot] at hsum
  have hcard : 0 < F.card := Finset.card_pos.mpr ⟨root, hroot⟩
  have hLF : (L.map (fun a => (h[a]?.map Node.cap).getD 0)).sum ≤ ∑ a ∈ F, (h[a]?.map Node.cap).getD 0 := by
    rw [← List.sum_toFinset _ hn]
    refine Finset.sum_le_sum_of_subset fun a ha => ?_
    rw [hF]
    exact hl a (by simpa using ha)
  refine ⟨Keys.toList, Finset.nodup_toList _, ?_, ?_⟩
  · intro K hK
    exact hKeys K (by simpa using hK)
  · rw [Finset.length_toList]
    generalize ∑ a ∈ F, (items (view h a)).card = X at *
    generalize ∑ a ∈ F, (h[a]?.map Node.cap).getD 0 = Y at *
    omega

end Art
