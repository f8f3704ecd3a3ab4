import Verif.Surf.Assemble

/-! Where a node and its items are found in the vectors of the dense and of the sparse part. -/

set_option linter.unusedSimpArgs false

namespace Surf

/-- Order of the items of a node. -/
def ItemLt (i j : Item) : Prop := j.term = false ∧ (i.term = false → i.label < j.label)

/-- The children behind some items of a node that branches at `b`. -/
def kids (b : Nat) (is : List Item) : List Grp := (is.filter Item.child).map fun i => ⟨i.kvs, b + 1⟩

/-- The number of leaves among some items. -/
def leafN (is : List Item) : Nat := is.countP (fun i => !i.child)

theorem kids_append (b : Nat) (is js : List Item) : kids b (is ++ js) = kids b is ++ kids b js := by simp [kids]

theorem Grp.children_eq (t : Grp) : t.children = kids t.bd t.items := rfl

theorem kids_length (b : Nat) (is : List Item) : (kids b is).length = is.countP Item.child := by
  simp [kids, List.countP_eq_length_filter]

namespace Grp

theorem OK.items_sorted {t : Grp} (h : t.OK) : t.items.Pairwise ItemLt := by
  rw [items_eq, List.pairwise_append]
  refine ⟨?_, ?_, ?_⟩
  · rcases t.ends_cases with e | ⟨x, e⟩ <;> simp [e]
  · refine h.labels_sorted.imp_of_mem ?_
    intro i j _ hj hij
    rw [List.mem_map] at hj
    obtain ⟨g, -, rfl⟩ := hj
    exact ⟨rfl, fun _ => hij⟩
  · intro i hi j hj
    rw [List.mem_map] at hi hj
    obtain ⟨x, -, rfl⟩ := hi
    obtain ⟨g, -, rfl⟩ := hj
    exact ⟨rfl, fun h => by simp at h⟩

theorem OK.term_leaf {t : Grp} (h : t.OK) {i : Item} (hi : i ∈ t.items) (ht : i.term = true) : i.child = false := by
  rcases h.item hi with ⟨-, -, x, -, e⟩ | ⟨e, -⟩
  · simp [Item.child, e]
  · rw [ht] at e; simp at e

end Grp

/-! ### Counting -/

theorem countP_label {is : List Item} (hs : is.Pairwise ItemLt) (f : Item → Bool) (m : Nat) :
    (List.range m).countP (fun c => is.any fun i => f i && !i.term && i.label.toNat == c) = is.countP (fun i => f i && !i.term && decide (i.label.toNat < m)) := by
  induction is with
  | nil => simp
  | cons i is ih =>
    have hs' := List.pairwise_cons.mp hs
    rw [List.countP_cons, ← ih hs'.2]
    have h1 : (List.range m).countP (fun c => f i && !i.term && i.label.toNat == c) = if (f i && !i.term && decide (i.label.toNat < m)) = true then 1 else 0 := by
      cases hf : (f i && !i.term) with
      | false => simp
      | true =>
        simp only [Bool.true_and]
        by_cases hm : i.label.toNat < m
        · rw [if_pos (by simpa using hm)]
          have : (List.range m).countP (fun c => i.label.toNat == c) = (List.range m).count i.label.toNat := by
            rw [List.count]
            congr 1
            funext c
            exact Bool.eq_iff_iff.mpr (by rw [beq_iff_eq, beq_iff_eq]; exact eq_comm)
          rw [this, List.count_range]
          simp [hm]
        · rw [if_neg (by simpa using hm), List.countP_eq_zero]
          intro c hc
          rw [List.mem_range] at hc
          simp; omega
    rw [← h1]
    have h2 : ∀ l : List Nat, l.countP (fun c => (i :: is).any fun i => f i && !i.term && i.label.toNat == c) =
        l.countP (fun c => is.any fun i => f i && !i.term && i.label.toNat == c) + l.countP (fun c => f i && !i.term && i.label.toNat == c) := by
      intro l
      induction l with
      | nil => rfl
      | cons c l ihl =>
        rw [List.countP_cons, List.countP_cons, List.countP_cons, ihl, List.any_cons]
        cases ha : (f i && !i.term && i.label.toNat == c) with
        | false =>
          rw [Bool.false_or]
          simp only [Bool.false_eq_true, if_false]
          exact Nat.add_right_comm _ _ _
        | true =>
          have : (is.any fun i => f i && !i.term && i.label.toNat == c) = false := by
            rw [List.any_eq_false]
            intro j hj hc
            simp only [Bool.and_eq_true, Bool.not_eq_true', beq_iff_eq] at ha hc
            have := (hs'.1 j hj).2 ha.1.2
            rw [UInt8.lt_iff_toNat_lt] at this
            omega
          rw [this]
          simp
          omega
    exact h2 _

theorem ones_mapBits {is : List Item} (hs : is.Pairwise ItemLt) (f : Item → Bool) (m : Nat) (hm : m ≤ 256) :
    ones ((mapBits f is).take m) = is.countP (fun i => f i && !i.term && decide (i.label.toNat < m)) := by
  rw [← countP_label hs f m]
  unfold mapBits ones
  rw [← List.map_take, List.count, List.countP_map, List.take_range, Nat.min_eq_left hm]
  congr 1
  funext c
  simp

theorem ones_mapBits_all {is : List Item} (hs : is.Pairwise ItemLt) (f : Item → Bool) : ones (mapBits f is) = is.countP (fun i => f i && !i.term) := by
  have := ones_mapBits hs f 256 (Nat.le_refl _)
  rw [List.take_of_length_le (by simp [mapBits])] at this
  rw [this]
  congr 1
  funext i
  have := i.label.toNat_lt
  simp; omega

/-- The items up to one with label `c`. -/
theorem countP_upto {ip iq : List Item} {i : Item} (hs : (ip ++ i :: iq).Pairwise ItemLt) (hi : i.term = false) (f : Item → Bool) :
    (ip ++ i :: iq).countP (fun j => f j && !j.term && decide (j.label.toNat < i.label.toNat + 1)) = ip.countP (fun j => f j && !j.term) + (if f i then 1 else 0) := by
  rw [List.pairwise_append, List.pairwise_cons] at hs
  obtain ⟨-, ⟨h1, -⟩, h2⟩ := hs
  rw [List.countP_append, List.countP_cons]
  have e1 : ip.countP (fun j => f j && !j.term && decide (j.label.toNat < i.label.toNat + 1)) = ip.countP (fun j => f j && !j.term) := by
    apply List.countP_congr
    intro j hj
    have := (h2 j hj i (by simp)).2
    rw [UInt8.lt_iff_toNat_lt] at this
    cases hj : j.term with
    | true => simp
    | false => have := this hj; simp; omega
  have e2 : iq.countP (fun j => f j && !j.term && decide (j.label.toNat < i.label.toNat + 1)) = 0 := by
    rw [List.countP_eq_zero]
    intro j hj
    have := (h1 j hj).2 hi
    rw [UInt8.lt_iff_toNat_lt] at this
    simp; intros; omega
  rw [e1, e2, hi]
  simp

theorem ones_append (a b : List Bool) : ones (a ++ b) = ones a + ones b := by simp [ones]

theorem take_mid {α : Type} (a b c : List α) (m : Nat) (hm : m ≤ b.length) : (a ++ b ++ c).take (a.length + m) = a ++ b.take m := by
  rw [List.append_assoc, List.take_length_add_append, List.take_append_of_le_length hm]

theorem getElem_mid {α : Type} (a b c : List α) (m : Nat) (hm : m < b.length) : (a ++ b ++ c)[a.length + m]? = some b[m] := by
  rw [List.append_assoc, List.getElem?_append_right (by omega), Nat.add_sub_cancel_left, List.getElem?_append_left hm, List.getElem?_eq_getElem hm]

theorem mapBits_flat_length (f : Item → Bool) (ns : List Grp) : (ns.flatMap fun t => mapBits f t.items).length = ns.length * 256 := by
  rw [List.length_flatMap]
  have : ns.map (fun t => (mapBits f t.items).length) = ns.map (fun _ => 256) := by
    apply List.map_congr_left
    intro t _
    exact mapBits_length _ _
  rw [this, List.map_const', List.sum_replicate_nat]

/-- The terminator among the items of a node. -/
theorem hasEnd_count {t : Grp} (h : t.OK) : ones [t.hasEnd] = t.items.countP (·.term) := by
  unfold Grp.hasEnd
  have hs := h.items_sorted
  cases hi : t.items with
  | nil => rfl
  | cons i is =>
    rw [hi, List.pairwise_cons] at hs
    have h0 : is.countP (·.term) = 0 := by
      rw [List.countP_eq_zero]
      intro j hj
      simp [(hs.1 j hj).1]
    have h1 : is.any (·.term) = false := by
      rw [List.any_eq_false]
      intro j hj
      simp [(hs.1 j hj).1]
    rw [List.countP_cons, h0, List.any_cons, h1]
    cases i.term <;> rfl

theorem count_split (is : List Item) (h : ∀ i ∈ is, i.term = true → i.child = false) :
    is.countP (fun i => true && !i.term) + is.countP (·.term) = is.countP (fun i => i.child && !i.term) + leafN is := by
  unfold leafN
  induction is with
  | nil => rfl
  | cons i is ih =>
    have ih := ih (fun j hj => h j (List.mem_cons_of_mem _ hj))
    have := h i (by simp)
    simp only [List.countP_cons]
    cases h1 : i.term <;> cases h2 : i.child <;> simp [h1, h2] at this ⊢ <;> simp at ih <;> omega

theorem child_count (is : List Item) (h : ∀ i ∈ is, i.term = true → i.child = false) : is.countP (fun i => i.child && !i.term) = is.countP Item.child := by
  apply List.countP_congr
  intro i hi
  have := h i hi
  cases h1 : i.term <;> cases h2 : i.child <;> simp [h1, h2] at this ⊢

theorem lvs_length (ns : List Grp) : (lvs ns).length = leafN (ns.flatMap Grp.items) := by
  unfold lvs leavesJ leafN
  have : ns.flatMap Grp.items = (ns.flatMap Grp.jtems).map (·.2) := by
    rw [List.map_flatMap]
    congr 1
    funext t
    simp [Grp.jtems, Function.comp_def]
  rw [this, List.countP_map, List.countP_eq_length_filter]
  rfl

theorem leafN_append (a b : List Item) : leafN (a ++ b) = leafN a + leafN b := by simp [leafN]

theorem flatMap_children_length (ns : List Grp) : (ns.flatMap Grp.children).length = (ns.flatMap Grp.items).countP Item.child := by
  induction ns with
  | nil => rfl
  | cons t ns ih => rw [List.flatMap_cons, List.length_append, ih, List.flatMap_cons, List.countP_append, Grp.children_eq, kids_length]

theorem ones_child_all (ns : List Grp) (h : ∀ t ∈ ns, t.OK) : ones (ns.flatMap fun t => mapBits Item.child t.items) = (ns.flatMap Grp.children).length := by
  induction ns with
  | nil => rfl
  | cons t ns ih =>
    have ht := h t (by simp)
    rw [List.flatMap_cons, List.flatMap_cons, ones_append, List.length_append, ih (fun t h1 => h t (List.mem_cons_of_mem _ h1)), ones_mapBits_all ht.items_sorted,
      Grp.children_eq, kids_length, child_count _ (fun i hi => ht.term_leaf hi)]

theorem ones_leaf_all (ns : List Grp) (h : ∀ t ∈ ns, t.OK) : ones (ns.flatMap fun t => mapBits (fun _ => true) t.items) + ones (ns.map Grp.hasEnd) =
    ones (ns.flatMap fun t => mapBits Item.child t.items) + (lvs ns).length := by
  induction ns with
  | nil => rfl
  | cons t ns ih =>
    have ht := h t (by simp)
    have ih := ih (fun t h1 => h t (List.mem_cons_of_mem _ h1))
    have h1 := count_split t.items (fun i hi => ht.term_leaf hi)
    rw [← hasEnd_count ht, ← ones_mapBits_all ht.items_sorted (fun _ => true), ← ones_mapBits_all ht.items_sorted Item.child] at h1
    rw [lvs_length] at ih ⊢
    have e : ones ((t :: ns).map Grp.hasEnd) = ones [t.hasEnd] + ones (ns.map Grp.hasEnd) := by rw [← ones_append]; rfl
    rw [e]
    simp only [List.flatMap_cons, ones_append, leafN_append]
    omega

theorem child_le_label (is : List Item) : is.countP (fun i => i.child && !i.term) ≤ is.countP (fun i => true && !i.term) := by
  apply List.countP_mono_left
  intro i _ h
  simp only [Bool.and_eq_true] at h
  simp [h.2]

theorem ones_child_le (ns : List Grp) (h : ∀ t ∈ ns, t.OK) :
    ones (ns.flatMap fun t => mapBits Item.child t.items) ≤ ones (ns.flatMap fun t => mapBits (fun _ => true) t.items) := by
  induction ns with
  | nil => exact Nat.le_refl _
  | cons t ns ih =>
    have ht := h t (by simp)
    have ih := ih (fun t h1 => h t (List.mem_cons_of_mem _ h1))
    have := child_le_label t.items
    rw [List.flatMap_cons, List.flatMap_cons, ones_append, ones_append, ones_mapBits_all ht.items_sorted, ones_mapBits_all ht.items_sorted]
    omega

theorem pos_arith {a b c l a' b' c' l' x y : Nat} (h1 : a + c = b + l) (h2 : b ≤ a) (h3 : a' + c' = b' + l') (h4 : b' ≤ a') (hx : x = 1) (hy : y = 0) :
    ((usub (a + (a' + x)) (b + (b' + y))).bind fun d => usub (d + (c + c')) 1) = some (l + l') := by
  subst hx hy
  unfold usub
  rw [if_pos (by omega)]
  simp only [Option.bind_some]
  rw [if_pos (by omega)]
  simp only [Option.some.injEq]
  omega

/-! ### Dense nodes -/

section
variable {cfg : Config} {fp : Bytes → Word} {ld : LoudsDense} {pre post : List Grp} {t : Grp}

theorem mapBits_get (f : Item → Bool) (is : List Item) (c : Nat) (hc : c < 256) : (mapBits f is)[c]'(by simpa [mapBits] using hc) = is.any fun i => f i && !i.term && i.label.toNat == c := by
  simp [mapBits]

theorem flat_split (g : Grp → List Bool) : (pre ++ t :: post).flatMap g = pre.flatMap g ++ g t ++ post.flatMap g := by
  simp

theorem RV.isSet_node {v : RankVector} {f : Item → Bool} {e : Nat} (h : RV v 64 ((pre ++ t :: post).flatMap fun t => mapBits f t.items) e) (c : Nat) (hc : c < 256) :
    v.bv.isSet (pre.length * 256 + c) = some (t.items.any fun i => f i && !i.term && i.label.toNat == c) := by
  have hl : c < (mapBits f t.items).length := by rw [mapBits_length]; exact hc
  have hg := getElem_mid (pre.flatMap fun t => mapBits f t.items) (mapBits f t.items) (post.flatMap fun t => mapBits f t.items) c hl
  rw [← flat_split (g := fun t => mapBits f t.items), mapBits_flat_length, mapBits_get f _ c hc] at hg
  obtain ⟨hlt, hv⟩ := List.getElem?_eq_some_iff.mp hg
  rw [h.isSet hlt, hv]

theorem RV.rank_node {v : RankVector} {f : Item → Bool} {e : Nat} (h : RV v 64 ((pre ++ t :: post).flatMap fun t => mapBits f t.items) e) (ht : t.OK) (c : Nat) (hc : c < 256) :
    v.rankDense (pre.length * 256 + c) = some (ones (pre.flatMap fun t => mapBits f t.items) + t.items.countP (fun i => f i && !i.term && decide (i.label.toNat < c + 1))) := by
  have hlen : pre.length * 256 + c < ((pre ++ t :: post).flatMap fun t => mapBits f t.items).length := by
    rw [mapBits_flat_length, List.length_append, List.length_cons]; omega
  rw [h.rankDense hlen, flat_split, ← mapBits_flat_length f pre, Nat.add_assoc, take_mid _ _ _ _ (by rw [mapBits_length]; omega), ones_append, ones_mapBits ht.items_sorted _ _ (by omega)]

theorem ones_take_node (f : Grp → Bool) : ones (((pre ++ t :: post).map f).take (pre.length + 1)) = ones (pre.map f) + ones [f t] := by
  have := take_mid (pre.map f) [f t] (post.map f) 1 (by simp)
  rw [List.length_map] at this
  rw [show (pre ++ t :: post).map f = pre.map f ++ [f t] ++ post.map f by simp, this, ones_append]
  rfl

theorem DView.label (h : DView cfg fp ld (pre ++ t :: post)) (c : Nat) (hc : c < 256) :
    ld.labelVec.bv.isSet (pre.length * 256 + c) = some (t.items.any fun i => !i.term && i.label.toNat == c) := by
  rw [h.lab.isSet_node c hc]
  simp

theorem any_label {ip iq : List Item} {i : Item} (hs : (ip ++ i :: iq).Pairwise ItemLt) (hi : i.term = false) (f : Item → Bool) :
    ((ip ++ i :: iq).any fun j => f j && !j.term && j.label.toNat == i.label.toNat) = f i := by
  rw [List.pairwise_append, List.pairwise_cons] at hs
  obtain ⟨-, ⟨h1, -⟩, h2⟩ := hs
  rw [List.any_append, List.any_cons]
  have e1 : (ip.any fun j => f j && !j.term && j.label.toNat == i.label.toNat) = false := by
    rw [List.any_eq_false]
    intro j hj hc
    simp only [Bool.and_eq_true, Bool.not_eq_true', beq_iff_eq] at hc
    have := (h2 j hj i (by simp)).2 hc.1.2
    rw [UInt8.lt_iff_toNat_lt] at this
    omega
  have e2 : (iq.any fun j => f j && !j.term && j.label.toNat == i.label.toNat) = false := by
    rw [List.any_eq_false]
    intro j hj hc
    simp only [Bool.and_eq_true, Bool.not_eq_true', beq_iff_eq] at hc
    have := (h1 j hj).2 hi
    rw [UInt8.lt_iff_toNat_lt] at this
    omega
  rw [e1, e2, hi]
  simp

theorem DView.label_item (h : DView cfg fp ld (pre ++ t :: post)) (ht : t.OK) {ip iq : List Item} {i : Item} (e : t.items = ip ++ i :: iq) (hi : i.term = false) :
    ld.labelVec.bv.isSet (pre.length * 256 + i.label.toNat) = some true := by
  rw [h.lab.isSet_node _ i.label.toNat_lt, e, any_label (by rw [← e]; exact ht.items_sorted) hi]

theorem DView.hasChild_item (h : DView cfg fp ld (pre ++ t :: post)) (ht : t.OK) {ip iq : List Item} {i : Item} (e : t.items = ip ++ i :: iq) (hi : i.term = false) :
    ld.hasChildVec.bv.isSet (pre.length * 256 + i.label.toNat) = some i.child := by
  rw [h.hc.isSet_node _ i.label.toNat_lt, e, any_label (by rw [← e]; exact ht.items_sorted) hi]

theorem DView.isPrefix (h : DView cfg fp ld (pre ++ t :: post)) : ld.isPrefixVec.bv.isSet pre.length = some t.hasEnd := by
  obtain ⟨e, h⟩ := h.ip
  rw [h.isSet (by simp)]
  simp

/-- The number of the child behind an item. -/
theorem DView.child (h : DView cfg fp ld (pre ++ t :: post)) (hp : ∀ x ∈ pre, x.OK) (ht : t.OK) {ip iq : List Item} {i : Item} (e : t.items = ip ++ i :: iq) (hi : i.term = false) (hc : i.child = true) :
    ld.childNodeID (pre.length * 256 + i.label.toNat) = some ((pre.flatMap Grp.children).length + (kids t.bd ip).length + 1) := by
  unfold LoudsDense.childNodeID
  rw [h.hc.rank_node ht _ i.label.toNat_lt, ones_child_all _ hp]
  rw [e, countP_upto (by rw [← e]; exact ht.items_sorted) hi, hc, child_count _ (fun j hj => ht.term_leaf (by rw [e]; simp [hj])), kids_length]
  rfl

/-- The place of the suffix and value of a leaf. -/
theorem DView.leafPos (h : DView cfg fp ld (pre ++ t :: post)) (hp : ∀ x ∈ pre, x.OK) (ht : t.OK) {ip iq : List Item} {i : Item} (e : t.items = ip ++ i :: iq) (hi : i.term = false) (hc : i.child = false) :
    ld.suffixPos (pre.length * 256 + i.label.toNat) false = some ((lvs pre).length + leafN ip) := by
  have hlt : i.label.toNat < 256 := i.label.toNat_lt
  have hdiv : (pre.length * 256 + i.label.toNat) / denseFanout = pre.length := by
    show _ / 256 = _
    omega
  have hs := ht.items_sorted
  obtain ⟨e', h3⟩ := h.ip
  have hr : ld.isPrefixVec.rankDense pre.length = some (ones (pre.map Grp.hasEnd) + ones [t.hasEnd]) := by
    rw [h3.rankDense (by simp), ones_take_node]
  unfold LoudsDense.suffixPos
  simp only [hdiv, Option.bind_eq_bind]
  rw [h.lab.rank_node ht _ hlt, h.hc.rank_node ht _ hlt, hr]
  simp only [Option.bind_some]
  have hend := hasEnd_count ht
  have hz : t.items.countP (·.term) = ip.countP (·.term) := by
    rw [e, List.pairwise_append, List.pairwise_cons] at hs
    rw [e, List.countP_append, List.countP_cons, hi]
    have : iq.countP (·.term) = 0 := by
      rw [List.countP_eq_zero]
      intro j hj
      simp [(hs.2.1.1 j hj).1]
    simp [this]
  have hall := ones_leaf_all pre hp
  have hsp := count_split ip (fun j hj => ht.term_leaf (by rw [e]; simp [hj]))
  rw [e, countP_upto (by rw [← e]; exact hs) hi, countP_upto (by rw [← e]; exact hs) hi, hend, hz, hc]
  simp only [Bool.false_eq_true, if_false, Option.pure_def, Option.bind_fun_some]
  exact pos_arith hall (ones_child_le pre hp) hsp (child_le_label ip) rfl rfl

/-- The place of the suffix and value of a key that ends at the node. -/
theorem DView.endPos (h : DView cfg fp ld (pre ++ t :: post)) (hp : ∀ x ∈ pre, x.OK) (ht : t.OK) (he : t.hasEnd = true) :
    ld.suffixPos (pre.length * 256) true = some (lvs pre).length := by
  have hdiv : (pre.length * 256) / denseFanout = pre.length := by
    show _ / 256 = _
    omega
  have hs := ht.items_sorted
  obtain ⟨e', h3⟩ := h.ip
  have hr : ld.isPrefixVec.rankDense pre.length = some (ones (pre.map Grp.hasEnd) + 1) := by
    rw [h3.rankDense (by simp), ones_take_node, he]
    rfl
  have hall := ones_leaf_all pre hp
  have hle := ones_child_le pre hp
  have hlab : ld.labelVec.bv.isSet (pre.length * 256) = some (t.items.any fun i => !i.term && i.label.toNat == 0) := by
    have := h.label 0 (by omega)
    rwa [Nat.add_zero] at this
  have hhc : ld.hasChildVec.bv.isSet (pre.length * 256) = some (t.items.any fun i => i.child && !i.term && i.label.toNat == 0) := by
    have := h.hc.isSet_node 0 (by omega)
    rwa [Nat.add_zero] at this
  have hrl := h.lab.rank_node ht 0 (by omega)
  have hrc := h.hc.rank_node ht 0 (by omega)
  rw [Nat.add_zero] at hrl hrc
  unfold LoudsDense.suffixPos LoudsDense.leafAt
  simp only [hdiv, Option.bind_eq_bind]
  rw [hrl, hrc, hr, hlab]
  simp only [Option.bind_some]
  by_cases h0 : ∃ i ∈ t.items, i.term = false ∧ i.label.toNat = 0
  · obtain ⟨i, him, hi, hl⟩ := h0
    obtain ⟨ip, iq, e⟩ := List.append_of_mem him
    have hip : ∀ f : Item → Bool, ip.countP (fun j => f j && !j.term) = 0 := by
      intro f
      rw [List.countP_eq_zero]
      intro j hj hc
      rw [e, List.pairwise_append] at hs
      simp only [Bool.and_eq_true, Bool.not_eq_true'] at hc
      have := (hs.2.2 j hj i (by simp)).2 hc.2
      rw [UInt8.lt_iff_toNat_lt] at this
      omega
    have c1 := any_label (by rw [← e]; exact hs) hi (fun _ => true)
    have c2 := any_label (by rw [← e]; exact hs) hi Item.child
    have d1 := countP_upto (by rw [← e]; exact hs) hi (fun _ => true)
    have d2 := countP_upto (by rw [← e]; exact hs) hi Item.child
    rw [hip, hl, ← e] at d1 d2
    rw [hl, ← e] at c1 c2
    rw [d1, d2]
    simp only [Bool.true_and] at c1
    rw [c1]
    simp only [if_true, Nat.zero_add]
    rw [hhc, c2]
    generalize ones (pre.flatMap fun t => mapBits (fun _ => true) t.items) = A at *
    generalize ones (pre.flatMap fun t => mapBits Item.child t.items) = B at *
    generalize ones (pre.map Grp.hasEnd) = C at *
    cases i.child with
    | true =>
      simp only [if_true, usub]
      rw [if_pos (by omega)]
      simp only [Option.bind_some]
      rw [if_pos (by omega)]
      simp
      omega
    | false =>
      simp only [Bool.false_eq_true, if_false, usub]
      rw [if_pos (by omega)]
      simp only [Option.bind_some]
      rw [if_pos (by omega)]
      simp only [Option.bind_some, Option.pure_def, Bool.not_false, if_true]
      rw [if_pos (by omega)]
      simp
      omega
  · have c1 : (t.items.any fun i => !i.term && i.label.toNat == 0) = false := by
      rw [List.any_eq_false]
      intro i hi hc
      simp only [Bool.and_eq_true, Bool.not_eq_true', beq_iff_eq] at hc
      exact h0 ⟨i, hi, hc⟩
    have d : ∀ f : Item → Bool, t.items.countP (fun i => f i && !i.term && decide (i.label.toNat < 0 + 1)) = 0 := by
      intro f
      rw [List.countP_eq_zero]
      intro i hi hc
      simp only [Bool.and_eq_true, Bool.not_eq_true', decide_eq_true_eq] at hc
      exact h0 ⟨i, hi, hc.1.2, by omega⟩
    rw [c1, d, d]
    generalize ones (pre.flatMap fun t => mapBits (fun _ => true) t.items) = A at *
    generalize ones (pre.flatMap fun t => mapBits Item.child t.items) = B at *
    generalize ones (pre.map Grp.hasEnd) = C at *
    unfold usub
    simp only [if_true]
    rw [if_pos (by omega)]
    simp only [Option.bind_some]
    rw [if_pos (by omega)]
    simp
    omega

end

end Surf
