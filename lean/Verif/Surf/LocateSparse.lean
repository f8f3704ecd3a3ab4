import Verif.Surf.Locate
import Verif.Surf.DistLemmas

/-! Where a node and its items are found in the vectors of the sparse part. -/

set_option linter.unusedSimpArgs false

namespace Surf

/-- The number of items of some nodes: the position behind them. -/
def itemN (ns : List Grp) : Nat := (ns.flatMap Grp.items).length

theorem itemN_append (a b : List Grp) : itemN (a ++ b) = itemN a + itemN b := by simp [itemN]

theorem Grp.OK.louds_length {t : Grp} (h : t.OK) : t.louds.length = t.items.length := by
  have : t.items.length ≠ 0 := fun e => h.items_ne (List.eq_nil_of_length_eq_zero e)
  unfold Grp.louds
  simp
  omega

theorem louds_flat (ns : List Grp) (h : ∀ t ∈ ns, t.OK) : (ns.flatMap Grp.louds).length = itemN ns ∧ ones (ns.flatMap Grp.louds) = ns.length := by
  induction ns with
  | nil => exact ⟨rfl, rfl⟩
  | cons t ns ih =>
    obtain ⟨h1, h2⟩ := ih (fun t ht => h t (List.mem_cons_of_mem _ ht))
    refine ⟨?_, ?_⟩
    · rw [List.flatMap_cons, List.length_append, h1, (h t (by simp)).louds_length]
      simp [itemN]
    · rw [List.flatMap_cons, ones_append, h2]
      unfold Grp.louds ones
      rw [List.count_cons, List.count_replicate]
      simp
      omega

section
variable {cfg : Config} {fp : Bytes → Word} {ls : LoudsSparse} {ds pre post : List Grp} {t : Grp}

/-- The position at which a node begins. -/
theorem SView.first (h : SView cfg fp ls ds (pre ++ t :: post)) (hok : ∀ x ∈ pre ++ t :: post, x.OK) (bmi : Bool) :
    ls.firstLabelPos bmi (ds.length + pre.length) = some (itemN pre) := by
  have hp : ∀ x ∈ pre, x.OK := fun x hx => hok x (by simp [hx])
  have he := h.lo.bitsOf_eq
  have hsplit : (pre ++ t :: post).flatMap Grp.louds = pre.flatMap Grp.louds ++ t.louds ++ post.flatMap Grp.louds := by simp
  obtain ⟨l1, l2⟩ := louds_flat pre hp
  have h0 : (bitsOf ls.loudsVec.bv.bits)[0]? = some true := by
    rw [he]
    cases pre with
    | nil => simp [Grp.louds]
    | cons a pre => simp [Grp.louds]
  have hones := h.lo.ones
  obtain ⟨-, l4⟩ := louds_flat _ hok
  rw [l4] at hones
  unfold LoudsSparse.firstLabelPos usub
  rw [h.dn, if_pos (by omega)]
  simp only [Option.bind_eq_bind, Option.bind_some]
  rw [show ds.length + pre.length + 1 - ds.length = pre.length + 1 by omega]
  obtain ⟨p, e1, e2⟩ := SelectVector.select_spec bmi ls.loudsVec h.lowf (pre.length + 1) (by omega) (by rw [hones]; simp) h0
  rw [e1]
  congr 1
  refine e2.unique ⟨?_, ?_⟩
  · rw [he, hsplit, List.append_assoc, List.append_assoc, ← l1, List.getElem?_append_right (Nat.le_refl _)]
    simp [Grp.louds]
  · rw [he, hsplit, List.append_assoc, List.append_assoc, ← l1, List.take_left' rfl]
    unfold ones at l2
    rw [l2]

theorem SView.item_lt (h : SView cfg fp ls ds (pre ++ t :: post)) {ip iq : List Item} {i : Item} (e : t.items = ip ++ i :: iq) :
    ((pre ++ t :: post).flatMap Grp.items)[itemN pre + ip.length]? = some i := by
  rw [List.flatMap_append, List.flatMap_cons, List.getElem?_append_right (by simp [itemN])]
  simp [itemN, e]

theorem SView.label (h : SView cfg fp ls ds (pre ++ t :: post)) {ip iq : List Item} {i : Item} (e : t.items = ip ++ i :: iq) :
    ls.labelVec.getLabel (itemN pre + ip.length) = some i.label := by
  have hi := h.item_lt e
  obtain ⟨hlt, hv⟩ := List.getElem?_eq_some_iff.mp hi
  unfold LabelVector.getLabel
  rw [h.lab, List.getElem?_append_left (by simpa using hlt), List.getElem?_map, hi]
  rfl

theorem SView.hasChild (h : SView cfg fp ls ds (pre ++ t :: post)) {ip iq : List Item} {i : Item} (e : t.items = ip ++ i :: iq) :
    ls.hasChildVec.bv.isSet (itemN pre + ip.length) = some i.child := by
  have hi := h.item_lt e
  obtain ⟨hlt, hv⟩ := List.getElem?_eq_some_iff.mp hi
  rw [h.hc.isSet (by simpa using hlt), List.getElem_map, hv]

theorem SView.rank (h : SView cfg fp ls ds (pre ++ t :: post)) {ip iq : List Item} {i : Item} (e : t.items = ip ++ i :: iq) :
    ls.hasChildVec.rankSparse (itemN pre + ip.length) = some ((pre.flatMap Grp.children).length + (kids t.bd ip).length + (if i.child then 1 else 0)) := by
  have hi := h.item_lt e
  obtain ⟨hlt, -⟩ := List.getElem?_eq_some_iff.mp hi
  have hsp : ((pre ++ t :: post).flatMap Grp.items).map Item.child = (pre.flatMap Grp.items ++ ip).map Item.child ++ [i.child] ++ (iq ++ post.flatMap Grp.items).map Item.child := by
    simp [e]
  have hl : itemN pre + ip.length + 1 = ((pre.flatMap Grp.items ++ ip).map Item.child).length + 1 := by simp [itemN]
  rw [h.hc.rankSparse (by simpa using hlt), hsp, hl, take_mid _ _ _ 1 (by simp), ones_append, flatMap_children_length, kids_length]
  unfold ones
  rw [List.count, List.countP_map, List.countP_append]
  have : ∀ l : List Item, l.countP ((· == true) ∘ Item.child) = l.countP Item.child := by
    intro l
    congr 1
    funext x
    simp
  rw [this, this]
  cases i.child <;> simp

/-- The number of the child behind an item. -/
theorem SView.child (h : SView cfg fp ls ds (pre ++ t :: post)) {ip iq : List Item} {i : Item} (e : t.items = ip ++ i :: iq) (hc : i.child = true) :
    ls.childNodeID (itemN pre + ip.length) = some ((ds.flatMap Grp.children).length + (pre.flatMap Grp.children).length + (kids t.bd ip).length + 1) := by
  unfold LoudsSparse.childNodeID
  rw [h.rank e, hc, h.dc]
  simp
  omega

/-- The place of the suffix and value of a leaf. -/
theorem SView.leafPos (h : SView cfg fp ls ds (pre ++ t :: post)) {ip iq : List Item} {i : Item} (e : t.items = ip ++ i :: iq) (hc : i.child = false) :
    ls.suffixPos (itemN pre + ip.length) = some ((lvs pre).length + leafN ip) := by
  have hcnt : ∀ l : List Item, l.length = l.countP Item.child + leafN l := by
    intro l
    unfold leafN
    rw [List.length_eq_countP_add_countP Item.child]
    congr 2
    funext x
    cases x.child <;> simp
  have h1 := hcnt (pre.flatMap Grp.items)
  have h2 := hcnt ip
  unfold LoudsSparse.suffixPos usub
  rw [h.rank e, hc, lvs_length, flatMap_children_length, kids_length]
  simp only [Option.bind_eq_bind, Option.bind_some, Bool.false_eq_true, if_false]
  unfold itemN
  rw [if_pos (by omega)]
  congr 1
  omega

theorem firstTrue_false (n : Nat) (l : List Bool) : firstTrue (List.replicate n false ++ true :: l) = n := by
  induction n with
  | zero => rfl
  | succ n ih =>
    rw [List.replicate_succ, List.cons_append, firstTrue, List.findIdx_cons]
    show firstTrue (List.replicate n false ++ true :: l) + 1 = _
    rw [ih]

/-- The number of items of a node. -/
theorem SView.size (h : SView cfg fp ls ds (pre ++ t :: post)) (hok : ∀ x ∈ pre ++ t :: post, x.OK) (h2 : 2 ≤ t.items.length ∨ pre = []) :
    ls.nodeSize (itemN pre) = some t.items.length := by
  have hp : ∀ x ∈ pre, x.OK := fun x hx => hok x (by simp [hx])
  have ht : t.OK := hok t (by simp)
  have hpo : ∀ x ∈ post, x.OK := fun x hx => hok x (by simp [hx])
  have he := h.lo.bitsOf_eq
  have hsplit : (pre ++ t :: post).flatMap Grp.louds = pre.flatMap Grp.louds ++ t.louds ++ post.flatMap Grp.louds := by simp
  obtain ⟨l1, -⟩ := louds_flat pre hp
  obtain ⟨l3, -⟩ := louds_flat post hpo
  have hll := ht.louds_length
  have hne : t.items.length ≠ 0 := fun e => ht.items_ne (List.eq_nil_of_length_eq_zero e)
  have hnum : ls.loudsVec.bv.numBits = itemN pre + t.items.length + itemN post := by
    rw [h.lon, hsplit, List.length_append, List.length_append, l1, hll, l3]
  have hb := BitVector.numWordsOf_bounds ls.loudsVec.bv.numBits
  have hw := h.lowf.words
  have hww : ls.loudsVec.bv.numWords = numWordsOf ls.loudsVec.bv.numBits := rfl
  unfold LoudsSparse.nodeSize
  rw [BitVector.distanceToNextSetBit_spec ls.loudsVec.bv (by rw [hw, hww]) (itemN pre) (by omega) (by
    rw [hww]
    rcases h2 with h2 | rfl
    · omega
    · have : itemN [] = 0 := rfl
      omega)]
  have hd : (bitsOf ls.loudsVec.bv.bits).drop (itemN pre + 1) =
      List.replicate (t.items.length - 1) false ++ (post.flatMap Grp.louds ++ List.replicate (64 * ls.loudsVec.bv.bits.length - ((pre ++ t :: post).flatMap Grp.louds).length) false) := by
    rw [he, hsplit, List.append_assoc, List.append_assoc, ← l1, List.drop_length_add_append]
    simp [Grp.louds]
  rw [hd]
  cases hpost : post with
  | nil =>
    rw [if_neg (by simp)]
    rw [hnum, hpost]
    have : itemN [] = 0 := rfl
    congr 1
    omega
  | cons u us =>
    rw [if_pos (by simp [Grp.louds])]
    have : ∀ z, (u :: us).flatMap Grp.louds ++ z = true :: (List.replicate (u.items.length - 1) false ++ us.flatMap Grp.louds ++ z) := by
      intro z
      simp [Grp.louds]
    rw [this, firstTrue_false]
    congr 1
    omega

/-- Nodes with a single item have no terminator, others begin with the label of the terminator only if they have one. -/
theorem Grp.Good.first_label {t : Grp} (h : t.Good) {i : Item} {is : List Item} (e : t.items = i :: is) : 
    (is = [] → i.term = false) ∧ (is ≠ [] → (i.label = 0xff ↔ i.term = true)) := by
  by_cases h2 : 2 ≤ t.kvs.length
  · obtain ⟨i', is', e', hne, -, h3, h4⟩ := Grp.Two.first ⟨h, h2⟩
    rw [e] at e'
    simp only [List.cons.injEq] at e'
    obtain ⟨rfl, rfl⟩ := e'
    refine ⟨fun h => absurd h hne, fun _ => ⟨fun h => ?_, fun h => (h3 h).1⟩⟩
    cases ht : i.term with
    | true => rfl
    | false => exact absurd h (h4 ht)
  · have hb : ∀ x ∈ t.kvs, t.d < x.1.length := h.big.resolve_left h2
    have hbd : t.bd = t.d := by
      apply Grp.bd_stop
      cases hs : sameAt t.d t.kvs with
      | false => rfl
      | true => exact absurd (sameAt_iff hs).1 h2
    have hends : t.ends = [] := by
      rcases t.ends_cases with e | ⟨x, e⟩
      · exact e
      · have := h.ends_len (x := x) (by rw [e]; simp)
        have := hb x this.1
        omega
    have hnt : ∀ j ∈ t.items, j.term = false := by
      intro j hj
      rcases h.item hj with ⟨-, -, x, hx, -⟩ | ⟨h, -⟩
      · rw [hends] at hx; simp at hx
      · exact h
    have hl : t.items.length ≤ t.kvs.length := by
      have hfl := t.items_flat
      have : ∀ l : List Item, (∀ j ∈ l, j.kvs ≠ []) → l.length ≤ (l.flatMap (·.kvs)).length := by
        intro l
        induction l with
        | nil => simp
        | cons a l ih =>
          intro hl
          have := ih (fun j hj => hl j (List.mem_cons_of_mem _ hj))
          have ha : a.kvs.length ≠ 0 := fun e => hl a (by simp) (List.eq_nil_of_length_eq_zero e)
          simp only [List.flatMap_cons, List.length_append, List.length_cons]
          omega
      have := this t.items (fun j hj => h.item_ne hj)
      rwa [hfl] at this
    refine ⟨fun _ => hnt i (by rw [e]; simp), fun hne => ?_⟩
    exfalso
    rw [e] at hl
    have : is.length ≠ 0 := fun e => hne (List.eq_nil_of_length_eq_zero e)
    simp at hl
    omega

theorem indexByte_mid {a b : Bytes} {k : UInt8} (h : ∀ x ∈ a, x ≠ k) : indexByte (a ++ k :: b) k = some a.length := by
  unfold indexByte
  induction a with
  | nil => rw [List.nil_append, List.findIdx?_cons]; simp
  | cons x a ih =>
    have := ih (fun y hy => h y (List.mem_cons_of_mem _ hy))
    have hx := h x (by simp)
    rw [List.cons_append, List.findIdx?_cons]
    simp [hx, this]

theorem indexByte_none {a : Bytes} {k : UInt8} (h : ∀ x ∈ a, x ≠ k) : indexByte a k = none := by
  unfold indexByte
  rw [List.findIdx?_eq_none_iff]
  intro x hx
  simpa using h x hx

/-- The items of a node that are not terminators. -/
def Grp.body (t : Grp) : List Item := t.items.filter (fun i => !i.term)

/-- `skipTerminator` skips the terminator. -/
theorem SView.skip (h : SView cfg fp ls ds (pre ++ t :: post)) (ht : t.Good) :
    ∃ z : List Item, t.items = z ++ t.body ∧ (∀ i ∈ z, i.term = true) ∧ ls.labelVec.skipTerminator (itemN pre) t.items.length = some (itemN pre + z.length, t.body.length) := by
  have hs := ht.items_sorted
  have hl : ∀ ip i iq, t.items = ip ++ i :: iq → ls.labelVec.labels[itemN pre + ip.length]? = some i.label := fun ip i iq e => h.label e
  unfold Grp.body
  cases e : t.items with
  | nil => exact absurd e ht.items_ne
  | cons i is =>
    rw [e, List.pairwise_cons] at hs
    obtain ⟨f1, f2⟩ := ht.first_label e
    have hfil : is.filter (fun i => !i.term) = is := by
      rw [List.filter_eq_self]
      intro j hj
      simp [(hs.1 j hj).1]
    have h0 := hl [] i is e
    unfold LabelVector.skipTerminator
    cases hi : i.term with
    | true =>
      have hne : is ≠ [] := by
        intro hc
        rw [f1 hc] at hi
        simp at hi
      have : is.length ≠ 0 := fun e => hne (List.eq_nil_of_length_eq_zero e)
      refine ⟨[i], by simp [hi, hfil], by simp [hi], ?_⟩
      rw [if_pos (by simp; omega)]
      simp only [List.length_nil, Nat.add_zero] at h0
      rw [h0]
      simp only [Option.bind_eq_bind, Option.bind_some]
      rw [if_pos (show i.label = labelTerminator from (f2 hne).2 hi)]
      simp [hi, hfil]
    | false =>
      refine ⟨[], by simp [hi, hfil], by simp, ?_⟩
      by_cases hne : is = []
      · rw [if_neg (by simp [hne])]
        simp [hi, hne]
      · have : is.length ≠ 0 := fun e => hne (List.eq_nil_of_length_eq_zero e)
        rw [if_pos (by simp; omega)]
        simp only [List.length_nil, Nat.add_zero] at h0
        rw [h0]
        simp only [Option.bind_eq_bind, Option.bind_some]
        rw [if_neg (by
          intro hc
          have := (f2 hne).1 hc
          rw [hi] at this
          simp at this)]
        simp [hi, hfil]

theorem SView.labels_slice (h : SView cfg fp ls ds (pre ++ t :: post)) {z b w : List Item} (e : t.items = z ++ b ++ w) :
    slice ls.labelVec.labels (itemN pre + z.length) (itemN pre + z.length + b.length) = some (b.map (·.label)) ∧ itemN pre + z.length + b.length ≤ ls.labelVec.labels.length := by
  have hlab : ls.labelVec.labels = ((pre.flatMap Grp.items).map (·.label) ++ z.map (·.label)) ++ b.map (·.label) ++ (w.map (·.label) ++ (post.flatMap Grp.items).map (·.label) ++ [0]) := by
    rw [h.lab]
    simp [e]
  have hl : itemN pre + z.length = ((pre.flatMap Grp.items).map (·.label) ++ z.map (·.label)).length := by simp [itemN]
  have hle : itemN pre + z.length + b.length ≤ ls.labelVec.labels.length := by
    rw [hl, hlab]
    simp only [List.length_append, List.length_map]
    omega
  refine ⟨?_, hle⟩
  rw [slice, if_pos ⟨by omega, hle⟩, hl, hlab]
  rw [take_mid _ _ _ _ (by simp), List.drop_left' rfl, List.take_of_length_le (by simp)]

/-- `Search` finds the item with a label. -/
theorem SView.search_hit (h : SView cfg fp ls ds (pre ++ t :: post)) (ht : t.Good) {ip iq : List Item} {i : Item} (e : t.items = ip ++ i :: iq) (hi : i.term = false) :
    ls.labelVec.search i.label (itemN pre) t.items.length = some (itemN pre + ip.length, true) := by
  obtain ⟨z, e1, e2, e3⟩ := h.skip ht
  have hs := ht.items_sorted
  obtain ⟨s1, s2⟩ := h.labels_slice (z := z) (b := t.body) (w := []) (by simpa using e1)
  unfold LabelVector.search
  rw [e3]
  simp only [Option.bind_eq_bind, Option.bind_some]
  rw [Nat.min_eq_left s2, s1]
  simp only [Option.bind_some]
  -- the terminator is before the item
  obtain ⟨b, eb⟩ : ∃ b, ip = z ++ b := by
    have h3 : z.length ≤ ip.length := by
      by_contra hc
      have h4 : (z ++ t.body)[ip.length]? = some i := by rw [← e1, e]; simp
      rw [List.getElem?_append_left (by omega)] at h4
      have := e2 i (List.mem_of_getElem? h4)
      rw [hi] at this
      simp at this
    have h5 : z <+: ip := by
      rw [List.prefix_iff_eq_take]
      have := congrArg (List.take z.length) (e1.symm.trans e)
      rw [List.take_left' rfl, List.take_append_of_le_length h3] at this
      exact this
    obtain ⟨b, hb⟩ := h5
    exact ⟨b, hb.symm⟩
  have ebody : t.body = b ++ i :: iq := by
    rw [e, eb, List.append_assoc] at e1
    exact (List.append_cancel_left e1).symm
  rw [ebody, List.map_append, List.map_cons, indexByte_mid]
  · simp [eb]
    omega
  · intro x hx
    rw [List.mem_map] at hx
    obtain ⟨j, hj, rfl⟩ := hx
    have hjt : j.term = false := by
      have : j ∈ t.body := by rw [ebody]; simp [hj]
      unfold Grp.body at this
      rw [List.mem_filter] at this
      simpa using this.2
    rw [e, eb, List.append_assoc, List.pairwise_append, List.pairwise_append] at hs
    have := (hs.2.1.2.2 j hj i (by simp)).2 hjt
    intro hc
    rw [hc] at this
    exact absurd this (UInt8.lt_irrefl _)

theorem SView.search_miss (h : SView cfg fp ls ds (pre ++ t :: post)) (ht : t.Good) (c : UInt8) (hm : ∀ i ∈ t.items, i.term = false → i.label ≠ c) :
    ∃ p, ls.labelVec.search c (itemN pre) t.items.length = some (p, false) := by
  obtain ⟨z, e1, e2, e3⟩ := h.skip ht
  obtain ⟨s1, s2⟩ := h.labels_slice (z := z) (b := t.body) (w := []) (by simpa using e1)
  unfold LabelVector.search
  rw [e3]
  simp only [Option.bind_eq_bind, Option.bind_some]
  rw [Nat.min_eq_left s2, s1]
  simp only [Option.bind_some]
  rw [indexByte_none]
  · exact ⟨_, rfl⟩
  · intro x hx
    rw [List.mem_map] at hx
    obtain ⟨j, hj, rfl⟩ := hx
    unfold Grp.body at hj
    rw [List.mem_filter] at hj
    exact hm j hj.1 (by simpa using hj.2)

end

end Surf
