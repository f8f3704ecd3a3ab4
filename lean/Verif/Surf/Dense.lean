import Verif.Surf.View

/-! The bitmaps of the dense levels. -/

set_option linter.unusedSimpArgs false

namespace Surf

/-- The 256 bits of a node for the items with a property. -/
def mapBits (f : Item → Bool) (is : List Item) : List Bool :=
  (List.range 256).map fun c => is.any fun i => f i && !i.term && i.label.toNat == c

/-- Is there an item for the end of a key? -/
def Grp.hasEnd (t : Grp) : Bool := t.items.any (·.term)

/-- The bits of `n` nodes for items tagged with the number of their node. -/
def bitsFor (n : Nat) (P : List (Nat × Item)) (f : Item → Bool) : List Bool :=
  (List.range (256 * n)).map fun p => P.any fun e => f e.2 && !e.2.term && e.1 * 256 + e.2.label.toNat == p

/-- The terminator bits of `n` nodes. -/
def endsFor (n : Nat) (P : List (Nat × Item)) : List Bool := (List.range n).map fun k => P.any fun e => e.2.term && e.1 == k

/-- The items of some nodes, tagged. -/
def tag : Nat → List Grp → List (Nat × Item)
  | _, [] => []
  | k, t :: ns => t.items.map (fun i => (k, i)) ++ tag (k + 1) ns

/-- The bitmaps after the items `P`. -/
structure DInv (d : DenseLevel) (n : Nat) (P : List (Nat × Item)) : Prop where
  lab : Holds d.labels (bitsFor n P (fun _ => true))
  hc : Holds d.hasChild (bitsFor n P Item.child)
  ip : Holds d.isPrefix (endsFor n P)
  len : d.labels.length = 4 * n

theorem dinv_init (l : Level) : DInv (initDenseVectors l) l.nodeCount [] := by
  have h1 : ∀ f, bitsFor l.nodeCount [] f = List.replicate (256 * l.nodeCount) false := by
    intro f; unfold bitsFor; simp [List.map_const']
  have h2 : endsFor l.nodeCount [] = List.replicate l.nodeCount false := by unfold endsFor; simp [List.map_const']
  unfold initDenseVectors
  refine ⟨?_, ?_, ?_, by simp; omega⟩
  · rw [h1]
    have := (Holds.replicate_zero (l.nodeCount * (256 / 64))).append_false (256 * l.nodeCount) (by simp; omega)
    simpa using this
  · rw [h1]
    have := (Holds.replicate_zero (l.nodeCount * (256 / 64))).append_false (256 * l.nodeCount) (by simp; omega)
    simpa using this
  · rw [h2]
    have := (Holds.replicate_zero (if l.nodeCount % 64 ≠ 0 then l.nodeCount / 64 + 1 else l.nodeCount / 64)).append_false l.nodeCount
      (by simp only [List.length_nil, List.length_replicate]; split <;> omega)
    simpa using this

theorem map_range_set (n p : Nat) (f g : Nat → Bool) (h : ∀ q, q < n → g q = (f q || q == p)) : ((List.range n).map f).set p true = (List.range n).map g := by
  apply List.ext_getElem?
  intro q
  by_cases hq : q < n
  · rw [List.getElem?_map, List.getElem?_range hq]
    by_cases e : p = q
    · subst e
      rw [List.getElem?_set_self (by simpa using hq)]
      simp [h p hq]
    · rw [List.getElem?_set_ne e, List.getElem?_map, List.getElem?_range hq]
      have : (q == p) = false := by simpa using fun h => e h.symm
      simp [h q hq, this]
  · rw [List.getElem?_eq_none (by simp; omega), List.getElem?_eq_none (by simp; omega)]

theorem map_range_congr (n : Nat) (f g : Nat → Bool) (h : ∀ q, q < n → g q = f q) : (List.range n).map f = (List.range n).map g := by
  apply List.map_congr_left
  intro q hq
  exact (h q (List.mem_range.1 hq)).symm

/-- A label (with its has-child bit) is entered. -/
theorem DInv.set {d : DenseLevel} {n : Nat} {P : List (Nat × Item)} (h : DInv d n P) {l : Level} {k pos : Nat} {i : Item} (hk : k < n)
    (h1 : l.labels[pos]? = some i.label) (h2 : readBit l.hasChild pos = some i.child) (hi : i.term = false) :
    ∃ d', setLabelAndHasChildVec l k pos d = some d' ∧ DInv d' n (P ++ [(k, i)]) := by
  have hlt : i.label.toNat < 256 := i.label.toNat_lt
  have hp : k * denseFanout + i.label.toNat < 256 * n := by unfold denseFanout; omega
  obtain ⟨ws, e1, e2, e3⟩ := h.lab.setBit (k * denseFanout + i.label.toNat) (by simpa [bitsFor] using hp)
  have e3' : Holds ws (bitsFor n (P ++ [(k, i)]) (fun _ => true)) := by
    unfold bitsFor at e3 ⊢
    rw [map_range_set _ _ _ _ (fun q _ => ?_)] at e3
    · exact e3
    · rw [List.any_append]
      simp [hi, denseFanout, eq_comm, Bool.beq_eq_decide_eq]
  have hip : endsFor n (P ++ [(k, i)]) = endsFor n P := by
    unfold endsFor
    apply map_range_congr
    intro q _
    rw [List.any_append]
    simp [hi]
  unfold setLabelAndHasChildVec
  rw [h1]
  simp only [Option.bind_eq_bind, Option.bind_some]
  rw [e1]
  simp only [Option.bind_some]
  rw [h2]
  simp only [Option.bind_some]
  cases hc : i.child with
  | false =>
    refine ⟨_, rfl, e3', ?_, by rw [hip]; exact h.ip, by rw [← h.len]; exact e2⟩
    have : bitsFor n (P ++ [(k, i)]) Item.child = bitsFor n P Item.child := by
      unfold bitsFor
      apply map_range_congr
      intro q _
      rw [List.any_append]
      simp [hc]
    rw [this]
    exact h.hc
  | true =>
    obtain ⟨ws2, f1, f2, f3⟩ := h.hc.setBit (k * denseFanout + i.label.toNat) (by simpa [bitsFor] using hp)
    rw [f1]
    refine ⟨_, rfl, e3', ?_, by rw [hip]; exact h.ip, by rw [← h.len]; exact e2⟩
    unfold bitsFor at f3 ⊢
    rw [map_range_set _ _ _ _ (fun q _ => ?_)] at f3
    · exact f3
    · rw [List.any_append]
      simp [hi, hc, denseFanout, eq_comm, Bool.beq_eq_decide_eq]

/-- The mark for the end of a key is entered. -/
theorem DInv.mark {d : DenseLevel} {n : Nat} {P : List (Nat × Item)} (h : DInv d n P) {k : Nat} {i : Item} (hk : k < n) (hi : i.term = true) :
    ∃ d', setIsPrefix k d = some d' ∧ DInv d' n (P ++ [(k, i)]) := by
  obtain ⟨ws, e1, e2, e3⟩ := h.ip.setBit k (by simpa [endsFor] using hk)
  have hb : ∀ f, bitsFor n (P ++ [(k, i)]) f = bitsFor n P f := by
    intro f
    unfold bitsFor
    apply map_range_congr
    intro q _
    rw [List.any_append]
    simp [hi]
  refine ⟨{ d with isPrefix := ws }, by unfold setIsPrefix; simp only [Option.bind_eq_bind]; rw [e1]; rfl, by rw [hb]; exact h.lab, by rw [hb]; exact h.hc, ?_, h.len⟩
  unfold endsFor at e3 ⊢
  rw [map_range_set _ _ _ _ (fun q _ => ?_)] at e3
  · exact e3
  · rw [List.any_append]
    simp [hi, eq_comm, Bool.beq_eq_decide_eq]

/-- A node that can stand in a dense level. -/
structure Grp.Two (t : Grp) : Prop extends t.Good where
  two : 2 ≤ t.kvs.length

/-- Only the first item of a node can be a terminator; if it carries the label of the terminator and has no child, it is one. -/
theorem Grp.Two.first {t : Grp} (h : t.Two) : ∃ i is, t.items = i :: is ∧ is ≠ [] ∧ (∀ j ∈ is, j.term = false) ∧
    (i.term = true → i.label = 0xff ∧ i.child = false) ∧ (i.term = false → i.label ≠ 0xff) := by
  have h2 := h.two_items h.two
  have hl := h.labels_sorted
  have he := t.items_eq
  have hnt : ∀ j ∈ (runs t.bd t.rest).map (groupItem t.bd), j.term = false := by
    intro j hj
    rw [List.mem_map] at hj
    obtain ⟨g, -, rfl⟩ := hj
    rfl
  rcases t.ends_cases with e | ⟨x, e⟩
  · rw [e] at he
    simp only [List.map_nil, List.nil_append] at he
    rw [← he] at hl hnt
    match hi : t.items with
    | [] => rw [hi] at h2; simp at h2
    | [a] => rw [hi] at h2; simp at h2
    | a :: b :: is =>
      rw [hi] at hl hnt
      refine ⟨a, b :: is, rfl, by simp, fun j hj => hnt j (List.mem_cons_of_mem _ hj), ?_, ?_⟩
      · intro ht; rw [hnt a (by simp)] at ht; simp at ht
      · intro _ hc
        rw [List.pairwise_cons] at hl
        have := hl.1 b (by simp)
        rw [hc] at this
        have h3 := b.label.toNat_lt
        rw [UInt8.lt_iff_toNat_lt] at this
        simp at this
        omega
  · rw [e] at he
    simp only [List.map_cons, List.map_nil, List.cons_append, List.nil_append] at he
    refine ⟨⟨0xff, true, [x]⟩, _, he, ?_, hnt, fun _ => ⟨rfl, rfl⟩, fun h => by simp at h⟩
    intro hc
    rw [he, hc] at h2
    simp at h2

/-- What the level tells about the items from a position on. -/
def Reads (l : Level) (pos : Nat) (is : List Item) (lo : List Bool) : Prop :=
  ∀ m (i : Item), is[m]? = some i → l.labels[pos + m]? = some i.label ∧ readBit l.hasChild (pos + m) = some i.child ∧ ∃ b, lo[m]? = some b ∧ readBit l.louds (pos + m) = some b

theorem Reads.tail {l : Level} {pos : Nat} {is : List Item} {lo : List Bool} {i : Item} {b : Bool} (h : Reads l pos (i :: is) (b :: lo)) : Reads l (pos + 1) is lo := by
  intro m j hj
  have := h (m + 1) j (by simpa using hj)
  rw [show pos + 1 + m = pos + (m + 1) by omega]
  simpa using this

theorem Reads.drop {l : Level} {pos : Nat} {is js : List Item} {lo lp : List Bool} (hl : is.length = lo.length) (h : Reads l pos (is ++ js) (lo ++ lp)) : Reads l (pos + is.length) js lp := by
  intro m j hj
  have := h (is.length + m) j (by rw [List.getElem?_append_right (by omega)]; simpa using hj)
  rw [show pos + is.length + m = pos + (is.length + m) by omega]
  obtain ⟨h1, h2, b, h3, h4⟩ := this
  refine ⟨h1, h2, b, ?_, h4⟩
  rw [List.getElem?_append_right (by omega)] at h3
  rw [← h3]
  congr 1
  omega

/-- The items of a node after its first. -/
theorem loop_items {l : Level} {n k : Nat} (hk : k < n) (r : Nat) : ∀ (is : List Item) (pos : Nat) (d : DenseLevel) (P : List (Nat × Item)) (js : List Item) (lp : List Bool), DInv d n P →
    (∀ i ∈ is, i.term = false) → Reads l pos (is ++ js) (List.replicate is.length false ++ lp) →
    ∃ d', denseLoop l (is.length + r) pos k d = denseLoop l r (pos + is.length) k d' ∧ DInv d' n (P ++ is.map (fun i => (k, i))) := by
  intro is
  induction is with
  | nil => intro pos d P js lp h _ _; exact ⟨d, by simp, by simpa using h⟩
  | cons i is ih =>
    intro pos d P js lp h ht hr
    obtain ⟨h1, h2, b, h3, h4⟩ := hr 0 i (by simp)
    simp only [List.length_cons, List.replicate_succ, List.cons_append, List.getElem?_cons_zero, Option.some.injEq] at h3
    subst h3
    rw [Nat.add_zero] at h1 h2 h4
    obtain ⟨d1, e1, e2⟩ := h.set hk h1 h2 (ht i (by simp))
    obtain ⟨d2, f1, f2⟩ := ih (pos + 1) d1 (P ++ [(k, i)]) js lp e2 (fun j hj => ht j (List.mem_cons_of_mem _ hj))
      (by
        rw [List.length_cons, List.replicate_succ] at hr
        exact hr.tail)
    refine ⟨d2, ?_, by simpa using f2⟩
    rw [List.length_cons, show is.length + 1 + r = (is.length + r) + 1 by omega, denseLoop]
    unfold isStartOfNode
    rw [h4]
    simp only [Option.bind_eq_bind, Option.bind_some, Bool.false_eq_true, if_false]
    rw [e1]
    simp only [Option.bind_some]
    rw [f1, show pos + 1 + is.length = pos + (is.length + 1) by omega]

/-- The first item of a node. -/
theorem first_item {l : Level} {n k pos : Nat} (hk : k < n) {d : DenseLevel} {P : List (Nat × Item)} (h : DInv d n P) {i : Item}
    (h1 : l.labels[pos]? = some i.label) (h2 : readBit l.hasChild pos = some i.child) (ht : i.term = true → i.label = 0xff ∧ i.child = false)
    (hf : i.term = false → i.label ≠ 0xff) : ∃ d', denseFirstItem l k pos d = some d' ∧ DInv d' n (P ++ [(k, i)]) := by
  unfold denseFirstItem isTerminator
  rw [h1]
  simp only [Option.bind_eq_bind, Option.bind_some]
  cases e : i.term with
  | true =>
    obtain ⟨g1, g2⟩ := ht e
    rw [if_pos (by rw [g1]; rfl), h2, g2]
    simp only [Option.bind_some, Option.pure_def, Bool.not_false, if_true]
    exact h.mark hk e
  | false =>
    rw [if_neg (by unfold labelTerminator; exact hf e)]
    simp only [Option.pure_def, Option.bind_some, Bool.false_eq_true, if_false]
    exact h.set hk h1 h2 e

/-- The nodes after the first. -/
theorem loop_nodes {l : Level} {n : Nat} : ∀ (ns : List Grp) (k pos : Nat) (d : DenseLevel) (P : List (Nat × Item)), DInv d n P → k + ns.length < n →
    (∀ t ∈ ns, t.Two) → Reads l pos (ns.flatMap Grp.items) (ns.flatMap Grp.louds) →
    ∃ d', denseLoop l (ns.flatMap Grp.items).length pos k d = some d' ∧ DInv d' n (P ++ tag (k + 1) ns) := by
  intro ns
  induction ns with
  | nil => intro k pos d P h _ _ _; exact ⟨d, rfl, by simpa [tag] using h⟩
  | cons t ns ih =>
    intro k pos d P h hk ht hr
    obtain ⟨i, is, e1, -, e2, e3, e4⟩ := (ht t (by simp)).first
    have hlo : t.louds = true :: List.replicate is.length false := by unfold Grp.louds; rw [e1]; simp
    rw [List.flatMap_cons, List.flatMap_cons, hlo, e1] at hr
    obtain ⟨h1, h2, b, h3, h4⟩ := hr 0 i (by simp)
    simp only [List.cons_append, List.getElem?_cons_zero, Option.some.injEq] at h3
    subst h3
    rw [Nat.add_zero] at h1 h2 h4
    simp only [List.length_cons] at hk
    obtain ⟨d1, f1, f2⟩ := first_item (k := k + 1) (by omega) h h1 h2 e3 e4
    obtain ⟨d2, g1, g2⟩ := loop_items (k := k + 1) (by omega) (ns.flatMap Grp.items).length is (pos + 1) d1 _ _ _ f2 e2 hr.tail
    obtain ⟨d3, i1, i2⟩ := ih (k + 1) (pos + 1 + is.length) d2 _ g2 (by omega) (fun t ht' => ht t (List.mem_cons_of_mem _ ht')) (hr.tail.drop (by simp))
    refine ⟨d3, ?_, ?_⟩
    · rw [List.flatMap_cons, e1, List.length_append, List.length_cons, show is.length + 1 + (ns.flatMap Grp.items).length = (is.length + (ns.flatMap Grp.items).length) + 1 by omega]
      rw [denseLoop]
      unfold isStartOfNode
      rw [h4]
      simp only [Option.bind_eq_bind, Option.bind_some, if_true]
      rw [f1]
      simp only [Option.bind_some]
      rw [g1, i1]
    · simpa [tag, e1] using i2

/-- The level is read as its items. -/
theorem reads_of {cfg : Config} {fp : Bytes → Word} {l : Level} {ns : List Grp} (h : LRep cfg fp l (ns.flatMap Grp.jtems) (ns.flatMap Grp.louds) ns) :
    Reads l 0 (ns.flatMap Grp.items) (ns.flatMap Grp.louds) := by
  have hj : (ns.flatMap Grp.jtems).map (·.2) = ns.flatMap Grp.items := by
    rw [List.map_flatMap]
    congr 1
    funext t
    simp [Grp.jtems, Function.comp_def]
  intro m i hi
  rw [← hj, List.getElem?_map, Option.map_eq_some_iff] at hi
  obtain ⟨j, hi, rfl⟩ := hi
  have hm : m < (ns.flatMap Grp.jtems).length := by
    rcases Nat.lt_or_ge m (ns.flatMap Grp.jtems).length with h | h
    · exact h
    · rw [List.getElem?_eq_none h] at hi; simp at hi
  have hl : m < (ns.flatMap Grp.louds).length := by rw [h.b.lol, List.length_map]; exact hm
  rw [Nat.zero_add]
  refine ⟨?_, ?_, (ns.flatMap Grp.louds)[m], List.getElem?_eq_getElem hl, h.b.lo.readBit m hl⟩
  · rw [h.b.labels, List.getElem?_map, hi]; rfl
  · have := h.b.hc.readBit m (by rw [List.length_map]; exact hm)
    rw [this]
    simp only [List.getElem_map, Option.some.injEq]
    rw [List.getElem?_eq_getElem hm, Option.some.injEq] at hi
    rw [hi]

/-- The bitmaps of a level. -/
structure DRepl (d : DenseLevel) (ns : List Grp) : Prop where
  lab : Holds d.labels (ns.flatMap fun t => mapBits (fun _ => true) t.items)
  hc : Holds d.hasChild (ns.flatMap fun t => mapBits Item.child t.items)
  ip : Holds d.isPrefix (ns.map Grp.hasEnd)
  len : d.labels.length * 64 = ns.length * 256

theorem mapBits_length (f : Item → Bool) (is : List Item) : (mapBits f is).length = 256 := by simp [mapBits]

theorem tag_ge : ∀ (ns : List Grp) (k : Nat), ∀ e ∈ tag k ns, k ≤ e.1 := by
  intro ns
  induction ns with
  | nil => intro k e he; simp [tag] at he
  | cons t ns ih =>
    intro k e he
    rw [tag, List.mem_append] at he
    rcases he with he | he
    · rw [List.mem_map] at he
      obtain ⟨i, -, rfl⟩ := he
      exact Nat.le_refl _
    · have := ih (k + 1) e he
      omega

theorem tag_bits_aux (f : Item → Bool) : ∀ (ns : List Grp) (k : Nat),
    ((List.range (256 * ns.length)).map fun p => (tag k ns).any fun e => f e.2 && !e.2.term && e.1 * 256 + e.2.label.toNat == 256 * k + p) =
      ns.flatMap fun t => mapBits f t.items := by
  intro ns
  induction ns with
  | nil => intro k; rfl
  | cons t ns ih =>
    intro k
    rw [List.length_cons, show 256 * (ns.length + 1) = 256 + 256 * ns.length by omega, List.range_add, List.map_append, List.flatMap_cons]
    congr 1
    · unfold mapBits
      apply map_range_congr
      intro p hp
      rw [tag, List.any_append]
      have h2 : ((tag (k + 1) ns).any fun e => f e.2 && !e.2.term && e.1 * 256 + e.2.label.toNat == 256 * k + p) = false := by
        rw [List.any_eq_false]
        intro e he
        have := tag_ge ns (k + 1) e he
        have hne : (e.1 * 256 + e.2.label.toNat == 256 * k + p) = false := by
          rw [beq_eq_false_iff_ne]; omega
        rw [hne]; simp
      rw [h2, Bool.or_false, List.any_map]
      congr 1
      funext i
      simp only [Function.comp_def]
      congr 1
      have : (k * 256 + i.label.toNat = 256 * k + p) ↔ (i.label.toNat = p) := by omega
      rw [Bool.eq_iff_iff, beq_iff_eq, beq_iff_eq, this]
    · rw [List.map_map, ← ih (k + 1)]
      apply map_range_congr
      intro p hp
      simp only [Function.comp_def]
      rw [tag, List.any_append]
      have h2 : ((t.items.map (fun i => (k, i))).any fun e => f e.2 && !e.2.term && e.1 * 256 + e.2.label.toNat == 256 * k + (256 + p)) = false := by
        rw [List.any_eq_false]
        intro e he
        rw [List.mem_map] at he
        obtain ⟨i, -, rfl⟩ := he
        have := i.label.toNat_lt
        have hne : (k * 256 + i.label.toNat == 256 * k + (256 + p)) = false := by
          rw [beq_eq_false_iff_ne]; omega
        simp only [hne]; simp
      rw [h2, Bool.false_or, show 256 * (k + 1) + p = 256 * k + (256 + p) by omega]

theorem tag_bits (f : Item → Bool) (ns : List Grp) : bitsFor ns.length (tag 0 ns) f = ns.flatMap fun t => mapBits f t.items := by
  have := tag_bits_aux f ns 0
  simpa [bitsFor] using this

theorem tag_ends_aux : ∀ (ns : List Grp) (k : Nat), ((List.range ns.length).map fun p => (tag k ns).any fun e => e.2.term && e.1 == k + p) = ns.map Grp.hasEnd := by
  intro ns
  induction ns with
  | nil => intro k; rfl
  | cons t ns ih =>
    intro k
    rw [List.length_cons, show ns.length + 1 = 1 + ns.length by omega, List.range_add, List.map_append, List.map_cons]
    rw [show t.hasEnd :: ns.map Grp.hasEnd = [t.hasEnd] ++ ns.map Grp.hasEnd from rfl]
    congr 1
    · rw [List.range_one, List.map_cons, List.map_nil, tag, List.any_append]
      have h2 : ((tag (k + 1) ns).any fun e => e.2.term && e.1 == k + 0) = false := by
        rw [List.any_eq_false]
        intro e he
        have := tag_ge ns (k + 1) e he
        have hne : (e.1 == k + 0) = false := by
          rw [beq_eq_false_iff_ne]; omega
        rw [hne]; simp
      rw [h2, Bool.or_false, List.any_map]
      simp [Function.comp_def, Grp.hasEnd]
    · rw [List.map_map, ← ih (k + 1)]
      apply map_range_congr
      intro p hp
      simp only [Function.comp_def]
      rw [tag, List.any_append]
      have h2 : ((t.items.map (fun i => (k, i))).any fun e => e.2.term && e.1 == k + (1 + p)) = false := by
        rw [List.any_eq_false]
        intro e he
        rw [List.mem_map] at he
        obtain ⟨i, -, rfl⟩ := he
        have hne : (k == k + (1 + p)) = false := by
          rw [beq_eq_false_iff_ne]; omega
        simp only [hne]; simp
      rw [h2, Bool.false_or, show k + 1 + p = k + (1 + p) by omega]

theorem tag_ends (ns : List Grp) : endsFor ns.length (tag 0 ns) = ns.map Grp.hasEnd := by
  have := tag_ends_aux ns 0
  simpa [endsFor] using this

/-- The bitmaps of a level are those of its nodes. -/
theorem buildDenseLevel_spec {cfg : Config} {fp : Bytes → Word} {l : Level} {ns : List Grp} (h : LRep cfg fp l (ns.flatMap Grp.jtems) (ns.flatMap Grp.louds) ns)
    (hne : ns ≠ []) (ht : ∀ t ∈ ns, t.Two) : ∃ d, buildDenseLevel l = some d ∧ DRepl d ns := by
  have hr := reads_of h
  have hnum : l.numItems = (ns.flatMap Grp.items).length := by
    rw [Level.numItems, h.b.labels, List.length_map, List.length_flatMap, List.length_flatMap]
    simp [Grp.jtems]
  obtain ⟨t, ns, rfl⟩ : ∃ t ns', ns = t :: ns' := by
    cases ns with
    | nil => exact absurd rfl hne
    | cons t ns => exact ⟨t, ns, rfl⟩
  obtain ⟨i, is, e1, -, e2, e3, e4⟩ := (ht t (by simp)).first
  have hlo : t.louds = true :: List.replicate is.length false := by unfold Grp.louds; rw [e1]; simp
  have hinit := dinv_init l
  rw [h.n.nc] at hinit
  rw [List.flatMap_cons, List.flatMap_cons, hlo, e1] at hr
  obtain ⟨h1, h2, b, h3, h4⟩ := hr 0 i (by simp)
  rw [Nat.add_zero] at h1 h2
  obtain ⟨d1, f1, f2⟩ := first_item (k := 0) (by simp) hinit h1 h2 e3 e4
  obtain ⟨d2, g1, g2⟩ := loop_items (k := 0) (n := (t :: ns).length) (by simp) (ns.flatMap Grp.items).length is (0 + 1) d1 _ _ _ f2 e2 hr.tail
  obtain ⟨d3, i1, i2⟩ := loop_nodes ns 0 (0 + 1 + is.length) d2 _ g2 (by simp) (fun t ht' => ht t (List.mem_cons_of_mem _ ht')) (hr.tail.drop (by simp))
  refine ⟨d3, ?_, ?_⟩
  · unfold buildDenseLevel
    rw [hnum, List.flatMap_cons, e1, List.length_append, List.length_cons, if_neg (by omega)]
    simp only [Option.bind_eq_bind]
    rw [f1]
    simp only [Option.bind_some]
    rw [show is.length + 1 + (ns.flatMap Grp.items).length - 1 = is.length + (ns.flatMap Grp.items).length by omega, ← i1, ← g1]
  · have hP : [] ++ [(0, i)] ++ is.map (fun i => (0, i)) ++ tag (0 + 1) ns = tag 0 (t :: ns) := by
      rw [tag, e1]; simp
    rw [hP] at i2
    refine ⟨?_, ?_, ?_, ?_⟩
    · rw [← tag_bits]; exact i2.lab
    · rw [← tag_bits]; exact i2.hc
    · rw [← tag_ends]; exact i2.ip
    · rw [i2.len]; omega

end Surf
