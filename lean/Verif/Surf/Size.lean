import Verif.Surf.GetSpec
import Verif.Surf.BuiltOk
import Verif.Surf.IterBits

/-! How many nodes, items and leaves the trie has, and that the numbers of the filter fit their 32-bit fields. -/

set_option linter.unusedSimpArgs false

namespace Surf

/-- The sum of `f` over the nodes of `n` levels. -/
def wsum (f : Grp → Nat) (n : Nat) (t : Grp) : Nat := ((nodesIn t 0 n).map f).sum

theorem wsum_eq (f : Grp → Nat) (n : Nat) (t : Grp) : wsum f n t = ((List.range n).map (fun i => ((t.desc i).map f).sum)).sum := by
  unfold wsum nodesIn
  rw [← List.range_eq_range', List.map_flatMap]
  generalize List.range n = l
  induction l with
  | nil => rfl
  | cons a l ih => rw [List.flatMap_cons, List.sum_append, List.map_cons, List.sum_cons, ih]

theorem wsum_children (f : Grp → Nat) (n : Nat) (cs : List Grp) : ((List.range n).map (fun i => ((cs.flatMap (Grp.desc i)).map f).sum)).sum = (cs.map (wsum f n)).sum := by
  induction cs with
  | nil => simp [List.map_const', List.sum_replicate_nat]
  | cons c cs ih =>
    simp only [List.flatMap_cons, List.map_append, List.sum_append, List.map_cons, List.sum_cons]
    rw [sum_add, ih, wsum_eq]

theorem wsum_succ (f : Grp → Nat) (n : Nat) (t : Grp) : wsum f (n + 1) t = f t + (t.children.map (wsum f n)).sum := by
  rw [← wsum_children, wsum_eq]
  rw [List.range_succ_eq_map, List.map_cons, List.sum_cons, List.map_map]
  congr 1

/-- What the items of a node hold. -/
theorem items_count (is : List Item) (d : Nat) (h : ∀ i ∈ is, i.kvs ≠ []) : is.length + (((is.filter Item.child).map (fun i => (⟨i.kvs, d⟩ : Grp))).map (fun c => c.kvs.length - 1)).sum = (is.flatMap (·.kvs)).length := by
  induction is with
  | nil => rfl
  | cons i is ih =>
    have ih := ih (fun x hx => h x (List.mem_cons_of_mem _ hx))
    have hi : 0 < i.kvs.length := List.length_pos_iff.mpr (h i (by simp))
    rw [List.flatMap_cons, List.length_append, List.filter_cons, List.length_cons]
    cases hc : i.child with
    | true => simp only [if_true, List.map_cons, List.sum_cons]; omega
    | false =>
      have : ¬ 1 < i.kvs.length := by simpa [Item.child] using hc
      simp only [Bool.false_eq_true, if_false]
      omega

theorem wsum_items (n : Nat) : ∀ t : Grp, t.OK → wsum (fun g => g.items.length - 1) n t ≤ t.kvs.length - 1 := by
  induction n with
  | zero => intro t _; exact Nat.zero_le _
  | succ n ih =>
    intro t h
    rw [wsum_succ]
    have h1 : (t.children.map (wsum (fun g => g.items.length - 1) n)).sum ≤ (t.children.map (fun c => c.kvs.length - 1)).sum :=
      sum_le_of _ _ _ fun c hc => ih c (h.child_good hc).1.toOK
    have h2 := items_count t.items (t.bd + 1) (fun i hi => h.item_ne hi)
    rw [t.items_flat] at h2
    unfold Grp.children at h1 ⊢
    have h3 : 0 < t.items.length := List.length_pos_iff.mpr h.items_ne
    omega

/-- The number of leaves among the items of a node. -/
theorem wsum_leaves (n : Nat) : ∀ t : Grp, t.OK → wsum (fun g => (g.items.filter (fun i => !i.child)).length) n t ≤ t.kvs.length := by
  induction n with
  | zero => intro t _; exact Nat.zero_le _
  | succ n ih =>
    intro t h
    rw [wsum_succ]
    have h1 : (t.children.map (wsum (fun g => (g.items.filter (fun i => !i.child)).length) n)).sum ≤ (t.children.map (fun c => c.kvs.length)).sum :=
      sum_le_of _ _ _ fun c hc => ih c (h.child_good hc).1.toOK
    refine Nat.le_trans (Nat.add_le_add_left h1 _) ?_
    conv_rhs => rw [← t.items_flat]
    unfold Grp.children
    have hne : ∀ i ∈ t.items, i.kvs ≠ [] := fun i hi => h.item_ne hi
    revert hne
    generalize t.items = is
    intro hne
    induction is with
    | nil => exact Nat.zero_le _
    | cons i is ih =>
      have ih := ih (fun x hx => hne x (List.mem_cons_of_mem _ hx))
      have hi : 0 < i.kvs.length := List.length_pos_iff.mpr (hne i (by simp))
      rw [List.flatMap_cons, List.length_append, List.filter_cons, List.filter_cons]
      cases hc : i.child <;> simp only [Bool.not_true, Bool.not_false, Bool.false_eq_true, if_true, if_false, List.map_cons, List.sum_cons, List.length_cons] <;> omega

/-- All keys are leaves: with all levels, there are as many leaves as keys. -/
theorem wsum_leaves_all (n : Nat) : ∀ t : Grp, t.OK → t.desc n = [] → wsum (fun g => (g.items.filter (fun i => !i.child)).length) n t = t.kvs.length := by
  induction n with
  | zero => intro t _ h; simp [Grp.desc] at h
  | succ n ih =>
    intro t h he
    rw [wsum_succ]
    have h1 : t.children.map (wsum (fun g => (g.items.filter (fun i => !i.child)).length) n) = t.children.map (fun c => c.kvs.length) := by
      apply List.map_congr_left
      intro c hc
      apply ih c (h.child_good hc).1.toOK
      rw [Grp.desc, List.flatMap_eq_nil_iff] at he
      exact he c hc
    rw [h1]
    conv_rhs => rw [← t.items_flat]
    unfold Grp.children
    have hne : ∀ i ∈ t.items, i.kvs ≠ [] := fun i hi => h.item_ne hi
    revert hne
    generalize t.items = is
    intro hne
    clear h1
    induction is with
    | nil => rfl
    | cons i is ih =>
      have ih := ih (fun x hx => hne x (List.mem_cons_of_mem _ hx))
      have hi : 0 < i.kvs.length := List.length_pos_iff.mpr (hne i (by simp))
      rw [List.flatMap_cons, List.length_append, List.filter_cons, List.filter_cons]
      cases hc : i.child with
      | true => simp only [Bool.not_true, Bool.false_eq_true, if_true, if_false, List.map_cons, List.sum_cons]; omega
      | false =>
        have : ¬ 1 < i.kvs.length := by simpa [Item.child] using hc
        simp only [Bool.not_false, Bool.false_eq_true, if_true, if_false, List.length_cons]
        omega

theorem le_sum {α : Type} (f : α → Nat) (l : List α) {a : α} (h : a ∈ l) : f a ≤ (l.map f).sum := by
  induction l with
  | nil => simp at h
  | cons b l ih =>
    rw [List.map_cons, List.sum_cons]
    rcases List.mem_cons.mp h with rfl | h
    · omega
    · have := ih h; omega

theorem nodesIn_two {t c : Grp} (h : t.OK) {a n : Nat} (hc : c ∈ nodesIn t a n) : c = t ∨ c.Good ∧ 2 ≤ c.kvs.length := by
  unfold nodesIn at hc
  rw [List.mem_flatMap] at hc
  obtain ⟨i, -, hc⟩ := hc
  cases i with
  | zero => rw [Grp.desc, List.mem_singleton] at hc; exact Or.inl hc
  | succ i => exact Or.inr (h.desc_good i c hc)

/-- The number of nodes. -/
theorem nodes_le {t : Grp} (h : t.OK) (n : Nat) : (nodesIn t 0 n).length ≤ max 1 (t.kvs.length - 1) := by
  by_cases h2 : 2 ≤ t.kvs.length
  · have h1 := wsum_items n t h
    have h3 : ((nodesIn t 0 n).map (fun _ => 1)).sum ≤ wsum (fun g => g.items.length - 1) n t := by
      apply sum_le_of
      intro c hc
      have : 2 ≤ c.items.length := by
        rcases nodesIn_two h hc with rfl | ⟨g, h2⟩
        · exact h.two_items h2
        · exact g.two_items h2
      omega
    rw [List.map_const', List.sum_replicate_nat] at h3
    omega
  · have hch : t.children = [] := by
      rw [List.eq_nil_iff_forall_not_mem]
      intro c hc
      have h3 := (h.child_good hc).2
      have h4 := items_count t.items (t.bd + 1) (fun i hi => h.item_ne hi)
      rw [t.items_flat] at h4
      have h5 : c.kvs.length - 1 ≤ (t.children.map (fun c => c.kvs.length - 1)).sum := le_sum (fun c : Grp => c.kvs.length - 1) _ hc
      unfold Grp.children at h5
      have h6 : 0 < t.items.length := List.length_pos_iff.mpr h.items_ne
      omega
    cases n with
    | zero => exact Nat.zero_le _
    | succ n =>
      have h3 := wsum_succ (fun _ => 1) n t
      unfold wsum at h3
      rw [hch, List.map_const', List.sum_replicate_nat] at h3
      simp only [List.map_nil, List.sum_nil] at h3
      omega

/-- The number of items. -/
theorem items_le {t : Grp} (h : t.OK) (n : Nat) : ((nodesIn t 0 n).flatMap Grp.items).length ≤ (nodesIn t 0 n).length + (t.kvs.length - 1) := by
  have h1 := wsum_items n t h
  have h2 : ((nodesIn t 0 n).flatMap Grp.items).length ≤ ((nodesIn t 0 n).map (fun g => (fun _ => 1) g + (g.items.length - 1))).sum := by
    rw [List.length_flatMap]
    apply sum_le_of
    intro c _
    dsimp only
    omega
  rw [sum_add, List.map_const', List.sum_replicate_nat] at h2
  unfold wsum at h1
  omega

theorem lvs_wsum (n : Nat) (t : Grp) : (lvs (nodesIn t 0 n)).length = wsum (fun g => (g.items.filter (fun i => !i.child)).length) n t := by
  unfold wsum
  generalize nodesIn t 0 n = ns
  induction ns with
  | nil => rfl
  | cons g ns ih =>
    rw [show g :: ns = [g] ++ ns from rfl, lvs_append, List.length_append, ih, List.map_append, List.sum_append]
    congr 1
    unfold lvs leavesJ Grp.jtems
    simp [List.filter_map, Function.comp_def]

theorem Built.leaves {cfg : Config} {fp : Bytes → Word} {s : SuRF} {t : Grp} {cut h : Nat} (B : Built cfg fp s t cut h) :
    (lvs (nodesIn t 0 cut)).length + (lvs (nodesIn t cut (h - cut))).length = t.kvs.length := by
  have h1 := wsum_leaves_all h t B.root.toOK (B.out h (Nat.le_refl _))
  rw [← lvs_wsum] at h1
  have := B.lt
  rw [show h = cut + (h - cut) by omega, nodesIn_add, lvs_append, List.length_append, Nat.zero_add] at h1
  exact h1

/-! ### Numbers fit 32 bits -/

theorem RankVector.fits_of {v : RankVector} {bs : Nat} {A : List Bool} {e : Nat} (hr : RV v bs A e) (hbs : bs < 2 ^ 32)
    (hl : v.rankLut.length = v.bv.numBits / v.blockSize + 1) (hn : v.bv.numBits < 2 ^ 32) : v.Fits := by
  refine ⟨hn, by rw [hr.block]; exact hbs, ?_⟩
  intro n hmem
  obtain ⟨i, hi, e⟩ := List.getElem_of_mem hmem
  have h1 := hr.wf.lut i (by omega)
  rw [List.getElem?_eq_getElem hi, e, Option.some.injEq] at h1
  have h2 : ones ((bitsOf v.bv.bits).take (i * v.blockSize)) ≤ i * v.blockSize := by
    refine Nat.le_trans (List.count_le_length) ?_
    rw [List.length_take]
    omega
  have h3 : i * v.blockSize ≤ v.bv.numBits := by
    have : i ≤ v.bv.numBits / v.blockSize := by omega
    exact Nat.le_trans (Nat.mul_le_mul_right _ this) (Nat.div_mul_le_self _ _)
  omega

theorem SelectVector.fits_of {v : SelectVector} (hw : v.WF) (hn : v.bv.numBits + 64 < 2 ^ 32) : v.Fits := by
  have hlen : (bitsOf v.bv.bits).length < 2 ^ 32 := by
    rw [bitsOf_length, hw.words]
    unfold numWordsOf
    split <;> omega
  refine ⟨by omega, ?_, ?_⟩
  · rw [hw.ones_eq]
    exact Nat.lt_of_le_of_lt List.count_le_length hlen
  · intro n hmem
    obtain ⟨i, hi, e⟩ := List.getElem_of_mem hmem
    cases i with
    | zero =>
      have := hw.zero
      rw [List.getElem?_eq_getElem hi, e, Option.some.injEq] at this
      omega
    | succ i =>
      have h0 := hw.len
      obtain ⟨p, h1, h2⟩ := hw.lut (i + 1) (by omega) (by omega)
      rw [List.getElem?_eq_getElem hi, e, Option.some.injEq] at h1
      subst h1
      have h3 := h2.1
      rw [List.getElem?_eq_some_iff] at h3
      obtain ⟨h3, -⟩ := h3
      omega

theorem offsets_length (ps : List Bytes) (o : Nat) : ((PrefixVec.offsetsOf o ps).flatMap putUint32).length = 4 * ps.length := by
  induction ps generalizing o with
  | nil => rfl
  | cons p ps ih =>
    rw [PrefixVec.offsetsOf, List.flatMap_cons, List.length_append, ih, List.length_cons]
    have : (putUint32 o).length = 4 := rfl
    omega

/-- The lengths of the rank tables of a filter. -/
structure SuRF.Luts (s : SuRF) : Prop where
  dl : s.ld.labelVec.rankLut.length = s.ld.labelVec.bv.numBits / s.ld.labelVec.blockSize + 1
  dhc : s.ld.hasChildVec.rankLut.length = s.ld.hasChildVec.bv.numBits / s.ld.hasChildVec.blockSize + 1
  dip : s.ld.isPrefixVec.rankLut.length = s.ld.isPrefixVec.bv.numBits / s.ld.isPrefixVec.blockSize + 1
  dpre : s.ld.prefixVec.hasPrefixVec.rankLut.length = s.ld.prefixVec.hasPrefixVec.bv.numBits / s.ld.prefixVec.hasPrefixVec.blockSize + 1
  shc : s.ls.hasChildVec.rankLut.length = s.ls.hasChildVec.bv.numBits / s.ls.hasChildVec.blockSize + 1
  spre : s.ls.prefixVec.hasPrefixVec.rankLut.length = s.ls.prefixVec.hasPrefixVec.bv.numBits / s.ls.prefixVec.hasPrefixVec.blockSize + 1

theorem build_luts {fp : Bytes → Word} {bmi : Bool} {cfg : Config} {keys vals : List Bytes} {hint : Int} {s : SuRF}
    (h : build fp bmi cfg keys vals hint = some s) : s.Luts := by
  simp only [build, assemble, Option.bind_eq_bind, Option.bind_eq_some_iff, Option.pure_def, Option.some.injEq] at h
  obtain ⟨lv, h1, ds, h2, _, _, ld, h4, ls, h5, rfl⟩ := h
  simp only [LoudsDense.init, Option.bind_eq_bind, Option.bind_eq_some_iff, Option.pure_def, Option.some.injEq] at h4
  obtain ⟨_, a1, _, a2, _, a3, _, a4, _, a5, rfl⟩ := h4
  simp only [LoudsSparse.init, Option.bind_eq_bind, Option.bind_eq_some_iff, Option.pure_def, Option.some.injEq] at h5
  obtain ⟨_, _, _, b2, _, b3, _, b4, _, b5, rfl⟩ := h5
  exact ⟨(RankVector.init_struct a1).2.2, (RankVector.init_struct a2).2.2, (RankVector.init_struct a3).2.2, (PrefixVec.init_struct a5).2.2,
    (RankVector.init_struct b2).2.2, (PrefixVec.init_struct b5).2.2⟩

theorem prefixes_le (ns : List Grp) : ((ns.map Grp.pre).filter (fun p => !p.isEmpty)).length ≤ ns.length := by
  refine Nat.le_trans (List.length_filter_le _ _) ?_
  rw [List.length_map]

theorem PrefixVec.fits_of {v : PrefixVec} {ns : List Grp} (hp : PV v ns) (hl : v.hasPrefixVec.rankLut.length = v.hasPrefixVec.bv.numBits / v.hasPrefixVec.blockSize + 1)
    (hn : 4 * ns.length < 2 ^ 32) : v.Fits := by
  refine ⟨RankVector.fits_of hp.rv (by omega) hl ?_, ?_, ?_⟩
  · rw [hp.rv.num, List.length_map]; omega
  · rw [hp.wf.offs, offsets_length]
    have := prefixes_le ns
    omega
  · rw [hp.wf.data]; exact hp.wf.small

theorem SuffixVector.fits_of {cfg : Config} {v : SuffixVector} {ws : List Word} (hv : SV cfg v ws) (h1 : cfg.suffixLen ≤ 64) (hn : ws.length * 64 < 2 ^ 32) : v.Fits := by
  by_cases h0 : cfg.suffixType = .none
  · rw [hv.none h0]
    refine ⟨?_, ?_, ?_⟩ <;> decide
  · obtain ⟨-, a, b, -, c⟩ := hv.some_ h0
    unfold Config.suffixLen at h1
    refine ⟨?_, by omega, by omega⟩
    have : ws.length * cfg.suffixLen ≤ ws.length * 64 := Nat.mul_le_mul_left _ h1
    omega

theorem Built.values_length {cfg : Config} {fp : Bytes → Word} {s : SuRF} {t : Grp} {cut h : Nat} (B : Built cfg fp s t cut h) (a n : Nat) :
    ((lvs (nodesIn t a n)).map (leafVal cfg)).flatten.length = (lvs (nodesIn t a n)).length * cfg.valueSize := by
  have h1 : ∀ v ∈ (lvs (nodesIn t a n)).map (leafVal cfg), v.length = cfg.valueSize := fun v hv => B.leafVal_length hv
  have h2 : ∀ l : List Bytes, (∀ v ∈ l, v.length = cfg.valueSize) → l.flatten.length = l.length * cfg.valueSize := by
    intro l
    induction l with
    | nil => intro _; simp
    | cons v l ih =>
      intro hl
      rw [List.flatten_cons, List.length_append, ih (fun x hx => hl x (List.mem_cons_of_mem _ hx)), hl v (by simp), List.length_cons, Nat.succ_mul]
      omega
  rw [h2 _ h1, List.length_map]

theorem louds_flat_length {ns : List Grp} (h : ∀ t ∈ ns, t.items ≠ []) : (ns.flatMap Grp.louds).length = (ns.flatMap Grp.items).length := by
  induction ns with
  | nil => rfl
  | cons t ns ih =>
    rw [List.flatMap_cons, List.flatMap_cons, List.length_append, List.length_append, ih (fun x hx => h x (List.mem_cons_of_mem _ hx))]
    have := List.length_pos_iff.mpr (h t (by simp))
    unfold Grp.louds
    rw [List.length_cons, List.length_replicate]
    omega

/-- How much the two parts of a filter hold. -/
structure Counts (t : Grp) (cut h : Nat) (dn sn di si dl sl : Nat) : Prop where
  edn : (nodesIn t 0 cut).length = dn
  esn : (nodesIn t cut (h - cut)).length = sn
  edi : ((nodesIn t 0 cut).flatMap Grp.items).length = di
  esi : ((nodesIn t cut (h - cut)).flatMap Grp.items).length = si
  lo : ((nodesIn t cut (h - cut)).flatMap Grp.louds).length = si
  edl : (lvs (nodesIn t 0 cut)).length = dl
  esl : (lvs (nodesIn t cut (h - cut))).length = sl
  ch : ((nodesIn t 0 cut).flatMap Grp.children).length ≤ dn + sn
  height : h ≤ dn + sn
  nodes : dn + sn ≤ max 1 (t.kvs.length - 1)
  items : di + si ≤ dn + sn + (t.kvs.length - 1)
  leaves : dl + sl = t.kvs.length
  pos : 0 < t.kvs.length

theorem Built.counts {cfg : Config} {fp : Bytes → Word} {s : SuRF} {t : Grp} {cut h : Nat} (B : Built cfg fp s t cut h) :
    ∃ dn sn di si dl sl, Counts t cut h dn sn di si dl sl ∧ s.ld.isPrefixVec.bv.numBits = dn + sn := by
  have hok := B.root.toOK
  have hlt := B.lt
  have hsplit : nodesIn t 0 h = nodesIn t 0 cut ++ nodesIn t cut (h - cut) := by
    have := nodesIn_add t 0 cut (h - cut)
    rwa [show cut + (h - cut) = h by omega, Nat.zero_add] at this
  have hnodes := nodes_le hok h
  have hitems := items_le hok h
  have hh : h ≤ (nodesIn t 0 h).length := by
    have : ∀ m, m ≤ h → m ≤ (nodesIn t 0 m).length := by
      intro m
      induction m with
      | zero => intro _; exact Nat.zero_le _
      | succ m ih =>
        intro hm
        have h1 := ih (by omega)
        have h2 := List.length_pos_iff.mpr (B.ne m (by omega))
        rw [nodesIn_succ, List.length_append, Nat.zero_add]
        omega
    exact this h (Nat.le_refl _)
  have hipn := B.ipn
  have hch : ((nodesIn t 0 cut).flatMap Grp.children).length ≤ (nodesIn t 0 h).length := by
    rw [nodesIn_children]
    have := nodesIn_zero t cut
    have h2 := nodesIn_add t 0 (cut + 1) (h - (cut + 1))
    rw [show cut + 1 + (h - (cut + 1)) = h by omega, this] at h2
    rw [h2]
    simp only [List.length_append, List.length_cons, Nat.zero_add]
    omega
  have hlo : ((nodesIn t cut (h - cut)).flatMap Grp.louds).length = ((nodesIn t cut (h - cut)).flatMap Grp.items).length := by
    apply louds_flat_length
    intro c hc
    rcases nodesIn_two hok hc with rfl | ⟨g, -⟩
    · exact hok.items_ne
    · exact g.items_ne
  rw [hsplit, List.length_append] at hnodes hh hipn hch
  rw [hsplit, List.flatMap_append, List.length_append, List.length_append] at hitems
  exact ⟨_, _, _, _, _, _, ⟨rfl, rfl, rfl, rfl, hlo, rfl, rfl, hch, hh, hnodes, hitems, B.leaves, List.length_pos_iff.mpr hok.ne⟩, hipn⟩

theorem Built.fits {cfg : Config} {fp : Bytes → Word} {s : SuRF} {t : Grp} {cut h : Nat} (B : Built cfg fp s t cut h) (L : s.Luts)
    (hn : t.kvs.length ≤ 2 ^ 24) (hv : t.kvs.length * cfg.valueSize < 2 ^ 32) (hsl : cfg.suffixLen ≤ 64) : s.Fits := by
  have hlt := B.lt
  obtain ⟨dn, sn, di, si, dl, sl, C, hipn⟩ := B.counts
  obtain ⟨c1, c2, c3, c4, c5, c6, c7, c8, c9, c10, c11, c12, c13⟩ := C
  have hvl1 := B.values_length 0 cut
  have hvl2 := B.values_length cut (h - cut)
  rw [c6] at hvl1
  rw [c7] at hvl2
  have hv1 : dl * cfg.valueSize ≤ t.kvs.length * cfg.valueSize := Nat.mul_le_mul_right _ (by omega)
  have hv2 : sl * cfg.valueSize ≤ t.kvs.length * cfg.valueSize := Nat.mul_le_mul_right _ (by omega)
  have hvs : cfg.valueSize ≤ t.kvs.length * cfg.valueSize := Nat.le_mul_of_pos_left _ c13
  obtain ⟨e, hip⟩ := B.dv.ip
  refine ⟨?_, ?_, ?_, ?_, ?_, ?_, ?_, ?_, ?_, ?_, ?_, ?_, ?_, ?_, ?_, ?_, ?_⟩
  · rw [B.ht]; omega
  · refine RankVector.fits_of B.dv.lab (by omega) L.dl ?_
    rw [B.dv.lab.num, mapBits_flat_length]; omega
  · refine RankVector.fits_of B.dv.hc (by omega) L.dhc ?_
    rw [B.dv.hc.num, mapBits_flat_length]; omega
  · refine RankVector.fits_of hip (by omega) L.dip ?_
    omega
  · refine SuffixVector.fits_of B.dv.suf hsl ?_
    rw [List.length_map]; omega
  · exact PrefixVec.fits_of B.dv.pre L.dpre (by omega)
  · rw [B.dv.val]
    refine ⟨?_, ?_⟩ <;> dsimp only <;> omega
  · rw [B.hs]; omega
  · rw [B.start]; omega
  · rw [B.sv.dn]; omega
  · rw [B.sv.dc]; omega
  · unfold LabelVector.Ok
    rw [B.sv.lab, List.length_append, List.length_map, List.length_singleton]; omega
  · refine RankVector.fits_of B.sv.hc (by omega) L.shc ?_
    rw [B.sv.hc.num, List.length_map]; omega
  · refine SelectVector.fits_of B.sv.lowf ?_
    rw [B.sv.lon, c5]; omega
  · refine SuffixVector.fits_of B.sv.suf hsl ?_
    rw [List.length_map]; omega
  · exact PrefixVec.fits_of B.sv.pre L.spre (by omega)
  · rw [B.sv.val]
    refine ⟨?_, ?_⟩ <;> dsimp only <;> omega

/-! ### Bytes -/

theorem align_le7 (n : Nat) : align n ≤ n + 7 := by unfold align; omega

theorem words_le (n : Nat) : numWordsOf n * 8 * 8 ≤ n + 63 := by unfold numWordsOf; split <;> omega

theorem RankVector.size_le (v : RankVector) {bs : Nat} (hb : v.blockSize = bs) (h : bs = 64 ∨ bs = 512) : v.marshalSize * 128 ≤ (if bs = 64 then 24 else 17) * v.bv.numBits + 3456 := by
  have h1 := align_le7 v.rawMarshalSize
  have h2 := words_le v.bv.numBits
  unfold marshalSize
  unfold rawMarshalSize lutSize BitVector.bitsSize BitVector.numWords at *
  rw [hb] at *
  rcases h with rfl | rfl
  · rw [if_pos rfl]; omega
  · rw [if_neg (by omega)]; omega

theorem SelectVector.size_le (v : SelectVector) (hw : v.WF) : v.marshalSize * 128 ≤ 24 * v.bv.numBits + 4000 := by
  have h1 := align_le7 v.rawMarshalSize
  have h2 := words_le v.bv.numBits
  have h3 : v.numOnes ≤ v.bv.numBits + 63 := by
    rw [hw.ones_eq]
    refine Nat.le_trans List.count_le_length ?_
    rw [bitsOf_length, hw.words]
    omega
  unfold marshalSize
  unfold rawMarshalSize lutSize BitVector.bitsSize BitVector.numWords selectSampleInterval at *
  omega

theorem PrefixVec.size_le {v : PrefixVec} {ns : List Grp} (hp : PV v ns) : v.marshalSize * 128 ≤ 529 * ns.length + 128 * (ns.map Grp.pre).flatten.length + 5376 := by
  have h1 := align_le7 v.rawMarshalSize
  have h2 := RankVector.size_le v.hasPrefixVec hp.rv.block (Or.inr rfl)
  rw [if_neg (by omega), hp.rv.num, List.length_map] at h2
  have h3 := prefixes_le ns
  have h4 : ∀ l : List Bytes, (l.filter (fun p => !p.isEmpty)).flatten.length ≤ l.flatten.length := by
    intro l
    induction l with
    | nil => exact Nat.le_refl _
    | cons p l ih =>
      rw [List.filter_cons]
      split <;> simp only [List.flatten_cons, List.length_append] <;> omega
  have h4 := h4 (ns.map Grp.pre)
  have h5 := congrArg List.length hp.wf.offs
  have h6 := congrArg List.length hp.wf.data
  rw [offsets_length] at h5
  unfold marshalSize
  unfold rawMarshalSize at *
  omega

theorem SuffixVector.size_le {cfg : Config} {v : SuffixVector} {ws : List Word} (hv : SV cfg v ws) : v.marshalSize * 128 ≤ 16 * (ws.length * cfg.suffixLen) + 3600 := by
  have h1 := align_le7 v.rawMarshalSize
  have h2 := words_le v.bv.numBits
  have h3 : v.bv.numBits ≤ ws.length * cfg.suffixLen := by
    by_cases h0 : cfg.suffixType = .none
    · rw [hv.none h0]; exact Nat.zero_le _
    · exact Nat.le_of_eq (hv.some_ h0).2.2.2.2
  unfold marshalSize
  unfold rawMarshalSize BitVector.bitsSize BitVector.numWords at *
  omega

theorem Built.pre_le {cfg : Config} {fp : Bytes → Word} {s : SuRF} {t : Grp} {cut h : Nat} (B : Built cfg fp s t cut h) :
    ((nodesIn t 0 cut).map Grp.pre).flatten.length + ((nodesIn t cut (h - cut)).map Grp.pre).flatten.length ≤ restSum t.d t.kvs := by
  have h1 := preSum_le h t B.root.toOK
  have hlt := B.lt
  rw [← nodesIn_pre, show h = cut + (h - cut) by omega, nodesIn_add, List.map_append, List.flatten_append, List.length_append, Nat.zero_add] at h1
  exact h1

/-- The marshalled size. -/
theorem Built.size {cfg : Config} {fp : Bytes → Word} {s : SuRF} {t : Grp} {cut h : Nat} (B : Built cfg fp s t cut h) :
    s.marshalSize * 8 ≤ 768 * s.ls.denseNodeCount + 72 * t.kvs.length + 8 * (t.kvs.length * cfg.valueSize) + t.kvs.length * cfg.suffixLen + 8 * restSum t.d t.kvs + 4096 := by
  obtain ⟨dn, sn, di, si, dl, sl, C, hipn⟩ := B.counts
  obtain ⟨c1, c2, c3, c4, c5, c6, c7, c8, c9, c10, c11, c12, c13⟩ := C
  have hvl1 := B.values_length 0 cut
  have hvl2 := B.values_length cut (h - cut)
  rw [c6] at hvl1
  rw [c7] at hvl2
  obtain ⟨e, hip⟩ := B.dv.ip
  have a1 := RankVector.size_le _ B.dv.lab.block (Or.inl rfl)
  have a2 := RankVector.size_le _ B.dv.hc.block (Or.inl rfl)
  have a3 := RankVector.size_le _ hip.block (Or.inl rfl)
  have a4 := SuffixVector.size_le B.dv.suf
  have a5 := PrefixVec.size_le B.dv.pre
  have b1 := RankVector.size_le _ B.sv.hc.block (Or.inr rfl)
  have b2 := SelectVector.size_le _ B.sv.lowf
  have b3 := SuffixVector.size_le B.sv.suf
  have b4 := PrefixVec.size_le B.sv.pre
  have hp := B.pre_le
  rw [if_pos rfl, B.dv.lab.num, mapBits_flat_length, c1] at a1
  rw [if_pos rfl, B.dv.hc.num, mapBits_flat_length, c1] at a2
  rw [if_pos rfl, hipn] at a3
  rw [List.length_map, c6] at a4
  rw [c1] at a5
  rw [if_neg (by omega), B.sv.hc.num, List.length_map, c4] at b1
  rw [B.sv.lon, c5] at b2
  rw [List.length_map, c7] at b3
  rw [c2] at b4
  have d1 := align_le7 s.ld.rawMarshalSize
  have d2 := align_le7 s.ls.rawMarshalSize
  have d3 := align_le7 s.ld.values.rawMarshalSize
  have d4 := align_le7 s.ls.values.rawMarshalSize
  have d5 := align_le7 s.ls.labelVec.rawMarshalSize
  have hm : dl * cfg.suffixLen + sl * cfg.suffixLen = t.kvs.length * cfg.suffixLen := by rw [← Nat.add_mul, c12]
  have hw : dl * cfg.valueSize + sl * cfg.valueSize = t.kvs.length * cfg.valueSize := by rw [← Nat.add_mul, c12]
  have e3 : s.ld.values.rawMarshalSize = 8 + dl * cfg.valueSize := by unfold ValueVector.rawMarshalSize; rw [B.dv.val]; dsimp only; omega
  have e4 : s.ls.values.rawMarshalSize = 8 + sl * cfg.valueSize := by unfold ValueVector.rawMarshalSize; rw [B.sv.val]; dsimp only; omega
  have e5 : s.ls.labelVec.rawMarshalSize = 5 + si := by
    unfold LabelVector.rawMarshalSize; rw [B.sv.lab, List.length_append, List.length_map, List.length_singleton]; omega
  rw [e3] at d3
  rw [e4] at d4
  rw [e5] at d5
  have e1 : s.ld.rawMarshalSize = 4 + s.ld.labelVec.marshalSize + s.ld.hasChildVec.marshalSize + s.ld.isPrefixVec.marshalSize + s.ld.suffixes.marshalSize + s.ld.prefixVec.marshalSize := rfl
  have e2 : s.ls.rawMarshalSize = 16 + s.ls.labelVec.marshalSize + s.ls.hasChildVec.marshalSize + s.ls.loudsVec.marshalSize + s.ls.suffixes.marshalSize + s.ls.prefixVec.marshalSize := rfl
  rw [e1] at d1
  rw [e2] at d2
  have f1 : s.marshalSize = align s.ld.rawMarshalSize + align s.ls.rawMarshalSize + align (8 + dl * cfg.valueSize) + align (8 + sl * cfg.valueSize) := by
    rw [← e3, ← e4]; rfl
  have f5 : s.ls.labelVec.marshalSize = align (5 + si) := by rw [← e5]; rfl
  rw [f1, e1, e2, B.sv.dn, c1]
  rw [f5] at d2 ⊢
  omega

end Surf
