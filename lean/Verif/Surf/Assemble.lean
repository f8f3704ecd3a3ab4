import Verif.Surf.Dense

/-! What the filter holds after `Build`, in terms of the nodes of its dense and its sparse levels. -/

set_option linter.unusedSimpArgs false

namespace Surf

/-- The leaves of some nodes, in order. -/
def lvs (ns : List Grp) : List JItem := leavesJ (ns.flatMap Grp.jtems)

/-- A level and its nodes. -/
def LvOK (cfg : Config) (fp : Bytes → Word) (p : Level × List Grp) : Prop := LRep cfg fp p.1 (p.2.flatMap Grp.jtems) (p.2.flatMap Grp.louds) p.2

/-- The dense part holds the nodes `ns`. -/
structure DView (cfg : Config) (fp : Bytes → Word) (ld : LoudsDense) (ns : List Grp) : Prop where
  lab : RV ld.labelVec 64 (ns.flatMap fun t => mapBits (fun _ => true) t.items) 0
  hc : RV ld.hasChildVec 64 (ns.flatMap fun t => mapBits Item.child t.items) 0
  ip : ∃ e, RV ld.isPrefixVec 64 (ns.map Grp.hasEnd) e
  suf : SV cfg ld.suffixes ((lvs ns).map (leafWord cfg fp))
  val : ld.values = ⟨((lvs ns).map (leafVal cfg)).flatten, cfg.valueSize⟩
  pre : PV ld.prefixVec ns

/-- The sparse part holds the nodes `ns`, below the dense nodes `ds`. -/
structure SView (cfg : Config) (fp : Bytes → Word) (ls : LoudsSparse) (ds ns : List Grp) : Prop where
  lab : ls.labelVec.labels = (ns.flatMap Grp.items).map (·.label) ++ [0]
  hc : RV ls.hasChildVec 512 ((ns.flatMap Grp.items).map Item.child) 0
  lo : Holds ls.loudsVec.bv.bits (ns.flatMap Grp.louds)
  lowf : ls.loudsVec.WF
  lon : ls.loudsVec.bv.numBits = (ns.flatMap Grp.louds).length
  suf : SV cfg ls.suffixes ((lvs ns).map (leafWord cfg fp))
  val : ls.values = ⟨((lvs ns).map (leafVal cfg)).flatten, cfg.valueSize⟩
  pre : PV ls.prefixVec ns
  dn : ls.denseNodeCount = ds.length
  dc : ls.denseChildCount = (ds.flatMap Grp.children).length

section
variable {cfg : Config} {fp : Bytes → Word}

theorem leavesJ_flatMap (ns : List (List JItem)) : leavesJ ns.flatten = (ns.map leavesJ).flatten := by
  induction ns with
  | nil => rfl
  | cons a ns ih => rw [List.flatten_cons, List.map_cons, List.flatten_cons, ← ih]; unfold leavesJ; rw [List.filter_append]

theorem leavesJ_app (a b : List JItem) : leavesJ (a ++ b) = leavesJ a ++ leavesJ b := by unfold leavesJ; rw [List.filter_append]

theorem lvs_append (a b : List Grp) : lvs (a ++ b) = lvs a ++ lvs b := by
  unfold lvs
  rw [List.flatMap_append, leavesJ_app]

theorem lvs_flatMap (L : List (Level × List Grp)) : lvs (L.flatMap (·.2)) = L.flatMap (fun p => lvs p.2) := by
  induction L with
  | nil => rfl
  | cons a L ih => rw [List.flatMap_cons, lvs_append, ih, List.flatMap_cons]

theorem pv_init (L : List (Level × List Grp)) (h : ∀ p ∈ L, LvOK cfg fp p) (hs : ((L.flatMap (·.2)).map Grp.pre).flatten.length < 2 ^ 32) :
    ∃ v, PrefixVec.init ((L.map (·.1)).map (·.hasPrefix)) ((L.map (·.1)).map (·.nodeCount)) ((L.map (·.1)).map (·.prefixes)) = some v ∧ PV v (L.flatMap (·.2)) := by
  obtain ⟨rv, e1, e2⟩ := rv_init 512 (Or.inr rfl) L (fun p => p.1.hasPrefix) (fun p => p.2.map (fun t => !t.pre.isEmpty)) (fun p hp => (h p hp).n.hp) []
  have hn : (L.map (·.1)).map (·.nodeCount) = L.map (fun p => (p.2.map (fun t => !t.pre.isEmpty)).length) ++ [] := by
    rw [List.append_nil, List.map_map]
    apply List.map_congr_left
    intro p hp
    simp [(h p hp).n.nc]
  have hp : ((L.map (·.1)).map (·.prefixes)).flatten = ((L.flatMap (·.2)).map Grp.pre).filter (fun p => !p.isEmpty) := by
    clear hs e1 e2 hn
    induction L with
    | nil => rfl
    | cons a L ih =>
      rw [List.map_cons, List.map_cons, List.flatten_cons, ih (fun p hp => h p (List.mem_cons_of_mem _ hp)), List.flatMap_cons, List.map_append, List.filter_append,
        (h a (by simp)).n.pre]
  have hfl : ∀ l : List Bytes, (l.filter (fun p => !p.isEmpty)).flatten = l.flatten := by
    intro l
    induction l with
    | nil => rfl
    | cons a l ih =>
      cases a with
      | nil => simpa using ih
      | cons x a => simp [ih]
  have hcount : ∀ l : List Grp, (l.map (fun t => !t.pre.isEmpty)).count true = ((l.map Grp.pre).filter (fun p => !p.isEmpty)).length := by
    intro l
    induction l with
    | nil => rfl
    | cons a l ih =>
      cases e : a.pre.isEmpty <;> simp [e, ih]
  unfold PrefixVec.init RankVector.initSparse
  rw [List.map_map, hn, show ((fun x : Level => x.hasPrefix) ∘ fun x : Level × List Grp => x.1) = (fun p => p.1.hasPrefix) from rfl]
  rw [show rankSparseBlockSize = 512 from rfl, e1, hp, PrefixVec.initLoop_eq]
  have hbits : (L.flatMap fun p => p.2.map (fun t => !t.pre.isEmpty)) = (L.flatMap (·.2)).map (fun t => !t.pre.isEmpty) := by
    rw [List.map_flatMap]
  rw [hbits] at e2
  refine ⟨_, rfl, e2, e2.wf, e2.block, ?_, by simp, by simp, by rw [hfl]; exact hs⟩
  rw [e2.holds.ones]
  exact hcount _

theorem dense_levels (L : List (Level × List Grp)) (h : ∀ p ∈ L, LvOK cfg fp p) (hne : ∀ p ∈ L, p.2 ≠ []) (ht : ∀ p ∈ L, ∀ t ∈ p.2, t.Two) :
    ∃ ds, buildDense (L.map (·.1)) = some ds ∧ List.Forall₂ (fun p d => DRepl d p.2) L ds := by
  induction L with
  | nil => exact ⟨[], rfl, List.Forall₂.nil⟩
  | cons a L ih =>
    obtain ⟨ds, e1, e2⟩ := ih (fun p hp => h p (List.mem_cons_of_mem _ hp)) (fun p hp => hne p (List.mem_cons_of_mem _ hp)) (fun p hp => ht p (List.mem_cons_of_mem _ hp))
    obtain ⟨d, f1, f2⟩ := buildDenseLevel_spec (h a (by simp)) (hne a (by simp)) (ht a (by simp))
    refine ⟨d :: ds, ?_, List.Forall₂.cons f2 e2⟩
    rw [List.map_cons, buildDense, f1, e1]
    rfl

theorem forall2_zip {α β : Type} {R : α → β → Prop} {L : List α} {M : List β} (h : List.Forall₂ R L M) :
    ∃ Z : List (α × β), L = Z.map (·.1) ∧ M = Z.map (·.2) ∧ ∀ z ∈ Z, R z.1 z.2 := by
  induction h with
  | nil => exact ⟨[], rfl, rfl, by simp⟩
  | @cons a b _ _ hab _ ih =>
    obtain ⟨Z, e1, e2, e3⟩ := ih
    refine ⟨(a, b) :: Z, by simp [e1], by simp [e2], ?_⟩
    intro z hz
    rw [List.mem_cons] at hz
    rcases hz with rfl | hz
    · exact hab
    · exact e3 z hz

theorem lvs_words (L : List (Level × List Grp)) : (lvs (L.flatMap (·.2))).map (leafWord cfg fp) = (L.map (fun p => (p.1, (lvs p.2).map (leafWord cfg fp)))).flatMap (·.2) := by
  rw [lvs_flatMap, List.map_flatMap, List.flatMap_map]

theorem level_values (L : List (Level × List Grp)) (h : ∀ p ∈ L, LvOK cfg fp p) : ValueVector.init ((L.map (·.1)).map (·.values)) cfg.valueSize =
    ⟨((lvs (L.flatMap (·.2))).map (leafVal cfg)).flatten, cfg.valueSize⟩ := by
  unfold ValueVector.init
  congr 1
  rw [lvs_flatMap]
  induction L with
  | nil => rfl
  | cons a L ih =>
    rw [List.map_cons, List.map_cons, List.flatten_cons, ih (fun p hp => h p (List.mem_cons_of_mem _ hp)), List.flatMap_cons, List.map_append, List.flatten_append, (h a (by simp)).d.val]
    rfl

theorem dense_init (hcfg : cfg.Fine) (all : List (Level × List Grp)) (cut : Nat) (h : ∀ p ∈ all, LvOK cfg fp p) (ds : List DenseLevel)
    (hd : List.Forall₂ (fun p d => DRepl d p.2) (all.take cut) ds) (hs : (((all.take cut).flatMap (·.2)).map Grp.pre).flatten.length < 2 ^ 32) :
    ∃ ld, LoudsDense.init cfg (all.map (·.1)) ds cut = some ld ∧ DView cfg fp ld ((all.take cut).flatMap (·.2)) ∧ ld.height = cut ∧
      ld.isPrefixVec.bv.numBits = (all.flatMap (·.2)).length := by
  have hL : ∀ p ∈ all.take cut, LvOK cfg fp p := fun p hp => h p (List.mem_of_mem_take hp)
  obtain ⟨Z, z1, z2, z3⟩ := forall2_zip hd
  have hlen : ds.length ≤ cut := by
    rw [z2, List.length_map, ← List.length_map (f := (·.1)), ← z1, List.length_take]; omega
  have htk : ds.take cut = Z.map (·.2) := by rw [List.take_of_length_le hlen, z2]
  have hdl : ∀ z ∈ Z, ∀ f, (z.1.2.flatMap fun t => mapBits f t.items).length = z.2.labels.length * 64 := by
    intro z hz f
    rw [(z3 z hz).len, List.length_flatMap]
    have : z.1.2.map (fun t => (mapBits f t.items).length) = z.1.2.map (fun _ => 256) := by
      apply List.map_congr_left
      intro t _
      exact mapBits_length _ _
    rw [this, List.map_const', List.sum_replicate_nat]
  have hnb : ∀ f, (Z.map (·.2)).map (fun d : DenseLevel => d.labels.length * 64) = Z.map (fun z => (z.1.2.flatMap fun t => mapBits f t.items).length) ++ [] := by
    intro f
    rw [List.append_nil, List.map_map]
    apply List.map_congr_left
    intro z hz
    exact (hdl z hz f).symm
  have hns : ∀ g : Grp → List Bool, (Z.flatMap fun z => z.1.2.flatMap g) = ((all.take cut).flatMap (·.2)).flatMap g := by
    intro g
    rw [z1, List.flatMap_map, List.flatMap_assoc]
  obtain ⟨v1, a1, b1⟩ := rv_init 64 (Or.inl rfl) Z (fun z => z.2.labels) (fun z => z.1.2.flatMap fun t => mapBits (fun _ => true) t.items) (fun z hz => (z3 z hz).lab) []
  obtain ⟨v2, a2, b2⟩ := rv_init 64 (Or.inl rfl) Z (fun z => z.2.hasChild) (fun z => z.1.2.flatMap fun t => mapBits Item.child t.items) (fun z hz => (z3 z hz).hc) []
  obtain ⟨v3, a3, b3⟩ := rv_init 64 (Or.inl rfl) Z (fun z => z.2.isPrefix) (fun z => z.1.2.map Grp.hasEnd) (fun z hz => (z3 z hz).ip) (((all.drop cut).map (·.1)).map (·.nodeCount))
  obtain ⟨sv, s1, s2⟩ := sv_init hcfg ((all.take cut).map (fun p => (p.1, (lvs p.2).map (leafWord cfg fp)))) (by
    intro p hp
    rw [List.mem_map] at hp
    obtain ⟨p, hp, rfl⟩ := hp
    exact (hL p hp).d.suf)
  obtain ⟨pv, p1, p2⟩ := pv_init (all.take cut) hL hs
  have hnc : (all.map (·.1)).map (·.nodeCount) = Z.map (fun z => (z.1.2.map Grp.hasEnd).length) ++ ((all.drop cut).map (·.1)).map (·.nodeCount) := by
    conv_lhs => rw [← List.take_append_drop cut all]
    rw [List.map_append, List.map_append]
    congr 1
    rw [z1, List.map_map, List.map_map]
    apply List.map_congr_left
    intro z hz
    have : z.1 ∈ all.take cut := by rw [z1]; exact List.mem_map_of_mem hz
    simp [(hL _ this).n.nc]
  have hfst : (all.map (·.1)).take cut = (all.take cut).map (·.1) := by rw [List.map_take]
  have c1 : RankVector.initDense ((ds.take cut).map (·.labels)) ((ds.take cut).map (fun d => d.labels.length * 64)) = some v1 := by
    rw [htk, hnb (fun _ => true), List.map_map]; exact a1
  have c2 : RankVector.initDense ((ds.take cut).map (·.hasChild)) ((ds.take cut).map (fun d => d.labels.length * 64)) = some v2 := by
    rw [htk, hnb Item.child, List.map_map]; exact a2
  have c3 : RankVector.initDense ((ds.take cut).map (·.isPrefix)) ((all.map (·.1)).map (·.nodeCount)) = some v3 := by
    rw [htk, hnc, List.map_map]; exact a3
  have c4 : initSuffixes cfg ((all.map (·.1)).take cut) = some sv := by
    rw [hfst, ← s1, List.map_map]; rfl
  have hbl : (Z.flatMap fun z => z.1.2.map Grp.hasEnd) = ((all.take cut).flatMap (·.2)).map Grp.hasEnd := by
    rw [z1, List.flatMap_map, List.map_flatMap]
  have hinit : LoudsDense.init cfg (all.map (·.1)) ds cut = some {
      labelVec := v1, hasChildVec := v2, isPrefixVec := v3, suffixes := sv,
      values := ValueVector.init (((all.take cut).map (·.1)).map (·.values)) cfg.valueSize, prefixVec := pv, height := cut } := by
    unfold LoudsDense.init
    simp only [Option.bind_eq_bind]
    rw [c1]
    simp only [Option.bind_some]
    rw [c2]
    simp only [Option.bind_some]
    rw [c3]
    simp only [Option.bind_some]
    rw [c4]
    simp only [Option.bind_some]
    rw [hfst, p1]
    rfl
  refine ⟨_, hinit, ?_, rfl, ?_⟩
  swap
  · rw [b3.num, hbl, List.length_map]
    conv_rhs => rw [← List.take_append_drop cut all]
    rw [List.flatMap_append, List.length_append]
    congr 1
    rw [List.length_flatMap, List.map_map]
    congr 1
    apply List.map_congr_left
    intro p hp
    exact (h p (List.mem_of_mem_drop hp)).n.nc
  refine ⟨?_, ?_, ⟨(((all.drop cut).map (·.1)).map (·.nodeCount)).sum, ?_⟩, ?_, ?_, p2⟩
  · rw [← hns]; exact b1
  · rw [← hns]; exact b2
  · rw [← hbl]; exact b3
  · rw [lvs_words]; exact s2
  · exact level_values _ hL

theorem sparse_init (hcfg : cfg.Fine) (bmi : Bool) (all : List (Level × List Grp)) (cut : Nat) (h : ∀ p ∈ all, LvOK cfg fp p)
    (hs : (((all.drop cut).flatMap (·.2)).map Grp.pre).flatten.length < 2 ^ 32) (dc : Nat)
    (hdc : denseChildCountOf (all.map (·.1)) cut ((all.take cut).flatMap (·.2)).length = some dc)
    (hdc' : dc = (((all.take cut).flatMap (·.2)).flatMap Grp.children).length) :
    ∃ ls, LoudsSparse.init bmi cfg (all.map (·.1)) cut = some ls ∧ SView cfg fp ls ((all.take cut).flatMap (·.2)) ((all.drop cut).flatMap (·.2)) ∧
      ls.height = all.length ∧ ls.startLevel = cut := by
  have hL : ∀ p ∈ all.drop cut, LvOK cfg fp p := fun p hp => h p (List.mem_of_mem_drop hp)
  have hT : ∀ p ∈ all.take cut, LvOK cfg fp p := fun p hp => h p (List.mem_of_mem_take hp)
  have hfst : (all.map (·.1)).drop cut = (all.drop cut).map (·.1) := by rw [List.map_drop]
  have hj : ∀ ns : List Grp, (ns.flatMap Grp.jtems).map (·.2) = ns.flatMap Grp.items := by
    intro ns
    rw [List.map_flatMap]
    congr 1
    funext t
    simp [Grp.jtems, Function.comp_def]
  have hch : ∀ ns : List Grp, (ns.flatMap Grp.jtems).map (·.2.child) = (ns.flatMap Grp.items).map Item.child := by
    intro ns; rw [← hj, List.map_map]; rfl
  have hlb : ∀ ns : List Grp, (ns.flatMap Grp.jtems).map (·.2.label) = (ns.flatMap Grp.items).map (·.label) := by
    intro ns; rw [← hj, List.map_map]; rfl
  have hdn : (((all.map (·.1)).take cut).map (·.nodeCount)).sum = ((all.take cut).flatMap (·.2)).length := by
    rw [← List.map_take, List.length_flatMap, List.map_map]
    congr 1
    apply List.map_congr_left
    intro p hp
    exact (hT p hp).n.nc
  obtain ⟨v1, a1, b1⟩ := rv_init 512 (Or.inr rfl) (all.drop cut) (fun p => p.1.hasChild) (fun p => (p.2.flatMap Grp.jtems).map (·.2.child)) (fun p hp => (hL p hp).b.hc) []
  obtain ⟨bv, a2, n2, l2, b2⟩ := BitVector.init_holds (all.drop cut) (fun p => p.1.louds) (fun p => p.2.flatMap Grp.louds) (fun p hp => (hL p hp).b.lo) []
  have hnum : ((all.drop cut).map (·.1)).map (·.labels.length) = (all.drop cut).map (fun p => ((p.2.flatMap Grp.jtems).map (·.2.child)).length) ++ [] := by
    rw [List.append_nil, List.map_map]
    apply List.map_congr_left
    intro p hp
    simp [(hL p hp).b.labels]
  have hnum2 : ((all.drop cut).map (·.1)).map (·.labels.length) = (all.drop cut).map (fun p => (p.2.flatMap Grp.louds).length) ++ [] := by
    rw [List.append_nil, List.map_map]
    apply List.map_congr_left
    intro p hp
    simp only [Function.comp_def]
    rw [(hL p hp).b.labels, (hL p hp).b.lol]
  obtain ⟨v2, a3, w2, e2⟩ := SelectVector.init_wf bmi _ _ bv a2 l2
  obtain ⟨sv, s1, s2⟩ := sv_init hcfg ((all.drop cut).map (fun p => (p.1, (lvs p.2).map (leafWord cfg fp)))) (by
    intro p hp
    rw [List.mem_map] at hp
    obtain ⟨p, hp, rfl⟩ := hp
    exact (hL p hp).d.suf)
  obtain ⟨pv, p1, p2⟩ := pv_init (all.drop cut) hL hs
  have c1 : RankVector.initSparse (((all.drop cut).map (·.1)).map (·.hasChild)) (((all.drop cut).map (·.1)).map (·.labels.length)) = some v1 := by
    rw [hnum, List.map_map]; exact a1
  have c2 : SelectVector.init bmi (((all.drop cut).map (·.1)).map (·.louds)) (((all.drop cut).map (·.1)).map (·.labels.length)) = some v2 := by
    rw [hnum2, List.map_map]; exact a3
  have c4 : initSuffixes cfg ((all.drop cut).map (·.1)) = some sv := by
    rw [← s1, List.map_map]; rfl
  have hlab : ((((all.map (·.1)).map (·.labels)).take (all.map (·.1)).length).drop cut).flatten = (((all.drop cut).flatMap (·.2)).flatMap Grp.items).map (·.label) := by
    rw [List.take_of_length_le (by simp), ← List.map_drop, hfst, ← hlb]
    clear hs hdc hdc' a1 b1 a2 n2 b2 hnum hnum2 a3 s1 s2 p1 p2 c1 c2 c4 hdn hfst
    generalize all.drop cut = L at *
    induction L with
    | nil => rfl
    | cons a L ih =>
      rw [List.map_cons, List.map_cons, List.flatten_cons, ih (fun p hp => hL p (List.mem_cons_of_mem _ hp)), List.flatMap_cons, List.flatMap_append, List.map_append, (hL a (by simp)).b.labels]
  have hinit : LoudsSparse.init bmi cfg (all.map (·.1)) cut = some {
      height := (all.map (·.1)).length, startLevel := cut, denseNodeCount := ((all.take cut).flatMap (·.2)).length, denseChildCount := dc,
      labelVec := LabelVector.init ((all.map (·.1)).map (·.labels)) cut (all.map (·.1)).length, hasChildVec := v1, loudsVec := v2, suffixes := sv,
      values := ValueVector.init (((all.drop cut).map (·.1)).map (·.values)) cfg.valueSize, prefixVec := pv } := by
    unfold LoudsSparse.init; simp only [Option.bind_eq_bind]; rw [hdn, hdc]; simp only [Option.bind_some]; rw [hfst, c1]; simp only [Option.bind_some]; rw [c2]; simp only [Option.bind_some]; rw [c4]
    simp only [Option.bind_some]; rw [p1]; rfl
  refine ⟨_, hinit, ?_, by simp, rfl⟩
  refine ⟨?_, ?_, ?_, w2, ?_, ?_, level_values _ hL, p2, rfl, hdc'⟩
  · unfold LabelVector.init
    simp only
    rw [hlab]
  · have : ((all.drop cut).flatMap fun p => (p.2.flatMap Grp.jtems).map (·.2.child)) = (((all.drop cut).flatMap (·.2)).flatMap Grp.items).map Item.child := by
      rw [← hch, List.flatMap_assoc, List.map_flatMap]
    rw [← this]; exact b1
  · show Holds v2.bv.bits _
    rw [e2, List.flatMap_assoc]; exact b2
  · show v2.bv.numBits = _
    rw [e2, n2, List.flatMap_assoc]; rfl
  · rw [lvs_words]; exact s2

end

end Surf
