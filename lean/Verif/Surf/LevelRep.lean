import Verif.Surf.Suffix
import Verif.Surf.Trie

/-! What the builder holds for one level, in terms of the nodes and items of the trie, and the effect of the small steps of `buildNodes`. -/

set_option linter.unusedSimpArgs false

namespace Surf

/-- An item, with the depth at which its node branches. -/
abbrev JItem := Nat × Item

/-- The leaves among some items. -/
def leavesJ (J : List JItem) : List JItem := J.filter (fun j => !j.2.child)
/-- The pair of a leaf. -/
def leafKV (j : JItem) : KV := j.2.kvs.head?.getD ([], [])
/-- The suffix of a leaf. -/
def leafWord (cfg : Config) (fp : Bytes → Word) (j : JItem) : Word := cfg.suffix fp (leafKV j).1 (j.1 + 1)
/-- The value of a leaf. -/
def leafVal (cfg : Config) (j : JItem) : Bytes := (leafKV j).2.take cfg.valueSize

/-- The items of a node. -/
def Grp.jtems (t : Grp) : List JItem := t.items.map (fun i => (t.bd, i))
/-- The LOUDS bits of a node: 1 for its first item. -/
def Grp.louds (t : Grp) : List Bool := true :: List.replicate (t.items.length - 1) false

/-- Labels, has-child bits and LOUDS bits. -/
structure BRep (l : Level) (ys : Bytes) (hs os : List Bool) : Prop where
  labels : l.labels = ys
  hcl : hs.length = ys.length
  lol : os.length = ys.length
  hc : Holds l.hasChild hs
  hcw : l.hasChild.length = ys.length / 64 + 1
  lo : Holds l.louds os
  low : l.louds.length = ys.length / 64 + 1

/-- Suffixes and values. -/
structure DRep (cfg : Config) (l : Level) (ss : List Word) (vs : List Bytes) : Prop where
  suf : SufInv cfg.suffixLen ss l
  val : l.values = vs.flatten
  vc : l.valueCount = vs.length

/-- Prefixes. -/
structure NRep (l : Level) (ns : List Grp) : Prop where
  hp : Holds l.hasPrefix (ns.map (fun t => !t.pre.isEmpty))
  hpw : l.hasPrefix.length = ns.length / 64 + 1
  pre : l.prefixes = (ns.map Grp.pre).filter (fun p => !p.isEmpty)
  nc : l.nodeCount = ns.length

/-- The level holds the items `J`, with LOUDS bits `lo`, of the nodes `ns` (and, at the end, of a node that is not complete yet). -/
structure LRep (cfg : Config) (fp : Bytes → Word) (l : Level) (J : List JItem) (lo : List Bool) (ns : List Grp) : Prop where
  b : BRep l (J.map (·.2.label)) (J.map (·.2.child)) lo
  d : DRep cfg l ((leavesJ J).map (leafWord cfg fp)) ((leavesJ J).map (leafVal cfg))
  n : NRep l ns

section
variable {cfg : Config} {fp : Bytes → Word}

theorem lrep_fresh : LRep cfg fp Level.fresh [] [] [] where
  b := ⟨rfl, rfl, rfl, Holds.replicate_zero 1, rfl, Holds.replicate_zero 1, rfl⟩
  d := ⟨sufInv_fresh _, rfl, rfl⟩
  n := ⟨Holds.replicate_zero 1, rfl, rfl, rfl⟩

theorem BRep.append {l : Level} {labels : Bytes} {hc lo : List Bool} (h : BRep l labels hc lo) (c : UInt8) :
    BRep (l.appendLabel c).moveToNextItemSlot (labels ++ [c]) (hc ++ [false]) (lo ++ [false]) := by
  have h1 : Holds l.hasChild (hc ++ [false]) := h.hc.snoc_false (by rw [h.hcl, h.hcw]; omega)
  have h2 : Holds l.louds (lo ++ [false]) := h.lo.snoc_false (by rw [h.lol, h.low]; omega)
  have hn : (l.appendLabel c).numItems = labels.length + 1 := by simp [Level.numItems, Level.appendLabel, h.labels]
  have e1 := h.hcw
  have e2 := h.low
  unfold Level.moveToNextItemSlot
  rw [hn]
  by_cases e : (labels.length + 1) % 64 = 0
  · rw [if_pos e]
    refine ⟨by simp [Level.appendLabel, h.labels], by simp [h.hcl], by simp [h.lol], h1.append_zero, ?_, h2.append_zero, ?_⟩
    · simp [Level.appendLabel]; omega
    · simp [Level.appendLabel]; omega
  · rw [if_neg e]
    refine ⟨by simp [Level.appendLabel, h.labels], by simp [h.hcl], by simp [h.lol], h1, ?_, h2, ?_⟩
    · simp [Level.appendLabel]; omega
    · simp [Level.appendLabel]; omega

theorem move_congr {l l' : Level} (h1 : l'.labels = l.labels) (h2 : l'.hasChild = l.hasChild) (h3 : l'.louds = l.louds) :
    l'.moveToNextItemSlot.labels = l.moveToNextItemSlot.labels ∧ l'.moveToNextItemSlot.hasChild = l.moveToNextItemSlot.hasChild ∧
      l'.moveToNextItemSlot.louds = l.moveToNextItemSlot.louds := by
  unfold Level.moveToNextItemSlot Level.numItems
  rw [h1]
  split
  · exact ⟨rfl, by rw [h2], by rw [h3]⟩
  · exact ⟨h1, h2, h3⟩

theorem BRep.congr {l l' : Level} {labels : Bytes} {hc lo : List Bool} (h : BRep l labels hc lo)
    (e : l'.labels = l.labels ∧ l'.hasChild = l.hasChild ∧ l'.louds = l.louds) : BRep l' labels hc lo := by
  obtain ⟨e1, e2, e3⟩ := e
  refine ⟨by rw [e1]; exact h.1, h.2, h.3, by rw [e2]; exact h.4, by rw [e2]; exact h.5, by rw [e3]; exact h.6, by rw [e3]; exact h.7⟩

theorem move_d {l : Level} {ss : List Word} {vs : List Bytes} (h : DRep cfg l ss vs) (c : UInt8) :
    DRep cfg (l.appendLabel c).moveToNextItemSlot ss vs := by
  obtain ⟨⟨a, b, c, r⟩, d, e⟩ := h
  unfold Level.moveToNextItemSlot
  split <;> exact ⟨⟨a, b, c, r⟩, d, e⟩

theorem move_n {l : Level} {ns : List Grp} (h : NRep l ns) (c : UInt8) : NRep (l.appendLabel c).moveToNextItemSlot ns := by
  obtain ⟨a, b, d, e⟩ := h
  unfold Level.moveToNextItemSlot
  split <;> exact ⟨a, b, d, e⟩

theorem BRep.setHasChild {l : Level} {labels : Bytes} {hc lo : List Bool} (h : BRep l labels (hc ++ [false]) lo) :
    ∃ ws, l.setHasChild = some { l with hasChild := ws } ∧ BRep { l with hasChild := ws } labels (hc ++ [true]) lo := by
  have hl := h.hcl
  simp only [List.length_append, List.length_singleton] at hl
  obtain ⟨ws, e1, e2, e3⟩ := h.hc.setBit hc.length (by simp)
  refine ⟨ws, ?_, ?_⟩
  · unfold Level.setHasChild
    rw [show l.numItems = labels.length by rw [Level.numItems, h.labels]]
    rw [usub, if_pos (by omega)]
    simp only [Option.bind_eq_bind, Option.bind_some]
    rw [show labels.length - 1 = hc.length by omega, e1]
    rfl
  · refine ⟨h.labels, by simpa using hl, h.lol, ?_, by rw [← h.hcw]; exact e2, h.lo, h.low⟩
    rw [List.set_append_right _ _ (Nat.le_refl _), Nat.sub_self] at e3
    exact e3

/-- `insertLeaf` appends a suffix and a value. -/
theorem DRep.insertLeaf (hcfg : cfg.Fine) {l : Level} {ss : List Word} {vs : List Bytes} (h : DRep cfg l ss vs) (key : Bytes) (D : Nat) (v : Bytes)
    (hv : cfg.valueSize ≤ v.length) :
    ∃ ws, l.insertLeaf cfg fp key D v =
        some { l with suffixes := ws, suffixCount := l.suffixCount + 1, values := l.values ++ v.take cfg.valueSize, valueCount := l.valueCount + 1 } ∧
      DRep cfg { l with suffixes := ws, suffixCount := l.suffixCount + 1, values := l.values ++ v.take cfg.valueSize, valueCount := l.valueCount + 1 }
        (ss ++ [cfg.suffix fp key (D + 1)]) (vs ++ [v.take cfg.valueSize]) := by
  obtain ⟨h1, h2⟩ := hcfg.suffix_spec fp key (D + 1)
  obtain ⟨ws, e1, e2⟩ := insertSuffixBits_spec cfg.suffixLen hcfg.fits _ h2 ss l h.suf
  refine ⟨ws, ?_, ?_⟩
  · unfold Level.insertLeaf Level.insertSuffix Level.insertValue
    rw [h1]
    simp only [Option.bind_eq_bind, Option.bind_some]
    rw [e1]
    simp only [Option.bind_some]
    rw [slice, if_pos ⟨Nat.zero_le _, hv⟩]
    rfl
  · refine ⟨⟨e2.count, e2.words, e2.holds, e2.room⟩, ?_, ?_⟩
    · show l.values ++ _ = _
      rw [h.val]
      simp
    · show l.valueCount + 1 = _
      rw [h.vc]
      simp

theorem leavesJ_append (J : List JItem) (j : JItem) : leavesJ (J ++ [j]) = leavesJ J ++ (if j.2.child then [] else [j]) := by
  unfold leavesJ
  rw [List.filter_append]
  cases h : j.2.child <;> simp [h]

theorem LRep.term (hcfg : cfg.Fine) {l : Level} {J : List JItem} {lo : List Bool} {ns : List Grp} (h : LRep cfg fp l J lo ns) (x : KV) (D : Nat)
    (hv : cfg.valueSize ≤ x.2.length) :
    ∃ l', l.insertTerminator cfg fp x.1 D x.2 = some l' ∧ LRep cfg fp l' (J ++ [(D, ⟨0xff, true, [x]⟩)]) (lo ++ [false]) ns := by
  have hb := h.b.append labelTerminator
  have hd := move_d h.d labelTerminator
  have hn := move_n h.n labelTerminator
  obtain ⟨ws, e1, e2⟩ := DRep.insertLeaf (fp := fp) hcfg (l := { l.appendLabel labelTerminator with isLastItemTerminator := true })
    (ss := (leavesJ J).map (leafWord cfg fp)) (vs := (leavesJ J).map (leafVal cfg)) ⟨⟨h.d.suf.1, h.d.suf.2, h.d.suf.3, h.d.suf.4⟩, h.d.val, h.d.vc⟩ x.1 D x.2 hv
  refine ⟨_, by unfold Level.insertTerminator; simp only [Option.bind_eq_bind]; rw [e1]; rfl, ?_⟩
  obtain ⟨⟨f1, f2, f3, fr⟩, f4, f5⟩ := e2
  have hlv : leavesJ (J ++ [(D, (⟨0xff, true, [x]⟩ : Item))]) = leavesJ J ++ [(D, ⟨0xff, true, [x]⟩)] := by
    rw [leavesJ_append]; rfl
  constructor
  · obtain ⟨b1, b2, b3, b4, b5, b6, b7⟩ := hb
    have hc : (J ++ [(D, (⟨0xff, true, [x]⟩ : Item))]).map (·.2.child) = J.map (·.2.child) ++ [false] := by simp [Item.child]
    have hl : (J ++ [(D, (⟨0xff, true, [x]⟩ : Item))]).map (·.2.label) = J.map (·.2.label) ++ [labelTerminator] := by simp [labelTerminator]
    rw [hc, hl]
    exact BRep.congr ⟨b1, b2, b3, b4, b5, b6, b7⟩ (move_congr rfl rfl rfl)
  · rw [hlv, List.map_append, List.map_append]
    unfold Level.moveToNextItemSlot
    split <;> exact ⟨⟨f1, f2, f3, fr⟩, f4, f5⟩
  · obtain ⟨a, b, d, e⟩ := h.n
    unfold Level.moveToNextItemSlot
    split <;> exact ⟨a, b, d, e⟩

theorem LRep.leaf (hcfg : cfg.Fine) {l : Level} {J : List JItem} {lo : List Bool} {ns : List Grp} (h : LRep cfg fp l J lo ns) (x : KV) (D : Nat) (c : UInt8)
    (hv : cfg.valueSize ≤ x.2.length) :
    ∃ l', (l.appendLabel c).moveToNextItemSlot.insertLeaf cfg fp x.1 D x.2 = some l' ∧ LRep cfg fp l' (J ++ [(D, ⟨c, false, [x]⟩)]) (lo ++ [false]) ns := by
  have hb := h.b.append c
  have hd := move_d h.d c
  have hn := move_n h.n c
  obtain ⟨ws, e1, e2⟩ := hd.insertLeaf (fp := fp) hcfg x.1 D x.2 hv
  refine ⟨_, e1, ?_⟩
  have hlv : leavesJ (J ++ [(D, (⟨c, false, [x]⟩ : Item))]) = leavesJ J ++ [(D, ⟨c, false, [x]⟩)] := by
    rw [leavesJ_append]; rfl
  constructor
  · obtain ⟨b1, b2, b3, b4, b5, b6, b7⟩ := hb
    have hc : (J ++ [(D, (⟨c, false, [x]⟩ : Item))]).map (·.2.child) = J.map (·.2.child) ++ [false] := by simp [Item.child]
    have hl : (J ++ [(D, (⟨c, false, [x]⟩ : Item))]).map (·.2.label) = J.map (·.2.label) ++ [c] := by simp
    rw [hc, hl]
    exact ⟨b1, b2, b3, b4, b5, b6, b7⟩
  · rw [hlv, List.map_append, List.map_append]
    exact e2
  · obtain ⟨a, b, d, e⟩ := hn
    exact ⟨a, b, d, e⟩

theorem LRep.child {l : Level} {J : List JItem} {lo : List Bool} {ns : List Grp} (h : LRep cfg fp l J lo ns) (D : Nat) (i : Item) (hi : i.child = true) :
    ∃ l', (l.appendLabel i.label).moveToNextItemSlot.setHasChild = some l' ∧ LRep cfg fp l' (J ++ [(D, i)]) (lo ++ [false]) ns := by
  have hb := h.b.append i.label
  have hd := move_d h.d i.label
  have hn := move_n h.n i.label
  obtain ⟨ws, e1, e2⟩ := hb.setHasChild
  refine ⟨_, e1, ?_⟩
  have hlv : leavesJ (J ++ [(D, i)]) = leavesJ J := by
    rw [leavesJ_append, if_pos hi]; simp
  constructor
  · have hc : (J ++ [(D, i)]).map (·.2.child) = J.map (·.2.child) ++ [true] := by simp [hi]
    have hl : (J ++ [(D, i)]).map (·.2.label) = J.map (·.2.label) ++ [i.label] := by simp
    rw [hc, hl]
    exact e2
  · rw [hlv]
    obtain ⟨⟨f1, f2, f3, fr⟩, f4, f5⟩ := hd
    exact ⟨⟨f1, f2, f3, fr⟩, f4, f5⟩
  · obtain ⟨a, b, d, e⟩ := hn
    exact ⟨a, b, d, e⟩

/-- The prefix part of a node. -/
theorem storePrefix_spec {l : Level} {ns : List Grp} (h : NRep l ns) (t : Grp) {key : Bytes} (hd : t.d ≤ t.bd) (hk : t.bd ≤ key.length)
    (hp : t.pre = (key.take t.bd).drop t.d) :
    ∃ ws ps, l.storePrefix t.d t.bd key = some { l with hasPrefix := ws, prefixes := ps } ∧ ws.length = l.hasPrefix.length ∧
      Holds ws ((ns ++ [t]).map (fun t => !t.pre.isEmpty)) ∧ ps = ((ns ++ [t]).map Grp.pre).filter (fun p => !p.isEmpty) := by
  have hlen : t.pre.length = t.bd - t.d := by rw [hp]; simp [hk]
  have hw : ns.length < 64 * l.hasPrefix.length := by rw [h.hpw]; omega
  have hs := h.hp.snoc_false (by simpa using hw)
  unfold Level.storePrefix
  by_cases e : t.bd - t.d > 0
  · rw [if_pos e, slice, if_pos ⟨hd, hk⟩]
    simp only [Option.bind_eq_bind, Option.bind_some]
    have hne : t.pre.isEmpty = false := by
      cases hh : t.pre with
      | nil => rw [hh] at hlen; simp at hlen; omega
      | cons a b => rfl
    obtain ⟨ws, e1, e2, e3⟩ := hs.setBit ns.length (by simp)
    have e4 : Surf.setBit l.hasPrefix l.nodeCount = some ws := by rw [h.nc]; exact e1
    rw [e4]
    refine ⟨ws, _, rfl, e2, ?_, ?_⟩
    · rw [List.set_append_right _ _ (by simp)] at e3
      simp only [List.length_map, Nat.sub_self, List.set_cons_zero] at e3
      rw [List.map_append]
      simpa [hne] using e3
    · show l.prefixes ++ _ = _
      rw [h.pre, List.map_append, List.filter_append, ← hp]
      simp [hne]
  · rw [if_neg e]
    have hemp : t.pre = [] := List.eq_nil_of_length_eq_zero (by omega)
    refine ⟨_, _, rfl, rfl, ?_, ?_⟩
    · rw [List.map_append]
      simpa [hemp] using hs
    · rw [h.pre, List.map_append, List.filter_append]
      simp [hemp]

/-- `finishNode` completes the node. -/
theorem LRep.finish {l : Level} {J : List JItem} {lo : List Bool} {ns : List Grp} {k : Nat} (h : LRep cfg fp l J (lo ++ List.replicate (k + 1) false) ns)
    (t : Grp) {key : Bytes} (hd : t.d ≤ t.bd) (hk : t.bd ≤ key.length) (hp : t.pre = (key.take t.bd).drop t.d) :
    ∃ l', l.finishNode t.d t.bd lo.length key = some l' ∧ LRep cfg fp l' J (lo ++ true :: List.replicate k false) (ns ++ [t]) := by
  obtain ⟨ws, ps, e1, e2, e3, e4⟩ := storePrefix_spec h.n t hd hk hp
  obtain ⟨us, f1, f2, f3⟩ := h.b.lo.setBit lo.length (by simp)
  rw [List.set_append_right _ _ (by simp), Nat.sub_self] at f3
  refine ⟨_, by unfold Level.finishNode; simp only [Option.bind_eq_bind]; rw [e1]; simp only [Option.bind_some]; rw [f1]; rfl, ?_⟩
  have hw := h.n.hpw
  have hn := h.n.nc
  refine ⟨⟨h.b.labels, h.b.hcl, ?_, h.b.hc, h.b.hcw, f3, f2.trans h.b.low⟩, ⟨⟨h.d.suf.1, h.d.suf.2, h.d.suf.3, h.d.suf.4⟩, h.d.val, h.d.vc⟩, ?_⟩
  · rw [← h.b.lol]; simp
  · constructor
    · by_cases e : (l.nodeCount + 1) % 64 = 0
      · simp only [if_pos e]; exact e3.append_zero
      · simp only [if_neg e]; exact e3
    · by_cases e : (l.nodeCount + 1) % 64 = 0
      · simp only [if_pos e]; simp; omega
      · simp only [if_neg e]; simp; omega
    · exact e4
    · simp [hn]

end

end Surf
