import Verif.Art.HeapTree

/-! # What the critical sections do to the tree -/

set_option linter.unusedSimpArgs false

namespace Art

open Surf Spec

/-! ## Leaves -/

namespace Tree

variable {E : Addr → Bytes} {live : Addr → Prop} {V : Addr → View} {root : Addr} {m : Map}

/-- Which map results from putting `l` into a slot that was empty or held a leaf with the same key. -/
theorem put_cond (h : Tree E live V root m) {n : Addr} (hn : live n) {b : UInt8} {l : Leaf} (hl : E n ++ [b] <+: l.key)
    (hold : (V n).child b = none ∨ ∃ l0, (V n).child b = some (.leaf l0) ∧ l0.key = l.key) :
    (∀ K, ¬ E n ++ [b] <+: K → (m.put l.key l.value) K = m K) ∧
    (∀ K, E n ++ [b] <+: K → ∀ v, (m.put l.key l.value) K = some v ↔ ∃ l', some l = some l' ∧ l'.key = K ∧ l'.value = v) := by
  constructor
  · intro K hK
    have : K ≠ l.key := by rintro rfl; exact hK hl
    simp [Map.put, this]
  · intro K hK v
    by_cases e : K = l.key
    · subst e
      simp [Map.put]
    · have hnone : m K = none := by
        rcases hold with hold | ⟨l0, hold, hk⟩
        · exact h.lookup_none hn hK hold
        · rw [h.lookup_leaf hn hK hold, if_neg]
          rw [hk]
          exact Ne.symm e
      simp [Map.put, e, hnone, Ne.symm e]

/-- Which map results from removing the leaf `l` from its slot. -/
theorem del_cond (h : Tree E live V root m) {n : Addr} (hn : live n) {b : UInt8} {l : Leaf} (hold : (V n).child b = some (.leaf l)) :
    (∀ K, ¬ E n ++ [b] <+: K → (m.delete l.key) K = m K) ∧
    (∀ K, E n ++ [b] <+: K → ∀ v, (m.delete l.key) K = some v ↔ ∃ l', (none : Option Leaf) = some l' ∧ l'.key = K ∧ l'.value = v) := by
  have hl := (h.leaves n hn).leaf b l hold
  constructor
  · intro K hK
    have : K ≠ l.key := by rintro rfl; exact hK hl
    simp [Map.delete, this]
  · intro K hK v
    by_cases e : K = l.key
    · subst e
      simp [Map.delete]
    · have hnone : m K = none := by
        rw [h.lookup_leaf hn hK hold, if_neg (Ne.symm e)]
      simp [Map.delete, e, hnone]

end Tree

namespace HTr

variable {E : Addr → Bytes} {live : Addr → Prop} {h : Heap} {root : Addr} {m : Map}

theorem tree_set (ht : HTr E live h root m) {a : Addr} {n n' : Node} {b : UInt8} {r : Option Ref} {c : Nat}
    (hn : h[a]? = some n) (hc : Changed n n' (upd n.child b r) c) : n'.view = (view h a).set b r := by
  rw [hc.view, view_eq hn]
  rfl

/-- art.go:209 -/
theorem insertChild_commit (ht : HTr E live h root m) {a : Addr} (ha : live a) {n : Node} (hn : h[a]? = some n)
    (hf : n.isFull = some false) {b : UInt8} (hb : n.child b = none) {l : Leaf} (hl : E a ++ [b] <+: l.key) :
    ∃ h', insertChildAt h a b (.leaf l) = some h' ∧ Frame h h' [a] ∧ HTr E live h' root (m.put l.key l.value) := by
  obtain ⟨n0, hn0, hv0, ok⟩ := ht.view_live ha
  rw [hn] at hn0
  simp at hn0
  subst hn0
  obtain ⟨n', h1, h2, h3⟩ := insertChild_spec ok.wf b (.leaf l) hf hb
  have hvb : (view h a).child b = none := by rw [hv0]; exact hb
  refine ⟨h.set a n', by simp [insertChildAt, hn, h1], Frame.set hn h3 h2.cap (by simp), ?_⟩
  refine ht.setNode ha (h2.ok_upd ok) ?_
  rw [ht.tree_set hn h2]
  obtain ⟨c1, c2⟩ := ht.tree.put_cond ha hl (Or.inl hvb)
  exact ht.tree.setLeaf ha b (by rw [hvb]; simp) (some l) (by simpa using hl) c1 c2

/-- art.go:170-180 -/
theorem updatePrefixLeaf_commit (ht : HTr E live h root m) {a : Addr} (ha : live a) {key value : Bytes} (hk : E a = key)
    (hkl : key.length < 2 ^ 32) (hvl : value.length < 2 ^ 32) :
    ∃ h', updatePrefixLeaf h a key value = some h' ∧ Frame h h' [a] ∧ HTr E live h' root (m.put key value) := by
  obtain ⟨n, hn, hv, ok⟩ := ht.view_live ha
  refine ⟨h.set a { n with prefixLeaf := some (newLeaf key value) }, by simp [updatePrefixLeaf, hn], by refine Frame.set (n := n) hn ?_ ?_ (by simp) <;> rfl, ?_⟩
  refine ht.setNode ha ?_ ?_
  · refine ⟨ok.wf, ok.plen_le, ok.pre, ok.min, ?_⟩
    intro hr
    have := ok.two hr
    have hb : n.prefixLeaf.isSome.toNat ≤ 1 := Bool.toNat_le _
    show 2 ≤ cnt n.child + 1
    omega
  · have e : ({ n with prefixLeaf := some (newLeaf key value) } : Node).view = { view h a with pleaf := some (newLeaf key value) } := by
      rw [hv]; rfl
    rw [e]
    refine ht.tree.setPleaf ha (some (newLeaf key value)) ?_ ?_ ?_
    · intro l hl
      simp at hl
      subst hl
      rw [newLeaf_key hkl, hk]
    · intro K hK
      rw [hk] at hK
      simp [Map.put, hK]
    · simp [Map.put, hk, newLeaf_value hkl hvl]

/-- art.go:296 -/
theorem clearPrefixLeaf_commit (ht : HTr E live h root m) {a : Addr} (ha : live a) {n : Node} (hn : h[a]? = some n)
    (htwo : a ≠ root → 2 ≤ cnt n.child) :
    ∃ h', clearPrefixLeaf h a = some h' ∧ Frame h h' [a] ∧ HTr E live h' root (m.delete (E a)) := by
  obtain ⟨n0, hn0, hv, ok⟩ := ht.view_live ha
  rw [hn] at hn0
  simp at hn0
  subst hn0
  refine ⟨h.set a { n with prefixLeaf := none }, by simp [clearPrefixLeaf, hn], by refine Frame.set (n := n) hn ?_ ?_ (by simp) <;> rfl, ?_⟩
  refine ht.setNode ha ?_ ?_
  · refine ⟨ok.wf, ok.plen_le, ok.pre, ok.min, ?_⟩
    intro hr
    have := htwo hr
    show 2 ≤ cnt n.child + 0
    omega
  · have e : ({ n with prefixLeaf := none } : Node).view = { view h a with pleaf := none } := by
      rw [hv]; rfl
    rw [e]
    refine ht.tree.setPleaf ha none (by simp) ?_ ?_
    · intro K hK
      simp [Map.delete, hK]
    · simp [Map.delete]

/-- art.go:341 -/
theorem removeChild_commit (ht : HTr E live h root m) {a : Addr} (ha : live a) {n : Node} (hn : h[a]? = some n) {b : UInt8} {l : Leaf}
    {slot pos : Nat} (hf : n.findChild b = some (.leaf l, slot, pos)) (hmin : minCount n.cap < cnt n.child)
    (htwo : a ≠ root → 3 ≤ cnt n.child + n.prefixLeaf.isSome.toNat) :
    ∃ h', removeChildAt h a pos = some h' ∧ Frame h h' [a] ∧ HTr E live h' root (m.delete l.key) := by
  obtain ⟨n0, hn0, hv, ok⟩ := ht.view_live ha
  rw [hn] at hn0
  simp at hn0
  subst hn0
  obtain ⟨n', h1, h2, h3⟩ := removeChild_spec ok.wf b hf
  have hb : n.child b = some (.leaf l) := by simp [Node.child, hf]
  have hvb : (view h a).child b = some (.leaf l) := by rw [hv]; exact hb
  have hcu := cnt_upd n.child b none
  simp only [hb, Option.isSome_none, Bool.toNat_false, Option.isSome_some, Bool.toNat_true] at hcu
  refine ⟨h.set a n', by simp [removeChildAt, hn, h1], Frame.set hn h3 h2.cap (by simp), ?_⟩
  refine ht.setNode ha (h2.ok ok (by omega) (fun hr => by have := htwo hr; omega)) ?_
  rw [ht.tree_set hn h2]
  obtain ⟨c1, c2⟩ := ht.tree.del_cond ha hvb
  exact ht.tree.setLeaf ha b (by rw [hvb]; simp) none (by simp) c1 c2

/-- node.go:299 -/
theorem replaceLeaf_commit (ht : HTr E live h root m) {a : Addr} (ha : live a) {n : Node} (hn : h[a]? = some n) {b : UInt8} {l l' : Leaf}
    {slot pos : Nat} (hf : n.findChild b = some (.leaf l, slot, pos)) (hk : l'.key = l.key) :
    ∃ h', storeLoc h (a, slot) (.leaf l') = some h' ∧ Frame h h' [a] ∧ HTr E live h' root (m.put l'.key l'.value) := by
  obtain ⟨n0, hn0, hv, ok⟩ := ht.view_live ha
  rw [hn] at hn0
  simp at hn0
  subst hn0
  have hb : n.child b = some (.leaf l) := by simp [Node.child, hf]
  have hvb : (view h a).child b = some (.leaf l) := by rw [hv]; exact hb
  have hl := (ht.tree.leaves a ha).leaf b l hvb
  obtain ⟨n', h1, h2, h3⟩ := storeLoc_child hn ok.wf hf (.leaf l')
  refine ⟨_, h1, Frame.set hn h3 h2.cap (by simp), ?_⟩
  refine ht.setNode ha (h2.ok_upd ok) ?_
  rw [ht.tree_set hn h2]
  obtain ⟨c1, c2⟩ := ht.tree.put_cond ha (l := l') (by rw [hk]; exact hl) (Or.inr ⟨l, hvb, hk.symm⟩)
  exact ht.tree.setLeaf ha b (by rw [hvb]; simp) (some l') (by simpa [hk] using hl) c1 c2

/-! ## A node is replaced by one of another type -/

theorem replaceNode (ht : HTr E live h root m) {n : Addr} (hn : live n) {nd : Node} (hnd : h[n]? = some nd) {loc : Loc}
    (hat : At E live h root loc n) {nn : Node} {b : UInt8} {o : Option Leaf} {c : Nat} (hch : Changed nd nn (upd nd.child b (o.map .leaf)) c)
    (hver : nn.version = 0) (hcap : nn.cap ≠ 0) (hold : ∀ c, nd.child b ≠ some (.node c)) (ok : NodeOK (E n) (n = root) nn)
    (ho : ∀ l, o = some l → E n ++ [b] <+: l.key) {m' : Map} (hm1 : ∀ K, ¬ E n ++ [b] <+: K → m' K = m K)
    (hm2 : ∀ K, E n ++ [b] <+: K → ∀ v, m' K = some v ↔ ∃ l, o = some l ∧ l.key = K ∧ l.value = v) :
    ∃ h', allocAt h loc nn = some h' ∧ Frame h h' [loc.1] ∧ h'.length = h.length + 1 ∧
      HT (upd E h.length (E n)) (fun a => a = h.length ∨ (live a ∧ a ≠ n)) h' m' := by
  have hq := ht.fresh
  obtain ⟨d, hd, hdk⟩ := ht.dummy
  have hqne : ∀ a, live a → a ≠ h.length := fun a ha e => hq (e ▸ ha)
  have hvn : view h n = nd.view := view_eq hnd
  have hnv : nn.view = nd.view.set b (o.map .leaf) := by rw [hch.view]; rfl
  have hpos := ht.pos
  cases hat with
  | root i =>
    have h0 : (h ++ [nn])[0]? = some d := by rw [List.getElem?_append_left hpos]; exact hd
    refine ⟨(h ++ [nn]).set 0 { d with kids := .dummy (some (.node h.length)) }, storeLoc_root i h0 hdk _,
      (Frame.append hver hcap _).trans (Frame.set (n' := { d with kids := .dummy (some (.node h.length)) }) h0 rfl (by simp [Node.cap, hdk]) (by simp)), by simp, h.length, ?_⟩
    have hget : ∀ a, a ≠ 0 → ((h ++ [nn]).set 0 { d with kids := .dummy (some (.node h.length)) })[a]? = (h ++ [nn])[a]? :=
      fun a ha => List.getElem?_set_ne (Ne.symm ha)
    have hgetl : ∀ a, live a → ((h ++ [nn]).set 0 { d with kids := .dummy (some (.node h.length)) })[a]? = h[a]? := by
      intro a ha
      rw [hget a (ht.ne_zero ha), List.getElem?_append_left (ht.lt ha)]
    have hgetq : ((h ++ [nn]).set 0 { d with kids := .dummy (some (.node h.length)) })[h.length]? = some nn := by
      rw [hget _ (by omega)]; simp
    have t1 := ht.tree.renameRoot hq (V' := upd (view h) h.length nd.view) (by rw [upd_same, hvn])
      (fun a ha hne => by rw [upd_other _ _ (hqne a ha)])
    rw [ht.tree.root_E] at ho hm1 hm2
    have t2 := t1.setLeaf (n := h.length) (Or.inl rfl) b (by rw [upd_same]; exact hold) o (by rw [upd_same]; exact ho)
      (m' := m') (by rw [upd_same]; exact hm1) (by rw [upd_same]; exact hm2)
    refine ⟨?_, ⟨{ d with kids := .dummy (some (.node h.length)) }, by rw [List.getElem?_set_self (by simp)], rfl⟩, ?_, ?_⟩
    · refine t2.congr (fun _ => Iff.rfl) (fun a _ => by rw [ht.tree.root_E]) ?_
      rintro a (rfl | ⟨ha, hne⟩)
      · rw [view_eq hgetq, upd_same, upd_same, hnv]
      · rw [view_congr (hgetl a ha), upd_other _ _ (hqne a ha), upd_other _ _ (hqne a ha)]
    · rintro (e | ⟨e, -⟩)
      · exact absurd e (Nat.ne_of_lt hpos)
      · exact ht.zero e
    · rintro a (rfl | ⟨ha, hne⟩)
      · refine ⟨nn, hgetq, ?_⟩
        rw [upd_same]
        exact ⟨ok.wf, ok.plen_le, ok.pre, ok.min, fun hh => absurd rfl hh⟩
      · obtain ⟨k, hk, okk⟩ := ht.node a ha
        refine ⟨k, by rw [hgetl a ha]; exact hk, ?_⟩
        rw [upd_other _ _ (hqne a ha)]
        exact ⟨okk.wf, okk.plen_le, okk.pre, okk.min, fun _ => okk.two hne⟩
  | child hp hnp hf =>
    rename_i p b' slot pos np
    have hplt := ht.lt hp
    obtain ⟨np0, hnp0, hvp, okp⟩ := ht.view_live hp
    rw [hnp] at hnp0
    simp at hnp0
    subst hnp0
    have hp0 : (h ++ [nn])[p]? = some np := by rw [List.getElem?_append_left hplt]; exact hnp
    obtain ⟨np', h1, h2, h3⟩ := storeLoc_child hp0 okp.wf hf (.node h.length)
    have hpb : (view h p).child b' = some (.node n) := by rw [hvp]; simp [Node.view, Node.child, hf]
    have hpn : p ≠ n := (ht.tree.child_ne hp hpb).symm
    have hrn : root ≠ n := by rintro rfl; exact ht.tree.root_not_child hp hpb
    refine ⟨(h ++ [nn]).set p np', h1, (Frame.append hver hcap _).trans (Frame.set hp0 h3 h2.cap (by simp)), by simp, root, ?_⟩
    have hget : ∀ a, a ≠ p → ((h ++ [nn]).set p np')[a]? = (h ++ [nn])[a]? :=
      fun a ha => List.getElem?_set_ne (Ne.symm ha)
    have hgetl : ∀ a, live a → a ≠ p → ((h ++ [nn]).set p np')[a]? = h[a]? := by
      intro a ha hne
      rw [hget a hne, List.getElem?_append_left (ht.lt ha)]
    have hgetq : ((h ++ [nn]).set p np')[h.length]? = some nn := by
      rw [hget _ (Ne.symm (hqne p hp))]; simp
    have hgetp : ((h ++ [nn]).set p np')[p]? = some np' := by
      rw [List.getElem?_set_self (by rw [List.length_append]; exact Nat.lt_of_lt_of_le hplt (Nat.le_add_right _ _))]
    have hq' := hqne p hp
    have t1 := ht.tree.renameChild hp hpb hq (V' := upd (upd (view h) h.length nd.view) p ((view h p).set b' (some (.node h.length))))
      (by rw [upd_other _ _ (Ne.symm hq'), upd_same, hvn]) (by rw [upd_same])
      (fun a ha _ hne => by rw [upd_other _ _ hne, upd_other _ _ (hqne a ha)])
    have t2 := t1.setLeaf (n := h.length) (Or.inl rfl) b (by rw [upd_other _ _ (Ne.symm hq'), upd_same]; exact hold) o (by rw [upd_same]; exact ho)
      (m' := m') (by rw [upd_same]; exact hm1) (by rw [upd_same]; exact hm2)
    refine ⟨?_, ⟨d, by rw [hget 0 (Ne.symm (ht.ne_zero hp)), List.getElem?_append_left hpos]; exact hd, hdk⟩, ?_, ?_⟩
    · refine t2.congr (fun _ => Iff.rfl) (fun _ _ => rfl) ?_
      rintro a (rfl | ⟨ha, hne⟩)
      · rw [view_eq hgetq, upd_same, upd_other _ _ (Ne.symm hq'), upd_same, hnv]
      · rw [upd_other _ _ (hqne a ha)]
        by_cases e : a = p
        · subst e
          rw [view_eq hgetp, upd_same, h2.view, hvp]
          rfl
        · rw [view_congr (hgetl a ha e), upd_other _ _ e, upd_other _ _ (hqne a ha)]
    · rintro (e | ⟨e, -⟩)
      · exact absurd e (Nat.ne_of_lt hpos)
      · exact ht.zero e
    · rintro a (rfl | ⟨ha, hne⟩)
      · refine ⟨nn, hgetq, ?_⟩
        rw [upd_same]
        exact ⟨ok.wf, ok.plen_le, ok.pre, ok.min, fun _ => ok.two (Ne.symm hrn)⟩
      · rw [upd_other _ _ (hqne a ha)]
        by_cases e : a = p
        · subst e
          exact ⟨np', hgetp, h2.ok_upd okp⟩
        · obtain ⟨k, hk, okk⟩ := ht.node a ha
          exact ⟨k, by rw [hgetl a ha e]; exact hk, okk⟩

/-- art.go:190-201, node.go:236-287 -/
theorem grow_commit (ht : HTr E live h root m) {a : Addr} (ha : live a) {n : Node} (hn : h[a]? = some n) {loc : Loc}
    (hat : At E live h root loc a) (hf : n.isFull = some true) {b : UInt8} (hb : n.child b = none) {l : Leaf} (hl : E a ++ [b] <+: l.key) :
    ∃ h', growAt h a b (.leaf l) loc = some h' ∧ Frame h h' [loc.1] ∧ h'.length = h.length + 1 ∧
      HT (upd E h.length (E a)) (fun c => c = h.length ∨ (live c ∧ c ≠ a)) h' (m.put l.key l.value) := by
  obtain ⟨n0, hn0, hv, ok⟩ := ht.view_live ha
  rw [hn] at hn0
  simp at hn0
  subst hn0
  obtain ⟨n', h1, h2, h3, h4, h5⟩ := growAndInsert_spec ok.wf b (.leaf l) hf hb
  have hvb : (view h a).child b = none := by rw [hv]; exact hb
  obtain ⟨c1, c2⟩ := ht.tree.put_cond ha hl (Or.inl hvb)
  have hcu := cnt_upd n.child b (some (Ref.leaf l))
  simp only [hb, Option.isSome_none, Bool.toNat_false, Option.isSome_some, Bool.toNat_true] at hcu
  rw [ok.wf.isFull] at hf
  simp only [Option.some.injEq, decide_eq_true_eq] at hf
  have hmin : minCount n'.cap ≤ cnt (upd n.child b (some (Ref.leaf l))) := by
    rcases h3 with h3 | h3 | h3 <;> rw [h3.1] <;> simp only [minCount] <;> omega
  have := ht.replaceNode ha hn hat (nn := n') (b := b) (o := some l) h4 h5 (by rcases h3 with h3 | h3 | h3 <;> omega) (by rw [hb]; simp)
    (h4.ok ok hmin (fun hr => by have := ok.two hr; omega)) (by simpa using hl) c1 c2
  obtain ⟨h', e, rest⟩ := this
  exact ⟨h', by simp [growAt, hn, h1, e], rest⟩

/-- art.go:321-336, node.go:446-491 -/
theorem shrink_commit (ht : HTr E live h root m) {a : Addr} (ha : live a) {n : Node} (hn : h[a]? = some n) {loc : Loc}
    (hat : At E live h root loc a) (h4 : n.cap ≠ 4) (hcnt : cnt n.child = minCount n.cap) {b : UInt8} {l : Leaf} (hb : n.child b = some (.leaf l)) :
    ∃ h', shrinkAt h a b loc = some h' ∧ Frame h h' [loc.1] ∧ h'.length = h.length + 1 ∧
      HT (upd E h.length (E a)) (fun c => c = h.length ∨ (live c ∧ c ≠ a)) h' (m.delete l.key) := by
  obtain ⟨n0, hn0, hv, ok⟩ := ht.view_live ha
  rw [hn] at hn0
  simp at hn0
  subst hn0
  obtain ⟨n', h1, h3, h5, h6⟩ := shrink_spec ok.wf b h4 hcnt hb
  have hvb : (view h a).child b = some (.leaf l) := by rw [hv]; exact hb
  obtain ⟨c1, c2⟩ := ht.tree.del_cond ha hvb
  have hcu := cnt_upd n.child b none
  simp only [hb, Option.isSome_none, Bool.toNat_false, Option.isSome_some, Bool.toNat_true] at hcu
  have hcc : minCount n'.cap ≤ cnt (upd n.child b none) ∧ 2 ≤ cnt (upd n.child b none) := by
    rcases h3 with h3 | h3 | h3 <;> rw [h3.2] at hcnt <;> rw [h3.1] <;> simp only [minCount] at * <;> omega
  have := ht.replaceNode ha hn hat (nn := n') (b := b) (o := none) h5 h6 (by rcases h3 with h3 | h3 | h3 <;> omega) (by rw [hb]; simp)
    (h5.ok ok hcc.1 (fun _ => by have := hcc.2; omega)) (by simp) c1 c2
  obtain ⟨h', e, rest⟩ := this
  exact ⟨h', by simp [shrinkAt, hn, h1, e], rest⟩

end HTr

end Art
