import Verif.Art.Commit2

/-! # What the critical sections do to the tree: split and compress -/

set_option linter.unusedSimpArgs false

namespace Art

open Surf Spec

theorem usub_eq {a b : Nat} (h : b ≤ a) : usub a b = some (a - b) := by
  unfold usub
  rw [if_pos h]

theorem pad8_mid {X : Bytes} (h : X.length ≤ 8) {k : Nat} (hk : k ≤ X.length) : ((Node.pad8 X).drop k).take (X.length - k) = X.drop k := by
  have e : Node.pad8 X = X ++ List.replicate (8 - X.length) 0 := by
    rw [pad8_def, List.take_of_length_le h]
  rw [e, List.drop_append_of_le_length hk, List.take_append_of_le_length (by simp), List.take_of_length_le (by simp)]

theorem take_prefix_of_prefix {p q : Bytes} (h : p <+: q) {k : Nat} (hk : p.length ≤ k) : p <+: q.take k := by
  rw [List.prefix_iff_eq_take] at h ⊢
  rw [List.take_take]
  conv_lhs => rw [h]
  congr 1
  omega

namespace HTr

variable {E : Addr → Bytes} {live : Addr → Prop} {h : Heap} {root : Addr} {m : Map}

theorem splitRest_spec {n : Node} {P : Bytes} (hplen : n.prefixLen ≤ P.length)
    (hpre : n.pre = Node.pad8 (P.drop (P.length - n.prefixLen))) {depth pl : Nat} (hd : depth + n.prefixLen = P.length) (hpl : pl < n.prefixLen)
    {full : Bytes} (hfull : 8 < n.prefixLen → P <+: full) :
    ∃ x, P[depth + pl]? = some x ∧ splitRest n full depth pl =
      some (x, n.prefixLen - (pl + 1), Node.pad8 (P.drop (depth + pl + 1))) := by
  have hx : depth + pl < P.length := by omega
  refine ⟨P[depth + pl], List.getElem?_eq_getElem hx, ?_⟩
  have hde : P.length - n.prefixLen = depth := by omega
  rw [hde] at hpre
  unfold splitRest
  rw [usub_eq (by omega)]
  simp only [Option.bind_eq_bind, Option.bind_some]
  split
  next h8 =>
    simp only [maxPrefixLen] at h8
    have hXl : (P.drop depth).length = n.prefixLen := by simp; omega
    rw [hpre, getElem?_pad8 _ _ (by omega) (by omega), List.getElem?_drop, List.getElem?_eq_getElem hx]
    simp only [Option.bind_some, Option.pure_def, Option.some.injEq, Prod.mk.injEq, true_and]
    congr 1
    rw [← hXl, pad8_mid (by omega) (by omega), List.drop_drop]
    congr 1
  next h8 =>
    simp only [maxPrefixLen] at h8
    have hp := hfull (by omega)
    obtain ⟨s, rfl⟩ := hp
    rw [List.getElem?_append_left hx, List.getElem?_eq_getElem hx]
    simp only [Option.bind_some]
    rw [if_pos (by simp; omega)]
    simp only [Option.pure_def, Option.some.injEq, Prod.mk.injEq, true_and]
    congr 1
    rw [List.drop_append_of_le_length (by omega), List.take_append_of_le_length (by simp; omega), List.take_of_length_le (by simp; omega)]

/-- art.go:151-163, node.go:545-573 -/
theorem split_commit (ht : HTr E live h root m) {p : Addr} (hp : live p) {np : Node} (hnp : h[p]? = some np) {b : UInt8} {a : Addr}
    {slot pos : Nat} (hf : np.findChild b = some (.node a, slot, pos)) {n : Node} (hn : h[a]? = some n) {key value full : Bytes}
    (hkl : key.length < 2 ^ 32) (hvl : value.length < 2 ^ 32) {depth pl : Nat} (hdepth : depth = (E p).length + 1) (hpl : pl < n.prefixLen)
    (hQ : (E a).take (depth + pl) <+: key) (hmis : ¬ (E a).take (depth + pl + 1) <+: key) (hfull : 8 < n.prefixLen → E a <+: full) :
    ∃ h', insertSplitPrefix h a key full value depth pl (p, slot) = some h' ∧ Frame h h' [p, a] ∧ h'.length = h.length + 1 ∧
      HT (upd E h.length ((E a).take (depth + pl))) (fun c => c = h.length ∨ live c) h' (m.put key value) := by
  have hnk : (newLeaf key value).key = key := newLeaf_key hkl
  have hnv : (newLeaf key value).value = value := newLeaf_value hkl hvl
  have hpb : (view h p).child b = some (.node a) := by rw [view_eq hnp]; simp [Node.view, Node.child, hf]
  obtain ⟨ha, hEa, hla⟩ := ht.tree.child p b a hp hpb
  have har : a ≠ root := by rintro rfl; exact ht.tree.root_not_child hp hpb
  obtain ⟨n0, hn0, hv, ok⟩ := ht.view_live ha
  rw [hn] at hn0
  simp at hn0
  subst hn0
  rw [hv] at hla
  simp only [Node.view] at hla
  have hd : depth + n.prefixLen = (E a).length := by omega
  have hQl : ((E a).take (depth + pl)).length = depth + pl := by simp; omega
  obtain ⟨x, hx, hsplit⟩ := splitRest_spec ok.plen_le ok.pre hd hpl hfull
  have hQx : (E a).take (depth + pl) ++ [x] = (E a).take (depth + pl + 1) := by
    rw [List.take_add_one, hx]
    rfl
  generalize hQd : (E a).take (depth + pl) = Q at *
  have hEpQ : E p ++ [b] <+: Q := by
    rw [← hQd]
    exact take_prefix_of_prefix hEa (by simp; omega)
  have hQa : Q ++ [x] <+: E a := by rw [hQx]; exact List.take_prefix _ _
  have w0 : newNode4.WF := newNode4_wf 0 _
  have c0 : newNode4.child = fun _ => none := rfl
  obtain ⟨n1, p1, P1⟩ := placeLeaf_spec w0 rfl (by rw [c0, cnt_none]; omega) (l := newLeaf key value) (Q := Q) (by rw [hnk]; exact hQ) (fun _ => rfl) (fun b _ => by rw [c0])
  rw [hnk, hQl] at p1
  have hfree : n1.child x = none := P1.free x (by rw [c0]) (by rw [hnk, hQx]; exact hmis)
  let n1' : Node := { n1 with prefixLen := pl, pre := Node.pad8 (n.pre.take (min maxPrefixLen pl)) }
  have w1 : n1'.WF := P1.wf
  have hcnt1 := P1.count
  rw [c0, cnt_none] at hcnt1
  simp only [newNode4, Option.isSome_none, Bool.toNat_false] at hcnt1
  have hfull1 : n1'.isFull = some false := by
    rw [w1.isFull]
    have e1 : n1'.cap = 4 := P1.cap
    have e2 : n1'.child = n1.child := rfl
    rw [e1, e2]
    simp
    omega
  obtain ⟨n2, p2, C2, v2⟩ := insertChild_spec w1 x (.node a) hfull1 hfree
  have e2 : n1'.child = n1.child := rfl
  rw [e2] at C2
  obtain ⟨g1, g2, g3⟩ := C2.head
  have hcu := cnt_upd n1.child x (some (Ref.node a))
  simp only [hfree, Option.isSome_none, Bool.toNat_false, Option.isSome_some, Bool.toNat_true] at hcu
  have hst : ∀ l', n2.view.Stored l' ↔ l' = newLeaf key value := by
    intro l'
    have h0 : ¬ newNode4.view.Stored l' := by rintro (hh | ⟨b, hh⟩) <;> simp [Node.view, newNode4, Node.child, Node.findChild] at hh
    have h1 := P1.stored l'
    have h2 : n2.view.Stored l' ↔ n1.view.Stored l' := by
      simp only [View.Stored, Node.view, C2.child, g3]
      constructor
      · rintro (hh | ⟨b', hh⟩)
        · exact Or.inl hh
        · by_cases e : b' = x
          · subst e; rw [upd_same] at hh; simp at hh
          · rw [upd_other _ _ e] at hh; exact Or.inr ⟨b', hh⟩
      · rintro (hh | ⟨b', hh⟩)
        · exact Or.inl hh
        · refine Or.inr ⟨b', ?_⟩
          rw [upd_other]
          · exact hh
          · rintro rfl; rw [hfree] at hh; simp at hh
    rw [h2, h1]
    tauto
  have hlok1 : n1.view.LeavesOk Q := P1.leaves ⟨fun b l' hh => by simp [Node.view, c0] at hh, fun l' hh => by simp [Node.view, newNode4] at hh⟩
  have hlok : n2.view.LeavesOk Q := by
    refine ⟨?_, ?_⟩
    · intro b' l' hh
      simp only [Node.view, C2.child] at hh
      by_cases e : b' = x
      · subst e; rw [upd_same] at hh; simp at hh
      · rw [upd_other _ _ e] at hh; exact hlok1.leaf b' l' hh
    · intro l' hh
      simp only [Node.view, g3] at hh
      exact hlok1.pleaf l' hh
  have hnode : ∀ b' c, n2.child b' = some (.node c) → b' = x ∧ c = a := by
    intro b' c hh
    rw [C2.child] at hh
    by_cases e : b' = x
    · subst e; rw [upd_same] at hh; simp at hh; exact ⟨rfl, hh.symm⟩
    · rw [upd_other _ _ e, P1.node, c0] at hh; simp at hh
  have hpl2 : n2.prefixLen = pl := g1
  have hok : NodeOK Q False n2 := by
    refine ⟨C2.wf, by rw [hpl2, hQl]; omega, ?_, ?_, ?_⟩
    · rw [hpl2, hQl, g2]
      show Node.pad8 (n.pre.take (min maxPrefixLen pl)) = _
      have hde : (E a).length - n.prefixLen = depth := by omega
      rw [ok.pre, hde, take_pad8 _ _ (by simp [maxPrefixLen]) (by simp [maxPrefixLen]; omega)]
      show Node.pad8 (((E a).drop depth).take (min 8 pl)) = _
      rw [pad8_take_min, ← hQd]
      congr 1
      rw [List.take_drop]
      congr 1
      omega
    · have : n2.cap = 4 := by rw [C2.cap]; exact P1.cap
      rw [this]; simp [minCount]
    · intro _
      rw [C2.child, g3]
      show 2 ≤ _ + n1.prefixLeaf.isSome.toNat
      omega
  obtain ⟨h', r1, r2, r3, r4⟩ := ht.insertNode_commit hp hnp hf (h1 := h.set a { n with prefixLen := n.prefixLen - (pl + 1), pre := Node.pad8 ((E a).drop (depth + pl + 1)) })
    (by simp) (by
      intro c hc
      rw [List.getElem?_set_ne]
      exact (hc a rfl).symm) (Q := Q) hEpQ (by
      intro c hc
      simp at hc
      subst hc
      refine ⟨n, { n with prefixLen := n.prefixLen - (pl + 1), pre := Node.pad8 ((E a).drop (depth + pl + 1)) }, hn, by rw [List.getElem?_set_self (ht.lt ha)], rfl, rfl, rfl, rfl, ?_, ?_⟩
      · simp only; omega
      · refine ⟨ok.wf, ?_, ?_, ok.min, fun _ => ok.two har⟩
        · simp only; omega
        · simp only
          congr 2
          omega) (nn := n2) hok (by rw [v2]; exact P1.ver) (by rw [C2.cap]; show n1.cap ≠ 0; rw [P1.cap]; simp) (by omega) hlok (by
      intro b' c hh
      obtain ⟨rfl, rfl⟩ := hnode b' c hh
      exact ⟨rfl, hQa⟩) (by
      intro c hc
      simp at hc
      subst hc
      exact ⟨x, by rw [C2.child, upd_same]⟩) (m' := m.put key value) (by
      intro K hK
      have : K ≠ key := by rintro rfl; exact hK (hEpQ.trans hQ)
      simp [Map.put, this]) (by
      intro K c hc hcK
      simp at hc
      subst hc
      have : K ≠ key := by
        rintro rfl
        exact hmis (by rw [← hQx]; exact hQa.trans hcK)
      simp [Map.put, this]) (by
      intro K hK hc v
      have hno := ht.tree.lookup_node hp hK hpb (hc a rfl)
      constructor
      · intro hh
        by_cases e : K = key
        · subst e
          simp [Map.put] at hh
          exact ⟨_, (hst _).mpr rfl, hnk, by rw [hnv]; exact hh⟩
        · simp [Map.put, e, hno] at hh
      · rintro ⟨l', hs, h2, h3⟩
        have := (hst l').mp hs
        subst this
        rw [hnk] at h2
        rw [hnv] at h3
        simp [Map.put, h2, h3])
  refine ⟨h', ?_, r2, r3, r4⟩
  simp only [insertSplitPrefix, hn, Option.bind_eq_bind, Option.bind_some, p1, hsplit]
  show (n1'.insertChild x (.node a)).bind _ = _
  rw [p2, Option.bind_some]
  exact r1

/-- A node disappears; its only inner child or a leaf takes its place. `h1` is the heap after the change of the prefix of the child. -/
theorem removeNode_commit (ht : HTr E live h root m) {p : Addr} (hp : live p) {np : Node} (hnp : h[p]? = some np) {b : UInt8} {d : Addr}
    {slot pos : Nat} (hf : np.findChild b = some (.node d, slot, pos)) (r : Ref) {h1 : Heap} (hlen : h1.length = h.length)
    (hkeep : ∀ a, (∀ c, r = .node c → a ≠ c) → h1[a]? = h[a]?)
    (hnode : ∀ c, r = .node c ↔ ∃ b', (view h d).child b' = some (.node c))
    (hleaf : ∀ l, r = .leaf l → E p ++ [b] <+: l.key)
    (hnew : ∀ c, r = .node c → ∃ k k', h[c]? = some k ∧ h1[c]? = some k' ∧ k'.child = k.child ∧ k'.prefixLeaf = k.prefixLeaf ∧
      k'.version = k.version ∧ k'.cap = k.cap ∧ k'.prefixLen + (E p).length + 1 = (E c).length ∧ NodeOK (E c) False k') {m' : Map}
    (hm1 : ∀ K, ¬ E p ++ [b] <+: K → m' K = m K)
    (hm2 : ∀ K c, r = .node c → E c <+: K → m' K = m K)
    (hm3 : ∀ K, E p ++ [b] <+: K → (∀ c, r = .node c → ¬ E c <+: K) →
      ∀ v, m' K = some v ↔ ∃ l, r = .leaf l ∧ l.key = K ∧ l.value = v) :
    ∃ h', storeLoc h1 (p, slot) r = some h' ∧ Frame h h' (p :: r.addrs) ∧ h'.length = h.length ∧
      HT E (fun a => live a ∧ a ≠ d) h' m' := by
  obtain ⟨dm, hdm, hdk⟩ := ht.dummy
  have hplt := ht.lt hp
  obtain ⟨np0, hnp0, hvp, okp⟩ := ht.view_live hp
  rw [hnp] at hnp0
  simp at hnp0
  subst hnp0
  have hpb : (view h p).child b = some (.node d) := by rw [hvp]; simp [Node.view, Node.child, hf]
  obtain ⟨hd, hEd, -⟩ := ht.tree.child p b d hp hpb
  have hclive : ∀ c, r = .node c → live c ∧ c ≠ p ∧ c ≠ d := by
    intro c hc
    obtain ⟨b', hb'⟩ := (hnode c).mp hc
    obtain ⟨h2, h3, -⟩ := ht.tree.child d b' c hd hb'
    refine ⟨h2, ?_, ht.tree.child_ne hd hb'⟩
    rintro rfl
    exact not_snoc_self (hEd.trans (prefix_of_snoc h3))
  have hp1 : h1[p]? = some np := by rw [hkeep p (fun c hc => (hclive c hc).2.1.symm)]; exact hnp
  obtain ⟨np', e1, e2, e3⟩ := storeLoc_child hp1 okp.wf hf r
  have hgetl : ∀ a, a ≠ p → (h1.set p np')[a]? = h1[a]? :=
    fun a ha => List.getElem?_set_ne (Ne.symm ha)
  have hgetp : (h1.set p np')[p]? = some np' := by
    rw [List.getElem?_set_self (by rw [hlen]; exact hplt)]
  have hf1 : Frame h h1 (p :: r.addrs) := by
    refine ⟨by omega, ?_, ?_, ?_⟩
    · intro a _ haS
      refine hkeep a ?_
      rintro c rfl rfl
      simp [Ref.addrs] at haS
    · intro a n hn
      by_cases e : ∃ c, r = .node c ∧ a = c
      · obtain ⟨c, hc, rfl⟩ := e
        obtain ⟨k, k', g1, g2, -, -, g3, g4, -⟩ := hnew a hc
        rw [hn] at g1
        simp at g1
        subst g1
        exact ⟨k', g2, g3, g4⟩
      · push Not at e
        exact ⟨n, by rw [hkeep a e]; exact hn, rfl, rfl⟩
    · intro a n ha hn
      have := (List.getElem?_eq_some_iff.mp hn).1
      rw [hlen] at this
      exact absurd this (Nat.not_lt.mpr ha)
  refine ⟨h1.set p np', e1, hf1.trans (Frame.set hp1 e3 e2.cap (by simp)), by simp [hlen], root, ?_⟩
  have hvl : ∀ a, a ≠ p → (∀ c, r = .node c → a ≠ c) → view (h1.set p np') a = view h a := by
    intro a hne hc
    exact view_congr (by rw [hgetl a hne, hkeep a hc])
  have hvp' : view (h1.set p np') p = { np.view with child := upd np.child b (some r) } := by
    rw [view_eq hgetp, e2.view]
  have hvc : ∀ c, r = .node c → ∃ k k' : Node, h[c]? = some k ∧ view (h1.set p np') c = k'.view ∧ k'.child = k.child ∧ k'.prefixLeaf = k.prefixLeaf ∧
      k'.prefixLen + (E p).length + 1 = (E c).length := by
    intro c hc
    obtain ⟨k, k', g1, g2, g3, g4, -, -, g5, -⟩ := hnew c hc
    exact ⟨k, k', g1, view_eq (by rw [hgetl c (hclive c hc).2.1]; exact g2), g3, g4, g5⟩
  have hsr : ∀ c, (some r = some (Ref.node c)) ↔ r = .node c := by intro c; simp
  refine ⟨?_, ⟨dm, ?_, hdk⟩, fun hh => ht.zero hh.1, ?_⟩
  · refine ht.tree.removeNode hp hpb (some r) (fun c => by rw [hsr]; exact hnode c) (fun l hl => hleaf l (by simpa using hl))
      (V' := view (h1.set p np')) ?_ ?_ ?_ ?_ ?_ hm1 ?_ ?_
    · rw [hvp', hvp]; rfl
    · intro a ha _ hne
      by_cases e : ∃ c, r = .node c ∧ a = c
      · obtain ⟨c, hc, rfl⟩ := e
        obtain ⟨k, k', g1, g2, g3, -⟩ := hvc a hc
        rw [g2, view_eq g1]
        exact g3
      · push Not at e
        rw [hvl a hne e]
    · intro a ha _
      by_cases e : ∃ c, r = .node c ∧ a = c
      · obtain ⟨c, hc, rfl⟩ := e
        obtain ⟨k, k', g1, g2, -, g4, -⟩ := hvc a hc
        rw [g2, view_eq g1]
        exact g4
      · push Not at e
        by_cases ep : a = p
        · subst ep; rw [hvp', hvp]
        · rw [hvl a ep e]
    · intro a ha _ hne
      rw [ne_eq, hsr] at hne
      by_cases ep : a = p
      · subst ep; rw [hvp', hvp]
      · rw [hvl a ep]
        rintro c hc rfl
        exact hne hc
    · intro c hc
      rw [hsr] at hc
      obtain ⟨k, k', -, g2, -, -, g5⟩ := hvc c hc
      rw [g2]
      exact g5
    · intro K c hc
      rw [hsr] at hc
      exact hm2 K c hc
    · intro K hK hc v
      rw [hm3 K hK (fun c hc' => hc c ((hsr c).mpr hc'))]
      simp
  · rw [hgetl 0 (Ne.symm (ht.ne_zero hp)), hkeep 0]
    · exact hdm
    · rintro c hc rfl
      exact ht.zero (hclive 0 hc).1
  · rintro a ⟨ha, hne⟩
    by_cases e : ∃ c, r = .node c ∧ a = c
    · obtain ⟨c, hc, rfl⟩ := e
      obtain ⟨k, k', g1, g2, -, -, -, -, -, g5⟩ := hnew a hc
      exact ⟨k', by rw [hgetl a (hclive a hc).2.1]; exact g2, g5.wf, g5.plen_le, g5.pre, g5.min, fun _ => g5.two id⟩
    · push Not at e
      by_cases ep : a = p
      · subst ep
        exact ⟨np', hgetp, e2.ok_upd okp⟩
      · obtain ⟨k, hk, okk⟩ := ht.node a ha
        exact ⟨k, by rw [hgetl a ep, hkeep a e]; exact hk, okk⟩

/-- node.go:388-391, 419-442: a node with two leaves loses one; the other takes the place of the node. -/
theorem collapse_commit (ht : HTr E live h root m) {p : Addr} (hp : live p) {np : Node} (hnp : h[p]? = some np) {b : UInt8} {d : Addr}
    {slot pos : Nat} (hf : np.findChild b = some (.node d, slot, pos)) {l l0 : Leaf} (hst : ∀ l', (view h d).Stored l' ↔ l' = l ∨ l' = l0)
    (hne : l.key ≠ l0.key) (hnn : ∀ b c, (view h d).child b ≠ some (.node c)) :
    ∃ h', storeLoc h (p, slot) (.leaf l) = some h' ∧ Frame h h' [p] ∧ h'.length = h.length ∧
      HT E (fun a => live a ∧ a ≠ d) h' (m.delete l0.key) := by
  have hpb : (view h p).child b = some (.node d) := by rw [view_eq hnp]; simp [Node.view, Node.child, hf]
  obtain ⟨hd, hEd, -⟩ := ht.tree.child p b d hp hpb
  have hl : E d <+: l.key := (ht.tree.leaves d hd).prefix ((hst l).mpr (Or.inl rfl))
  have hl0 : E d <+: l0.key := (ht.tree.leaves d hd).prefix ((hst l0).mpr (Or.inr rfl))
  refine ht.removeNode_commit hp hnp hf (.leaf l) rfl (fun _ _ => rfl) ?_ ?_ (by simp) (m' := m.delete l0.key) ?_ (by simp) ?_
  · intro c
    constructor
    · intro hh; simp at hh
    · rintro ⟨b', hh⟩; exact absurd hh (hnn b' c)
  · intro l' e
    simp at e
    subst e
    exact hEd.trans hl
  · intro K hK
    have : K ≠ l0.key := by rintro rfl; exact hK (hEd.trans hl0)
    simp [Map.delete, this]
  · intro K hK _ v
    constructor
    · intro hh
      by_cases e : K = l0.key
      · simp [Map.delete, e] at hh
      · simp only [Map.delete, if_neg e] at hh
        obtain ⟨a, l', ha, hs, hk, hv⟩ := (ht.tree.mem K v).mp hh
        have hEK : E d <+: K := by
          by_contra hno
          rw [ht.tree.lookup_node hp hK hpb hno] at hh
          simp at hh
        rcases ht.tree.stored_at hd ha hs (by rw [hk]; exact hEK) with rfl | ⟨b', c, -, hc, -⟩
        · rcases (hst l').mp hs with rfl | rfl
          · exact ⟨l', rfl, hk, hv⟩
          · exact absurd hk.symm e
        · exact absurd hc (hnn b' c)
    · rintro ⟨l', e, hk, hv⟩
      simp at e
      subst e
      have : K ≠ l0.key := by rintro rfl; exact hne hk
      simp only [Map.delete, if_neg this]
      exact (ht.tree.mem K v).mpr ⟨d, l, hd, (hst l).mpr (Or.inl rfl), hk, hv⟩

/-- node.go:419-444: a node with a leaf and an inner child loses the leaf; the child takes its place. -/
theorem compress_commit (ht : HTr E live h root m) {p : Addr} (hp : live p) {np : Node} (hnp : h[p]? = some np) {b : UInt8} {d : Addr}
    {slot pos : Nat} (hf : np.findChild b = some (.node d, slot, pos)) {l0 : Leaf} (hst : ∀ l', (view h d).Stored l' ↔ l' = l0)
    {bc : UInt8} {c : Addr} (hnn : ∀ b' c', (view h d).child b' = some (.node c') ↔ b' = bc ∧ c' = c) :
    ∃ h', compressAt h d c bc (p, slot) = some h' ∧ Frame h h' [p, c] ∧ h'.length = h.length ∧
      HT E (fun a => live a ∧ a ≠ d) h' (m.delete l0.key) := by
  have hpb : (view h p).child b = some (.node d) := by rw [view_eq hnp]; simp [Node.view, Node.child, hf]
  obtain ⟨hd, hEd, hdl⟩ := ht.tree.child p b d hp hpb
  have hdc := (hnn bc c).mpr ⟨rfl, rfl⟩
  obtain ⟨hc, hEc, hcl⟩ := ht.tree.child d bc c hd hdc
  obtain ⟨nd, hnd, hvd, okd⟩ := ht.view_live hd
  obtain ⟨nc, hnc, hvc, okc⟩ := ht.view_live hc
  have hcr : c ≠ root := by rintro rfl; exact ht.tree.root_not_child hd hdc
  rw [hvd] at hdl
  rw [hvc] at hcl
  simp only [Node.view] at hdl hcl
  have hl0 : E d <+: l0.key := (ht.tree.leaves d hd).prefix ((hst l0).mpr rfl)
  have hl0c : ¬ E c <+: l0.key := by
    intro hh
    rcases (hst l0).mpr rfl with hs | ⟨b', hs⟩
    · have := (ht.tree.leaves d hd).pleaf l0 hs
      rw [this] at hh
      exact not_snoc_self (hEc.trans hh)
    · have := (ht.tree.leaves d hd).leaf b' l0 hs
      have := snoc_inj this (hEc.trans hh)
      subst this
      rw [hs] at hdc
      simp at hdc
  -- the new prefix
  have hpre : compressedPrefix nd nc bc = Node.pad8 ((E c).drop ((E c).length - (nc.prefixLen + nd.prefixLen + 1))) := by
    obtain ⟨Y, hY⟩ := hEc
    have hYl : Y.length = nc.prefixLen := by
      have := congrArg List.length hY
      simp at this
      omega
    have hX : (E c).drop ((E c).length - (nc.prefixLen + nd.prefixLen + 1)) = (E d).drop ((E d).length - nd.prefixLen) ++ [bc] ++ Y := by
      have e : (E c).length - (nc.prefixLen + nd.prefixLen + 1) = (E d).length - nd.prefixLen := by omega
      rw [e, ← hY, List.append_assoc, List.append_assoc, List.drop_append_of_le_length (by omega)]
    have hYd : (E c).drop ((E c).length - nc.prefixLen) = Y := by
      have e : (E c).length - nc.prefixLen = (E d ++ [bc]).length := by simp; omega
      rw [e, ← hY, List.drop_left]
    have hXl : ((E d).drop ((E d).length - nd.prefixLen)).length = nd.prefixLen := by simp; omega
    rw [hX]
    have hpd := okd.pre
    have hpc := okc.pre
    rw [hYd] at hpc
    generalize (E d).drop ((E d).length - nd.prefixLen) = X at *
    unfold compressedPrefix
    split
    next h8 =>
      simp only [maxPrefixLen] at h8 ⊢
      rw [hpd, hpc, take_pad8 _ _ (by omega) (by omega), List.take_of_length_le (by omega)]
      have e8 : 8 - (X ++ [bc]).length = 8 - (nd.prefixLen + 1) := by simp [hXl]
      rw [e8, take_pad8 _ _ (by omega) (by omega)]
      have : Y.take (min nc.prefixLen (8 - (nd.prefixLen + 1))) = Y.take (8 - (X ++ [bc]).length) := by
        rw [e8, ← hYl, List.take_eq_take_iff]
        omega
      rw [this, pad8_append_take _ _ (by simp; omega)]
    next h8 =>
      simp only [maxPrefixLen] at h8
      rw [hpd, List.append_assoc, pad8_append _ _ (by omega)]
  obtain ⟨h', r1, r2, r3, r4⟩ := ht.removeNode_commit hp hnp hf (.node c)
    (h1 := h.set c { nc with pre := compressedPrefix nd nc bc, prefixLen := nc.prefixLen + nd.prefixLen + 1 }) (by simp) (by
      intro a ha
      rw [List.getElem?_set_ne]
      exact (ha c rfl).symm) (by
      intro c'
      constructor
      · intro e; simp at e; subst e; exact ⟨bc, hdc⟩
      · rintro ⟨b', hh⟩; have := ((hnn b' c').mp hh).2; rw [this]) (by simp) (by
      intro c' e
      simp at e
      subst e
      refine ⟨nc, { nc with pre := compressedPrefix nd nc bc, prefixLen := nc.prefixLen + nd.prefixLen + 1 }, hnc, by rw [List.getElem?_set_self (ht.lt hc)], rfl, rfl, rfl, rfl, ?_, ?_⟩
      · simp only; omega
      · refine ⟨okc.wf, ?_, ?_, okc.min, fun _ => okc.two hcr⟩
        · simp only; omega
        · exact hpre) (m' := m.delete l0.key) (by
      intro K hK
      have : K ≠ l0.key := by rintro rfl; exact hK (hEd.trans hl0)
      simp [Map.delete, this]) (by
      intro K c' e hcK
      simp at e
      subst e
      have : K ≠ l0.key := by rintro rfl; exact hl0c hcK
      simp [Map.delete, this]) (by
      intro K hK hno v
      have hcK := hno c rfl
      constructor
      · intro hh
        exfalso
        by_cases e : K = l0.key
        · simp [Map.delete, e] at hh
        · simp only [Map.delete, if_neg e] at hh
          obtain ⟨a, l', ha, hs, hk, hv⟩ := (ht.tree.mem K v).mp hh
          have hEK : E d <+: K := by
            by_contra hno
            rw [ht.tree.lookup_node hp hK hpb hno] at hh
            simp at hh
          rcases ht.tree.stored_at hd ha hs (by rw [hk]; exact hEK) with rfl | ⟨b', c', -, hc', hcK'⟩
          · have := (hst l').mp hs
            subst this
            exact e hk.symm
          · have := ((hnn b' c').mp hc').2
            subst this
            rw [hk] at hcK'
            exact hcK hcK'
      · rintro ⟨l', e, -⟩
        simp at e)
  refine ⟨h', ?_, r2, r3, r4⟩
  simp only [compressAt, hnd, hnc, Option.bind_eq_bind, Option.bind_some]
  exact r1

end HTr

end Art
