import Verif.Art.Commit

/-! # What the critical sections do to the tree: new nodes between others, and nodes that disappear -/

set_option linter.unusedSimpArgs false

namespace Art

open Surf Spec

/-- The inner node a pointer points to. -/
def Ref.addrs : Ref → List Addr
  | .node c => [c]
  | .leaf _ => []

/-! ## New nodes -/

/-- The result of putting the leaf `l` where it belongs in the node `n` with the path `Q`. -/
structure Placed (n n' : Node) (Q : Bytes) (l : Leaf) : Prop where
  wf : n'.WF
  cap : n'.cap = 4
  ver : n'.version = n.version
  plen : n'.prefixLen = n.prefixLen
  pre : n'.pre = n.pre
  stored : ∀ l', n'.view.Stored l' ↔ n.view.Stored l' ∨ l' = l
  node : ∀ b c, n'.child b = some (.node c) ↔ n.child b = some (.node c)
  leaves : n.view.LeavesOk Q → n'.view.LeavesOk Q
  count : cnt n'.child + n'.prefixLeaf.isSome.toNat = cnt n.child + n.prefixLeaf.isSome.toNat + 1
  free : ∀ b, n.child b = none → ¬ Q ++ [b] <+: l.key → n'.child b = none
  pfree : n.prefixLeaf = none → Q ≠ l.key → n'.prefixLeaf = none

theorem placeLeaf_spec {n : Node} (hw : n.WF) (hcap : n.cap = 4) (hcnt : cnt n.child < 4) {Q : Bytes} {l : Leaf} (hQ : Q <+: l.key)
    (hp : Q = l.key → n.prefixLeaf = none) (hb : ∀ b, Q ++ [b] <+: l.key → n.child b = none) :
    ∃ n', placeLeaf n Q.length l.key l = some n' ∧ Placed n n' Q l := by
  by_cases e : Q = l.key
  · have hpn := hp e
    refine ⟨{ n with prefixLeaf := some l }, by simp [placeLeaf, e], hw, hcap, rfl, rfl, rfl, ?_, fun _ _ => Iff.rfl, ?_, ?_, fun _ h _ => h, ?_⟩
    · intro l'
      simp only [View.Stored, Node.view, hpn]
      constructor
      · rintro (h | h)
        · simp at h; exact Or.inr h.symm
        · exact Or.inl (Or.inr h)
      · rintro ((h | h) | h)
        · simp at h
        · exact Or.inr h
        · subst h; exact Or.inl rfl
    · intro hl
      refine ⟨hl.leaf, ?_⟩
      intro l' h
      simp [Node.view] at h
      subst h
      exact e.symm
    · rw [hpn]; rfl
    · intro _ h; exact absurd e h
  · obtain ⟨b, hbp⟩ := snoc_of_prefix hQ e
    have hlt : Q.length ≠ l.key.length := by
      intro h
      exact e (hQ.eq_of_length h)
    have hget : l.key[Q.length]? = some b := by
      obtain ⟨s, hs⟩ := hbp
      rw [← hs]
      simp
    have hfree := hb b hbp
    have hfull : n.isFull = some false := by
      rw [hw.isFull, hcap]
      simp
      omega
    obtain ⟨n', h1, h2, h3⟩ := insertChild_spec hw b (.leaf l) hfull hfree
    obtain ⟨g1, g2, g3⟩ := h2.head
    have hcu := cnt_upd n.child b (some (Ref.leaf l))
    simp only [hfree, Option.isSome_none, Bool.toNat_false, Option.isSome_some, Bool.toNat_true] at hcu
    refine ⟨n', by simp [placeLeaf, hlt, hget, h1], h2.wf, by rw [h2.cap, hcap], h3, g1, g2, ?_, ?_, ?_, ?_, ?_, ?_⟩
    · intro l'
      simp only [View.Stored, Node.view, h2.child, g3]
      constructor
      · rintro (h | ⟨b', h⟩)
        · exact Or.inl (Or.inl h)
        · by_cases e' : b' = b
          · subst e'; rw [upd_same] at h; simp at h; exact Or.inr h.symm
          · rw [upd_other _ _ e'] at h; exact Or.inl (Or.inr ⟨b', h⟩)
      · rintro ((h | ⟨b', h⟩) | h)
        · exact Or.inl h
        · refine Or.inr ⟨b', ?_⟩
          rw [upd_other]
          · exact h
          · rintro rfl; rw [hfree] at h; simp at h
        · subst h; exact Or.inr ⟨b, by rw [upd_same]⟩
    · intro b' c
      rw [h2.child]
      by_cases e' : b' = b
      · subst e'; rw [upd_same, hfree]; simp
      · rw [upd_other _ _ e']
    · intro hl
      refine ⟨?_, ?_⟩
      · intro b' l' h
        simp only [Node.view, h2.child] at h
        by_cases e' : b' = b
        · subst e'; rw [upd_same] at h; simp at h; subst h; exact hbp
        · rw [upd_other _ _ e'] at h; exact hl.leaf b' l' h
      · intro l' h
        simp only [Node.view, g3] at h
        exact hl.pleaf l' h
    · rw [h2.child, g3]; omega
    · intro b' h hne
      rw [h2.child, upd_other]
      · exact h
      · rintro rfl; exact hne hbp
    · intro h _
      rw [g3]; exact h

theorem newNode4_wf (x : Nat) (y : Bytes) : ({ newNode4 with prefixLen := x, pre := y } : Node).WF := by
  show ArrWF 4 0 (zeroBytes 4) (nils 4)
  exact ⟨rfl, rfl, by omega, by simp, by simp⟩

theorem newNode4_child (x : Nat) (y : Bytes) : ({ newNode4 with prefixLen := x, pre := y } : Node).child = fun _ => none := rfl

theorem cnt_none : cnt (fun _ => none) = 0 := by
  by_contra h
  obtain ⟨b, hb⟩ := (cnt_pos_iff _).mp (Nat.pos_of_ne_zero h)
  simp at hb

theorem missLoop_spec (a b : Bytes) : ∀ (fuel i : Nat), i + fuel = min b.length a.length → a.take i = b.take i →
    i ≤ missLoop a b fuel i ∧ missLoop a b fuel i ≤ min b.length a.length ∧
      a.take (missLoop a b fuel i) = b.take (missLoop a b fuel i) ∧
      ∀ x y, a[missLoop a b fuel i]? = some x → b[missLoop a b fuel i]? = some y → x ≠ y := by
  intro fuel
  induction fuel with
  | zero =>
    intro i hi ht
    simp only [missLoop]
    refine ⟨Nat.le_refl _, by omega, ht, ?_⟩
    intro x y hx hy
    have h1 := (List.getElem?_eq_some_iff.mp hx).1
    have h2 := (List.getElem?_eq_some_iff.mp hy).1
    omega
  | succ fuel ih =>
    intro i hi ht
    have ha : i < a.length := by omega
    have hb : i < b.length := by omega
    simp only [missLoop, List.getElem?_eq_getElem ha, List.getElem?_eq_getElem hb]
    split
    next hne =>
      refine ⟨Nat.le_refl _, by omega, ht, ?_⟩
      intro x y hx hy
      rw [List.getElem?_eq_getElem ha] at hx
      rw [List.getElem?_eq_getElem hb] at hy
      simp at hx hy
      rw [← hx, ← hy]
      exact hne
    next heq =>
      simp only [not_not] at heq
      obtain ⟨h1, h2, h3, h4⟩ := ih (i + 1) (by omega) (by rw [List.take_add_one, List.take_add_one, ht,
        List.getElem?_eq_getElem ha, List.getElem?_eq_getElem hb, heq])
      exact ⟨by omega, h2, h3, h4⟩

/-- node.go:311-315: where two keys part. -/
theorem missPos_spec {a b p : Bytes} (hne : a ≠ b) (ha : p <+: a) (hb : p <+: b) :
    ∃ Q, missLoop a b (min b.length a.length - p.length) p.length = Q.length ∧ Q = b.take Q.length ∧ p <+: Q ∧ Q <+: a ∧ Q <+: b ∧
      (¬ (Q = a ∧ Q = b)) ∧ ∀ c, Q ++ [c] <+: a → ¬ Q ++ [c] <+: b := by
  have hla := ha.length_le
  have hlb := hb.length_le
  obtain ⟨h1, h2, h3, h4⟩ := missLoop_spec a b (min b.length a.length - p.length) p.length (by omega) (by
    rw [List.prefix_iff_eq_take.mp ha |>.symm, List.prefix_iff_eq_take.mp hb |>.symm])
  generalize missLoop a b (min b.length a.length - p.length) p.length = r at *
  have hQl : (b.take r).length = r := by simp; omega
  refine ⟨b.take r, hQl.symm, by rw [hQl], ?_, ?_, List.take_prefix _ _, ?_, ?_⟩
  · rw [List.prefix_iff_eq_take] at hb ⊢
    rw [List.take_take]
    conv_lhs => rw [hb]
    congr 1
    omega
  · rw [← h3]; exact List.take_prefix _ _
  · rintro ⟨e1, e2⟩; exact hne (e1.symm.trans e2)
  · intro c hc1 hc2
    obtain ⟨s, hs⟩ := hc1
    obtain ⟨t, ht⟩ := hc2
    refine h4 c c ?_ ?_ rfl
    · rw [← hs, List.append_assoc, List.getElem?_append_right (by omega), hQl]; simp
    · rw [← ht, List.append_assoc, List.getElem?_append_right (by rw [hQl]), hQl]; simp

namespace HTr

variable {E : Addr → Bytes} {live : Addr → Prop} {h : Heap} {root : Addr} {m : Map}

/-- A new node takes the slot `b` of `p`. `h1` is the heap after the change of the prefix of the old child. -/
theorem insertNode_commit (ht : HTr E live h root m) {p : Addr} (hp : live p) {np : Node} (hnp : h[p]? = some np) {b : UInt8} {r0 : Ref}
    {slot pos : Nat} (hf : np.findChild b = some (r0, slot, pos)) {h1 : Heap} (hlen : h1.length = h.length)
    (hkeep : ∀ a, (∀ c, r0 = .node c → a ≠ c) → h1[a]? = h[a]?)
    {Q : Bytes} (hQ : E p ++ [b] <+: Q)
    (hold : ∀ c, r0 = .node c → ∃ k k', h[c]? = some k ∧ h1[c]? = some k' ∧ k'.child = k.child ∧ k'.prefixLeaf = k.prefixLeaf ∧
      k'.version = k.version ∧ k'.cap = k.cap ∧ k'.prefixLen + Q.length + 1 = (E c).length ∧ NodeOK (E c) False k')
    {nn : Node} (ok : NodeOK Q False nn) (hver : nn.version = 0) (hcap : nn.cap ≠ 0) (hplen : nn.prefixLen + (E p).length + 1 = Q.length)
    (hl : nn.view.LeavesOk Q)
    (hnode : ∀ b' c, nn.child b' = some (.node c) → r0 = .node c ∧ Q ++ [b'] <+: E c)
    (hnode2 : ∀ c, r0 = .node c → ∃ b', nn.child b' = some (.node c)) {m' : Map}
    (hm1 : ∀ K, ¬ E p ++ [b] <+: K → m' K = m K)
    (hm2 : ∀ K c, r0 = .node c → E c <+: K → m' K = m K)
    (hm3 : ∀ K, E p ++ [b] <+: K → (∀ c, r0 = .node c → ¬ E c <+: K) →
      ∀ v, m' K = some v ↔ ∃ l, nn.view.Stored l ∧ l.key = K ∧ l.value = v) :
    ∃ h', allocAt h1 (p, slot) nn = some h' ∧ Frame h h' (p :: r0.addrs) ∧ h'.length = h.length + 1 ∧
      HT (upd E h.length Q) (fun a => a = h.length ∨ live a) h' m' := by
  have hq := ht.fresh
  obtain ⟨d, hd, hdk⟩ := ht.dummy
  have hqne : ∀ a, live a → a ≠ h.length := fun a ha e => hq (e ▸ ha)
  have hpos := ht.pos
  have hplt := ht.lt hp
  obtain ⟨np0, hnp0, hvp, okp⟩ := ht.view_live hp
  rw [hnp] at hnp0
  simp at hnp0
  subst hnp0
  have hpb : (view h p).child b = some r0 := by rw [hvp]; simp [Node.view, Node.child, hf]
  have hr0 : ∀ c, (view h p).child b = some (.node c) ↔ r0 = .node c := by intro c; rw [hpb]; simp
  have hclive : ∀ c, r0 = .node c → live c ∧ c ≠ p := by
    rintro c rfl
    exact ⟨(ht.tree.child p b c hp hpb).1, ht.tree.child_ne hp hpb⟩
  have hp1 : h1[p]? = some np := by rw [hkeep p (fun c hc => (hclive c hc).2.symm)]; exact hnp
  have hp0 : (h1 ++ [nn])[p]? = some np := by rw [List.getElem?_append_left (by rw [hlen]; exact hplt)]; exact hp1
  obtain ⟨np', e1, e2, e3⟩ := storeLoc_child hp0 okp.wf hf (.node h.length)
  have hget : ∀ a, a ≠ p → ((h1 ++ [nn]).set p np')[a]? = (h1 ++ [nn])[a]? :=
    fun a ha => List.getElem?_set_ne (Ne.symm ha)
  have hgetl : ∀ a, live a → a ≠ p → ((h1 ++ [nn]).set p np')[a]? = h1[a]? := by
    intro a ha hne
    rw [hget a hne, List.getElem?_append_left (by rw [hlen]; exact ht.lt ha)]
  have hgetq : ((h1 ++ [nn]).set p np')[h.length]? = some nn := by
    rw [hget _ (Ne.symm (hqne p hp)), ← hlen]; simp
  have hgetp : ((h1 ++ [nn]).set p np')[p]? = some np' := by
    rw [List.getElem?_set_self (by rw [List.length_append, hlen]; exact Nat.lt_of_lt_of_le hplt (Nat.le_add_right _ _))]
  have hrootc : ∀ c, r0 = .node c → c ≠ root := by
    rintro c rfl rfl
    exact ht.tree.root_not_child hp hpb
  have hf1 : Frame h h1 (p :: r0.addrs) := by
    refine ⟨by omega, ?_, ?_, ?_⟩
    · intro a _ haS
      refine hkeep a ?_
      rintro c rfl rfl
      simp [Ref.addrs] at haS
    · intro a n hn
      by_cases e : ∃ c, r0 = .node c ∧ a = c
      · obtain ⟨c, hc, rfl⟩ := e
        obtain ⟨k, k', g1, g2, -, -, g3, g4, -⟩ := hold a hc
        rw [hn] at g1
        simp at g1
        subst g1
        exact ⟨k', g2, g3, g4⟩
      · push Not at e
        exact ⟨n, by rw [hkeep a e]; exact hn, rfl, rfl⟩
    · intro a n ha hn
      have := (List.getElem?_eq_some_iff.mp hn).1
      rw [hlen] at this
      exact absurd this (Nat.not_lt.mpr ha)
  refine ⟨(h1 ++ [nn]).set p np', by rw [allocAt, hlen]; exact e1,
    (hf1.trans (Frame.append hver hcap _)).trans (Frame.set hp0 e3 e2.cap (by simp)), by simp [hlen], root, ?_⟩
  have hvq : view ((h1 ++ [nn]).set p np') h.length = nn.view := view_eq hgetq
  have hvl : ∀ a, live a → a ≠ p → (∀ c, r0 = .node c → a ≠ c) → view ((h1 ++ [nn]).set p np') a = view h a := by
    intro a ha hne hc
    exact view_congr (by rw [hgetl a ha hne, hkeep a hc])
  have hvp' : view ((h1 ++ [nn]).set p np') p = { np.view with child := upd np.child b (some (.node h.length)) } := by
    rw [view_eq hgetp, e2.view]
  have hvc : ∀ c, r0 = .node c → ∃ k k' : Node, h[c]? = some k ∧ view ((h1 ++ [nn]).set p np') c = k'.view ∧ k'.child = k.child ∧ k'.prefixLeaf = k.prefixLeaf ∧
      k'.prefixLen + Q.length + 1 = (E c).length := by
    intro c hc
    obtain ⟨k, k', g1, g2, g3, g4, -, -, g5, -⟩ := hold c hc
    exact ⟨k, k', g1, view_eq (by rw [hgetl c (hclive c hc).1 (hclive c hc).2]; exact g2), g3, g4, g5⟩
  refine ⟨?_, ⟨d, ?_, hdk⟩, ?_, ?_⟩
  · refine ht.tree.insertNode hp b hq hQ (V' := view ((h1 ++ [nn]).set p np')) ?_ ?_ ?_ ?_ ?_ ?_ ?_ ?_ ?_ hm1 ?_ ?_
    · rw [hvq]; exact hplen
    · rw [hvq]; exact hl
    · intro b' c hc
      rw [hvq] at hc
      rw [hr0]
      exact hnode b' c hc
    · intro c hc
      rw [hr0] at hc
      rw [hvq]
      exact hnode2 c hc
    · rw [hvp', hvp]; rfl
    · intro a ha hne
      by_cases e : ∃ c, r0 = .node c ∧ a = c
      · obtain ⟨c, hc, rfl⟩ := e
        obtain ⟨k, k', g1, g2, g3, -⟩ := hvc a hc
        rw [g2, view_eq g1]
        exact g3
      · push Not at e
        rw [hvl a ha hne e]
    · intro a ha
      by_cases e : ∃ c, r0 = .node c ∧ a = c
      · obtain ⟨c, hc, rfl⟩ := e
        obtain ⟨k, k', g1, g2, -, g4, -⟩ := hvc a hc
        rw [g2, view_eq g1]
        exact g4
      · push Not at e
        by_cases ep : a = p
        · subst ep; rw [hvp', hvp]
        · rw [hvl a ha ep e]
    · intro a ha hne
      rw [ne_eq, hr0] at hne
      by_cases ep : a = p
      · subst ep; rw [hvp', hvp]
      · rw [hvl a ha ep]
        rintro c hc rfl
        exact hne hc
    · intro c hc
      rw [hr0] at hc
      obtain ⟨k, k', -, g2, -, -, g5⟩ := hvc c hc
      rw [g2]
      exact g5
    · intro K c hc
      rw [hr0] at hc
      exact hm2 K c hc
    · intro K hK hc
      rw [hvq]
      exact hm3 K hK (fun c hc' => hc c ((hr0 c).mpr hc'))
  · rw [hget 0 (Ne.symm (ht.ne_zero hp)), List.getElem?_append_left (by rw [hlen]; exact hpos), hkeep 0]
    · exact hd
    · rintro c hc rfl
      exact ht.zero (hclive 0 hc).1
  · rintro (e | e)
    · exact absurd e (Nat.ne_of_lt hpos)
    · exact ht.zero e
  · rintro a (rfl | ha)
    · refine ⟨nn, hgetq, ?_⟩
      rw [upd_same]
      exact ⟨ok.wf, ok.plen_le, ok.pre, ok.min, fun _ => ok.two id⟩
    · rw [upd_other _ _ (hqne a ha)]
      by_cases e : ∃ c, r0 = .node c ∧ a = c
      · obtain ⟨c, hc, rfl⟩ := e
        obtain ⟨k, k', g1, g2, -, -, -, -, -, g5⟩ := hold a hc
        exact ⟨k', by rw [hgetl a ha (hclive a hc).2]; exact g2, g5.wf, g5.plen_le, g5.pre, g5.min, fun _ => g5.two id⟩
      · push Not at e
        by_cases ep : a = p
        · subst ep
          exact ⟨np', hgetp, e2.ok_upd okp⟩
        · obtain ⟨k, hk, okk⟩ := ht.node a ha
          exact ⟨k, by rw [hgetl a ha ep, hkeep a e]; exact hk, okk⟩

/-- node.go:297-330 -/
theorem updateOrExpand_commit (ht : HTr E live h root m) {a : Addr} (ha : live a) {n : Node} (hn : h[a]? = some n) {b : UInt8} {l : Leaf}
    {slot pos : Nat} (hf : n.findChild b = some (.leaf l, slot, pos)) {key value : Bytes} (hkey : E a ++ [b] <+: key)
    (hkl : key.length < 2 ^ 32) (hvl : value.length < 2 ^ 32) :
    ∃ h' E' live', updateOrExpand h l key value ((E a).length + 1) (a, slot) = some h' ∧ Frame h h' [a] ∧
      HT E' live' h' (m.put key value) ∧ (∀ c, c < h.length → E' c = E c ∧ (live' c ↔ live c)) ∧
      (∀ c, h.length ≤ c → c < h'.length → live' c) := by
  have hnk : (newLeaf key value).key = key := newLeaf_key hkl
  have hnv : (newLeaf key value).value = value := newLeaf_value hkl hvl
  unfold updateOrExpand
  by_cases hmk : l.key = key
  · rw [if_pos (by rw [Leaf.matchKey_iff]; exact hmk)]
    obtain ⟨h', e1, e2, e3⟩ := ht.replaceLeaf_commit ha hn hf (l' := newLeaf key value) (by rw [hnk, hmk])
    rw [hnk, hnv] at e3
    have hl : h'.length = h.length := by
      obtain ⟨n0, hn0, hv, ok⟩ := ht.view_live ha
      rw [hn] at hn0
      simp at hn0
      subst hn0
      obtain ⟨n', g1, g2, g3⟩ := storeLoc_child hn ok.wf hf (.leaf (newLeaf key value))
      rw [g1] at e1
      simp at e1
      rw [← e1]
      simp
    exact ⟨h', E, live, e1, e2, ⟨root, e3⟩, fun c _ => ⟨rfl, Iff.rfl⟩, fun c h1 h2 => by rw [hl] at h2; exact absurd h2 (Nat.not_lt.mpr h1)⟩
  · rw [if_neg (by rw [Leaf.matchKey_iff]; exact hmk)]
    have hvb : (view h a).child b = some (.leaf l) := by rw [view_eq hn]; simp [Node.view, Node.child, hf]
    have hlk := (ht.tree.leaves a ha).leaf b l hvb
    obtain ⟨Q, q1, q2, q3, q4, q5, q6, q7⟩ := missPos_spec hmk hlk hkey
    have hdl : (E a ++ [b]).length = (E a).length + 1 := by simp
    rw [hdl] at q1
    simp only [q1]
    have hQle := q3.length_le
    rw [hdl] at hQle
    let n0 : Node := { newNode4 with prefixLen := Q.length - ((E a).length + 1), pre := Node.pad8 ((key.take Q.length).drop ((E a).length + 1)) }
    have w0 : n0.WF := newNode4_wf _ _
    have c0 : n0.child = fun _ => none := newNode4_child _ _
    obtain ⟨n1, p1, P1⟩ := placeLeaf_spec w0 rfl (by rw [c0, cnt_none]; omega) (l := l) q4 (fun _ => rfl) (fun b _ => by rw [c0])
    have hcnt1 : cnt n1.child < 4 := by
      have := P1.count
      rw [c0, cnt_none] at this
      simp [n0, newNode4] at this
      omega
    obtain ⟨n2, p2, P2⟩ := placeLeaf_spec P1.wf P1.cap hcnt1 (l := newLeaf key value) (Q := Q) (by rw [hnk]; exact q5)
      (fun e => P1.pfree rfl (fun e' => q6 ⟨e', by rw [e, hnk]⟩))
      (fun b hb => P1.free b (by rw [c0]) (fun hb' => q7 b hb' (by rw [hnk] at hb; exact hb)))
    rw [hnk] at p2
    have hst : ∀ l', n2.view.Stored l' ↔ l' = l ∨ l' = newLeaf key value := by
      intro l'
      rw [P2.stored, P1.stored]
      have : ¬ n0.view.Stored l' := by rintro (hh | ⟨b, hh⟩) <;> simp [n0, Node.view, newNode4, Node.child, Node.findChild] at hh
      tauto
    have hlok : n2.view.LeavesOk Q := P2.leaves (P1.leaves ⟨fun b l' hh => by simp [Node.view, c0] at hh, fun l' hh => by simp [n0, Node.view, newNode4] at hh⟩)
    have hnn : ∀ b c, n2.child b ≠ some (.node c) := by
      intro b' c hh
      rw [P2.node, P1.node, c0] at hh
      simp at hh
    have hpl : n2.prefixLen = Q.length - ((E a).length + 1) := by rw [P2.plen, P1.plen]
    have hcount : cnt n2.child + n2.prefixLeaf.isSome.toNat = 2 := by
      rw [P2.count, P1.count, c0, cnt_none]
      rfl
    have hok : NodeOK Q False n2 := by
      refine ⟨P2.wf, by omega, ?_, by rw [P2.cap]; simp [minCount], fun _ => by omega⟩
      rw [P2.pre, P1.pre, hpl]
      show Node.pad8 ((key.take Q.length).drop ((E a).length + 1)) = _
      rw [← q2]
      congr 2
      omega
    have hm : ∀ K, E a ++ [b] <+: K → m K = if l.key = K then some l.value else none := fun K hK => ht.tree.lookup_leaf ha hK hvb
    obtain ⟨h', e1, e2, e3, e4⟩ := ht.insertNode_commit ha hn hf (h1 := h) rfl (fun _ _ => rfl) (Q := Q) q3 (by simp) (nn := n2) hok
      (by rw [P2.ver, P1.ver]; rfl) (by rw [P2.cap]; simp) (by omega) hlok (fun b' c hh => absurd hh (hnn b' c)) (by simp)
      (m' := m.put key value) (by
        intro K hK
        have : K ≠ key := by rintro rfl; exact hK hkey
        simp [Map.put, this]) (by simp) (by
        intro K hK _ v
        constructor
        · intro hh
          by_cases e : K = key
          · subst e
            simp [Map.put] at hh
            exact ⟨newLeaf K value, (hst _).mpr (Or.inr rfl), hnk, by rw [hnv]; exact hh⟩
          · simp [Map.put, e, hm K hK] at hh
            exact ⟨l, (hst _).mpr (Or.inl rfl), hh.1, hh.2⟩
        · rintro ⟨l', hs, h2, h3⟩
          rcases (hst l').mp hs with rfl | rfl
          · have : K ≠ key := by rintro rfl; exact hmk h2
            simp [Map.put, this, hm K hK, h2, h3]
          · rw [hnk] at h2
            rw [hnv] at h3
            simp [Map.put, h2, h3])
    refine ⟨h', _, _, ?_, e2, e4, ?_, ?_⟩
    · simp only [p1, p2, n0, Option.bind_eq_bind, Option.bind_some]
      exact e1
    · intro c hc
      refine ⟨upd_other _ _ (Nat.ne_of_lt hc), ?_⟩
      constructor
      · rintro (hh | hh)
        · exact absurd hh (Nat.ne_of_lt hc)
        · exact hh
      · exact Or.inr
    · intro c h1 h2
      left
      rw [e3] at h2
      exact Nat.le_antisymm (Nat.le_of_lt_succ h2) h1

end HTr

end Art
