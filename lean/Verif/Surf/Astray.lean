import Verif.Surf.OverlapExact

/-!
# Iterators that have gone astray

`Seek` may leave the way to a node in the sparse part: `SearchGreaterThan` looks at one label more than the node has, if the node begins with the label of the terminator. The iterator may then stand
on a label of another node. Here it is shown what is kept nevertheless: every position on the stack is a label of its level or of a deeper one. This is enough for all calls to return.
-/

set_option linter.unusedSimpArgs false

namespace Surf

/-! ### Every label belongs to a node -/

theorem flatMap_split {α β : Type} (f : α → List β) : ∀ (xs : List α) (a : List β) (t : β) (b : List β), xs.flatMap f = a ++ t :: b →
    ∃ x u y c d, xs = x ++ u :: y ∧ f u = c ++ t :: d ∧ a = x.flatMap f ++ c := by
  intro xs
  induction xs with
  | nil =>
    intro a t b e
    simp at e
  | cons v xs ih =>
    intro a t b e
    rw [List.flatMap_cons] at e
    rcases List.append_eq_append_iff.mp e with ⟨c, e1, e2⟩ | ⟨c, e1, e2⟩
    · obtain ⟨x, u, y, c', d, h1, h2, h3⟩ := ih c t b e2
      exact ⟨v :: x, u, y, c', d, by rw [h1]; rfl, h2, by rw [e1, h3]; simp⟩
    · cases c with
      | nil =>
        rw [List.append_nil] at e1
        rw [List.nil_append] at e2
        obtain ⟨x, u, y, c', d, h1, h2, h3⟩ := ih [] t b e2.symm
        exact ⟨v :: x, u, y, c', d, by rw [h1]; rfl, h2, by rw [List.flatMap_cons, List.append_assoc, ← h3, List.append_nil, e1]⟩
      | cons z c =>
        rw [List.cons_append, List.cons.injEq] at e2
        exact ⟨[], v, xs, a, c, rfl, by rw [e1, e2.1], by simp⟩

theorem kids_flat (b : Nat) (is : List Item) : kids b is = is.flatMap (fun i => if i.child then [⟨i.kvs, b + 1⟩] else []) := by
  induction is with
  | nil => rfl
  | cons i is ih =>
    cases hc : i.child with
    | true => rw [kids_cons hc, List.flatMap_cons, hc, ih]; rfl
    | false => rw [kids_leaf hc, List.flatMap_cons, hc, ih]; rfl

/-- Every node is at the end of a way. -/
theorem desc_way {t0 : Grp} : ∀ (n : Nat) (a : List Grp) (t : Grp) (b : List Grp), t0.desc n = a ++ t :: b → ∃ W, Way t0 W t ∧ W.length = n ∧ left W = a := by
  intro n
  induction n with
  | zero =>
    intro a t b e
    have e' : [t0] = a ++ t :: b := e
    cases a with
    | nil =>
      simp only [List.nil_append, List.cons.injEq] at e'
      rw [← e'.1]
      exact ⟨[], .nil, rfl, rfl⟩
    | cons z a => simp at e'
  | succ n ih =>
    intro a t b e
    rw [Grp.desc_succ] at e
    obtain ⟨x, u, y, c, d, h1, h2, h3⟩ := flatMap_split _ _ _ _ _ e
    obtain ⟨W, w, hl, hlf⟩ := ih x u y h1
    rw [Grp.children_eq, kids_flat] at h2
    obtain ⟨ip, i, iq, c', d', g1, g2, g3⟩ := flatMap_split _ _ _ _ _ h2
    cases hc : i.child with
    | false =>
      rw [hc] at g2
      simp at g2
    | true =>
      rw [hc] at g2
      simp only [if_true] at g2
      cases c' with
      | cons z c' => simp at g2
      | nil =>
        simp only [List.nil_append, List.cons.injEq] at g2
        refine ⟨⟨u, ip, i, iq⟩ :: W, ?_, by simp [hl], ?_⟩
        · rw [← g2.1]
          exact w.down g1 hc
        · rw [h3, left, hlf, g3, List.append_nil, ← kids_flat]

section
variable {cfg : Config} {fp : Bytes → Word} {s : SuRF} {t0 t : Grp} {cut h : Nat} {R r W : List Frame} {ip iq : List Item} {i : Item} {j p : Nat}

/-- The first position of level `cut + j`. -/
def lvl (t0 : Grp) (cut j : Nat) : Nat := itemN (nodesIn t0 cut j)

/-- The position `p` is a label on level `cut + j` or below. -/
def Spot (t0 : Grp) (cut h j p : Nat) : Prop := lvl t0 cut j ≤ p ∧ p < lvl t0 cut (h - cut)

theorem lvl_mono {a b : Nat} (hab : a ≤ b) : lvl t0 cut a ≤ lvl t0 cut b := by
  unfold lvl
  have := nodesIn_add t0 cut a (b - a)
  rw [show a + (b - a) = b by omega] at this
  rw [this, itemN_append]
  omega

theorem Spot.mono {a b : Nat} (hab : a ≤ b) (hs : Spot t0 cut h b p) : Spot t0 cut h a p := ⟨Nat.le_trans (lvl_mono hab) hs.1, hs.2⟩

theorem lvl_le_spos {k : Nat} (hl : cut + j ≤ W.length) : lvl t0 cut j ≤ spos t0 cut W k := by
  have := lvl_mono (t0 := t0) (cut := cut) (show j ≤ W.length - cut by omega)
  unfold lvl at this
  unfold spos
  rw [itemN_append]
  unfold lvl
  omega

theorem Built.lvl_all (B : Built cfg fp s t0 cut h) : s.ls.loudsVec.bv.numBits = lvl t0 cut (h - cut) := by
  rw [B.sv.lon, (louds_flat _ ?_).1]
  · rfl
  · intro x hx
    obtain ⟨i, hi⟩ := nodesIn_mem hx
    exact (B.root.desc_ok hi).toOK

theorem Built.spot_of (B : Built cfg fp s t0 cut h) (w : Way t0 W t) (hl : cut + j ≤ W.length) (e : t.items = ip ++ i :: iq) : Spot t0 cut h j (spos t0 cut W ip.length) := by
  refine ⟨lvl_le_spos hl, ?_⟩
  obtain ⟨post, ep, hok, hv⟩ := B.s_at w (by omega)
  have := hv.numBits hok
  rw [B.lvl_all] at this
  unfold spos
  rw [this, e]
  simp
  omega

theorem Built.spot_way (B : Built cfg fp s t0 cut h) (hs : Spot t0 cut h j p) : ∃ W t ip i iq, Way t0 W t ∧ cut + j ≤ W.length ∧ t.items = ip ++ i :: iq ∧ spos t0 cut W ip.length = p := by
  obtain ⟨h1, h2⟩ := hs
  -- the node
  obtain ⟨X, Y, eI, hX⟩ : ∃ X Y, ((nodesIn t0 cut (h - cut)).flatMap Grp.items) = X ++ Y ∧ X.length = p := by
    refine ⟨_, _, (List.take_append_drop p _).symm, ?_⟩
    rw [List.length_take]
    unfold lvl itemN at h2
    omega
  cases Y with
  | nil =>
    have := congrArg List.length eI
    rw [List.append_nil] at this
    unfold lvl itemN at h2
    omega
  | cons i Y =>
    obtain ⟨x, t, y, ip, iq, g1, g2, g3⟩ := flatMap_split _ _ _ _ _ eI
    unfold nodesIn at g1
    obtain ⟨x', l, y', a, b, k1, k2, k3⟩ := flatMap_split _ _ _ _ _ g1
    obtain ⟨W, w, hl, hlf⟩ := desc_way _ _ _ _ k2
    have hrange : x' = List.range' cut x'.length ∧ l = cut + x'.length := by
      have e2 := congrArg (·[x'.length]?) k1
      have hlen := congrArg List.length k1
      simp only [List.length_range', List.length_append, List.length_cons] at hlen
      simp only [List.getElem?_append_right (Nat.le_refl _), Nat.sub_self, List.getElem?_cons_zero] at e2
      rw [List.getElem?_range' (by omega), Option.some.injEq] at e2
      refine ⟨List.ext_getElem? fun n => ?_, by omega⟩
      by_cases hn : n < x'.length
      · have e1 := congrArg (·[n]?) k1
        rw [List.getElem?_range' (by omega), List.getElem?_append_left hn] at e1
        rw [List.getElem?_range' hn, ← e1]
      · rw [List.getElem?_eq_none (by omega), List.getElem?_eq_none (by simp; omega)]
    have hx : x = nodesIn t0 cut (W.length - cut) ++ left W := by
      rw [k3, hlf, hl, hrange.2]
      unfold nodesIn
      rw [Nat.add_sub_cancel_left, ← hrange.1]
    have hp : spos t0 cut W ip.length = p := by
      unfold spos itemN
      rw [← hx, ← hX, g3]
      simp
    refine ⟨W, t, ip, i, iq, w, ?_, g2, hp⟩
    -- the level
    by_contra hc
    obtain ⟨bb, eb⟩ := w.desc
    have hlt : W.length - cut + 1 ≤ j := by omega
    have h5 := lvl_mono (t0 := t0) (cut := cut) hlt
    unfold lvl at h5 h1
    rw [nodesIn_succ, show cut + (W.length - cut) = W.length by omega, eb, itemN_append, itemN_append] at h5
    unfold spos at hp
    rw [itemN_append] at hp
    have h6 : itemN (t :: bb) = t.items.length + itemN bb := by simp [itemN]
    rw [h6, g2] at h5
    simp at h5
    omega

/-- What is found at a label. -/
theorem Built.spot_read (B : Built cfg fp s t0 cut h) (hs : Spot t0 cut h j p) : ∃ c b e, s.ls.labelVec.getLabel p = some c ∧ s.ls.hasChildVec.bv.isSet p = some b ∧ s.ls.isEndOfNode p = some e := by
  obtain ⟨W, t, ip, i, iq, w, hl, e, rfl⟩ := B.spot_way hs
  exact ⟨_, _, _, B.s_label w (by omega) e, B.s_hasChild w (by omega) e, B.s_isEnd w (by omega) (by rw [e]; simp)⟩

/-- The first label of a level begins a node. -/
theorem Built.spot_louds (B : Built cfg fp s t0 cut h) (hs : Spot t0 cut h j p) : ∃ b, s.ls.loudsVec.bv.isSet p = some b ∧ (b = false → lvl t0 cut j < p) := by
  obtain ⟨W, t, ip, i, iq, w, hl, e, rfl⟩ := B.spot_way hs
  refine ⟨_, B.s_louds w (by omega) (by rw [e]; simp), fun hb => ?_⟩
  have h1 := lvl_le_spos (t0 := t0) (k := 0) hl
  have h2 : ip.length ≠ 0 := by simpa using hb
  unfold spos at h1 ⊢
  omega

/-- Going down from a label. -/
theorem Built.spot_down (B : Built cfg fp s t0 cut h) (bmi first : Bool) (hs : Spot t0 cut h j p) (hc : s.ls.hasChildVec.bv.isSet p = some true) :
    ∃ n q pid pre, s.ls.childNodeID p = some n ∧ (if first then s.ls.firstLabelPos bmi n else s.ls.lastLabelPos bmi n) = some q ∧ Spot t0 cut h (j + 1) q ∧ j + 1 < h - cut ∧
      s.ls.prefixID n = some pid ∧ s.ls.prefixVec.getPrefix pid = some pre := by
  obtain ⟨W, t, ip, i, iq, w, hl, e, rfl⟩ := B.spot_way hs
  have hch : i.child = true := by
    rw [B.s_hasChild w (by omega) e, Option.some.injEq] at hc
    exact hc
  have w' := w.down e hch
  obtain ⟨jp, x, jq, ej, hj⟩ := end_item (w'.good B.root).toOK first
  obtain ⟨pid, p1, p2⟩ := B.s_pre w' (by simp; omega)
  have hlt := B.way_lt w'
  simp only [List.length_cons] at hlt
  exact ⟨_, _, _, _, B.s_child w (by omega) e hch, B.s_end w' (by simp; omega) bmi first ej hj, B.spot_of w' (by simp; omega) ej, by omega, p1, p2⟩

/-! ### The arrays -/

/-- The lengths of the key kept for the levels below `L` fit the key. -/
structure Lens (n : Nat) (it : SparseIter) (L : Nat) : Prop where
  sz : SSize n it
  le : L ≤ n
  some : ∀ j, j < L → ∃ m, it.prefixLen[j]? = some m ∧ 1 ≤ m ∧ m ≤ it.keyBuf.length
  mono : ∀ a b x y, a ≤ b → b < L → it.prefixLen[a]? = Option.some x → it.prefixLen[b]? = Option.some y → x ≤ y

/-- The positions kept for the levels below `L` are labels of these levels or deeper ones. -/
def Spots (t0 : Grp) (cut h : Nat) (it : SparseIter) (L : Nat) : Prop := ∀ j, j < L → ∃ p, it.posInTrie[j]? = some p ∧ Spot t0 cut h j p

/-- The sparse iterator is at a label of its level or of a deeper one. -/
structure SRoam (t0 : Grp) (cut h : Nat) (it : SparseIter) : Prop where
  lens : Lens (h - cut) it (it.level + 1)
  spots : Spots t0 cut h it (it.level + 1)

/-- ... and this is a leaf. -/
structure SGood (t0 : Grp) (cut h : Nat) (it : SparseIter) : Prop extends SRoam t0 cut h it where
  valid : it.valid = true
  leaf : ∃ W t ip i iq, Way t0 W t ∧ cut ≤ W.length ∧ t.items = ip ++ i :: iq ∧ i.child = false ∧ it.posInTrie[it.level]? = some (spos t0 cut W ip.length)

/-- The sparse iterator is not in use. -/
structure SOff (t0 : Grp) (cut h : Nat) (it : SparseIter) : Prop where
  valid : it.valid = false
  place : SClean (h - cut) it ∨ SRoam t0 cut h it

theorem SRoam.here {it : SparseIter} (hr : SRoam t0 cut h it) : ∃ p, it.posInTrie[it.level]? = some p ∧ Spot t0 cut h it.level p := hr.spots _ (by omega)

theorem Lens.buf {n L : Nat} {it : SparseIter} (hl : Lens n it (L + 1)) : it.keyBuf.length ≠ 0 := by
  obtain ⟨m, -, h1, h2⟩ := hl.some L (by omega)
  omega

theorem Lens.down {n L L' : Nat} {it : SparseIter} (hl : Lens n it L) (hL : L' ≤ L) : Lens n it L' :=
  ⟨hl.sz, by have := hl.le; omega, fun j hj => hl.some j (by omega), fun a b x y hab hb => hl.mono a b x y hab (by omega)⟩

/-- Only the arrays and the key matter. -/
theorem Lens.same {n L : Nat} {it it' : SparseIter} (hl : Lens n it L) (h1 : it'.posInTrie = it.posInTrie) (h2 : it'.prefixLen = it.prefixLen) (h3 : it'.nodeID = it.nodeID) (h4 : it'.keyBuf = it.keyBuf) : Lens n it' L := by
  obtain ⟨⟨a, b, c⟩, d, e, f⟩ := hl
  exact ⟨⟨by rw [h1]; exact a, by rw [h2]; exact b, by rw [h3]; exact c⟩, d, by rw [h2, h4]; exact e, by rw [h2]; exact f⟩

theorem Spots.same {L : Nat} {it it' : SparseIter} (hl : Spots t0 cut h it L) (h1 : it'.posInTrie = it.posInTrie) : Spots t0 cut h it' L := by
  unfold Spots
  rw [h1]
  exact hl

theorem Spots.down {L L' : Nat} {it : SparseIter} (hl : Spots t0 cut h it L) (hL : L' ≤ L) : Spots t0 cut h it L' := fun j hj => hl j (by omega)

theorem Spots.set {L : Nat} {it it' : SparseIter} (hl : Spots t0 cut h it L) (h1 : it'.posInTrie = it.posInTrie.set L p) : Spots t0 cut h it' L := by
  intro j hj
  rw [h1, List.getElem?_set, if_neg (by omega)]
  exact hl j hj

theorem Spots.push {L : Nat} {it it' : SparseIter} (hl : Spots t0 cut h it L) (h1 : it'.posInTrie = it.posInTrie.set L p) (hL : L < it.posInTrie.length) (hp : Spot t0 cut h L p) : Spots t0 cut h it' (L + 1) := by
  intro j hj
  rw [h1, List.getElem?_set]
  by_cases hjL : L = j
  · subst hjL
    exact ⟨p, by simp [hL], hp⟩
  · rw [if_neg hjL]
    exact hl j (by omega)

/-! ### Steps -/

theorem either_end {α : Type} {ls : LoudsSparse} {bmi first : Bool} {n q : Nat} (hq : (if first then ls.firstLabelPos bmi n else ls.lastLabelPos bmi n) = some q) (k : Nat → Option α) :
    (if first = true then (ls.firstLabelPos bmi n).bind k else (ls.lastLabelPos bmi n).bind k) = k q := by
  cases first with
  | true =>
    simp only [if_true] at hq ⊢
    rw [hq]
    rfl
  | false =>
    simp only [Bool.false_eq_true, if_false] at hq ⊢
    rw [hq]
    rfl

theorem roam_append {ls : LoudsSparse} {n : Nat} {it : SparseIter} (hl : Lens n it it.level) (hlt : it.level < n) {nid pid : Nat} {pre : Bytes} (p1 : ls.prefixID nid = some pid) (p2 : ls.prefixVec.getPrefix pid = some pre)
    (c : UInt8) (p : Nat) :
    ∃ it', it.append ls c p nid = some it' ∧ Lens n it' (it.level + 1) ∧ it'.level = it.level ∧ it'.posInTrie = it.posInTrie.set it.level p ∧ it'.atTerminator = it.atTerminator ∧ it'.startDepth = it.startDepth := by
  obtain ⟨m, hup, hm1, hm2, hm3⟩ : ∃ m, it.upLen (pre.length + 1) = some m ∧ 1 ≤ m ∧ m ≤ it.keyBuf.length + (pre.length + 1) ∧ ∀ a x, a < it.level → it.prefixLen[a]? = some x → x ≤ m := by
    unfold SparseIter.upLen
    by_cases h0 : it.level = 0
    · rw [if_neg (by omega)]
      exact ⟨_, rfl, by omega, by omega, fun a x ha => by omega⟩
    · rw [if_pos h0]
      obtain ⟨m, h1, h2, h3⟩ := hl.some (it.level - 1) (by omega)
      rw [h1]
      refine ⟨pre.length + 1 + m, rfl, by omega, by omega, fun a x ha hx => ?_⟩
      have := hl.mono a (it.level - 1) x m (by omega) (by omega) hx h1
      omega
  unfold SparseIter.append putAt
  simp only [p1, p2, Option.bind_eq_bind, Option.bind_some, hl.sz.p, hl.sz.l, hl.sz.d, if_pos hlt, hup, Option.pure_def]
  refine ⟨_, rfl, ⟨⟨?_, ?_, ?_⟩, by omega, ?_, ?_⟩, rfl, rfl, rfl, rfl⟩
  · simp [hl.sz.p]
  · simp [hl.sz.l]
  · simp [hl.sz.d]
  · intro j hj
    simp only [List.getElem?_set]
    by_cases hjL : it.level = j
    · subst hjL
      rw [if_pos rfl, if_pos (by rw [hl.sz.l]; exact hlt)]
      exact ⟨m, rfl, hm1, by simp; omega⟩
    · rw [if_neg hjL]
      obtain ⟨x, h1, h2, h3⟩ := hl.some j (by omega)
      exact ⟨x, h1, h2, by simp; omega⟩
  · intro a b x y hab hb hx hy
    simp only [List.getElem?_set] at hx hy
    by_cases hbL : it.level = b
    · subst hbL
      rw [if_pos rfl, if_pos (by rw [hl.sz.l]; exact hlt), Option.some.injEq] at hy
      subst hy
      by_cases haL : it.level = a
      · rw [if_pos haL, if_pos (by rw [hl.sz.l]; exact hlt), Option.some.injEq] at hx
        omega
      · rw [if_neg haL] at hx
        exact hm3 a x (by omega) hx
    · rw [if_neg hbL] at hy
      rw [if_neg (by omega)] at hx
      exact hl.mono a b x y hab (by omega) hx hy

theorem Built.roam_setAt (B : Built cfg fp s t0 cut h) {it : SparseIter} (hl : Lens (h - cut) it (it.level + 1)) (hs : Spots t0 cut h it it.level) (hp : Spot t0 cut h it.level p) :
    ∃ it', it.setAt s.ls p = some it' ∧ SRoam t0 cut h it' ∧ it'.startDepth = it.startDepth := by
  obtain ⟨c, -, -, hc, -⟩ := B.spot_read hp
  obtain ⟨m, h1, h2, h3⟩ := hl.some it.level (by omega)
  have hle := hl.le
  unfold SparseIter.setAt putAt cutTo usub
  simp only [h1, hc, Option.bind_eq_bind, Option.bind_some, if_pos h2, if_pos (show m - 1 ≤ it.keyBuf.length by omega), hl.sz.p, if_pos (show it.level < h - cut by omega), Option.pure_def]
  refine ⟨_, rfl, ⟨⟨⟨?_, hl.sz.l, hl.sz.d⟩, hl.le, ?_, hl.mono⟩, hs.push rfl (by rw [hl.sz.p]; omega) hp⟩, rfl⟩
  · simp [hl.sz.p]
  · intro j hj
    obtain ⟨x, g1, g2, g3⟩ := hl.some j hj
    have := hl.mono j it.level x m (by simp only at hj; omega) (by omega) g1 h1
    exact ⟨x, g1, g2, by simp; omega⟩

/-- The leaf. -/
theorem Built.roam_atLeaf (B : Built cfg fp s t0 cut h) {it : SparseIter} (hr : SRoam t0 cut h it) (hp : it.posInTrie[it.level]? = some p) (hc : s.ls.hasChildVec.bv.isSet p = some false) (c : UInt8) :
    ∃ it', it.atLeaf s.ls p c = some it' ∧ SGood t0 cut h it' ∧ it'.startDepth = it.startDepth := by
  obtain ⟨p', h1, h2⟩ := hr.here
  rw [hp, Option.some.injEq] at h1
  subst h1
  have hleaf : ∃ W t ip i iq, Way t0 W t ∧ cut ≤ W.length ∧ t.items = ip ++ i :: iq ∧ i.child = false ∧ it.posInTrie[it.level]? = some (spos t0 cut W ip.length) := by
    obtain ⟨W, t, ip, i, iq, w, hl, e, rfl⟩ := B.spot_way h2
    refine ⟨W, t, ip, i, iq, w, by omega, e, ?_, hp⟩
    rw [B.s_hasChild w (by omega) e, Option.some.injEq] at hc
    exact hc
  obtain ⟨-, -, b, -, -, hb⟩ := B.spot_read h2
  unfold SparseIter.atLeaf
  rw [hb]
  split
  · exact ⟨_, rfl, ⟨⟨hr.lens.same rfl rfl rfl rfl, hr.spots.same rfl⟩, rfl, hleaf⟩, rfl⟩
  · exact ⟨_, rfl, ⟨⟨hr.lens.same rfl rfl rfl rfl, hr.spots.same rfl⟩, rfl, hleaf⟩, rfl⟩

theorem Built.roam_downLoop (B : Built cfg fp s t0 cut h) (bmi first : Bool) : ∀ (n : Nat) (it : SparseIter) (p : Nat), it.level + n = h - cut → SRoam t0 cut h it → it.posInTrie[it.level]? = some p →
    s.ls.hasChildVec.bv.isSet p = some true → ∃ it', SparseIter.downLoop bmi s.ls first n it p = some it' ∧ SGood t0 cut h it' ∧ it'.startDepth = it.startDepth := by
  intro n
  induction n with
  | zero =>
    intro it p hn hr
    have := hr.lens.le
    omega
  | succ n ih =>
    intro it p hn hr hp hc
    obtain ⟨p', h1, h2⟩ := hr.here
    rw [hp, Option.some.injEq] at h1
    subst h1
    obtain ⟨nid, q, pid, pre, g1, g2, g3, g4, g5, g6⟩ := B.spot_down bmi first h2 hc
    obtain ⟨c, b, -, k1, k2, -⟩ := B.spot_read g3
    rw [SparseIter.downLoop, g1]
    simp only [Option.bind_eq_bind, Option.bind_some]
    rw [either_end g2, k1]
    simp only [Option.bind_some]
    rw [k2]
    simp only [Option.bind_some]
    obtain ⟨it1, a1, a2, a3, a4, a5, a6⟩ := roam_append (ls := s.ls) (it := { it with level := it.level + 1 }) (hr.lens.same rfl rfl rfl rfl) g4 g5 g6 c q
    rw [a1]
    simp only [Option.bind_some]
    simp only at a2 a3 a4 a6
    have hr1 : SRoam t0 cut h it1 := by
      refine ⟨by rw [a3]; exact a2, ?_⟩
      rw [a3]
      exact Spots.push hr.spots a4 (by rw [hr.lens.sz.p]; exact g4) g3
    have hp1 : it1.posInTrie[it1.level]? = some q := by
      rw [a3, a4, List.getElem?_set, if_pos rfl, if_pos (by rw [hr.lens.sz.p]; exact g4)]
    cases b with
    | false =>
      simp only [Bool.not_false, if_true]
      rw [← a6]
      exact B.roam_atLeaf hr1 hp1 k2 c
    | true =>
      simp only [Bool.not_true, Bool.false_eq_true, if_false]
      rw [← a6]
      exact ih it1 q (by rw [a3]; omega) hr1 hp1 k2

theorem Built.roam_move (B : Built cfg fp s t0 cut h) (bmi first : Bool) {it : SparseIter} (hr : SRoam t0 cut h it) :
    ∃ it', it.move bmi s.ls first = some it' ∧ SGood t0 cut h it' ∧ it'.startDepth = it.startDepth := by
  obtain ⟨p, h1, h2⟩ := hr.here
  obtain ⟨c, b, -, k1, k2, -⟩ := B.spot_read h2
  unfold SparseIter.move SparseIter.enter
  rw [if_neg hr.lens.buf]
  simp only [Option.bind_eq_bind, Option.bind_some, h1, k1, k2]
  cases b with
  | false =>
    simp only [Bool.not_false, if_true]
    exact B.roam_atLeaf hr h1 k2 c
  | true =>
    simp only [Bool.not_true, Bool.false_eq_true, if_false]
    refine B.roam_downLoop bmi first _ it p ?_ hr h1 k2
    have := hr.lens.le
    unfold LoudsSparse.sparseLevels
    rw [B.hs, B.start]
    omega

theorem SClean.lens {n : Nat} {it : SparseIter} (hc : SClean n it) : Lens n it 0 := ⟨hc.sz, by omega, fun j hj => by omega, fun a b x y _ hb => by omega⟩

/-- From the dense part into the sparse one. -/
theorem Built.roam_into (B : Built cfg fp s t0 cut h) (bmi first : Bool) {d : DenseIter} {it : SparseIter} {T : Grp} {sc l rc : Bool} (hd : DSend t0 cut d R T sc l rc) (ho : SOff t0 cut h it) :
    ∃ it', { it with startNodeID := d.sendOutNodeID, startDepth := d.sendOutDepth }.move bmi s.ls first = some it' ∧ SGood t0 cut h it' ∧ it'.startDepth = (str R).length := by
  rw [← hd.depth]
  rcases ho.place with hc | hr
  · obtain ⟨jp, x, jq, ej, hj⟩ := end_item (hd.way.good B.root).toOK first
    have hpos := B.s_end hd.way (by rw [hd.len]) bmi first ej hj
    obtain ⟨pid, p1, p2⟩ := B.s_pre hd.way (by rw [hd.len])
    have hsp : Spot t0 cut h 0 (spos t0 cut R jp.length) := B.spot_of hd.way (by rw [hd.len]; omega) ej
    have hlt := B.lt
    obtain ⟨it1, a1, a2, a3, a4, a5, a6⟩ := roam_append (ls := s.ls) (n := h - cut) (it := { it with startNodeID := d.sendOutNodeID, startDepth := d.sendOutDepth }) (by
      rw [show ({ it with startNodeID := d.sendOutNodeID, startDepth := d.sendOutDepth } : SparseIter).level = 0 from hc.lev]
      exact hc.lens.same rfl rfl rfl rfl) (by simp only [hc.lev]; omega) p1 p2 x.label (spos t0 cut R jp.length)
    simp only at a2 a3 a4 a6
    have hr1 : SRoam t0 cut h it1 := by
      refine ⟨by rw [a3]; exact a2, ?_⟩
      rw [a3]
      refine Spots.push (L := it.level) (fun j hj => ?_) a4 (by rw [hc.sz.p, hc.lev]; omega) (by rw [hc.lev]; exact hsp)
      rw [hc.lev] at hj
      omega
    have hen : SparseIter.enter bmi s.ls first { it with startNodeID := d.sendOutNodeID, startDepth := d.sendOutDepth } = some it1 := by
      unfold SparseIter.enter
      rw [if_pos (by simp [hc.buf])]
      simp only
      rw [hd.node] at a1 ⊢
      simp only [Option.bind_eq_bind]
      rw [either_end hpos, B.s_label hd.way (by rw [hd.len]) ej]
      exact a1
    obtain ⟨it2, b1, b2, b3⟩ := B.roam_move bmi first hr1
    refine ⟨it2, ?_, b2, b3.trans a6⟩
    unfold SparseIter.move at b1 ⊢
    rw [hen]
    simp only [Option.bind_eq_bind, Option.bind_some]
    unfold SparseIter.enter at b1
    rw [if_neg hr1.lens.buf] at b1
    exact b1
  · obtain ⟨it2, b1, b2, b3⟩ := B.roam_move bmi first (it := { it with startNodeID := d.sendOutNodeID, startDepth := d.sendOutDepth }) ⟨hr.lens.same rfl rfl rfl rfl, hr.spots.same rfl⟩
    exact ⟨it2, b1, b2, b3⟩

/-! ### Next and Prev of the sparse iterator -/

theorem Built.roam_nextHere (B : Built cfg fp s t0 cut h) {ps : List Nat} {lev : Nat} (hp : ps[lev]? = some p) (hlow : lvl t0 cut lev ≤ p) :
    ∃ o, SparseIter.nextHere s.ls ps lev = some o ∧ ∀ q, o = some q → Spot t0 cut h lev q := by
  unfold SparseIter.nextHere
  rw [hp]
  simp only [Option.bind_eq_bind, Option.bind_some]
  by_cases hn : p + 1 ≥ s.ls.loudsVec.bv.numBits
  · rw [if_pos hn]
    exact ⟨_, rfl, fun q hq => by simp at hq⟩
  · rw [if_neg hn]
    rw [B.lvl_all] at hn
    have hsp : Spot t0 cut h lev (p + 1) := ⟨by omega, by omega⟩
    obtain ⟨b, hb, -⟩ := B.spot_louds hsp
    rw [hb]
    refine ⟨_, rfl, fun q hq => ?_⟩
    cases b with
    | true => simp at hq
    | false =>
      simp only [Bool.false_eq_true, if_false, Option.some.injEq] at hq
      subst hq
      exact hsp

theorem Built.roam_nextLoop (B : Built cfg fp s t0 cut h) {it : SparseIter} : ∀ (lev p : Nat), Spots t0 cut h it lev → it.posInTrie[lev]? = some p → lvl t0 cut lev ≤ p →
    SparseIter.nextLoop s.ls it.posInTrie lev = some none ∨ ∃ lev' q, SparseIter.nextLoop s.ls it.posInTrie lev = some (some (lev', q)) ∧ lev' ≤ lev ∧ Spot t0 cut h lev' q := by
  intro lev
  induction lev with
  | zero =>
    intro p hs hp hlow
    obtain ⟨o, h1, h2⟩ := B.roam_nextHere hp hlow
    rw [SparseIter.nextLoop, h1]
    cases o with
    | none => exact .inl rfl
    | some q => exact .inr ⟨_, _, rfl, by omega, h2 q rfl⟩
  | succ lev ih =>
    intro p hs hp hlow
    obtain ⟨o, h1, h2⟩ := B.roam_nextHere hp hlow
    rw [SparseIter.nextLoop, h1]
    cases o with
    | none =>
      simp only [Option.bind_eq_bind, Option.bind_some]
      obtain ⟨p', g1, g2⟩ := hs lev (by omega)
      rcases ih p' (hs.down (by omega)) g1 g2.1 with h3 | ⟨lev', q, h3, h4, h5⟩
      · exact .inl h3
      · exact .inr ⟨lev', q, h3, by omega, h5⟩
    | some q => exact .inr ⟨_, _, rfl, by omega, h2 q rfl⟩

/-- `Next`, from a label of a level at least as deep. -/
theorem Built.roam_next (B : Built cfg fp s t0 cut h) (bmi : Bool) {it : SparseIter} (hl : Lens (h - cut) it (it.level + 1)) (hs : Spots t0 cut h it it.level) (hp : it.posInTrie[it.level]? = some p) (hlow : lvl t0 cut it.level ≤ p) :
    ∃ it', it.next bmi s.ls = some it' ∧ (SGood t0 cut h it' ∧ it'.startDepth = it.startDepth ∨ SClean (h - cut) it') := by
  unfold SparseIter.next
  simp only [Option.bind_eq_bind]
  rcases B.roam_nextLoop it.level p hs hp hlow with h1 | ⟨lev', q, h1, h2, h3⟩
  · rw [h1]
    exact ⟨_, rfl, .inr ⟨⟨hl.sz.p, hl.sz.l, hl.sz.d⟩, rfl, rfl, rfl, rfl⟩⟩
  · rw [h1]
    simp only [Option.bind_some]
    obtain ⟨it1, a1, a2, a3⟩ := B.roam_setAt (it := { it with atTerminator := false, level := lev' }) ((hl.down (by omega : lev' + 1 ≤ it.level + 1)).same rfl rfl rfl rfl) ((hs.down h2).same rfl) h3
    rw [a1]
    simp only [Option.bind_some]
    obtain ⟨it2, b1, b2, b3⟩ := B.roam_move bmi true a2
    exact ⟨it2, b1, .inl ⟨b2, b3.trans a3⟩⟩

theorem Built.roam_prevHere (B : Built cfg fp s t0 cut h) {ps : List Nat} {lev : Nat} (hp : ps[lev]? = some p) (hsp : Spot t0 cut h lev p) :
    ∃ o, SparseIter.prevHere s.ls ps lev = some o ∧ ∀ q, o = some q → Spot t0 cut h lev q := by
  unfold SparseIter.prevHere
  rw [hp]
  simp only [Option.bind_eq_bind, Option.bind_some]
  obtain ⟨b, hb, hlow⟩ := B.spot_louds hsp
  rw [hb]
  simp only [Option.bind_some]
  cases b with
  | true => exact ⟨_, rfl, fun q hq => by simp at hq⟩
  | false =>
    have := hlow rfl
    simp only [Bool.false_eq_true, if_false]
    unfold usub
    rw [if_pos (by omega)]
    refine ⟨_, rfl, fun q hq => ?_⟩
    rw [Option.some.injEq] at hq
    subst hq
    exact ⟨by omega, by have := hsp.2; omega⟩

theorem Built.roam_prevLoop (B : Built cfg fp s t0 cut h) {it : SparseIter} : ∀ (lev : Nat), Spots t0 cut h it (lev + 1) →
    SparseIter.prevLoop s.ls it.posInTrie lev = some none ∨ ∃ lev' q, SparseIter.prevLoop s.ls it.posInTrie lev = some (some (lev', q)) ∧ lev' ≤ lev ∧ Spot t0 cut h lev' q := by
  intro lev
  induction lev with
  | zero =>
    intro hs
    obtain ⟨p, hp, hsp⟩ := hs 0 (by omega)
    obtain ⟨o, h1, h2⟩ := B.roam_prevHere hp hsp
    rw [SparseIter.prevLoop, h1]
    cases o with
    | none => exact .inl rfl
    | some q => exact .inr ⟨_, _, rfl, by omega, h2 q rfl⟩
  | succ lev ih =>
    intro hs
    obtain ⟨p, hp, hsp⟩ := hs (lev + 1) (by omega)
    obtain ⟨o, h1, h2⟩ := B.roam_prevHere hp hsp
    rw [SparseIter.prevLoop, h1]
    cases o with
    | none =>
      simp only [Option.bind_eq_bind, Option.bind_some]
      rcases ih (hs.down (by omega)) with h3 | ⟨lev', q, h3, h4, h5⟩
      · exact .inl h3
      · exact .inr ⟨lev', q, h3, by omega, h5⟩
    | some q => exact .inr ⟨_, _, rfl, by omega, h2 q rfl⟩

/-- `Prev`. -/
theorem Built.roam_prev (B : Built cfg fp s t0 cut h) (bmi : Bool) {it : SparseIter} (hr : SRoam t0 cut h it) :
    ∃ it', it.prev bmi s.ls = some it' ∧ (SGood t0 cut h it' ∧ it'.startDepth = it.startDepth ∨ SOff t0 cut h it') := by
  obtain ⟨p, h1, h2⟩ := hr.here
  unfold SparseIter.prev
  simp only [h1, Option.bind_eq_bind, Option.bind_some]
  split
  · exact ⟨_, rfl, .inr ⟨rfl, .inr ⟨hr.lens.same rfl rfl rfl rfl, hr.spots.same rfl⟩⟩⟩
  · rcases B.roam_prevLoop it.level hr.spots with h1 | ⟨lev', q, h1, h2, h3⟩
    · rw [h1]
      exact ⟨_, rfl, .inr ⟨rfl, .inl ⟨⟨hr.lens.sz.p, hr.lens.sz.l, hr.lens.sz.d⟩, rfl, rfl, rfl, rfl⟩⟩⟩
    · rw [h1]
      simp only [Option.bind_some]
      obtain ⟨it1, a1, a2, a3⟩ := B.roam_setAt (it := { it with atTerminator := false, level := lev' }) ((hr.lens.down (by omega : lev' + 1 ≤ it.level + 1)).same rfl rfl rfl rfl) ((hr.spots.down (by omega : lev' ≤ it.level + 1)).same rfl) h3
      rw [a1]
      simp only [Option.bind_some]
      obtain ⟨it2, b1, b2, b3⟩ := B.roam_move bmi false a2
      exact ⟨it2, b1, .inl ⟨b2, b3.trans a3⟩⟩

/-! ### Seek in the sparse part -/

/-- `sort.Search` with any predicate. -/
theorem sortSearchLoop_any (f : Nat → Option Bool) (n : Nat) (htot : ∀ i, i < n → ∃ b, f i = some b) (i j : Nat) (hij : i ≤ j) (hjn : j ≤ n) (hhi : j < n → f j = some true) :
    ∃ r, sortSearchLoop f i j = some r ∧ r ≤ n ∧ (r < n → f r = some true) := by
  induction hm : j - i using Nat.strongRecOn generalizing i j with
  | ind m ih =>
    rw [sortSearchLoop]
    by_cases hlt : i < j
    · have hh : (i + j) / 2 < n := by omega
      obtain ⟨b, hb⟩ := htot _ hh
      simp only [hlt, if_true, hb, Option.bind_eq_bind, Option.bind_some]
      cases b with
      | false =>
        simp only [Bool.not_false, if_true]
        exact ih (j - ((i + j) / 2 + 1)) (by omega) _ _ (by omega) hjn hhi rfl
      | true =>
        simp only [Bool.not_true, Bool.false_eq_true, if_false]
        exact ih ((i + j) / 2 - i) (by omega) _ _ (by omega) (by omega) (fun _ => hb) rfl
    · simp only [hlt, if_false]
      have : i = j := by omega
      subst this
      exact ⟨i, rfl, by omega, hhi⟩

theorem skip_any (v : LabelVector) (pos size : Nat) (hs : 0 < size) (hb : pos + size ≤ v.labels.length) : ∃ pos' size', v.skipTerminator pos size = some (pos', size') ∧ pos' + size' = pos + size ∧ 0 < size' ∧ pos ≤ pos' ∧ pos' ≤ pos + 1 := by
  unfold LabelVector.skipTerminator
  by_cases h1 : size > 1
  · rw [if_pos h1, List.getElem?_eq_getElem (by omega)]
    simp only [Option.bind_eq_bind, Option.bind_some]
    split
    · exact ⟨_, _, rfl, by omega, by omega, by omega, by omega⟩
    · exact ⟨_, _, rfl, by omega, by omega, by omega, by omega⟩
  · rw [if_neg h1]
    exact ⟨_, _, rfl, by omega, by omega, by omega, by omega⟩

/-- Where `Search` stops if it finds nothing. -/
theorem search_at (v : LabelVector) (c : UInt8) (pos size p : Nat) (hs : 0 < size) (hb : pos + size ≤ v.labels.length) (h : v.search c pos size = some (p, false)) : pos ≤ p ∧ p ≤ pos + 1 := by
  obtain ⟨pos', size', h1, h2, h3, h4, h5⟩ := skip_any v pos size hs hb
  unfold LabelVector.search at h
  rw [h1] at h
  simp only [Option.bind_eq_bind, Option.bind_some, Option.bind_eq_some_iff] at h
  obtain ⟨sub, -, h⟩ := h
  split at h
  · simp only [Option.pure_def, Option.some.injEq, Prod.mk.injEq] at h
    omega
  · simp at h

/-- `SearchGreaterThan` on any labels. -/
theorem greater_any (v : LabelVector) (c : UInt8) (pos size : Nat) (hs : 0 < size) (hb : pos + size ≤ v.labels.length) :
    ∃ p ok l, v.searchGreaterThan c pos size = some (p, ok) ∧ pos ≤ p ∧ p < pos + size ∧ v.labels[p]? = some l ∧ (ok = true → c < l) := by
  obtain ⟨pos', size', h1, h2, h3, h4, h5⟩ := skip_any v pos size hs hb
  unfold LabelVector.searchGreaterThan
  rw [h1]
  simp only [Option.bind_eq_bind, Option.bind_some]
  obtain ⟨r, r1, r2, r3⟩ := sortSearchLoop_any (fun i => (v.labels[pos' + i]?).map (fun l => decide (c < l))) size'
    (fun i hi => by rw [List.getElem?_eq_getElem (by omega)]; exact ⟨_, rfl⟩) 0 size' (by omega) (by omega) (by omega)
  unfold sortSearch
  rw [r1]
  simp only [Option.bind_some]
  by_cases hr : r = size'
  · rw [if_pos hr]
    unfold usub
    rw [if_pos (by omega)]
    exact ⟨_, _, v.labels[pos' + r - 1], rfl, by omega, by omega, List.getElem?_eq_getElem (by omega), by simp⟩
  · rw [if_neg hr]
    have h6 := r3 (by omega)
    rw [List.getElem?_eq_getElem (by omega)] at h6
    simp only [Option.map_some, Option.some.injEq, decide_eq_true_eq] at h6
    exact ⟨_, _, v.labels[pos' + r], rfl, by omega, by omega, List.getElem?_eq_getElem (by omega), fun _ => h6⟩

theorem Built.labels_all (B : Built cfg fp s t0 cut h) : s.ls.labelVec.labels.length = lvl t0 cut (h - cut) + 1 ∧ s.ls.labelVec.labels[lvl t0 cut (h - cut)]? = some 0 := by
  rw [B.sv.lab]
  unfold lvl itemN
  refine ⟨by simp, ?_⟩
  rw [List.getElem?_append_right (by simp)]
  simp

/-- Where the sparse iterator may be after a step. -/
def SOut (t0 : Grp) (cut h : Nat) (d : Nat) (it : SparseIter) : Prop := (SGood t0 cut h it ∧ it.startDepth = d) ∨ SClean (h - cut) it

theorem Built.roam_seekLoop (B : Built cfg fp s t0 cut h) (bmi : Bool) (hd : t0.d = 0) (q : Bytes) : ∀ (n : Nat) (W : List Frame) (t : Grp) (it : SparseIter), W.length + n = h → Way t0 W t → W.length = cut + it.level →
    Lens (h - cut) it it.level → Spots t0 cut h it it.level → (it.level = 0 → it.keyBuf = [] ∧ it.atTerminator = false) → str W <+: q →
    ∃ it' fl, SparseIter.seekLoop bmi s.ls q n it t.d (num t0 W) (spos t0 cut W 0) = some (it', fl) ∧ SOut t0 cut h it.startDepth it' := by
  intro n
  induction n with
  | zero =>
    intro W t it hn w
    have := B.way_lt w
    omega
  | succ n ih =>
    intro W t it hn w hW hlens hspots h0 hq
    have hl : cut ≤ W.length := by omega
    have hg := w.good B.root
    have hsl := w.str_len B.root hd
    have hne : t.items.length ≠ 0 := fun e => hg.toOK.items_ne (List.eq_nil_of_length_eq_zero e)
    have hlt : it.level < h - cut := by omega
    obtain ⟨cmp, c1, c2⟩ := prefixCmp_of hq t.pre
    rw [hsl] at c1
    obtain ⟨pid, p1, p2⟩ := B.s_pre w hl
    rw [SparseIter.seekLoop, p1]
    simp only [Option.bind_eq_bind, Option.bind_some]
    rw [p2]
    simp only [Option.bind_some]
    rw [c1]
    simp only [Option.bind_some]
    have hpl := hg.toOK.pre_length.2
    have hbl := w.bd_len B.root hd
    -- a label is put on the stack
    have hput : ∀ (c : UInt8) (p : Nat), ∃ it1, it.append s.ls c p (num t0 W) = some it1 ∧ Lens (h - cut) it1 (it1.level + 1) ∧ it1.level = it.level ∧ Spots t0 cut h it1 it1.level ∧ it1.posInTrie[it1.level]? = some p ∧
        it1.startDepth = it.startDepth ∧ (Spot t0 cut h it.level p → SRoam t0 cut h it1) := by
      intro c p
      obtain ⟨it1, a1, a2, a3, a4, a5, a6⟩ := roam_append (ls := s.ls) hlens hlt p1 p2 c p
      refine ⟨it1, a1, by rw [a3]; exact a2, a3, by rw [a3]; exact hspots.set a4, ?_, a6, fun hp => ⟨by rw [a3]; exact a2, by rw [a3]; exact hspots.push a4 (by rw [hlens.sz.p]; exact hlt) hp⟩⟩
      rw [a3, a4, List.getElem?_set, if_pos rfl, if_pos (by rw [hlens.sz.p]; exact hlt)]
    have hstay : ∃ it' fl,
        ((s.ls.labelVec.getLabel (spos t0 cut W 0)).bind fun l => (it.append s.ls l (spos t0 cut W 0) (num t0 W)).bind fun it => (it.move bmi s.ls true).bind fun it => pure (it, false)) = some (it', fl) ∧
        SOut t0 cut h it.startDepth it' := by
      cases e : t.items with
      | nil => exact absurd e hg.toOK.items_ne
      | cons j jq =>
        have e' : t.items = [] ++ j :: jq := e
        have hlab := B.s_label w hl e'
        rw [List.length_nil] at hlab
        rw [hlab]
        simp only [Option.bind_some]
        obtain ⟨it1, a1, -, -, -, -, a6, a7⟩ := hput j.label (spos t0 cut W 0)
        rw [a1]
        simp only [Option.bind_some]
        obtain ⟨it2, b1, b2, b3⟩ := B.roam_move bmi true (a7 (B.spot_of w (by omega) e'))
        rw [b1]
        exact ⟨_, _, rfl, .inl ⟨b2, b3.trans a6⟩⟩
    by_cases hneg : cmp < 0
    · rw [if_pos hneg]
      by_cases hlv : it.level = 0
      · rw [if_pos hlv]
        obtain ⟨k1, k2⟩ := h0 hlv
        exact ⟨_, _, rfl, .inr ⟨⟨hlens.sz.p, hlens.sz.l, hlens.sz.d⟩, rfl, k2, hlv, k1⟩⟩
      · rw [if_neg hlv]
        have hlev' : dec32 it.level = it.level - 1 := by
          unfold dec32
          rw [if_neg hlv]
        rw [hlev']
        obtain ⟨p, g1, g2⟩ := hspots (it.level - 1) (by omega)
        obtain ⟨it', a1, a2⟩ := B.roam_next bmi (it := { it with level := it.level - 1 }) (p := p) ((hlens.down (by omega : it.level - 1 + 1 ≤ it.level)).same rfl rfl rfl rfl) ((hspots.down (by omega : it.level - 1 ≤ it.level)).same rfl) g1 g2.1
        rw [a1]
        exact ⟨_, _, rfl, a2⟩
    · rw [if_neg hneg]
      by_cases hend : t.d + t.pre.length ≥ q.length ∨ cmp > 0
      · rw [if_pos hend]
        exact hstay
      · rw [if_neg hend, hpl]
        push Not at hend
        have hpq : str W ++ t.pre <+: q := by
          rcases c2 with ⟨c2, -⟩ | ⟨-, c3⟩ | ⟨c2, -⟩
          · omega
          · exact c3
          · omega
        obtain ⟨v, rfl⟩ := hpq
        cases v with
        | nil => rw [List.append_nil, hbl] at hend; omega
        | cons c v =>
          have hqc : (str W ++ t.pre ++ c :: v)[t.bd]? = some c := by
            rw [List.getElem?_append_right (by omega), hbl]
            simp
          obtain ⟨post, ep, hok, hv⟩ := B.s_at w hl
          have hnb := hv.numBits hok
          rw [B.lvl_all] at hnb
          obtain ⟨hlab, hlast⟩ := B.labels_all
          have hbase : spos t0 cut W 0 + t.items.length ≤ lvl t0 cut (h - cut) := by
            unfold spos
            rw [hnb]
            omega
          unfold SparseIter.seekLabel
          rw [B.s_size w hl]
          simp only [Option.bind_eq_bind, Option.bind_some]
          rw [hqc]
          simp only [Option.bind_some]
          rcases label_cases hg.toOK c with ⟨ip, iq, e, g1, g2⟩ | ⟨ip, i, iq, e, g0, rfl, g1, g2⟩
          · -- the label is missing
            obtain ⟨p0, hp0⟩ := hv.search_miss hg c (by
              intro j hj hjt hjc
              rw [e, List.mem_append] at hj
              rcases hj with hj | hj
              · have := g1 j hj hjt
                rw [hjc] at this
                exact absurd this (UInt8.lt_irrefl _)
              · have := (g2 j hj).2
                rw [hjc] at this
                exact absurd this (UInt8.lt_irrefl _))
            change s.ls.labelVec.search c (spos t0 cut W 0) t.items.length = some (p0, false) at hp0
            obtain ⟨k1, k2⟩ := search_at _ _ _ _ _ (by omega) (by omega) hp0
            rw [hp0]
            simp only [Option.bind_some, Bool.not_false, if_true]
            obtain ⟨p, ok, l, k3, k4, k5, k6, k7⟩ := greater_any s.ls.labelVec c p0 t.items.length (by omega) (by omega)
            unfold SparseIter.moveToLeftInNextSubTrie
            rw [k3]
            simp only [Option.bind_eq_bind, Option.bind_some]
            unfold LabelVector.getLabel
            rw [k6]
            simp only [Option.bind_some]
            obtain ⟨it1, a1, a2, a3, a4, a5, a6, a7⟩ := hput l p
            rw [a1]
            simp only [Option.bind_some]
            have hlow : lvl t0 cut it.level ≤ spos t0 cut W 0 := lvl_le_spos (by omega)
            cases ok with
            | true =>
              simp only [if_true]
              have hsp : Spot t0 cut h it.level p := by
                refine ⟨by omega, ?_⟩
                by_contra hc
                have hpe : p = lvl t0 cut (h - cut) := by omega
                rw [hpe, hlast, Option.some.injEq] at k6
                have := k7 rfl
                rw [← k6] at this
                exact absurd this (by rw [UInt8.lt_iff_toNat_lt]; simp)
              obtain ⟨it2, b1, b2, b3⟩ := B.roam_move bmi true (a7 hsp)
              rw [b1]
              exact ⟨_, _, rfl, .inl ⟨b2, b3.trans a6⟩⟩
            | false =>
              simp only [Bool.false_eq_true, if_false]
              obtain ⟨it2, b1, b2⟩ := B.roam_next bmi a2 a4 a5 (by rw [a3]; omega)
              rw [b1]
              rw [a6] at b2
              exact ⟨_, _, rfl, b2⟩
          · have hsh := hv.search_hit hg e g0
            change s.ls.labelVec.search i.label (spos t0 cut W 0) t.items.length = some (spos t0 cut W ip.length, true) at hsh
            rw [hsh]
            simp only [Option.bind_some, Bool.not_true, Bool.false_eq_true, if_false]
            obtain ⟨it1, a1, a2, a3, a4, a5, a6, a7⟩ := hput i.label (spos t0 cut W ip.length)
            have hr1 := a7 (B.spot_of w (by omega) e)
            rw [a1]
            simp only [Option.bind_some]
            rw [B.s_hasChild w hl e]
            simp only [Option.bind_some]
            cases hc : i.child with
            | false =>
              simp only [Bool.not_false, if_true]
              unfold SparseIter.compareSuffixGreaterThan
              have hx := (hg.toOK.leafKV (by rw [e]; simp) hc).1
              have hcmp := B.s_compare w hl e hc hx (str W ++ t.pre ++ i.label :: v) (t.bd + 1)
              rw [Option.bind_eq_some_iff] at hcmp
              obtain ⟨sp, k1, k2⟩ := hcmp
              rw [k1]
              simp only [Option.bind_eq_bind, Option.bind_some]
              rw [k2]
              simp only [Option.bind_some]
              split
              · obtain ⟨p, g3, g4⟩ := hr1.here
                obtain ⟨it2, b1, b2⟩ := B.roam_next bmi a2 a4 g3 g4.1
                rw [b1]
                rw [a6] at b2
                exact ⟨_, _, rfl, b2⟩
              · exact ⟨_, _, rfl, .inl ⟨⟨⟨hr1.lens.same rfl rfl rfl rfl, hr1.spots.same rfl⟩, rfl, W, t, ip, i, iq, w, hl, e, hc, a5⟩, a6⟩⟩
            | true =>
              simp only [Bool.not_true, Bool.false_eq_true, if_false, Option.pure_def, Option.bind_some]
              rw [B.s_child w hl e hc]
              simp only [Option.bind_some]
              have w' := w.down e hc
              rw [B.s_first w' (by simp only [List.length_cons]; omega) bmi]
              simp only [Option.bind_some]
              rw [← a6]
              exact ih (⟨t, ip, i, iq⟩ :: W) _ { it1 with level := it1.level + 1 } (by simp; omega) w' (by simp [a3]; omega) (hr1.lens.same rfl rfl rfl rfl) (hr1.spots.same rfl) (by simp) ⟨v, by simp [str]⟩

/-! ### The whole iterator -/

/-- Where an iterator may be after any calls. -/
def Roam (t0 : Grp) (cut h : Nat) (it : Iterator) : Prop :=
  ((∃ r t ip i iq, DLeaf t0 cut it.d r t ip i iq) ∧ SOff t0 cut h it.s) ∨
  (∃ R T sc l rc, DSend t0 cut it.d R T sc l rc ∧ (sc && (l && rc)) = false ∧ (cut = 0 → l = true ∧ rc = true) ∧ SGood t0 cut h it.s ∧ it.s.startDepth = (str R).length) ∨
  Done cut h it

theorem SOff.sz {it : SparseIter} (ho : SOff t0 cut h it) : SSize (h - cut) it := by
  rcases ho.place with h1 | h1
  · exact h1.sz
  · exact h1.lens.sz

theorem Roam.ready {it : Iterator} (hr : Roam t0 cut h it) : Ready cut h it := by
  rcases hr with ⟨⟨r, t, ip, i, iq, h1⟩, h2⟩ | ⟨R, T, sc, l, rc, h1, -, -, h2, -⟩ | h1
  · exact ⟨h1.sz.1, h1.sz.2, h2.sz⟩
  · exact ⟨h1.szp, h1.szl, h2.lens.sz⟩
  · exact h1.ready

theorem SClean.off {it : SparseIter} (hc : SClean (h - cut) it) : SOff t0 cut h it := ⟨hc.valid, .inl hc⟩

/-- A leaf on the right way is one on any way. -/
theorem SPos.lens {it : SparseIter} (B : Built cfg fp s t0 cut h) (hR : R.length = cut) : ∀ (r : List Frame) (t : Grp) (ip : List Item) (i : Item) (iq : List Item), Way t0 (r ++ R) t → t.items = ip ++ i :: iq → SPos t0 cut h it R r t ip.length →
    Spots t0 cut h it (r.length + 1) ∧ (∀ j, j < r.length + 1 → ∃ m, it.prefixLen[j]? = some m ∧ 1 ≤ m ∧ m ≤ (str r ++ t.pre).length + 1) ∧
    ∀ a b x y, a ≤ b → b < r.length + 1 → it.prefixLen[a]? = some x → it.prefixLen[b]? = some y → x ≤ y := by
  intro r
  induction r with
  | nil =>
    intro t ip i iq w e hp
    refine ⟨fun j hj => ?_, fun j hj => ?_, fun a b x y hab hb hx hy => ?_⟩
    · have : j = 0 := by simpa using hj
      subst this
      exact ⟨_, hp.pos, B.spot_of w (by simp [hR]) e⟩
    · have : j = 0 := by simpa using hj
      subst this
      exact ⟨_, hp.len, by omega, by omega⟩
    · have hb0 : b = 0 := by simpa using hb
      have ha0 : a = 0 := by omega
      subst hb0 ha0
      rw [hx, Option.some.injEq] at hy
      omega
  | cons f r ih =>
    intro t ip i iq w e hp
    have hup := hp.up
    have hw : Way t0 (r ++ R) f.t ∧ f.t.items = f.ip ++ f.i :: f.iq := by
      rw [List.cons_append] at w
      cases w with
      | cons w' e' hc' => exact ⟨w', e'⟩
    obtain ⟨g1, g2, g3⟩ := ih f.t f.ip f.i f.iq hw.1 hw.2 hup
    have hlen : (str r ++ f.t.pre).length + 1 ≤ (str (f :: r) ++ t.pre).length + 1 := by
      simp [str]
    have hpl := hp.len
    rw [List.length_cons] at hpl ⊢
    refine ⟨fun j hj => ?_, fun j hj => ?_, fun a b x y hab hb hx hy => ?_⟩
    · rcases Nat.lt_or_ge j (r.length + 1) with hlt | hge
      · exact g1 j hlt
      · have : j = r.length + 1 := by omega
        subst this
        have := hp.pos
        rw [List.length_cons] at this
        exact ⟨_, this, B.spot_of w (by simp [hR]; omega) e⟩
    · rcases Nat.lt_or_ge j (r.length + 1) with hlt | hge
      · obtain ⟨m, k1, k2, k3⟩ := g2 j hlt
        exact ⟨m, k1, k2, by omega⟩
      · have : j = r.length + 1 := by omega
        subst this
        exact ⟨_, hpl, by omega, by omega⟩
    · rcases Nat.lt_or_ge b (r.length + 1) with hlt | hge
      · exact g3 a b x y hab hlt hx hy
      · have : b = r.length + 1 := by omega
        subst this
        rw [hpl, Option.some.injEq] at hy
        rcases Nat.lt_or_ge a (r.length + 1) with hlt | hge
        · obtain ⟨m, k1, k2, k3⟩ := g2 a hlt
          rw [hx, Option.some.injEq] at k1
          omega
        · have : a = r.length + 1 := by omega
          subst this
          rw [hpl, Option.some.injEq] at hx
          omega

theorem SAt.roam {it : SparseIter} (B : Built cfg fp s t0 cut h) (hR : R.length = cut) (w : Way t0 (r ++ R) t) (e : t.items = ip ++ i :: iq) {c : UInt8} (ha : SAt t0 cut h it R r t ip.length c) : SRoam t0 cut h it := by
  obtain ⟨g1, g2, g3⟩ := SPos.lens B hR r t ip i iq w e ha.toSPos
  have hlt := B.way_lt w
  rw [List.length_append] at hlt
  refine ⟨⟨ha.sz, by rw [ha.lev]; omega, fun j hj => ?_, by rw [ha.lev]; exact g3⟩, by rw [ha.lev]; exact g1⟩
  rw [ha.lev] at hj
  obtain ⟨m, k1, k2, k3⟩ := g2 j hj
  refine ⟨m, k1, k2, ?_⟩
  rw [ha.buf, List.length_append, List.length_singleton]
  exact k3

theorem SLeaf.good {it : SparseIter} (B : Built cfg fp s t0 cut h) (hl : SLeaf t0 cut h it R r t ip i iq) : SGood t0 cut h it :=
  ⟨hl.place.roam B hl.len hl.way hl.items, hl.valid, _, _, _, _, _, hl.way, by simp [hl.len], hl.items, hl.leaf, by rw [hl.place.lev]; exact hl.place.pos⟩

theorem SIdle.off {it : SparseIter} {L : List Grp} (B : Built cfg fp s t0 cut h) (hi : SIdle t0 cut h it L) : SOff t0 cut h it := by
  rcases hi with hi | ⟨-, R, T, hi⟩
  · exact hi.off
  · obtain ⟨i, iq, e, ha⟩ := hi.place
    exact ⟨hi.valid, .inr (ha.roam (ip := []) (r := []) B hi.len hi.way e)⟩

theorem At.roam {it : Iterator} {b : List KV} {x : KV} (B : Built cfg fp s t0 cut h) (ha : At t0 cut h it b x) : Roam t0 cut h it := by
  obtain ⟨W, t, ip, i, iq, hs, -, -⟩ := ha
  rcases hs with ⟨h1, h2⟩ | ⟨R, r, T, sc, l, rc, rfl, h1, hf, h0, h2⟩
  · exact .inl ⟨⟨_, _, _, _, _, h1⟩, h2.off B⟩
  · exact .inr (.inl ⟨R, T, sc, l, rc, h1, hf, h0, h2.good B, h2.depth⟩)

/-- After a move of the dense iterator to the right. -/
theorem Built.roam_incr (B : Built cfg fp s t0 cut h) (bmi : Bool) {it : Iterator} {P : List KV × List Grp} (hd : DNext t0 cut it.d P) (ho : SOff t0 cut h it.s) :
    ∃ it', (if !it.d.valid then some it else if it.d.leftComp then some it else it.intoSparse bmi s true) = some it' ∧ Roam t0 cut h it' := by
  rcases hd with ⟨r, t, ip, i, iq, h1, h2⟩ | ⟨R, T, h1, h2, h3⟩ | ⟨⟨h1, h2, h3⟩, h4⟩
  · rw [h1.valid, h1.comp.2.1]
    exact ⟨it, rfl, .inl ⟨⟨_, _, _, _, _, h1⟩, ho⟩⟩
  · rw [h1.valid, h1.comp.2.1]
    simp only [Bool.not_true, Bool.false_eq_true, if_false]
    obtain ⟨s', a1, a2, a3⟩ := B.roam_into bmi true h1 ho
    unfold Iterator.intoSparse Iterator.passToSparse
    simp only [a1, Option.bind_eq_bind, Option.bind_some]
    exact ⟨_, rfl, .inr (.inl ⟨R, T, _, _, _, h1, rfl, fun e => absurd e (by omega), a2, a3⟩)⟩
  · rw [h1]
    exact ⟨it, rfl, .inr (.inr ⟨⟨h2, h3, ho.sz⟩, ho.valid, .inl h1⟩)⟩

/-- After a move of the dense iterator to the left. -/
theorem Built.roam_decr (B : Built cfg fp s t0 cut h) (bmi : Bool) {it : Iterator} {P : List KV × List Grp} (hd : DBack t0 cut it.d P) (ho : SOff t0 cut h it.s) :
    ∃ it', (if !it.d.valid then some it else if it.d.rightComp then some it else it.intoSparse bmi s false) = some it' ∧ Roam t0 cut h it' := by
  rcases hd with ⟨⟨r, t, ip, i, iq, h1, h2⟩ | ⟨R, T, h1, h2, h3⟩, -⟩ | ⟨⟨h1, h2, h3⟩, -⟩
  · rw [h1.valid, h1.comp.2.2]
    exact ⟨it, rfl, .inl ⟨⟨_, _, _, _, _, h1⟩, ho⟩⟩
  · rw [h1.valid, h1.comp.2.2]
    simp only [Bool.not_true, Bool.false_eq_true, if_false]
    obtain ⟨s', a1, a2, a3⟩ := B.roam_into bmi false h1 ho
    unfold Iterator.intoSparse Iterator.passToSparse
    simp only [a1, Option.bind_eq_bind, Option.bind_some]
    exact ⟨_, rfl, .inr (.inl ⟨R, T, _, _, _, h1, rfl, fun e => absurd e (by omega), a2, a3⟩)⟩
  · rw [h1]
    exact ⟨it, rfl, .inr (.inr ⟨⟨h2, h3, ho.sz⟩, ho.valid, .inl h1⟩)⟩

/-- `incrDense` when the sparse part has run out. -/
theorem Built.roam_incrDense (B : Built cfg fp s t0 cut h) (bmi : Bool) {it : Iterator} {T : Grp} {sc l rc : Bool} (hd : DSend t0 cut it.d R T sc l rc) (hf : (sc && (l && rc)) = false) (h0 : cut = 0 → l = true ∧ rc = true) (ho : SOff t0 cut h it.s) :
    ∃ it', it.incrDense bmi s = some it' ∧ Roam t0 cut h it' := by
  unfold Iterator.incrDense
  rw [hd.valid]
  simp only [Bool.not_true, Bool.false_eq_true, if_false]
  by_cases hc : cut = 0
  · unfold DenseIter.next
    rw [B.ht, if_pos hc]
    obtain ⟨f1, f2⟩ := h0 hc
    simp only [Option.bind_eq_bind, Option.bind_some, hd.valid, hd.comp.2.1, f1, Bool.not_true, Bool.false_eq_true, if_false, if_true]
    refine ⟨_, rfl, .inr (.inr ⟨⟨hd.szp, hd.szl, ho.sz⟩, ho.valid, .inr ⟨hc, hd.valid, ?_, by rw [hd.comp.2.1, f1], by rw [hd.comp.2.2, f2]⟩⟩)⟩
    rw [hd.comp.1]
    rw [f1, f2] at hf
    simpa using hf
  · obtain ⟨d', c1, c2⟩ := B.d_next_send hd (by omega)
    rw [c1]
    simp only [Option.bind_eq_bind, Option.bind_some]
    exact B.roam_incr bmi (it := { it with d := d' }) c2 ho

theorem Built.roam_decrDense (B : Built cfg fp s t0 cut h) (bmi : Bool) {it : Iterator} {T : Grp} {sc l rc : Bool} (hd : DSend t0 cut it.d R T sc l rc) (hf : (sc && (l && rc)) = false) (h0 : cut = 0 → l = true ∧ rc = true) (ho : SOff t0 cut h it.s) :
    ∃ it', it.decrDense bmi s = some it' ∧ Roam t0 cut h it' := by
  unfold Iterator.decrDense
  rw [hd.valid]
  simp only [Bool.not_true, Bool.false_eq_true, if_false]
  by_cases hc : cut = 0
  · unfold DenseIter.prev
    rw [B.ht, if_pos hc]
    obtain ⟨f1, f2⟩ := h0 hc
    simp only [Option.bind_eq_bind, Option.bind_some, hd.valid, hd.comp.2.2, f2, Bool.not_true, Bool.false_eq_true, if_false, if_true]
    refine ⟨_, rfl, .inr (.inr ⟨⟨hd.szp, hd.szl, ho.sz⟩, ho.valid, .inr ⟨hc, hd.valid, ?_, by rw [hd.comp.2.1, f1], by rw [hd.comp.2.2, f2]⟩⟩)⟩
    rw [hd.comp.1]
    rw [f1, f2] at hf
    simpa using hf
  · obtain ⟨d', c1, c2⟩ := B.d_prev_send hd (by omega)
    rw [c1]
    simp only [Option.bind_eq_bind, Option.bind_some]
    exact B.roam_decr bmi (it := { it with d := d' }) c2 ho

/-- **Next** returns. -/
theorem Built.r_next (B : Built cfg fp s t0 cut h) (bmi : Bool) {it : Iterator} (hr : Roam t0 cut h it) : ∃ it', it.next bmi s = some it' ∧ Roam t0 cut h it' := by
  rcases hr with ⟨⟨r, t, ip, i, iq, h1⟩, h2⟩ | ⟨R, T, sc, l, rc, h1, hf, h0, h2, h3⟩ | h1
  · unfold Iterator.next
    rw [h2.valid]
    simp only [Bool.false_eq_true, if_false]
    unfold Iterator.incrDense
    rw [h1.valid]
    simp only [Bool.not_true, Bool.false_eq_true, if_false]
    obtain ⟨d', a1, a2⟩ := B.d_next_leaf h1
    rw [a1]
    simp only [Option.bind_eq_bind, Option.bind_some]
    exact B.roam_incr bmi (it := { it with d := d' }) a2 h2
  · unfold Iterator.next
    rw [h2.valid]
    simp only [if_true, Option.bind_eq_bind]
    obtain ⟨p, g1, g2⟩ := h2.toSRoam.here
    obtain ⟨s', a1, a2⟩ := B.roam_next bmi h2.lens (h2.spots.down (by omega)) g1 g2.1
    rw [a1]
    simp only [Option.bind_some]
    rcases a2 with ⟨a2, a3⟩ | a2
    · rw [a2.valid]
      exact ⟨_, rfl, .inr (.inl ⟨R, T, sc, l, rc, h1, hf, h0, a2, a3.trans h3⟩)⟩
    · rw [a2.valid]
      simp only [Bool.false_eq_true, if_false]
      exact B.roam_incrDense bmi (it := { it with s := s' }) h1 hf h0 a2.off
  · exact ⟨it, B.done_next bmi h1, .inr (.inr h1)⟩

/-- **Prev** returns, except at the terminator of a dense root. -/
theorem Built.r_prev (B : Built cfg fp s t0 cut h) (bmi : Bool) (hcut : cut < 2 ^ 32) {it : Iterator} (hr : Roam t0 cut h it) :
    ((∃ t ip i iq, DLeaf t0 cut it.d [] t ip i iq ∧ i.term = true) ∧ it.prev bmi s = none) ∨ ∃ it', it.prev bmi s = some it' ∧ Roam t0 cut h it' := by
  rcases hr with ⟨⟨r, t, ip, i, iq, h1⟩, h2⟩ | ⟨R, T, sc, l, rc, h1, hf, h0, h2, h3⟩ | h1
  · unfold Iterator.prev
    rw [h2.valid]
    simp only [Bool.false_eq_true, if_false]
    unfold Iterator.decrDense
    rw [h1.valid]
    simp only [Bool.not_true, Bool.false_eq_true, if_false]
    by_cases hroot : r = [] ∧ i.term = true
    · obtain ⟨rfl, hi⟩ := hroot
      refine .inl ⟨⟨_, _, _, _, h1, hi⟩, ?_⟩
      rw [B.d_prev_end h1 hi hcut]
      rfl
    · right
      obtain ⟨d', a1, a2⟩ := B.d_prev_leaf h1 (fun e => by
        by_contra hc
        exact hroot ⟨e, by simpa using hc⟩)
      rw [a1]
      simp only [Option.bind_eq_bind, Option.bind_some]
      exact B.roam_decr bmi (it := { it with d := d' }) a2 h2
  · right
    unfold Iterator.prev
    rw [h2.valid]
    simp only [if_true, Option.bind_eq_bind]
    obtain ⟨s', a1, a2⟩ := B.roam_prev bmi h2.toSRoam
    rw [a1]
    simp only [Option.bind_some]
    rcases a2 with ⟨a2, a3⟩ | a2
    · rw [a2.valid]
      exact ⟨_, rfl, .inr (.inl ⟨R, T, sc, l, rc, h1, hf, h0, a2, a3.trans h3⟩)⟩
    · rw [a2.valid]
      simp only [Bool.false_eq_true, if_false]
      exact B.roam_decrDense bmi (it := { it with s := s' }) h1 hf h0 a2
  · exact .inr ⟨it, B.done_prev bmi h1, .inr (.inr h1)⟩

/-- **Seek** returns, for every key. -/
theorem Built.r_seek (B : Built cfg fp s t0 cut h) (bmi : Bool) (hd : t0.d = 0) (q : Bytes) {it : Iterator} (hr : Ready cut h it) :
    ∃ it' fl, it.seek bmi s q = some (it', fl) ∧ Roam t0 cut h it' := by
  unfold Iterator.seek
  rw [B.hs, B.ht, if_neg (by have := B.lt; omega)]
  obtain ⟨d1, fl, a1, a2⟩ := B.d_seek hd q (it := it.reset.d) hr.p hr.l rfl rfl
  rw [a1]
  simp only [Option.bind_eq_bind, Option.bind_some]
  rcases a2 with ⟨P, a2, -⟩ | ⟨R, T, a2, a3, -, -⟩
  · obtain ⟨it', c1, c2⟩ := B.roam_incr bmi (it := { it.reset with d := d1 }) a2 hr.clean.off
    refine ⟨it', fl, ?_, c2⟩
    rcases a2 with ⟨r, t, ip, i, iq, h1, -⟩ | ⟨R, T, h1, h2, -⟩ | ⟨⟨h1, -⟩, -⟩
    · rw [if_pos (by simp [DenseIter.isComplete, h1.valid, h1.comp])]
      simp only [h1.valid, h1.comp.2.1, Bool.not_true, Bool.false_eq_true, if_false, if_true] at c1
      rw [Option.some.injEq] at c1
      rw [c1]
      rfl
    · rw [if_neg (by simp [DenseIter.isComplete, h1.valid, h1.comp]), if_neg (by simp [h1.comp]), if_pos (by simp [h1.comp])]
      simp only [h1.valid, h1.comp.2.1, Bool.not_true, Bool.false_eq_true, if_false, if_true] at c1
      rw [c1]
      rfl
    · rw [if_pos (by simp [h1])]
      simp only [h1, Bool.not_false, if_true] at c1
      rw [Option.some.injEq] at c1
      rw [c1]
      rfl
  · rw [if_neg (by simp [DenseIter.isComplete, a2.valid, a2.comp]), if_pos (by simp [a2.comp])]
    have hcl := hr.clean
    have hlt := B.lt
    obtain ⟨s1, fl1, b1, b2⟩ := B.roam_seekLoop bmi hd q (h - cut) R T { it.reset.s with startNodeID := d1.sendOutNodeID, startDepth := d1.sendOutDepth, level := 0 } (by rw [a2.len]; omega) a2.way (by simp [a2.len])
      (hcl.lens.same rfl rfl rfl rfl) (fun j hj => by simp at hj) (fun _ => ⟨rfl, rfl⟩) a3
    have hseek : SparseIter.seek bmi s.ls { it.reset.s with startNodeID := d1.sendOutNodeID, startDepth := d1.sendOutDepth } q = some (s1, fl1) := by
      unfold SparseIter.seek LoudsSparse.sparseLevels
      simp only [B.hs, B.start, a2.node, Option.bind_eq_bind]
      rw [B.s_first a2.way (by rw [a2.len]) bmi]
      simp only [Option.bind_some, a2.depth]
      rw [← b1, ← a2.way.str_len B.root hd, a2.node, a2.depth]
    unfold Iterator.passToSparse
    simp only
    rw [hseek]
    simp only [Option.bind_some]
    rcases b2 with ⟨b2, b3⟩ | b2
    · rw [b2.valid]
      exact ⟨_, _, rfl, .inr (.inl ⟨R, T, _, _, _, a2, rfl, fun _ => ⟨rfl, rfl⟩, b2, b3.trans a2.depth⟩)⟩
    · rw [b2.valid]
      simp only [Bool.not_false, if_true]
      obtain ⟨it', e1, e2⟩ := B.roam_incrDense bmi (it := ⟨d1, s1⟩) a2 rfl (fun _ => ⟨rfl, rfl⟩) b2.off
      rw [e1]
      exact ⟨_, _, rfl, e2⟩

/-! ### Reading -/

theorem Lens.key {n L : Nat} {it : SparseIter} (hl : Lens n it (L + 1)) : ∃ k, it.key = Option.some k := by
  have := hl.buf
  unfold SparseIter.key usub cutTo
  split
  · rw [if_pos (by omega)]
    simp only [Option.bind_some]
    rw [if_pos (by omega)]
    exact ⟨_, rfl⟩
  · exact ⟨_, rfl⟩

theorem SGood.value {it : SparseIter} (B : Built cfg fp s t0 cut h) (hg : SGood t0 cut h it) : ∃ x ∈ t0.kvs, it.value s.ls = some (x.2.take cfg.valueSize) := by
  obtain ⟨W, t, ip, i, iq, w, hl, e, hc, hp⟩ := hg.leaf
  have hx := ((w.good B.root).toOK.leafKV (by rw [e]; simp : i ∈ t.items) hc).1
  refine ⟨leafKV (t.bd, i), ?_, ?_⟩
  · rw [sbef_kvs w e]
    simp [hx]
  · obtain ⟨post, ep, hok, hv⟩ := B.s_at w hl
    obtain ⟨X, Y, f1, f2⟩ := lvs_split (pre := nodesIn t0 cut (W.length - cut) ++ left W) (post := post) e hc
    unfold SparseIter.value
    rw [hp]
    simp only [Option.bind_eq_bind, Option.bind_some]
    unfold spos
    rw [hv.leafPos e hc, ← f2]
    simp only [Option.bind_some]
    rw [hv.val]
    have := values_get _ cfg.valueSize (fun v hv => B.leafVal_length (a := cut) (n := h - cut) (by rw [ep]; exact hv)) (X.map (leafVal cfg)) (Y.map (leafVal cfg)) (leafVal cfg (t.bd, i)) (by rw [f1]; simp)
    rw [List.length_map] at this
    rw [this, leafVal_eq hx]

theorem SGood.compare {it : SparseIter} (B : Built cfg fp s t0 cut h) (hg : SGood t0 cut h it) {q : Bytes} (hq : it.startDepth ≤ q.length) : ∃ c, it.compare s.ls q = some c := by
  obtain ⟨W, t, ip, i, iq, w, hl, e, hc, hp⟩ := hg.leaf
  have hx := ((w.good B.root).toOK.leafKV (by rw [e]; simp : i ∈ t.items) hc).1
  obtain ⟨k, hk⟩ := hg.lens.key
  unfold SparseIter.compare
  rw [hk]
  simp only [Option.bind_eq_bind, Option.bind_some, Option.pure_def]
  rw [if_neg (by omega)]
  split
  · exact ⟨_, rfl⟩
  · split
    · exact ⟨_, rfl⟩
    · split
      · exact ⟨_, rfl⟩
      · split
        · exact ⟨_, rfl⟩
        · rw [hp]
          simp only [Option.bind_some]
          exact ⟨_, B.s_compare w hl e hc hx _ _⟩

theorem DLeaf.compare_some {it : DenseIter} (B : Built cfg fp s t0 cut h) (hd : t0.d = 0) (hl : DLeaf t0 cut it W t ip i iq) {x : KV} (hx : i.kvs = [x]) (q : Bytes) : ∃ c, it.compare s.ld q = some c := by
  have hk := hl.key B hd hx
  have hsuf : ∃ pos, it.posInTrie[it.level]? = some pos ∧ ∀ level, (s.ld.suffixPos pos it.atPrefixKey).bind (fun sp => s.ld.suffixes.compare q sp level) = some (sufCmp cfg (cfg.suffix fp x.1 (t.bd + 1)) q level) := by
    have hg := (hl.way.good B.root).toOK
    rcases hl.place with ⟨b1, b2, b3⟩ | ⟨b1, b2, j, iq', b4, b3⟩
    · refine ⟨_, by rw [b3.lev]; exact b3.pos, fun level => B.d_compare hl.way hl.lt hl.items hl.leaf hx ?_ q level⟩
      intro pre post e2 e3 hv
      rw [b2, ← e2]
      exact hv.leafPos e3 hg hl.items b1 hl.leaf
    · have hip : ip = [] := by
        cases ip with
        | nil => rfl
        | cons z ip =>
          have := (sorted_after (ip := []) (j := z) hg hl.items i (by simp)).1
          rw [b1] at this
          simp at this
      subst hip
      have hit := hl.items
      rw [b4] at hit
      refine ⟨_, by rw [b3.lev]; exact b3.pos, fun level => B.d_compare hl.way hl.lt hl.items hl.leaf hx ?_ q level⟩
      intro pre post e2 e3 hv
      rw [b2, ← e2]
      exact hv.endPosAt e3 hg hit b1 ((sorted_after (ip := []) hg hit j (by simp)).1)
  obtain ⟨pos, p1, p2⟩ := hsuf
  unfold DenseIter.compare
  rw [hk]
  simp only [Option.bind_eq_bind, Option.bind_some, Option.pure_def]
  split
  · exact ⟨_, rfl⟩
  · split
    · exact ⟨_, rfl⟩
    · split
      · exact ⟨_, rfl⟩
      · split
        · rw [p1]
          simp only [Option.bind_some]
          exact ⟨_, p2 _⟩
        · exact ⟨_, rfl⟩

/-- A valid iterator can be read. -/
theorem Roam.read {it : Iterator} (B : Built cfg fp s t0 cut h) (hd : t0.d = 0) (hr : Roam t0 cut h it) (hv : it.valid = true) : (∃ k, it.key = some k) ∧ (∃ x ∈ t0.kvs, it.value s = some (x.2.take cfg.valueSize)) ∧ ∀ q, ∃ c, it.compare s q = some c := by
  rcases hr with ⟨⟨r, t, ip, i, iq, h1⟩, h2⟩ | ⟨R, T, sc, l, rc, h1, hf, h0, h2, h3⟩ | h1
  · have hx := ((h1.way.good B.root).toOK.leafKV (by rw [h1.items]; simp : i ∈ t.items) h1.leaf).1
    have hcomp : it.d.isComplete = true := by
      unfold DenseIter.isComplete
      rw [h1.comp.1, h1.comp.2.1, h1.comp.2.2]
      rfl
    refine ⟨?_, ⟨leafKV (t.bd, i), ?_, ?_⟩, fun q => ?_⟩
    · unfold Iterator.key
      rw [hcomp, h1.key B hd hx]
      exact ⟨_, rfl⟩
    · rw [sbef_kvs h1.way h1.items]
      simp [hx]
    · unfold Iterator.value
      rw [hcomp]
      exact B.d_value h1 hx
    · obtain ⟨c, hc⟩ := h1.compare_some B hd hx q
      unfold Iterator.compare
      rw [hc]
      exact ⟨c, by simp [hcomp]⟩
  · have hcomp : it.d.isComplete = false := by
      unfold DenseIter.isComplete
      rw [h1.comp.1, h1.comp.2.1, h1.comp.2.2, hf]
    have hk : it.d.key = some (str R) := by
      unfold DenseIter.key
      rw [h1.pref, h1.buf]
      rfl
    refine ⟨?_, ?_, fun q => ?_⟩
    · obtain ⟨k, e⟩ := h2.lens.key
      unfold Iterator.key
      rw [hcomp, hk, e]
      exact ⟨_, rfl⟩
    · unfold Iterator.value
      rw [hcomp]
      exact h2.value B
    · unfold Iterator.compare DenseIter.compare
      rw [hk, hcomp, h1.pref]
      simp only [Option.bind_eq_bind, Option.bind_some, Option.pure_def]
      rcases cmpTake_spec (str R) q rfl with ⟨c1, c2⟩ | ⟨c1, c2, c3⟩ | ⟨c1, c2, c3⟩ | ⟨c1, c2⟩
      · rw [c1, if_pos (by omega)]
        exact ⟨_, rfl⟩
      · rw [c1, if_neg (by omega), if_neg (by omega), if_neg (by simp), if_neg (by simp)]
        simp only [Option.bind_some]
        rw [if_neg (by simp)]
        exact h2.compare B (by rw [h3]; exact c2)
      · rw [c1, if_neg (by omega), if_pos (by omega)]
        exact ⟨_, rfl⟩
      · rw [c1, if_pos (by omega)]
        exact ⟨_, rfl⟩
  · rw [h1.valid] at hv
    simp at hv

/-- The key of an iterator in the sparse part goes on from the string of the dense part. -/
theorem Roam.key_long {it : Iterator} (B : Built cfg fp s t0 cut h) (hd : t0.d = 0) (hc : 0 < cut) (hr : Roam t0 cut h it) (hv : it.valid = true) {k : Bytes} (hk : it.key = some k) :
    ((∃ r t ip i iq, DLeaf t0 cut it.d r t ip i iq) ∧ it.s.valid = false) ∨ t0.bd < k.length := by
  rcases hr with ⟨h1, h2⟩ | ⟨R, T, sc, l, rc, h1, hf, h0, h2, h3⟩ | h1
  · exact .inl ⟨h1, h2.valid⟩
  · right
    have hcomp : it.d.isComplete = false := by
      unfold DenseIter.isComplete
      rw [h1.comp.1, h1.comp.2.1, h1.comp.2.2, hf]
    have hdk : it.d.key = some (str R) := by
      unfold DenseIter.key
      rw [h1.pref, h1.buf]
      rfl
    obtain ⟨k', e⟩ := h2.lens.key
    unfold Iterator.key at hk
    rw [hcomp, hdk, e] at hk
    simp only [Bool.false_eq_true, if_false, Option.bind_eq_bind, Option.bind_some, Option.pure_def, Option.some.injEq] at hk
    have hlen := congrArg List.length hk
    rw [List.length_append] at hlen
    have hlR := h1.len
    have : ∀ (R : List Frame) (T : Grp), Way t0 R T → R ≠ [] → t0.bd < (str R).length := by
      intro R
      induction R with
      | nil => intro T _ h; exact absurd rfl h
      | cons f R ih =>
        intro T w _
        cases w with
        | cons w' e hc =>
          have hb := w'.bd_len B.root hd
          cases R with
          | nil =>
            cases w'
            simp [str] at hb ⊢
            omega
          | cons g R =>
            have := ih _ w' (by simp)
            simp [str] at this ⊢
            omega
    have := this R T h1.way (by intro e; rw [e] at hlR; simp at hlR; omega)
    omega
  · rw [h1.valid] at hv
    simp at hv

theorem DLeaf.whole {it : Iterator} (h1 : DLeaf t0 cut it.d r t ip i iq) : it.d.isComplete = true := by
  unfold DenseIter.isComplete
  rw [h1.comp.1, h1.comp.2.1, h1.comp.2.2]
  rfl

/-- On a dense leaf whose key is as short as the shared part of all keys, **Prev** panics. -/
theorem DLeaf.prev_none {it : Iterator} (B : Built cfg fp s t0 cut h) (bmi : Bool) (hcut : cut < 2 ^ 32) (h1 : DLeaf t0 cut it.d r t ip i iq) (hs : it.s.valid = false) {x : KV} (hx : i.kvs = [x])
    (hxl : x.1.length = t0.bd) : it.prev bmi s = none := by
  have w := h1.way
  have e := h1.items
  have hroot : r = [] := by
    cases r with
    | nil => rfl
    | cons f W =>
      have := (w.same B.root (x := x) (y := x) (mem_items (i := i) (by rw [e]; simp) (by rw [hx]; simp)) (mem_items (i := i) (by rw [e]; simp) (by rw [hx]; simp))).2
      omega
  subst hroot
  cases w
  have hterm : i.term = true := by
    by_contra hcn
    have := (item_label B.root.toOK (i := i) (by rw [e]; simp) (by simpa using hcn) (x := x) (by rw [hx]; simp)).2.1
    omega
  unfold Iterator.prev
  rw [hs]
  simp only [Bool.false_eq_true, if_false]
  unfold Iterator.decrDense
  rw [h1.valid, B.d_prev_end h1 hterm hcut]
  rfl

/-- **HasOverlap** returns, for all bounds. -/
theorem Built.overlap_some (B : Built cfg fp s t0 cut h) (bmi : Bool) (hd : t0.d = 0) (start stop : Bytes) (incl : Bool) : ∃ b, s.hasOverlap bmi start stop incl = some b := by
  obtain ⟨it, fl, e, hr⟩ := B.r_seek bmi hd start B.newReady
  unfold SuRF.hasOverlap
  split
  · exact ⟨_, rfl⟩
  · rw [e]
    simp only [Option.bind_eq_bind, Option.bind_some, Option.pure_def]
    cases hv : it.valid with
    | false => exact ⟨false, rfl⟩
    | true =>
      obtain ⟨c, ec⟩ := (hr.read B hd hv).2.2 stop
      rw [ec]
      exact ⟨_, rfl⟩

end

end Surf
