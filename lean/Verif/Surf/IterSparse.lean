import Verif.Surf.Way
import Verif.Surf.Iter
import Verif.Surf.IterDense

/-!
# The sparse part of an iterator

Where the sparse iterator stands, in terms of ways down the trie, and what its moves do.
-/

set_option linter.unusedSimpArgs false

namespace Surf

/-! ### Items in the sparse vectors -/

section
variable {cfg : Config} {fp : Bytes → Word} {ls : LoudsSparse} {ds pre post : List Grp} {t : Grp}

theorem louds_get {t : Grp} {k : Nat} (hk : k < t.items.length) : t.louds[k]? = some (decide (k = 0)) := by
  unfold Grp.louds
  cases k with
  | zero => simp
  | succ k =>
    rw [List.getElem?_cons_succ, List.getElem?_replicate, if_pos (by omega)]
    simp

theorem SView.louds (h : SView cfg fp ls ds (pre ++ t :: post)) (hok : ∀ x ∈ pre ++ t :: post, x.OK) {k : Nat} (hk : k < t.items.length) :
    ls.loudsVec.bv.isSet (itemN pre + k) = some (decide (k = 0)) := by
  have hp : ∀ x ∈ pre, x.OK := fun x hx => hok x (by simp [hx])
  have ht : t.OK := hok t (by simp)
  obtain ⟨l1, -⟩ := louds_flat pre hp
  have hll := ht.louds_length
  have hsplit : (pre ++ t :: post).flatMap Grp.louds = pre.flatMap Grp.louds ++ t.louds ++ post.flatMap Grp.louds := by simp
  have hg := getElem_mid (pre.flatMap Grp.louds) t.louds (post.flatMap Grp.louds) k (by omega)
  rw [← hsplit, l1] at hg
  obtain ⟨hlt, hv⟩ := List.getElem?_eq_some_iff.mp hg
  unfold BitVector.isSet
  rw [h.lo.readBit _ hlt, hv]
  have := louds_get hk
  rw [List.getElem?_eq_getElem (by omega)] at this
  exact this

theorem SView.numBits (h : SView cfg fp ls ds (pre ++ t :: post)) (hok : ∀ x ∈ pre ++ t :: post, x.OK) :
    ls.loudsVec.bv.numBits = itemN pre + t.items.length + itemN post := by
  rw [h.lon, (louds_flat _ hok).1, itemN_append]
  simp [itemN]
  omega

/-- Does the node go on after an item? -/
theorem SView.more (h : SView cfg fp ls ds (pre ++ t :: post)) (hok : ∀ x ∈ pre ++ t :: post, x.OK) {k : Nat} (hk : k < t.items.length) :
    (if itemN pre + k + 1 ≥ ls.loudsVec.bv.numBits then some true else ls.loudsVec.bv.isSet (itemN pre + k + 1)) = some (decide (k + 1 = t.items.length)) := by
  have hn := h.numBits hok
  by_cases hlast : k + 1 = t.items.length
  · rw [decide_eq_true hlast]
    cases post with
    | nil =>
      rw [if_pos]
      rw [hn]
      simp [itemN]
      omega
    | cons t2 post =>
      have h2 : SView cfg fp ls ds ((pre ++ [t]) ++ t2 :: post) := by simpa using h
      have hok2 : ∀ x ∈ (pre ++ [t]) ++ t2 :: post, x.OK := fun x hx => hok x (by simpa using hx)
      have ht2 : t2.items.length ≠ 0 := fun e => (hok t2 (by simp)).items_ne (List.eq_nil_of_length_eq_zero e)
      rw [if_neg]
      · have := h2.louds hok2 (k := 0) (by omega)
        rw [itemN_append, show itemN [t] = t.items.length by simp [itemN]] at this
        rw [show itemN pre + k + 1 = itemN pre + t.items.length + 0 by omega, this]
        rfl
      · rw [hn]
        simp [itemN]
        omega
  · rw [decide_eq_false hlast, if_neg (by omega), Nat.add_assoc, h.louds hok (k := k + 1) (by omega)]
    simp

theorem SView.isEndOfNode (h : SView cfg fp ls ds (pre ++ t :: post)) (hok : ∀ x ∈ pre ++ t :: post, x.OK) {k : Nat} (hk : k < t.items.length) :
    ls.isEndOfNode (itemN pre + k) = some (decide (k + 1 = t.items.length)) := by
  have hn := h.numBits hok
  have hm := h.more hok hk
  unfold LoudsSparse.isEndOfNode usub
  rw [if_pos (by omega)]
  simp only [Option.bind_eq_bind, Option.bind_some]
  by_cases hl : itemN pre + k = ls.loudsVec.bv.numBits - 1
  · rw [if_pos hl]
    rw [if_pos (by omega)] at hm
    exact hm
  · rw [if_neg hl]
    rw [if_neg (by omega)] at hm
    exact hm

theorem SView.last (h : SView cfg fp ls ds (pre ++ t :: post)) (hok : ∀ x ∈ pre ++ t :: post, x.OK) (bmi : Bool) :
    ls.lastLabelPos bmi (ds.length + pre.length) = some (itemN pre + (t.items.length - 1)) := by
  have hones := h.lo.ones
  obtain ⟨-, l4⟩ := louds_flat _ hok
  rw [l4, ← h.lowf.ones_eq] at hones
  have hn := h.numBits hok
  have ht0 : t.items.length ≠ 0 := fun e => (hok t (by simp)).items_ne (List.eq_nil_of_length_eq_zero e)
  unfold LoudsSparse.lastLabelPos usub
  rw [h.dn, if_pos (by omega)]
  simp only [Option.bind_eq_bind, Option.bind_some]
  rw [show ds.length + pre.length + 2 - ds.length = pre.length + 1 + 1 by omega, hones]
  cases post with
  | nil =>
    rw [if_pos (by simp), hn]
    simp only [itemN, List.flatMap_nil, List.length_nil, Nat.add_zero]
    rw [if_pos (by omega)]
    congr 1
    omega
  | cons t2 post =>
    have h2 : SView cfg fp ls ds ((pre ++ [t]) ++ t2 :: post) := by simpa using h
    have hok2 : ∀ x ∈ (pre ++ [t]) ++ t2 :: post, x.OK := fun x hx => hok x (by simpa using hx)
    have hf := h2.first hok2 bmi
    unfold LoudsSparse.firstLabelPos usub at hf
    rw [h.dn, if_pos (by omega)] at hf
    simp only [Option.bind_eq_bind, Option.bind_some, List.length_append, List.length_singleton, itemN_append, show itemN [t] = t.items.length by simp [itemN]] at hf
    rw [show ds.length + (pre.length + 1) + 1 - ds.length = pre.length + 1 + 1 by omega] at hf
    rw [if_neg (by simp; omega), hf]
    simp only [Option.bind_some]
    rw [if_pos (by omega)]
    congr 1
    omega

end

section
variable {cfg : Config} {fp : Bytes → Word} {s : SuRF} {t0 t : Grp} {cut h : Nat} {W : List Frame} {ip iq : List Item} {i : Item}

/-- The position of item `k` of the node at the end of a way. -/
def spos (t0 : Grp) (cut : Nat) (W : List Frame) (k : Nat) : Nat := itemN (nodesIn t0 cut (W.length - cut) ++ left W) + k

theorem Built.way_lt (B : Built cfg fp s t0 cut h) (w : Way t0 W t) : W.length < h := by
  obtain ⟨b, e⟩ := w.desc
  by_contra hc
  rw [B.out _ (by omega)] at e
  simp at e

theorem Built.s_at (B : Built cfg fp s t0 cut h) (w : Way t0 W t) (hl : cut ≤ W.length) :
    ∃ post, nodesIn t0 cut (h - cut) = (nodesIn t0 cut (W.length - cut) ++ left W) ++ t :: post ∧ (∀ x ∈ (nodesIn t0 cut (W.length - cut) ++ left W) ++ t :: post, x.OK) ∧
      SView cfg fp s.ls (nodesIn t0 0 cut) ((nodesIn t0 cut (W.length - cut) ++ left W) ++ t :: post) := by
  obtain ⟨b, e⟩ := w.desc
  obtain ⟨post, ep⟩ := sparse_at hl (B.way_lt w) e
  refine ⟨post, ep, ?_, ?_⟩
  · intro x hx
    rw [← ep] at hx
    obtain ⟨i, hi⟩ := nodesIn_mem hx
    exact (B.root.desc_ok hi).toOK
  · have := B.sv
    rwa [ep] at this

theorem num_sparse (hl : cut ≤ W.length) : num t0 W = (nodesIn t0 0 cut).length + (nodesIn t0 cut (W.length - cut) ++ left W).length := nid_sparse t0 cut W.length hl (left W)

theorem Built.s_first (B : Built cfg fp s t0 cut h) (w : Way t0 W t) (hl : cut ≤ W.length) (bmi : Bool) : s.ls.firstLabelPos bmi (num t0 W) = some (spos t0 cut W 0) := by
  obtain ⟨post, -, hok, hv⟩ := B.s_at w hl
  rw [num_sparse hl]
  exact hv.first hok bmi

theorem Built.s_last (B : Built cfg fp s t0 cut h) (w : Way t0 W t) (hl : cut ≤ W.length) (bmi : Bool) : s.ls.lastLabelPos bmi (num t0 W) = some (spos t0 cut W (t.items.length - 1)) := by
  obtain ⟨post, -, hok, hv⟩ := B.s_at w hl
  rw [num_sparse hl]
  exact hv.last hok bmi

theorem Built.s_label (B : Built cfg fp s t0 cut h) (w : Way t0 W t) (hl : cut ≤ W.length) (e : t.items = ip ++ i :: iq) : s.ls.labelVec.getLabel (spos t0 cut W ip.length) = some i.label := by
  obtain ⟨post, -, hok, hv⟩ := B.s_at w hl
  exact hv.label e

theorem Built.s_hasChild (B : Built cfg fp s t0 cut h) (w : Way t0 W t) (hl : cut ≤ W.length) (e : t.items = ip ++ i :: iq) : s.ls.hasChildVec.bv.isSet (spos t0 cut W ip.length) = some i.child := by
  obtain ⟨post, -, hok, hv⟩ := B.s_at w hl
  exact hv.hasChild e

theorem Built.s_child (B : Built cfg fp s t0 cut h) (w : Way t0 W t) (hl : cut ≤ W.length) (e : t.items = ip ++ i :: iq) (hc : i.child = true) :
    s.ls.childNodeID (spos t0 cut W ip.length) = some (num t0 (⟨t, ip, i, iq⟩ :: W)) := by
  obtain ⟨post, -, hok, hv⟩ := B.s_at w hl
  unfold spos
  rw [hv.child e hc, nid_child_sparse _ _ _ _ hl]
  rfl

theorem Built.s_pre (B : Built cfg fp s t0 cut h) (w : Way t0 W t) (hl : cut ≤ W.length) : ∃ k, s.ls.prefixID (num t0 W) = some k ∧ s.ls.prefixVec.getPrefix k = some t.pre := by
  obtain ⟨post, -, hok, hv⟩ := B.s_at w hl
  refine ⟨_, ?_, hv.pre.getPrefix⟩
  unfold LoudsSparse.prefixID usub
  rw [hv.dn, num_sparse hl, if_pos (by omega)]
  congr 1
  omega

theorem Built.s_louds (B : Built cfg fp s t0 cut h) (w : Way t0 W t) (hl : cut ≤ W.length) {k : Nat} (hk : k < t.items.length) : s.ls.loudsVec.bv.isSet (spos t0 cut W k) = some (decide (k = 0)) := by
  obtain ⟨post, -, hok, hv⟩ := B.s_at w hl
  exact hv.louds hok hk

theorem Built.s_more (B : Built cfg fp s t0 cut h) (w : Way t0 W t) (hl : cut ≤ W.length) {k : Nat} (hk : k < t.items.length) :
    (if spos t0 cut W k + 1 ≥ s.ls.loudsVec.bv.numBits then some true else s.ls.loudsVec.bv.isSet (spos t0 cut W k + 1)) = some (decide (k + 1 = t.items.length)) := by
  obtain ⟨post, -, hok, hv⟩ := B.s_at w hl
  exact hv.more hok hk

theorem Built.s_isEnd (B : Built cfg fp s t0 cut h) (w : Way t0 W t) (hl : cut ≤ W.length) {k : Nat} (hk : k < t.items.length) :
    s.ls.isEndOfNode (spos t0 cut W k) = some (decide (k + 1 = t.items.length)) := by
  obtain ⟨post, -, hok, hv⟩ := B.s_at w hl
  exact hv.isEndOfNode hok hk

/-! ### States -/

/-- What the arrays hold for the levels of a way below `R`. -/
def SOn (t0 : Grp) (cut : Nat) (R : List Frame) (ps pl : List Nat) : List Frame → Prop
  | [] => True
  | f :: r => SOn t0 cut R ps pl r ∧ ps[r.length]? = some (spos t0 cut (r ++ R) f.ip.length) ∧ pl[r.length]? = some (str (f :: r)).length

variable {R r : List Frame}

theorem SOn.congr {ps pl ps' pl' : List Nat} {r : List Frame} (hd : SOn t0 cut R ps pl r) (h1 : ∀ k, k < r.length → ps'[k]? = ps[k]?) (h2 : ∀ k, k < r.length → pl'[k]? = pl[k]?) : SOn t0 cut R ps' pl' r := by
  induction r with
  | nil => trivial
  | cons f r ih =>
    obtain ⟨a, b, c⟩ := hd
    refine ⟨ih a (fun k hk => h1 k (by simp; omega)) (fun k hk => h2 k (by simp; omega)), ?_, ?_⟩
    · rw [h1 _ (by simp)]; exact b
    · rw [h2 _ (by simp)]; exact c

/-- The sizes of the arrays. -/
structure SSize (n : Nat) (it : SparseIter) : Prop where
  p : it.posInTrie.length = n
  l : it.prefixLen.length = n
  d : it.nodeID.length = n

/-- The arrays are right up to the node `t` at the end of the way `r ++ R`, in which the position is that of item `k`; the key (below `R`) has the bytes up to the branch. -/
structure SPos (t0 : Grp) (cut h : Nat) (it : SparseIter) (R r : List Frame) (t : Grp) (k : Nat) : Prop where
  sz : SSize (h - cut) it
  on : SOn t0 cut R it.posInTrie it.prefixLen r
  pos : it.posInTrie[r.length]? = some (spos t0 cut (r ++ R) k)
  len : it.prefixLen[r.length]? = some ((str r ++ t.pre).length + 1)
  key : str r ++ t.pre <+: it.keyBuf

/-- ... and the iterator is on this level, the key ending in the label. -/
structure SAt (t0 : Grp) (cut h : Nat) (it : SparseIter) (R r : List Frame) (t : Grp) (k : Nat) (c : UInt8) : Prop extends SPos t0 cut h it R r t k where
  lev : it.level = r.length
  buf : it.keyBuf = str r ++ t.pre ++ [c]

/-- The iterator stands on a leaf of the sparse part. -/
structure SLeaf (t0 : Grp) (cut h : Nat) (it : SparseIter) (R r : List Frame) (t : Grp) (ip : List Item) (i : Item) (iq : List Item) : Prop where
  way : Way t0 (r ++ R) t
  len : R.length = cut
  items : t.items = ip ++ i :: iq
  leaf : i.child = false
  valid : it.valid = true
  term : it.atTerminator = i.term
  place : SAt t0 cut h it R r t ip.length i.label
  depth : it.startDepth = (str R).length

/-- The pairs before a place between the items of the node at the end of a way. -/
def sbef (W : List Frame) (ip : List Item) : List KV := before W ++ ip.flatMap (·.kvs)

theorem sbef_up (f : Frame) : sbef (f :: W) f.child.items = sbef W (f.ip ++ [f.i]) := by
  unfold sbef
  rw [f.child.items_flat]
  simp [before, Frame.child]

theorem sbef_down (f : Frame) : sbef (f :: W) [] = sbef W f.ip := by
  simp [sbef, before]

/-! ### Steps -/

theorem SOn.up {ps pl : List Nat} {f : Frame} (hd : SOn t0 cut R ps pl (f :: r)) : pl[r.length]? = some (str (f :: r)).length := hd.2.2

theorem Built.s_append (B : Built cfg fp s t0 cut h) (w : Way t0 (r ++ R) t) (hR : R.length = cut) {it : SparseIter} (hsz : SSize (h - cut) it)
    (hon : SOn t0 cut R it.posInTrie it.prefixLen r) (hlev : it.level = r.length) (hbuf : it.keyBuf = str r) (c : UInt8) (k : Nat) :
    ∃ it', it.append s.ls c (spos t0 cut (r ++ R) k) (num t0 (r ++ R)) = some it' ∧ SAt t0 cut h it' R r t k c ∧ it'.atTerminator = it.atTerminator ∧ it'.startDepth = it.startDepth := by
  obtain ⟨pid, p1, p2⟩ := B.s_pre w (by simp [hR])
  have hlt := B.way_lt w
  have hl : r.length < h - cut := by
    rw [List.length_append] at hlt
    omega
  have hup : it.upLen (t.pre.length + 1) = some ((str r ++ t.pre).length + 1) := by
    unfold SparseIter.upLen
    rw [hlev]
    cases r with
    | nil => simp [str]
    | cons f r =>
      rw [if_pos (by simp), List.length_cons, Nat.add_sub_cancel, hon.up]
      simp only [Option.map_some, List.length_append]
      congr 1
      omega
  unfold SparseIter.append putAt
  simp only [p1, p2, Option.bind_eq_bind, Option.bind_some, hlev, hsz.p, hsz.l, hsz.d, if_pos hl, hup, Option.pure_def]
  refine ⟨_, rfl, ⟨⟨⟨?_, ?_, ?_⟩, ?_, ?_, ?_, ?_⟩, ?_, ?_⟩, rfl, rfl⟩
  · simp [hsz.p]
  · simp [hsz.l]
  · simp [hsz.d]
  · exact hon.congr (fun k hk => by simp only [List.getElem?_set]; rw [if_neg (by omega)]) (fun k hk => by simp only [List.getElem?_set]; rw [if_neg (by omega)])
  · simp [hsz.p, hl]
  · simp [hsz.l, hl]
  · simp [hbuf]
  · rfl
  · simp [hbuf]

theorem Built.s_setAt (B : Built cfg fp s t0 cut h) (w : Way t0 (r ++ R) t) (hR : R.length = cut) {it : SparseIter} {k : Nat} (hp : SPos t0 cut h it R r t k) (hlev : it.level = r.length) (e : t.items = ip ++ i :: iq) :
    ∃ it', it.setAt s.ls (spos t0 cut (r ++ R) ip.length) = some it' ∧ SAt t0 cut h it' R r t ip.length i.label ∧ it'.atTerminator = it.atTerminator ∧ it'.startDepth = it.startDepth := by
  have hlt := B.way_lt w
  have hl : r.length < h - cut := by
    rw [List.length_append] at hlt
    omega
  have hkl := hp.key.length_le
  unfold SparseIter.setAt putAt cutTo usub
  simp only [hlev, hp.len, Option.bind_eq_bind, Option.bind_some, Nat.add_sub_cancel, if_pos (show 1 ≤ (str r ++ t.pre).length + 1 by omega), if_pos hkl, hp.sz.p, if_pos hl, B.s_label w (by simp [hR]) e, Option.pure_def]
  have hk := List.prefix_iff_eq_take.mp hp.key
  refine ⟨_, rfl, ⟨⟨⟨?_, ?_, ?_⟩, ?_, ?_, ?_, ?_⟩, ?_, ?_⟩, rfl, rfl⟩
  · simp [hp.sz.p]
  · exact hp.sz.l
  · exact hp.sz.d
  · exact hp.on.congr (fun k hk => by simp only [List.getElem?_set]; rw [if_neg (by omega)]) (fun k hk => rfl)
  · simp [hp.sz.p, hl]
  · exact hp.len
  · simp only; rw [← hk]; exact List.prefix_append _ _
  · rfl
  · simp only; rw [← hk]

theorem SPos.up {it : SparseIter} {f : Frame} {k : Nat} (hp : SPos t0 cut h it R (f :: r) t k) : SPos t0 cut h it R r f.t f.ip.length := by
  obtain ⟨a, b, d⟩ := hp.on
  refine ⟨hp.sz, a, b, ?_, ?_⟩
  · rw [d]
    simp [str]
    omega
  · refine List.IsPrefix.trans ?_ hp.key
    simp [str]

theorem SAt.down {it : SparseIter} (hd : SAt t0 cut h it R r t ip.length i.label) : SOn t0 cut R it.posInTrie it.prefixLen (⟨t, ip, i, iq⟩ :: r) ∧ it.keyBuf = str (⟨t, ip, i, iq⟩ :: r) := by
  refine ⟨⟨hd.on, hd.pos, ?_⟩, ?_⟩
  · rw [hd.len]
    simp [str]
    omega
  · rw [hd.buf]
    simp [str]

/-- The leaf at an item. -/
theorem Built.s_atLeaf (B : Built cfg fp s t0 cut h) {it : SparseIter} (w : Way t0 (r ++ R) t) (hR : R.length = cut) (e : t.items = ip ++ i :: iq) (hc : i.child = false)
    (ha : SAt t0 cut h it R r t ip.length i.label) (ht : it.atTerminator = false) (hd : it.startDepth = (str R).length) :
    ∃ it', it.atLeaf s.ls (spos t0 cut (r ++ R) ip.length) i.label = some it' ∧ SLeaf t0 cut h it' R r t ip i iq := by
  have hg := w.good B.root
  have hend := B.s_isEnd w (by simp [hR]) (k := ip.length) (by rw [e]; simp)
  have key : (if i.label = labelTerminator then (s.ls.isEndOfNode (spos t0 cut (r ++ R) ip.length)).map (!·) else some false) = some i.term := by
    rw [hend]
    cases hi : i.term with
    | true =>
      have hip : ip = [] := by
        cases ip with
        | nil => rfl
        | cons z ip =>
          have := (sorted_after (ip := []) (j := z) hg.toOK e i (by simp)).1
          rw [hi] at this
          simp at this
      subst hip
      obtain ⟨j, js, h1, -⟩ := hg.end_two e hi
      have hlab : i.label = labelTerminator := by
        rcases hg.toOK.item (i := i) (by rw [e]; simp) with ⟨-, h2, -⟩ | ⟨h2, -⟩
        · exact h2
        · rw [hi] at h2
          simp at h2
      rw [if_pos hlab, e, h1]
      simp
    | false =>
      split
      next hlab =>
        have : iq = [] := by
          cases iq with
          | nil => rfl
          | cons j iq =>
            have := (sorted_after hg.toOK e j (by simp)).2 hi
            have hjl := j.label.toNat_lt
            rw [hlab] at this
            have h255 : (labelTerminator : UInt8).toNat = 255 := rfl
            omega
        rw [e, this]
        simp
      · rfl
  unfold SparseIter.atLeaf
  simp only [Option.bind_eq_bind]
  have : ∀ (f : Bool → Option SparseIter), (if i.label = labelTerminator then ((s.ls.isEndOfNode (spos t0 cut (r ++ R) ip.length)).map (!·)).bind f else (some false).bind f) = f i.term := by
    intro f
    have := congrArg (·.bind f) key
    rw [Option.bind_some] at this
    rw [← this]
    split <;> rfl
  rw [this]
  refine ⟨_, rfl, ⟨w, hR, e, hc, rfl, by simp [ht], ⟨⟨⟨ha.sz.p, ha.sz.l, ha.sz.d⟩, ha.on, ha.pos, ha.len, ha.key⟩, ha.lev, ha.buf⟩, hd⟩⟩

/-- Where the iterator is after moving down: on the first leaf after `P`, or the last before it. -/
def SGo (t0 : Grp) (cut h : Nat) (first : Bool) (it : SparseIter) (R : List Frame) (P : List KV) : Prop :=
  ∃ r t ip i iq, SLeaf t0 cut h it R r t ip i iq ∧ (if first then sbef (r ++ R) ip else sbef (r ++ R) (ip ++ [i])) = P

/-- The end of a node from which to go on. -/
theorem end_item (ht : t.OK) (first : Bool) : ∃ jp j jq, t.items = jp ++ j :: jq ∧ (if first then jp = [] else jq = []) := by
  cases first with
  | true =>
    cases e : t.items with
    | nil => exact absurd e ht.items_ne
    | cons j jq => exact ⟨[], j, jq, rfl, by simp⟩
  | false => exact ⟨_, _, [], (List.dropLast_concat_getLast ht.items_ne).symm, by simp⟩

theorem Built.s_end (B : Built cfg fp s t0 cut h) (w : Way t0 W t) (hl : cut ≤ W.length) (bmi first : Bool) (e : t.items = ip ++ i :: iq) (he : if first then ip = [] else iq = []) :
    (if first then s.ls.firstLabelPos bmi (num t0 W) else s.ls.lastLabelPos bmi (num t0 W)) = some (spos t0 cut W ip.length) := by
  cases first with
  | true =>
    simp only [if_true] at he ⊢
    subst he
    exact B.s_first w hl bmi
  | false =>
    simp only [Bool.false_eq_true, if_false] at he ⊢
    subst he
    rw [B.s_last w hl bmi, e]
    simp

theorem Built.s_downLoop (B : Built cfg fp s t0 cut h) (bmi first : Bool) (hR : R.length = cut) : ∀ (n : Nat) (r : List Frame) (t : Grp) (ip : List Item) (i : Item) (iq : List Item) (it : SparseIter),
    h ≤ cut + r.length + n → Way t0 (r ++ R) t → t.items = ip ++ i :: iq → i.child = true → SAt t0 cut h it R r t ip.length i.label → it.atTerminator = false → it.startDepth = (str R).length →
    ∃ it', SparseIter.downLoop bmi s.ls first n it (spos t0 cut (r ++ R) ip.length) = some it' ∧ SGo t0 cut h first it' R (if first then sbef (r ++ R) ip else sbef (r ++ R) (ip ++ [i])) := by
  intro n
  induction n with
  | zero =>
    intro r t ip i iq it hn w e hc ha ht hd
    have := B.way_lt w
    rw [List.length_append] at this
    omega
  | succ n ih =>
    intro r t ip i iq it hn w e hc ha ht hd
    have hl : cut ≤ (r ++ R).length := by simp [hR]
    have w' : Way t0 ((⟨t, ip, i, iq⟩ :: r) ++ R) ⟨i.kvs, t.bd + 1⟩ := w.down e hc
    have hl' : cut ≤ ((⟨t, ip, i, iq⟩ :: r) ++ R).length := by simp [hR]; omega
    have hdn := ha.down (iq := iq)
    obtain ⟨jp, j, jq, ej, hj⟩ := end_item (w'.good B.root).toOK first
    have hpos := B.s_end w' hl' bmi first ej hj
    obtain ⟨it', a1, a2, a3, a4⟩ := B.s_append w' hR (it := { it with level := it.level + 1 }) ⟨ha.sz.p, ha.sz.l, ha.sz.d⟩ hdn.1 (by simp [ha.lev]) hdn.2 j.label jp.length
    have hP : (if first then sbef ((⟨t, ip, i, iq⟩ :: r) ++ R) jp else sbef ((⟨t, ip, i, iq⟩ :: r) ++ R) (jp ++ [j])) = if first then sbef (r ++ R) ip else sbef (r ++ R) (ip ++ [i]) := by
      cases first with
      | true =>
        simp only [if_true] at hj ⊢
        rw [hj]
        exact sbef_down (W := r ++ R) ⟨t, ip, i, iq⟩
      | false =>
        simp only [Bool.false_eq_true, if_false] at hj ⊢
        rw [hj] at ej
        rw [← ej]
        exact sbef_up (W := r ++ R) ⟨t, ip, i, iq⟩
    rw [SparseIter.downLoop, B.s_child w hl e hc]
    simp only [Option.bind_eq_bind, Option.bind_some]
    have hpush : ∀ (f : Nat → Option SparseIter), (if first = true then (s.ls.firstLabelPos bmi (num t0 (⟨t, ip, i, iq⟩ :: (r ++ R)))).bind f else (s.ls.lastLabelPos bmi (num t0 (⟨t, ip, i, iq⟩ :: (r ++ R)))).bind f) =
        (f (spos t0 cut ((⟨t, ip, i, iq⟩ :: r) ++ R) jp.length)) := by
      intro f
      have : ((if first then s.ls.firstLabelPos bmi (num t0 (⟨t, ip, i, iq⟩ :: (r ++ R))) else s.ls.lastLabelPos bmi (num t0 (⟨t, ip, i, iq⟩ :: (r ++ R))))).bind f = f (spos t0 cut ((⟨t, ip, i, iq⟩ :: r) ++ R) jp.length) := by
        have := congrArg (·.bind f) hpos
        simpa using this
      rw [← this]
      split <;> rfl
    rw [hpush]
    rw [B.s_label w' hl' ej]
    simp only [Option.bind_some]
    rw [B.s_hasChild w' hl' ej]
    simp only [Option.bind_some]
    rw [show num t0 (⟨t, ip, i, iq⟩ :: (r ++ R)) = num t0 ((⟨t, ip, i, iq⟩ :: r) ++ R) from rfl, a1]
    simp only [Option.bind_some]
    cases hjc : j.child with
    | false =>
      simp only [Bool.not_false, if_true]
      obtain ⟨it'', b1, b2⟩ := B.s_atLeaf w' hR ej hjc a2 (a3.trans ht) (a4.trans hd)
      exact ⟨it'', b1, _, _, _, _, _, b2, hP⟩
    | true =>
      simp only [Bool.not_true, Bool.false_eq_true, if_false]
      rw [← hP]
      exact ih _ _ _ _ _ _ (by simp; omega) w' ej hjc a2 (a3.trans ht) (a4.trans hd)

/-- `MoveToLeftMostKey` and `MoveToRightMostKey`, from an item. -/
theorem Built.s_move (B : Built cfg fp s t0 cut h) (bmi first : Bool) (hR : R.length = cut) {it : SparseIter} (w : Way t0 (r ++ R) t) (e : t.items = ip ++ i :: iq)
    (ha : SAt t0 cut h it R r t ip.length i.label) (ht : it.atTerminator = false) (hd : it.startDepth = (str R).length) :
    ∃ it', it.move bmi s.ls first = some it' ∧ SGo t0 cut h first it' R (if first then sbef (r ++ R) ip else sbef (r ++ R) (ip ++ [i])) := by
  have hl : cut ≤ (r ++ R).length := by simp [hR]
  unfold SparseIter.move SparseIter.enter
  rw [if_neg (by rw [ha.buf]; simp)]
  simp only [Option.bind_eq_bind, Option.bind_some]
  rw [ha.lev, ha.pos]
  simp only [Option.bind_some]
  rw [B.s_label w hl e]
  simp only [Option.bind_some]
  rw [B.s_hasChild w hl e]
  simp only [Option.bind_some]
  cases hc : i.child with
  | false =>
    simp only [Bool.not_false, if_true]
    obtain ⟨it'', b1, b2⟩ := B.s_atLeaf w hR e hc ha ht hd
    exact ⟨it'', b1, _, _, _, _, _, b2, rfl⟩
  | true =>
    simp only [Bool.not_true, Bool.false_eq_true, if_false]
    have : s.ls.sparseLevels = h - cut := by
      unfold LoudsSparse.sparseLevels
      rw [B.hs, B.start]
    rw [this]
    exact B.s_downLoop bmi first hR _ r t ip i iq it (by omega) w e hc ha ht hd

/-- ... from the node handed over by the dense part. -/
theorem Built.s_enter (B : Built cfg fp s t0 cut h) (bmi first : Bool) {T : Grp} (hR : R.length = cut) {it : SparseIter} (w : Way t0 R T) (hsz : SSize (h - cut) it) (hlev : it.level = 0) (hbuf : it.keyBuf = [])
    (ht : it.atTerminator = false) (hn : it.startNodeID = num t0 R) (hd : it.startDepth = (str R).length) :
    ∃ it', it.move bmi s.ls first = some it' ∧ SGo t0 cut h first it' R (if first then before R else before R ++ T.kvs) := by
  obtain ⟨jp, j, jq, ej, hj⟩ := end_item (w.good B.root).toOK first
  have hl : cut ≤ R.length := by omega
  have hpos := B.s_end w hl bmi first ej hj
  obtain ⟨it', a1, a2, a3, a4⟩ := B.s_append (r := []) w hR (it := it) hsz trivial hlev hbuf j.label jp.length
  have hmv : it.move bmi s.ls first = it'.move bmi s.ls first := by
    have h1 : it.enter bmi s.ls first = some it' := by
      unfold SparseIter.enter
      rw [if_pos (by rw [hbuf]; rfl), hn]
      simp only [Option.bind_eq_bind]
      have : ∀ (f : Nat → Option SparseIter), (if first = true then (s.ls.firstLabelPos bmi (num t0 R)).bind f else (s.ls.lastLabelPos bmi (num t0 R)).bind f) = f (spos t0 cut R jp.length) := by
        intro f
        have := congrArg (·.bind f) hpos
        cases first <;> simpa using this
      rw [this, B.s_label w hl ej]
      exact a1
    have h2 : it'.enter bmi s.ls first = some it' := by
      unfold SparseIter.enter
      rw [if_neg (by rw [a2.buf]; simp)]
    unfold SparseIter.move
    rw [h1, h2]
  rw [hmv]
  have hP : (if first then sbef R jp else sbef R (jp ++ [j])) = if first then before R else before R ++ T.kvs := by
    cases first with
    | true =>
      simp only [if_true] at hj ⊢
      rw [hj]
      simp [sbef]
    | false =>
      simp only [Bool.false_eq_true, if_false] at hj ⊢
      rw [hj] at ej
      rw [← ej, sbef, T.items_flat]
  rw [← hP]
  exact B.s_move (r := []) bmi first hR w ej a2 (a3.trans ht) (a4.trans hd)

/-! ### Next and Prev -/

theorem Way.inj {T T' : Grp} (w : Way t0 R T) (w' : Way t0 R T') : T = T' := by
  cases w with
  | nil => cases w'; rfl
  | cons => cases w'; rfl

/-- The position after the current one in its node. -/
theorem Built.s_nextHere (B : Built cfg fp s t0 cut h) (hR : R.length = cut) {ps : List Nat} (w : Way t0 (r ++ R) t) (e : t.items = ip ++ i :: iq) (hp : ps[r.length]? = some (spos t0 cut (r ++ R) ip.length)) :
    SparseIter.nextHere s.ls ps r.length = some (if iq = [] then none else some (spos t0 cut (r ++ R) (ip ++ [i]).length)) := by
  unfold SparseIter.nextHere
  rw [hp]
  simp only [Option.bind_eq_bind, Option.bind_some]
  have hm := B.s_more w (by simp [hR]) (k := ip.length) (by rw [e]; simp)
  have hgoal : ∀ b : Bool, b = decide (ip.length + 1 = t.items.length) →
      (if b then none else some (spos t0 cut (r ++ R) ip.length + 1)) = if iq = [] then none else some (spos t0 cut (r ++ R) (ip ++ [i]).length) := by
    intro b hb
    rw [e] at hb
    subst hb
    cases iq with
    | nil => simp
    | cons j iq =>
      simp only [List.length_append, List.length_cons, List.length_nil]
      rw [decide_eq_false (by omega), if_neg (by simp), if_neg (by simp)]
      exact congrArg some (by simp [spos]; omega)
  split
  next hc =>
    rw [if_pos hc] at hm
    have := hgoal true (Option.some.inj hm)
    simp only [if_true] at this ⊢
    exact congrArg some this
  next hc =>
    rw [if_neg hc] at hm
    rw [hm]
    exact congrArg some (hgoal _ rfl)

theorem Built.s_nextLoop (B : Built cfg fp s t0 cut h) (hR : R.length = cut) {it : SparseIter} : ∀ (r : List Frame) (t : Grp) (ip : List Item) (i : Item) (iq : List Item),
    Way t0 (r ++ R) t → t.items = ip ++ i :: iq → SPos t0 cut h it R r t ip.length →
    (SparseIter.nextLoop s.ls it.posInTrie r.length = some none ∧ ∃ T, Way t0 R T ∧ sbef (r ++ R) (ip ++ [i]) = before R ++ T.kvs) ∨
      ∃ r' t' jp j jq, SparseIter.nextLoop s.ls it.posInTrie r.length = some (some (r'.length, spos t0 cut (r' ++ R) jp.length)) ∧ Way t0 (r' ++ R) t' ∧ t'.items = jp ++ j :: jq ∧ (∃ k, SPos t0 cut h it R r' t' k) ∧
        sbef (r' ++ R) jp = sbef (r ++ R) (ip ++ [i]) := by
  intro r
  induction r with
  | nil =>
    intro t ip i iq w e hp
    have hn := B.s_nextHere hR w e hp.pos
    cases iq with
    | nil =>
      refine .inl ⟨?_, t, w, ?_⟩
      · rw [List.length_nil] at hn ⊢
        rw [SparseIter.nextLoop, hn]
        rfl
      · rw [← e, sbef, t.items_flat]
        rfl
    | cons j jq =>
      refine .inr ⟨[], t, ip ++ [i], j, jq, ?_, w, by simpa using e, ⟨_, hp⟩, rfl⟩
      rw [List.length_nil] at hn ⊢
      rw [SparseIter.nextLoop, hn]
      simp
  | cons f r ih =>
    intro t ip i iq w e hp
    have hn := B.s_nextHere hR w e hp.pos
    cases iq with
    | nil =>
      have hl : SparseIter.nextLoop s.ls it.posInTrie (f :: r).length = SparseIter.nextLoop s.ls it.posInTrie r.length := by
        rw [List.length_cons] at hn ⊢
        rw [SparseIter.nextLoop, hn]
        rfl
      rw [hl]
      have hb : sbef ((f :: r) ++ R) (ip ++ [i]) = sbef (r ++ R) (f.ip ++ [f.i]) := by
        rw [← e]
        cases w with
        | cons w' e' hc' => exact sbef_up (W := r ++ R) f
      rw [hb]
      cases w with
      | cons w' e' hc' => exact ih f.t f.ip f.i f.iq w' e' hp.up
    | cons j jq =>
      refine .inr ⟨f :: r, t, ip ++ [i], j, jq, ?_, w, by simpa using e, ⟨_, hp⟩, rfl⟩
      rw [List.length_cons] at hn ⊢
      rw [SparseIter.nextLoop, hn]
      simp

/-- An iterator that is not valid and holds nothing. -/
structure SClean (n : Nat) (it : SparseIter) : Prop where
  sz : SSize n it
  valid : it.valid = false
  term : it.atTerminator = false
  lev : it.level = 0
  buf : it.keyBuf = []

/-- Moving an iterator without touching its arrays. -/
theorem SPos.same {it it' : SparseIter} {k : Nat} (hp : SPos t0 cut h it R r t k) (h1 : it'.posInTrie = it.posInTrie) (h2 : it'.prefixLen = it.prefixLen) (h3 : it'.nodeID = it.nodeID) (h4 : it'.keyBuf = it.keyBuf) : SPos t0 cut h it' R r t k := by
  obtain ⟨⟨a, b, c⟩, d, e, f, g⟩ := hp
  exact ⟨⟨by rw [h1]; exact a, by rw [h2]; exact b, by rw [h3]; exact c⟩, by rw [h1, h2]; exact d, by rw [h1]; exact e, by rw [h2]; exact f, by rw [h4]; exact g⟩

/-- `Next` from a place inside a node. -/
theorem Built.s_next (B : Built cfg fp s t0 cut h) (bmi : Bool) (hR : R.length = cut) {it : SparseIter} (w : Way t0 (r ++ R) t) (e : t.items = ip ++ i :: iq) (hp : SPos t0 cut h it R r t ip.length)
    (hlev : it.level = r.length) (hd : it.startDepth = (str R).length) :
    ∃ it', it.next bmi s.ls = some it' ∧ (SGo t0 cut h true it' R (sbef (r ++ R) (ip ++ [i])) ∨ (SClean (h - cut) it' ∧ ∃ T, Way t0 R T ∧ sbef (r ++ R) (ip ++ [i]) = before R ++ T.kvs)) := by
  unfold SparseIter.next
  simp only [hlev, Option.bind_eq_bind]
  rcases B.s_nextLoop hR r t ip i iq w e hp with ⟨h1, h2⟩ | ⟨r', t', jp, j, jq, h1, w', e', ⟨k, hp'⟩, hb⟩
  · rw [h1]
    exact ⟨_, rfl, .inr ⟨⟨⟨hp.sz.p, hp.sz.l, hp.sz.d⟩, rfl, rfl, rfl, rfl⟩, h2⟩⟩
  · rw [h1]
    simp only [Option.bind_some]
    obtain ⟨it1, a1, a2, a3, a4⟩ := B.s_setAt w' hR (it := { it with atTerminator := false, level := r'.length }) (hp'.same rfl rfl rfl rfl) rfl e'
    rw [a1]
    simp only [Option.bind_some]
    obtain ⟨it2, b1, b2⟩ := B.s_move bmi true hR w' e' a2 a3 (a4.trans hd)
    refine ⟨it2, b1, .inl ?_⟩
    rw [← hb]
    exact b2

theorem Built.s_next_leaf (B : Built cfg fp s t0 cut h) (bmi : Bool) {it : SparseIter} (hl : SLeaf t0 cut h it R r t ip i iq) :
    ∃ it', it.next bmi s.ls = some it' ∧ (SGo t0 cut h true it' R (sbef (r ++ R) (ip ++ [i])) ∨ (SClean (h - cut) it' ∧ ∃ T, Way t0 R T ∧ sbef (r ++ R) (ip ++ [i]) = before R ++ T.kvs)) :=
  B.s_next bmi hl.len hl.way hl.items hl.place.toSPos hl.place.lev hl.depth

/-- The position before the current one in its node. -/
theorem Built.s_prevHere (B : Built cfg fp s t0 cut h) (hR : R.length = cut) {ps : List Nat} (w : Way t0 (r ++ R) t) (e : t.items = ip ++ i :: iq) (hp : ps[r.length]? = some (spos t0 cut (r ++ R) ip.length)) :
    SparseIter.prevHere s.ls ps r.length = some (if ip = [] then none else some (spos t0 cut (r ++ R) ip.dropLast.length)) := by
  unfold SparseIter.prevHere
  rw [hp]
  simp only [Option.bind_eq_bind, Option.bind_some]
  rw [B.s_louds w (by simp [hR]) (k := ip.length) (by rw [e]; simp)]
  simp only [Option.bind_some]
  cases ip with
  | nil => simp
  | cons j ip =>
    rw [decide_eq_false (by simp), if_neg (by simp), if_neg (by simp)]
    unfold usub spos
    rw [if_pos (by simp; omega)]
    simp

theorem Built.s_prevLoop (B : Built cfg fp s t0 cut h) (hR : R.length = cut) {it : SparseIter} : ∀ (r : List Frame) (t : Grp) (ip : List Item) (i : Item) (iq : List Item),
    Way t0 (r ++ R) t → t.items = ip ++ i :: iq → SPos t0 cut h it R r t ip.length →
    (SparseIter.prevLoop s.ls it.posInTrie r.length = some none ∧ sbef (r ++ R) ip = before R) ∨
      ∃ r' t' jp j jq, SparseIter.prevLoop s.ls it.posInTrie r.length = some (some (r'.length, spos t0 cut (r' ++ R) jp.length)) ∧ Way t0 (r' ++ R) t' ∧ t'.items = jp ++ j :: jq ∧ (∃ k, SPos t0 cut h it R r' t' k) ∧
        sbef (r' ++ R) (jp ++ [j]) = sbef (r ++ R) ip := by
  intro r
  induction r with
  | nil =>
    intro t ip i iq w e hp
    have hn := B.s_prevHere hR w e hp.pos
    rcases List.eq_nil_or_concat ip with rfl | ⟨jp, j, rfl⟩
    · refine .inl ⟨?_, by simp [sbef]⟩
      rw [List.length_nil] at hn ⊢
      rw [SparseIter.prevLoop, hn]
      rfl
    · refine .inr ⟨[], t, jp, j, i :: iq, ?_, w, by simpa using e, ⟨_, hp⟩, by simp⟩
      rw [List.length_nil] at hn ⊢
      rw [SparseIter.prevLoop, hn]
      simp
  | cons f r ih =>
    intro t ip i iq w e hp
    have hn := B.s_prevHere hR w e hp.pos
    rcases List.eq_nil_or_concat ip with rfl | ⟨jp, j, rfl⟩
    · have hl : SparseIter.prevLoop s.ls it.posInTrie (f :: r).length = SparseIter.prevLoop s.ls it.posInTrie r.length := by
        rw [List.length_cons] at hn ⊢
        rw [SparseIter.prevLoop, hn]
        rfl
      rw [hl]
      have hb : sbef ((f :: r) ++ R) [] = sbef (r ++ R) f.ip := sbef_down (W := r ++ R) f
      rw [hb]
      cases w with
      | cons w' e' hc' => exact ih f.t f.ip f.i f.iq w' e' hp.up
    · refine .inr ⟨f :: r, t, jp, j, i :: iq, ?_, w, by simpa using e, ⟨_, hp⟩, by simp⟩
      rw [List.length_cons] at hn ⊢
      rw [SparseIter.prevLoop, hn]
      simp

theorem itemN_zero {l : List Grp} (hl : ∀ x ∈ l, x.OK) (h0 : itemN l = 0) : l = [] := by
  cases l with
  | nil => rfl
  | cons g l =>
    have : g.items.length ≠ 0 := fun e => (hl g (by simp)).items_ne (List.eq_nil_of_length_eq_zero e)
    simp only [itemN, List.flatMap_cons, List.length_append] at h0
    omega

/-- Only the very first position is zero. -/
theorem Built.s_zero (B : Built cfg fp s t0 cut h) (hR : R.length = cut) (w : Way t0 (r ++ R) t) {k : Nat} : spos t0 cut (r ++ R) k = 0 → r = [] ∧ k = 0 ∧ left R = [] := by
  intro h0
  obtain ⟨post, ep, hok, -⟩ := B.s_at w (by simp [hR])
  unfold spos at h0
  have hnil := itemN_zero (fun x hx => hok x (by rw [List.mem_append]; exact .inl hx)) (Nat.eq_zero_of_add_eq_zero h0).1
  obtain ⟨h1, h2⟩ := List.append_eq_nil_iff.mp hnil
  have hr : r = [] := by
    cases r with
    | nil => rfl
    | cons f r =>
      exfalso
      obtain ⟨T, wT, -⟩ := w.split
      obtain ⟨b, hT⟩ := wT.desc
      rw [hR] at hT
      have : T ∈ nodesIn t0 cut (((f :: r) ++ R).length - cut) := by
        rw [show ((f :: r) ++ R).length - cut = r.length + 1 by simp [hR]; omega]
        simp only [nodesIn, List.mem_flatMap, List.mem_range'_1]
        exact ⟨cut, ⟨by omega, by omega⟩, by rw [hT]; simp⟩
      rw [h1] at this
      simp at this
  subst hr
  exact ⟨rfl, (Nat.eq_zero_of_add_eq_zero h0).2, h2⟩

/-- The sparse iterator left over when `Prev` runs out at the very first position: not valid, but the key is still there. -/
structure SStale (t0 : Grp) (cut h : Nat) (it : SparseIter) (R : List Frame) (T : Grp) : Prop where
  way : Way t0 R T
  len : R.length = cut
  lft : left R = []
  valid : it.valid = false
  term : it.atTerminator = false
  place : ∃ i iq, T.items = i :: iq ∧ SAt t0 cut h it R [] T 0 i.label

theorem Built.s_prev_leaf (B : Built cfg fp s t0 cut h) (bmi : Bool) {it : SparseIter} (hl : SLeaf t0 cut h it R r t ip i iq) :
    ∃ it', it.prev bmi s.ls = some it' ∧ (SGo t0 cut h false it' R (sbef (r ++ R) ip) ∨ (sbef (r ++ R) ip = before R ∧ (SClean (h - cut) it' ∨ SStale t0 cut h it' R t))) := by
  have hp := hl.place
  unfold SparseIter.prev
  simp only [hp.lev, hp.pos, Option.bind_eq_bind, Option.bind_some]
  split
  next h0 =>
    obtain ⟨rfl, h1, h2⟩ := B.s_zero hl.len hl.way h0
    have hip : ip = [] := List.eq_nil_of_length_eq_zero h1
    subst hip
    refine ⟨_, rfl, .inr ⟨by simp [sbef], .inr ⟨hl.way, hl.len, h2, rfl, rfl, i, iq, hl.items, ⟨hp.toSPos.same rfl rfl rfl rfl, rfl, hp.buf⟩⟩⟩⟩
  next h0 =>
    rcases B.s_prevLoop hl.len r t ip i iq hl.way hl.items hp.toSPos with ⟨h1, h2⟩ | ⟨r', t', jp, j, jq, h1, w', e', ⟨k, hp'⟩, hb⟩
    · rw [h1]
      exact ⟨_, rfl, .inr ⟨h2, .inl ⟨⟨hp.sz.p, hp.sz.l, hp.sz.d⟩, rfl, rfl, rfl, rfl⟩⟩⟩
    · rw [h1]
      simp only [Option.bind_some]
      obtain ⟨it1, a1, a2, a3, a4⟩ := B.s_setAt w' hl.len (it := { it with atTerminator := false, level := r'.length }) (hp'.same rfl rfl rfl rfl) rfl e'
      rw [a1]
      simp only [Option.bind_some]
      obtain ⟨it2, b1, b2⟩ := B.s_move bmi false hl.len w' e' a2 a3 (a4.trans hl.depth)
      refine ⟨it2, b1, .inl ?_⟩
      rw [← hb]
      exact b2

end

end Surf
