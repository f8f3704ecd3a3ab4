import Verif.Surf.Way
import Verif.Surf.IterBits

/-!
# The dense part of an iterator

Where the dense iterator stands, in terms of ways down the trie, and what its moves do.
-/

set_option linter.unusedSimpArgs false

namespace Surf

section
variable {cfg : Config} {fp : Bytes → Word} {s : SuRF} {t0 t : Grp} {cut h : Nat} {r : List Frame}

/-! ### Nodes on a way, in the dense vectors -/

theorem Built.d_at (B : Built cfg fp s t0 cut h) (w : Way t0 r t) (hl : r.length < cut) :
    ∃ pre post, nodesIn t0 0 cut = pre ++ t :: post ∧ pre.length = num t0 r ∧ (∀ x ∈ pre, x.OK) ∧ DView cfg fp s.ld (pre ++ t :: post) ∧
      pre = nodesIn t0 0 r.length ++ left r := by
  obtain ⟨b, e⟩ := w.desc
  obtain ⟨post, ep⟩ := dense_at hl e
  refine ⟨_, post, ep, rfl, ?_, ?_, rfl⟩
  · intro x hx
    have : x ∈ nodesIn t0 0 cut := by rw [ep]; exact List.mem_append_left _ hx
    obtain ⟨i, hi⟩ := nodesIn_mem this
    exact (B.root.desc_ok hi).toOK
  · have := B.dv
    rwa [ep] at this

theorem Built.d_pre (B : Built cfg fp s t0 cut h) (w : Way t0 r t) (hl : r.length < cut) : s.ld.prefixVec.getPrefix (num t0 r) = some t.pre := by
  obtain ⟨pre, post, -, e2, -, hv, -⟩ := B.d_at w hl
  rw [← e2]
  exact hv.pre.getPrefix

theorem Built.d_end (B : Built cfg fp s t0 cut h) (w : Way t0 r t) (hl : r.length < cut) : s.ld.isPrefixVec.bv.isSet (num t0 r) = some t.hasEnd := by
  obtain ⟨pre, post, -, e2, -, hv, -⟩ := B.d_at w hl
  rw [← e2]
  exact hv.isPrefix

variable {ip iq : List Item} {i j : Item}

theorem Built.d_hasChild (B : Built cfg fp s t0 cut h) (w : Way t0 r t) (hl : r.length < cut) (e : t.items = ip ++ i :: iq) (hi : i.term = false) :
    s.ld.hasChildVec.bv.isSet (num t0 r * 256 + i.label.toNat) = some i.child := by
  obtain ⟨pre, post, -, e2, -, hv, -⟩ := B.d_at w hl
  rw [← e2]
  exact hv.hasChild_item (w.good B.root).toOK e hi

theorem Built.d_label (B : Built cfg fp s t0 cut h) (w : Way t0 r t) (hl : r.length < cut) {c : Nat} (hc : c < 256) :
    s.ld.labelVec.bv.isSet (num t0 r * 256 + c) = some (t.items.any fun i => !i.term && i.label.toNat == c) := by
  obtain ⟨pre, post, -, e2, -, hv, -⟩ := B.d_at w hl
  rw [← e2]
  exact hv.label c hc

theorem Built.d_child (B : Built cfg fp s t0 cut h) (w : Way t0 r t) (hl : r.length < cut) (e : t.items = ip ++ i :: iq) (hc : i.child = true) :
    s.ld.childNodeID (num t0 r * 256 + i.label.toNat) = some (num t0 (⟨t, ip, i, iq⟩ :: r)) := by
  obtain ⟨pre, post, -, e2, hok, hv, e3⟩ := B.d_at w hl
  have hg := (w.good B.root).toOK
  rw [← e2, hv.child hok hg e (child_nonterm hg (by rw [e]; simp) hc) hc, e3, nid_child]
  rfl

theorem sorted_before (ht : t.OK) (e : t.items = ip ++ j :: iq) : ∀ i ∈ ip, i.term = false → i.label.toNat < j.label.toNat := by
  intro i hi h
  have hs := ht.items_sorted
  rw [e, List.pairwise_append] at hs
  have := (hs.2.2 i hi j (by simp)).2 h
  rwa [UInt8.lt_iff_toNat_lt] at this

theorem sorted_after (ht : t.OK) (e : t.items = ip ++ j :: iq) : ∀ i ∈ iq, i.term = false ∧ (j.term = false → j.label.toNat < i.label.toNat) := by
  intro i hi
  have hs := ht.items_sorted
  rw [e, List.pairwise_append, List.pairwise_cons] at hs
  have := hs.2.1.1 i hi
  refine ⟨this.1, fun h => ?_⟩
  have := this.2 h
  rwa [UInt8.lt_iff_toNat_lt] at this

/-- The end item of a node has an item after it. -/
theorem Grp.Good.end_two (ht : t.Good) {is : List Item} (e : t.items = i :: is) (hi : i.term = true) : ∃ j js, is = j :: js ∧ j.term = false := by
  obtain ⟨x, e1, e2, e3⟩ := item_term ht.toOK (by rw [e]; simp) hi
  cases is with
  | cons j js => exact ⟨j, js, rfl, ((sorted_after (ip := []) ht.toOK e) j (by simp)).1⟩
  | nil =>
    exfalso
    have hk : t.kvs = [x] := by rw [← t.items_flat, e]; simp [e1]
    have hb : t.bd = t.d := by
      apply Grp.bd_stop
      rw [hk]
      rfl
    rcases ht.big with hb2 | hb2
    · rw [hk] at hb2
      simp at hb2
    · have := hb2 x e2
      omega

theorem hasEnd_false (ht : t.hasEnd = false) : ∀ i ∈ t.items, i.term = false := by
  unfold Grp.hasEnd at ht
  rw [List.any_eq_false] at ht
  intro i hi
  simpa using ht i hi

/-! ### States -/

/-- What the arrays hold for the levels of a way. -/
def DOn (t0 : Grp) (ps pl : List Nat) : List Frame → Prop
  | [] => True
  | f :: r => DOn t0 ps pl r ∧ ps[r.length]? = some (num t0 r * 256 + f.i.label.toNat) ∧ pl[r.length]? = some (str (f :: r)).length

theorem DOn.congr {ps pl ps' pl' : List Nat} {r : List Frame} (hd : DOn t0 ps pl r) (h1 : ∀ k, k < r.length → ps'[k]? = ps[k]?) (h2 : ∀ k, k < r.length → pl'[k]? = pl[k]?) : DOn t0 ps' pl' r := by
  induction r with
  | nil => trivial
  | cons f r ih =>
    obtain ⟨a, b, c⟩ := hd
    refine ⟨ih a (fun k hk => h1 k (by simp; omega)) (fun k hk => h2 k (by simp; omega)), ?_, ?_⟩
    · rw [h1 _ (by simp)]; exact b
    · rw [h2 _ (by simp)]; exact c

/-- The arrays are right up to the node `t` at the end of the way `r`, in which the position is that of byte `c`; the key has the bytes up to and with this one. -/
structure DPos (t0 : Grp) (cut : Nat) (it : DenseIter) (r : List Frame) (t : Grp) (c : Nat) : Prop where
  szp : it.posInTrie.length = cut
  szl : it.prefixLen.length = cut
  on : DOn t0 it.posInTrie it.prefixLen r
  pos : it.posInTrie[r.length]? = some (num t0 r * 256 + c)
  len : it.prefixLen[r.length]? = some ((str r ++ t.pre).length + 1)
  key : str r ++ t.pre ++ [UInt8.ofNat c] <+: it.keyBuf

/-- ... and the iterator is on this level, the key ending in this byte. -/
structure DAt (t0 : Grp) (cut : Nat) (it : DenseIter) (r : List Frame) (t : Grp) (c : Nat) : Prop extends DPos t0 cut it r t c where
  lev : it.level = r.length
  buf : it.keyBuf = str r ++ t.pre ++ [UInt8.ofNat c]

theorem DAt.flags {it : DenseIter} {c : Nat} (hd : DAt t0 cut it r t c) (a b d : Bool) : DAt t0 cut (it.flags a b d) r t c := ⟨⟨hd.szp, hd.szl, hd.on, hd.pos, hd.len, hd.key⟩, hd.lev, hd.buf⟩

/-- The iterator stands on a leaf of the dense part. -/
structure DLeaf (t0 : Grp) (cut : Nat) (it : DenseIter) (r : List Frame) (t : Grp) (ip : List Item) (i : Item) (iq : List Item) : Prop where
  way : Way t0 r t
  lt : r.length < cut
  items : t.items = ip ++ i :: iq
  leaf : i.child = false
  valid : it.valid = true
  comp : it.searchComp = true ∧ it.leftComp = true ∧ it.rightComp = true
  place : (i.term = false ∧ it.atPrefixKey = false ∧ DAt t0 cut it r t i.label.toNat) ∨
    (i.term = true ∧ it.atPrefixKey = true ∧ ∃ j iq', iq = j :: iq' ∧ DAt t0 cut it r t j.label.toNat)

/-- The iterator has gone through the dense part, along `R`, to the node `T` on level `cut`. -/
structure DSend (t0 : Grp) (cut : Nat) (it : DenseIter) (R : List Frame) (T : Grp) (sc l r : Bool) : Prop where
  way : Way t0 R T
  len : R.length = cut
  szp : it.posInTrie.length = cut
  szl : it.prefixLen.length = cut
  valid : it.valid = true
  comp : it.searchComp = sc ∧ it.leftComp = l ∧ it.rightComp = r
  on : DOn t0 it.posInTrie it.prefixLen R
  lev : 0 < cut → it.level = cut - 1
  node : it.sendOutNodeID = num t0 R
  depth : it.sendOutDepth = (str R).length
  buf : it.keyBuf = str R
  pref : it.atPrefixKey = false

/-! ### Steps -/

theorem DOn.up {ps pl : List Nat} {f : Frame} (hd : DOn t0 ps pl (f :: r)) : pl[r.length]? = some (str (f :: r)).length := hd.2.2

theorem pos_div (n c : Nat) (hc : c < 256) : (n * 256 + c) / denseFanout = n ∧ (n * 256 + c) % denseFanout = c := by
  show _ / 256 = _ ∧ _ % 256 = _
  omega

theorem Built.d_append (B : Built cfg fp s t0 cut h) (w : Way t0 r t) (hl : r.length < cut) {it : DenseIter} (h1 : it.posInTrie.length = cut) (h2 : it.prefixLen.length = cut)
    (hon : DOn t0 it.posInTrie it.prefixLen r) (hlev : it.level = r.length) (hbuf : it.keyBuf = str r) {c : Nat} (hc : c < 256) :
    ∃ it', it.append s.ld (num t0 r * 256 + c) = some it' ∧ DAt t0 cut it' r t c ∧ it'.atPrefixKey = it.atPrefixKey := by
  obtain ⟨p1, p2⟩ := pos_div (num t0 r) c hc
  have hup : it.upLen (t.pre.length + 1) = some ((str r ++ t.pre).length + 1) := by
    unfold DenseIter.upLen
    rw [hlev]
    cases r with
    | nil => simp [str]
    | cons f r =>
      rw [if_pos (by simp), List.length_cons, Nat.add_sub_cancel, hon.up]
      simp only [Option.map_some, List.length_append]
      congr 1
      omega
  unfold DenseIter.append putAt
  simp only [p1, p2, Option.bind_eq_bind, B.d_pre w hl, Option.bind_some, hlev, h1, h2, if_pos hl, hup, Option.pure_def]
  refine ⟨_, rfl, ⟨⟨?_, ?_, ?_, ?_, ?_, ?_⟩, ?_, ?_⟩, rfl⟩
  · simp [h1]
  · simp [h2]
  · exact hon.congr (fun k hk => by simp only [List.getElem?_set]; rw [if_neg (by omega)]) (fun k hk => by simp only [List.getElem?_set]; rw [if_neg (by omega)])
  · simp [h1, hl]
  · simp [h2, hl]
  · simp [hbuf]
  · rfl
  · simp [hbuf]

theorem Built.d_setAt (hl : r.length < cut) {it : DenseIter} {c c' : Nat} (hp : DPos t0 cut it r t c) (hlev : it.level = r.length) (hc : c' < 256) :
    ∃ it', it.setAt (num t0 r * 256 + c') = some it' ∧ DAt t0 cut it' r t c' ∧ it'.atPrefixKey = it.atPrefixKey := by
  obtain ⟨p1, p2⟩ := pos_div (num t0 r) c' hc
  have hk0 : str r ++ t.pre <+: it.keyBuf := List.IsPrefix.trans (List.prefix_append _ _) hp.key
  have hkl := hk0.length_le
  unfold DenseIter.setAt putAt cutTo usub
  simp only [hlev, hp.len, Option.bind_eq_bind, Option.bind_some, Nat.add_sub_cancel, if_pos (show 1 ≤ (str r ++ t.pre).length + 1 by omega), if_pos hkl, hp.szp, if_pos hl, p2, Option.pure_def]
  have hk := List.prefix_iff_eq_take.mp hk0
  refine ⟨_, rfl, ⟨⟨?_, ?_, ?_, ?_, ?_, ?_⟩, ?_, ?_⟩, rfl⟩
  · simp [hp.szp]
  · exact hp.szl
  · exact hp.on.congr (fun k hk => by simp only [List.getElem?_set]; rw [if_neg (by omega)]) (fun k hk => rfl)
  · simp [hp.szp, hl]
  · exact hp.len
  · simp only; rw [← hk]; exact List.prefix_rfl
  · rfl
  · simp only; rw [← hk]

theorem DPos.up {it : DenseIter} {f : Frame} {c : Nat} (w : Way t0 r f.t) (hp : DPos t0 cut it (f :: r) t c) : DPos t0 cut it r f.t f.i.label.toNat := by
  obtain ⟨a, b, d⟩ := hp.on
  refine ⟨hp.szp, hp.szl, a, b, ?_, ?_⟩
  · rw [d]
    simp [str]
    omega
  · refine List.IsPrefix.trans ?_ hp.key
    rw [UInt8.ofNat_toNat]
    simp [str]

theorem DAt.down {it : DenseIter} (hd : DAt t0 cut it r t i.label.toNat) : DOn t0 it.posInTrie it.prefixLen (⟨t, ip, i, iq⟩ :: r) ∧ it.keyBuf = str (⟨t, ip, i, iq⟩ :: r) := by
  refine ⟨⟨hd.on, hd.pos, ?_⟩, ?_⟩
  · rw [hd.len]
    simp [str]
    omega
  · rw [hd.buf]
    simp [str]

/-! ### Next -/

/-- Where the iterator is after a move to the right: on the first leaf after the place `P`, or before a node of the sparse part, or there is nothing after `P`. -/
def DNext (t0 : Grp) (cut : Nat) (it : DenseIter) (P : List KV × List Grp) : Prop :=
  (∃ r t ip i iq, DLeaf t0 cut it r t ip i iq ∧ cur cut r t.bd ip = P) ∨
  (∃ R T, DSend t0 cut it R T true false true ∧ 0 < cut ∧ (before R, left R) = P) ∨
  ((it.valid = false ∧ it.posInTrie.length = cut ∧ it.prefixLen.length = cut) ∧ P.1 = t0.kvs)

theorem num_pos (f : Frame) (r : List Frame) : 0 < num t0 (f :: r) := by
  unfold num nid
  rw [List.length_cons, nodesIn_zero]
  simp

/-- The leaf at an item. -/
theorem Built.d_leaf {it : DenseIter} (w : Way t0 r t) (hl : r.length < cut) (e : t.items = ip ++ i :: iq) (hi : i.term = false) (hc : i.child = false)
    (ha : DAt t0 cut it r t i.label.toNat) (hp : it.atPrefixKey = false) : DLeaf t0 cut (it.flags true true true) r t ip i iq :=
  ⟨w, hl, e, hc, rfl, ⟨rfl, rfl, rfl⟩, Or.inl ⟨hi, hp, ha.flags _ _ _⟩⟩

theorem Built.d_leftLoop (B : Built cfg fp s t0 cut h) : ∀ (n : Nat) (r : List Frame) (t : Grp) (ip : List Item) (i : Item) (iq : List Item) (it : DenseIter), r.length + n + 1 = cut → Way t0 r t →
    t.items = ip ++ i :: iq → i.child = true → DAt t0 cut it r t i.label.toNat → it.atPrefixKey = false →
    ∃ it', DenseIter.leftLoop s.ld n it (num t0 r * 256 + i.label.toNat) = some it' ∧ DNext t0 cut it' (cur cut r t.bd ip) := by
  intro n
  induction n with
  | zero =>
    intro r t ip i iq it hn w e hc ha hp
    have hd := ha.down (ip := ip) (iq := iq)
    have w' := w.down e hc
    rw [DenseIter.leftLoop, B.d_child w (by omega) e hc]
    refine ⟨_, rfl, Or.inr (Or.inl ⟨_, _, ⟨w', by simp; omega, ha.szp, ha.szl, rfl, ⟨rfl, rfl, rfl⟩, hd.1, fun _ => ?_, rfl, ?_, hd.2, hp⟩, by omega, ?_⟩)⟩
    · show it.level = _
      rw [ha.lev]
      omega
    · show it.keyBuf.length = _
      rw [hd.2]
    · exact (cur_in (f := ⟨t, ip, i, iq⟩) (by omega)).symm
  | succ n ih =>
    intro r t ip i iq it hn w e hc ha hp
    have hd := ha.down (ip := ip) (iq := iq)
    have w' := w.down e hc
    have hl : r.length < cut := by omega
    have hl' : ((⟨t, ip, i, iq⟩ : Frame) :: r).length < cut := by simp; omega
    have hg := w'.good B.root
    have hcur := cur_down (r := r) (f := ⟨t, ip, i, iq⟩) (cut := cut) (by omega) (⟨i.kvs, t.bd + 1⟩ : Grp).bd
    obtain ⟨pre, post, e1, e2, e3, hv, e4⟩ := B.d_at w' hl'
    have hpos := num_pos (t0 := t0) ⟨t, ip, i, iq⟩ r
    have hne : pre ≠ [] := by
      rintro rfl
      simp at e2
      omega
    -- the first label
    obtain ⟨jp, j, jq, ej, hj, hjp, hcase⟩ : ∃ jp j jq, (⟨i.kvs, t.bd + 1⟩ : Grp).items = jp ++ j :: jq ∧ j.term = false ∧ (∀ x ∈ jp, x.term = true) ∧
        (((⟨i.kvs, t.bd + 1⟩ : Grp).hasEnd = false ∧ jp = []) ∨ ((⟨i.kvs, t.bd + 1⟩ : Grp).hasEnd = true ∧ ∃ z, jp = [z] ∧ z.term = true ∧ z.child = false)) := by
      rcases hg.toOK.endItem_cases with ⟨h1, -⟩ | ⟨h1, z, js, h2, h3, h4, -⟩
      · cases hit : (⟨i.kvs, t.bd + 1⟩ : Grp).items with
        | nil => exact absurd hit hg.toOK.items_ne
        | cons j jq => exact ⟨[], j, jq, rfl, hasEnd_false h1 j (by rw [hit]; simp), by simp, Or.inl ⟨h1, rfl⟩⟩
      · obtain ⟨j, jq, rfl, hj⟩ := hg.end_two h2 h3
        exact ⟨[z], j, jq, h2, hj, by simp [h3], Or.inr ⟨h1, z, rfl, h3, h4⟩⟩
    have hnx := hv.next_first hne ej hj hjp (fun x hx hxt => (sorted_after hg.toOK ej x hx).2 hj)
    rw [e2] at hnx
    obtain ⟨it', a1, a2, a3⟩ := B.d_append w' hl' (it := { it with level := it.level + 1 }) ha.szp ha.szl hd.1 (by simp [ha.lev]) hd.2 (c := j.label.toNat) j.label.toNat_lt
    rw [DenseIter.leftLoop, B.d_child w hl e hc]
    simp only [Option.bind_eq_bind, Option.bind_some]
    rw [B.d_end w' hl']
    simp only [Option.bind_some, usub, show denseFanout = 256 from rfl]
    rw [if_pos (by omega)]
    simp only [Option.bind_some]
    rw [hnx]
    simp only [Option.bind_some]
    rw [a1]
    simp only [Option.bind_some]
    have hp' : it'.atPrefixKey = false := a3.trans hp
    rcases hcase with ⟨h1, rfl⟩ | ⟨h1, z, rfl, h2, h3⟩
    · rw [h1]
      simp only [Bool.false_eq_true, if_false]
      rw [B.d_hasChild w' hl' ej hj]
      simp only [Option.bind_some]
      cases hjc : j.child with
      | false =>
        simp only [Bool.not_false, if_true]
        exact ⟨_, rfl, Or.inl ⟨_, _, _, _, _, Built.d_leaf w' hl' ej hj hjc a2 hp', hcur⟩⟩
      | true =>
        simp only [Bool.not_true, Bool.false_eq_true, if_false]
        rw [← hcur]
        exact ih _ _ _ _ _ _ (by simp; omega) w' ej hjc a2 hp'
    · rw [h1]
      simp only [if_true]
      refine ⟨_, rfl, Or.inl ⟨_, _, [], z, j :: jq, ⟨w', hl', ej, h3, rfl, ⟨rfl, rfl, rfl⟩, Or.inr ⟨h2, rfl, j, jq, rfl, ?_⟩⟩, hcur⟩⟩
      exact ⟨⟨a2.szp, a2.szl, a2.on, a2.pos, a2.len, a2.key⟩, a2.lev, a2.buf⟩

theorem Built.d_moveLeft (B : Built cfg fp s t0 cut h) {it : DenseIter} (w : Way t0 r t) (hl : r.length < cut) (e : t.items = ip ++ i :: iq) (hi : i.term = false)
    (ha : DAt t0 cut it r t i.label.toNat) (hp : it.atPrefixKey = false) : ∃ it', it.moveLeft s.ld = some it' ∧ DNext t0 cut it' (cur cut r t.bd ip) := by
  unfold DenseIter.moveLeft
  rw [ha.lev, ha.pos]
  simp only [Option.bind_eq_bind, Option.bind_some]
  rw [B.d_hasChild w hl e hi]
  simp only [Option.bind_some]
  cases hc : i.child with
  | false =>
    simp only [Bool.not_false, if_true]
    exact ⟨_, rfl, Or.inl ⟨_, _, _, _, _, Built.d_leaf w hl e hi hc ha hp, rfl⟩⟩
  | true =>
    simp only [Bool.not_true, Bool.false_eq_true, if_false]
    rw [B.ht]
    exact B.d_leftLoop _ r t ip i iq it (by omega) w e hc ha hp

/-- A step of the loop of `Next`: there is a next item. -/
theorem Built.d_nextHere_in (B : Built cfg fp s t0 cut h) {it : DenseIter} (w : Way t0 r t) (hl : r.length < cut) (e : t.items = ip ++ j :: iq) {c : Nat}
    (hj : j.term = false) (hcj : c < j.label.toNat) (hip : ∀ i ∈ ip, i.term = false → i.label.toNat ≤ c) (hp : DPos t0 cut it r t c) :
    DenseIter.nextHere s.ld it.posInTrie r.length = some (some (num t0 r * 256 + j.label.toNat)) := by
  obtain ⟨pre, post, e1, e2, e3, hv, e4⟩ := B.d_at w hl
  have hg := (w.good B.root).toOK
  have hn := hv.next_in e hcj hj hip (fun x hx hxt => (sorted_after hg e x hx).2 hj)
  rw [e2] at hn
  unfold DenseIter.nextHere
  rw [hp.pos]
  simp only [Option.bind_eq_bind, Option.bind_some]
  rw [hn]
  simp only [Option.bind_some]
  have hlt := j.label.toNat_lt
  rw [if_neg]
  · rfl
  · rw [show denseFanout = 256 from rfl]
    omega

/-- A step of the loop of `Next`: there is no next item. -/
theorem Built.d_nextHere_out (B : Built cfg fp s t0 cut h) {it : DenseIter} (w : Way t0 r t) (hl : r.length < cut) {c : Nat} (hc : c < 256)
    (hip : ∀ i ∈ t.items, i.term = false → i.label.toNat ≤ c) (hp : DPos t0 cut it r t c) :
    DenseIter.nextHere s.ld it.posInTrie r.length = some none := by
  obtain ⟨pre, post, e1, e2, e3, hv, e4⟩ := B.d_at w hl
  obtain ⟨q, hn, hq⟩ := hv.next_out hc hip
  rw [e2] at hn hq
  unfold DenseIter.nextHere
  rw [hp.pos]
  simp only [Option.bind_eq_bind, Option.bind_some]
  rw [hn]
  simp only [Option.bind_some]
  rw [show denseFanout = 256 from rfl, if_pos hq]
  rfl

theorem Built.d_nextLoop (B : Built cfg fp s t0 cut h) {it : DenseIter} : ∀ (r : List Frame) (t : Grp) (ip iq : List Item) (c : Nat), Way t0 r t → r.length < cut → t.items = ip ++ iq → c < 256 →
    (∀ i ∈ ip, i.term = false → i.label.toNat ≤ c) → (∀ i ∈ iq, i.term = false ∧ c < i.label.toNat) → DPos t0 cut it r t c →
    (DenseIter.nextLoop s.ld it.posInTrie r.length = some none ∧ (cur cut r t.bd ip).1 = t0.kvs) ∨
    ∃ r' t' ip' j iq' c', DenseIter.nextLoop s.ld it.posInTrie r.length = some (some (r'.length, num t0 r' * 256 + j.label.toNat)) ∧ Way t0 r' t' ∧ r'.length < cut ∧ t'.items = ip' ++ j :: iq' ∧
      j.term = false ∧ cur cut r' t'.bd ip' = cur cut r t.bd ip ∧ DPos t0 cut it r' t' c' := by
  intro r
  induction r with
  | nil =>
    intro t ip iq c w hl e hc hip hiq hp
    rw [List.length_nil, DenseIter.nextLoop]
    cases iq with
    | nil =>
      left
      rw [show (0 : Nat) = ([] : List Frame).length from rfl, B.d_nextHere_out w hl hc (by rw [e, List.append_nil]; exact hip) hp]
      refine ⟨rfl, ?_⟩
      cases w
      rw [List.append_nil] at e
      show before [] ++ _ = _
      rw [← e, Grp.items_flat]
      rfl
    | cons j iq =>
      right
      obtain ⟨hj, hcj⟩ := hiq j (by simp)
      rw [show (0 : Nat) = ([] : List Frame).length from rfl, B.d_nextHere_in w hl e hj hcj hip hp]
      exact ⟨[], t, ip, j, iq, c, rfl, w, hl, e, hj, rfl, hp⟩
  | cons f r ih =>
    intro t ip iq c w hl e hc hip hiq hp
    rw [List.length_cons, DenseIter.nextLoop]
    cases iq with
    | nil =>
      rw [show r.length + 1 = (f :: r).length from rfl, B.d_nextHere_out w hl hc (by rw [e, List.append_nil]; exact hip) hp]
      simp only [Option.bind_eq_bind, Option.bind_some]
      cases w with
      | cons w ef hcf =>
        rw [List.append_nil] at e
        rw [List.length_cons] at hl
        have hu := cur_up (cut := cut) (r := r) (f := f) hl hcf
        rw [e] at hu
        rw [hu]
        have hg := (w.good B.root).toOK
        have hft := child_nonterm hg (by rw [ef]; simp) hcf
        refine ih f.t (f.ip ++ [f.i]) f.iq f.i.label.toNat w (by omega) (by rw [ef]; simp) f.i.label.toNat_lt ?_ ?_ (hp.up w)
        · intro x hx hxt
          rw [List.mem_append, List.mem_singleton] at hx
          rcases hx with hx | rfl
          · exact Nat.le_of_lt (sorted_before hg ef x hx hxt)
          · exact Nat.le_refl _
        · intro x hx
          have := sorted_after hg ef x hx
          exact ⟨this.1, this.2 hft⟩
    | cons j iq =>
      right
      obtain ⟨hj, hcj⟩ := hiq j (by simp)
      rw [show r.length + 1 = (f :: r).length from rfl, B.d_nextHere_in w hl e hj hcj hip hp]
      exact ⟨f :: r, t, ip, j, iq, c, rfl, w, hl, e, hj, rfl, hp⟩

/-- `Next`, from a place between the items of a node. -/
theorem Built.d_next (B : Built cfg fp s t0 cut h) {it : DenseIter} {c : Nat} (w : Way t0 r t) (hl : r.length < cut) (e : t.items = ip ++ iq) (hc : c < 256)
    (hip : ∀ i ∈ ip, i.term = false → i.label.toNat ≤ c) (hiq : ∀ i ∈ iq, i.term = false ∧ c < i.label.toNat) (hp : DPos t0 cut it r t c) (hlev : it.level = r.length) (hk : it.atPrefixKey = false) :
    ∃ it', it.next s.ld = some it' ∧ DNext t0 cut it' (cur cut r t.bd ip) := by
  unfold DenseIter.next
  rw [B.ht, if_neg (by omega), hk, hlev]
  simp only [Bool.false_eq_true, if_false, Option.bind_eq_bind]
  rcases B.d_nextLoop r t ip iq c w hl e hc hip hiq hp with ⟨h1, h2⟩ | ⟨r', t', ip', j, iq', c', h1, w', hl', e', hj, hcur, hp'⟩
  · rw [h1]
    exact ⟨_, rfl, Or.inr (Or.inr ⟨⟨rfl, hp.szp, hp.szl⟩, h2⟩)⟩
  · rw [h1]
    simp only [Option.bind_some]
    obtain ⟨it', a1, a2, a3⟩ := Built.d_setAt hl' (it := { it with level := r'.length }) (t := t') (c := c') (c' := j.label.toNat) ⟨hp'.szp, hp'.szl, hp'.on, hp'.pos, hp'.len, hp'.key⟩ rfl j.label.toNat_lt
    simp only [hk] at a1 a3
    rw [a1, ← hcur]
    exact B.d_moveLeft w' hl' e' hj a2 a3

/-- `Next`, from a leaf. -/
theorem Built.d_next_leaf (B : Built cfg fp s t0 cut h) {it : DenseIter} (hd : DLeaf t0 cut it r t ip i iq) :
    ∃ it', it.next s.ld = some it' ∧ DNext t0 cut it' (cur cut r t.bd (ip ++ [i])) := by
  have hg := (hd.way.good B.root).toOK
  rcases hd.place with ⟨h1, h2, h3⟩ | ⟨h1, h2, j, iq', h3, h4⟩
  · refine B.d_next hd.way hd.lt (iq := iq) (by rw [hd.items]; simp) i.label.toNat_lt ?_ ?_ h3.toDPos h3.lev h2
    · intro x hx hxt
      rw [List.mem_append, List.mem_singleton] at hx
      rcases hx with hx | rfl
      · exact Nat.le_of_lt (sorted_before hg hd.items x hx hxt)
      · exact Nat.le_refl _
    · intro x hx
      have := sorted_after hg hd.items x hx
      exact ⟨this.1, this.2 h1⟩
  · have hcut := hd.lt
    unfold DenseIter.next
    rw [B.ht, if_neg (by omega), h2]
    simp only [if_true]
    have hei := hd.items
    rw [h3] at hei
    exact B.d_moveLeft hd.way hd.lt (ip := ip ++ [i]) (i := j) (iq := iq') (by rw [hei]; simp) (sorted_after hg hei j (by simp)).1
      ⟨⟨h4.szp, h4.szl, h4.on, h4.pos, h4.len, h4.key⟩, h4.lev, h4.buf⟩ rfl

theorem cur_send {R : List Frame} {T : Grp} {it : DenseIter} {sc l rc : Bool} (hd : DSend t0 cut it R T sc l rc) (hc : 0 < cut) :
    ∃ f r, R = f :: r ∧ T = f.child ∧ Way t0 r f.t ∧ f.t.items = f.ip ++ f.i :: f.iq ∧ f.i.child = true ∧ r.length + 1 = cut := by
  have hlen := hd.len
  cases hd.way with
  | nil => simp at hlen; omega
  | cons w e hcf =>
    rename_i r f
    exact ⟨f, r, rfl, rfl, w, e, hcf, by simpa using hlen⟩

/-- `Next`, from a node of the sparse part. -/
theorem Built.d_next_send (B : Built cfg fp s t0 cut h) {it : DenseIter} {R : List Frame} {T : Grp} {sc l rc : Bool} (hd : DSend t0 cut it R T sc l rc) (hc : 0 < cut) :
    ∃ it', it.next s.ld = some it' ∧ DNext t0 cut it' (before R ++ T.kvs, left R ++ [T]) := by
  obtain ⟨f, r, rfl, rfl, w, e, hcf, hlen⟩ := cur_send hd hc
  have hg := (w.good B.root).toOK
  have hft := child_nonterm hg (by rw [e]; simp) hcf
  obtain ⟨o1, o2, o3⟩ := hd.on
  rw [← cur_out (cut := cut) (by omega) hcf]
  refine B.d_next w (by omega) (iq := f.iq) (by rw [e]; simp) f.i.label.toNat_lt ?_ ?_ ⟨hd.szp, hd.szl, o1, o2, ?_, ?_⟩ ?_ hd.pref
  · intro x hx hxt
    rw [List.mem_append, List.mem_singleton] at hx
    rcases hx with hx | rfl
    · exact Nat.le_of_lt (sorted_before hg e x hx hxt)
    · exact Nat.le_refl _
  · intro x hx
    have := sorted_after hg e x hx
    exact ⟨this.1, this.2 hft⟩
  · rw [o3]
    simp [str]
    omega
  · rw [hd.buf]
    simp [str]
  · rw [hd.lev hc]
    omega

/-! ### Prev -/

/-- Where the iterator is after a move to the left: on the last leaf before the place `P`, or behind a node of the sparse part. -/
def DPrev (t0 : Grp) (cut : Nat) (it : DenseIter) (P : List KV × List Grp) : Prop :=
  (∃ r t ip i iq, DLeaf t0 cut it r t ip i iq ∧ cur cut r t.bd (ip ++ [i]) = P) ∨
  (∃ R T, DSend t0 cut it R T true true false ∧ 0 < cut ∧ (before R ++ T.kvs, left R ++ [T]) = P)

theorem Built.d_rightLoop (B : Built cfg fp s t0 cut h) : ∀ (n : Nat) (r : List Frame) (t : Grp) (ip : List Item) (i : Item) (iq : List Item) (it : DenseIter), r.length + n + 1 = cut → Way t0 r t →
    t.items = ip ++ i :: iq → i.child = true → DAt t0 cut it r t i.label.toNat → it.atPrefixKey = false →
    ∃ it', DenseIter.rightLoop s.ld n it (num t0 r * 256 + i.label.toNat) = some it' ∧ DPrev t0 cut it' (cur cut r t.bd (ip ++ [i])) := by
  intro n
  induction n with
  | zero =>
    intro r t ip i iq it hn w e hc ha hp
    have hd := ha.down (ip := ip) (iq := iq)
    have w' := w.down e hc
    rw [DenseIter.rightLoop, B.d_child w (by omega) e hc]
    refine ⟨_, rfl, Or.inr (⟨_, _, ⟨w', by simp; omega, ha.szp, ha.szl, rfl, ⟨rfl, rfl, rfl⟩, hd.1, fun _ => ?_, rfl, ?_, hd.2, hp⟩, by omega, ?_⟩)⟩
    · show it.level = _
      rw [ha.lev]
      omega
    · show it.keyBuf.length = _
      rw [hd.2]
    · exact (cur_out (f := ⟨t, ip, i, iq⟩) (by omega) hc).symm
  | succ n ih =>
    intro r t ip i iq it hn w e hc ha hp
    have hd := ha.down (ip := ip) (iq := iq)
    have w' := w.down e hc
    have hl : r.length < cut := by omega
    have hl' : ((⟨t, ip, i, iq⟩ : Frame) :: r).length < cut := by simp; omega
    have hg := w'.good B.root
    have hcur := cur_up (r := r) (f := ⟨t, ip, i, iq⟩) (cut := cut) (by omega) hc
    obtain ⟨pre, post, e1, e2, e3, hv, e4⟩ := B.d_at w' hl'
    have hpos := num_pos (t0 := t0) ⟨t, ip, i, iq⟩ r
    have htwo := (w'.two B.root).2
    -- the last label
    obtain ⟨jp, j, ej⟩ : ∃ jp j, (⟨i.kvs, t.bd + 1⟩ : Grp).items = jp ++ [j] :=
      ⟨_, _, (List.dropLast_concat_getLast hg.toOK.items_ne).symm⟩
    have hj : j.term = false := by
      rw [ej, List.length_append] at htwo
      cases jp with
      | nil => simp at htwo
      | cons z jp => exact (sorted_after (ip := []) hg.toOK ej j (by simp)).1
    have hjl := j.label.toNat_lt
    have hnx := hv.prev_in ej (c := 256) (Nat.le_refl _) hjl hj (sorted_before hg.toOK ej) (by simp) (by omega)
    rw [e2] at hnx
    obtain ⟨it', a1, a2, a3⟩ := B.d_append w' hl' (it := { it with level := it.level + 1 }) ha.szp ha.szl hd.1 (by simp [ha.lev]) hd.2 (c := j.label.toNat) j.label.toNat_lt
    rw [DenseIter.rightLoop, B.d_child w hl e hc]
    simp only [Option.bind_eq_bind, Option.bind_some, show denseFanout = 256 from rfl, Nat.add_mul, Nat.one_mul]
    rw [hnx]
    simp only [Option.bind_some, Bool.false_eq_true, if_false]
    rw [a1]
    simp only [Option.bind_some]
    have hp' : it'.atPrefixKey = false := a3.trans hp
    rw [B.d_hasChild w' hl' ej hj]
    simp only [Option.bind_some]
    have hcur' : cur cut (⟨t, ip, i, iq⟩ :: r) (⟨i.kvs, t.bd + 1⟩ : Grp).bd (jp ++ [j]) = cur cut r t.bd (ip ++ [i]) := by
      rw [← ej]
      exact hcur
    cases hjc : j.child with
    | false =>
      simp only [Bool.not_false, if_true]
      exact ⟨_, rfl, Or.inl ⟨_, _, _, _, _, Built.d_leaf w' hl' ej hj hjc a2 hp', hcur'⟩⟩
    | true =>
      simp only [Bool.not_true, Bool.false_eq_true, if_false]
      rw [← hcur']
      exact ih _ _ _ _ _ _ (by simp; omega) w' ej hjc a2 hp'

theorem Built.d_moveRight (B : Built cfg fp s t0 cut h) {it : DenseIter} (w : Way t0 r t) (hl : r.length < cut) (e : t.items = ip ++ i :: iq) (hi : i.term = false)
    (ha : DAt t0 cut it r t i.label.toNat) (hp : it.atPrefixKey = false) : ∃ it', it.moveRight s.ld = some it' ∧ DPrev t0 cut it' (cur cut r t.bd (ip ++ [i])) := by
  unfold DenseIter.moveRight
  rw [ha.lev, ha.pos]
  simp only [Option.bind_eq_bind, Option.bind_some]
  rw [B.d_hasChild w hl e hi]
  simp only [Option.bind_some]
  cases hc : i.child with
  | false =>
    simp only [Bool.not_false, if_true]
    exact ⟨_, rfl, Or.inl ⟨_, _, _, _, _, Built.d_leaf w hl e hi hc ha hp, rfl⟩⟩
  | true =>
    simp only [Bool.not_true, Bool.false_eq_true, if_false]
    rw [B.ht]
    exact B.d_rightLoop _ r t ip i iq it (by omega) w e hc ha hp

/-- An item with a label other than 0. -/
def Item.plain (i : Item) : Prop := i.term = false ∧ i.label.toNat ≠ 0

/-- The root has a label other than 0. -/
def Lit (t0 : Grp) : Prop := ∃ i ∈ t0.items, i.plain

/-- Where `Prev` gives up though there may be pairs: before the items `ip` of the node at the end of `r`. -/
def Blind (t0 : Grp) (r : List Frame) (ip : List Item) : Prop := (r = [] ∧ ∀ x ∈ ip, ¬ x.plain) ∨ (∃ f, r = [f] ∧ ¬ Lit t0 ∧ ∀ x ∈ ip, x.term = true)

theorem num_lt {f : Frame} (w : Way t0 r f.t) : num t0 r < num t0 (f :: r) := by
  obtain ⟨b, e⟩ := w.desc
  unfold num nid
  rw [List.length_cons, nodesIn_succ, Nat.zero_add, e]
  simp only [List.length_append, List.length_cons]
  omega

theorem Built.d_prevHere (B : Built cfg fp s t0 cut h) {it : DenseIter} (w : Way t0 r t) (hl : r.length < cut) (e : t.items = ip ++ j :: iq) (hj : j.term = false) (hp : DPos t0 cut it r t j.label.toNat) :
    (∃ ip' i, ip = ip' ++ [i] ∧ i.term = false ∧ (r = [] → i.plain) ∧ DenseIter.prevHere s.ld it.posInTrie r.length = some (some (.found r.length (num t0 r * 256 + i.label.toNat)))) ∨
    (Blind t0 r ip ∧ DenseIter.prevHere s.ld it.posInTrie r.length = some (some (.out r.length))) ∨
    (∃ z, ip = [z] ∧ z.term = true ∧ r ≠ [] ∧ (∀ f, r = [f] → Lit t0) ∧ DenseIter.prevHere s.ld it.posInTrie r.length = some (some (.atPrefix r.length))) ∨
    (r ≠ [] ∧ ip = [] ∧ DenseIter.prevHere s.ld it.posInTrie r.length = some none) := by
  have hg := w.good B.root
  have hb := sorted_before hg.toOK e
  have ha := sorted_after hg.toOK e
  obtain ⟨pre, post, e1, e2, e3, hv, e4⟩ := B.d_at w hl
  unfold DenseIter.prevHere
  rw [hp.pos]
  simp only [Option.bind_eq_bind, Option.bind_some]
  -- is there a label before?
  have hip : (∃ ip' i, ip = ip' ++ [i] ∧ i.term = false) ∨ (ip = [] ∧ t.hasEnd = false) ∨ (∃ z, ip = [z] ∧ z.term = true ∧ t.hasEnd = true) := by
    rcases hg.toOK.endItem_cases with ⟨h1, -⟩ | ⟨h1, z, js, h2, h3, h4, -⟩
    · rcases List.eq_nil_or_concat ip with rfl | ⟨ip', i, rfl⟩
      · exact Or.inr (Or.inl ⟨rfl, h1⟩)
      · exact Or.inl ⟨ip', i, by simp, hasEnd_false h1 i (by rw [e]; simp)⟩
    · cases ip with
      | nil =>
        rw [h2] at e
        simp only [List.nil_append, List.cons.injEq] at e
        rw [e.1, hj] at h3
        simp at h3
      | cons z' ip =>
        rcases List.eq_nil_or_concat ip with rfl | ⟨ip', i, rfl⟩
        · rw [h2] at e
          simp only [List.singleton_append, List.cons.injEq] at e
          exact Or.inr (Or.inr ⟨z', rfl, by rw [← e.1]; exact h3, h1⟩)
        · exact Or.inl ⟨z' :: ip', i, by simp, (sorted_after (ip := []) (j := z') hg.toOK e i (by simp)).1⟩
  have hlo : (∀ x ∈ ip, x.term = true) → ∀ x ∈ t.items, x.term = false → j.label.toNat ≤ x.label.toNat := by
    intro hterm x hx hxt
    rw [e, List.mem_append, List.mem_cons] at hx
    rcases hx with hx | rfl | hx
    · rw [hterm x hx] at hxt
      simp at hxt
    · exact Nat.le_refl _
    · exact Nat.le_of_lt ((ha x hx).2 hj)
  have hlen : num t0 r * 256 + j.label.toNat ≤ (pre ++ t :: post).length * 256 := by
    have := j.label.toNat_lt
    rw [List.length_append, List.length_cons, ← e2]
    omega
  rcases hip with ⟨ip', i, rfl, hi⟩ | hip
  · have hlt := hb i (by simp) hi
    have hjl := j.label.toNat_lt
    have he' : t.items = ip' ++ i :: (j :: iq) := by rw [e]; simp
    by_cases hne : 0 < num t0 r * 256 + i.label.toNat
    · left
      refine ⟨ip', i, rfl, hi, ?_, ?_⟩
      · rintro rfl
        have hn0 : num t0 [] = 0 := rfl
        exact ⟨hi, by omega⟩
      have hprev := hv.prev_in he' (c := j.label.toNat) (by omega) hlt hi (sorted_before hg.toOK he') (by
        intro x hx hxt
        rw [List.mem_cons] at hx
        rcases hx with rfl | hx
        · exact Nat.le_refl _
        · exact Nat.le_of_lt ((ha x hx).2 hj)) (by rw [e2]; exact hne)
      rw [e2] at hprev
      rw [hprev]
      simp only [Option.bind_some, Bool.false_eq_true, if_false]
      rw [if_neg]
      · rfl
      · rw [show denseFanout = 256 from rfl]
        omega
    · right; left
      have hn0 : num t0 r = 0 := by omega
      have hr : r = [] := by
        cases r with
        | nil => rfl
        | cons f r => have := num_pos (t0 := t0) f r; omega
      subst hr
      cases w
      have hb' := sorted_before hg.toOK he'
      refine ⟨.inl ⟨rfl, ?_⟩, ?_⟩
      · rintro x hx ⟨h1, h2⟩
        rw [List.mem_append, List.mem_singleton] at hx
        rcases hx with hx | rfl
        · have := hb' x hx h1
          omega
        · omega
      · have hpre : pre = [] := by rw [e4]; rfl
        subst hpre
        rw [hv.prev_zero hlen (fun p h1 h2 => ?_)]
        · rfl
        rw [hn0] at h2
        have := lab_false [] post (t := t0) (c := p) (by omega) (fun x hx hxt => by
          rw [he', List.mem_append, List.mem_cons, List.mem_cons] at hx
          rcases hx with hx | rfl | rfl | hx
          · have := hb' x hx hxt; omega
          · omega
          · omega
          · have := (ha x hx).2 hj; omega)
        rw [List.length_nil, Nat.zero_mul, Nat.zero_add] at this
        rw [this]
        simp
  · right
    have hterm : ∀ x ∈ ip, x.term = true := by
      rcases hip with ⟨rfl, -⟩ | ⟨z, rfl, h1, -⟩
      · simp
      · simp [h1]
    have hlo := hlo hterm
    have hjl := j.label.toNat_lt
    cases r with
    | nil =>
      left
      cases w
      have : pre = [] := by rw [e4]; rfl
      subst this
      obtain ⟨pp, hpp⟩ := DView.prev_root (t := t0) (post := post) hv hjl hlo
      have hn0 : num t0 [] = 0 := rfl
      rw [hn0, Nat.zero_mul, Nat.zero_add, hpp]
      refine ⟨.inl ⟨rfl, fun x hx h1 => ?_⟩, rfl⟩
      have h2 := h1.1
      rw [hterm x hx] at h2
      simp at h2
    | cons f r =>
      have hnp := num_pos (t0 := t0) f r
      -- labels of other nodes
      have hother : ∀ {r' : List Frame} {t' : Grp} {y : Item}, Way t0 r' t' → r'.length < cut → y ∈ t'.items → y.term = false →
          ((pre ++ t :: post).flatMap fun t => mapBits (fun _ => true) t.items)[num t0 r' * 256 + y.label.toNat]? = some true := by
        intro r' t' y w' hl' hy hyt
        obtain ⟨pre', post', e1', e2', -, -, -⟩ := B.d_at w' hl'
        have := lab_true pre' post' hy hyt
        rwa [← e1', e1, e2'] at this
      by_cases hq : ∃ q, 0 < q ∧ q < num t0 (f :: r) * 256 ∧ ((pre ++ t :: post).flatMap fun t => mapBits (fun _ => true) t.items)[q]? = some true
      · right
        obtain ⟨q, q1, q2, q3⟩ := hq
        obtain ⟨pp, hpp, hpd⟩ := hv.prev_out hjl hlo q1 (by rw [e2]; exact q2) q3
        rw [e2] at hpp hpd
        rw [hpp]
        simp only [Option.bind_some, Bool.false_eq_true, if_false, show denseFanout = 256 from rfl]
        rw [show (num t0 (f :: r) * 256 + j.label.toNat) / 256 = num t0 (f :: r) by omega, if_pos hpd, B.d_end w hl]
        simp only [Option.bind_some]
        rcases hip with ⟨rfl, h2⟩ | ⟨z, rfl, h1, h2⟩
        · right
          rw [h2]
          exact ⟨by simp, rfl, rfl⟩
        · left
          rw [h2]
          refine ⟨z, rfl, h1, by simp, ?_, rfl⟩
          intro f' hf
          cases hf
          -- the bit found is one of the root
          by_contra hlit
          cases w with
          | cons w' ef hcf =>
            cases w'
            have hone : num f.t [f] = 1 := by
              unfold num nid left
              have hk : kids f.t.bd f.ip = [] := by
                unfold kids
                rw [List.map_eq_nil_iff, List.filter_eq_nil_iff]
                intro x hx hxc
                apply hlit
                refine ⟨f.i, by rw [ef]; simp, child_nonterm B.root.toOK (by rw [ef]; simp) hcf, ?_⟩
                have := sorted_before B.root.toOK ef x hx (child_nonterm B.root.toOK (by rw [ef]; simp [hx]) hxc)
                omega
              rw [hk]
              simp [left, nodesIn, Grp.desc]
            rw [hone] at q2
            obtain ⟨pre', post', e1', e2', -, -, e4'⟩ := B.d_at (Way.nil (t0 := f.t)) (by simp at hl ⊢; omega)
            have hpre' : pre' = [] := by rw [e4']; rfl
            rw [← e1, e1', hpre'] at q3
            have := lab_false [] post' (t := f.t) (c := q) (by omega) (fun x hx hxt h0 => hlit ⟨x, hx, hxt, by omega⟩)
            rw [List.length_nil, Nat.zero_mul, Nat.zero_add] at this
            rw [this] at q3
            simp at q3
      · left
        have hzero := hv.prev_zero hlen (fun p h1 h2 => by
          intro hp1
          by_cases h3 : p < num t0 (f :: r) * 256
          · exact hq ⟨p, h1, h3, hp1⟩
          · have := lab_false pre post (t := t) (c := p - num t0 (f :: r) * 256) (by omega) (fun x hx hxt => by
              have := hlo x hx hxt
              omega)
            have hpe : num t0 (f :: r) * 256 + (p - num t0 (f :: r) * 256) = p := by omega
            rw [e2, hpe, hp1] at this
            simp at this)
        rw [hzero]
        refine ⟨.inr ?_, rfl⟩
        cases w with
        | cons w' ef hcf =>
          have hft := child_nonterm (w'.good B.root).toOK (by rw [ef]; simp) hcf
          have hl' : r.length < cut := by simp at hl; omega
          have hlt := num_lt w'
          cases r with
          | nil =>
            refine ⟨f, rfl, ?_, hterm⟩
            rintro ⟨y, hy, hy1, hy2⟩
            have hyl := y.label.toNat_lt
            have hn0 : num t0 [] = 0 := rfl
            exact hq ⟨_, by omega, by omega, hother (Way.nil (t0 := t0)) hl' hy hy1⟩
          | cons f' r =>
            exfalso
            have := num_pos (t0 := t0) f' r
            have hyl := f.i.label.toNat_lt
            exact hq ⟨_, by omega, by omega, hother w' hl' (y := f.i) (by rw [ef]; simp) hft⟩

theorem Built.d_prevLoop (B : Built cfg fp s t0 cut h) {it : DenseIter} : ∀ (r : List Frame) (t : Grp) (ip : List Item) (j : Item) (iq : List Item), Way t0 r t → r.length < cut → t.items = ip ++ j :: iq →
    j.term = false → DPos t0 cut it r t j.label.toNat →
    (∃ lev r' t' ip' j' iq', DenseIter.prevLoop s.ld it.posInTrie r.length = some (.out lev) ∧ Way t0 r' t' ∧ r'.length < cut ∧ t'.items = ip' ++ j' :: iq' ∧ Blind t0 r' ip' ∧ cur cut r' t'.bd ip' = cur cut r t.bd ip) ∨
    (∃ r' t' z j' iq', DenseIter.prevLoop s.ld it.posInTrie r.length = some (.atPrefix r'.length) ∧ Way t0 r' t' ∧ r'.length < cut ∧ t'.items = z :: j' :: iq' ∧ z.term = true ∧ r' ≠ [] ∧ (∀ f, r' = [f] → Lit t0) ∧
      cur cut r' t'.bd [z] = cur cut r t.bd ip ∧ DPos t0 cut it r' t' j'.label.toNat) ∨
    (∃ r' t' ip' i' j' iq' c', DenseIter.prevLoop s.ld it.posInTrie r.length = some (.found r'.length (num t0 r' * 256 + i'.label.toNat)) ∧ Way t0 r' t' ∧ r'.length < cut ∧ t'.items = ip' ++ i' :: j' :: iq' ∧
      i'.term = false ∧ (r' = [] → i'.plain) ∧ cur cut r' t'.bd (ip' ++ [i']) = cur cut r t.bd ip ∧ DPos t0 cut it r' t' c') := by
  intro r
  induction r with
  | nil =>
    intro t ip j iq w hl e hj hp
    rw [List.length_nil, DenseIter.prevLoop]
    rcases B.d_prevHere w hl e hj hp with ⟨ip', i, rfl, hi, hpl, h1⟩ | ⟨hbl, h1⟩ | ⟨z, rfl, hzt, h0, -⟩ | ⟨h0, -⟩
    · rw [List.length_nil] at h1
      rw [h1]
      exact Or.inr (Or.inr ⟨[], t, ip', i, j, iq, _, rfl, w, hl, by rw [e]; simp, hi, hpl, rfl, hp⟩)
    · rw [List.length_nil] at h1
      rw [h1]
      exact Or.inl ⟨0, [], t, ip, j, iq, rfl, w, hl, e, hbl, rfl⟩
    · exact absurd rfl h0
    · exact absurd rfl h0
  | cons f r ih =>
    intro t ip j iq w hl e hj hp
    rw [List.length_cons, DenseIter.prevLoop]
    rcases B.d_prevHere w hl e hj hp with ⟨ip', i, rfl, hi, hpl, h1⟩ | ⟨hbl, h1⟩ | ⟨z, rfl, hzt, h0, hlit, h1⟩ | ⟨-, rfl, h1⟩
    · rw [List.length_cons] at h1
      rw [h1]
      exact Or.inr (Or.inr ⟨f :: r, t, ip', i, j, iq, _, rfl, w, hl, by rw [e]; simp, hi, hpl, rfl, hp⟩)
    · rw [List.length_cons] at h1
      rw [h1]
      exact Or.inl ⟨_, f :: r, t, ip, j, iq, rfl, w, hl, e, hbl, rfl⟩
    · rw [List.length_cons] at h1
      rw [h1]
      exact Or.inr (Or.inl ⟨f :: r, t, z, j, iq, rfl, w, hl, e, hzt, h0, hlit, rfl, hp⟩)
    · rw [List.length_cons] at h1
      rw [h1]
      simp only [Option.bind_eq_bind, Option.bind_some]
      cases w with
      | cons w ef hcf =>
        rw [List.length_cons] at hl
        rw [cur_down hl]
        have hg := (w.good B.root).toOK
        exact ih f.t f.ip f.i f.iq w (by omega) ef (child_nonterm hg (by rw [ef]; simp) hcf) (hp.up w)

/-- What `Prev` of the dense iterator does at a place `P`: it goes to the item `i'` before it, or it gives up. -/
def DBack (t0 : Grp) (cut : Nat) (it : DenseIter) (P : List KV × List Grp) : Prop :=
  (DPrev t0 cut it P ∧ ∃ r' t' ip' i' j' iq', Way t0 r' t' ∧ t'.items = ip' ++ i' :: j' :: iq' ∧ (r' = [] → i'.plain) ∧ (∀ f, r' = [f] → i'.term = true → Lit t0) ∧ cur cut r' t'.bd (ip' ++ [i']) = P) ∨
  ((it.valid = false ∧ it.posInTrie.length = cut ∧ it.prefixLen.length = cut) ∧ ∃ r' t' ip' j' iq', Way t0 r' t' ∧ r'.length < cut ∧ t'.items = ip' ++ j' :: iq' ∧ Blind t0 r' ip' ∧ cur cut r' t'.bd ip' = P)

/-- `Prev`, from an item. -/
theorem Built.d_prev (B : Built cfg fp s t0 cut h) {it : DenseIter} (w : Way t0 r t) (hl : r.length < cut) (e : t.items = ip ++ j :: iq) (hj : j.term = false)
    (hp : DPos t0 cut it r t j.label.toNat) (hlev : (if it.atPrefixKey then dec32 it.level else it.level) = r.length) :
    ∃ it', it.prev s.ld = some it' ∧ DBack t0 cut it' (cur cut r t.bd ip) := by
  unfold DenseIter.prev
  rw [B.ht, if_neg (by omega)]
  obtain ⟨it0, e0, p1, p2, p3, p4, p5⟩ : ∃ it0 : DenseIter, (if it.atPrefixKey then { it with atPrefixKey := false, level := dec32 it.level } else it) = it0 ∧ it0.posInTrie = it.posInTrie ∧
      it0.prefixLen = it.prefixLen ∧ it0.keyBuf = it.keyBuf ∧ it0.level = r.length ∧ it0.atPrefixKey = false := by
    cases hpk : it.atPrefixKey with
    | true =>
      rw [hpk, if_pos rfl] at hlev
      exact ⟨_, rfl, rfl, rfl, rfl, hlev, rfl⟩
    | false =>
      rw [hpk, if_neg (by simp)] at hlev
      exact ⟨_, rfl, rfl, rfl, rfl, hlev, hpk⟩
  simp only [e0, p4, Option.bind_eq_bind]
  have hp0 : ∀ {r' : List Frame} {t' : Grp} {c' : Nat}, DPos t0 cut it r' t' c' → DPos t0 cut it0 r' t' c' := fun hp => ⟨p1 ▸ hp.szp, p2 ▸ hp.szl, by rw [p1, p2]; exact hp.on, by rw [p1]; exact hp.pos, by rw [p2]; exact hp.len, by rw [p3]; exact hp.key⟩
  rcases B.d_prevLoop r t ip j iq w hl e hj (hp0 hp) with ⟨lev, r', t', ip', j', iq', h1, h2⟩ | ⟨r', t', z, j', iq', h1, w', hl', e', hzt, hr0, hlit, hcur, hp'⟩ | ⟨r', t', ip', i', j', iq', c', h1, w', hl', e', hi', hpl, hcur, hp'⟩
  · rw [h1]
    exact ⟨_, rfl, Or.inr ⟨⟨rfl, (congrArg _ p1).trans hp.szp, (congrArg _ p2).trans hp.szl⟩, r', t', ip', j', iq', h2⟩⟩
  · rw [h1]
    simp only [Option.bind_some]
    unfold DenseIter.truncate cutTo
    have hkl := hp'.key.length_le
    rw [List.length_append, List.length_singleton] at hkl
    simp only [hp'.len, Option.bind_eq_bind, Option.bind_some, if_pos hkl, Option.pure_def]
    refine ⟨_, rfl, Or.inl ⟨Or.inl ⟨r', t', [], z, j' :: iq', ⟨w', hl', e', (w'.good B.root).toOK.term_leaf (by rw [e']; simp) hzt, rfl, ⟨rfl, rfl, rfl⟩, Or.inr ⟨hzt, rfl, j', iq', rfl, ?_⟩⟩, hcur⟩,
      r', t', [], z, j', iq', w', e', fun h0 => absurd h0 hr0, fun f h0 _ => hlit f h0, hcur⟩⟩
    have hk := List.prefix_iff_eq_take.mp hp'.key
    rw [List.length_append, List.length_singleton] at hk
    refine ⟨⟨hp'.szp, hp'.szl, hp'.on, hp'.pos, hp'.len, ?_⟩, rfl, hk.symm⟩
    show _ <+: it0.keyBuf.take _
    rw [← hk]
    exact List.prefix_rfl
  · rw [h1]
    simp only [Option.bind_some]
    obtain ⟨it', a1, a2, a3⟩ := Built.d_setAt hl' (it := { it0 with level := r'.length }) (t := t') (c := c') (c' := i'.label.toNat) ⟨hp'.szp, hp'.szl, hp'.on, hp'.pos, hp'.len, hp'.key⟩ rfl i'.label.toNat_lt
    rw [a1, ← hcur]
    obtain ⟨it'', b1, b2⟩ := B.d_moveRight w' hl' e' hi' a2 (a3.trans p5)
    exact ⟨it'', b1, Or.inl ⟨b2, r', t', ip', i', j', iq', w', e', hpl, fun f _ h0 => by rw [hi'] at h0; simp at h0, rfl⟩⟩

/-- `Prev`, from a leaf other than the end of the root. -/
theorem Built.d_prev_leaf (B : Built cfg fp s t0 cut h) {it : DenseIter} (hd : DLeaf t0 cut it r t ip i iq) (hne : r = [] → i.term = false) :
    ∃ it', it.prev s.ld = some it' ∧ DBack t0 cut it' (cur cut r t.bd ip) := by
  have hg := (hd.way.good B.root).toOK
  rcases hd.place with ⟨h1, h2, h3⟩ | ⟨h1, h2, j, iq', h3, h4⟩
  · exact B.d_prev hd.way hd.lt hd.items h1 h3.toDPos (by rw [h2]; exact h3.lev)
  · have hip : ip = [] := by
      cases ip with
      | nil => rfl
      | cons z ip =>
        have := (sorted_after (ip := []) (j := z) hg hd.items i (by simp)).1
        rw [h1] at this
        simp at this
    subst hip
    have hlt := hd.lt
    have hitems := hd.items
    cases hd.way with
    | nil =>
      have := hne rfl
      rw [h1] at this
      simp at this
    | cons w ef hcf =>
      rename_i r f
      rw [List.length_cons] at hlt
      rw [cur_down hlt]
      have hg' := (w.good B.root).toOK
      refine B.d_prev w (by omega) ef (child_nonterm hg' (by rw [ef]; simp) hcf) (h4.toDPos.up w) ?_
      rw [h2, if_pos rfl, h4.lev, dec32, if_neg (by simp)]
      simp

theorem prevLoop_out (ld : LoudsDense) (ps : List Nat) (n : Nat) (hn : ps.length ≤ n) : DenseIter.prevLoop ld ps n = none := by
  have : DenseIter.prevHere ld ps n = none := by
    unfold DenseIter.prevHere
    rw [List.getElem?_eq_none hn]
    rfl
  cases n with
  | zero => rw [DenseIter.prevLoop, this]; rfl
  | succ n => rw [DenseIter.prevLoop, this]; rfl

/-- `Prev`, from the end of the root, panics: the level wraps around. -/
theorem Built.d_prev_end (B : Built cfg fp s t0 cut h) {it : DenseIter} (hd : DLeaf t0 cut it [] t ip i iq) (hi : i.term = true) (hcut : cut < 2 ^ 32) : it.prev s.ld = none := by
  rcases hd.place with ⟨h1, -⟩ | ⟨-, h2, j, iq', h3, h4⟩
  · rw [hi] at h1
    simp at h1
  · unfold DenseIter.prev
    have := hd.lt
    rw [List.length_nil] at this
    have hlev : it.level = 0 := h4.lev
    rw [B.ht, if_neg (by omega), h2, hlev]
    simp only [if_true]
    rw [prevLoop_out]
    · rfl
    · have := h4.szp
      rw [dec32, if_pos rfl]
      omega

/-- `Prev`, from a node of the sparse part. -/
theorem Built.d_prev_send (B : Built cfg fp s t0 cut h) {it : DenseIter} {R : List Frame} {T : Grp} {sc l rc : Bool} (hd : DSend t0 cut it R T sc l rc) (hc : 0 < cut) :
    ∃ it', it.prev s.ld = some it' ∧ DBack t0 cut it' (before R, left R) := by
  obtain ⟨f, r, rfl, rfl, w, e, hcf, hlen⟩ := cur_send hd hc
  have hg := (w.good B.root).toOK
  have hft := child_nonterm hg (by rw [e]; simp) hcf
  obtain ⟨o1, o2, o3⟩ := hd.on
  rw [← cur_in (cut := cut) (by omega)]
  refine B.d_prev w (by omega) e hft ⟨hd.szp, hd.szl, o1, o2, ?_, ?_⟩ ?_
  · rw [o3]
    simp [str]
    omega
  · rw [hd.buf, UInt8.ofNat_toNat]
    simp [str]
  · rw [hd.pref, if_neg (by simp), hd.lev hc]
    omega

end

end Surf
