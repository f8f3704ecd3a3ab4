import Verif.Surf.IterWhole

/-!
# Reading from an iterator; its first and last positions
-/

set_option linter.unusedSimpArgs false

namespace Surf

section
variable {cfg : Config} {fp : Bytes → Word} {ld : LoudsDense} {pre post : List Grp} {t : Grp}

/-- The suffix of the end item of a node, at the position of the first label. -/
theorem DView.endPosAt (h : DView cfg fp ld (pre ++ t :: post)) (hp : ∀ x ∈ pre, x.OK) (ht : t.OK) {z j : Item} {iq : List Item} (e : t.items = z :: j :: iq) (hz : z.term = true) (hj : j.term = false) :
    ld.suffixPos (pre.length * 256 + j.label.toNat) true = some (lvs pre).length := by
  have hlt : j.label.toNat < 256 := j.label.toNat_lt
  have hdiv : (pre.length * 256 + j.label.toNat) / denseFanout = pre.length := by
    show _ / 256 = _
    omega
  have he : t.hasEnd = true := by
    unfold Grp.hasEnd
    rw [e]
    simp [hz]
  have hs := ht.items_sorted
  obtain ⟨e', h3⟩ := h.ip
  have hr : ld.isPrefixVec.rankDense pre.length = some (ones (pre.map Grp.hasEnd) + 1) := by
    rw [h3.rankDense (by simp), ones_take_node, he]
    rfl
  have hall := ones_leaf_all pre hp
  have hle := ones_child_le pre hp
  have e2 : t.items = [z] ++ j :: iq := e
  have hlab := h.label j.label.toNat hlt
  have hhc := h.hc.isSet_node j.label.toNat hlt
  have hrl := h.lab.rank_node ht j.label.toNat hlt
  have hrc := h.hc.rank_node ht j.label.toNat hlt
  unfold LoudsDense.suffixPos LoudsDense.leafAt
  simp only [hdiv, Option.bind_eq_bind]
  rw [hrl, hrc, hr, hlab]
  simp only [Option.bind_some]
  have hip : ∀ f : Item → Bool, [z].countP (fun j => f j && !j.term) = 0 := by
    intro f
    simp [hz]
  have c1 := any_label (by rw [← e2]; exact hs) hj (fun _ => true)
  have c2 := any_label (by rw [← e2]; exact hs) hj Item.child
  have d1 := countP_upto (by rw [← e2]; exact hs) hj (fun _ => true)
  have d2 := countP_upto (by rw [← e2]; exact hs) hj Item.child
  rw [hip, ← e2] at d1 d2
  rw [← e2] at c1 c2
  rw [d1, d2]
  simp only [Bool.true_and] at c1
  rw [c1]
  simp only [if_true, Nat.zero_add]
  rw [hhc, c2]
  generalize ones (pre.flatMap fun t => mapBits (fun _ => true) t.items) = A at *
  generalize ones (pre.flatMap fun t => mapBits Item.child t.items) = B at *
  generalize ones (pre.map Grp.hasEnd) = C at *
  cases j.child with
  | true =>
    simp only [if_true, usub]
    rw [if_pos (by omega)]
    simp only [Option.bind_some]
    rw [if_pos (by omega)]
    simp
    omega
  | false =>
    simp only [Bool.false_eq_true, if_false, usub]
    rw [if_pos (by omega)]
    simp only [Option.bind_some]
    rw [if_pos (by omega)]
    simp only [Option.bind_some, Option.pure_def, Bool.not_false, if_true]
    rw [if_pos (by omega)]
    simp
    omega

end

section
variable {cfg : Config} {fp : Bytes → Word} {s : SuRF} {t0 t : Grp} {cut h : Nat} {R r W : List Frame} {ip iq : List Item} {i : Item}

/-! ### Key -/

/-- What is kept of the key of a leaf. -/
theorem Way.leaf_key (B : Built cfg fp s t0 cut h) (hd : t0.d = 0) (w : Way t0 W t) (e : t.items = ip ++ i :: iq) {x : KV} (hx : i.kvs = [x]) :
    x ∈ t.kvs ∧ (i.term = false → str W ++ t.pre ++ [i.label] = x.1.take (t.bd + 1)) ∧ (i.term = true → str W ++ t.pre = x.1 ∧ x.1.length = t.bd) := by
  have hg := w.good B.root
  have hi : i ∈ t.items := by rw [e]; simp
  cases ht : i.term with
  | false =>
    obtain ⟨h1, h2, h3⟩ := item_label hg.toOK hi ht (x := x) (by rw [hx]; simp)
    refine ⟨h1, fun _ => ?_, fun h => absurd h (by simp)⟩
    rw [List.take_add_one, w.str_bd B.root hd h1, h3]
    rfl
  | true =>
    obtain ⟨y, h1, h2, h3⟩ := item_term hg.toOK hi ht
    rw [hx] at h1
    simp only [List.cons.injEq, and_true] at h1
    subst h1
    refine ⟨h2, fun h => absurd h (by simp), fun _ => ⟨?_, h3⟩⟩
    rw [← w.str_bd B.root hd h2, ← h3, List.take_length]

theorem cut_last (a : Bytes) (c : UInt8) : (usub (a ++ [c]).length 1).bind (cutTo (a ++ [c])) = some a := by
  unfold usub cutTo
  rw [if_pos (by simp)]
  simp

theorem DLeaf.key {it : DenseIter} (B : Built cfg fp s t0 cut h) (hd : t0.d = 0) (hl : DLeaf t0 cut it W t ip i iq) {x : KV} (hx : i.kvs = [x]) : it.key = some (x.1.take (t.bd + 1)) := by
  obtain ⟨h1, h2, h3⟩ := hl.way.leaf_key B hd hl.items hx
  unfold DenseIter.key
  rcases hl.place with ⟨a1, a2, a3⟩ | ⟨a1, a2, j, iq', -, a3⟩
  · rw [a2, if_neg (by simp), a3.buf, UInt8.ofNat_toNat, h2 a1]
  · rw [a2, if_pos rfl, a3.buf, cut_last, (h3 a1).1, List.take_of_length_le (by have := (h3 a1).2; omega)]

theorem SLeaf.key {it : SparseIter} (hl : SLeaf t0 cut h it R r t ip i iq) : it.key = some (str r ++ t.pre ++ if i.term then [] else [i.label]) := by
  unfold SparseIter.key
  rw [hl.term, hl.place.buf]
  cases ht : i.term with
  | true => rw [if_pos rfl, cut_last]; simp
  | false => simp

theorem Stand.key {it : Iterator} (B : Built cfg fp s t0 cut h) (hd : t0.d = 0) (hs : Stand t0 cut h it W t ip i iq) {x : KV} (hx : i.kvs = [x]) : it.key = some (x.1.take (t.bd + 1)) := by
  unfold Iterator.key DenseIter.isComplete
  rcases hs with ⟨h1, -⟩ | ⟨R, r, T, sc, l, rc, rfl, h1, hf, -, h2⟩
  · rw [h1.comp.1, h1.comp.2.1, h1.comp.2.2]
    exact h1.key B hd hx
  · rw [h1.comp.1, h1.comp.2.1, h1.comp.2.2, hf]
    have hk : it.d.key = some (str R) := by
      unfold DenseIter.key
      rw [h1.pref, h1.buf]
      rfl
    simp only [Bool.false_eq_true, if_false, hk, h2.key, Option.bind_eq_bind, Option.bind_some, Option.pure_def]
    obtain ⟨a1, a2, a3⟩ := h2.way.leaf_key B hd h2.items hx
    rw [str_append] at a2 a3
    cases ht : i.term with
    | false =>
      rw [← a2 ht]
      simp
    | true =>
      obtain ⟨b1, b2⟩ := a3 ht
      rw [List.take_of_length_le (by omega), ← b1]
      simp

/-! ### Value -/

theorem leafVal_eq {x : KV} {b : Nat} (hx : i.kvs = [x]) : leafVal cfg (b, i) = x.2.take cfg.valueSize := by
  simp [leafVal, leafKV, hx]

theorem Built.d_value (B : Built cfg fp s t0 cut h) {it : DenseIter} (hl : DLeaf t0 cut it W t ip i iq) {x : KV} (hx : i.kvs = [x]) : it.value s.ld = some (x.2.take cfg.valueSize) := by
  obtain ⟨pre, post, e1, e2, e3, hv, -⟩ := B.d_at hl.way hl.lt
  have hg := (hl.way.good B.root).toOK
  obtain ⟨X, Y, f1, f2⟩ := lvs_split (pre := pre) (post := post) hl.items hl.leaf
  have hsp : ∀ p, it.posInTrie[it.level]? = some p → s.ld.suffixPos p it.atPrefixKey = some ((lvs pre).length + leafN ip) → it.value s.ld = some (x.2.take cfg.valueSize) := by
    intro p hp h1
    unfold DenseIter.value
    rw [hp]
    simp only [Option.bind_eq_bind, Option.bind_some]
    rw [h1, ← f2]
    simp only [Option.bind_some]
    rw [B.dv.val]
    have := values_get _ cfg.valueSize (fun v hv => B.leafVal_length hv) (X.map (leafVal cfg)) (Y.map (leafVal cfg)) (leafVal cfg (t.bd, i)) (by rw [e1, f1]; simp)
    rw [List.length_map] at this
    rw [this, leafVal_eq hx]
  rcases hl.place with ⟨a1, a2, a3⟩ | ⟨a1, a2, j, iq', a4, a3⟩
  · refine hsp _ (by rw [a3.lev]; exact a3.pos) ?_
    rw [a2, ← e2]
    exact hv.leafPos e3 hg hl.items a1 hl.leaf
  · have hip : ip = [] := by
      cases ip with
      | nil => rfl
      | cons z ip =>
        have := (sorted_after (ip := []) (j := z) hg hl.items i (by simp)).1
        rw [a1] at this
        simp at this
    subst hip
    have hit := hl.items
    rw [a4] at hit
    refine hsp _ (by rw [a3.lev]; exact a3.pos) ?_
    rw [a2, ← e2]
    exact hv.endPosAt e3 hg hit a1 ((sorted_after (ip := []) hg hit j (by simp)).1)

theorem Built.s_value (B : Built cfg fp s t0 cut h) {it : SparseIter} (hl : SLeaf t0 cut h it R r t ip i iq) {x : KV} (hx : i.kvs = [x]) : it.value s.ls = some (x.2.take cfg.valueSize) := by
  obtain ⟨post, ep, hok, hv⟩ := B.s_at hl.way (by simp [hl.len])
  obtain ⟨X, Y, f1, f2⟩ := lvs_split (pre := nodesIn t0 cut ((r ++ R).length - cut) ++ left (r ++ R)) (post := post) hl.items hl.leaf
  unfold SparseIter.value
  rw [hl.place.lev, hl.place.pos]
  simp only [Option.bind_eq_bind, Option.bind_some]
  unfold spos
  rw [hv.leafPos hl.items hl.leaf, ← f2]
  simp only [Option.bind_some]
  rw [hv.val]
  have := values_get _ cfg.valueSize (fun v hv => B.leafVal_length (a := cut) (n := h - cut) (by rw [ep]; exact hv)) (X.map (leafVal cfg)) (Y.map (leafVal cfg)) (leafVal cfg (t.bd, i)) (by rw [f1]; simp)
  rw [List.length_map] at this
  rw [this, leafVal_eq hx]

theorem Stand.value {it : Iterator} (B : Built cfg fp s t0 cut h) (hs : Stand t0 cut h it W t ip i iq) {x : KV} (hx : i.kvs = [x]) : it.value s = some (x.2.take cfg.valueSize) := by
  unfold Iterator.value DenseIter.isComplete
  rcases hs with ⟨h1, -⟩ | ⟨R, r, T, sc, l, rc, rfl, h1, hf, -, h2⟩
  · rw [h1.comp.1, h1.comp.2.1, h1.comp.2.2]
    exact B.d_value h1 hx
  · rw [h1.comp.1, h1.comp.2.1, h1.comp.2.2, hf]
    exact B.s_value h2 hx

/-! ### First and last -/

theorem Ready.clean {it : Iterator} (hr : Ready cut h it) : SClean (h - cut) it.reset.s := ⟨⟨hr.s.p, hr.s.l, hr.s.d⟩, rfl, rfl, rfl, rfl⟩

theorem Built.newReady (B : Built cfg fp s t0 cut h) : Ready cut h s.newIterator := by
  have h1 : s.ls.sparseLevels = h - cut := by
    unfold LoudsSparse.sparseLevels
    rw [B.hs, B.start]
  refine ⟨?_, ?_, ?_, ?_, ?_⟩ <;> simp [SuRF.newIterator, DenseIter.init, SparseIter.init, B.ht, h1]

/-- `SetToFirstInRoot`: the first label of the root. -/
theorem Built.d_first (B : Built cfg fp s t0 cut h) (hc : 0 < cut) {it : DenseIter} (h1 : it.posInTrie.length = cut) (h2 : it.prefixLen.length = cut) (hlev : it.level = 0) (hbuf : it.keyBuf = [])
    (e : t0.items = ip ++ i :: iq) (hip : ∀ z ∈ ip, z.term = true) (hi : i.term = false) :
    ∃ it', it.setToFirstInRoot s.ld = some it' ∧ DAt t0 cut it' [] t0 i.label.toNat ∧ it'.atPrefixKey = it.atPrefixKey := by
  have w : Way t0 [] t0 := .nil
  have hg := B.root.toOK
  obtain ⟨pre, post, e1, e2, e3, hv, e4⟩ := B.d_at w (by simpa using hc)
  have hpre : pre = [] := by simpa [nodesIn, left] using e4
  have hn : num t0 [] = 0 := by rw [← e2, hpre]; rfl
  have happ := B.d_append w (by simpa using hc) (it := it) h1 h2 trivial hlev hbuf i.label.toNat_lt
  rw [hn, Nat.zero_mul, Nat.zero_add] at happ
  unfold DenseIter.setToFirstInRoot
  have hl := B.d_label w (by simpa using hc) (c := 0) (by omega)
  rw [hn] at hl
  simp only [Nat.zero_mul, Nat.zero_add] at hl
  rw [hl]
  simp only [Option.bind_eq_bind, Option.bind_some]
  by_cases h0 : i.label.toNat = 0
  · have hany : (t0.items.any fun i => !i.term && i.label.toNat == 0) = true := by
      rw [List.any_eq_true]
      exact ⟨i, by rw [e]; simp, by simp [hi, h0]⟩
    rw [if_pos hany]
    rw [h0] at happ ⊢
    exact happ
  · have hany : ¬ (t0.items.any fun i => !i.term && i.label.toNat == 0) = true := by
      rw [List.any_eq_true]
      rintro ⟨j, hj, hj2⟩
      simp only [Bool.and_eq_true, Bool.not_eq_true', beq_iff_eq] at hj2
      rw [e, List.mem_append, List.mem_cons] at hj
      rcases hj with hj | rfl | hj
      · rw [hip j hj] at hj2
        simp at hj2
      · omega
      · have := (sorted_after hg e j hj).2 hi
        omega
    rw [if_neg hany]
    have hnx := hv.next_in e (c := 0) (by omega) hi (fun z hz hzt => by rw [hip z hz] at hzt; simp at hzt) (fun z hz _ => (sorted_after hg e z hz).2 hi)
    rw [hpre] at hnx
    simp only [List.length_nil, Nat.zero_mul, Nat.zero_add] at hnx
    rw [hnx]
    exact happ

/-- `SeekToFirst`: it skips the end item of the root. -/
theorem Built.i_first (B : Built cfg fp s t0 cut h) (bmi : Bool) (hc : 0 < cut) {it : Iterator} (hr : Ready cut h it) (e : t0.items = ip ++ i :: iq) (hip : ∀ z ∈ ip, z.term = true) (hi : i.term = false) :
    ∃ it' y, it.seekToFirst bmi s = some it' ∧ At t0 cut h it' (ip.flatMap (·.kvs)) y := by
  have w : Way t0 [] t0 := .nil
  unfold Iterator.seekToFirst
  rw [B.ht, if_pos hc]
  obtain ⟨d1, a1, a2, a3⟩ := B.d_first hc (it := it.reset.d) hr.p hr.l rfl rfl e hip hi
  simp only [a1, Option.bind_eq_bind, Option.bind_some]
  obtain ⟨d2, b1, b2⟩ := B.d_moveLeft w (by simpa using hc) e hi a2 a3
  simp only [b1, Option.bind_some]
  have hcur : cur cut [] t0.bd ip = (ip.flatMap (·.kvs), []) := by
    have : kids t0.bd ip = [] := by
      unfold kids
      rw [List.map_eq_nil_iff, List.filter_eq_nil_iff]
      intro z hz
      have := B.root.toOK.term_leaf (i := z) (by rw [e]; simp [hz]) (hip z hz)
      simp [this]
    simp [cur, before, left, this]
  rw [hcur] at b2
  have hnot : (ip.flatMap (·.kvs)) ≠ t0.kvs := by
    rw [← t0.items_flat, e]
    intro hh
    simp only [List.flatMap_append, List.flatMap_cons] at hh
    have := congrArg List.length hh
    have hne := B.root.toOK.item_ne (i := i) (by rw [e]; simp)
    have := List.length_pos_iff.mpr hne
    simp only [List.length_append] at *
    omega
  obtain ⟨it', c1, c2⟩ := B.incr bmi (it := { it.reset with d := d2 }) b2 (.inl hr.clean)
  have hval : d2.valid = true := by
    rcases b2 with ⟨r, t, ip', i', iq', h1, -⟩ | ⟨R, T, h1, -⟩ | ⟨-, h4⟩
    · exact h1.valid
    · exact h1.valid
    · exact absurd h4 hnot
  rw [hval] at c1
  simp only [Bool.not_true, Bool.false_eq_true, if_false] at c1
  rcases c2 with ⟨c2, -⟩ | ⟨y, c2⟩
  · exact absurd c2 hnot
  · exact ⟨it', y, c1, c2⟩

/-- `SeekToLast` -/
theorem Built.i_last (B : Built cfg fp s t0 cut h) (bmi : Bool) (hc : 0 < cut) {it : Iterator} (hr : Ready cut h it) (h2 : 2 ≤ t0.kvs.length) :
    ∃ it' b y, it.seekToLast bmi s = some it' ∧ At t0 cut h it' b y ∧ t0.kvs = b ++ [y] := by
  have w : Way t0 [] t0 := .nil
  have hg := B.root.toOK
  obtain ⟨ip, i, iq, e, hq⟩ := end_item hg false
  simp only [Bool.false_eq_true, if_false] at hq
  subst hq
  have hit : i.term = false := by
    have h3 := hg.two_items h2
    rw [e] at h3
    cases ip with
    | nil => simp at h3
    | cons a ip => exact (sorted_after (ip := []) (j := a) (iq := ip ++ [i]) hg (by rw [e]; simp) i (by simp)).1
  obtain ⟨pre, post, e1, e2, e3, hv, e4⟩ := B.d_at w (by simpa using hc)
  have hpre : pre = [] := by simpa [nodesIn, left] using e4
  have hn : num t0 [] = 0 := by rw [← e2, hpre]; rfl
  obtain ⟨d1, a1, a2, a3⟩ := B.d_append w (by simpa using hc) (it := it.reset.d) hr.p hr.l trivial rfl rfl i.label.toNat_lt
  rw [hn, Nat.zero_mul, Nat.zero_add] at a1
  have hpv : ∃ o, s.ld.prevPos 256 = some (i.label.toNat, o) := by
    by_cases h0 : i.label.toNat = 0
    · rw [hpre] at hv
      refine ⟨true, ?_⟩
      rw [h0]
      refine hv.prev_zero (by simp) (fun p h1 h3 => ?_)
      have := lab_false [] post (t := t0) (c := p) h3 (fun x hx hxt => by
        rw [e, List.mem_append, List.mem_singleton] at hx
        rcases hx with hx | rfl
        · have := sorted_before hg e x hx hxt
          omega
        · omega)
      rw [List.length_nil, Nat.zero_mul, Nat.zero_add] at this
      rw [this]
      simp
    · have hpv := hv.prev_in e (c := 256) (by omega) i.label.toNat_lt hit (sorted_before hg e) (by simp) (by omega)
      rw [hpre] at hpv
      simp only [List.length_nil, Nat.zero_mul, Nat.zero_add] at hpv
      exact ⟨_, hpv⟩
  obtain ⟨o, hpv⟩ := hpv
  unfold Iterator.seekToLast DenseIter.setToLastInRoot
  rw [B.ht, if_pos hc, show denseFanout = 256 from rfl, hpv]
  simp only [Option.bind_eq_bind, Option.bind_some]
  rw [a1]
  simp only [Option.bind_some]
  obtain ⟨d2, b1, b2⟩ := B.d_moveRight w (by simpa using hc) e hit a2 a3
  rw [b1]
  simp only [Option.bind_some]
  have hcur : (cur cut [] t0.bd (ip ++ [i])).1 = t0.kvs := by
    rw [← e]
    simp only [cur, before, List.nil_append, t0.items_flat]
  obtain ⟨it', c1, c2⟩ := B.decr bmi (it := { it.reset with d := d2 }) b2 (.inl hr.clean)
  have hval : d2.valid = true := by
    rcases b2 with ⟨r, t, ip', i', iq', h1, -⟩ | ⟨R, T, h1, -⟩
    · exact h1.valid
    · exact h1.valid
  rw [hval] at c1
  simp only [Bool.not_true, Bool.false_eq_true, if_false] at c1
  rw [hcur] at c2
  obtain ⟨b, y, c2, c3⟩ := c2
  exact ⟨it', b, y, c1, c3, c2⟩

end

end Surf
