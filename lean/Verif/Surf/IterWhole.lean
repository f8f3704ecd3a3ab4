import Verif.Surf.Back

/-!
# The iterator

The dense and the sparse iterator together: `Next` and `Prev` go through the stored pairs in order.
-/

set_option linter.unusedSimpArgs false

namespace Surf

section
variable {cfg : Config} {fp : Bytes → Word} {s : SuRF} {t0 t : Grp} {cut h : Nat} {R r W : List Frame} {ip iq : List Item} {i : Item}

/-! ### States -/

/-- The sparse iterator is not in use, and can be started at any node which has the nodes `L` before it. -/
def SIdle (t0 : Grp) (cut h : Nat) (it : SparseIter) (L : List Grp) : Prop := SClean (h - cut) it ∨ (L = [] ∧ ∃ R T, SStale t0 cut h it R T)

theorem SIdle.valid {it : SparseIter} {L : List Grp} (hi : SIdle t0 cut h it L) : it.valid = false := by
  rcases hi with hi | ⟨-, R, T, hi⟩
  · exact hi.valid
  · exact hi.valid

theorem SIdle.sz {it : SparseIter} {L : List Grp} (hi : SIdle t0 cut h it L) : SSize (h - cut) it := by
  rcases hi with hi | ⟨-, R, T, hi⟩
  · exact hi.sz
  · obtain ⟨i, iq, -, h1⟩ := hi.place
    exact h1.sz

/-- The sizes of the arrays. -/
structure Ready (cut h : Nat) (it : Iterator) : Prop where
  p : it.d.posInTrie.length = cut
  l : it.d.prefixLen.length = cut
  s : SSize (h - cut) it.s

/-- The iterator stands on the item `i` of the node `t` at the end of the way `W`. -/
def Stand (t0 : Grp) (cut h : Nat) (it : Iterator) (W : List Frame) (t : Grp) (ip : List Item) (i : Item) (iq : List Item) : Prop :=
  (DLeaf t0 cut it.d W t ip i iq ∧ SIdle t0 cut h it.s (cur cut W t.bd ip).2) ∨
  (∃ R r T sc l rc, W = r ++ R ∧ DSend t0 cut it.d R T sc l rc ∧ (sc && (l && rc)) = false ∧ (cut = 0 → l = true ∧ rc = true) ∧ SLeaf t0 cut h it.s R r t ip i iq)

theorem Stand.at {it : Iterator} (hs : Stand t0 cut h it W t ip i iq) : Way t0 W t ∧ t.items = ip ++ i :: iq ∧ i.child = false := by
  rcases hs with ⟨h1, -⟩ | ⟨R, r, T, sc, l, rc, rfl, h1, -, -, h2⟩
  · exact ⟨h1.way, h1.items, h1.leaf⟩
  · exact ⟨h2.way, h2.items, h2.leaf⟩

theorem DLeaf.sz {it : DenseIter} (hd : DLeaf t0 cut it r t ip i iq) : it.posInTrie.length = cut ∧ it.prefixLen.length = cut := by
  rcases hd.place with ⟨-, -, h1⟩ | ⟨-, -, j, iq', -, h1⟩
  · exact ⟨h1.szp, h1.szl⟩
  · exact ⟨h1.szp, h1.szl⟩

theorem Stand.ready {it : Iterator} (hs : Stand t0 cut h it W t ip i iq) : Ready cut h it := by
  rcases hs with ⟨h1, h2⟩ | ⟨R, r, T, sc, l, rc, rfl, h1, -, -, h2⟩
  · exact ⟨h1.sz.1, h1.sz.2, h2.sz⟩
  · exact ⟨h1.szp, h1.szl, h2.place.sz⟩

theorem Stand.valid {it : Iterator} (hs : Stand t0 cut h it W t ip i iq) : it.valid = true := by
  unfold Iterator.valid DenseIter.isComplete
  rcases hs with ⟨h1, h2⟩ | ⟨R, r, T, sc, l, rc, rfl, h1, -, -, h2⟩
  · rw [h1.valid, h1.comp.1, h1.comp.2.1, h1.comp.2.2]
    rfl
  · rw [h1.valid, h2.valid]
    simp

/-- The iterator stands on the pair `x`, which comes after the pairs `b`. -/
def At (t0 : Grp) (cut h : Nat) (it : Iterator) (b : List KV) (x : KV) : Prop := ∃ W t ip i iq, Stand t0 cut h it W t ip i iq ∧ sbef W ip = b ∧ i.kvs = [x]

/-- The iterator has run out. -/
structure Done (cut h : Nat) (it : Iterator) : Prop where
  ready : Ready cut h it
  svalid : it.s.valid = false
  dvalid : it.d.valid = false ∨ (cut = 0 ∧ it.d.valid = true ∧ it.d.searchComp = false ∧ it.d.leftComp = true ∧ it.d.rightComp = true)

theorem Done.valid {it : Iterator} (hd : Done cut h it) : it.valid = false := by
  unfold Iterator.valid DenseIter.isComplete
  rcases hd.dvalid with h1 | ⟨-, h1, h2, -⟩
  · rw [h1]
    rfl
  · rw [hd.svalid, h2]
    simp

theorem At.valid {it : Iterator} {b : List KV} {x : KV} (ha : At t0 cut h it b x) : it.valid = true := by
  obtain ⟨W, t, ip, i, iq, h1, -⟩ := ha
  exact h1.valid

theorem At.ready {it : Iterator} {b : List KV} {x : KV} (ha : At t0 cut h it b x) : Ready cut h it := by
  obtain ⟨W, t, ip, i, iq, h1, -⟩ := ha
  exact h1.ready

theorem sbef_leaf {x : KV} (hx : i.kvs = [x]) : sbef W (ip ++ [i]) = sbef W ip ++ [x] := by
  simp [sbef, hx]

theorem sbef_kvs (w : Way t0 W t) (e : t.items = ip ++ iq) : t0.kvs = sbef W ip ++ (iq.flatMap (·.kvs) ++ after W) := by
  rw [w.kvs, ← t.items_flat, e]
  simp [sbef]

/-- The pairs before the current one are the first ones of the filter. -/
theorem At.split {it : Iterator} {b : List KV} {x : KV} (ha : At t0 cut h it b x) : ∃ c, t0.kvs = b ++ x :: c := by
  obtain ⟨W, t, ip, i, iq, h1, rfl, h3⟩ := ha
  obtain ⟨w, e, -⟩ := h1.at
  refine ⟨iq.flatMap (·.kvs) ++ after W, ?_⟩
  rw [sbef_kvs w e]
  simp [h3]

/-! ### Entering the sparse part -/

theorem SStale.move {R' : List Frame} {T T' : Grp} {it : SparseIter} (hs : SStale t0 cut h it R' T') (w : Way t0 R T) (hR : R.length = cut) (hl : left R = []) : SStale t0 cut h it R T := by
  have e : T' = T := by
    obtain ⟨b, e1⟩ := hs.way.desc
    obtain ⟨b', e2⟩ := w.desc
    rw [hs.len, hs.lft] at e1
    rw [hR, hl, e1] at e2
    simpa using (List.cons.inj e2).1
  subst e
  obtain ⟨i, iq, e1, ⟨⟨h1, h2, h3, h4, h5⟩, h6, h7⟩⟩ := hs.place
  refine ⟨w, hR, hl, hs.valid, hs.term, i, iq, e1, ⟨⟨h1, trivial, ?_, h4, h5⟩, h6, h7⟩⟩
  rw [h3]
  unfold spos
  simp only [List.nil_append]
  rw [hs.len, hR, hs.lft, hl]

theorem Built.s_into (B : Built cfg fp s t0 cut h) (bmi : Bool) {d : DenseIter} {it : SparseIter} {T : Grp} {sc l rc : Bool} (hd : DSend t0 cut d R T sc l rc) (hi : SIdle t0 cut h it (left R)) :
    ∃ it', { it with startNodeID := d.sendOutNodeID, startDepth := d.sendOutDepth }.move bmi s.ls true = some it' ∧ SGo t0 cut h true it' R (before R) := by
  rcases hi with hi | ⟨hl, R', T', hi⟩
  · exact B.s_enter bmi true hd.len hd.way ⟨hi.sz.p, hi.sz.l, hi.sz.d⟩ hi.lev hi.buf hi.term hd.node hd.depth
  · have hst := hi.move hd.way hd.len hl
    obtain ⟨i, iq, e1, h1⟩ := hst.place
    have := B.s_move (r := []) bmi true hd.len (ip := []) (it := { it with startNodeID := d.sendOutNodeID, startDepth := d.sendOutDepth }) hd.way e1
      ⟨h1.toSPos.same rfl rfl rfl rfl, h1.lev, h1.buf⟩ hst.term hd.depth
    simpa [sbef] using this

theorem Built.s_into_last (B : Built cfg fp s t0 cut h) (bmi : Bool) {d : DenseIter} {it : SparseIter} {T : Grp} {sc l rc : Bool} (hd : DSend t0 cut d R T sc l rc) (hi : SClean (h - cut) it) :
    ∃ it', { it with startNodeID := d.sendOutNodeID, startDepth := d.sendOutDepth }.move bmi s.ls false = some it' ∧ SGo t0 cut h false it' R (before R ++ T.kvs) :=
  B.s_enter bmi false hd.len hd.way ⟨hi.sz.p, hi.sz.l, hi.sz.d⟩ hi.lev hi.buf hi.term hd.node hd.depth

/-! ### Next -/

theorem Stand.kv {it : Iterator} (B : Built cfg fp s t0 cut h) (hs : Stand t0 cut h it W t ip i iq) : ∃ x, i.kvs = [x] := by
  obtain ⟨w, e, hc⟩ := hs.at
  exact ⟨_, ((w.good B.root).toOK.leafKV (by rw [e]; simp) hc).1⟩

/-- After a move of the dense iterator to the right. -/
theorem Built.incr (B : Built cfg fp s t0 cut h) (bmi : Bool) {it : Iterator} {P : List KV × List Grp} (hd : DNext t0 cut it.d P) (hi : SIdle t0 cut h it.s P.2) :
    ∃ it', (if !it.d.valid then some it else if it.d.leftComp then some it else it.intoSparse bmi s true) = some it' ∧ ((P.1 = t0.kvs ∧ Done cut h it') ∨ ∃ y, At t0 cut h it' P.1 y) := by
  rcases hd with ⟨r, t, ip, i, iq, h1, h2⟩ | ⟨R, T, h1, h2, h3⟩ | ⟨⟨h1, h2, h3⟩, h4⟩
  · rw [h1.valid, h1.comp.2.1]
    have hst : Stand t0 cut h it r t ip i iq := .inl ⟨h1, by rw [h2]; exact hi⟩
    obtain ⟨x, hx⟩ := hst.kv B
    exact ⟨it, rfl, .inr ⟨x, r, t, ip, i, iq, hst, by rw [← h2]; rfl, hx⟩⟩
  · rw [h1.valid, h1.comp.2.1]
    simp only [Bool.not_true, Bool.false_eq_true, if_false]
    rw [← h3] at hi
    obtain ⟨s', a1, r, t, ip, i, iq, a2, a3⟩ := B.s_into bmi h1 hi
    unfold Iterator.intoSparse Iterator.passToSparse
    simp only [a1, Option.bind_eq_bind, Option.bind_some]
    have hst : Stand t0 cut h { it with s := s' } (r ++ R) t ip i iq := .inr ⟨R, r, T, _, _, _, rfl, h1, rfl, fun e => absurd e (by omega), a2⟩
    obtain ⟨x, hx⟩ := hst.kv B
    simp only [if_true] at a3
    exact ⟨_, rfl, .inr ⟨x, _, t, ip, i, iq, hst, by rw [← h3]; exact a3, hx⟩⟩
  · rw [h1]
    exact ⟨it, rfl, .inl ⟨h4, ⟨h2, h3, hi.sz⟩, hi.valid, .inl h1⟩⟩

/-- **Next.** -/
theorem Built.i_next (B : Built cfg fp s t0 cut h) (bmi : Bool) {it : Iterator} {b : List KV} {x : KV} (ha : At t0 cut h it b x) :
    ∃ it', it.next bmi s = some it' ∧ ((b ++ [x] = t0.kvs ∧ Done cut h it') ∨ ∃ y, At t0 cut h it' (b ++ [x]) y) := by
  obtain ⟨W, t, ip, i, iq, hs, rfl, hx⟩ := ha
  unfold Iterator.next
  rcases hs with ⟨h1, h2⟩ | ⟨R, r, T, sc, l, rc, rfl, h1, hf, h0, h2⟩
  · rw [h2.valid]
    simp only [Bool.false_eq_true, if_false]
    unfold Iterator.incrDense
    rw [h1.valid]
    simp only [Bool.not_true, Bool.false_eq_true, if_false]
    obtain ⟨d', a1, a2⟩ := B.d_next_leaf h1
    rw [a1]
    simp only [Option.bind_eq_bind, Option.bind_some]
    rw [cur_leaf h1.leaf] at a2
    have := B.incr bmi (it := { it with d := d' }) a2 h2
    rw [hx] at this
    exact this
  · rw [h2.valid]
    simp only [if_true, Option.bind_eq_bind]
    obtain ⟨s', a1, a2⟩ := B.s_next_leaf bmi h2
    rw [a1]
    simp only [Option.bind_some]
    rw [sbef_leaf hx] at a2
    rcases a2 with ⟨r', t', ip', i', iq', b1, b2⟩ | ⟨b1, T', w', b2⟩
    · rw [b1.valid]
      simp only [if_true]
      have hst : Stand t0 cut h { it with s := s' } (r' ++ R) t' ip' i' iq' := .inr ⟨R, r', T, _, _, _, rfl, h1, hf, h0, b1⟩
      obtain ⟨y, hy⟩ := hst.kv B
      exact ⟨_, rfl, .inr ⟨y, _, _, _, _, _, hst, b2, hy⟩⟩
    · rw [b1.valid]
      simp only [Bool.false_eq_true, if_false]
      have e := w'.inj h1.way
      subst e
      unfold Iterator.incrDense
      rw [h1.valid]
      simp only [Bool.not_true, Bool.false_eq_true, if_false]
      by_cases hc : cut = 0
      · unfold DenseIter.next
        rw [B.ht, if_pos hc]
        obtain ⟨f1, f2⟩ := h0 hc
        simp only [Option.bind_eq_bind, Option.bind_some, h1.valid, h1.comp.2.1, f1, Bool.not_true, Bool.false_eq_true, if_false, if_true]
        have hR : R = [] := List.eq_nil_of_length_eq_zero (by rw [h1.len, hc])
        have hT : T' = t0 := by
          have := h1.way
          rw [hR] at this
          cases this
          rfl
        refine ⟨_, rfl, .inl ⟨?_, ⟨h1.szp, h1.szl, b1.sz⟩, b1.valid, .inr ⟨hc, h1.valid, ?_, by rw [h1.comp.2.1, f1], by rw [h1.comp.2.2, f2]⟩⟩⟩
        · rw [b2, hR, hT]
          rfl
        · rw [h1.comp.1]
          rw [f1, f2] at hf
          simpa using hf
      · obtain ⟨d', c1, c2⟩ := B.d_next_send h1 (by omega)
        rw [c1]
        simp only [Option.bind_eq_bind, Option.bind_some]
        have := B.incr bmi (it := { d := d', s := s' }) c2 (.inl b1)
        rw [← b2] at this
        exact this

theorem Built.done_next (B : Built cfg fp s t0 cut h) (bmi : Bool) {it : Iterator} (hd : Done cut h it) : it.next bmi s = some it := by
  unfold Iterator.next Iterator.incrDense
  rw [hd.svalid]
  rcases hd.dvalid with h1 | ⟨h0, h1, -, h2, -⟩
  · rw [h1]
    rfl
  · rw [h1]
    unfold DenseIter.next
    rw [B.ht, if_pos h0]
    simp [h1, h2]

/-! ### Prev -/

/-- After a move of the dense iterator to the left. -/
theorem Built.decr (B : Built cfg fp s t0 cut h) (bmi : Bool) {it : Iterator} {P : List KV × List Grp} (hd : DPrev t0 cut it.d P) (hi : SIdle t0 cut h it.s P.2) :
    ∃ it', (if !it.d.valid then some it else if it.d.rightComp then some it else it.intoSparse bmi s false) = some it' ∧ ∃ b y, P.1 = b ++ [y] ∧ At t0 cut h it' b y := by
  rcases hd with ⟨r, t, ip, i, iq, h1, h2⟩ | ⟨R, T, h1, h2, h3⟩
  · rw [h1.valid, h1.comp.2.2]
    rw [cur_leaf h1.leaf] at h2
    have hst : Stand t0 cut h it r t ip i iq := .inl ⟨h1, by rw [← h2] at hi; exact hi⟩
    obtain ⟨x, hx⟩ := hst.kv B
    refine ⟨it, rfl, sbef r ip, x, ?_, r, t, ip, i, iq, hst, rfl, hx⟩
    rw [← h2, hx]
    rfl
  · rw [h1.valid, h1.comp.2.2]
    simp only [Bool.not_true, Bool.false_eq_true, if_false]
    have hcl : SClean (h - cut) it.s := by
      rcases hi with hi | ⟨hi, -⟩
      · exact hi
      · rw [← h3] at hi
        simp at hi
    obtain ⟨s', a1, r, t, ip, i, iq, a2, a3⟩ := B.s_into_last bmi h1 hcl
    unfold Iterator.intoSparse Iterator.passToSparse
    simp only [a1, Option.bind_eq_bind, Option.bind_some]
    have hst : Stand t0 cut h { it with s := s' } (r ++ R) t ip i iq := .inr ⟨R, r, T, _, _, _, rfl, h1, rfl, fun e => absurd e (by omega), a2⟩
    obtain ⟨x, hx⟩ := hst.kv B
    simp only [Bool.false_eq_true, if_false] at a3
    refine ⟨_, rfl, sbef (r ++ R) ip, x, ?_, _, t, ip, i, iq, hst, rfl, hx⟩
    rw [← sbef_leaf hx, a3, ← h3]

/-- After `Prev` of the dense iterator. -/
theorem Built.back (B : Built cfg fp s t0 cut h) (bmi : Bool) (hc : 0 < cut) {it : Iterator} {P : List KV × List Grp} {x : KV} {c : List KV} (hd : DBack t0 cut it.d P) (hi : SIdle t0 cut h it.s P.2)
    (ec : t0.kvs = P.1 ++ x :: c) :
    ∃ it', (if !it.d.valid then some it else if it.d.rightComp then some it else it.intoSparse bmi s false) = some it' ∧
      (((∀ y ∈ P.1, ¬ Free t0 cut x y) ∧ Done cut h it') ∨ ∃ b y, P.1 = b ++ [y] ∧ Free t0 cut x y ∧ At t0 cut h it' b y) := by
  rcases hd with ⟨hd, r', t', ip', i', j', iq', w', e', hp, hl, hP⟩ | ⟨⟨h1, h2, h3⟩, r', t', ip', j', iq', w', hl, e', hb, hP⟩
  · obtain ⟨it', a1, b, y, a2, a3⟩ := B.decr bmi hd hi
    have e1 : sbef r' (ip' ++ [i']) = P.1 := by rw [← hP]; rfl
    exact ⟨it', a1, .inr ⟨b, y, a2, free_found B.root hc w' e' hp hl (e1.trans a2) (by rw [← a2]; exact ec), a3⟩⟩
  · rw [h1]
    have e1 : sbef r' ip' = P.1 := by rw [← hP]; rfl
    refine ⟨it, rfl, .inl ⟨fun y hy => ?_, ⟨h2, h3, hi.sz⟩, hi.valid, .inl h1⟩⟩
    exact blind_stuck B.root w' hl e' hb (by rw [e1]; exact ec) (by rw [e1]; exact hy)

/-- The pair is not one whose key all keys go on from. -/
theorem not_end (h0 : t0.OK) {x : KV} (hx : i.kvs = [x]) (hm : i ∈ t0.items) (hne : x.1.length ≠ t0.bd) : i.term = false := by
  by_contra hc
  obtain ⟨z, e1, -, hl⟩ := item_term h0 hm (by simpa using hc)
  rw [hx] at e1
  cases e1
  exact hne hl

/-- **Prev.** -/
theorem Built.i_prev (B : Built cfg fp s t0 cut h) (bmi : Bool) {it : Iterator} {b : List KV} {x : KV} (ha : At t0 cut h it b x) (hne : cut = 0 ∨ x.1.length ≠ t0.bd) :
    ∃ it', it.prev bmi s = some it' ∧ (((∀ y ∈ b, ¬ Free t0 cut x y) ∧ Done cut h it') ∨ ∃ b' y, b = b' ++ [y] ∧ Free t0 cut x y ∧ At t0 cut h it' b' y) := by
  obtain ⟨c, ec⟩ := ha.split
  obtain ⟨W, t, ip, i, iq, hs, rfl, hx⟩ := ha
  unfold Iterator.prev
  rcases hs with ⟨h1, h2⟩ | ⟨R, r, T, sc, l, rc, rfl, h1, hf, h0, h2⟩
  · rw [h2.valid]
    simp only [Bool.false_eq_true, if_false]
    unfold Iterator.decrDense
    rw [h1.valid]
    simp only [Bool.not_true, Bool.false_eq_true, if_false]
    have hc : 0 < cut := by have := h1.lt; omega
    have hne' := hne.resolve_left (by omega)
    obtain ⟨d', a1, a2⟩ := B.d_prev_leaf h1 (by
      rintro rfl
      have hw := h1.way
      have hit := h1.items
      cases hw
      exact not_end B.root.toOK hx (by rw [hit]; simp) hne')
    rw [a1]
    simp only [Option.bind_eq_bind, Option.bind_some]
    exact B.back bmi hc (it := { it with d := d' }) a2 h2 ec
  · rw [h2.valid]
    simp only [if_true, Option.bind_eq_bind]
    obtain ⟨s', a1, a2⟩ := B.s_prev_leaf bmi h2
    rw [a1]
    simp only [Option.bind_some]
    rcases a2 with ⟨r', t', ip', i', iq', b1, b2⟩ | ⟨b1, b2⟩
    · rw [b1.valid]
      simp only [if_true]
      have hst : Stand t0 cut h { it with s := s' } (r' ++ R) t' ip' i' iq' := .inr ⟨R, r', T, _, _, _, rfl, h1, hf, h0, b1⟩
      obtain ⟨y, hy⟩ := hst.kv B
      simp only [Bool.false_eq_true, if_false] at b2
      rw [sbef_leaf hy] at b2
      refine ⟨_, rfl, .inr ⟨_, y, b2.symm, ?_, _, _, _, _, _, hst, rfl, hy⟩⟩
      by_cases hc : cut = 0
      · exact .inl hc
      · have hw := h1.way
        have hlen := h1.len
        have hxT : x ∈ T.kvs := h2.way.within hw x (mem_items (i := i) (by rw [h2.items]; simp) (by rw [hx]; simp))
        have hyT : y ∈ T.kvs := b1.way.within hw y (mem_items (i := i') (by rw [b1.items]; simp) (by rw [hy]; simp))
        cases R with
        | nil => simp at hlen; omega
        | cons f R => exact free_below B.root hw hlen hxT hyT
    · have hidle : SIdle t0 cut h s' (left R) := by
        rcases b2 with b2 | b2
        · exact .inl b2
        · exact .inr ⟨b2.lft, _, _, b2⟩
      rw [hidle.valid]
      simp only [Bool.false_eq_true, if_false]
      unfold Iterator.decrDense
      rw [h1.valid]
      simp only [Bool.not_true, Bool.false_eq_true, if_false]
      by_cases hc : cut = 0
      · unfold DenseIter.prev
        rw [B.ht, if_pos hc]
        obtain ⟨f1, f2⟩ := h0 hc
        simp only [Option.bind_eq_bind, Option.bind_some, h1.valid, h1.comp.2.2, f2, Bool.not_true, Bool.false_eq_true, if_false, if_true]
        have hR : R = [] := List.eq_nil_of_length_eq_zero (by rw [h1.len, hc])
        refine ⟨_, rfl, .inl ⟨?_, ⟨h1.szp, h1.szl, hidle.sz⟩, hidle.valid, .inr ⟨hc, h1.valid, ?_, by rw [h1.comp.2.1, f1], by rw [h1.comp.2.2, f2]⟩⟩⟩
        · rw [b1, hR]
          simp [before]
        · rw [h1.comp.1]
          rw [f1, f2] at hf
          simpa using hf
      · obtain ⟨d', c1, c2⟩ := B.d_prev_send h1 (by omega)
        rw [c1]
        simp only [Option.bind_eq_bind, Option.bind_some]
        rw [b1] at ec ⊢
        exact B.back bmi (by omega) (it := { d := d', s := s' }) c2 hidle ec

/-- `Prev` from a pair whose key all keys go on from, in a dense root. -/
theorem Built.i_prev_end (B : Built cfg fp s t0 cut h) (bmi : Bool) {it : Iterator} {b : List KV} {x : KV} (ha : At t0 cut h it b x) (hc : 0 < cut) (hcut : cut < 2 ^ 32) (hxl : x.1.length = t0.bd) :
    it.prev bmi s = none := by
  obtain ⟨c, ec⟩ := ha.split
  obtain ⟨W, t, ip, i, iq, hs, rfl, hx⟩ := ha
  have hr := B.root.toOK
  have hxm : x ∈ t0.kvs := by rw [ec]; simp
  -- the pair is in the end item of the root
  have hroot : W = [] := by
    obtain ⟨w, e, -⟩ := hs.at
    cases W with
    | nil => rfl
    | cons f W =>
      have := (w.same B.root (x := x) (y := x) (mem_items (i := i) (by rw [e]; simp) (by rw [hx]; simp)) (mem_items (i := i) (by rw [e]; simp) (by rw [hx]; simp))).2
      omega
  subst hroot
  rcases hs with ⟨h1, h2⟩ | ⟨R, r, T, sc, l, rc, hR, h1, -⟩
  · have hw := h1.way
    have hit := h1.items
    cases hw
    have hterm : i.term = true := by
      by_contra hcn
      have := (item_label hr (i := i) (by rw [hit]; simp) (by simpa using hcn) (x := x) (by rw [hx]; simp)).2.1
      omega
    unfold Iterator.prev
    rw [h2.valid]
    simp only [Bool.false_eq_true, if_false]
    unfold Iterator.decrDense
    rw [h1.valid, B.d_prev_end h1 hterm hcut]
    rfl
  · have := h1.len
    rw [(List.append_eq_nil_iff.mp hR.symm).2] at this
    simp at this
    omega

theorem Built.done_prev (B : Built cfg fp s t0 cut h) (bmi : Bool) {it : Iterator} (hd : Done cut h it) : it.prev bmi s = some it := by
  unfold Iterator.prev Iterator.decrDense
  rw [hd.svalid]
  rcases hd.dvalid with h1 | ⟨h0, h1, -, -, h2⟩
  · rw [h1]
    rfl
  · rw [h1]
    unfold DenseIter.prev
    rw [B.ht, if_pos h0]
    simp [h1, h2]

end

end Surf
