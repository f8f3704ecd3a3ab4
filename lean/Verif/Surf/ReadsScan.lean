import Verif.Surf.ReadsPrev
import Verif.Surf.IterWhole

/-! What `Next` and `Prev` of an iterator read, in terms of the key they leave and the key they get to: every level the iterator goes up or down is a byte of one of the two. -/

set_option linter.unusedSimpArgs false

namespace Surf
namespace Cnt

theorem Grow.shift {β : Type} {len : β → Nat} {g N x : Nat} {m : Cnt β} {o : Option β} (h : Grow len (g + x) m o (N + x)) : Grow len g m o N := by
  intro c
  refine ⟨(h c).1, fun a ha => ?_⟩
  obtain ⟨k, h1, h2⟩ := (h c).2 a ha
  exact ⟨k, by omega, h2⟩

/-- 278 for each byte of the key -/
def sCost (it : SparseIter) : Nat := 278 * it.keyBuf.length

/-- 25 for each byte of the key -/
def dCost (it : DenseIter) : Nat := 25 * it.keyBuf.length

/-! ### The sparse part -/

theorem cost_sAppend (ls : LoudsSparse) (it : SparseIter) (label : UInt8) (pos nodeID : Nat) : Grow sCost (sCost it + 278) (sAppend ls it label pos nodeID) (it.append ls label pos nodeID) 12 := by
  refine (tally_free _).grow (M := 12) (fun pid _ => (tally_getPrefix _ _).grow (M := 0) (fun pre _ => ?_) (by omega)) (by omega)
  refine Grow.tally (N := pre.length) ?_ (fun a ha => ?_)
  · exact (tally_rd _ _).bind (M := 0) (fun ps _ => (tally_free _).bind (M := 0) (fun n _ => (tally_free _).bind (M := 0) (fun pl _ => (tally_free _).bind (M := 0) (fun ns _ => tally_pure _ 0) (by omega)) (by omega)) (by omega)) (by omega)
  · obtain ⟨ps, -, ha⟩ := Option.bind_eq_some_iff.mp ha
    obtain ⟨n, -, ha⟩ := Option.bind_eq_some_iff.mp ha
    obtain ⟨pl, -, ha⟩ := Option.bind_eq_some_iff.mp ha
    obtain ⟨ns, -, ha⟩ := Option.bind_eq_some_iff.mp ha
    cases ha
    show _ ≤ 0 + 278 * (it.keyBuf ++ pre ++ [label]).length
    unfold sCost
    simp only [List.length_append, List.length_singleton]
    omega

theorem cost_atLeaf (ls : LoudsSparse) (it : SparseIter) (pos : Nat) (label : UInt8) : Grow sCost (sCost it) (atLeaf ls it pos label) (it.atLeaf ls pos label) 1 :=
  Grow.tally (tally_atLeaf _ _ _ _) (fun a ha => by unfold sCost; rw [(atLeaf_buf ha).1])

theorem Close.cost_down {ls : LoudsSparse} (hc : Close ls) (bmi : Bool) : ∀ (n : Nat) (it : SparseIter) (pos : Nat), Grow sCost (sCost it) (sDownLoop bmi ls n it pos) (it.downLoop bmi ls true n pos) 1 := by
  intro n
  induction n with
  | zero => intro it pos; exact grow_none
  | succ n ih =>
    intro it pos
    refine Grow.shift (x := 278) ?_
    refine (tally_sChild _ _).grow (M := 270) (fun nodeID _ => ?_) (by omega)
    refine (hc.tally_first _ _).grow (M := 15) (fun pos _ => ?_) (by omega)
    refine (tally_rd 1 _).grow (M := 14) (fun label _ => (tally_isSet _ _).grow (M := 13) (fun h _ => ?_) (by omega)) (by omega)
    exact Grow.bind (l := sCost) (N := 12) (M := 1) (cost_sAppend ls { it with level := it.level + 1 } label pos nodeID) (fun it' _ => grow_ite (fun _ => cost_atLeaf _ _ _ _) (fun _ => ih _ _)) (by omega)

theorem Close.cost_downR {ls : LoudsSparse} (hc : Close ls) (bmi : Bool) : ∀ (n : Nat) (it : SparseIter) (pos : Nat), Grow sCost (sCost it) (sDownRight bmi ls n it pos) (it.downLoop bmi ls false n pos) 1 := by
  intro n
  induction n with
  | zero => intro it pos; exact grow_none
  | succ n ih =>
    intro it pos
    refine Grow.shift (x := 278) ?_
    refine (tally_sChild _ _).grow (M := 270) (fun nodeID _ => ?_) (by omega)
    refine (hc.tally_last _ _).grow (M := 15) (fun pos _ => ?_) (by omega)
    refine (tally_rd 1 _).grow (M := 14) (fun label _ => (tally_isSet _ _).grow (M := 13) (fun h _ => ?_) (by omega)) (by omega)
    exact Grow.bind (l := sCost) (N := 12) (M := 1) (cost_sAppend ls { it with level := it.level + 1 } label pos nodeID) (fun it' _ => grow_ite (fun _ => cost_atLeaf _ _ _ _) (fun _ => ih _ _)) (by omega)

theorem Close.cost_enter {ls : LoudsSparse} (hc : Close ls) (bmi : Bool) (it : SparseIter) : Grow sCost (sCost it) (sEnter bmi ls it) (it.enter bmi ls true) 0 :=
  grow_ite (fun _ => Grow.shift (x := 278) ((hc.tally_first _ _).grow (M := 13) (fun pos _ => (tally_rd 1 _).grow (M := 12) (fun label _ => cost_sAppend _ _ _ _ _) (by omega)) (by omega))) (fun _ => grow_pure (by omega))

theorem Close.cost_enterR {ls : LoudsSparse} (hc : Close ls) (bmi : Bool) (it : SparseIter) : Grow sCost (sCost it) (sEnterRight bmi ls it) (it.enter bmi ls false) 0 :=
  grow_ite (fun _ => Grow.shift (x := 278) ((hc.tally_last _ _).grow (M := 13) (fun pos _ => (tally_rd 1 _).grow (M := 12) (fun label _ => cost_sAppend _ _ _ _ _) (by omega)) (by omega))) (fun _ => grow_pure (by omega))

/-- 278 for each byte of the key, if the sparse part has one -/
def sPaid (it : SparseIter) : Nat := 278 * sVis it

theorem Close.cost_move {ls : LoudsSparse} (hc : Close ls) (bmi : Bool) (it : SparseIter) : Grow sPaid (sCost it) (sMoveLeft bmi ls it) (it.move bmi ls true) 3 := by
  refine Grow.len (len := sCost) ?_ (fun a ha => by unfold sPaid sCost sVis; rw [move_valid ha, if_pos rfl])
  refine (hc.cost_enter bmi it).bind (M := 3) (fun it' _ => ?_) (by omega)
  refine (tally_free _).grow (M := 3) (fun pos _ => (tally_rd 1 _).grow (M := 2) (fun label _ => (tally_isSet _ _).grow (M := 1) (fun h _ => ?_) (by omega)) (by omega)) (by omega)
  exact grow_ite (fun _ => cost_atLeaf _ _ _ _) (fun _ => hc.cost_down bmi _ _ _)

theorem Close.cost_moveR {ls : LoudsSparse} (hc : Close ls) (bmi : Bool) (it : SparseIter) : Grow sPaid (sCost it) (sMoveRight bmi ls it) (it.move bmi ls false) 3 := by
  refine Grow.len (len := sCost) ?_ (fun a ha => by unfold sPaid sCost sVis; rw [move_valid ha, if_pos rfl])
  refine (hc.cost_enterR bmi it).bind (M := 3) (fun it' _ => ?_) (by omega)
  refine (tally_free _).grow (M := 3) (fun pos _ => (tally_rd 1 _).grow (M := 2) (fun label _ => (tally_isSet _ _).grow (M := 1) (fun h _ => ?_) (by omega)) (by omega)) (by omega)
  exact grow_ite (fun _ => cost_atLeaf _ _ _ _) (fun _ => hc.cost_downR bmi _ _ _)

theorem Close.cost_sNext {ls : LoudsSparse} (hc : Close ls) (bmi : Bool) (it : SparseIter) (hl : it.level < it.keyBuf.length) : Grow sPaid 0 (sNext bmi ls it) (it.next bmi ls) (it.keyBuf.length + 4) := by
  unfold sNext SparseIter.next
  refine Tally.grow (N := it.keyBuf.length) (M := 4) ((tally_sNextLoop ls it.posInTrie it.level).less (by omega)) (fun r _ => ?_) (by omega)
  cases r with
  | none => exact grow_pure (by omega)
  | some r => exact (tally_sSetAt _ _ _).grow (M := 3) (fun it' _ => (hc.cost_move bmi it').weak (Nat.zero_le _)) (by omega)

theorem Close.cost_sPrev {ls : LoudsSparse} (hc : Close ls) (bmi : Bool) (it : SparseIter) (hl : it.level < it.keyBuf.length) : Grow sPaid 0 (sPrev bmi ls it) (it.prev bmi ls) (it.keyBuf.length + 4) := by
  unfold sPrev SparseIter.prev
  refine (tally_free _).grow (M := it.keyBuf.length + 4) (fun pos hp => grow_ite (fun _ => grow_pure (Nat.zero_le _)) (fun _ => ?_)) (by omega)
  refine Tally.grow (N := it.keyBuf.length) (M := 4) ((tally_sPrevLoop ls it.posInTrie it.level).less (by omega)) (fun r _ => ?_) (by omega)
  cases r with
  | none => exact grow_pure (by omega)
  | some r => exact (tally_sSetAt _ _ _).grow (M := 3) (fun it' _ => (hc.cost_moveR bmi it').weak (Nat.zero_le _)) (by omega)

/-! ### The dense part -/

theorem cost_dAppend (ld : LoudsDense) (it : DenseIter) (pos : Nat) : Grow dCost (dCost it + 25) (dAppend ld it pos) (it.append ld pos) 12 := by
  refine (tally_getPrefix _ _).grow (M := 0) (fun pre _ => ?_) (by omega)
  refine Grow.tally (N := pre.length) ?_ (fun a ha => ?_)
  · exact (tally_rd _ _).bind (M := 0) (fun ps _ => (tally_free _).bind (M := 0) (fun n _ => (tally_free _).bind (M := 0) (fun pl _ => tally_pure _ 0) (by omega)) (by omega)) (by omega)
  · obtain ⟨ps, -, ha⟩ := Option.bind_eq_some_iff.mp ha
    obtain ⟨n, -, ha⟩ := Option.bind_eq_some_iff.mp ha
    obtain ⟨pl, -, ha⟩ := Option.bind_eq_some_iff.mp ha
    cases ha
    show _ ≤ 0 + 25 * (it.keyBuf ++ pre ++ [UInt8.ofNat (pos % denseFanout)]).length
    unfold dCost
    simp only [List.length_append, List.length_singleton]
    omega

theorem Near.cost_left {ld : LoudsDense} (hn : Near ld) : ∀ (n : Nat) (it : DenseIter) (pos : Nat), Grow dCost (dCost it) (dLeftLoop ld n it pos) (it.leftLoop ld n pos) 2 := by
  intro n
  induction n with
  | zero => intro it pos; exact (tally_rankDense _ _).grow (M := 0) (fun c _ => grow_pure (by simp [dCost, DenseIter.flags])) (by omega)
  | succ n ih =>
    intro it pos
    refine Grow.shift (x := 25) ?_
    refine (tally_rankDense _ _).grow (M := 25) (fun nodeID _ => (tally_isSet _ _).grow (M := 24) (fun p _ => (tally_free _).grow (M := 24) (fun q _ => (hn.tally_next q).grow (M := 15) (fun pos _ => ?_)
      (by omega)) (by omega)) (by omega)) (by omega)
    refine Grow.bind (l := dCost) (N := 12) (M := 3) (cost_dAppend ld { it with level := it.level + 1 } pos) (fun it' _ => grow_ite (fun _ => grow_pure (by simp [dCost, DenseIter.flags])) (fun _ => ?_)) (by omega)
    exact (tally_isSet _ _).grow (M := 2) (fun h _ => grow_ite (fun _ => grow_pure (by simp [dCost, DenseIter.flags])) (fun _ => ih _ _)) (by omega)

theorem Behind.cost_right {ld : LoudsDense} (hb : Behind ld) : ∀ (n : Nat) (it : DenseIter) (pos : Nat), ld.hasChildVec.bv.isSet pos = some true → Grow dCost (dCost it) (dRightLoop ld n it pos) (it.rightLoop ld n pos) 2 := by
  intro n
  induction n with
  | zero => intro it pos _; exact (tally_rankDense _ _).grow (M := 0) (fun c _ => grow_pure (by simp [dCost, DenseIter.flags])) (by omega)
  | succ n ih =>
    intro it pos hs
    refine Grow.shift (x := 25) ?_
    refine (tally_rankDense _ _).grow (M := 25) (fun nodeID hc => (hb.tally_prev _).grow (M := 15) (fun r hp => ?_) (by omega)) (by omega)
    obtain ⟨p, out⟩ := r
    have ho := hb.down _ _ _ _ hs hc hp
    refine grow_ite (fun h => by rw [ho] at h; cases h) (fun _ => ?_)
    refine Grow.bind (l := dCost) (N := 12) (M := 3) (cost_dAppend ld { it with level := it.level + 1 } p) (fun it' _ => ?_) (by omega)
    refine (tally_isSet _ _).grow (M := 2) (fun h hh => grow_ite (fun _ => grow_pure (by simp [dCost, DenseIter.flags])) (fun hn => ih _ _ ?_)) (by omega)
    rw [hh]
    cases h with
    | true => rfl
    | false => exact absurd rfl hn

/-- 25 for each byte of the key, if the dense part has one -/
def dPaid (it : DenseIter) : Nat := 25 * dVis it

theorem Near.cost_move {ld : LoudsDense} (hn : Near ld) (it : DenseIter) : Grow dPaid (dCost it) (dMoveLeft ld it) (it.moveLeft ld) 3 :=
  Grow.len (len := dCost) ((tally_free _).grow (M := 3) (fun pos _ => (tally_isSet _ _).grow (M := 2) (fun h _ => grow_ite (fun _ => grow_pure (by simp [dCost, DenseIter.flags])) (fun _ => hn.cost_left _ _ _))
    (by omega)) (by omega)) (fun a ha => by unfold dCost dPaid; rw [moveLeft_vis ha])

theorem Behind.cost_move {ld : LoudsDense} (hb : Behind ld) (it : DenseIter) : Grow dPaid (dCost it) (dMoveRight ld it) (it.moveRight ld) 3 := by
  refine Grow.len (len := dCost) ((tally_free _).grow (M := 3) (fun pos _ => (tally_isSet _ _).grow (M := 2) (fun h hh => grow_ite (fun _ => grow_pure (by simp [dCost, DenseIter.flags])) (fun hn => hb.cost_right _ _ _ ?_))
    (by omega)) (by omega)) (fun a ha => by unfold dCost dPaid; rw [moveRight_vis hb ha])
  rw [hh]
  cases h with
  | true => rfl
  | false => exact absurd rfl hn

/-- The key of the dense part, if it has one, has at least a byte for each level. -/
def DSteep (it : DenseIter) : Prop := it.valid = true → 0 < it.posInTrie.length → it.level < it.keyBuf.length

theorem DSteep.vis {ld : LoudsDense} {it : DenseIter} (hs : DSteep it) (hv : it.valid = true) (hl : it.posInTrie.length = ld.height) (h0 : ¬ ld.height = 0) : dVis it = it.keyBuf.length ∧ it.level < it.keyBuf.length := by
  refine ⟨?_, hs hv (by omega)⟩
  unfold dVis
  rw [if_pos ⟨hv, by omega⟩]

theorem Near.cost_next {ld : LoudsDense} (hn : Near ld) (it : DenseIter) (hs : DSteep it) (hv : it.valid = true) (hl : it.posInTrie.length = ld.height) : Grow dPaid 0 (dNext ld it) (it.next ld) (9 * dVis it + 3) := by
  refine grow_ite (fun _ => grow_pure (Nat.zero_le _)) (fun h0 => grow_ite (fun _ => ((hn.cost_move _).weak (Nat.zero_le _)).less (by omega)) (fun _ => ?_))
  obtain ⟨e, hlt⟩ := hs.vis hv hl h0
  rw [e]
  refine Tally.grow (N := 9 * it.keyBuf.length) (M := 3) ((hn.tally_loop it.posInTrie it.level).less (by omega)) (fun r _ => ?_) (by omega)
  cases r with
  | none => exact grow_pure (Nat.zero_le _)
  | some r => exact (tally_free _).grow (M := 3) (fun it' _ => (hn.cost_move it').weak (Nat.zero_le _)) (by omega)

theorem Behind.cost_prev {ld : LoudsDense} (hb : Behind ld) (hh : ld.height < 2 ^ 32) (it : DenseIter) (hs : DSteep it) (hv : it.valid = true) (hl : it.posInTrie.length = ld.height) : Grow dPaid 0 (dPrev ld it) (it.prev ld) (10 * dVis it + 3) := by
  refine grow_ite (fun _ => grow_pure (Nat.zero_le _)) (fun h0 => ?_)
  obtain ⟨e, hlt⟩ := hs.vis hv hl h0
  rw [e]
  dsimp only
  have hl' : (if it.atPrefixKey then { it with atPrefixKey := false, level := dec32 it.level } else it).posInTrie.length = ld.height := by split <;> exact hl
  have hlev : (if it.atPrefixKey then { it with atPrefixKey := false, level := dec32 it.level } else it).level < ld.height → (if it.atPrefixKey then { it with atPrefixKey := false, level := dec32 it.level } else it).level < it.keyBuf.length := by
    split
    · show dec32 it.level < _ → dec32 it.level < _
      unfold dec32
      split <;> omega
    · exact fun _ => hlt
  generalize (if it.atPrefixKey then { it with atPrefixKey := false, level := dec32 it.level } else it) = it' at *
  refine Tally.grow (N := 10 * it.keyBuf.length) (M := 3) ((hb.tally_loop it'.posInTrie it'.level).of (fun a ha => ?_)) (fun r _ => ?_) (by omega)
  · have := dPrevLoop_lt ha
    have := hlev (by omega)
    omega
  · cases r with
    | out lev => exact grow_pure (Nat.zero_le _)
    | atPrefix lev => exact (tally_free _).grow (M := 0) (fun it' _ => grow_pure (Nat.zero_le _)) (by omega)
    | found lev pp => exact (tally_free _).grow (M := 3) (fun it' _ => (hb.cost_move it').weak (Nat.zero_le _)) (by omega)

/-! ### The whole -/

/-- 25 for each byte of the key in the dense part and 278 for each in the sparse part -/
def itPaid (it : Iterator) : Nat := dPaid it.d + sPaid it.s

theorem sPaid_le (it : SparseIter) : sPaid it ≤ sCost it := by
  unfold sPaid sCost sVis
  split <;> omega

theorem cost_into {f : SuRF} (hc : Close f.ls) (bmi : Bool) (it : Iterator) : Grow itPaid (itPaid it) (intoSparse bmi f it) (it.intoSparse bmi f true) 3 := by
  refine Grow.bind (l := fun s => dPaid it.d + sPaid s) (N := 3) (M := 0) ?_ (fun s _ => grow_pure (by simp [itPaid])) (by omega)
  intro c
  obtain ⟨h1, h2⟩ := hc.cost_move bmi it.passToSparse.s c
  refine ⟨h1, fun a ha => ?_⟩
  obtain ⟨k, h3, h4⟩ := h2 a ha
  have e : sCost it.passToSparse.s = sCost it.s := rfl
  have := sPaid_le it.s
  exact ⟨k, by unfold itPaid; show _ ≤ _ + (dPaid it.d + sPaid a); omega, h4⟩

theorem cost_intoR {f : SuRF} (hc : Close f.ls) (bmi : Bool) (it : Iterator) : Grow itPaid (itPaid it) (intoSparseRight bmi f it) (it.intoSparse bmi f false) 3 := by
  refine Grow.bind (l := fun s => dPaid it.d + sPaid s) (N := 3) (M := 0) ?_ (fun s _ => grow_pure (by simp [itPaid])) (by omega)
  intro c
  obtain ⟨h1, h2⟩ := hc.cost_moveR bmi it.passToSparse.s c
  refine ⟨h1, fun a ha => ?_⟩
  obtain ⟨k, h3, h4⟩ := h2 a ha
  have e : sCost it.passToSparse.s = sCost it.s := rfl
  have := sPaid_le it.s
  exact ⟨k, by unfold itPaid; show _ ≤ _ + (dPaid it.d + sPaid a); omega, h4⟩

theorem cost_incr {f : SuRF} (hc : Close f.ls) (hn : Near f.ld) (bmi : Bool) (it : Iterator) (hs : DSteep it.d) (hd : it.d.posInTrie.length = f.ld.height) :
    Grow itPaid (sPaid it.s) (incrDense bmi f it) (it.incrDense bmi f) (9 * dVis it.d + 6) := by
  refine grow_ite (fun _ => grow_pure (by unfold itPaid; omega)) (fun hv => ?_)
  refine Grow.bind (l := fun d => dPaid d + sPaid it.s) (N := 9 * dVis it.d + 3) (M := 3) ?_ (fun d _ => ?_) (by omega)
  · intro c
    obtain ⟨h1, h2⟩ := hn.cost_next it.d hs (by simpa using hv) hd c
    refine ⟨h1, fun a ha => ?_⟩
    obtain ⟨k, h3, h4⟩ := h2 a ha
    exact ⟨k, by show _ ≤ _ + (dPaid a + sPaid it.s); omega, h4⟩
  · refine grow_ite (fun _ => grow_pure (by unfold itPaid; simp)) (fun _ => grow_ite (fun _ => grow_pure (by unfold itPaid; simp)) (fun _ => ?_))
    exact cost_into hc bmi { it with d := d }

theorem cost_decr {f : SuRF} (hc : Close f.ls) (hb : Behind f.ld) (hh : f.ld.height < 2 ^ 32) (bmi : Bool) (it : Iterator) (hs : DSteep it.d) (hd : it.d.posInTrie.length = f.ld.height) :
    Grow itPaid (sPaid it.s) (decrDense bmi f it) (it.decrDense bmi f) (10 * dVis it.d + 6) := by
  refine grow_ite (fun _ => grow_pure (by unfold itPaid; omega)) (fun hv => ?_)
  refine Grow.bind (l := fun d => dPaid d + sPaid it.s) (N := 10 * dVis it.d + 3) (M := 3) ?_ (fun d _ => ?_) (by omega)
  · intro c
    obtain ⟨h1, h2⟩ := hb.cost_prev hh it.d hs (by simpa using hv) hd c
    refine ⟨h1, fun a ha => ?_⟩
    obtain ⟨k, h3, h4⟩ := h2 a ha
    exact ⟨k, by show _ ≤ _ + (dPaid a + sPaid it.s); omega, h4⟩
  · refine grow_ite (fun _ => grow_pure (by unfold itPaid; simp)) (fun _ => grow_ite (fun _ => grow_pure (by unfold itPaid; simp)) (fun _ => ?_))
    exact cost_intoR hc bmi { it with d := d }

/-- The key of either part, if it has one, has at least a byte for each level. -/
structure Steep (it : Iterator) : Prop where
  d : DSteep it.d
  s : it.s.valid = true → it.s.level < it.s.keyBuf.length

theorem cost_next {f : SuRF} (hc : Close f.ls) (hn : Near f.ld) (bmi : Bool) (it : Iterator) (hs : Steep it) (hd : it.d.posInTrie.length = f.ld.height) :
    Grow itPaid 0 (next bmi f it) (it.next bmi f) (9 * dVis it.d + sVis it.s + 10) := by
  refine grow_ite (fun hv => ?_) (fun _ => ((cost_incr hc hn bmi it hs.d hd).weak (Nat.zero_le _)).less (by omega))
  have e : sVis it.s = it.s.keyBuf.length := by unfold sVis; rw [if_pos hv]
  rw [e]
  refine Grow.bind (l := sPaid) (N := it.s.keyBuf.length + 4) (M := 9 * dVis it.d + 6) (hc.cost_sNext bmi it.s (hs.s hv)) (fun s _ => ?_) (by omega)
  exact grow_ite (fun _ => grow_pure (by unfold itPaid; simp; omega)) (fun _ => cost_incr hc hn bmi { it with s := s } hs.d hd)

theorem cost_prev {f : SuRF} (hc : Close f.ls) (hb : Behind f.ld) (hh : f.ld.height < 2 ^ 32) (bmi : Bool) (it : Iterator) (hs : Steep it) (hd : it.d.posInTrie.length = f.ld.height) :
    Grow itPaid 0 (prev bmi f it) (it.prev bmi f) (10 * dVis it.d + sVis it.s + 10) := by
  refine grow_ite (fun hv => ?_) (fun _ => ((cost_decr hc hb hh bmi it hs.d hd).weak (Nat.zero_le _)).less (by omega))
  have e : sVis it.s = it.s.keyBuf.length := by unfold sVis; rw [if_pos hv]
  rw [e]
  refine Grow.bind (l := sPaid) (N := it.s.keyBuf.length + 4) (M := 10 * dVis it.d + 6) (hc.cost_sPrev bmi it.s (hs.s hv)) (fun s _ => ?_) (by omega)
  exact grow_ite (fun _ => grow_pure (by unfold itPaid; simp; omega)) (fun _ => cost_decr hc hb hh bmi { it with s := s } hs.d hd)

end Cnt

theorem str_ge : ∀ r : List Frame, r.length ≤ (str r).length
  | [] => Nat.le_refl _
  | f :: r => by
    have := str_ge r
    show _ ≤ (str r ++ f.t.pre ++ [f.i.label]).length
    simp only [List.length_append, List.length_cons, List.length_nil]
    omega

theorem Stand.steep {t0 : Grp} {cut h : Nat} {it : Iterator} {W : List Frame} {t : Grp} {ip iq : List Item} {i : Item} (hs : Stand t0 cut h it W t ip i iq) : Cnt.Steep it := by
  rcases hs with ⟨h1, h2⟩ | ⟨R, r, T, sc, l, rc, rfl, h1, -, -, h2⟩
  · refine ⟨fun _ _ => ?_, fun hv => by rw [h2.valid] at hv; cases hv⟩
    have := str_ge W
    rcases h1.place with ⟨-, -, h3⟩ | ⟨-, -, j, iq', -, h3⟩
    all_goals
      rw [h3.lev, h3.buf]
      simp only [List.length_append, List.length_cons, List.length_nil]
      omega
  · refine ⟨fun _ h0 => ?_, fun _ => ?_⟩
    · have := str_ge R
      have h3 := h1.szp
      rw [h1.lev (by omega), h1.buf]
      have := h1.len
      omega
    · have := str_ge r
      rw [h2.place.lev, h2.place.buf]
      simp only [List.length_append, List.length_cons, List.length_nil]
      omega

end Surf
