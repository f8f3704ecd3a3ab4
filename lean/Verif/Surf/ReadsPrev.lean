import Verif.Surf.ReadsSeek
import Verif.Surf.ReadsNear

/-! `Prev` and `SeekToLast` of an iterator once more, counting what they read of the filter, as in `Surf/ReadsIter.lean`. -/

set_option linter.unusedSimpArgs false

namespace Surf
namespace Cnt

/-! ## Parts -/

/-- bits_vec.go:124-132: the loop of `DistanceToPrevSetBit` -/
def distPrevLoop (v : BitVector) : Nat → Nat → Cnt Nat
  | 0, distance => pure distance
  | wordOff + 1, distance => do
    let testBits ← rd 1 v.bits[wordOff]?
    if testBits ≠ 0#64 then return distance + leadingZeros testBits
    else distPrevLoop v wordOff (distance + 64)

/-- bits_vec.go:110-133 `DistanceToPrevSetBit` -/
def distanceToPrevSetBit (v : BitVector) (pos : Nat) : Cnt Nat :=
  if pos = 0 then pure 1 else do
    let distance := 1
    let wordOff := (pos - 1) / 64
    let bitsOff := (pos - 1) % 64
    let w ← rd 1 v.bits[wordOff]?
    let testBits := w <<< (64 - 1 - bitsOff)
    if testBits ≠ 0#64 then return distance + leadingZeros testBits
    else distPrevLoop v wordOff (distance + (bitsOff + 1))

/-! ## denseIter -/

/-- louds_dense.go:164-170 `prevPos` -/
def prevPos (ld : LoudsDense) (pos : Nat) : Cnt (Nat × Bool) := do
  let d ← distanceToPrevSetBit ld.labelVec.bv pos
  return if pos ≤ d then (0, true) else (pos - d, false)

/-- louds_dense.go:420-439 -/
def dRightLoop (ld : LoudsDense) : Nat → DenseIter → Nat → Cnt DenseIter
  | 0, it, pos => do
    let c ← rankDense ld.hasChildVec pos
    return { it with sendOutNodeID := c, sendOutDepth := it.keyBuf.length }.flags true true false
  | n + 1, it, pos => do
    let nodeID ← rankDense ld.hasChildVec pos
    let (pos, out) ← prevPos ld ((nodeID + 1) * denseFanout)
    if out then return { it with level := it.level + 1, valid := false }
    else do
      let it ← dAppend ld { it with level := it.level + 1 } pos
      let h ← isSet ld.hasChildVec.bv pos
      if !h then return it.flags true true true else dRightLoop ld n it pos

/-- louds_dense.go:413-440 `MoveToRightMostKey` -/
def dMoveRight (ld : LoudsDense) (it : DenseIter) : Cnt DenseIter := do
  let pos ← free it.posInTrie[it.level]?
  let h ← isSet ld.hasChildVec.bv pos
  if !h then return it.flags true true true else dRightLoop ld (ld.height - 1 - it.level) it pos

/-- louds_dense.go:450-453 `SetToLastInRoot` -/
def dLast (ld : LoudsDense) (it : DenseIter) : Cnt DenseIter := do
  let (p, _) ← prevPos ld denseFanout
  dAppend ld it p

/-- louds_dense.go:234-238, 240-246, 253-258 -/
def dPrevHere (ld : LoudsDense) (ps : List Nat) (lev : Nat) : Cnt (Option DenseIter.PrevRes) := do
  let pos ← free ps[lev]?
  let (pp, out) ← prevPos ld pos
  if out then return some (.out lev)
  else if pp / denseFanout < pos / denseFanout then do
    let p ← isSet ld.isPrefixVec.bv (pos / denseFanout)
    if p then return some (.atPrefix lev) else return none
  else return some (.found lev pp)

/-- louds_dense.go:234-261 -/
def dPrevLoop (ld : LoudsDense) (ps : List Nat) : Nat → Cnt DenseIter.PrevRes
  | 0 => do
    match ← dPrevHere ld ps 0 with
    | some r => return r
    | none => return .out 0
  | lev + 1 => do
    match ← dPrevHere ld ps (lev + 1) with
    | some r => return r
    | none => dPrevLoop ld ps lev

/-- louds_dense.go:226-264 `Prev` -/
def dPrev (ld : LoudsDense) (it : DenseIter) : Cnt DenseIter :=
  if ld.height = 0 then pure it
  else do
    let it := if it.atPrefixKey then { it with atPrefixKey := false, level := dec32 it.level } else it
    match ← dPrevLoop ld it.posInTrie it.level with
    | .out lev => return { it with level := lev, valid := false }
    | .atPrefix lev => do
      let it ← free ({ it with level := lev }.truncate)
      return { it with atPrefixKey := true }.flags true true true
    | .found lev pp => do
      let it ← free ({ it with level := lev }.setAt pp)
      dMoveRight ld it

/-! ## sparseIter -/

/-- louds_sparse.go:181-188 `lastLabelPos` -/
def lastLabelPos (bmi : Bool) (ls : LoudsSparse) (nodeID : Nat) : Cnt Nat := do
  let nextRank ← free (usub (nodeID + 2) ls.denseNodeCount)
  if nextRank > ls.loudsVec.numOnes then free (usub ls.loudsVec.bv.numBits 1)
  else do
    let p ← select bmi ls.loudsVec nextRank
    free (usub p 1)

/-- louds_sparse.go:446-462 -/
def sDownRight (bmi : Bool) (ls : LoudsSparse) : Nat → SparseIter → Nat → Cnt SparseIter
  | 0, _, _ => free none
  | n + 1, it, pos => do
    let nodeID ← sChildNodeID ls pos
    let pos ← lastLabelPos bmi ls nodeID
    let label ← rd 1 (ls.labelVec.getLabel pos)
    let h ← isSet ls.hasChildVec.bv pos
    let it ← sAppend ls { it with level := it.level + 1 } label pos nodeID
    if !h then atLeaf ls it pos label else sDownRight bmi ls n it pos

/-- louds_sparse.go:429-433 -/
def sEnterRight (bmi : Bool) (ls : LoudsSparse) (it : SparseIter) : Cnt SparseIter :=
  if it.keyBuf.length = 0 then do
    let pos ← lastLabelPos bmi ls it.startNodeID
    let label ← rd 1 (ls.labelVec.getLabel pos)
    sAppend ls it label pos it.startNodeID
  else pure it

/-- louds_sparse.go:428-463 `MoveToRightMostKey` -/
def sMoveRight (bmi : Bool) (ls : LoudsSparse) (it : SparseIter) : Cnt SparseIter := do
  let it ← sEnterRight bmi ls it
  let pos ← free it.posInTrie[it.level]?
  let label ← rd 1 (ls.labelVec.getLabel pos)
  let h ← isSet ls.hasChildVec.bv pos
  if !h then atLeaf ls it pos label else sDownRight bmi ls (ls.sparseLevels - it.level) it pos

/-- louds_sparse.go:470-473 `SetToLastInRoot` -/
def sLast (bmi : Bool) (ls : LoudsSparse) (it : SparseIter) : Cnt SparseIter := do
  let p ← lastLabelPos bmi ls 0
  let ps ← free (putAt it.posInTrie 0 p)
  let l ← rd 1 (ls.labelVec.getLabel p)
  return { it with posInTrie := ps, keyBuf := [l] }

/-- louds_sparse.go:255-258, 264-265 -/
def sPrevHere (ls : LoudsSparse) (ps : List Nat) (lev : Nat) : Cnt (Option Nat) := do
  let pos ← free ps[lev]?
  let b ← isSet ls.loudsVec.bv pos
  if b then return none
  else do
    let p ← free (usub pos 1)
    return some p

/-- louds_sparse.go:258-266 -/
def sPrevLoop (ls : LoudsSparse) (ps : List Nat) : Nat → Cnt (Option (Nat × Nat))
  | 0 => do
    match ← sPrevHere ls ps 0 with
    | none => return none
    | some pp => return some (0, pp)
  | lev + 1 => do
    match ← sPrevHere ls ps (lev + 1) with
    | none => sPrevLoop ls ps lev
    | some pp => return some (lev + 1, pp)

/-- louds_sparse.go:249-270 `Prev` -/
def sPrev (bmi : Bool) (ls : LoudsSparse) (it : SparseIter) : Cnt SparseIter := do
  let it := { it with atTerminator := false }
  let pos ← free it.posInTrie[it.level]?
  if pos = 0 then return { it with valid := false }
  else do
    match ← sPrevLoop ls it.posInTrie it.level with
    | none => return { it with level := 0, valid := false, keyBuf := [] }
    | some (lev, pp) => do
      let it ← sSetAt ls { it with level := lev } pp
      sMoveRight bmi ls it

/-! ## Iterator -/

/-- surf.go:209-212 and `MoveToRightMostKey` -/
def intoSparseRight (bmi : Bool) (f : SuRF) (it : Iterator) : Cnt Iterator := do
  let s ← sMoveRight bmi f.ls it.passToSparse.s
  return { it with s := s }

/-- surf.go:240-256 `decrDenseIter` -/
def decrDense (bmi : Bool) (f : SuRF) (it : Iterator) : Cnt Iterator :=
  if !it.d.valid then pure it
  else do
    let d ← dPrev f.ld it.d
    let it := { it with d := d }
    if !d.valid then return it
    else if d.rightComp then return it
    else intoSparseRight bmi f it

/-- surf.go:115-120 `Prev`, with `decrSparseIter` (258-264) -/
def prev (bmi : Bool) (f : SuRF) (it : Iterator) : Cnt Iterator :=
  if it.s.valid then do
    let s ← sPrev bmi f.ls it.s
    let it := { it with s := s }
    if s.valid then return it else decrDense bmi f it
  else decrDense bmi f it

/-- surf.go:169-184 `SeekToLast` -/
def seekToLast (bmi : Bool) (f : SuRF) (it : Iterator) : Cnt Iterator :=
  let it := it.reset
  if f.ld.height > 0 then do
    let d ← dLast f.ld it.d
    let d ← dMoveRight f.ld d
    let it := { it with d := d }
    if d.rightComp then return it else intoSparseRight bmi f it
  else if f.ls.height > 0 then do
    let s ← sLast bmi f.ls it.s
    let s ← sMoveRight bmi f.ls s
    return { it with s := s }
  else pure it

/-! ## Counting -/

theorem prevLoop_ge (v : BitVector) : ∀ (wordOff distance d : Nat), v.distPrevLoop wordOff distance = some d → distance ≤ d := by
  intro wordOff
  induction wordOff with
  | zero => intro distance d h; cases h; omega
  | succ k ih =>
    intro distance d h
    unfold BitVector.distPrevLoop at h
    obtain ⟨w, -, h⟩ := Option.bind_eq_some_iff.mp h
    split at h
    · cases h; omega
    · have := ih _ _ h
      omega

theorem tally_prevLoop (v : BitVector) : ∀ (wordOff distance N : Nat), (∀ d, v.distPrevLoop wordOff distance = some d → d < distance + 64 * N) →
    Tally (distPrevLoop v wordOff distance) (v.distPrevLoop wordOff distance) N := by
  intro k
  induction k with
  | zero => intro distance N _; exact tally_pure _ _
  | succ k ih =>
    intro distance N h
    by_cases hN : N = 0
    · subst hN
      have hnone : v.distPrevLoop (k + 1) distance = none := by
        cases e : v.distPrevLoop (k + 1) distance with
        | none => rfl
        | some d =>
          have h1 := h d e
          have h2 := prevLoop_ge _ _ _ _ e
          omega
      refine Tally.of (M := k + 1) ?_ (fun a ha => by rw [hnone] at ha; cases ha)
      clear h hnone ih
      induction k generalizing distance with
      | zero => exact (tally_rd 1 _).bind (fun w _ => tally_ite (fun _ => tally_pure _ 0) (fun _ => tally_pure _ _)) (Nat.le_refl _)
      | succ k ih => exact (tally_rd 1 _).bind (fun w _ => tally_ite (fun _ => tally_pure _ (k + 1)) (fun _ => ih _)) (by omega)
    · unfold distPrevLoop BitVector.distPrevLoop
      unfold BitVector.distPrevLoop at h
      refine (tally_rd 1 _).bind (M := N - 1) (fun w hw => tally_ite (fun _ => tally_pure _ _) (fun hz => ih _ _ (fun d hd => ?_))) (by omega)
      have := h d (by
        rw [hw]
        show (if w ≠ 0#64 then _ else _) = _
        rw [if_neg hz]
        exact hd)
      omega

/-- `DistanceToPrevSetBit` reads the words between the two positions. -/
theorem tally_distPrev (v : BitVector) (pos N : Nat) (h : ∀ d, v.distanceToPrevSetBit pos = some d → d < 2 + 64 * N) : Tally (distanceToPrevSetBit v pos) (v.distanceToPrevSetBit pos) (N + 1) := by
  unfold distanceToPrevSetBit BitVector.distanceToPrevSetBit
  unfold BitVector.distanceToPrevSetBit at h
  dsimp only at h ⊢
  refine tally_ite (fun _ => tally_pure _ _) (fun h1 => ?_)
  refine (tally_rd 1 _).bind (M := N) (fun w hw => tally_ite (fun _ => tally_pure _ _) (fun h2 => ?_)) (by omega)
  refine tally_prevLoop _ _ _ _ (fun d hd => ?_)
  have := h d (by
    rw [if_neg h1, hw]
    show (if _ then _ else _) = _
    rw [if_neg h2]
    exact hd)
  omega

/-- The labels of the dense part lie close together, and there is one in every child node. -/
structure Behind (ld : LoudsDense) : Prop where
  dist : ∀ pos d, ld.labelVec.bv.distanceToPrevSetBit pos = some d → d ≤ 512
  down : ∀ pos c p out, ld.hasChildVec.bv.isSet pos = some true → ld.childNodeID pos = some c → ld.prevPos ((c + 1) * denseFanout) = some (p, out) → out = false

theorem Behind.tally_prev {ld : LoudsDense} (hb : Behind ld) (pos : Nat) : Tally (prevPos ld pos) (ld.prevPos pos) 9 :=
  (tally_distPrev _ _ 8 (fun d hd => by have := hb.dist pos d hd; omega)).bind (M := 0) (fun _ _ => tally_pure _ _) (by omega)

theorem rightLoop_sz {ld : LoudsDense} (hb : Behind ld) : ∀ {n : Nat} {it it' : DenseIter} {pos : Nat}, ld.hasChildVec.bv.isSet pos = some true → DenseIter.rightLoop ld n it pos = some it' →
    it'.valid = true ∧ it'.posInTrie.length = it.posInTrie.length := by
  intro n
  induction n with
  | zero =>
    intro it it' pos _ h
    obtain ⟨c, -, h⟩ := Option.bind_eq_some_iff.mp h
    cases h
    exact ⟨rfl, rfl⟩
  | succ n ih =>
    intro it it' pos hs h
    unfold DenseIter.rightLoop at h
    obtain ⟨c, hc, h⟩ := Option.bind_eq_some_iff.mp h
    obtain ⟨⟨p, out⟩, hp, h⟩ := Option.bind_eq_some_iff.mp h
    cases hb.down _ _ _ _ hs hc hp
    dsimp only at h
    rw [if_neg (by simp)] at h
    obtain ⟨it1, h1, h⟩ := Option.bind_eq_some_iff.mp h
    have h1 := dAppend_sz h1
    dsimp only at h1
    obtain ⟨b, hs', h⟩ := Option.bind_eq_some_iff.mp h
    split at h
    · cases h; exact ⟨rfl, h1⟩
    · next hb' =>
      have hb' : b = true := by simpa using hb'
      subst hb'
      obtain ⟨h2, h3⟩ := ih hs' h
      exact ⟨h2, h3.trans h1⟩

theorem moveRight_vis {ld : LoudsDense} (hb : Behind ld) {it it' : DenseIter} (h : it.moveRight ld = some it') : dVis it' = it'.keyBuf.length := by
  unfold DenseIter.moveRight at h
  obtain ⟨_, h1, h⟩ := Option.bind_eq_some_iff.mp h
  have h1 := (List.getElem?_eq_some_iff.mp h1).1
  obtain ⟨b, hs, h⟩ := Option.bind_eq_some_iff.mp h
  have key : it'.valid = true ∧ it'.posInTrie.length = it.posInTrie.length := by
    split at h
    · cases h; exact ⟨rfl, rfl⟩
    · next hb' =>
      have hb' : b = true := by simpa using hb'
      subst hb'
      exact rightLoop_sz hb hs h
  unfold dVis
  rw [if_pos ⟨key.1, by omega⟩]

theorem Behind.grow_right {ld : LoudsDense} (hb : Behind ld) : ∀ (n : Nat) (it : DenseIter) (pos : Nat), Grow dLen it.keyBuf.length (dRightLoop ld n it pos) (it.rightLoop ld n pos) (24 * n + 2) := by
  intro n
  induction n with
  | zero => intro it pos; exact (tally_rankDense _ _).grow (M := 0) (fun c _ => grow_pure (by simp [dLen, DenseIter.flags])) (by omega)
  | succ n ih =>
    intro it pos
    refine (tally_rankDense _ _).grow (M := 24 * n + 24) (fun nodeID _ => (hb.tally_prev _).grow (M := 24 * n + 15) (fun r _ => ?_) (by omega)) (by omega)
    obtain ⟨p, out⟩ := r
    refine grow_ite (fun _ => grow_pure (by simp [dLen])) (fun _ => ?_)
    refine Grow.bind (l := dLen) (N := 12) (M := 24 * n + 3) (g := it.keyBuf.length) (grow_dAppend ld { it with level := it.level + 1 } p) (fun it' _ => ?_) (by omega)
    exact (tally_isSet _ _).grow (M := 24 * n + 2) (fun h _ => grow_ite (fun _ => grow_pure (by simp [dLen, DenseIter.flags])) (fun _ => ih _ _)) (by omega)

theorem Behind.grow_moveV {ld : LoudsDense} (hb : Behind ld) (it : DenseIter) : Grow dVis it.keyBuf.length (dMoveRight ld it) (it.moveRight ld) (24 * ld.height + 3) :=
  Grow.len (len := dLen) ((tally_free _).grow (M := 24 * ld.height + 3) (fun pos _ => (tally_isSet _ _).grow (M := 24 * ld.height + 2) (fun h _ => grow_ite (fun _ => grow_pure (by simp [dLen, DenseIter.flags])) (fun _ => (hb.grow_right _ _ _).less (by omega)))
    (by omega)) (by omega)) (fun a ha => by rw [moveRight_vis hb ha])

theorem Behind.tally_here {ld : LoudsDense} (hb : Behind ld) (ps : List Nat) (lev : Nat) : Tally (dPrevHere ld ps lev) (DenseIter.prevHere ld ps lev) 10 := by
  refine (tally_free _).bind (M := 10) (fun pos _ => (hb.tally_prev pos).bind (M := 1) (fun r _ => ?_) (by omega)) (by omega)
  obtain ⟨pp, out⟩ := r
  exact tally_ite (fun _ => tally_pure _ _) (fun _ => tally_ite (fun _ => (tally_isSet _ _).bind (M := 0) (fun p _ => tally_ite (fun _ => tally_pure _ _) (fun _ => tally_pure _ _)) (by omega)) (fun _ => tally_pure _ _))

theorem Behind.tally_loop {ld : LoudsDense} (hb : Behind ld) (ps : List Nat) : ∀ lev, Tally (dPrevLoop ld ps lev) (DenseIter.prevLoop ld ps lev) (10 * (lev + 1)) := by
  intro lev
  induction lev with
  | zero => exact (hb.tally_here _ _).bind (M := 0) (fun r _ => by cases r <;> exact tally_pure _ _) (by omega)
  | succ lev ih => exact (hb.tally_here _ _).bind (M := 10 * (lev + 1)) (fun r _ => by cases r; exact ih; exact tally_pure _ _) (by omega)

theorem dPrevLoop_lt {ld : LoudsDense} {ps : List Nat} {lev : Nat} {r : DenseIter.PrevRes} (h : DenseIter.prevLoop ld ps lev = some r) : lev < ps.length := by
  have key : ∀ {l : Nat} {r : Option DenseIter.PrevRes}, DenseIter.prevHere ld ps l = some r → l < ps.length := by
    intro l r h
    unfold DenseIter.prevHere at h
    obtain ⟨pos, hp, -⟩ := Option.bind_eq_some_iff.mp h
    exact (List.getElem?_eq_some_iff.mp hp).1
  cases lev with
  | zero =>
    obtain ⟨x, hx, -⟩ := Option.bind_eq_some_iff.mp h
    exact key hx
  | succ lev =>
    obtain ⟨x, hx, -⟩ := Option.bind_eq_some_iff.mp h
    exact key hx

theorem Behind.grow_prev {ld : LoudsDense} (hb : Behind ld) (it : DenseIter) (hl : it.posInTrie.length = ld.height) : Grow dVis 0 (dPrev ld it) (it.prev ld) (34 * ld.height + 3) := by
  refine grow_ite (fun _ => grow_pure (Nat.zero_le _)) (fun _ => ?_)
  dsimp only
  have hl' : (if it.atPrefixKey then { it with atPrefixKey := false, level := dec32 it.level } else it).posInTrie.length = ld.height := by split <;> exact hl
  generalize (if it.atPrefixKey then { it with atPrefixKey := false, level := dec32 it.level } else it) = it at *
  refine Tally.grow (N := 10 * ld.height) (M := 24 * ld.height + 3) ((hb.tally_loop it.posInTrie it.level).of (fun a ha => ?_)) (fun r _ => ?_) (by omega)
  · have := dPrevLoop_lt ha
    omega
  · cases r with
    | out lev => exact grow_pure (Nat.zero_le _)
    | atPrefix lev => exact (tally_free _).grow (M := 0) (fun it' _ => grow_pure (Nat.zero_le _)) (by omega)
    | found lev pp => exact (tally_free _).grow (M := 24 * ld.height + 3) (fun it' _ => (hb.grow_moveV it').weak (Nat.zero_le _)) (by omega)

theorem Behind.grow_last {ld : LoudsDense} (hb : Behind ld) (it : DenseIter) : Grow dLen it.keyBuf.length (dLast ld it) (it.setToLastInRoot ld) 21 :=
  (hb.tally_prev _).grow (M := 12) (fun r _ => grow_dAppend ld it r.1) (by omega)

/-! ### The sparse part -/

theorem Close.tally_last {ls : LoudsSparse} (h : Close ls) (bmi : Bool) (id : Nat) : Tally (lastLabelPos bmi ls id) (ls.lastLabelPos bmi id) 255 :=
  (tally_free _).bind (M := 255) (fun _ _ => tally_ite (fun _ => (tally_free _).less (Nat.zero_le _)) (fun _ => (h.tally_select _ _).bind (M := 0) (fun _ _ => tally_free _) (by omega))) (by omega)

theorem Close.grow_downR {ls : LoudsSparse} (hc : Close ls) (bmi : Bool) : ∀ (n : Nat) (it : SparseIter) (pos : Nat), Grow sLen it.keyBuf.length (sDownRight bmi ls n it pos) (it.downLoop bmi ls false n pos) (278 * n + 1) := by
  intro n
  induction n with
  | zero => intro it pos; exact grow_none
  | succ n ih =>
    intro it pos
    refine (tally_sChild _ _).grow (M := 278 * n + 270) (fun nodeID _ => ?_) (by omega)
    refine (hc.tally_last _ _).grow (M := 278 * n + 15) (fun pos _ => ?_) (by omega)
    refine (tally_rd 1 _).grow (M := 278 * n + 14) (fun label _ => (tally_isSet _ _).grow (M := 278 * n + 13) (fun h _ => ?_) (by omega)) (by omega)
    refine Grow.bind (l := sLen) (N := 12) (M := 278 * n + 1) (g := it.keyBuf.length) (grow_sAppend ls { it with level := it.level + 1 } label pos nodeID) (fun it' _ => grow_ite (fun _ => (grow_atLeaf _ _ _ _).less (by omega)) (fun _ => ih _ _)) (by omega)

theorem Close.grow_enterR {ls : LoudsSparse} (hc : Close ls) (bmi : Bool) (it : SparseIter) : Grow sLen it.keyBuf.length (sEnterRight bmi ls it) (it.enter bmi ls false) 268 :=
  grow_ite (fun _ => (hc.tally_last _ _).grow (M := 13) (fun pos _ => (tally_rd 1 _).grow (M := 12) (fun label _ => grow_sAppend _ _ _ _ _) (by omega)) (by omega)) (fun _ => grow_pure (by simp))

theorem Close.grow_moveR {ls : LoudsSparse} (hc : Close ls) (bmi : Bool) (it : SparseIter) : Grow sVis it.keyBuf.length (sMoveRight bmi ls it) (it.move bmi ls false) (278 * ls.sparseLevels + 271) := by
  refine Grow.len (len := sLen) ?_ (fun a ha => by unfold sVis sLen; rw [move_valid ha, if_pos rfl])
  refine (hc.grow_enterR bmi it).bind (M := 278 * ls.sparseLevels + 3) (fun it' _ => ?_) (by omega)
  refine (tally_free _).grow (M := 278 * ls.sparseLevels + 3) (fun pos _ => (tally_rd 1 _).grow (M := 278 * ls.sparseLevels + 2) (fun label _ => (tally_isSet _ _).grow (M := 278 * ls.sparseLevels + 1) (fun h _ => ?_) (by omega)) (by omega)) (by omega)
  exact grow_ite (fun _ => (grow_atLeaf _ _ _ _).less (by omega)) (fun _ => (hc.grow_downR bmi _ _ _).less (by omega))

theorem tally_sPrevHere (ls : LoudsSparse) (ps : List Nat) (lev : Nat) : Tally (sPrevHere ls ps lev) (SparseIter.prevHere ls ps lev) 1 :=
  (tally_free _).bind (M := 1) (fun pos _ => (tally_isSet _ _).bind (M := 0) (fun b _ => tally_ite (fun _ => tally_pure _ _) (fun _ => (tally_free _).bind (M := 0) (fun p _ => tally_pure _ _) (by omega))) (by omega)) (by omega)

theorem tally_sPrevLoop (ls : LoudsSparse) (ps : List Nat) : ∀ lev, Tally (sPrevLoop ls ps lev) (SparseIter.prevLoop ls ps lev) (lev + 1) := by
  intro lev
  induction lev with
  | zero => exact (tally_sPrevHere _ _ _).bind (M := 0) (fun r _ => by cases r <;> exact tally_pure _ _) (by omega)
  | succ lev ih => exact (tally_sPrevHere _ _ _).bind (M := lev + 1) (fun r _ => by cases r; exact ih; exact tally_pure _ _) (by omega)

theorem Close.grow_sPrev {ls : LoudsSparse} (hc : Close ls) (bmi : Bool) (it : SparseIter) (hl : it.posInTrie.length = ls.sparseLevels) : Grow sVis 0 (sPrev bmi ls it) (it.prev bmi ls) (279 * ls.sparseLevels + 272) := by
  unfold sPrev SparseIter.prev
  refine (tally_free _).grow (M := 279 * ls.sparseLevels + 272) (fun pos hp => grow_ite (fun _ => grow_pure (Nat.zero_le _)) (fun _ => ?_)) (by omega)
  have hlt := (List.getElem?_eq_some_iff.mp hp).1
  dsimp only at hlt
  refine Tally.grow (N := ls.sparseLevels) (M := 278 * ls.sparseLevels + 272) ((tally_sPrevLoop ls it.posInTrie it.level).less (by omega)) (fun r _ => ?_) (by omega)
  cases r with
  | none => exact grow_pure (by omega)
  | some r => exact (tally_sSetAt _ _ _).grow (M := 278 * ls.sparseLevels + 271) (fun it' _ => (hc.grow_moveR bmi it').weak (Nat.zero_le _)) (by omega)

/-! ### The whole -/

theorem grow_intoR {f : SuRF} (hc : Close f.ls) (bmi : Bool) (it : Iterator) : Grow itLen (itLen it) (intoSparseRight bmi f it) (it.intoSparse bmi f false) (278 * f.ls.sparseLevels + 271) := by
  refine Grow.bind (l := fun s => dVis it.d + sVis s) (N := 278 * f.ls.sparseLevels + 271) (M := 0) ?_ (fun s _ => grow_pure (by simp [itLen])) (by omega)
  intro c
  obtain ⟨h1, h2⟩ := hc.grow_moveR bmi it.passToSparse.s c
  refine ⟨h1, fun a ha => ?_⟩
  obtain ⟨k, h3, h4⟩ := h2 a ha
  have e : it.passToSparse.s.keyBuf = it.s.keyBuf := rfl
  rw [e] at h3
  have e2 : sVis it.s ≤ it.s.keyBuf.length := by unfold sVis; split <;> omega
  exact ⟨k, by unfold itLen; show _ ≤ _ + (dVis it.d + sVis a); omega, h4⟩

theorem grow_decr {f : SuRF} (hc : Close f.ls) (hb : Behind f.ld) (bmi : Bool) (it : Iterator) (hd : it.d.posInTrie.length = f.ld.height) :
    Grow itLen (sVis it.s) (decrDense bmi f it) (it.decrDense bmi f) (34 * f.ld.height + 278 * f.ls.sparseLevels + 274) := by
  refine grow_ite (fun _ => grow_pure (by unfold itLen; omega)) (fun _ => ?_)
  refine Grow.bind (l := fun d => dVis d + sVis it.s) (N := 34 * f.ld.height + 3) (M := 278 * f.ls.sparseLevels + 271) ?_ (fun d _ => ?_) (by omega)
  · intro c
    obtain ⟨h1, h2⟩ := hb.grow_prev it.d hd c
    refine ⟨h1, fun a ha => ?_⟩
    obtain ⟨k, h3, h4⟩ := h2 a ha
    exact ⟨k, by show _ ≤ _ + (dVis a + sVis it.s); omega, h4⟩
  · refine grow_ite (fun _ => grow_pure (by unfold itLen; simp)) (fun _ => grow_ite (fun _ => grow_pure (by unfold itLen; simp)) (fun _ => ?_))
    exact grow_intoR hc bmi { it with d := d }

theorem grow_prev {f : SuRF} (hc : Close f.ls) (hb : Behind f.ld) (bmi : Bool) (it : Iterator) (hd : it.d.posInTrie.length = f.ld.height) (hs : it.s.posInTrie.length = f.ls.sparseLevels) :
    Grow itLen 0 (prev bmi f it) (it.prev bmi f) (34 * f.ld.height + 557 * f.ls.sparseLevels + 546) := by
  refine grow_ite (fun _ => ?_) (fun _ => ((grow_decr hc hb bmi it hd).weak (Nat.zero_le _)).less (by omega))
  refine Grow.bind (l := sVis) (N := 279 * f.ls.sparseLevels + 272) (M := 34 * f.ld.height + 278 * f.ls.sparseLevels + 274) (hc.grow_sPrev bmi it.s hs) (fun s _ => ?_) (by omega)
  exact grow_ite (fun _ => grow_pure (by unfold itLen; simp; omega)) (fun _ => grow_decr hc hb bmi { it with s := s } hd)

theorem grow_seekToLast {f : SuRF} (hc : Close f.ls) (hb : Behind f.ld) (bmi : Bool) (it : Iterator) (hd : 0 < f.ld.height) :
    Grow itLen 0 (seekToLast bmi f it) (it.seekToLast bmi f) (24 * f.ld.height + 278 * f.ls.sparseLevels + 295) := by
  unfold seekToLast Iterator.seekToLast
  dsimp only
  rw [if_pos hd, if_pos hd]
  refine Grow.bind (l := dLen) (N := 21) (M := 24 * f.ld.height + 278 * f.ls.sparseLevels + 274) ((hb.grow_last it.reset.d).weak (Nat.zero_le _)) (fun d _ => ?_) (by omega)
  refine Grow.bind (l := dVis) (N := 24 * f.ld.height + 3) (M := 278 * f.ls.sparseLevels + 271) (hb.grow_moveV d) (fun d _ => ?_) (by omega)
  refine grow_ite (fun _ => grow_pure (by unfold itLen; simp; omega)) (fun _ => ?_)
  exact (grow_intoR hc bmi { it.reset with d := d }).weak (by unfold itLen; simp)

end Cnt

/-! ### Built filters -/

theorem node_label : ∀ {ns : List Grp}, (∀ t ∈ ns, t.Good) → ∀ {c : Nat}, c < ns.length → ∃ q, c * 256 ≤ q ∧ q < (c + 1) * 256 ∧ (ns.flatMap fun t => mapBits (fun _ => true) t.items)[q]? = some true := by
  intro ns
  induction ns with
  | nil => intro _ c hc; simp at hc
  | cons t ns ih =>
    intro h c hc
    have hl := mapBits_length (fun _ => true) t.items
    cases c with
    | zero =>
      obtain ⟨q, hq⟩ := List.mem_iff_getElem?.mp (h t (by simp)).label
      have hlt := (List.getElem?_eq_some_iff.mp hq).1
      refine ⟨q, by omega, by omega, ?_⟩
      rw [List.flatMap_cons, List.getElem?_append_left hlt]
      exact hq
    | succ c =>
      obtain ⟨q, h1, h2, h3⟩ := ih (fun t ht => h t (List.mem_cons_of_mem _ ht)) (c := c) (by simpa using hc)
      refine ⟨q + 256, ?_, ?_, ?_⟩
      · clear hl hc; rw [Nat.add_mul]; exact Nat.add_le_add_right h1 _
      · clear hl hc; rw [Nat.add_mul]; exact Nat.add_lt_add_right h2 _
      rw [List.flatMap_cons, List.getElem?_append_right (by omega), hl]
      simpa using h3

theorem prev_le {v : BitVector} {pos d : Nat} (h : v.distanceToPrevSetBit pos = some d) : pos ≤ 64 * v.bits.length := by
  unfold BitVector.distanceToPrevSetBit at h
  split at h
  · omega
  · obtain ⟨w, hw, -⟩ := Option.bind_eq_some_iff.mp h
    have := (List.getElem?_eq_some_iff.mp hw).1
    omega

theorem DView.behind {cfg : Config} {fp : Bytes → Word} {ld : LoudsDense} {ns : List Grp} (h : DView cfg fp ld ns) (hok : ∀ t ∈ ns, t.Good) : Cnt.Behind ld := by
  have hlv := h.lv
  have hlen : (ns.flatMap fun t => mapBits (fun _ => true) t.items).length = 256 * ns.length := by rw [mapBits_flat_length, Nat.mul_comm]
  have hnw := hlv.numWords.1
  have near : ∀ {pos q d : Nat}, ld.labelVec.bv.distanceToPrevSetBit pos = some d → (ns.flatMap fun t => mapBits (fun _ => true) t.items)[q]? = some true → q < pos → d + q ≤ pos := by
    intro pos q d hd hq hlt
    have hp := prev_le hd
    rw [hlv.prev_dist (by omega)] at hd
    cases hd
    have := firstTrue_le (l := ((ns.flatMap fun t => mapBits (fun _ => true) t.items).take pos).reverse) (n := pos - 1 - q) (by rw [rev_take_get (by omega) (by omega), show pos - 1 - (pos - 1 - q) = q by omega, hq])
    omega
  refine ⟨fun pos d hd => ?_, fun pos c p out hs hc hp => ?_⟩
  · have hp := prev_le hd
    by_cases hlt : 256 < pos
    · obtain ⟨q, h1, h2, h3⟩ := node_label hok (c := (pos - 1) / 256 - 1) (by omega)
      have := near hd h3 (by omega)
      omega
    · rw [hlv.prev_dist (by omega)] at hd
      cases hd
      have : firstTrue ((ns.flatMap fun t => mapBits (fun _ => true) t.items).take pos).reverse ≤ ((ns.flatMap fun t => mapBits (fun _ => true) t.items).take pos).reverse.length := by
        unfold firstTrue
        exact List.findIdx_le_length
      rw [List.length_reverse, List.length_take] at this
      omega
  · have hcv : LV ld.hasChildVec (ns.flatMap fun t => mapBits Item.child t.items) := ⟨h.hc, by rw [mapBits_flat_length]; omega⟩
    have hl2 : (ns.flatMap fun t => mapBits Item.child t.items).length = 256 * ns.length := by rw [mapBits_flat_length, Nat.mul_comm]
    have hin : pos < (ns.flatMap fun t => mapBits Item.child t.items).length := by
      have hw := hcv.numWords.1
      have hs' := hs
      unfold BitVector.isSet at hs'
      obtain ⟨w, hw', -⟩ := Option.bind_eq_some_iff.mp hs'
      have := (List.getElem?_eq_some_iff.mp hw').1
      omega
    have hbit := hcv.isSet hs hin
    unfold LoudsDense.childNodeID at hc
    rw [h.hc.rankDense hin] at hc
    have hc1 : 1 ≤ c := by
      rw [← Option.some.inj hc]
      unfold ones
      refine List.one_le_count_iff.mpr (List.mem_iff_getElem?.mpr ⟨pos, ?_⟩)
      rw [List.getElem?_take, if_pos (by omega)]
      exact hbit
    unfold LoudsDense.prevPos at hp
    obtain ⟨d, hd, hp⟩ := Option.bind_eq_some_iff.mp hp
    have hle := prev_le hd
    have hf : denseFanout = 256 := rfl
    rw [hf] at hd hle hp
    obtain ⟨q, h1, h2, h3⟩ := node_label hok (c := c) (by omega)
    have := near hd h3 h2
    rw [if_neg (by omega)] at hp
    cases hp
    rfl

theorem Built.behind {cfg : Config} {fp : Bytes → Word} {s : SuRF} {t : Grp} {cut h : Nat} (B : Built cfg fp s t cut h) : Cnt.Behind s.ld := by
  refine B.dv.behind (fun x hx => ?_)
  unfold nodesIn at hx
  obtain ⟨i, -, hx⟩ := List.mem_flatMap.mp hx
  exact B.root.desc_ok hx

end Surf
