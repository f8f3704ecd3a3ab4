import Verif.Surf.FindLemmas
import Verif.Surf.Iter

/-!
# The slices `Get` and `Value` return

`valueVector.Get` (bits_vec.go:155-158) returns a part of the filter's own value bytes, `v.bytes[off : off+v.valueSize]`, not a copy. Here `Get` is modelled once more so that it returns where that
part begins, and it is shown that nothing but the values depends on the value bytes.
-/

set_option linter.unusedSimpArgs false

namespace Surf

/-! ## `Get` again, with places instead of values -/

/-- `loudsDense.Get` with the place of the value: `sparseNode`, `depth`, and the index of the value (louds_dense.go:54-92) -/
structure RefRes where
  sparseNode : Int
  depth : Nat
  ref : Option Nat
deriving Repr, DecidableEq

namespace LoudsDense

/-- louds_dense.go:66-69, 80-83: check the suffix at `valPos`; the value is the one at `valPos` -/
def finishRef (fp : Bytes → Word) (ld : LoudsDense) (key : Bytes) (depth valPos : Nat) : Option (Option Nat) := do
  let ok ← ld.suffixes.checkEquality fp valPos key (depth + 1)
  if ok then return some valPos else return none

/-- louds_dense.go:64-85 -/
def getAtRef (fp : Bytes → Word) (ld : LoudsDense) (key : Bytes) (depth nodeID : Nat) : Option (RefRes ⊕ Nat) :=
  let pos := nodeID * denseFanout
  if depth ≥ key.length then do
    let p ← ld.isPrefixVec.bv.isSet nodeID
    if p then do
      let valPos ← ld.suffixPos pos true
      let r ← ld.finishRef fp key depth valPos
      return .inl ⟨-1, depth, r⟩
    else return .inl ⟨-1, depth, none⟩
  else do
    let c ← key[depth]?
    let pos := pos + c.toNat
    let l ← ld.labelVec.bv.isSet pos
    if !l then return .inl ⟨-1, depth, none⟩
    else do
      let h ← ld.hasChildVec.bv.isSet pos
      if !h then do
        let valPos ← ld.suffixPos pos false
        let r ← ld.finishRef fp key depth valPos
        return .inl ⟨-1, depth, r⟩
      else return .inr pos

/-- louds_dense.go:56-91 -/
def getLoopRef (fp : Bytes → Word) (ld : LoudsDense) (key : Bytes) : Nat → Nat → Nat → Option RefRes
  | 0, depth, nodeID => some ⟨nodeID, depth, none⟩
  | n + 1, depth, nodeID => do
    let (prefixLen, ok) ← ld.prefixVec.checkPrefix key depth nodeID
    if !ok then return ⟨-1, depth, none⟩
    else do
      let depth := depth + prefixLen
      match ← ld.getAtRef fp key depth nodeID with
      | .inl r => return r
      | .inr pos => do
        let child ← ld.childNodeID pos
        getLoopRef fp ld key n (depth + 1) child

/-- louds_dense.go:54-92 `Get` -/
def getRef (fp : Bytes → Word) (ld : LoudsDense) (key : Bytes) : Option RefRes := ld.getLoopRef fp key ld.height 0 0

end LoudsDense

namespace LoudsSparse

/-- louds_sparse.go:82-86, 94-98 -/
def finishRef (fp : Bytes → Word) (ls : LoudsSparse) (key : Bytes) (depth pos : Nat) : Option (Option Nat) := do
  let valPos ← ls.suffixPos pos
  let ok ← ls.suffixes.checkEquality fp valPos key (depth + 1)
  if ok then return some valPos else return none

/-- louds_sparse.go:93-101 -/
def getTailRef (fp : Bytes → Word) (ls : LoudsSparse) (key : Bytes) (depth pos : Nat) : Option (Option Nat) := do
  let l ← ls.labelVec.getLabel pos
  if l = labelTerminator then do
    let h ← ls.hasChildVec.bv.isSet pos
    if !h then ls.finishRef fp key depth pos else return none
  else return none

/-- louds_sparse.go:66-91 -/
def getLoopRef (fp : Bytes → Word) (bmi : Bool) (ls : LoudsSparse) (key : Bytes) : Nat → Nat → Nat → Nat → Option (Option Nat)
  | 0, _, _, _ => none
  | fuel + 1, depth, nodeID, pos =>
    if depth < key.length then do
      let pid ← ls.prefixID nodeID
      let (prefixLen, ok) ← ls.prefixVec.checkPrefix key depth pid
      if !ok then return none
      else do
        let depth := depth + prefixLen
        if depth ≥ key.length then ls.getTailRef fp key depth pos
        else do
          let c ← key[depth]?
          let sz ← ls.nodeSize pos
          let (pos, ok) ← ls.labelVec.search c pos sz
          if !ok then return none
          else do
            let h ← ls.hasChildVec.bv.isSet pos
            if !h then ls.finishRef fp key depth pos
            else do
              let nodeID ← ls.childNodeID pos
              let pos ← ls.firstLabelPos bmi nodeID
              getLoopRef fp bmi ls key fuel (depth + 1) nodeID pos
    else ls.getTailRef fp key depth pos

/-- louds_sparse.go:60-102 `Get` -/
def getRef (fp : Bytes → Word) (bmi : Bool) (ls : LoudsSparse) (key : Bytes) (startDepth nodeID : Nat) : Option (Option Nat) := do
  let pos ← ls.firstLabelPos bmi nodeID
  ls.getLoopRef fp bmi key (key.length + 1) startDepth nodeID pos

end LoudsSparse

/-- A value handed out: in which of the two value vectors (`true`: dense), and its index there. -/
abbrev Ref := Bool × Nat

/-- surf.go:14-21 `Get`, with the place of the value -/
def SuRF.getRef (fp : Bytes → Word) (bmi : Bool) (s : SuRF) (key : Bytes) : Option (Option Ref) := do
  let r ← s.ld.getRef fp key
  if r.sparseNode < 0 then return r.ref.map (true, ·)
  else (s.ls.getRef fp bmi key r.depth r.sparseNode.toNat).map (·.map (false, ·))

/-- The value vector a place refers to -/
def SuRF.vec (s : SuRF) (dense : Bool) : ValueVector := if dense then s.ld.values else s.ls.values

/-- What the caller sees through the slice: the value bytes at the place (bits_vec.go:155-158) -/
def SuRF.read (s : SuRF) : Option Ref → Option (Bytes × Bool)
  | none => some ([], false)
  | some r => ((s.vec r.1).get r.2).map (·, true)

/-! ### `Get` reads at that place -/

namespace LoudsDense

/-- What a result with a place stands for -/
def view (ld : LoudsDense) (r : RefRes) : Option GetRes :=
  if r.sparseNode < 0 then
    match r.ref with
    | none => some ⟨r.sparseNode, r.depth, [], false⟩
    | some p => (ld.values.get p).map (fun v => ⟨r.sparseNode, r.depth, v, true⟩)
  else some ⟨r.sparseNode, r.depth, [], true⟩

theorem finish_ref (fp : Bytes → Word) (ld : LoudsDense) (key : Bytes) (depth valPos : Nat) :
    ld.finish fp key depth valPos = (ld.finishRef fp key depth valPos).bind (fun r => match r with
      | none => some ([], false)
      | some p => (ld.values.get p).map (·, true)) := by
  unfold finish finishRef
  cases ld.suffixes.checkEquality fp valPos key (depth + 1) with
  | none => rfl
  | some b =>
    cases b with
    | false => rfl
    | true =>
      simp only [Option.bind_eq_bind, Option.bind_some, if_true, Option.pure_def]
      cases ld.values.get valPos <;> rfl

theorem getAt_ref (fp : Bytes → Word) (ld : LoudsDense) (key : Bytes) (depth nodeID : Nat) :
    ld.getAt fp key depth nodeID = (ld.getAtRef fp key depth nodeID).bind (fun r => match r with
      | .inl r => (ld.view r).map .inl
      | .inr p => some (.inr p)) := by
  have hf : ∀ p, ((ld.finish fp key depth p).bind fun x => some (Sum.inl (⟨-1, depth, x.1, x.2⟩ : GetRes) : GetRes ⊕ Nat)) =
      (ld.finishRef fp key depth p).bind (fun r => (ld.view ⟨-1, depth, r⟩).map .inl) := by
    intro p
    rw [finish_ref]
    cases ld.finishRef fp key depth p with
    | none => rfl
    | some r =>
      cases r with
      | none => rfl
      | some r =>
        simp only [Option.bind_some, view]
        cases ld.values.get r <;> simp
  unfold getAt getAtRef
  dsimp only
  split
  · simp only [Option.bind_eq_bind, Option.pure_def]
    cases ld.isPrefixVec.bv.isSet nodeID with
    | none => rfl
    | some b =>
      cases b with
      | false => rfl
      | true =>
        simp only [Option.bind_some, if_true]
        cases ld.suffixPos (nodeID * denseFanout) true with
        | none => rfl
        | some p =>
          simp only [Option.bind_some]
          rw [hf]
          cases ld.finishRef fp key depth p <;> rfl
  · simp only [Option.bind_eq_bind, Option.pure_def]
    cases key[depth]? with
    | none => rfl
    | some c =>
      simp only [Option.bind_some]
      cases ld.labelVec.bv.isSet (nodeID * denseFanout + c.toNat) with
      | none => rfl
      | some b =>
        cases b with
        | false => rfl
        | true =>
          simp only [Option.bind_some, Bool.not_true, Bool.false_eq_true, if_false]
          cases ld.hasChildVec.bv.isSet (nodeID * denseFanout + c.toNat) with
          | none => rfl
          | some b =>
            cases b with
            | true => rfl
            | false =>
              simp only [Option.bind_some, Bool.not_false, if_true]
              cases ld.suffixPos (nodeID * denseFanout + c.toNat) false with
              | none => rfl
              | some p =>
                simp only [Option.bind_some]
                rw [hf]
                cases ld.finishRef fp key depth p <;> rfl

theorem getLoop_ref (fp : Bytes → Word) (ld : LoudsDense) (key : Bytes) : ∀ n depth nodeID, ld.getLoop fp key n depth nodeID = (ld.getLoopRef fp key n depth nodeID).bind ld.view := by
  intro n
  induction n with
  | zero =>
    intro depth nodeID
    unfold getLoop getLoopRef
    simp [view]
  | succ n ih =>
    intro depth nodeID
    unfold getLoop getLoopRef
    simp only [Option.bind_eq_bind, Option.pure_def]
    cases ld.prefixVec.checkPrefix key depth nodeID with
    | none => rfl
    | some x =>
      obtain ⟨l, ok⟩ := x
      cases ok with
      | false => rfl
      | true =>
        simp only [Option.bind_some, Bool.not_true, Bool.false_eq_true, if_false]
        rw [getAt_ref]
        cases ld.getAtRef fp key (depth + l) nodeID with
        | none => rfl
        | some r =>
          cases r with
          | inl r =>
            simp only [Option.bind_some]
            cases ld.view r <;> rfl
          | inr p =>
            simp only [Option.bind_some]
            cases ld.childNodeID p with
            | none => rfl
            | some c =>
              simp only [Option.bind_some]
              exact ih _ _

theorem get_ref (fp : Bytes → Word) (ld : LoudsDense) (key : Bytes) : ld.get fp key = (ld.getRef fp key).bind ld.view := getLoop_ref fp ld key _ _ _

end LoudsDense

namespace LoudsSparse

/-- What a place stands for -/
def view (ls : LoudsSparse) : Option Nat → Option (Bytes × Bool)
  | none => some ([], false)
  | some p => (ls.values.get p).map (·, true)

theorem finish_ref (fp : Bytes → Word) (ls : LoudsSparse) (key : Bytes) (depth pos : Nat) : ls.finish fp key depth pos = (ls.finishRef fp key depth pos).bind ls.view := by
  unfold finish finishRef
  simp only [Option.bind_eq_bind, Option.pure_def]
  cases ls.suffixPos pos with
  | none => rfl
  | some p =>
    simp only [Option.bind_some]
    cases ls.suffixes.checkEquality fp p key (depth + 1) with
    | none => rfl
    | some b =>
      cases b with
      | false => rfl
      | true =>
        simp only [Option.bind_some, if_true, view]
        cases ls.values.get p <;> rfl

theorem getTail_ref (fp : Bytes → Word) (ls : LoudsSparse) (key : Bytes) (depth pos : Nat) : ls.getTail fp key depth pos = (ls.getTailRef fp key depth pos).bind ls.view := by
  unfold getTail getTailRef
  simp only [Option.bind_eq_bind, Option.pure_def]
  cases ls.labelVec.getLabel pos with
  | none => rfl
  | some l =>
    simp only [Option.bind_some]
    split
    · cases ls.hasChildVec.bv.isSet pos with
      | none => rfl
      | some b =>
        cases b with
        | true => rfl
        | false => exact finish_ref fp ls key depth pos
    · rfl

theorem getLoop_ref (fp : Bytes → Word) (bmi : Bool) (ls : LoudsSparse) (key : Bytes) : ∀ n depth nodeID pos,
    ls.getLoop fp bmi key n depth nodeID pos = (ls.getLoopRef fp bmi key n depth nodeID pos).bind ls.view := by
  intro n
  induction n with
  | zero => intros; rfl
  | succ n ih =>
    intro depth nodeID pos
    unfold getLoop getLoopRef
    split
    · simp only [Option.bind_eq_bind, Option.pure_def]
      cases ls.prefixID nodeID with
      | none => rfl
      | some pid =>
        simp only [Option.bind_some]
        cases ls.prefixVec.checkPrefix key depth pid with
        | none => rfl
        | some x =>
          obtain ⟨l, ok⟩ := x
          cases ok with
          | false => rfl
          | true =>
            simp only [Option.bind_some, Bool.not_true, Bool.false_eq_true, if_false]
            split
            · exact getTail_ref fp ls key _ pos
            · cases key[depth + l]? with
              | none => rfl
              | some c =>
                simp only [Option.bind_some]
                cases ls.nodeSize pos with
                | none => rfl
                | some sz =>
                  simp only [Option.bind_some]
                  cases ls.labelVec.search c pos sz with
                  | none => rfl
                  | some x =>
                    obtain ⟨p, ok⟩ := x
                    cases ok with
                    | false => rfl
                    | true =>
                      simp only [Option.bind_some, Bool.not_true, Bool.false_eq_true, if_false]
                      cases ls.hasChildVec.bv.isSet p with
                      | none => rfl
                      | some b =>
                        cases b with
                        | false => exact finish_ref fp ls key _ p
                        | true =>
                          simp only [Option.bind_some, Bool.not_true, Bool.false_eq_true, if_false]
                          cases ls.childNodeID p with
                          | none => rfl
                          | some m =>
                            simp only [Option.bind_some]
                            cases ls.firstLabelPos bmi m with
                            | none => rfl
                            | some p' =>
                              simp only [Option.bind_some]
                              exact ih _ _ _
    · exact getTail_ref fp ls key depth pos

theorem get_ref (fp : Bytes → Word) (bmi : Bool) (ls : LoudsSparse) (key : Bytes) (d n : Nat) : ls.get fp bmi key d n = (ls.getRef fp bmi key d n).bind ls.view := by
  unfold get getRef
  simp only [Option.bind_eq_bind]
  cases ls.firstLabelPos bmi n with
  | none => rfl
  | some p => exact getLoop_ref fp bmi ls key _ _ _ _

end LoudsSparse

/-- `Get` returns what stands at the place. -/
theorem SuRF.get_ref (fp : Bytes → Word) (bmi : Bool) (s : SuRF) (key : Bytes) : s.get fp bmi key = (s.getRef fp bmi key).bind s.read := by
  unfold get getRef
  rw [LoudsDense.get_ref]
  simp only [Option.bind_eq_bind, Option.pure_def]
  cases s.ld.getRef fp key with
  | none => rfl
  | some r =>
    simp only [Option.bind_some]
    unfold LoudsDense.view
    by_cases hn : r.sparseNode < 0
    · simp only [if_pos hn]
      cases r.ref with
      | none => simp [read, hn]
      | some p =>
        simp only [Option.map_some, Option.bind_some, read, vec, if_true]
        cases s.ld.values.get p <;> simp [hn]
    · simp only [if_neg hn, Option.bind_some]
      rw [if_neg (by simp [hn]), LoudsSparse.get_ref]
      cases s.ls.getRef fp bmi key r.depth r.sparseNode.toNat with
      | none => rfl
      | some x => cases x <;> rfl

/-! ## Other value bytes -/

/-- `ld` with another value vector -/
def LoudsDense.reval (ld : LoudsDense) (x : ValueVector) : LoudsDense := { ld with values := x }
/-- `ls` with another value vector -/
def LoudsSparse.reval (ls : LoudsSparse) (x : ValueVector) : LoudsSparse := { ls with values := x }
/-- `s` with other value vectors -/
def SuRF.reval (s : SuRF) (x y : ValueVector) : SuRF := { ld := s.ld.reval x, ls := s.ls.reval y }

namespace LoudsDense

variable (ld : LoudsDense) (x : ValueVector)

theorem reval_height : (ld.reval x).height = ld.height := rfl
theorem reval_labelVec : (ld.reval x).labelVec = ld.labelVec := rfl
theorem reval_hasChildVec : (ld.reval x).hasChildVec = ld.hasChildVec := rfl
theorem reval_isPrefixVec : (ld.reval x).isPrefixVec = ld.isPrefixVec := rfl
theorem reval_prefixVec : (ld.reval x).prefixVec = ld.prefixVec := rfl
theorem reval_values : (ld.reval x).values = x := rfl
theorem reval_suffixes : (ld.reval x).suffixes = ld.suffixes := rfl
theorem reval_childNodeID (p : Nat) : (ld.reval x).childNodeID p = ld.childNodeID p := rfl
theorem reval_suffixPos (p : Nat) (b : Bool) : (ld.reval x).suffixPos p b = ld.suffixPos p b := rfl
theorem reval_nextPos (p : Nat) : (ld.reval x).nextPos p = ld.nextPos p := rfl
theorem reval_prevPos (p : Nat) : (ld.reval x).prevPos p = ld.prevPos p := rfl

theorem reval_finishRef (fp : Bytes → Word) (k : Bytes) (d p : Nat) : (ld.reval x).finishRef fp k d p = ld.finishRef fp k d p := by
  unfold finishRef
  simp only [reval_suffixes]

theorem reval_getAtRef (fp : Bytes → Word) (k : Bytes) (d n : Nat) : (ld.reval x).getAtRef fp k d n = ld.getAtRef fp k d n := by
  unfold getAtRef
  simp only [reval_isPrefixVec, reval_labelVec, reval_hasChildVec, reval_suffixPos, reval_finishRef]

theorem reval_getLoopRef (fp : Bytes → Word) (k : Bytes) : ∀ n d i, (ld.reval x).getLoopRef fp k n d i = ld.getLoopRef fp k n d i := by
  intro n
  induction n with
  | zero => intro d i; rfl
  | succ n ih =>
    intro d i
    unfold getLoopRef
    simp only [reval_prefixVec, reval_getAtRef, reval_childNodeID, ih]

theorem reval_getRef (fp : Bytes → Word) (k : Bytes) : (ld.reval x).getRef fp k = ld.getRef fp k := by
  unfold getRef
  rw [reval_getLoopRef, reval_height]

end LoudsDense

namespace LoudsSparse

variable (ls : LoudsSparse) (x : ValueVector)

theorem reval_height : (ls.reval x).height = ls.height := rfl
theorem reval_labelVec : (ls.reval x).labelVec = ls.labelVec := rfl
theorem reval_hasChildVec : (ls.reval x).hasChildVec = ls.hasChildVec := rfl
theorem reval_loudsVec : (ls.reval x).loudsVec = ls.loudsVec := rfl
theorem reval_prefixVec : (ls.reval x).prefixVec = ls.prefixVec := rfl
theorem reval_values : (ls.reval x).values = x := rfl
theorem reval_suffixes : (ls.reval x).suffixes = ls.suffixes := rfl
theorem reval_childNodeID (p : Nat) : (ls.reval x).childNodeID p = ls.childNodeID p := rfl
theorem reval_suffixPos (p : Nat) : (ls.reval x).suffixPos p = ls.suffixPos p := rfl
theorem reval_prefixID (p : Nat) : (ls.reval x).prefixID p = ls.prefixID p := rfl
theorem reval_nodeSize (p : Nat) : (ls.reval x).nodeSize p = ls.nodeSize p := rfl
theorem reval_isEndOfNode (p : Nat) : (ls.reval x).isEndOfNode p = ls.isEndOfNode p := rfl
theorem reval_sparseLevels : (ls.reval x).sparseLevels = ls.sparseLevels := rfl
theorem reval_firstLabelPos (b : Bool) (p : Nat) : (ls.reval x).firstLabelPos b p = ls.firstLabelPos b p := rfl
theorem reval_lastLabelPos (b : Bool) (p : Nat) : (ls.reval x).lastLabelPos b p = ls.lastLabelPos b p := rfl

theorem reval_finishRef (fp : Bytes → Word) (k : Bytes) (d p : Nat) : (ls.reval x).finishRef fp k d p = ls.finishRef fp k d p := by
  unfold finishRef
  simp only [reval_suffixes, reval_suffixPos]

theorem reval_getTailRef (fp : Bytes → Word) (k : Bytes) (d n : Nat) : (ls.reval x).getTailRef fp k d n = ls.getTailRef fp k d n := by
  unfold getTailRef
  simp only [reval_labelVec, reval_hasChildVec, reval_finishRef]

theorem reval_getLoopRef (fp : Bytes → Word) (b : Bool) (k : Bytes) : ∀ n d i p, (ls.reval x).getLoopRef fp b k n d i p = ls.getLoopRef fp b k n d i p := by
  intro n
  induction n with
  | zero => intro d i p; rfl
  | succ n ih =>
    intro d i p
    unfold getLoopRef
    simp only [reval_prefixID, reval_prefixVec, reval_getTailRef, reval_nodeSize, reval_labelVec, reval_hasChildVec, reval_finishRef, reval_childNodeID, reval_firstLabelPos, ih]

theorem reval_getRef (fp : Bytes → Word) (b : Bool) (k : Bytes) (d n : Nat) : (ls.reval x).getRef fp b k d n = ls.getRef fp b k d n := by
  unfold getRef
  simp only [reval_getLoopRef, reval_firstLabelPos]

end LoudsSparse

namespace DenseIter

open LoudsDense

theorem reval_append (ld : LoudsDense) (x : ValueVector) (it : DenseIter) (p : Nat) : it.append (ld.reval x) p = it.append ld p := rfl

theorem reval_leftLoop (ld : LoudsDense) (x : ValueVector) : ∀ n it p, leftLoop (ld.reval x) n it p = leftLoop ld n it p := by
  intro n
  induction n with
  | zero => intro it p; rfl
  | succ n ih =>
    intro it p
    unfold leftLoop
    simp only [reval_childNodeID, reval_isPrefixVec, reval_nextPos, reval_append, reval_hasChildVec, ih]

theorem reval_moveLeft (ld : LoudsDense) (x : ValueVector) (it : DenseIter) : it.moveLeft (ld.reval x) = it.moveLeft ld := by
  unfold moveLeft
  simp only [reval_hasChildVec, reval_leftLoop, reval_height]

theorem reval_rightLoop (ld : LoudsDense) (x : ValueVector) : ∀ n it p, rightLoop (ld.reval x) n it p = rightLoop ld n it p := by
  intro n
  induction n with
  | zero => intro it p; rfl
  | succ n ih =>
    intro it p
    unfold rightLoop
    simp only [reval_childNodeID, reval_prevPos, reval_append, reval_hasChildVec, ih]

theorem reval_moveRight (ld : LoudsDense) (x : ValueVector) (it : DenseIter) : it.moveRight (ld.reval x) = it.moveRight ld := by
  unfold moveRight
  simp only [reval_hasChildVec, reval_rightLoop, reval_height]

theorem reval_nextHere (ld : LoudsDense) (x : ValueVector) (ps : List Nat) (l : Nat) : nextHere (ld.reval x) ps l = nextHere ld ps l := rfl

theorem reval_nextLoop (ld : LoudsDense) (x : ValueVector) (ps : List Nat) : ∀ l, nextLoop (ld.reval x) ps l = nextLoop ld ps l := by
  intro l
  induction l with
  | zero => rfl
  | succ l ih =>
    unfold nextLoop
    rw [reval_nextHere, ih]

theorem reval_next (ld : LoudsDense) (x : ValueVector) (it : DenseIter) : it.next (ld.reval x) = it.next ld := by
  unfold next
  simp only [reval_height, reval_moveLeft, reval_nextLoop]

theorem reval_prevHere (ld : LoudsDense) (x : ValueVector) (ps : List Nat) (l : Nat) : prevHere (ld.reval x) ps l = prevHere ld ps l := rfl

theorem reval_prevLoop (ld : LoudsDense) (x : ValueVector) (ps : List Nat) : ∀ l, prevLoop (ld.reval x) ps l = prevLoop ld ps l := by
  intro l
  induction l with
  | zero => rfl
  | succ l ih =>
    unfold prevLoop
    rw [reval_prevHere, ih]

theorem reval_prev (ld : LoudsDense) (x : ValueVector) (it : DenseIter) : it.prev (ld.reval x) = it.prev ld := by
  unfold prev
  simp only [reval_height, reval_moveRight, reval_prevLoop]

theorem reval_setToFirstInRoot (ld : LoudsDense) (x : ValueVector) (it : DenseIter) : it.setToFirstInRoot (ld.reval x) = it.setToFirstInRoot ld := rfl
theorem reval_setToLastInRoot (ld : LoudsDense) (x : ValueVector) (it : DenseIter) : it.setToLastInRoot (ld.reval x) = it.setToLastInRoot ld := rfl

theorem reval_seekFirst (ld : LoudsDense) (x : ValueVector) (it : DenseIter) (n : Nat) (e : Bool) : it.seekFirst (ld.reval x) n e = it.seekFirst ld n e := by
  unfold seekFirst
  simp only [reval_nextPos, reval_append, reval_setToFirstInRoot, reval_isPrefixVec, reval_moveLeft]

variable (ld : LoudsDense) (x : ValueVector)

theorem reval_compareSuffixGreaterThan (it : DenseIter) (k : Bytes) (p l : Nat) : it.compareSuffixGreaterThan (ld.reval x) k p l = it.compareSuffixGreaterThan ld k p l := by
  unfold compareSuffixGreaterThan
  simp only [reval_suffixPos, reval_suffixes, reval_next]

theorem reval_seekLabel (it : DenseIter) (k : Bytes) (d n : Nat) : it.seekLabel (ld.reval x) k d n = it.seekLabel ld k d n := by
  unfold seekLabel
  simp only [reval_append, reval_labelVec, reval_hasChildVec, reval_next, reval_compareSuffixGreaterThan]

theorem reval_seekLoop (k : Bytes) : ∀ n it d i, seekLoop (ld.reval x) k n it d i = seekLoop ld k n it d i := by
  intro n
  induction n with
  | zero => intro it d i; rfl
  | succ n ih =>
    intro it d i
    unfold seekLoop
    simp only [reval_prefixVec, reval_next, reval_seekFirst, reval_seekLabel, reval_childNodeID, ih]

theorem reval_seek (it : DenseIter) (k : Bytes) : it.seek (ld.reval x) k = it.seek ld k := by
  unfold seek
  rw [reval_seekLoop, reval_height]

theorem reval_compare (it : DenseIter) (k : Bytes) : it.compare (ld.reval x) k = it.compare ld k := by
  unfold compare
  simp only [reval_suffixPos, reval_suffixes]

end DenseIter

namespace SparseIter

open LoudsSparse

theorem reval_append (ls : LoudsSparse) (x : ValueVector) (it : SparseIter) (c : UInt8) (p n : Nat) : it.append (ls.reval x) c p n = it.append ls c p n := rfl
theorem reval_setAt (ls : LoudsSparse) (x : ValueVector) (it : SparseIter) (p : Nat) : it.setAt (ls.reval x) p = it.setAt ls p := rfl
theorem reval_atLeaf (ls : LoudsSparse) (x : ValueVector) (it : SparseIter) (p : Nat) (c : UInt8) : it.atLeaf (ls.reval x) p c = it.atLeaf ls p c := rfl

theorem reval_downLoop (b : Bool) (ls : LoudsSparse) (x : ValueVector) (f : Bool) : ∀ n it p, downLoop b (ls.reval x) f n it p = downLoop b ls f n it p := by
  intro n
  induction n with
  | zero => intro it p; rfl
  | succ n ih =>
    intro it p
    unfold downLoop
    simp only [reval_childNodeID, reval_firstLabelPos, reval_lastLabelPos, reval_labelVec, reval_hasChildVec, reval_append, reval_atLeaf, ih]

theorem reval_enter (b : Bool) (ls : LoudsSparse) (x : ValueVector) (f : Bool) (it : SparseIter) : it.enter b (ls.reval x) f = it.enter b ls f := rfl

theorem reval_move (b : Bool) (ls : LoudsSparse) (x : ValueVector) (f : Bool) (it : SparseIter) : it.move b (ls.reval x) f = it.move b ls f := by
  unfold move
  simp only [reval_enter, reval_labelVec, reval_hasChildVec, reval_atLeaf, reval_downLoop, reval_sparseLevels]

theorem reval_setToFirstInRoot (ls : LoudsSparse) (x : ValueVector) (it : SparseIter) : it.setToFirstInRoot (ls.reval x) = it.setToFirstInRoot ls := rfl
theorem reval_setToLastInRoot (b : Bool) (ls : LoudsSparse) (x : ValueVector) (it : SparseIter) : it.setToLastInRoot b (ls.reval x) = it.setToLastInRoot b ls := rfl
theorem reval_nextHere (ls : LoudsSparse) (x : ValueVector) (ps : List Nat) (l : Nat) : nextHere (ls.reval x) ps l = nextHere ls ps l := rfl
theorem reval_prevHere (ls : LoudsSparse) (x : ValueVector) (ps : List Nat) (l : Nat) : prevHere (ls.reval x) ps l = prevHere ls ps l := rfl

theorem reval_nextLoop (ls : LoudsSparse) (x : ValueVector) (ps : List Nat) : ∀ l, nextLoop (ls.reval x) ps l = nextLoop ls ps l := by
  intro l
  induction l with
  | zero => rfl
  | succ l ih =>
    unfold nextLoop
    rw [reval_nextHere, ih]

theorem reval_prevLoop (ls : LoudsSparse) (x : ValueVector) (ps : List Nat) : ∀ l, prevLoop (ls.reval x) ps l = prevLoop ls ps l := by
  intro l
  induction l with
  | zero => rfl
  | succ l ih =>
    unfold prevLoop
    rw [reval_prevHere, ih]

theorem reval_next (b : Bool) (ls : LoudsSparse) (x : ValueVector) (it : SparseIter) : it.next b (ls.reval x) = it.next b ls := by
  unfold next
  simp only [reval_nextLoop, reval_setAt, reval_move]

theorem reval_prev (b : Bool) (ls : LoudsSparse) (x : ValueVector) (it : SparseIter) : it.prev b (ls.reval x) = it.prev b ls := by
  unfold prev
  simp only [reval_prevLoop, reval_setAt, reval_move]

theorem reval_moveToLeftInNextSubTrie (b : Bool) (ls : LoudsSparse) (x : ValueVector) (it : SparseIter) (p n s : Nat) (c : UInt8) :
    it.moveToLeftInNextSubTrie b (ls.reval x) p n s c = it.moveToLeftInNextSubTrie b ls p n s c := by
  unfold moveToLeftInNextSubTrie
  simp only [reval_labelVec, reval_append, reval_move, reval_next]

theorem reval_seekTail (b : Bool) (ls : LoudsSparse) (x : ValueVector) (k : Bytes) (it : SparseIter) (d n p : Nat) :
    seekTail b (ls.reval x) k it d n p = seekTail b ls k it d n p := by
  unfold seekTail
  simp only [reval_labelVec, reval_hasChildVec, reval_isEndOfNode, reval_append, reval_move]

variable (ls : LoudsSparse) (x : ValueVector)

theorem reval_compareSuffixGreaterThan (b : Bool) (it : SparseIter) (k : Bytes) (p l : Nat) :
    it.compareSuffixGreaterThan b (ls.reval x) k p l = it.compareSuffixGreaterThan b ls k p l := by
  unfold compareSuffixGreaterThan
  simp only [reval_suffixPos, reval_suffixes, reval_next]

theorem reval_seekLabel (b : Bool) (k : Bytes) (it : SparseIter) (d n p : Nat) : seekLabel b (ls.reval x) k it d n p = seekLabel b ls k it d n p := by
  unfold seekLabel
  simp only [reval_nodeSize, reval_labelVec, reval_moveToLeftInNextSubTrie, reval_append, reval_hasChildVec, reval_compareSuffixGreaterThan]

theorem reval_seekLoop (b : Bool) (k : Bytes) : ∀ n it d i p, seekLoop b (ls.reval x) k n it d i p = seekLoop b ls k n it d i p := by
  intro n
  induction n with
  | zero =>
    intro it d i p
    unfold seekLoop
    rw [reval_seekTail]
  | succ n ih =>
    intro it d i p
    unfold seekLoop
    simp only [reval_prefixID, reval_prefixVec, reval_next, reval_labelVec, reval_append, reval_move, reval_seekLabel, reval_childNodeID, reval_firstLabelPos, ih]

theorem reval_seek (b : Bool) (it : SparseIter) (k : Bytes) : it.seek b (ls.reval x) k = it.seek b ls k := by
  unfold seek
  simp only [reval_seekLoop, reval_firstLabelPos, reval_sparseLevels]

theorem reval_compare (it : SparseIter) (k : Bytes) : it.compare (ls.reval x) k = it.compare ls k := by
  unfold compare
  simp only [reval_suffixPos, reval_suffixes]

end SparseIter

/-! ## The filter and its iterator -/

variable (s : SuRF) (x y : ValueVector)

theorem SuRF.reval_ld : (s.reval x y).ld = s.ld.reval x := rfl
theorem SuRF.reval_ls : (s.reval x y).ls = s.ls.reval y := rfl

theorem SuRF.reval_getRef (fp : Bytes → Word) (b : Bool) (k : Bytes) : (s.reval x y).getRef fp b k = s.getRef fp b k := by
  unfold getRef
  simp only [reval_ld, reval_ls, LoudsDense.reval_getRef, LoudsSparse.reval_getRef]

theorem SuRF.reval_newIterator : (s.reval x y).newIterator = s.newIterator := rfl

namespace Iterator

theorem reval_intoSparse (b f : Bool) (it : Iterator) : it.intoSparse b (s.reval x y) f = it.intoSparse b s f := by
  unfold intoSparse
  simp only [SuRF.reval_ls, SparseIter.reval_move]

theorem reval_incrDense (b : Bool) (it : Iterator) : it.incrDense b (s.reval x y) = it.incrDense b s := by
  unfold incrDense
  simp only [SuRF.reval_ld, DenseIter.reval_next, reval_intoSparse]

theorem reval_next (b : Bool) (it : Iterator) : it.next b (s.reval x y) = it.next b s := by
  unfold next
  simp only [SuRF.reval_ls, SparseIter.reval_next, reval_incrDense]

theorem reval_prev (b : Bool) (it : Iterator) : it.prev b (s.reval x y) = it.prev b s := by
  unfold prev decrDense
  simp only [SuRF.reval_ls, SuRF.reval_ld, SparseIter.reval_prev, DenseIter.reval_prev, reval_intoSparse]

theorem reval_seek (b : Bool) (it : Iterator) (k : Bytes) : it.seek b (s.reval x y) k = it.seek b s k := by
  unfold seek
  simp only [reval_incrDense, reval_intoSparse, SuRF.reval_ls, SuRF.reval_ld, LoudsDense.reval_height, LoudsSparse.reval_height, DenseIter.reval_seek, SparseIter.reval_seek]

theorem reval_seekToFirst (b : Bool) (it : Iterator) : it.seekToFirst b (s.reval x y) = it.seekToFirst b s := by
  unfold seekToFirst
  simp only [reval_intoSparse, SuRF.reval_ls, SuRF.reval_ld, LoudsDense.reval_height, LoudsSparse.reval_height, DenseIter.reval_setToFirstInRoot, DenseIter.reval_moveLeft, SparseIter.reval_setToFirstInRoot, SparseIter.reval_move]

theorem reval_seekToLast (b : Bool) (it : Iterator) : it.seekToLast b (s.reval x y) = it.seekToLast b s := by
  unfold seekToLast
  simp only [reval_intoSparse, SuRF.reval_ls, SuRF.reval_ld, LoudsDense.reval_height, LoudsSparse.reval_height, DenseIter.reval_setToLastInRoot, DenseIter.reval_moveRight, SparseIter.reval_setToLastInRoot, SparseIter.reval_move]

theorem reval_compare (it : Iterator) (k : Bytes) : it.compare (s.reval x y) k = it.compare s k := by
  unfold compare
  simp only [SuRF.reval_ls, SuRF.reval_ld, DenseIter.reval_compare, SparseIter.reval_compare]

end Iterator

theorem SuRF.reval_hasOverlap (b : Bool) (l r : Bytes) (incl : Bool) : (s.reval x y).hasOverlap b l r incl = s.hasOverlap b l r incl := by
  unfold hasOverlap
  simp only [reval_newIterator, Iterator.reval_seek, Iterator.reval_compare]
  rfl

end Surf
