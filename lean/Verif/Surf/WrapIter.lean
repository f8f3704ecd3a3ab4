import Verif.Surf.Wrap

/-!
# The iterators with the arithmetic of the code: `uint32`, wrapping

The functions of `Verif.Surf.Iter` once more, with the arithmetic of `Verif.Surf.Wrap`. Functions without `uint32` arithmetic (`Reset`, `truncate`, `Key`, `IsComplete`, …) are taken from there.
-/

namespace Surf.U32

/-! ## Vectors -/

/-- bits_vec.go:124-132: the loop of `DistanceToPrevSetBit` -/
def distPrevLoop (v : BitVector) : Nat → Nat → Option Nat
  | 0, distance => some distance
  | wordOff + 1, distance => do
    let testBits ← v.bits[wordOff]?
    if testBits ≠ 0#64 then return distance ⊞ leadingZeros testBits
    else distPrevLoop v wordOff (distance ⊞ 64)

/-- bits_vec.go:110-133 `DistanceToPrevSetBit` -/
def distanceToPrevSetBit (v : BitVector) (pos : Nat) : Option Nat :=
  if pos = 0 then some 1 else do
    let distance := 1
    let wordOff := (pos ⊟ 1) / 64
    let bitsOff := (pos ⊟ 1) % 64
    let w ← v.bits[wordOff]?
    let testBits := w <<< (64 ⊟ 1 ⊟ bitsOff)
    if testBits ≠ 0#64 then return distance ⊞ leadingZeros testBits
    else distPrevLoop v wordOff (distance ⊞ (bitsOff ⊞ 1))

/-- bits_vec.go:475-486 `SearchGreaterThan` -/
def searchGreaterThan (v : LabelVector) (label : UInt8) (pos size : Nat) : Option (Nat × Bool) := do
  let (pos, size) ← skipTerminator v pos size
  let result ← sortSearch size (fun i => (v.labels[pos ⊞ u i]?).map (fun l => decide (label < l)))
  if u result = size then return (pos ⊞ u result ⊟ 1, false)
  else return (pos ⊞ u result, true)

/-- bits_vec.go:660-680 `suffixVector.Compare` -/
def compare (v : SuffixVector) (key : Bytes) (idx level : Nat) : Option Int := do
  if idx ⊠ suffixLen v ≥ v.bv.numBits ∨ v.suffixType = .none ∨ v.suffixType = .hash then return couldBePositive
  let suffix ← read v idx
  let suffix := if v.suffixType = .mixed then extractRealSuffix suffix v.realSuffixLen else suffix
  let expected ← constructRealSuffix key level v.realSuffixLen
  if suffix = 0#64 ∧ expected = 0#64 then return couldBePositive
  else if suffix = 0#64 ∨ suffix < expected then return -1
  else if suffix = expected then return couldBePositive
  else return 1

/-! ## denseIter -/

/-- louds_dense.go:160-162 `nextPos` -/
def nextPos (ld : LoudsDense) (pos : Nat) : Option Nat := do
  let d ← distanceToNextSetBit ld.labelVec.bv pos
  return pos ⊞ d

/-- louds_dense.go:164-170 `prevPos` -/
def prevPos (ld : LoudsDense) (pos : Nat) : Option (Nat × Bool) := do
  let d ← distanceToPrevSetBit ld.labelVec.bv pos
  return if pos ≤ d then (0, true) else (pos ⊟ d, false)

/-- louds_dense.go:376-379, louds_sparse.go:480-483: `uint32(len(prefix)) + 1`, plus `prefixLen[level-1]` if there is one -/
def upLen (prefixLen : List Nat) (level n : Nat) : Option Nat :=
  if level ≠ 0 then (prefixLen[level ⊟ 1]?).map (u n ⊞ 1 ⊞ ·) else some (u n ⊞ 1)

/-- louds_dense.go:370-380 `append` -/
def dAppend (ld : LoudsDense) (it : DenseIter) (pos : Nat) : Option DenseIter := do
  let pre ← getPrefix ld.prefixVec (pos / denseFanout)
  let ps ← putAt it.posInTrie it.level pos
  let n ← upLen it.prefixLen it.level pre.length
  let ls ← putAt it.prefixLen it.level n
  return { it with keyBuf := it.keyBuf ++ pre ++ [UInt8.ofNat (pos % denseFanout)], posInTrie := ps, prefixLen := ls }

/-- louds_dense.go:455-458 `setAt` -/
def dSetAt (it : DenseIter) (pos : Nat) : Option DenseIter := do
  let n ← it.prefixLen[it.level]?
  let b ← cutTo it.keyBuf (n ⊟ 1)
  let ps ← putAt it.posInTrie it.level pos
  return { it with keyBuf := b ++ [UInt8.ofNat (pos % denseFanout)], posInTrie := ps }

/-- louds_dense.go:389-410 -/
def leftLoop (ld : LoudsDense) : Nat → DenseIter → Nat → Option DenseIter
  | 0, it, pos => do
    let c ← dChildNodeID ld pos
    return { it with sendOutNodeID := c, sendOutDepth := u it.keyBuf.length }.flags true false true
  | n + 1, it, pos => do
    let nodeID ← dChildNodeID ld pos
    let p ← ld.isPrefixVec.bv.isSet nodeID
    let pos ← nextPos ld (nodeID ⊠ denseFanout ⊟ 1)
    let it ← dAppend ld { it with level := it.level ⊞ 1 } pos
    if p then return { it with atPrefixKey := true }.flags true true true
    else do
      let h ← ld.hasChildVec.bv.isSet pos
      if !h then return it.flags true true true else leftLoop ld n it pos

/-- louds_dense.go:382-411 `MoveToLeftMostKey` -/
def moveLeft (ld : LoudsDense) (it : DenseIter) : Option DenseIter := do
  let pos ← it.posInTrie[it.level]?
  let h ← ld.hasChildVec.bv.isSet pos
  if !h then return it.flags true true true else leftLoop ld (ld.height ⊟ 1 - it.level) it pos

/-- louds_dense.go:421-439 -/
def rightLoop (ld : LoudsDense) : Nat → DenseIter → Nat → Option DenseIter
  | 0, it, pos => do
    let c ← dChildNodeID ld pos
    return { it with sendOutNodeID := c, sendOutDepth := u it.keyBuf.length }.flags true true false
  | n + 1, it, pos => do
    let nodeID ← dChildNodeID ld pos
    let (pos, out) ← prevPos ld ((nodeID ⊞ 1) ⊠ denseFanout)
    if out then return { it with level := it.level ⊞ 1, valid := false }
    else do
      let it ← dAppend ld { it with level := it.level ⊞ 1 } pos
      let h ← ld.hasChildVec.bv.isSet pos
      if !h then return it.flags true true true else rightLoop ld n it pos

/-- louds_dense.go:413-440 `MoveToRightMostKey` -/
def moveRight (ld : LoudsDense) (it : DenseIter) : Option DenseIter := do
  let pos ← it.posInTrie[it.level]?
  let h ← ld.hasChildVec.bv.isSet pos
  if !h then return it.flags true true true else rightLoop ld (ld.height ⊟ 1 - it.level) it pos

/-- louds_dense.go:442-448 `SetToFirstInRoot` -/
def dFirst (ld : LoudsDense) (it : DenseIter) : Option DenseIter := do
  let b ← ld.labelVec.bv.isSet 0
  if b then dAppend ld it 0
  else do
    let p ← nextPos ld 0
    dAppend ld it p

/-- louds_dense.go:450-453 `SetToLastInRoot` -/
def dLast (ld : LoudsDense) (it : DenseIter) : Option DenseIter := do
  let (p, _) ← prevPos ld denseFanout
  dAppend ld it p

/-- louds_dense.go:210-213, 219-220 -/
def dNextHere (ld : LoudsDense) (ps : List Nat) (lev : Nat) : Option (Option Nat) := do
  let pos ← ps[lev]?
  let np ← nextPos ld pos
  if pos = np ∨ np / denseFanout > pos / denseFanout then return none else return some np

/-- louds_dense.go:213-221: the loop of `Next` -/
def dNextLoop (ld : LoudsDense) (ps : List Nat) : Nat → Option (Option (Nat × Nat))
  | 0 => do
    match ← dNextHere ld ps 0 with
    | none => return none
    | some np => return some (0, np)
  | lev + 1 => do
    match ← dNextHere ld ps (lev + 1) with
    | none => dNextLoop ld ps lev
    | some np => return some (lev + 1, np)

/-- louds_dense.go:200-224 `Next` -/
def dNext (ld : LoudsDense) (it : DenseIter) : Option DenseIter :=
  if ld.height = 0 then some it
  else if it.atPrefixKey then moveLeft ld { it with atPrefixKey := false }
  else do
    match ← dNextLoop ld it.posInTrie it.level with
    | none => return { it with level := 0, valid := false }
    | some (lev, np) => do
      let it ← dSetAt { it with level := lev } np
      moveLeft ld it

/-- louds_dense.go:234-238, 240-246, 253-258 -/
def dPrevHere (ld : LoudsDense) (ps : List Nat) (lev : Nat) : Option (Option DenseIter.PrevRes) := do
  let pos ← ps[lev]?
  let (pp, out) ← prevPos ld pos
  if out then return some (.out lev)
  else if pp / denseFanout < pos / denseFanout then do
    let p ← ld.isPrefixVec.bv.isSet (pos / denseFanout)
    if p then return some (.atPrefix lev) else return none
  else return some (.found lev pp)

/-- louds_dense.go:234-261: the loop of `Prev` -/
def dPrevLoop (ld : LoudsDense) (ps : List Nat) : Nat → Option DenseIter.PrevRes
  | 0 => do
    match ← dPrevHere ld ps 0 with
    | some r => return r
    | none => return .out 0
  | lev + 1 => do
    match ← dPrevHere ld ps (lev + 1) with
    | some r => return r
    | none => dPrevLoop ld ps lev

/-- louds_dense.go:226-264 `Prev` -/
def dPrev (ld : LoudsDense) (it : DenseIter) : Option DenseIter :=
  if ld.height = 0 then some it
  else do
    let it := if it.atPrefixKey then { it with atPrefixKey := false, level := it.level ⊟ 1 } else it
    match ← dPrevLoop ld it.posInTrie it.level with
    | .out lev => return { it with level := lev, valid := false }
    | .atPrefix lev => do
      let it ← { it with level := lev }.truncate
      return { it with atPrefixKey := true }.flags true true true
    | .found lev pp => do
      let it ← dSetAt { it with level := lev } pp
      moveRight ld it

/-- louds_dense.go:464-472 `compareSuffixGreaterThan` -/
def dCompareSuffix (ld : LoudsDense) (it : DenseIter) (key : Bytes) (pos level : Nat) : Option (DenseIter × Bool) := do
  let sp ← dSuffixPos ld pos false
  let cmp ← compare ld.suffixes key sp level
  if cmp < 0 then do
    let it ← dNext ld it
    return (it, false)
  else return (it.flags true true true, cmp == couldBePositive)

/-- louds_dense.go:289-303 -/
def dSeekFirst (ld : LoudsDense) (it : DenseIter) (nodeID : Nat) (eq : Bool) : Option (DenseIter × Bool) := do
  let pos := nodeID ⊠ denseFanout
  let it ←
    if pos > 0 then do
      let p ← nextPos ld (pos ⊟ 1)
      dAppend ld it p
    else dFirst ld it
  let p ← ld.isPrefixVec.bv.isSet nodeID
  let it ← if p then some ({ it with atPrefixKey := true }.flags true true true) else moveLeft ld it
  return (it, eq)

/-- louds_dense.go:305-317 -/
def dSeekLabel (ld : LoudsDense) (it : DenseIter) (key : Bytes) (depth nodeID : Nat) : Option ((DenseIter × Bool) ⊕ (DenseIter × Nat)) := do
  let c ← key[depth]?
  let pos := nodeID ⊠ denseFanout ⊞ c.toNat
  let it ← dAppend ld it pos
  let l ← ld.labelVec.bv.isSet pos
  if !l then do
    let it ← dNext ld it
    return .inl (it, false)
  else do
    let h ← ld.hasChildVec.bv.isSet pos
    if !h then do
      let r ← dCompareSuffix ld it key pos (depth ⊞ 1)
      return .inl r
    else return .inr (it, pos)

/-- louds_dense.go:268-327: the loop of `Seek` (the sum in lines 272-275 is of type `int`) -/
def dSeekLoop (ld : LoudsDense) (key : Bytes) : Nat → DenseIter → Nat → Nat → Option (DenseIter × Bool)
  | 0, it, depth, nodeID =>
    return ({ it with level := it.level ⊟ 1, sendOutNodeID := nodeID, sendOutDepth := depth }.flags false true true, true)
  | n + 1, it, depth, nodeID => do
    let pre ← getPrefix ld.prefixVec nodeID
    let cmp ← prefixCmp pre key depth
    if cmp < 0 then
      if nodeID = 0 then return ({ it with valid := false }, false)
      else do
        let it ← dNext ld { it with level := it.level ⊟ 1 }
        return (it, false)
    else do
      let depth := depth ⊞ u pre.length
      if depth ≥ u key.length ∨ cmp > 0 then dSeekFirst ld it nodeID (cmp == 0)
      else do
        match ← dSeekLabel ld it key depth nodeID with
        | .inl r => return r
        | .inr (it, pos) => do
          let c ← dChildNodeID ld pos
          dSeekLoop ld key n { it with level := it.level ⊞ 1 } (depth ⊞ 1) c

/-- louds_dense.go:266-327 `Seek` -/
def dSeek (ld : LoudsDense) (it : DenseIter) (key : Bytes) : Option (DenseIter × Bool) :=
  dSeekLoop ld key ld.height { it with level := 0 } 0 0

/-- louds_dense.go:336-339 `Value` -/
def dValue (ld : LoudsDense) (it : DenseIter) : Option Bytes := do
  let pos ← it.posInTrie[it.level]?
  let valPos ← dSuffixPos ld pos it.atPrefixKey
  valueGet ld.values valPos

/-- louds_dense.go:341-364 `Compare` -/
def dCompare (ld : LoudsDense) (it : DenseIter) (key : Bytes) : Option Int := do
  let itKey ← it.key
  let cmpLen := min itKey.length key.length
  let cmp := bytesCompare (itKey.take cmpLen) (key.take cmpLen)
  if cmp ≠ 0 then return cmp
  else if itKey.length > key.length then return 1
  else if itKey.length = key.length ∧ it.atPrefixKey then return 0
  else if it.isComplete then do
    let pos ← it.posInTrie[it.level]?
    let sp ← dSuffixPos ld pos it.atPrefixKey
    compare ld.suffixes key sp (u itKey.length)
  else return cmp

/-! ## sparseIter -/

/-- louds_sparse.go:181-183 `sparseLevels` -/
def sparseLevels (ls : LoudsSparse) : Nat := ls.height ⊟ ls.startLevel

/-- louds_sparse.go:222-228 `Init` -/
def sInit (ls : LoudsSparse) : SparseIter :=
  { startLevel := ls.startLevel, posInTrie := List.replicate (sparseLevels ls) 0, nodeID := List.replicate (sparseLevels ls) 0, prefixLen := List.replicate (sparseLevels ls) 0 }

/-- louds_sparse.go:188-194 `lastLabelPos` -/
def lastLabelPos (bmi : Bool) (ls : LoudsSparse) (nodeID : Nat) : Option Nat := do
  let nextRank := nodeID ⊞ 2 ⊟ ls.denseNodeCount
  if nextRank > ls.loudsVec.numOnes then return ls.loudsVec.bv.numBits ⊟ 1
  else do
    let p ← select bmi ls.loudsVec nextRank
    return p ⊟ 1

/-- louds_sparse.go:204-206 `isEndOfNode` -/
def isEndOfNode (ls : LoudsSparse) (pos : Nat) : Option Bool :=
  if pos = ls.loudsVec.bv.numBits ⊟ 1 then some true else ls.loudsVec.bv.isSet (pos ⊞ 1)

/-- louds_sparse.go:475-485 `append` -/
def sAppend (ls : LoudsSparse) (it : SparseIter) (label : UInt8) (pos nodeID : Nat) : Option SparseIter := do
  let pre ← getPrefix ls.prefixVec (prefixID ls nodeID)
  let ps ← putAt it.posInTrie it.level pos
  let n ← upLen it.prefixLen it.level pre.length
  let pl ← putAt it.prefixLen it.level n
  let ns ← putAt it.nodeID it.level nodeID
  return { it with keyBuf := it.keyBuf ++ pre ++ [label], posInTrie := ps, prefixLen := pl, nodeID := ns }

/-- louds_sparse.go:487-490 `setAt` -/
def sSetAt (ls : LoudsSparse) (it : SparseIter) (pos : Nat) : Option SparseIter := do
  let n ← it.prefixLen[it.level]?
  let b ← cutTo it.keyBuf (n ⊟ 1)
  let label ← ls.labelVec.getLabel pos
  let ps ← putAt it.posInTrie it.level pos
  return { it with keyBuf := b ++ [label], posInTrie := ps }

/-- louds_sparse.go:402-405, 417-420 -/
def atLeaf (ls : LoudsSparse) (it : SparseIter) (pos : Nat) (label : UInt8) : Option SparseIter := do
  let t ← if label = labelTerminator then (isEndOfNode ls pos).map (!·) else some false
  return { it with valid := true, atTerminator := it.atTerminator || t }

/-- louds_sparse.go:409-425, 446-462 -/
def downLoop (bmi : Bool) (ls : LoudsSparse) (first : Bool) : Nat → SparseIter → Nat → Option SparseIter
  | 0, _, _ => none
  | n + 1, it, pos => do
    let nodeID ← sChildNodeID ls pos
    let pos ← if first then firstLabelPos bmi ls nodeID else lastLabelPos bmi ls nodeID
    let label ← ls.labelVec.getLabel pos
    let h ← ls.hasChildVec.bv.isSet pos
    let it ← sAppend ls { it with level := it.level ⊞ 1 } label pos nodeID
    if !h then atLeaf ls it pos label else downLoop bmi ls first n it pos

/-- louds_sparse.go:392-396 and 429-433 -/
def enter (bmi : Bool) (ls : LoudsSparse) (first : Bool) (it : SparseIter) : Option SparseIter :=
  if it.keyBuf.length = 0 then do
    let pos ← if first then firstLabelPos bmi ls it.startNodeID else lastLabelPos bmi ls it.startNodeID
    let label ← ls.labelVec.getLabel pos
    sAppend ls it label pos it.startNodeID
  else some it

/-- louds_sparse.go:391-426 `MoveToLeftMostKey`, 428-463 `MoveToRightMostKey` -/
def move (bmi : Bool) (ls : LoudsSparse) (first : Bool) (it : SparseIter) : Option SparseIter := do
  let it ← enter bmi ls first it
  let pos ← it.posInTrie[it.level]?
  let label ← ls.labelVec.getLabel pos
  let h ← ls.hasChildVec.bv.isSet pos
  if !h then atLeaf ls it pos label else downLoop bmi ls first (sparseLevels ls - it.level) it pos

/-- louds_sparse.go:470-473 `SetToLastInRoot` -/
def sLast (bmi : Bool) (ls : LoudsSparse) (it : SparseIter) : Option SparseIter := do
  let p ← lastLabelPos bmi ls 0
  let ps ← putAt it.posInTrie 0 p
  let l ← ls.labelVec.getLabel p
  return { it with posInTrie := ps, keyBuf := [l] }

/-- louds_sparse.go:232-235, 242-243 -/
def sNextHere (ls : LoudsSparse) (ps : List Nat) (lev : Nat) : Option (Option Nat) := do
  let pos ← ps[lev]?
  let b ← if pos ⊞ 1 ≥ ls.loudsVec.bv.numBits then some true else ls.loudsVec.bv.isSet (pos ⊞ 1)
  return if b then none else some (pos ⊞ 1)

/-- louds_sparse.go:235-244: the loop of `Next` -/
def sNextLoop (ls : LoudsSparse) (ps : List Nat) : Nat → Option (Option (Nat × Nat))
  | 0 => do
    match ← sNextHere ls ps 0 with
    | none => return none
    | some np => return some (0, np)
  | lev + 1 => do
    match ← sNextHere ls ps (lev + 1) with
    | none => sNextLoop ls ps lev
    | some np => return some (lev + 1, np)

/-- louds_sparse.go:230-247 `Next` -/
def sNext (bmi : Bool) (ls : LoudsSparse) (it : SparseIter) : Option SparseIter := do
  let it := { it with atTerminator := false }
  match ← sNextLoop ls it.posInTrie it.level with
  | none => return { it with level := 0, valid := false, keyBuf := [] }
  | some (lev, np) => do
    let it ← sSetAt ls { it with level := lev } np
    move bmi ls true it

/-- louds_sparse.go:258, 264-265 -/
def sPrevHere (ls : LoudsSparse) (ps : List Nat) (lev : Nat) : Option (Option Nat) := do
  let pos ← ps[lev]?
  let b ← ls.loudsVec.bv.isSet pos
  return if b then none else some (pos ⊟ 1)

/-- louds_sparse.go:258-266: the loop of `Prev` -/
def sPrevLoop (ls : LoudsSparse) (ps : List Nat) : Nat → Option (Option (Nat × Nat))
  | 0 => do
    match ← sPrevHere ls ps 0 with
    | none => return none
    | some pp => return some (0, pp)
  | lev + 1 => do
    match ← sPrevHere ls ps (lev + 1) with
    | none => sPrevLoop ls ps lev
    | some pp => return some (lev + 1, pp)

/-- louds_sparse.go:249-270 `Prev` -/
def sPrev (bmi : Bool) (ls : LoudsSparse) (it : SparseIter) : Option SparseIter := do
  let it := { it with atTerminator := false }
  let pos ← it.posInTrie[it.level]?
  if pos = 0 then return { it with valid := false }
  else do
    match ← sPrevLoop ls it.posInTrie it.level with
    | none => return { it with level := 0, valid := false, keyBuf := [] }
    | some (lev, pp) => do
      let it ← sSetAt ls { it with level := lev } pp
      move bmi ls false it

/-- louds_sparse.go:506-514 `compareSuffixGreaterThan` -/
def sCompareSuffix (bmi : Bool) (ls : LoudsSparse) (it : SparseIter) (key : Bytes) (pos level : Nat) : Option (SparseIter × Bool) := do
  let sp ← sSuffixPos ls pos
  let cmp ← compare ls.suffixes key sp level
  if cmp < 0 then do
    let it ← sNext bmi ls it
    return (it, false)
  else return ({ it with valid := true }, cmp == couldBePositive)

/-- louds_sparse.go:496-504 `moveToLeftInNextSubTrie` -/
def moveToLeftInNextSubTrie (bmi : Bool) (ls : LoudsSparse) (it : SparseIter) (pos nodeID nodeSize : Nat) (label : UInt8) : Option SparseIter := do
  let (pos, ok) ← searchGreaterThan ls.labelVec label pos nodeSize
  let l ← ls.labelVec.getLabel pos
  let it ← sAppend ls it l pos nodeID
  if ok then move bmi ls true it else sNext bmi ls it

/-- louds_sparse.go:324-337 -/
def sSeekTail (bmi : Bool) (ls : LoudsSparse) (key : Bytes) (it : SparseIter) (depth nodeID pos : Nat) : Option (SparseIter × Bool) := do
  let l ← ls.labelVec.getLabel pos
  let t ←
    if l = labelTerminator then do
      let h ← ls.hasChildVec.bv.isSet pos
      if !h then (isEndOfNode ls pos).map (!·) else some false
    else some false
  if t then do
    let it ← sAppend ls it labelTerminator pos nodeID
    return ({ it with atTerminator := true, valid := true }, false)
  else if u key.length ≤ depth then do
    let it ← move bmi ls true it
    return (it, false)
  else return ({ it with valid := true }, true)

/-- louds_sparse.go:302-316 -/
def sSeekLabel (bmi : Bool) (ls : LoudsSparse) (key : Bytes) (it : SparseIter) (depth nodeID pos : Nat) : Option ((SparseIter × Bool) ⊕ (SparseIter × Nat)) := do
  let size ← nodeSize ls pos
  let c ← key[depth]?
  let (pos, ok) ← search ls.labelVec c pos size
  if !ok then do
    let it ← moveToLeftInNextSubTrie bmi ls it pos nodeID size c
    return .inl (it, false)
  else do
    let it ← sAppend ls it c pos nodeID
    let h ← ls.hasChildVec.bv.isSet pos
    if !h then do
      let r ← sCompareSuffix bmi ls it key pos (depth ⊞ 1)
      return .inl r
    else return .inr (it, pos)

/-- louds_sparse.go:278-338: the loop of `Seek` (the sum in lines 282-285 is of type `int`) -/
def sSeekLoop (bmi : Bool) (ls : LoudsSparse) (key : Bytes) : Nat → SparseIter → Nat → Nat → Nat → Option (SparseIter × Bool)
  | 0, it, depth, nodeID, pos => sSeekTail bmi ls key it depth nodeID pos
  | n + 1, it, depth, nodeID, pos => do
    let pre ← getPrefix ls.prefixVec (prefixID ls nodeID)
    let cmp ← prefixCmp pre key depth
    if cmp < 0 then
      if it.level = 0 then return ({ it with valid := false }, false)
      else do
        let it ← sNext bmi ls { it with level := it.level ⊟ 1 }
        return (it, false)
    else do
      let depth := depth ⊞ u pre.length
      if depth ≥ u key.length ∨ cmp > 0 then do
        let l ← ls.labelVec.getLabel pos
        let it ← sAppend ls it l pos nodeID
        let it ← move bmi ls true it
        return (it, false)
      else do
        match ← sSeekLabel bmi ls key it depth nodeID pos with
        | .inl r => return r
        | .inr (it, pos) => do
          let nodeID ← sChildNodeID ls pos
          let pos ← firstLabelPos bmi ls nodeID
          sSeekLoop bmi ls key n { it with level := it.level ⊞ 1 } (depth ⊞ 1) nodeID pos

/-- louds_sparse.go:272-338 `Seek` -/
def sSeek (bmi : Bool) (ls : LoudsSparse) (it : SparseIter) (key : Bytes) : Option (SparseIter × Bool) := do
  let pos ← firstLabelPos bmi ls it.startNodeID
  sSeekLoop bmi ls key (sparseLevels ls) { it with level := 0 } it.startDepth it.startNodeID pos

/-- louds_sparse.go:347-350 `Value` -/
def sValue (ls : LoudsSparse) (it : SparseIter) : Option Bytes := do
  let pos ← it.posInTrie[it.level]?
  let valPos ← sSuffixPos ls pos
  valueGet ls.values valPos

/-- louds_sparse.go:352-382 `Compare` -/
def sCompare (ls : LoudsSparse) (it : SparseIter) (key : Bytes) : Option Int := do
  let itKey ← it.key
  if it.startDepth > key.length then none
  else if it.startDepth = key.length then return if it.atTerminator then 0 else 1
  else do
    let key := key.drop it.startDepth
    let cmpLen := min itKey.length key.length
    let cmp := bytesCompare (itKey.take cmpLen) (key.take cmpLen)
    if cmp ≠ 0 then return cmp
    else if itKey.length > key.length then return 1
    else if itKey.length = key.length ∧ it.atTerminator then return 0
    else do
      let pos ← it.posInTrie[it.level]?
      let sp ← sSuffixPos ls pos
      compare ls.suffixes key sp (u itKey.length)

/-! ## Iterator -/

/-- surf.go:93-99 `NewIterator` -/
def newIterator (f : SuRF) : Iterator := ⟨.init f.ld, sInit f.ls⟩

/-- `it.passToSparse(); it.sparseIter.MoveToLeftMostKey()` or `MoveToRightMostKey` -/
def intoSparse (bmi : Bool) (f : SuRF) (first : Bool) (it : Iterator) : Option Iterator := do
  let s ← move bmi f.ls first it.passToSparse.s
  return { it with s := s }

/-- surf.go:214-230 `incrDenseIter` -/
def incrDense (bmi : Bool) (f : SuRF) (it : Iterator) : Option Iterator :=
  if !it.d.valid then some it
  else do
    let d ← dNext f.ld it.d
    let it := { it with d := d }
    if !d.valid then return it
    else if d.leftComp then return it
    else intoSparse bmi f true it

/-- surf.go:107-112 `Next` -/
def next (bmi : Bool) (f : SuRF) (it : Iterator) : Option Iterator :=
  if it.s.valid then do
    let s ← sNext bmi f.ls it.s
    let it := { it with s := s }
    if s.valid then return it else incrDense bmi f it
  else incrDense bmi f it

/-- surf.go:240-256 `decrDenseIter` -/
def decrDense (bmi : Bool) (f : SuRF) (it : Iterator) : Option Iterator :=
  if !it.d.valid then some it
  else do
    let d ← dPrev f.ld it.d
    let it := { it with d := d }
    if !d.valid then return it
    else if d.rightComp then return it
    else intoSparse bmi f false it

/-- surf.go:115-120 `Prev` -/
def prev (bmi : Bool) (f : SuRF) (it : Iterator) : Option Iterator :=
  if it.s.valid then do
    let s ← sPrev bmi f.ls it.s
    let it := { it with s := s }
    if s.valid then return it else decrDense bmi f it
  else decrDense bmi f it

/-- surf.go:123-150 `Seek` -/
def seek (bmi : Bool) (f : SuRF) (it : Iterator) (key : Bytes) : Option (Iterator × Bool) :=
  let it := it.reset
  if f.ls.height = 0 ∧ f.ld.height = 0 then some (it, false)
  else do
    let (d, fp) ← dSeek f.ld it.d key
    let it := { it with d := d }
    if !d.valid || d.isComplete then return (it, fp)
    else if !d.searchComp then do
      let it := it.passToSparse
      let (s, fp) ← sSeek bmi f.ls it.s key
      let it := { it with s := s }
      if !s.valid then do
        let it ← incrDense bmi f it
        return (it, fp)
      else return (it, fp)
    else if !d.leftComp then do
      let it ← intoSparse bmi f true it
      return (it, fp)
    else none

/-- surf.go:152-167 `SeekToFirst` -/
def seekToFirst (bmi : Bool) (f : SuRF) (it : Iterator) : Option Iterator :=
  let it := it.reset
  if f.ld.height > 0 then do
    let d ← dFirst f.ld it.d
    let d ← moveLeft f.ld d
    let it := { it with d := d }
    if d.leftComp then return it else intoSparse bmi f true it
  else if f.ls.height > 0 then do
    let s ← it.s.setToFirstInRoot f.ls
    let s ← move bmi f.ls true s
    return { it with s := s }
  else some it

/-- surf.go:169-184 `SeekToLast` -/
def seekToLast (bmi : Bool) (f : SuRF) (it : Iterator) : Option Iterator :=
  let it := it.reset
  if f.ld.height > 0 then do
    let d ← dLast f.ld it.d
    let d ← moveRight f.ld d
    let it := { it with d := d }
    if d.rightComp then return it else intoSparse bmi f false it
  else if f.ls.height > 0 then do
    let s ← sLast bmi f.ls it.s
    let s ← move bmi f.ls false s
    return { it with s := s }
  else some it

/-- surf.go:195-201 `Value` -/
def value (f : SuRF) (it : Iterator) : Option Bytes := if it.d.isComplete then dValue f.ld it.d else sValue f.ls it.s

/-- surf.go:266-272 `compare` -/
def iterCompare (f : SuRF) (it : Iterator) (key : Bytes) : Option Int := do
  let cmp ← dCompare f.ld it.d key
  if it.d.isComplete ∨ cmp ≠ 0 then return cmp else sCompare f.ls it.s key

/-- surf.go:23-42 `HasOverlap` -/
def hasOverlap (bmi : Bool) (f : SuRF) (start stop : Bytes) (includeEnd : Bool) : Option Bool :=
  if f.ld.height = 0 ∧ f.ls.height = 0 then some false
  else do
    let (it, _) ← seek bmi f (newIterator f) start
    if !it.valid then return false
    else do
      let cmp ← iterCompare f it stop
      let cmp := if cmp = couldBePositive then -1 else cmp
      return if includeEnd then decide (cmp ≤ 0) else decide (cmp < 0)

end Surf.U32
