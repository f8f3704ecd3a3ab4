import Verif.Surf.Louds

/-!
# Model of the iterators: `surf/louds_dense.go` (denseIter), `surf/louds_sparse.go` (sparseIter), `surf/surf.go` (Iterator, HasOverlap)

Every method that changes the iterator is a function from the old to the new state; `none` is a panic. The pointers to the dense and the sparse part never change
(louds_dense.go:188, louds_sparse.go:223) and are parameters here.

Simplifications: a reslice `buf[:n]` beyond the length, which Go allows up to the capacity, counts as a panic. (Where it is claimed below that a call does panic, the bound is beyond any capacity.)
Positions and depths are natural numbers; only `level--` is kept modulo 2^32, because the code does let it wrap (`Seek` when there is no dense level, louds_dense.go:322).
-/

namespace Surf

/-! ## Helpers -/

/-- `x--` on a `uint32` -/
def dec32 (n : Nat) : Nat := if n = 0 then 2 ^ 32 - 1 else n - 1

/-- `l[i] = x`, panics out of range -/
def putAt (l : List Nat) (i x : Nat) : Option (List Nat) := if i < l.length then some (l.set i x) else none

/-- `buf[:n]` -/
def cutTo (buf : Bytes) (n : Nat) : Option Bytes := if n ≤ buf.length then some (buf.take n) else none

/-- Go standard library `bytes.Compare` -/
def bytesCompare : Bytes → Bytes → Int
  | [], [] => 0
  | [], _ :: _ => -1
  | _ :: _, [] => 1
  | a :: as, b :: bs => if a < b then -1 else if b < a then 1 else bytesCompare as bs

/-- louds_dense.go:270-277 and louds_sparse.go:280-287: compare the prefix of a node with the bytes of the key at `depth` -/
def prefixCmp (pre key : Bytes) (depth : Nat) : Option Int :=
  if pre.length ≠ 0 then (slice key depth (min (depth + pre.length) key.length)).map (bytesCompare pre) else some 0

/-- louds_dense.go:160-162 `nextPos` -/
def LoudsDense.nextPos (ld : LoudsDense) (pos : Nat) : Option Nat := do
  let d ← ld.labelVec.bv.distanceToNextSetBit pos
  return pos + d

/-- louds_dense.go:164-170 `prevPos` -/
def LoudsDense.prevPos (ld : LoudsDense) (pos : Nat) : Option (Nat × Bool) := do
  let d ← ld.labelVec.bv.distanceToPrevSetBit pos
  return if pos ≤ d then (0, true) else (pos - d, false)

/-! ## denseIter -/

/-- louds_dense.go:172-185 -/
structure DenseIter where
  valid : Bool := false
  searchComp : Bool := false
  leftComp : Bool := false
  rightComp : Bool := false
  sendOutNodeID : Nat := 0
  sendOutDepth : Nat := 0
  keyBuf : Bytes := []
  level : Nat := 0
  posInTrie : List Nat := []
  prefixLen : List Nat := []
  atPrefixKey : Bool := false
deriving Repr, DecidableEq

namespace DenseIter

/-- louds_dense.go:187-191 `Init`, on a new iterator -/
def init (ld : LoudsDense) : DenseIter := { posInTrie := List.replicate ld.height 0, prefixLen := List.replicate ld.height 0 }

/-- louds_dense.go:193-198 `Reset` -/
def reset (it : DenseIter) : DenseIter := { it with valid := false, level := 0, atPrefixKey := false, keyBuf := [] }

/-- the assignment `it.valid, it.searchComp, it.leftComp, it.rightComp = true, s, l, r` -/
def flags (it : DenseIter) (s l r : Bool) : DenseIter := { it with valid := true, searchComp := s, leftComp := l, rightComp := r }

/-- louds_dense.go:366-368 `IsComplete` -/
def isComplete (it : DenseIter) : Bool := it.searchComp && (it.leftComp && it.rightComp)

/-- louds_dense.go:376-379: the length of the key up to and with the current level -/
def upLen (it : DenseIter) (n : Nat) : Option Nat :=
  if it.level ≠ 0 then (it.prefixLen[it.level - 1]?).map (n + ·) else some n

/-- louds_dense.go:370-380 `append` -/
def append (ld : LoudsDense) (it : DenseIter) (pos : Nat) : Option DenseIter := do
  let pre ← ld.prefixVec.getPrefix (pos / denseFanout)
  let ps ← putAt it.posInTrie it.level pos
  let n ← it.upLen (pre.length + 1)
  let ls ← putAt it.prefixLen it.level n
  return { it with keyBuf := it.keyBuf ++ pre ++ [UInt8.ofNat (pos % denseFanout)], posInTrie := ps, prefixLen := ls }

/-- louds_dense.go:455-458 `setAt`, with `level = it.level` -/
def setAt (it : DenseIter) (pos : Nat) : Option DenseIter := do
  let n ← it.prefixLen[it.level]?
  let n ← usub n 1
  let b ← cutTo it.keyBuf n
  let ps ← putAt it.posInTrie it.level pos
  return { it with keyBuf := b ++ [UInt8.ofNat (pos % denseFanout)], posInTrie := ps }

/-- louds_dense.go:460-462 `truncate`, with `level = it.level` -/
def truncate (it : DenseIter) : Option DenseIter := do
  let n ← it.prefixLen[it.level]?
  let b ← cutTo it.keyBuf n
  return { it with keyBuf := b }

/-- louds_dense.go:389-410: the loop of `MoveToLeftMostKey` and what follows it; the first argument is `height-1-level` -/
def leftLoop (ld : LoudsDense) : Nat → DenseIter → Nat → Option DenseIter
  | 0, it, pos => do
    let c ← ld.childNodeID pos
    return { it with sendOutNodeID := c, sendOutDepth := it.keyBuf.length }.flags true false true
  | n + 1, it, pos => do
    let nodeID ← ld.childNodeID pos
    let p ← ld.isPrefixVec.bv.isSet nodeID
    let q ← usub (nodeID * denseFanout) 1
    let pos ← ld.nextPos q
    let it ← { it with level := it.level + 1 }.append ld pos
    if p then return { it with atPrefixKey := true }.flags true true true
    else do
      let h ← ld.hasChildVec.bv.isSet pos
      if !h then return it.flags true true true else leftLoop ld n it pos

/-- louds_dense.go:382-411 `MoveToLeftMostKey` -/
def moveLeft (ld : LoudsDense) (it : DenseIter) : Option DenseIter := do
  let pos ← it.posInTrie[it.level]?
  let h ← ld.hasChildVec.bv.isSet pos
  if !h then return it.flags true true true else leftLoop ld (ld.height - 1 - it.level) it pos

/-- louds_dense.go:421-439: the loop of `MoveToRightMostKey` and what follows it; the first argument is `height-1-level` -/
def rightLoop (ld : LoudsDense) : Nat → DenseIter → Nat → Option DenseIter
  | 0, it, pos => do
    let c ← ld.childNodeID pos
    return { it with sendOutNodeID := c, sendOutDepth := it.keyBuf.length }.flags true true false
  | n + 1, it, pos => do
    let nodeID ← ld.childNodeID pos
    let (pos, out) ← ld.prevPos ((nodeID + 1) * denseFanout)
    if out then return { it with level := it.level + 1, valid := false }
    else do
      let it ← { it with level := it.level + 1 }.append ld pos
      let h ← ld.hasChildVec.bv.isSet pos
      if !h then return it.flags true true true else rightLoop ld n it pos

/-- louds_dense.go:413-440 `MoveToRightMostKey` -/
def moveRight (ld : LoudsDense) (it : DenseIter) : Option DenseIter := do
  let pos ← it.posInTrie[it.level]?
  let h ← ld.hasChildVec.bv.isSet pos
  if !h then return it.flags true true true else rightLoop ld (ld.height - 1 - it.level) it pos

/-- louds_dense.go:442-448 `SetToFirstInRoot` -/
def setToFirstInRoot (ld : LoudsDense) (it : DenseIter) : Option DenseIter := do
  let b ← ld.labelVec.bv.isSet 0
  if b then it.append ld 0
  else do
    let p ← ld.nextPos 0
    it.append ld p

/-- louds_dense.go:450-453 `SetToLastInRoot` -/
def setToLastInRoot (ld : LoudsDense) (it : DenseIter) : Option DenseIter := do
  let (p, _) ← ld.prevPos denseFanout
  it.append ld p

/-- louds_dense.go:210-213, 219-220: the position after `posInTrie[lev]` in its node, if there is one -/
def nextHere (ld : LoudsDense) (ps : List Nat) (lev : Nat) : Option (Option Nat) := do
  let pos ← ps[lev]?
  let np ← ld.nextPos pos
  if pos = np ∨ np / denseFanout > pos / denseFanout then return none else return some np

/-- louds_dense.go:213-221: the loop of `Next`: go up until there is a next position. `some none`: there is none up to the root. -/
def nextLoop (ld : LoudsDense) (ps : List Nat) : Nat → Option (Option (Nat × Nat))
  | 0 => do
    match ← nextHere ld ps 0 with
    | none => return none
    | some np => return some (0, np)
  | lev + 1 => do
    match ← nextHere ld ps (lev + 1) with
    | none => nextLoop ld ps lev
    | some np => return some (lev + 1, np)

/-- louds_dense.go:200-224 `Next` -/
def next (ld : LoudsDense) (it : DenseIter) : Option DenseIter :=
  if ld.height = 0 then some it
  else if it.atPrefixKey then { it with atPrefixKey := false }.moveLeft ld
  else do
    match ← nextLoop ld it.posInTrie it.level with
    | none => return { it with level := 0, valid := false }
    | some (lev, np) => do
      let it ← { it with level := lev }.setAt np
      it.moveLeft ld

/-- How the loop of `Prev` ends, and the level reached. -/
inductive PrevRes where
  | out (lev : Nat)
  | atPrefix (lev : Nat)
  | found (lev pos : Nat)
deriving Repr, DecidableEq

/-- louds_dense.go:234-238, 240-246, 253-258: one round at level `lev`; `none` = go up -/
def prevHere (ld : LoudsDense) (ps : List Nat) (lev : Nat) : Option (Option PrevRes) := do
  let pos ← ps[lev]?
  let (pp, out) ← ld.prevPos pos
  if out then return some (.out lev)
  else if pp / denseFanout < pos / denseFanout then do
    let p ← ld.isPrefixVec.bv.isSet (pos / denseFanout)
    if p then return some (.atPrefix lev) else return none
  else return some (.found lev pp)

/-- louds_dense.go:234-261: the loop of `Prev` -/
def prevLoop (ld : LoudsDense) (ps : List Nat) : Nat → Option PrevRes
  | 0 => do
    match ← prevHere ld ps 0 with
    | some r => return r
    | none => return .out 0
  | lev + 1 => do
    match ← prevHere ld ps (lev + 1) with
    | some r => return r
    | none => prevLoop ld ps lev

/-- louds_dense.go:226-264 `Prev` -/
def prev (ld : LoudsDense) (it : DenseIter) : Option DenseIter :=
  if ld.height = 0 then some it
  else do
    let it := if it.atPrefixKey then { it with atPrefixKey := false, level := dec32 it.level } else it
    match ← prevLoop ld it.posInTrie it.level with
    | .out lev => return { it with level := lev, valid := false }
    | .atPrefix lev => do
      let it ← { it with level := lev }.truncate
      return { it with atPrefixKey := true }.flags true true true
    | .found lev pp => do
      let it ← { it with level := lev }.setAt pp
      it.moveRight ld

/-- louds_dense.go:464-472 `compareSuffixGreaterThan` -/
def compareSuffixGreaterThan (ld : LoudsDense) (it : DenseIter) (key : Bytes) (pos level : Nat) : Option (DenseIter × Bool) := do
  let sp ← ld.suffixPos pos false
  let cmp ← ld.suffixes.compare key sp level
  if cmp < 0 then do
    let it ← it.next ld
    return (it, false)
  else return (it.flags true true true, cmp == couldBePositive)

/-- louds_dense.go:289-303: the search ends in front of all keys of the node -/
def seekFirst (ld : LoudsDense) (it : DenseIter) (nodeID : Nat) (eq : Bool) : Option (DenseIter × Bool) := do
  let pos := nodeID * denseFanout
  let it ←
    if pos > 0 then do
      let p ← ld.nextPos (pos - 1)
      it.append ld p
    else it.setToFirstInRoot ld
  let p ← ld.isPrefixVec.bv.isSet nodeID
  let it ← if p then some ({ it with atPrefixKey := true }.flags true true true) else it.moveLeft ld
  return (it, eq)

/-- louds_dense.go:305-317: the label at `depth`; `inl` = return, `inr` = go on to the child at this position -/
def seekLabel (ld : LoudsDense) (it : DenseIter) (key : Bytes) (depth nodeID : Nat) : Option ((DenseIter × Bool) ⊕ (DenseIter × Nat)) := do
  let c ← key[depth]?
  let pos := nodeID * denseFanout + c.toNat
  let it ← it.append ld pos
  let l ← ld.labelVec.bv.isSet pos
  if !l then do
    let it ← it.next ld
    return .inl (it, false)
  else do
    let h ← ld.hasChildVec.bv.isSet pos
    if !h then do
      let r ← it.compareSuffixGreaterThan ld key pos (depth + 1)
      return .inl r
    else return .inr (it, pos)

/-- louds_dense.go:268-327: the loop of `Seek`; the first argument is the number of levels left -/
def seekLoop (ld : LoudsDense) (key : Bytes) : Nat → DenseIter → Nat → Nat → Option (DenseIter × Bool)
  | 0, it, depth, nodeID =>
    return ({ it with level := dec32 it.level, sendOutNodeID := nodeID, sendOutDepth := depth }.flags false true true, true)
  | n + 1, it, depth, nodeID => do
    let pre ← ld.prefixVec.getPrefix nodeID
    let cmp ← prefixCmp pre key depth
    if cmp < 0 then
      if nodeID = 0 then return ({ it with valid := false }, false)
      else do
        let it ← { it with level := dec32 it.level }.next ld
        return (it, false)
    else do
      let depth := depth + pre.length
      if depth ≥ key.length ∨ cmp > 0 then it.seekFirst ld nodeID (cmp == 0)
      else do
        match ← it.seekLabel ld key depth nodeID with
        | .inl r => return r
        | .inr (it, pos) => do
          let c ← ld.childNodeID pos
          seekLoop ld key n { it with level := it.level + 1 } (depth + 1) c

/-- louds_dense.go:266-327 `Seek` -/
def seek (ld : LoudsDense) (it : DenseIter) (key : Bytes) : Option (DenseIter × Bool) :=
  seekLoop ld key ld.height { it with level := 0 } 0 0

/-- louds_dense.go:329-334 `Key` -/
def key (it : DenseIter) : Option Bytes :=
  if it.atPrefixKey then (usub it.keyBuf.length 1).bind (cutTo it.keyBuf) else some it.keyBuf

/-- louds_dense.go:336-339 `Value` -/
def value (ld : LoudsDense) (it : DenseIter) : Option Bytes := do
  let pos ← it.posInTrie[it.level]?
  let valPos ← ld.suffixPos pos it.atPrefixKey
  ld.values.get valPos

/-- louds_dense.go:341-364 `Compare` -/
def compare (ld : LoudsDense) (it : DenseIter) (key : Bytes) : Option Int := do
  let itKey ← it.key
  let cmpLen := min itKey.length key.length
  let cmp := bytesCompare (itKey.take cmpLen) (key.take cmpLen)
  if cmp ≠ 0 then return cmp
  else if itKey.length > key.length then return 1
  else if itKey.length = key.length ∧ it.atPrefixKey then return 0
  else if it.isComplete then do
    let pos ← it.posInTrie[it.level]?
    let sp ← ld.suffixPos pos it.atPrefixKey
    ld.suffixes.compare key sp itKey.length
  else return cmp

end DenseIter

/-! ## sparseIter -/

/-- louds_sparse.go:208-220 -/
structure SparseIter where
  valid : Bool := false
  atTerminator : Bool := false
  startLevel : Nat := 0
  startNodeID : Nat := 0
  startDepth : Nat := 0
  level : Nat := 0
  keyBuf : Bytes := []
  posInTrie : List Nat := []
  nodeID : List Nat := []
  prefixLen : List Nat := []
deriving Repr, DecidableEq

namespace SparseIter

/-- louds_sparse.go:222-228 `Init`, on a new iterator -/
def init (ls : LoudsSparse) : SparseIter :=
  { startLevel := ls.startLevel, posInTrie := List.replicate ls.sparseLevels 0, nodeID := List.replicate ls.sparseLevels 0, prefixLen := List.replicate ls.sparseLevels 0 }

/-- louds_sparse.go:384-389 `Reset` -/
def reset (it : SparseIter) : SparseIter := { it with valid := false, level := 0, atTerminator := false, keyBuf := [] }

/-- louds_sparse.go:480-483: the length of the key up to and with the current level -/
def upLen (it : SparseIter) (n : Nat) : Option Nat :=
  if it.level ≠ 0 then (it.prefixLen[it.level - 1]?).map (n + ·) else some n

/-- louds_sparse.go:475-485 `append` -/
def append (ls : LoudsSparse) (it : SparseIter) (label : UInt8) (pos nodeID : Nat) : Option SparseIter := do
  let pid ← ls.prefixID nodeID
  let pre ← ls.prefixVec.getPrefix pid
  let ps ← putAt it.posInTrie it.level pos
  let n ← it.upLen (pre.length + 1)
  let pl ← putAt it.prefixLen it.level n
  let ns ← putAt it.nodeID it.level nodeID
  return { it with keyBuf := it.keyBuf ++ pre ++ [label], posInTrie := ps, prefixLen := pl, nodeID := ns }

/-- louds_sparse.go:487-490 `setAt`, with `level = it.level` (the node is not used) -/
def setAt (ls : LoudsSparse) (it : SparseIter) (pos : Nat) : Option SparseIter := do
  let n ← it.prefixLen[it.level]?
  let n ← usub n 1
  let b ← cutTo it.keyBuf n
  let label ← ls.labelVec.getLabel pos
  let ps ← putAt it.posInTrie it.level pos
  return { it with keyBuf := b ++ [label], posInTrie := ps }

/-- louds_sparse.go:402-405, 417-420: at a leaf -/
def atLeaf (ls : LoudsSparse) (it : SparseIter) (pos : Nat) (label : UInt8) : Option SparseIter := do
  let t ← if label = labelTerminator then (ls.isEndOfNode pos).map (!·) else some false
  return { it with valid := true, atTerminator := it.atTerminator || t }

/-- louds_sparse.go:409-425: the loop of `MoveToLeftMostKey` (`first = true`) or `MoveToRightMostKey` (446-462, `first = false`); the first argument is `sparseLevels-level` -/
def downLoop (bmi : Bool) (ls : LoudsSparse) (first : Bool) : Nat → SparseIter → Nat → Option SparseIter
  | 0, _, _ => none
  | n + 1, it, pos => do
    let nodeID ← ls.childNodeID pos
    let pos ← if first then ls.firstLabelPos bmi nodeID else ls.lastLabelPos bmi nodeID
    let label ← ls.labelVec.getLabel pos
    let h ← ls.hasChildVec.bv.isSet pos
    let it ← { it with level := it.level + 1 }.append ls label pos nodeID
    if !h then it.atLeaf ls pos label else downLoop bmi ls first n it pos

/-- louds_sparse.go:392-396 and 429-433: start at the node handed over by the dense part -/
def enter (bmi : Bool) (ls : LoudsSparse) (first : Bool) (it : SparseIter) : Option SparseIter :=
  if it.keyBuf.length = 0 then do
    let pos ← if first then ls.firstLabelPos bmi it.startNodeID else ls.lastLabelPos bmi it.startNodeID
    let label ← ls.labelVec.getLabel pos
    it.append ls label pos it.startNodeID
  else some it

/-- louds_sparse.go:391-426 `MoveToLeftMostKey` (`first = true`) and 428-463 `MoveToRightMostKey` (`first = false`) -/
def move (bmi : Bool) (ls : LoudsSparse) (first : Bool) (it : SparseIter) : Option SparseIter := do
  let it ← it.enter bmi ls first
  let pos ← it.posInTrie[it.level]?
  let label ← ls.labelVec.getLabel pos
  let h ← ls.hasChildVec.bv.isSet pos
  if !h then it.atLeaf ls pos label else downLoop bmi ls first (ls.sparseLevels - it.level) it pos

/-- louds_sparse.go:465-468 `SetToFirstInRoot` -/
def setToFirstInRoot (ls : LoudsSparse) (it : SparseIter) : Option SparseIter := do
  let ps ← putAt it.posInTrie 0 0
  let l ← ls.labelVec.getLabel 0
  return { it with posInTrie := ps, keyBuf := [l] }

/-- louds_sparse.go:470-473 `SetToLastInRoot` -/
def setToLastInRoot (bmi : Bool) (ls : LoudsSparse) (it : SparseIter) : Option SparseIter := do
  let p ← ls.lastLabelPos bmi 0
  let ps ← putAt it.posInTrie 0 p
  let l ← ls.labelVec.getLabel p
  return { it with posInTrie := ps, keyBuf := [l] }

/-- louds_sparse.go:232-235, 242-243: the position after `posInTrie[lev]` in its node, if there is one -/
def nextHere (ls : LoudsSparse) (ps : List Nat) (lev : Nat) : Option (Option Nat) := do
  let pos ← ps[lev]?
  let b ← if pos + 1 ≥ ls.loudsVec.bv.numBits then some true else ls.loudsVec.bv.isSet (pos + 1)
  return if b then none else some (pos + 1)

/-- louds_sparse.go:235-244: the loop of `Next` -/
def nextLoop (ls : LoudsSparse) (ps : List Nat) : Nat → Option (Option (Nat × Nat))
  | 0 => do
    match ← nextHere ls ps 0 with
    | none => return none
    | some np => return some (0, np)
  | lev + 1 => do
    match ← nextHere ls ps (lev + 1) with
    | none => nextLoop ls ps lev
    | some np => return some (lev + 1, np)

/-- louds_sparse.go:230-247 `Next` -/
def next (bmi : Bool) (ls : LoudsSparse) (it : SparseIter) : Option SparseIter := do
  let it := { it with atTerminator := false }
  match ← nextLoop ls it.posInTrie it.level with
  | none => return { it with level := 0, valid := false, keyBuf := [] }
  | some (lev, np) => do
    let it ← { it with level := lev }.setAt ls np
    it.move bmi ls true

/-- louds_sparse.go:258, 264-265: the position before `posInTrie[lev]` in its node, if there is one -/
def prevHere (ls : LoudsSparse) (ps : List Nat) (lev : Nat) : Option (Option Nat) := do
  let pos ← ps[lev]?
  let b ← ls.loudsVec.bv.isSet pos
  if b then return none
  else do
    let p ← usub pos 1
    return some p

/-- louds_sparse.go:258-266: the loop of `Prev` -/
def prevLoop (ls : LoudsSparse) (ps : List Nat) : Nat → Option (Option (Nat × Nat))
  | 0 => do
    match ← prevHere ls ps 0 with
    | none => return none
    | some pp => return some (0, pp)
  | lev + 1 => do
    match ← prevHere ls ps (lev + 1) with
    | none => prevLoop ls ps lev
    | some pp => return some (lev + 1, pp)

/-- louds_sparse.go:249-270 `Prev` -/
def prev (bmi : Bool) (ls : LoudsSparse) (it : SparseIter) : Option SparseIter := do
  let it := { it with atTerminator := false }
  let pos ← it.posInTrie[it.level]?
  if pos = 0 then return { it with valid := false }
  else do
    match ← prevLoop ls it.posInTrie it.level with
    | none => return { it with level := 0, valid := false, keyBuf := [] }
    | some (lev, pp) => do
      let it ← { it with level := lev }.setAt ls pp
      it.move bmi ls false

/-- louds_sparse.go:506-514 `compareSuffixGreaterThan` -/
def compareSuffixGreaterThan (bmi : Bool) (ls : LoudsSparse) (it : SparseIter) (key : Bytes) (pos level : Nat) : Option (SparseIter × Bool) := do
  let sp ← ls.suffixPos pos
  let cmp ← ls.suffixes.compare key sp level
  if cmp < 0 then do
    let it ← it.next bmi ls
    return (it, false)
  else return ({ it with valid := true }, cmp == couldBePositive)

/-- louds_sparse.go:496-504 `moveToLeftInNextSubTrie` -/
def moveToLeftInNextSubTrie (bmi : Bool) (ls : LoudsSparse) (it : SparseIter) (pos nodeID nodeSize : Nat) (label : UInt8) : Option SparseIter := do
  let (pos, ok) ← ls.labelVec.searchGreaterThan label pos nodeSize
  let l ← ls.labelVec.getLabel pos
  let it ← it.append ls l pos nodeID
  if ok then it.move bmi ls true else it.next bmi ls

/-- louds_sparse.go:324-337: after the loop of `Seek` -/
def seekTail (bmi : Bool) (ls : LoudsSparse) (key : Bytes) (it : SparseIter) (depth nodeID pos : Nat) : Option (SparseIter × Bool) := do
  let l ← ls.labelVec.getLabel pos
  let t ←
    if l = labelTerminator then do
      let h ← ls.hasChildVec.bv.isSet pos
      if !h then (ls.isEndOfNode pos).map (!·) else some false
    else some false
  if t then do
    let it ← it.append ls labelTerminator pos nodeID
    return ({ it with atTerminator := true, valid := true }, false)
  else if key.length ≤ depth then do
    let it ← it.move bmi ls true
    return (it, false)
  else return ({ it with valid := true }, true)

/-- louds_sparse.go:302-316: the label at `depth`; `inl` = return, `inr` = go on to the child at this position -/
def seekLabel (bmi : Bool) (ls : LoudsSparse) (key : Bytes) (it : SparseIter) (depth nodeID pos : Nat) :
    Option ((SparseIter × Bool) ⊕ (SparseIter × Nat)) := do
  let size ← ls.nodeSize pos
  let c ← key[depth]?
  let (pos, ok) ← ls.labelVec.search c pos size
  if !ok then do
    let it ← it.moveToLeftInNextSubTrie bmi ls pos nodeID size c
    return .inl (it, false)
  else do
    let it ← it.append ls c pos nodeID
    let h ← ls.hasChildVec.bv.isSet pos
    if !h then do
      let r ← it.compareSuffixGreaterThan bmi ls key pos (depth + 1)
      return .inl r
    else return .inr (it, pos)

/-- louds_sparse.go:278-338: the loop of `Seek`; the first argument is the number of levels left -/
def seekLoop (bmi : Bool) (ls : LoudsSparse) (key : Bytes) : Nat → SparseIter → Nat → Nat → Nat → Option (SparseIter × Bool)
  | 0, it, depth, nodeID, pos => seekTail bmi ls key it depth nodeID pos
  | n + 1, it, depth, nodeID, pos => do
    let pid ← ls.prefixID nodeID
    let pre ← ls.prefixVec.getPrefix pid
    let cmp ← prefixCmp pre key depth
    if cmp < 0 then
      if it.level = 0 then return ({ it with valid := false }, false)
      else do
        let it ← { it with level := dec32 it.level }.next bmi ls
        return (it, false)
    else do
      let depth := depth + pre.length
      if depth ≥ key.length ∨ cmp > 0 then do
        let l ← ls.labelVec.getLabel pos
        let it ← it.append ls l pos nodeID
        let it ← it.move bmi ls true
        return (it, false)
      else do
        match ← it.seekLabel bmi ls key depth nodeID pos with
        | .inl r => return r
        | .inr (it, pos) => do
          let nodeID ← ls.childNodeID pos
          let pos ← ls.firstLabelPos bmi nodeID
          seekLoop bmi ls key n { it with level := it.level + 1 } (depth + 1) nodeID pos

/-- louds_sparse.go:272-338 `Seek` -/
def seek (bmi : Bool) (ls : LoudsSparse) (it : SparseIter) (key : Bytes) : Option (SparseIter × Bool) := do
  let pos ← ls.firstLabelPos bmi it.startNodeID
  seekLoop bmi ls key ls.sparseLevels { it with level := 0 } it.startDepth it.startNodeID pos

/-- louds_sparse.go:340-345 `Key` -/
def key (it : SparseIter) : Option Bytes :=
  if it.atTerminator then (usub it.keyBuf.length 1).bind (cutTo it.keyBuf) else some it.keyBuf

/-- louds_sparse.go:347-350 `Value` -/
def value (ls : LoudsSparse) (it : SparseIter) : Option Bytes := do
  let pos ← it.posInTrie[it.level]?
  let valPos ← ls.suffixPos pos
  ls.values.get valPos

/-- louds_sparse.go:352-382 `Compare` -/
def compare (ls : LoudsSparse) (it : SparseIter) (key : Bytes) : Option Int := do
  let itKey ← it.key
  if it.startDepth > key.length then none
  else if it.startDepth = key.length then return if it.atTerminator then 0 else 1
  else do
    let key := key.drop it.startDepth
    let cmpLen := min itKey.length key.length
    let cmp := bytesCompare (itKey.take cmpLen) (key.take cmpLen)
    if cmp ≠ 0 then return cmp
    else if itKey.length > key.length then return 1
    else if itKey.length = key.length ∧ it.atTerminator then return 0
    else do
      let pos ← it.posInTrie[it.level]?
      let sp ← ls.suffixPos pos
      ls.suffixes.compare key sp itKey.length

end SparseIter

/-! ## Iterator -/

/-- surf.go:86-91 (the buffer of `Key` is left out) -/
structure Iterator where
  d : DenseIter
  s : SparseIter
deriving Repr, DecidableEq

/-- surf.go:93-99 `NewIterator` -/
def SuRF.newIterator (f : SuRF) : Iterator := ⟨.init f.ld, .init f.ls⟩

namespace Iterator

/-- surf.go:101-104 `Valid` -/
def valid (it : Iterator) : Bool := it.d.valid && (it.d.isComplete || it.s.valid)

/-- surf.go:203-207 `Reset` -/
def reset (it : Iterator) : Iterator := ⟨it.d.reset, it.s.reset⟩

/-- surf.go:209-212 `passToSparse` -/
def passToSparse (it : Iterator) : Iterator :=
  { it with s := { it.s with startNodeID := it.d.sendOutNodeID, startDepth := it.d.sendOutDepth } }

/-- `it.passToSparse(); it.sparseIter.MoveToLeftMostKey()` (`first = true`) or `MoveToRightMostKey` -/
def intoSparse (bmi : Bool) (f : SuRF) (first : Bool) (it : Iterator) : Option Iterator := do
  let s ← it.passToSparse.s.move bmi f.ls first
  return { it with s := s }

/-- surf.go:214-230 `incrDenseIter` (the result is not used by any caller) -/
def incrDense (bmi : Bool) (f : SuRF) (it : Iterator) : Option Iterator :=
  if !it.d.valid then some it
  else do
    let d ← it.d.next f.ld
    let it := { it with d := d }
    if !d.valid then return it
    else if d.leftComp then return it
    else it.intoSparse bmi f true

/-- surf.go:107-112 `Next`, with `incrSparseIter` (232-238) -/
def next (bmi : Bool) (f : SuRF) (it : Iterator) : Option Iterator :=
  if it.s.valid then do
    let s ← it.s.next bmi f.ls
    let it := { it with s := s }
    if s.valid then return it else it.incrDense bmi f
  else it.incrDense bmi f

/-- surf.go:240-256 `decrDenseIter` -/
def decrDense (bmi : Bool) (f : SuRF) (it : Iterator) : Option Iterator :=
  if !it.d.valid then some it
  else do
    let d ← it.d.prev f.ld
    let it := { it with d := d }
    if !d.valid then return it
    else if d.rightComp then return it
    else it.intoSparse bmi f false

/-- surf.go:115-120 `Prev`, with `decrSparseIter` (258-264) -/
def prev (bmi : Bool) (f : SuRF) (it : Iterator) : Option Iterator :=
  if it.s.valid then do
    let s ← it.s.prev bmi f.ls
    let it := { it with s := s }
    if s.valid then return it else it.decrDense bmi f
  else it.decrDense bmi f

/-- surf.go:123-150 `Seek` -/
def seek (bmi : Bool) (f : SuRF) (it : Iterator) (key : Bytes) : Option (Iterator × Bool) :=
  let it := it.reset
  if f.ls.height = 0 ∧ f.ld.height = 0 then some (it, false)
  else do
    let (d, fp) ← it.d.seek f.ld key
    let it := { it with d := d }
    if !d.valid || d.isComplete then return (it, fp)
    else if !d.searchComp then do
      let it := it.passToSparse
      let (s, fp) ← it.s.seek bmi f.ls key
      let it := { it with s := s }
      if !s.valid then do
        let it ← it.incrDense bmi f
        return (it, fp)
      else return (it, fp)
    else if !d.leftComp then do
      let it ← it.intoSparse bmi f true
      return (it, fp)
    else none

/-- surf.go:152-167 `SeekToFirst` -/
def seekToFirst (bmi : Bool) (f : SuRF) (it : Iterator) : Option Iterator :=
  let it := it.reset
  if f.ld.height > 0 then do
    let d ← it.d.setToFirstInRoot f.ld
    let d ← d.moveLeft f.ld
    let it := { it with d := d }
    if d.leftComp then return it else it.intoSparse bmi f true
  else if f.ls.height > 0 then do
    let s ← it.s.setToFirstInRoot f.ls
    let s ← s.move bmi f.ls true
    return { it with s := s }
  else some it

/-- surf.go:169-184 `SeekToLast` -/
def seekToLast (bmi : Bool) (f : SuRF) (it : Iterator) : Option Iterator :=
  let it := it.reset
  if f.ld.height > 0 then do
    let d ← it.d.setToLastInRoot f.ld
    let d ← d.moveRight f.ld
    let it := { it with d := d }
    if d.rightComp then return it else it.intoSparse bmi f false
  else if f.ls.height > 0 then do
    let s ← it.s.setToLastInRoot bmi f.ls
    let s ← s.move bmi f.ls false
    return { it with s := s }
  else some it

/-- surf.go:186-193 `Key` -/
def key (it : Iterator) : Option Bytes :=
  if it.d.isComplete then it.d.key
  else do
    let a ← it.d.key
    let b ← it.s.key
    return a ++ b

/-- surf.go:195-201 `Value` -/
def value (f : SuRF) (it : Iterator) : Option Bytes := if it.d.isComplete then it.d.value f.ld else it.s.value f.ls

/-- surf.go:266-272 `compare` -/
def compare (f : SuRF) (it : Iterator) (key : Bytes) : Option Int := do
  let cmp ← it.d.compare f.ld key
  if it.d.isComplete ∨ cmp ≠ 0 then return cmp else it.s.compare f.ls key

end Iterator

/-- surf.go:23-42 `HasOverlap` -/
def SuRF.hasOverlap (bmi : Bool) (f : SuRF) (start stop : Bytes) (includeEnd : Bool) : Option Bool :=
  if f.ld.height = 0 ∧ f.ls.height = 0 then some false
  else do
    let (it, _) ← f.newIterator.seek bmi f start
    if !it.valid then return false
    else do
      let cmp ← it.compare f stop
      let cmp := if cmp = couldBePositive then -1 else cmp
      return if includeEnd then decide (cmp ≤ 0) else decide (cmp < 0)

end Surf
