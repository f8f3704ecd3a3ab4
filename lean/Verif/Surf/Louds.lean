import Verif.Surf.Builder

/-!
# Model of `surf/louds_dense.go`, `surf/louds_sparse.go`, `surf/surf.go`: structures, `Init`, `Get`, and `Builder.Build`

(The iterators are in `Verif.Surf.Iter`, marshalling in `Verif.Surf.Marshal`.)
-/

namespace Surf

/-! ## loudsDense -/

/-- louds_dense.go:13-23 -/
structure LoudsDense where
  labelVec : RankVector := {}
  hasChildVec : RankVector := {}
  isPrefixVec : RankVector := {}
  suffixes : SuffixVector := {}
  values : ValueVector := {}
  prefixVec : PrefixVec := {}
  height : Nat := 0
deriving Repr, DecidableEq

/-- louds_dense.go:37-46 / louds_sparse.go:43-52: the suffix vector of a range of levels -/
def initSuffixes (cfg : Config) (levels : List Level) : Option SuffixVector :=
  if cfg.suffixType ≠ .none then
    SuffixVector.init cfg.suffixType cfg.hashSuffixLen cfg.realSuffixLen
      (levels.map (·.suffixes)) (levels.map (fun l => l.suffixCount * cfg.suffixLen))
  else some {}

/-- louds_dense.go:25-52 `Init`; `all` are all the levels, `ds` the dense bitmaps of the first `height` ones.
(`isPrefixVec.Init` is handed the node counts of all levels, line 35.) -/
def LoudsDense.init (cfg : Config) (all : List Level) (ds : List DenseLevel) (height : Nat) : Option LoudsDense := do
  let levels := all.take height
  let numBitsPerLevel := (ds.take height).map (fun d => d.labels.length * 64)
  let labelVec ← RankVector.initDense ((ds.take height).map (·.labels)) numBitsPerLevel
  let hasChildVec ← RankVector.initDense ((ds.take height).map (·.hasChild)) numBitsPerLevel
  let isPrefixVec ← RankVector.initDense ((ds.take height).map (·.isPrefix)) (all.map (·.nodeCount))
  let suffixes ← initSuffixes cfg levels
  let prefixVec ← PrefixVec.init (levels.map (·.hasPrefix)) (levels.map (·.nodeCount)) (levels.map (·.prefixes))
  return { labelVec, hasChildVec, isPrefixVec, suffixes,
           values := ValueVector.init (levels.map (·.values)) cfg.valueSize, prefixVec, height }

namespace LoudsDense

/-- louds_dense.go:144-146 `childNodeID` -/
def childNodeID (ld : LoudsDense) (pos : Nat) : Option Nat := ld.hasChildVec.rankDense pos

/-- louds_dense.go:154: is there a leaf at this position -/
def leafAt (ld : LoudsDense) (pos : Nat) : Option Bool := do
  let a ← ld.labelVec.bv.isSet pos
  if a then do
    let b ← ld.hasChildVec.bv.isSet pos
    return !b
  else return false

/-- louds_dense.go:148-158 `suffixPos` -/
def suffixPos (ld : LoudsDense) (pos : Nat) (isPrefix : Bool) : Option Nat := do
  let nodeID := pos / denseFanout
  let a ← ld.labelVec.rankDense pos
  let b ← ld.hasChildVec.rankDense pos
  let c ← ld.isPrefixVec.rankDense nodeID
  let d ← usub a b
  let s ← usub (d + c) 1
  if isPrefix then do
    let leaf ← ld.leafAt pos
    if leaf then usub s 1 else return s
  else return s

/-- louds_dense.go:66-69, 80-83: check the suffix at `valPos`, then read the value -/
def finish (fp : Bytes → Word) (ld : LoudsDense) (key : Bytes) (depth valPos : Nat) : Option (Bytes × Bool) := do
  let ok ← ld.suffixes.checkEquality fp valPos key (depth + 1)
  if ok then do
    let v ← ld.values.get valPos
    return (v, true)
  else return ([], false)

/-- Result of `loudsDense.Get`: `sparseNode` (-1 if the search ended), `depth`, `value`, `ok` -/
structure GetRes where
  sparseNode : Int
  depth : Nat
  value : Bytes
  ok : Bool
deriving Repr, DecidableEq

/-- louds_dense.go:64-85: at node `nodeID`, after the prefix has been checked and `depth` advanced.
`inl` = return, `inr pos` = go on to the child at `pos`. -/
def getAt (fp : Bytes → Word) (ld : LoudsDense) (key : Bytes) (depth nodeID : Nat) : Option (GetRes ⊕ Nat) :=
  let pos := nodeID * denseFanout
  if depth ≥ key.length then do
    let p ← ld.isPrefixVec.bv.isSet nodeID
    if p then do
      let valPos ← ld.suffixPos pos true
      let (v, ok) ← ld.finish fp key depth valPos
      return .inl ⟨-1, depth, v, ok⟩
    else return .inl ⟨-1, depth, [], false⟩
  else do
    let c ← key[depth]?
    let pos := pos + c.toNat
    let l ← ld.labelVec.bv.isSet pos
    if !l then return .inl ⟨-1, depth, [], false⟩
    else do
      let h ← ld.hasChildVec.bv.isSet pos
      if !h then do
        let valPos ← ld.suffixPos pos false
        let (v, ok) ← ld.finish fp key depth valPos
        return .inl ⟨-1, depth, v, ok⟩
      else return .inr pos

/-- louds_dense.go:56-91: the loop; the recursion argument is the number of levels left -/
def getLoop (fp : Bytes → Word) (ld : LoudsDense) (key : Bytes) : Nat → Nat → Nat → Option GetRes
  | 0, depth, nodeID => some ⟨nodeID, depth, [], true⟩
  | n + 1, depth, nodeID => do
    let (prefixLen, ok) ← ld.prefixVec.checkPrefix key depth nodeID
    if !ok then return ⟨-1, depth, [], false⟩
    else do
      let depth := depth + prefixLen
      match ← ld.getAt fp key depth nodeID with
      | .inl r => return r
      | .inr pos => do
        let child ← ld.childNodeID pos
        getLoop fp ld key n (depth + 1) child

/-- louds_dense.go:54-92 `Get` -/
def get (fp : Bytes → Word) (ld : LoudsDense) (key : Bytes) : Option GetRes := ld.getLoop fp key ld.height 0 0

end LoudsDense

/-! ## loudsSparse -/

/-- louds_sparse.go:8-20 -/
structure LoudsSparse where
  height : Nat := 0
  startLevel : Nat := 0
  denseNodeCount : Nat := 0
  denseChildCount : Nat := 0
  labelVec : LabelVector := {}
  hasChildVec : RankVector := {}
  loudsVec : SelectVector := {}
  suffixes : SuffixVector := {}
  values : ValueVector := {}
  prefixVec : PrefixVec := {}
deriving Repr, DecidableEq

/-- louds_sparse.go:30-32 -/
def denseChildCountOf (all : List Level) (startLevel denseNodeCount : Nat) : Option Nat :=
  if startLevel ≠ 0 then do
    let l ← all[startLevel]?
    usub (denseNodeCount + l.nodeCount) 1
  else some 0

/-- louds_sparse.go:22-58 `Init` (`bmi`: does the processor have BMI2) -/
def LoudsSparse.init (bmi : Bool) (cfg : Config) (all : List Level) (startLevel : Nat) : Option LoudsSparse := do
  let height := all.length
  let denseNodeCount := ((all.take startLevel).map (·.nodeCount)).sum
  let denseChildCount ← denseChildCountOf all startLevel denseNodeCount
  let labelVec := LabelVector.init (all.map (·.labels)) startLevel height
  let levels := all.drop startLevel
  let numItemsPerLevel := levels.map (·.labels.length)
  let hasChildVec ← RankVector.initSparse (levels.map (·.hasChild)) numItemsPerLevel
  let loudsVec ← SelectVector.init bmi (levels.map (·.louds)) numItemsPerLevel
  let suffixes ← initSuffixes cfg levels
  let prefixVec ← PrefixVec.init (levels.map (·.hasPrefix)) (levels.map (·.nodeCount)) (levels.map (·.prefixes))
  return { height, startLevel, denseNodeCount, denseChildCount, labelVec, hasChildVec, loudsVec, suffixes,
           values := ValueVector.init (levels.map (·.values)) cfg.valueSize, prefixVec }

namespace LoudsSparse

/-- louds_sparse.go:173-175 `suffixPos` -/
def suffixPos (ls : LoudsSparse) (pos : Nat) : Option Nat := do
  let r ← ls.hasChildVec.rankSparse pos
  usub pos r

/-- louds_sparse.go:177-179 `firstLabelPos` -/
def firstLabelPos (bmi : Bool) (ls : LoudsSparse) (nodeID : Nat) : Option Nat := do
  let r ← usub (nodeID + 1) ls.denseNodeCount
  ls.loudsVec.select bmi r

/-- louds_sparse.go:181-183 `sparseLevels` -/
def sparseLevels (ls : LoudsSparse) : Nat := ls.height - ls.startLevel

/-- louds_sparse.go:184-186 `prefixID` -/
def prefixID (ls : LoudsSparse) (nodeID : Nat) : Option Nat := usub nodeID ls.denseNodeCount

/-- louds_sparse.go:188-194 `lastLabelPos` -/
def lastLabelPos (bmi : Bool) (ls : LoudsSparse) (nodeID : Nat) : Option Nat := do
  let nextRank ← usub (nodeID + 2) ls.denseNodeCount
  if nextRank > ls.loudsVec.numOnes then usub ls.loudsVec.bv.numBits 1
  else do
    let p ← ls.loudsVec.select bmi nextRank
    usub p 1

/-- louds_sparse.go:196-198 `childNodeID` -/
def childNodeID (ls : LoudsSparse) (pos : Nat) : Option Nat := do
  let r ← ls.hasChildVec.rankSparse pos
  return r + ls.denseChildCount

/-- louds_sparse.go:200-202 `nodeSize` -/
def nodeSize (ls : LoudsSparse) (pos : Nat) : Option Nat := ls.loudsVec.bv.distanceToNextSetBit pos

/-- louds_sparse.go:204-206 `isEndOfNode` -/
def isEndOfNode (ls : LoudsSparse) (pos : Nat) : Option Bool := do
  let last ← usub ls.loudsVec.bv.numBits 1
  if pos = last then return true else ls.loudsVec.bv.isSet (pos + 1)

/-- louds_sparse.go:82-86, 94-98: check the suffix, then read the value -/
def finish (fp : Bytes → Word) (ls : LoudsSparse) (key : Bytes) (depth pos : Nat) : Option (Bytes × Bool) := do
  let valPos ← ls.suffixPos pos
  let ok ← ls.suffixes.checkEquality fp valPos key (depth + 1)
  if ok then do
    let v ← ls.values.get valPos
    return (v, true)
  else return ([], false)

/-- louds_sparse.go:93-101: after the loop -/
def getTail (fp : Bytes → Word) (ls : LoudsSparse) (key : Bytes) (depth pos : Nat) : Option (Bytes × Bool) := do
  let l ← ls.labelVec.getLabel pos
  if l = labelTerminator then do
    let h ← ls.hasChildVec.bv.isSet pos
    if !h then ls.finish fp key depth pos else return ([], false)
  else return ([], false)

/-- louds_sparse.go:66-91: the loop. It increases `depth` in every iteration and stops at the end of the key: the
recursion argument bounds the iterations left (`get` hands in `len(key)+1`, which is enough). -/
def getLoop (fp : Bytes → Word) (bmi : Bool) (ls : LoudsSparse) (key : Bytes) :
    Nat → Nat → Nat → Nat → Option (Bytes × Bool)
  | 0, _, _, _ => none
  | fuel + 1, depth, nodeID, pos =>
    if depth < key.length then do
      let pid ← ls.prefixID nodeID
      let (prefixLen, ok) ← ls.prefixVec.checkPrefix key depth pid
      if !ok then return ([], false)
      else do
        let depth := depth + prefixLen
        if depth ≥ key.length then ls.getTail fp key depth pos
        else do
          let c ← key[depth]?
          let sz ← ls.nodeSize pos
          let (pos, ok) ← ls.labelVec.search c pos sz
          if !ok then return ([], false)
          else do
            let h ← ls.hasChildVec.bv.isSet pos
            if !h then ls.finish fp key depth pos
            else do
              let nodeID ← ls.childNodeID pos
              let pos ← ls.firstLabelPos bmi nodeID
              getLoop fp bmi ls key fuel (depth + 1) nodeID pos
    else ls.getTail fp key depth pos

/-- louds_sparse.go:60-102 `Get` -/
def get (fp : Bytes → Word) (bmi : Bool) (ls : LoudsSparse) (key : Bytes) (startDepth nodeID : Nat) :
    Option (Bytes × Bool) := do
  let pos ← ls.firstLabelPos bmi nodeID
  ls.getLoop fp bmi key (key.length + 1) startDepth nodeID pos

end LoudsSparse

/-! ## SuRF -/

/-- surf.go:8-12 -/
structure SuRF where
  ld : LoudsDense
  ls : LoudsSparse
deriving Repr, DecidableEq

/-- surf.go:14-21 `Get` -/
def SuRF.get (fp : Bytes → Word) (bmi : Bool) (s : SuRF) (key : Bytes) : Option (Bytes × Bool) := do
  let r ← s.ld.get fp key
  if !r.ok ∨ r.sparseNode < 0 then return (r.value, r.ok)
  else s.ls.get fp bmi key r.depth r.sparseNode.toNat

/-- Length of the longest key: bounds the nesting of `buildNodes`. -/
def maxKeyLen (keys : List Bytes) : Nat := (keys.map List.length).foldr max 0

/-- builder.go:95-107: `Build` once the levels and the cut-off are known. Lines 97-102 build a prefix vector that is not
used (kept here because it could panic). -/
def assemble (bmi : Bool) (cfg : Config) (levels : List Level) (cut : Nat) : Option SuRF := do
  let ds ← buildDense (levels.take cut)
  let _ ← PrefixVec.init (levels.map (·.hasPrefix)) (levels.map (·.nodeCount)) (levels.map (·.prefixes))
  let ld ← LoudsDense.init cfg levels ds cut
  let ls ← LoudsSparse.init bmi cfg levels cut
  return { ld, ls }

/-- builder.go:88-108 `Build`, on a fresh builder -/
def build (fp : Bytes → Word) (bmi : Bool) (cfg : Config) (keys vals : List Bytes) (bitsPerKeyHint : Int) :
    Option SuRF := do
  let levels ← buildNodes cfg fp (maxKeyLen keys + 2) [] keys vals 0 0 0
  assemble bmi cfg levels (determineCutoffLevel cfg levels keys.length bitsPerKeyHint)

end Surf
