import Verif.Surf.Vec

/-!
# Model of `surf/builder.go`

The parallel slices of the Go `Builder` that are indexed by level (`lsLabels`, `lsHasChild`, …, builder.go:38-64) are kept
as one list of records (`List Level`): `addLevel` always extends all of them together. The configuration fields, which
never change after `NewBuilder`, are in `Config`. `append` of Go slices is list append (no aliasing: every level slice has
one owner). Sizes are natural numbers (assumed below `2^32`).
-/

namespace Surf

/-- builder.go:34-51: the fields set by `NewBuilder` -/
structure Config where
  valueSize : Nat
  suffixType : SuffixType
  hashSuffixLen : Nat
  realSuffixLen : Nat
deriving Repr, DecidableEq

/-- builder.go:67-86 `NewBuilder` -/
def newBuilder (valueSize hashSuffixLen realSuffixLen : Nat) : Config :=
  { valueSize, hashSuffixLen, realSuffixLen,
    suffixType :=
      if hashSuffixLen = 0 ∧ realSuffixLen = 0 then .none
      else if hashSuffixLen = 0 then .real
      else if realSuffixLen = 0 then .hash
      else .mixed }

/-- builder.go:197-199 `suffixLen` -/
def Config.suffixLen (c : Config) : Nat := c.hashSuffixLen + c.realSuffixLen

/-- builder.go:38-64: what the builder holds for one level -/
structure Level where
  labels : Bytes := []
  hasChild : List Word := []
  louds : List Word := []
  hasPrefix : List Word := []
  suffixes : List Word := []
  suffixCount : Nat := 0
  values : Bytes := []
  valueCount : Nat := 0
  prefixes : List Bytes := []
  nodeCount : Nat := 0
  isLastItemTerminator : Bool := false
deriving Repr, DecidableEq

namespace Level

/-- builder.go:205-207 `numItems` -/
def numItems (l : Level) : Nat := l.labels.length

/-- builder.go:209-227 `addLevel`: the new level -/
def fresh : Level := { hasChild := [0#64], louds := [0#64], hasPrefix := [0#64] }

/-- builder.go:116, 135: append a label -/
def appendLabel (l : Level) (c : UInt8) : Level := { l with labels := l.labels ++ [c] }

/-- builder.go:229-234 `moveToNextItemSlot` -/
def moveToNextItemSlot (l : Level) : Level :=
  if l.numItems % 64 = 0 then { l with hasChild := l.hasChild ++ [0#64], louds := l.louds ++ [0#64] } else l

/-- builder.go:243-254: `insertSuffix` once the suffix is computed -/
def insertSuffixBits (suffixLen : Nat) (suffix : Word) (l : Level) : Option Level := do
  let pos := l.suffixCount * suffixLen
  let ss := if pos = l.suffixes.length * 64 then l.suffixes ++ [0#64] else l.suffixes
  let wordID := pos / 64
  let offset := pos % 64
  let remain := 64 - offset
  let ss ← orAt ss wordID (suffix <<< offset)
  let ss := if suffixLen > remain then ss ++ [suffix >>> remain] else ss
  return { l with suffixes := ss, suffixCount := l.suffixCount + 1 }

/-- builder.go:236-255 `insertSuffix` (the level exists at both call sites, so lines 237-239 do nothing) -/
def insertSuffix (cfg : Config) (fp : Bytes → Word) (key : Bytes) (depth : Nat) (l : Level) : Option Level := do
  let suffix ← constructSuffix fp key (depth + 1) cfg.suffixType cfg.realSuffixLen cfg.hashSuffixLen
  l.insertSuffixBits cfg.suffixLen suffix

/-- builder.go:257-260 `insertValue` (`value[:b.valueSize]` for a slice whose capacity is its length) -/
def insertValue (cfg : Config) (value : Bytes) (l : Level) : Option Level := do
  let v ← slice value 0 cfg.valueSize
  return { l with values := l.values ++ v, valueCount := l.valueCount + 1 }

/-- builder.go:118-119, 138-139: suffix and value of a leaf -/
def insertLeaf (cfg : Config) (fp : Bytes → Word) (key : Bytes) (depth : Nat) (value : Bytes) (l : Level) :
    Option Level := do
  let l ← l.insertSuffix cfg fp key depth
  l.insertValue cfg value

/-- builder.go:141 -/
def setHasChild (l : Level) : Option Level := do
  let p ← usub l.numItems 1
  let hc ← setBit l.hasChild p
  return { l with hasChild := hc }

/-- builder.go:148-152, 262-264: store the prefix if there is one -/
def storePrefix (prefixDepth depth : Nat) (key : Bytes) (l : Level) : Option Level :=
  if depth - prefixDepth > 0 then do
    let pre ← slice key prefixDepth depth
    let hp ← setBit l.hasPrefix l.nodeCount
    return { l with hasPrefix := hp, prefixes := l.prefixes ++ [pre] }
  else some l

/-- builder.go:148-158: the end of `buildNodes` -/
def finishNode (prefixDepth depth nodeStartPos : Nat) (key : Bytes) (l : Level) : Option Level := do
  let l ← l.storePrefix prefixDepth depth key
  let lo ← setBit l.louds nodeStartPos
  let nodeCount := l.nodeCount + 1
  return { l with louds := lo, nodeCount,
                  hasPrefix := if nodeCount % 64 = 0 then l.hasPrefix ++ [0#64] else l.hasPrefix }

/-- builder.go:116-120: the terminator item -/
def insertTerminator (cfg : Config) (fp : Bytes → Word) (key : Bytes) (depth : Nat) (value : Bytes) (l : Level) :
    Option Level := do
  let l := { l.appendLabel labelTerminator with isLastItemTerminator := true }
  let l ← l.insertLeaf cfg fp key depth value
  return l.moveToNextItemSlot

end Level

/-- access to the slices of level `i` (index panic if there is no such level) -/
def modifyLevel (ls : List Level) (i : Nat) (f : Level → Option Level) : Option (List Level) := do
  let l ← ls[i]?
  let l' ← f l
  return ls.set i l'

/-- builder.go:191-195 `ensureLevel` -/
def ensureLevel (ls : List Level) (level : Nat) : List Level :=
  if level ≥ ls.length then ls ++ [Level.fresh] else ls

section
variable (cfg : Config) (fp : Bytes → Word)

/-- The type of `buildNodes` (keys, vals, prefixDepth, depth, level) on the level slices -/
abbrev BuildFn := List Level → List Bytes → List Bytes → Nat → Nat → Nat → Option (List Level)

/-- builder.go:125: `keys[groupStart][depth] == keys[groupEnd][depth]` -/
def sameByte (keys : List Bytes) (depth groupStart groupEnd : Nat) : Option Bool := do
  let k ← keys[groupStart]?
  let a ← k[depth]?
  let k' ← keys[groupEnd]?
  let b ← k'[depth]?
  return a == b

/-- builder.go:135-143: emit the item for the group `[groupStart, groupEnd)` -/
def emitGroup (recur : BuildFn) (keys vals : List Bytes) (depth level groupStart groupEnd : Nat) (ls : List Level) :
    Option (List Level) := do
  let k ← keys[groupStart]?
  let c ← k[depth]?
  let ls ← modifyLevel ls level (fun l => some (l.appendLabel c).moveToNextItemSlot)
  if groupEnd - groupStart = 1 then do
    let v ← vals[groupStart]?
    modifyLevel ls level (Level.insertLeaf cfg fp k depth v)
  else do
    let ls ← modifyLevel ls level Level.setHasChild
    let ks ← slice keys groupStart groupEnd
    let vs ← slice vals groupStart groupEnd
    recur ls ks vs (depth + 1) (depth + 1) (level + 1)

/-- builder.go:124-146: the loop over `groupEnd`; the recursion argument is the number of iterations left,
`len(keys)+1-groupEnd`. The boolean says that the function returned at line 132. -/
def groupLoop (recur : BuildFn) (keys vals : List Bytes) (prefixDepth depth level : Nat) :
    Nat → Nat → Nat → List Level → Option (List Level × Bool)
  | 0, _, _, ls => some (ls, false)
  | n + 1, groupStart, groupEnd, ls => do
    let same ← (if groupEnd < keys.length then sameByte keys depth groupStart groupEnd else some false)
    if same then groupLoop recur keys vals prefixDepth depth level n groupStart (groupEnd + 1) ls
    else if groupEnd = keys.length ∧ groupStart = 0 ∧ groupEnd - groupStart ≠ 1 then do
      let ls ← recur ls keys vals prefixDepth (depth + 1) level
      return (ls, true)
    else do
      let ls ← emitGroup cfg fp recur keys vals depth level groupStart groupEnd ls
      groupLoop recur keys vals prefixDepth depth level n groupEnd (groupEnd + 1) ls

/-- builder.go:114-122: the terminator item, if the first key ends here; returns the new `groupStart` -/
def terminatorItem (keys vals : List Bytes) (depth level : Nat) (ls : List Level) : Option (List Level × Nat) := do
  let k ← keys[0]?
  if depth ≥ k.length then do
    let v ← vals[0]?
    let ls ← modifyLevel ls level (Level.insertTerminator cfg fp k depth v)
    return (ls, 1)
  else return (ls, 0)

/-- builder.go:110-159 `buildNodes`. Each nested call increases `depth` and indexes `keys[groupStart][depth]` before,
so the nesting is at most (length of the longest key) + 1; the fuel handed in by `build` covers it. -/
def buildNodes : Nat → BuildFn
  | 0, _, _, _, _, _, _ => none
  | fuel + 1, ls, keys, vals, prefixDepth, depth, level => do
    let ls := ensureLevel ls level
    let l ← ls[level]?
    let nodeStartPos := l.numItems
    let (ls, groupStart) ← terminatorItem cfg fp keys vals depth level ls
    let (ls, returned) ← groupLoop cfg fp (buildNodes fuel) keys vals prefixDepth depth level
      (keys.length + 1 - groupStart) groupStart groupStart ls
    if returned then return ls
    else do
      let k ← keys[0]?
      modifyLevel ls level (Level.finishNode prefixDepth depth nodeStartPos k)

end

/-! ## Cut-off level -/

/-- builder.go:296-305 `denseSizeNoSuffix` -/
def denseSizeNoSuffix (ls : List Level) (level : Nat) : Nat :=
  ((ls.take level).map (fun l => 2 * 256 * l.nodeCount)).sum + ((ls.take (level - 1)).map (·.nodeCount)).sum

/-- builder.go:307-315 `sparseSizeNoSuffix` -/
def sparseSizeNoSuffix (ls : List Level) (level : Nat) : Nat :=
  ((ls.drop level).map (fun l => l.labels.length * 8 + 2 * l.labels.length)).sum

/-- builder.go:284-292: the loop from `level` down -/
def cutoffLoop (ls : List Level) (rest sizeHint : Nat) : Nat → Nat
  | 0 => 0
  | level + 1 =>
    if denseSizeNoSuffix ls (level + 1) + sparseSizeNoSuffix ls (level + 1) + rest ≤ sizeHint then level + 1
    else cutoffLoop ls rest sizeHint level

/-- builder.go:266-294 `determineCutoffLevel`. `sizeHint` is `uint64(totalCount*bitsPerKeyHint)`, which wraps for a
negative hint; the other sums are assumed not to overflow. -/
def determineCutoffLevel (cfg : Config) (ls : List Level) (totalCount : Nat) (bitsPerKeyHint : Int) : Nat :=
  let sizeHint := (BitVec.ofInt 64 (totalCount * bitsPerKeyHint)).toNat
  let suffixSize := totalCount * cfg.suffixLen
  let prefixSize := (ls.map (fun l => (l.prefixes.map (fun p => p.length * 8)).sum)).sum + (ls.map (·.nodeCount)).sum
  cutoffLoop ls (suffixSize + prefixSize) sizeHint (ls.length - 1)

/-! ## Dense levels -/

/-- louds_dense.go:9 -/
def denseFanout : Nat := 256

/-- builder.go:43-46: `ldLabels[level]`, `ldHasChild[level]`, `ldIsPrefix[level]` -/
structure DenseLevel where
  labels : List Word
  hasChild : List Word
  isPrefix : List Word
deriving Repr, DecidableEq

/-- builder.go:325-335 `initDenseVectors` -/
def initDenseVectors (l : Level) : DenseLevel :=
  let vecLength := l.nodeCount * (256 / 64)
  let prefixVecLen := if l.nodeCount % 64 ≠ 0 then l.nodeCount / 64 + 1 else l.nodeCount / 64
  { labels := List.replicate vecLength 0#64, hasChild := List.replicate vecLength 0#64,
    isPrefix := List.replicate prefixVecLen 0#64 }

/-- builder.go:317-323 `setLabelAndHasChildVec` -/
def setLabelAndHasChildVec (l : Level) (nodeID pos : Nat) (d : DenseLevel) : Option DenseLevel := do
  let label ← l.labels[pos]?
  let labels ← setBit d.labels (nodeID * denseFanout + label.toNat)
  let hc ← readBit l.hasChild pos
  if hc then do
    let hasChild ← setBit d.hasChild (nodeID * denseFanout + label.toNat)
    return { d with labels, hasChild }
  else return { d with labels }

/-- builder.go:341-344 `isTerminator` -/
def isTerminator (l : Level) (pos : Nat) : Option Bool := do
  let label ← l.labels[pos]?
  if label = labelTerminator then do
    let hc ← readBit l.hasChild pos
    return !hc
  else return false

/-- builder.go:337-339 `isStartOfNode` -/
def isStartOfNode (l : Level) (pos : Nat) : Option Bool := readBit l.louds pos

/-- builder.go:171, 182 -/
def setIsPrefix (nodeID : Nat) (d : DenseLevel) : Option DenseLevel := do
  let isPrefix ← setBit d.isPrefix nodeID
  return { d with isPrefix }

/-- builder.go:170-174, 181-186: an item that starts a node -/
def denseFirstItem (l : Level) (nodeID pos : Nat) (d : DenseLevel) : Option DenseLevel := do
  let t ← isTerminator l pos
  if t then setIsPrefix nodeID d else setLabelAndHasChildVec l nodeID pos d

/-- builder.go:176-187: the loop over the items; the recursion argument is the number of iterations left -/
def denseLoop (l : Level) : Nat → Nat → Nat → DenseLevel → Option DenseLevel
  | 0, _, _, d => some d
  | n + 1, pos, nodeID, d => do
    let s ← isStartOfNode l pos
    if s then do
      let d ← denseFirstItem l (nodeID + 1) pos d
      denseLoop l n (pos + 1) (nodeID + 1) d
    else do
      let d ← setLabelAndHasChildVec l nodeID pos d
      denseLoop l n (pos + 1) nodeID d

/-- builder.go:164-187: the body of `buildDense` for one level -/
def buildDenseLevel (l : Level) : Option DenseLevel :=
  if l.numItems = 0 then some (initDenseVectors l) else do
    let d ← denseFirstItem l 0 0 (initDenseVectors l)
    denseLoop l (l.numItems - 1) 1 0 d

/-- builder.go:161-189 `buildDense`, given the levels below `sparseStartLevel` -/
def buildDense : List Level → Option (List DenseLevel)
  | [] => some []
  | l :: ls => do
    let d ← buildDenseLevel l
    let ds ← buildDense ls
    return d :: ds

end Surf
