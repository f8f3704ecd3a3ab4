import Verif.Surf.Wrap

/-!
# `Build` with the arithmetic of the code: `uint32` and `uint64`, wrapping

`Verif.Surf.Builder`, and the `Init` methods of `Verif.Surf.Vec` and `Verif.Surf.Louds`, compute with natural numbers. Here `Build` is modelled a second time, as `Get` is in
`Verif.Surf.Wrap`: every sum, product and difference of `uint32` values is taken modulo 2^32, every sum and product of `uint64` values modulo 2^64, and every conversion
`uint32(x)` cut to 32 bits. `int` values (depths, level numbers, lengths of slices) are as before. `Verif.Surf.WrapBuildLemmas` relates the two.
-/

namespace Surf.U32

/-- `a + b` on `uint64` -/
def add64 (a b : Nat) : Nat := (a + b) % 2 ^ 64
/-- `a * b` on `uint64` -/
def mul64 (a b : Nat) : Nat := (a * b) % 2 ^ 64

/-! ## builder.go: the levels -/

/-- builder.go:197-199 `suffixLen` -/
def cfgSuffixLen (c : Config) : Nat := c.hashSuffixLen ⊞ c.realSuffixLen

/-- builder.go:205-207 `numItems` -/
def numItems (l : Level) : Nat := u l.labels.length

/-- builder.go:229-234 `moveToNextItemSlot` -/
def moveToNextItemSlot (l : Level) : Level :=
  if numItems l % 64 = 0 then { l with hasChild := l.hasChild ++ [0#64], louds := l.louds ++ [0#64] } else l

/-- builder.go:243-254: `insertSuffix` once the suffix is computed -/
def insertSuffixBits (suffixLen : Nat) (suffix : Word) (l : Level) : Option Level := do
  let pos := l.suffixCount ⊠ suffixLen
  let ss := if pos = u (l.suffixes.length * 64) then l.suffixes ++ [0#64] else l.suffixes
  let wordID := pos / 64
  let offset := pos % 64
  let remain := 64 ⊟ offset
  let ss ← orAt ss wordID (suffix <<< offset)
  let ss := if suffixLen > remain then ss ++ [suffix >>> remain] else ss
  return { l with suffixes := ss, suffixCount := l.suffixCount ⊞ 1 }

/-- builder.go:236-255 `insertSuffix` -/
def insertSuffix (cfg : Config) (fp : Bytes → Word) (key : Bytes) (depth : Nat) (l : Level) : Option Level := do
  let suffix ← constructSuffix fp key (u depth ⊞ 1) cfg.suffixType cfg.realSuffixLen cfg.hashSuffixLen
  insertSuffixBits (cfgSuffixLen cfg) suffix l

/-- builder.go:257-260 `insertValue` -/
def insertValue (cfg : Config) (value : Bytes) (l : Level) : Option Level := do
  let v ← slice value 0 cfg.valueSize
  return { l with values := l.values ++ v, valueCount := l.valueCount ⊞ 1 }

/-- builder.go:118-119, 138-139: suffix and value of a leaf -/
def insertLeaf (cfg : Config) (fp : Bytes → Word) (key : Bytes) (depth : Nat) (value : Bytes) (l : Level) : Option Level := do
  let l ← insertSuffix cfg fp key depth l
  insertValue cfg value l

/-- builder.go:141 -/
def setHasChild (l : Level) : Option Level := do
  let hc ← setBit l.hasChild (numItems l ⊟ 1)
  return { l with hasChild := hc }

/-- builder.go:148-158: the end of `buildNodes` (lines 148-152 compute with `int` only) -/
def finishNode (prefixDepth depth nodeStartPos : Nat) (key : Bytes) (l : Level) : Option Level := do
  let l ← l.storePrefix prefixDepth depth key
  let lo ← setBit l.louds nodeStartPos
  let nodeCount := l.nodeCount ⊞ 1
  return { l with louds := lo, nodeCount,
                  hasPrefix := if nodeCount % 64 = 0 then l.hasPrefix ++ [0#64] else l.hasPrefix }

/-- builder.go:116-120: the terminator item -/
def insertTerminator (cfg : Config) (fp : Bytes → Word) (key : Bytes) (depth : Nat) (value : Bytes) (l : Level) : Option Level := do
  let l := { l.appendLabel labelTerminator with isLastItemTerminator := true }
  let l ← insertLeaf cfg fp key depth value l
  return moveToNextItemSlot l

section
variable (cfg : Config) (fp : Bytes → Word)

/-- builder.go:135-143: emit the item for the group `[groupStart, groupEnd)` -/
def emitGroup (recur : BuildFn) (keys vals : List Bytes) (depth level groupStart groupEnd : Nat) (ls : List Level) : Option (List Level) := do
  let k ← keys[groupStart]?
  let c ← k[depth]?
  let ls ← modifyLevel ls level (fun l => some (moveToNextItemSlot (l.appendLabel c)))
  if groupEnd - groupStart = 1 then do
    let v ← vals[groupStart]?
    modifyLevel ls level (insertLeaf cfg fp k depth v)
  else do
    let ls ← modifyLevel ls level setHasChild
    let ks ← slice keys groupStart groupEnd
    let vs ← slice vals groupStart groupEnd
    recur ls ks vs (depth + 1) (depth + 1) (level + 1)

/-- builder.go:124-146: the loop over `groupEnd` (on `int`), see `Surf.groupLoop` -/
def groupLoop (recur : BuildFn) (keys vals : List Bytes) (prefixDepth depth level : Nat) : Nat → Nat → Nat → List Level → Option (List Level × Bool)
  | 0, _, _, ls => some (ls, false)
  | n + 1, groupStart, groupEnd, ls => do
    let same ← (if groupEnd < keys.length then sameByte keys depth groupStart groupEnd else some false)
    if same then groupLoop recur keys vals prefixDepth depth level n groupStart (groupEnd + 1) ls
    else if groupEnd = keys.length ∧ groupStart = 0 ∧ groupEnd - groupStart ≠ 1 then do
      let ls ← recur ls keys vals prefixDepth (depth + 1) level
      return (ls, true)
    else do
      let ls ← emitGroup cfg fp recur keys vals depth level groupStart groupEnd ls
      groupLoop recur keys vals prefixDepth depth level n groupEnd (groupEnd + 1) ls

/-- builder.go:114-122: the terminator item, if the first key ends here; returns the new `groupStart` -/
def terminatorItem (keys vals : List Bytes) (depth level : Nat) (ls : List Level) : Option (List Level × Nat) := do
  let k ← keys[0]?
  if depth ≥ k.length then do
    let v ← vals[0]?
    let ls ← modifyLevel ls level (insertTerminator cfg fp k depth v)
    return (ls, 1)
  else return (ls, 0)

/-- builder.go:110-159 `buildNodes` (see `Surf.buildNodes` for the fuel) -/
def buildNodes : Nat → BuildFn
  | 0, _, _, _, _, _, _ => none
  | fuel + 1, ls, keys, vals, prefixDepth, depth, level => do
    let ls := ensureLevel ls level
    let l ← ls[level]?
    let nodeStartPos := numItems l
    let (ls, groupStart) ← terminatorItem cfg fp keys vals depth level ls
    let (ls, returned) ← groupLoop cfg fp (buildNodes fuel) keys vals prefixDepth depth level (keys.length + 1 - groupStart) groupStart groupStart ls
    if returned then return ls
    else do
      let k ← keys[0]?
      modifyLevel ls level (finishNode prefixDepth depth nodeStartPos k)

end

/-! ## builder.go: the cut-off level -/

/-- builder.go:298-303: the loop of `denseSizeNoSuffix`; `2 * denseFanout * b.nodeCounts[l]` is a `uint32` product -/
def denseSizeNoSuffix (ls : List Level) : Nat → Option Nat
  | 0 => some 0
  | l + 1 => do
    let total ← denseSizeNoSuffix ls l
    let lv ← ls[l]?
    let total := add64 total (2 * 256 ⊠ lv.nodeCount)
    if l > 0 then do
      let lp ← ls[l - 1]?
      return add64 total lp.nodeCount
    else return total

/-- builder.go:307-315 `sparseSizeNoSuffix` -/
def sparseSizeNoSuffix (ls : List Level) (level : Nat) : Nat :=
  (ls.drop level).foldl (fun total l => add64 total (add64 (mul64 l.labels.length 8) (mul64 2 l.labels.length))) 0

/-- builder.go:284-292: the loop from `level` down -/
def cutoffLoop (ls : List Level) (suffixSize prefixSize sizeHint : Nat) : Nat → Option Nat
  | 0 => some 0
  | level + 1 => do
    let ds ← denseSizeNoSuffix ls (level + 1)
    let ss := sparseSizeNoSuffix ls (level + 1)
    let sz := add64 (add64 (add64 ds ss) suffixSize) prefixSize
    if sz ≤ sizeHint then return level + 1 else cutoffLoop ls suffixSize prefixSize sizeHint level

/-- builder.go:273-281: the size of the prefixes -/
def prefixSizeOf (ls : List Level) : Nat :=
  let total := (ls.flatMap (·.prefixes)).foldl (fun total p => add64 total (mul64 p.length 8)) 0
  ls.foldl (fun total l => add64 total l.nodeCount) total

/-- builder.go:266-294 `determineCutoffLevel` -/
def determineCutoffLevel (cfg : Config) (ls : List Level) (totalCount : Nat) (bitsPerKeyHint : Int) : Option Nat := do
  let sizeHint := (BitVec.ofInt 64 (totalCount * bitsPerKeyHint)).toNat
  let suffixSize := mul64 totalCount (cfgSuffixLen cfg)
  let level ← cutoffLoop ls suffixSize (prefixSizeOf ls) sizeHint (ls.length - 1)
  return u level

/-! ## builder.go: the dense levels -/

/-- builder.go:325-335 `initDenseVectors` -/
def initDenseVectors (l : Level) : DenseLevel :=
  let vecLength := l.nodeCount ⊠ (256 / 64)
  let prefixVecLen := if l.nodeCount % 64 ≠ 0 then l.nodeCount / 64 ⊞ 1 else l.nodeCount / 64
  { labels := List.replicate vecLength 0#64, hasChild := List.replicate vecLength 0#64,
    isPrefix := List.replicate prefixVecLen 0#64 }

/-- builder.go:317-323 `setLabelAndHasChildVec` -/
def setLabelAndHasChildVec (l : Level) (nodeID pos : Nat) (d : DenseLevel) : Option DenseLevel := do
  let label ← l.labels[pos]?
  let labels ← setBit d.labels (nodeID ⊠ denseFanout ⊞ label.toNat)
  let hc ← readBit l.hasChild pos
  if hc then do
    let hasChild ← setBit d.hasChild (nodeID ⊠ denseFanout ⊞ label.toNat)
    return { d with labels, hasChild }
  else return { d with labels }

/-- builder.go:170-174, 181-186: an item that starts a node -/
def denseFirstItem (l : Level) (nodeID pos : Nat) (d : DenseLevel) : Option DenseLevel := do
  let t ← isTerminator l pos
  if t then setIsPrefix nodeID d else setLabelAndHasChildVec l nodeID pos d

/-- builder.go:176-187: the loop over the items; the recursion argument is the number of iterations left -/
def denseLoop (l : Level) : Nat → Nat → Nat → DenseLevel → Option DenseLevel
  | 0, _, _, d => some d
  | n + 1, pos, nodeID, d => do
    let s ← isStartOfNode l pos
    if s then do
      let d ← denseFirstItem l (nodeID ⊞ 1) pos d
      denseLoop l n (pos ⊞ 1) (nodeID ⊞ 1) d
    else do
      let d ← setLabelAndHasChildVec l nodeID pos d
      denseLoop l n (pos ⊞ 1) nodeID d

/-- builder.go:164-187: the body of `buildDense` for one level -/
def buildDenseLevel (l : Level) : Option DenseLevel :=
  if numItems l = 0 then some (initDenseVectors l) else do
    let d ← denseFirstItem l 0 0 (initDenseVectors l)
    denseLoop l (numItems l - 1) 1 0 d

/-- builder.go:161-189 `buildDense`, given the levels below `sparseStartLevel` -/
def buildDense : List Level → Option (List DenseLevel)
  | [] => some []
  | l :: ls => do
    let d ← buildDenseLevel l
    let ds ← buildDense ls
    return d :: ds

/-! ## bits_vec.go: the `Init` methods -/

/-- a loop `total += n` on `uint32` -/
def sum32 (ns : List Nat) : Nat := ns.foldl (· ⊞ ·) 0

open BitVector (InitSt)

/-- bits_vec.go:44-50: the loop over the complete words (state after `n` iterations) -/
def initWords (src : List Word) (st : InitSt) : Nat → Option InitSt
  | 0 => some st
  | word + 1 => do
    let st ← initWords src st word
    let w ← src[word]?
    let bits ← orAt st.bits st.wordID (w <<< st.bitShift)
    let wordID := st.wordID ⊞ 1
    if st.bitShift > 0 then
      let bits ← orAt bits wordID (w >>> (64 ⊟ st.bitShift))
      return { st with bits, wordID }
    else return { st with bits, wordID }

/-- bits_vec.go:52-66: the remaining bits of a level -/
def initRemain (src : List Word) (n : Nat) (st : InitSt) : Option InitSt :=
  let remain := n % 64
  if remain > 0 then do
    let lastWord ← src[n / 64]?
    let bits ← orAt st.bits st.wordID (lastWord <<< st.bitShift)
    if st.bitShift ⊞ remain ≤ 64 then
      let bitShift := (st.bitShift ⊞ remain) % 64
      if bitShift = 0 then return { bits, wordID := st.wordID ⊞ 1, bitShift }
      else return { bits, wordID := st.wordID, bitShift }
    else
      let wordID := st.wordID ⊞ 1
      let bits ← orAt bits wordID (lastWord >>> (64 ⊟ st.bitShift))
      return { bits, wordID, bitShift := st.bitShift ⊞ remain ⊟ 64 }
  else some st

/-- bits_vec.go:37-67: the loop over the levels -/
def initLevels : List (List Word) → List Nat → InitSt → Option InitSt
  | [], _, st => some st
  | _ :: _, [], _ => none
  | src :: srcs, n :: ns, st =>
    if n = 0 then initLevels srcs ns st else do
      let st ← initWords src st (n / 64)
      let st ← initRemain src n st
      initLevels srcs ns st

/-- bits_vec.go:29-68 `bitVector.Init` -/
def bvInit (bitsPerLevel : List (List Word)) (numBitsPerLevel : List Nat) : Option BitVector := do
  let numBits := sum32 numBitsPerLevel
  let st ← initLevels bitsPerLevel numBitsPerLevel { bits := List.replicate (numWords { numBits }) 0#64, wordID := 0, bitShift := 0 }
  return { numBits, bits := st.bits }

/-- `copy(bs[pos:], val)` -/
def copyAt (bs : Bytes) (pos : Nat) (val : Bytes) : Option Bytes := do
  let tail ← sliceFrom bs pos
  return bs.take pos ++ (val.take tail.length ++ tail.drop val.length)

/-- bits_vec.go:148-152, 447-451: copy one slice after the other; `pos` is a `uint32` -/
def copyAll : List Bytes → Bytes → Nat → Option Bytes
  | [], bs, _ => some bs
  | val :: vals, bs, pos => do
    let bs ← copyAt bs pos val
    copyAll vals bs (pos ⊞ u val.length)

/-- bits_vec.go:140-153 `valueVector.Init` -/
def valueInit (valuesPerLevel : List Bytes) (valueSize : Nat) : Option ValueVector := do
  let bytes ← copyAll valuesPerLevel (List.replicate (valuesPerLevel.map List.length).sum 0) 0
  return { bytes, valueSize }

/-- bits_vec.go:212-235 `selectVector.Init`: lines 214-227 compute with `int`; `uint32(targetPos)` in line 222, `uint32(onesUptoWord)` in line 228
(the table is not read while it is made, so all its entries are cut at the end here) -/
def selectInit (bmi : Bool) (bitsPerLevel : List (List Word)) (numBitsPerLevel : List Nat) : Option SelectVector := do
  let bv ← bvInit bitsPerLevel numBitsPerLevel
  let (lut, ones) ← SelectVector.lutLoop bmi bv.bits 0 0 [0] selectSampleInterval
  return { bv, numOnes := u ones, selectLut := lut.map u }

/-- bits_vec.go:344-347: `n` iterations of the loop -/
def rankLutLoop (bits : List Word) (blockSize wordPerBlk : Nat) : Nat → Option (List Nat × Nat)
  | 0 => some ([], 0)
  | i + 1 => do
    let (lut, totalRank) ← rankLutLoop bits blockSize wordPerBlk i
    let p ← popcountBlock bits (i ⊠ wordPerBlk) blockSize
    return (lut ++ [totalRank], totalRank ⊞ p)

/-- bits_vec.go:336-350 `rankVector.init` -/
def rankInit (blockSize : Nat) (bitsPerLevel : List (List Word)) (numBitsPerLevel : List Nat) : Option RankVector := do
  let bv ← bvInit bitsPerLevel numBitsPerLevel
  let nblks := bv.numBits / blockSize ⊞ 1
  let (lut, totalRank) ← rankLutLoop bv.bits blockSize (blockSize / 64) (nblks ⊟ 1)
  return { bv, blockSize, rankLut := lut ++ [totalRank] }

/-- bits_vec.go:440-452 `labelVector.Init` (`numBytes` is an `int`) -/
def labelInit (labelsPerLevel : List Bytes) (startLevel endLevel : Nat) : Option LabelVector := do
  let ls := (labelsPerLevel.take endLevel).drop startLevel
  let labels ← copyAll ls (List.replicate (1 + (ls.map List.length).sum) 0) 0
  return { labels }

/-- bits_vec.go:528-536: the loop over all prefixes, in level order -/
def prefixLoop : List Bytes → Nat → Bytes → Bytes → Bytes × Bytes
  | [], _, offs, data => (offs, data)
  | p :: ps, offset, offs, data => prefixLoop ps (offset ⊞ u p.length) (offs ++ putUint32 offset) (data ++ p)

/-- bits_vec.go:524-537 `prefixVec.Init` -/
def prefixInit (hasPrefixBits : List (List Word)) (numNodesPerLevel : List Nat) (prefixes : List (List Bytes)) : Option PrefixVec := do
  let hasPrefixVec ← rankInit rankSparseBlockSize hasPrefixBits numNodesPerLevel
  let (prefixOffsets, prefixData) := prefixLoop prefixes.flatten 0 [] []
  return { hasPrefixVec, prefixOffsets, prefixData }

/-- bits_vec.go:629-635 `suffixVector.Init` -/
def suffixInit (ty : SuffixType) (hashLen realLen : Nat) (bitsPerLevel : List (List Word)) (numBitsPerLevel : List Nat) : Option SuffixVector := do
  let bv ← bvInit bitsPerLevel numBitsPerLevel
  return { bv, suffixType := ty, hashSuffixLen := hashLen, realSuffixLen := realLen }

/-! ## louds_dense.go, louds_sparse.go, builder.go: putting the parts together -/

/-- louds_dense.go:37-46 / louds_sparse.go:43-52: the suffix vector of a range of levels -/
def initSuffixes (cfg : Config) (levels : List Level) : Option SuffixVector :=
  if cfg.suffixType ≠ .none then
    suffixInit cfg.suffixType cfg.hashSuffixLen cfg.realSuffixLen (levels.map (·.suffixes)) (levels.map (fun l => l.suffixCount ⊠ cfgSuffixLen cfg))
  else some {}

/-- louds_dense.go:25-52 `Init` -/
def denseInit (cfg : Config) (all : List Level) (ds : List DenseLevel) (height : Nat) : Option LoudsDense := do
  let levels := all.take height
  let numBitsPerLevel := (ds.take height).map (fun d => u (d.labels.length * 64))
  let labelVec ← rankInit rankDenseBlockSize ((ds.take height).map (·.labels)) numBitsPerLevel
  let hasChildVec ← rankInit rankDenseBlockSize ((ds.take height).map (·.hasChild)) numBitsPerLevel
  let isPrefixVec ← rankInit rankDenseBlockSize ((ds.take height).map (·.isPrefix)) (all.map (·.nodeCount))
  let suffixes ← initSuffixes cfg levels
  let values ← valueInit (levels.map (·.values)) cfg.valueSize
  let prefixVec ← prefixInit (levels.map (·.hasPrefix)) (levels.map (·.nodeCount)) (levels.map (·.prefixes))
  return { labelVec, hasChildVec, isPrefixVec, suffixes, values, prefixVec, height }

/-- louds_sparse.go:30-32 -/
def denseChildCountOf (all : List Level) (startLevel denseNodeCount : Nat) : Option Nat :=
  if startLevel ≠ 0 then do
    let l ← all[startLevel]?
    return denseNodeCount ⊞ l.nodeCount ⊟ 1
  else some 0

/-- louds_sparse.go:22-58 `Init` -/
def sparseInit (bmi : Bool) (cfg : Config) (all : List Level) (startLevel : Nat) : Option LoudsSparse := do
  let height := u all.length
  let denseNodeCount := sum32 ((all.take startLevel).map (·.nodeCount))
  let denseChildCount ← denseChildCountOf all startLevel denseNodeCount
  let labelVec ← labelInit (all.map (·.labels)) startLevel height
  let levels := all.drop startLevel
  let numItemsPerLevel := levels.map (fun l => u l.labels.length)
  let hasChildVec ← rankInit rankSparseBlockSize (levels.map (·.hasChild)) numItemsPerLevel
  let loudsVec ← selectInit bmi (levels.map (·.louds)) numItemsPerLevel
  let suffixes ← initSuffixes cfg levels
  let values ← valueInit (levels.map (·.values)) cfg.valueSize
  let prefixVec ← prefixInit (levels.map (·.hasPrefix)) (levels.map (·.nodeCount)) (levels.map (·.prefixes))
  return { height, startLevel, denseNodeCount, denseChildCount, labelVec, hasChildVec, loudsVec, suffixes, values, prefixVec }

/-- builder.go:95-107: `Build` once the levels and the cut-off are known -/
def assemble (bmi : Bool) (cfg : Config) (levels : List Level) (cut : Nat) : Option SuRF := do
  let ds ← buildDense (levels.take cut)
  let _ ← prefixInit (levels.map (·.hasPrefix)) (levels.map (·.nodeCount)) (levels.map (·.prefixes))
  let ld ← denseInit cfg levels ds cut
  let ls ← sparseInit bmi cfg levels cut
  return { ld, ls }

/-- builder.go:88-108 `Build`, on a fresh builder -/
def build (fp : Bytes → Word) (bmi : Bool) (cfg : Config) (keys vals : List Bytes) (bitsPerKeyHint : Int) : Option SuRF := do
  let levels ← buildNodes cfg fp (maxKeyLen keys + 2) [] keys vals 0 0 0
  let cut ← determineCutoffLevel cfg levels keys.length bitsPerKeyHint
  assemble bmi cfg levels cut

end Surf.U32
