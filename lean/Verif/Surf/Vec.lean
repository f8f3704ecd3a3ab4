import Verif.Surf.Bits

/-!
# Model of `surf/bits_vec.go` (everything but marshalling, which is in `Verif.Surf.Marshal`)

`uint32` and `int` quantities are natural numbers. Where the code subtracts, `usub` fails (`none`, like a panic)
on underflow, so a theorem saying that a function does not fail also says that no `uint32` subtraction wraps.
Sizes are assumed to be below `2^32` (additions and multiplications do not wrap).
A method that fills its receiver is a function that returns the new struct.
-/

namespace Surf

/-- `uint32` subtraction; underflow is a failure. -/
def usub (a b : Nat) : Option Nat := if b ≤ a then some (a - b) else none

/-- Go slice expression `l[a:b]` (for a slice whose capacity is its length). -/
def slice {α : Type} (l : List α) (a b : Nat) : Option (List α) :=
  if a ≤ b ∧ b ≤ l.length then some ((l.take b).drop a) else none

/-- Go slice expression `l[a:]`. -/
def sliceFrom {α : Type} (l : List α) (a : Nat) : Option (List α) :=
  if a ≤ l.length then some (l.drop a) else none

/-- `binary.LittleEndian.PutUint32` into a 4-byte buffer. -/
def putUint32 (n : Nat) : Bytes :=
  [UInt8.ofNat n, UInt8.ofNat (n / 2 ^ 8), UInt8.ofNat (n / 2 ^ 16), UInt8.ofNat (n / 2 ^ 24)]

/-- `binary.LittleEndian.Uint32`; panics on fewer than 4 bytes. -/
def uint32 : Bytes → Option Nat
  | a :: b :: c :: d :: _ => some (a.toNat + 2 ^ 8 * b.toNat + 2 ^ 16 * c.toNat + 2 ^ 24 * d.toNat)
  | _ => none

/-- `bs[i] |= x` -/
def orAt (bs : List Word) (i : Nat) (x : Word) : Option (List Word) := do
  let w ← bs[i]?
  return bs.set i (w ||| x)

/-! ## bitVector -/

/-- bits_vec.go:12-15 -/
structure BitVector where
  numBits : Nat := 0
  bits : List Word := []
deriving Repr, DecidableEq

/-- bits_vec.go:17-23 `numWords` -/
def numWordsOf (numBits : Nat) : Nat :=
  if numBits % 64 ≠ 0 then numBits / 64 + 1 else numBits / 64

namespace BitVector

/-- bits_vec.go:17-23 `numWords` -/
def numWords (v : BitVector) : Nat := numWordsOf v.numBits

/-- bits_vec.go:25-27 `bitsSize` -/
def bitsSize (v : BitVector) : Nat := v.numWords * 8

/-- Local state of `bitVector.Init`: `v.bits`, `wordID`, `bitShift`. -/
structure InitSt where
  bits : List Word
  wordID : Nat
  bitShift : Nat

/-- bits_vec.go:44-50: the loop over the complete words (state after `n` iterations) -/
def initWords (src : List Word) (st : InitSt) : Nat → Option InitSt
  | 0 => some st
  | word + 1 => do
    let st ← initWords src st word
    let w ← src[word]?
    let bits ← orAt st.bits st.wordID (w <<< st.bitShift)
    let wordID := st.wordID + 1
    if st.bitShift > 0 then
      let bits ← orAt bits wordID (w >>> (64 - st.bitShift))
      return { st with bits, wordID }
    else return { st with bits, wordID }

/-- bits_vec.go:52-66: the remaining bits of a level -/
def initRemain (src : List Word) (n : Nat) (st : InitSt) : Option InitSt :=
  let remain := n % 64
  if remain > 0 then do
    let lastWord ← src[n / 64]?
    let bits ← orAt st.bits st.wordID (lastWord <<< st.bitShift)
    if st.bitShift + remain ≤ 64 then
      let bitShift := (st.bitShift + remain) % 64
      if bitShift = 0 then return { bits, wordID := st.wordID + 1, bitShift }
      else return { bits, wordID := st.wordID, bitShift }
    else
      let wordID := st.wordID + 1
      let bits ← orAt bits wordID (lastWord >>> (64 - st.bitShift))
      return { bits, wordID, bitShift := st.bitShift + remain - 64 }
  else some st

/-- bits_vec.go:37-67: the loop over the levels -/
def initLevels : List (List Word) → List Nat → InitSt → Option InitSt
  | [], _, st => some st
  | _ :: _, [], _ => none
  | src :: srcs, n :: ns, st =>
    if n = 0 then initLevels srcs ns st else do
      let st ← initWords src st (n / 64)
      let st ← initRemain src n st
      initLevels srcs ns st

/-- bits_vec.go:29-68 `Init`, on a fresh vector (`numBits` = 0 before, as at all call sites) -/
def init (bitsPerLevel : List (List Word)) (numBitsPerLevel : List Nat) : Option BitVector := do
  let numBits := numBitsPerLevel.sum
  let st ← initLevels bitsPerLevel numBitsPerLevel
    { bits := List.replicate (numWordsOf numBits) 0#64, wordID := 0, bitShift := 0 }
  return { numBits, bits := st.bits }

/-- bits_vec.go:70-72 `IsSet` -/
def isSet (v : BitVector) (pos : Nat) : Option Bool := readBit v.bits pos

/-- bits_vec.go:94-107: the loop over the following words; the first argument is `numWords-1-wordOff` -/
def distNextLoop (v : BitVector) : Nat → Nat → Nat → Option Nat
  | 0, wordOff, distance =>
    if wordOff + 1 = v.numWords ∧ v.numBits % 64 ≠ 0 then usub distance (64 - v.numBits % 64) else some distance
  | k + 1, wordOff, distance => do
    let wordOff := wordOff + 1
    let testBits ← v.bits[wordOff]?
    if testBits ≠ 0#64 then return distance + trailingZeros testBits
    else distNextLoop v k wordOff (distance + 64)

/-- bits_vec.go:74-108 `DistanceToNextSetBit` -/
def distanceToNextSetBit (v : BitVector) (pos : Nat) : Option Nat := do
  let distance := 1
  let wordOff := (pos + 1) / 64
  let bitsOff := (pos + 1) % 64
  if wordOff ≥ v.bits.length then return 0
  let w ← v.bits[wordOff]?
  let testBits := w >>> bitsOff
  if testBits ≠ 0#64 then return distance + trailingZeros testBits
  let last ← usub v.numWords 1
  if wordOff = last then usub v.numBits pos
  else distNextLoop v (last - wordOff) wordOff (distance + (64 - bitsOff))

/-- bits_vec.go:124-132: the loop over the preceding words (`wordOff` is the recursion argument) -/
def distPrevLoop (v : BitVector) : Nat → Nat → Option Nat
  | 0, distance => some distance
  | wordOff + 1, distance => do
    let testBits ← v.bits[wordOff]?
    if testBits ≠ 0#64 then return distance + leadingZeros testBits
    else distPrevLoop v wordOff (distance + 64)

/-- bits_vec.go:110-133 `DistanceToPrevSetBit` -/
def distanceToPrevSetBit (v : BitVector) (pos : Nat) : Option Nat :=
  if pos = 0 then some 1 else do
    let distance := 1
    let wordOff := (pos - 1) / 64
    let bitsOff := (pos - 1) % 64
    let w ← v.bits[wordOff]?
    let testBits := w <<< (64 - 1 - bitsOff)
    if testBits ≠ 0#64 then return distance + leadingZeros testBits
    else distPrevLoop v wordOff (distance + (bitsOff + 1))

end BitVector

/-! ## valueVector -/

/-- bits_vec.go:135-138 -/
structure ValueVector where
  bytes : Bytes := []
  valueSize : Nat := 0
deriving Repr, DecidableEq

namespace ValueVector

/-- bits_vec.go:140-153 `Init`: a buffer of the total size, filled level by level -/
def init (valuesPerLevel : List Bytes) (valueSize : Nat) : ValueVector :=
  { bytes := valuesPerLevel.flatten, valueSize }

/-- bits_vec.go:155-158 `Get` -/
def get (v : ValueVector) (pos : Nat) : Option Bytes :=
  slice v.bytes (pos * v.valueSize) (pos * v.valueSize + v.valueSize)

end ValueVector

/-! ## selectVector -/

/-- bits_vec.go:204 -/
def selectSampleInterval : Nat := 64

/-- bits_vec.go:206-210 -/
structure SelectVector where
  bv : BitVector := {}
  numOnes : Nat := 0
  selectLut : List Nat := []
deriving Repr, DecidableEq

namespace SelectVector

/-- bits_vec.go:219-224: the inner sampling loop for word `w` at index `i`.
Returns the new `lut` and `sampledOnes`. -/
def sampleLoop (bmi : Bool) (w : Word) (i onesUptoWord ones : Nat) (lut : List Nat) (sampledOnes : Nat) :
    Option (List Nat × Nat) :=
  if sampledOnes ≤ onesUptoWord + ones then do
    let diff ← usub sampledOnes onesUptoWord
    let s ← select64 bmi w diff
    sampleLoop bmi w i onesUptoWord ones (lut ++ [i * 64 + s]) (sampledOnes + selectSampleInterval)
  else some (lut, sampledOnes)
termination_by onesUptoWord + ones + 1 - sampledOnes
decreasing_by simp only [selectSampleInterval]; omega

/-- bits_vec.go:217-226: the loop over the words; `i` is the index of the first remaining word -/
def lutLoop (bmi : Bool) : List Word → Nat → Nat → List Nat → Nat → Option (List Nat × Nat)
  | [], _, onesUptoWord, lut, _ => some (lut, onesUptoWord)
  | w :: ws, i, onesUptoWord, lut, sampledOnes => do
    let (lut, sampledOnes) ← sampleLoop bmi w i onesUptoWord (onesCount w) lut sampledOnes
    lutLoop bmi ws (i + 1) (onesUptoWord + onesCount w) lut sampledOnes

/-- bits_vec.go:212-235 `Init` (`bmi`: does the processor have BMI2) -/
def init (bmi : Bool) (bitsPerLevel : List (List Word)) (numBitsPerLevel : List Nat) : Option SelectVector := do
  let bv ← BitVector.init bitsPerLevel numBitsPerLevel
  let (lut, ones) ← lutLoop bmi bv.bits 0 0 [0] selectSampleInterval
  return { bv, numOnes := ones, selectLut := lut }

/-- bits_vec.go:237-239 -/
def lutSize (v : SelectVector) : Nat := (v.numOnes / selectSampleInterval + 1) * 4

/-- bits_vec.go:267-274: the loop over the words, starting at a word `w` = (the rest of) word `wordOff`.
The recursion argument bounds the number of iterations by the number of words left. -/
def selectLoop (bmi : Bool) (bits : List Word) : Nat → Nat → Word → Nat → Option Nat
  | 0, _, _, _ => none
  | fuel + 1, wordOff, w, rankLeft =>
    let ones := onesCount w
    if ones < rankLeft then do
      let w' ← bits[wordOff + 1]?
      selectLoop bmi bits fuel (wordOff + 1) w' (rankLeft - ones)
    else do
      let s ← select64 bmi w rankLeft
      return wordOff * 64 + s

/-- bits_vec.go:252-274: the scan from the sampled position `pos`. Each iteration of the loop indexes the next
word, so it runs at most `len(v.bits)` times before it returns or panics: the bound handed to `selectLoop` is not
a simplification. -/
def selectFrom (bmi : Bool) (v : SelectVector) (pos rankLeft : Nat) : Option Nat :=
  if rankLeft = 0 then some pos else
    let wordOff := if pos % 64 = 64 - 1 then pos / 64 + 1 else pos / 64
    let bitsOff := if pos % 64 = 64 - 1 then 0 else pos % 64 + 1
    match v.bv.bits[wordOff]? with
    | none => none
    | some w0 =>
      let w := (w0 >>> bitsOff) <<< bitsOff
      selectLoop bmi v.bv.bits (v.bv.bits.length + 1) wordOff w rankLeft

/-- bits_vec.go:245-249 -/
def selectRankLeft (rank : Nat) : Option Nat :=
  if rank / selectSampleInterval = 0 then usub (rank % selectSampleInterval) 1
  else some (rank % selectSampleInterval)

/-- bits_vec.go:244-275 `Select` -/
def select (bmi : Bool) (v : SelectVector) (rank : Nat) : Option Nat := do
  let rankLeft ← selectRankLeft rank
  let pos ← v.selectLut[rank / selectSampleInterval]?
  v.selectFrom bmi pos rankLeft

end SelectVector

/-! ## rankVector -/

/-- bits_vec.go:326 -/
def rankDenseBlockSize : Nat := 64
/-- bits_vec.go:327 -/
def rankSparseBlockSize : Nat := 512

/-- bits_vec.go:330-334 -/
structure RankVector where
  bv : BitVector := {}
  blockSize : Nat := 0
  rankLut : List Nat := []
deriving Repr, DecidableEq

namespace RankVector

/-- bits_vec.go:344-347: `n` iterations of the loop, giving the entries written so far and `totalRank` -/
def lutLoop (bits : List Word) (blockSize wordPerBlk : Nat) : Nat → Option (List Nat × Nat)
  | 0 => some ([], 0)
  | i + 1 => do
    let (lut, totalRank) ← lutLoop bits blockSize wordPerBlk i
    let p ← popcountBlock bits (i * wordPerBlk) blockSize
    return (lut ++ [totalRank], totalRank + p)

/-- bits_vec.go:336-350 `init` -/
def init (blockSize : Nat) (bitsPerLevel : List (List Word)) (numBitsPerLevel : List Nat) : Option RankVector := do
  let bv ← BitVector.init bitsPerLevel numBitsPerLevel
  let (lut, totalRank) ← lutLoop bv.bits blockSize (blockSize / 64) (bv.numBits / blockSize)
  return { bv, blockSize, rankLut := lut ++ [totalRank] }

/-- bits_vec.go:352-354 -/
def lutSize (v : RankVector) : Nat := (v.bv.numBits / v.blockSize + 1) * 4

/-- bits_vec.go:408-410 `rankVectorDense.Init` -/
def initDense := init rankDenseBlockSize
/-- bits_vec.go:424-426 `rankVectorSparse.Init` -/
def initSparse := init rankSparseBlockSize

/-- bits_vec.go:412-418 `rankVectorDense.Rank` -/
def rankDense (v : RankVector) (pos : Nat) : Option Nat := do
  let wordPreBlk := rankDenseBlockSize / 64
  let blockOff := pos / rankDenseBlockSize
  let bitsOff := pos % rankDenseBlockSize
  let r ← v.rankLut[blockOff]?
  let p ← popcountBlock v.bv.bits (blockOff * wordPreBlk) (bitsOff + 1)
  return r + p

/-- bits_vec.go:428-434 `rankVectorSparse.Rank` -/
def rankSparse (v : RankVector) (pos : Nat) : Option Nat := do
  let wordPreBlk := rankSparseBlockSize / 64
  let blockOff := pos / rankSparseBlockSize
  let bitsOff := pos % rankSparseBlockSize
  let r ← v.rankLut[blockOff]?
  let p ← popcountBlock v.bv.bits (blockOff * wordPreBlk) (bitsOff + 1)
  return r + p

end RankVector

/-! ## labelVector -/

/-- builder.go:30 `labelTerminator` -/
def labelTerminator : UInt8 := 0xff

/-- Go standard library `bytes.IndexByte`, by its documented meaning -/
def indexByte (l : Bytes) (k : UInt8) : Option Nat := l.findIdx? (· == k)

/-- Go standard library `sort.Search` (its binary search, `sort/search.go`), with a predicate that may panic -/
def sortSearchLoop (f : Nat → Option Bool) (i j : Nat) : Option Nat :=
  if i < j then do
    let h := (i + j) / 2
    let b ← f h
    if !b then sortSearchLoop f (h + 1) j else sortSearchLoop f i h
  else some i
termination_by j - i

/-- `sort.Search(n, f)` -/
def sortSearch (n : Nat) (f : Nat → Option Bool) : Option Nat := sortSearchLoop f 0 n

/-- bits_vec.go:436-438 -/
structure LabelVector where
  labels : Bytes := []
deriving Repr, DecidableEq

namespace LabelVector

/-- bits_vec.go:440-452 `Init`: the labels of levels `startLevel .. endLevel-1` and one extra zero byte.
(The caller passes level indices inside the slice, so no index check is modelled.) -/
def init (labelsPerLevel : List Bytes) (startLevel endLevel : Nat) : LabelVector :=
  { labels := ((labelsPerLevel.take endLevel).drop startLevel).flatten ++ [0] }

/-- bits_vec.go:454-456 `GetLabel` -/
def getLabel (v : LabelVector) (pos : Nat) : Option UInt8 := v.labels[pos]?

/-- bits_vec.go:459-462 and 476-479: skip the terminator of a node with more than one label -/
def skipTerminator (v : LabelVector) (start size : Nat) : Option (Nat × Nat) :=
  if size > 1 then do
    let l ← v.labels[start]?
    if l = labelTerminator then return (start + 1, size - 1) else return (start, size)
  else some (start, size)

/-- bits_vec.go:458-473 `Search` -/
def search (v : LabelVector) (k : UInt8) (start size : Nat) : Option (Nat × Bool) := do
  let (start, size) ← v.skipTerminator start size
  let stop := min (start + size) v.labels.length
  let sub ← slice v.labels start stop
  match indexByte sub k with
  | none => return (start, false)
  | some r => return (start + r, true)

/-- bits_vec.go:475-486 `SearchGreaterThan` -/
def searchGreaterThan (v : LabelVector) (label : UInt8) (pos size : Nat) : Option (Nat × Bool) := do
  let (pos, size) ← v.skipTerminator pos size
  let result ← sortSearch size (fun i => (v.labels[pos + i]?).map (fun l => decide (label < l)))
  if result = size then do
    let p ← usub (pos + result) 1
    return (p, false)
  else return (pos + result, true)

end LabelVector

/-! ## prefixVec -/

/-- bits_vec.go:518-522 -/
structure PrefixVec where
  hasPrefixVec : RankVector := {}
  prefixOffsets : Bytes := []
  prefixData : Bytes := []
deriving Repr, DecidableEq

namespace PrefixVec

/-- bits_vec.go:528-536: the loop over all prefixes, in level order; state: offset, offsets, data -/
def initLoop : List Bytes → Nat → Bytes → Bytes → Bytes × Bytes
  | [], _, offs, data => (offs, data)
  | p :: ps, offset, offs, data => initLoop ps (offset + p.length) (offs ++ putUint32 offset) (data ++ p)

/-- bits_vec.go:524-537 `Init` -/
def init (hasPrefixBits : List (List Word)) (numNodesPerLevel : List Nat) (prefixes : List (List Bytes)) :
    Option PrefixVec := do
  let hasPrefixVec ← RankVector.initSparse hasPrefixBits numNodesPerLevel
  let (prefixOffsets, prefixData) := initLoop prefixes.flatten 0 [] []
  return { hasPrefixVec, prefixOffsets, prefixData }

/-- `endian.Uint32(v.prefixOffsets[id*4:])` -/
def offsetAt (v : PrefixVec) (id : Nat) : Option Nat := (sliceFrom v.prefixOffsets (id * 4)).bind uint32

/-- bits_vec.go:561-564: the end of prefix `prefixID` -/
def prefixEnd (v : PrefixVec) (prefixID : Nat) : Option Nat :=
  if (prefixID + 1) * 4 < v.prefixOffsets.length then v.offsetAt (prefixID + 1) else some v.prefixData.length

/-- bits_vec.go:554-566 `GetPrefix` -/
def getPrefix (v : PrefixVec) (nodeID : Nat) : Option Bytes := do
  let b ← v.hasPrefixVec.bv.isSet nodeID
  if !b then return []
  let r ← v.hasPrefixVec.rankSparse nodeID
  let prefixID ← usub r 1
  let start ← v.offsetAt prefixID
  let stop ← v.prefixEnd prefixID
  slice v.prefixData start stop

/-- bits_vec.go:539-552 `CheckPrefix` -/
def checkPrefix (v : PrefixVec) (key : Bytes) (depth nodeID : Nat) : Option (Nat × Bool) := do
  let pre ← v.getPrefix nodeID
  if pre.length = 0 then return (0, true)
  if depth + pre.length > key.length then return (0, false)
  let sub ← slice key depth (depth + pre.length)
  if sub ≠ pre then return (0, false)
  return (pre.length, true)

end PrefixVec

/-! ## suffixVector -/

/-- builder.go:3-15 `SuffixType` -/
inductive SuffixType where
  | none | hash | real | mixed
deriving Repr, DecidableEq

/-- bits_vec.go:616 -/
def hashShift : Nat := 7

/-- bits_vec.go:622-627 -/
structure SuffixVector where
  bv : BitVector := {}
  suffixType : SuffixType := .none
  hashSuffixLen : Nat := 0
  realSuffixLen : Nat := 0
deriving Repr, DecidableEq

/-- `wordSize - a` in `uint32` arithmetic (wraps below zero) -/
def shiftAmount (a : Nat) : Nat := (2 ^ 32 + 64 - a) % 2 ^ 32

/-- bits_vec.go:767-772 `constructHashSuffix`; `fp` is `farm.Fingerprint64`. The two shift amounts are `uint32`
expressions; a shift by 64 or more gives 0. -/
def constructHashSuffix (fp : Bytes → Word) (key : Bytes) (hashSuffixLen : Nat) : Word :=
  ((fp key) <<< shiftAmount (hashSuffixLen + hashShift)) >>> shiftAmount hashSuffixLen

/-- bits_vec.go:784-787: the loop `for i := 1; i < nbytes; i++ { suffix <<= 8; suffix += key[i] }`,
after `n` iterations. (It reads `key[i]`, not `key[level+i]`.) -/
def realSuffixLoop (key : Bytes) (suffix : Word) : Nat → Option Word
  | 0 => some suffix
  | n + 1 => do
    let s ← realSuffixLoop key suffix n
    let b ← key[n + 1]?
    return (s <<< 8) + BitVec.ofNat 64 b.toNat

/-- bits_vec.go:774-799 `constructRealSuffix` -/
def constructRealSuffix (key : Bytes) (level realSuffixLen : Nat) : Option Word :=
  if key.length < level ∨ (key.length - level) * 8 < realSuffixLen then some 0 else do
    let nbytes := realSuffixLen / 8
    let suffix ←
      if nbytes > 0 then do
        let b ← key[level]?
        realSuffixLoop key (0#64 + BitVec.ofNat 64 b.toNat) (nbytes - 1)
      else some 0#64
    let off := realSuffixLen % 8
    if off > 0 then do
      let suffix := suffix <<< off
      let b ← key[level + nbytes]?
      let remain := (BitVec.ofNat 64 b.toNat) >>> (8 - off)
      return suffix + remain
    else return suffix

/-- bits_vec.go:801-805 `constructMixedSuffix` -/
def constructMixedSuffix (fp : Bytes → Word) (key : Bytes) (level realSuffixLen hashSuffixLen : Nat) :
    Option Word := do
  let hs := constructHashSuffix fp key hashSuffixLen
  let rs ← constructRealSuffix key level realSuffixLen
  return (hs <<< realSuffixLen) ||| rs

/-- bits_vec.go:754-765 `constructSuffix` -/
def constructSuffix (fp : Bytes → Word) (key : Bytes) (level : Nat) (ty : SuffixType)
    (realSuffixLen hashSuffixLen : Nat) : Option Word :=
  match ty with
  | .hash => some (constructHashSuffix fp key hashSuffixLen)
  | .real => constructRealSuffix key level realSuffixLen
  | .mixed => constructMixedSuffix fp key level realSuffixLen hashSuffixLen
  | .none => some 0

/-- bits_vec.go:807-810 `extractRealSuffix` -/
def extractRealSuffix (suffix : Word) (suffixLen : Nat) : Word := suffix &&& ((1#64 <<< suffixLen) - 1#64)

/-- bits_vec.go:658 -/
def couldBePositive : Int := 2

namespace SuffixVector

/-- bits_vec.go:750-752 `suffixLen` -/
def suffixLen (v : SuffixVector) : Nat := v.hashSuffixLen + v.realSuffixLen

/-- bits_vec.go:629-635 `Init` -/
def init (ty : SuffixType) (hashLen realLen : Nat) (bitsPerLevel : List (List Word)) (numBitsPerLevel : List Nat) :
    Option SuffixVector := do
  let bv ← BitVector.init bitsPerLevel numBitsPerLevel
  return { bv, suffixType := ty, hashSuffixLen := hashLen, realSuffixLen := realLen }

/-- bits_vec.go:736-748 `read` -/
def read (v : SuffixVector) (idx : Nat) : Option Word := do
  let suffixLen := v.suffixLen
  let bitPos := idx * suffixLen
  let wordOff := bitPos / 64
  let bitsOff := bitPos % 64
  let w ← v.bv.bits[wordOff]?
  let result := (w >>> bitsOff) &&& ((1#64 <<< suffixLen) - 1#64)
  if bitsOff + suffixLen > 64 then do
    let leftLen := 64 - bitsOff
    let rightLen := suffixLen - leftLen
    let w' ← v.bv.bits[wordOff + 1]?
    return result ||| ((w' &&& ((1#64 <<< rightLen) - 1#64)) <<< leftLen)
  else return result

/-- bits_vec.go:637-656 `CheckEquality` -/
def checkEquality (fp : Bytes → Word) (v : SuffixVector) (idx : Nat) (key : Bytes) (level : Nat) : Option Bool := do
  if v.suffixType = .none then return true
  if idx * v.suffixLen ≥ v.bv.numBits then return false
  let suffix ← v.read idx
  if v.suffixType = .real ∧ suffix = 0#64 then return true
  if v.suffixType = .real ∧ (key.length < level ∨ (key.length - level) * 8 < v.realSuffixLen) then return false
  let expected ← constructSuffix fp key level v.suffixType v.realSuffixLen v.hashSuffixLen
  return suffix == expected

/-- bits_vec.go:660-680 `Compare` -/
def compare (v : SuffixVector) (key : Bytes) (idx level : Nat) : Option Int := do
  if idx * v.suffixLen ≥ v.bv.numBits ∨ v.suffixType = .none ∨ v.suffixType = .hash then return couldBePositive
  let suffix ← v.read idx
  let suffix := if v.suffixType = .mixed then extractRealSuffix suffix v.realSuffixLen else suffix
  let expected ← constructRealSuffix key level v.realSuffixLen
  if suffix = 0#64 ∧ expected = 0#64 then return couldBePositive
  else if suffix = 0#64 ∨ suffix < expected then return -1
  else if suffix = expected then return couldBePositive
  else return 1

end SuffixVector

end Surf
