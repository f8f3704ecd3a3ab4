import Verif.Surf.Iter

/-!
# `Get` with the arithmetic of the code: `uint32`, wrapping

`Verif.Surf.Vec` and `Verif.Surf.Louds` compute with natural numbers. Here the functions on the path of `SuRF.Get` are modelled a second time, with every sum, product and difference
of `uint32` values taken modulo 2^32 (a difference below zero wraps instead of failing) and every conversion `uint32(len(x))` cut to 32 bits. `int` and `uint64` are as before.
`Verif.Surf.WrapLemmas` relates the two.
-/

namespace Surf.U32

/-- `uint32(n)` -/
def u (n : Nat) : Nat := n % 2 ^ 32
/-- `a + b` on `uint32` -/
def add (a b : Nat) : Nat := (a + b) % 2 ^ 32
/-- `a - b` on `uint32` -/
def sub (a b : Nat) : Nat := (a + (2 ^ 32 - b % 2 ^ 32)) % 2 ^ 32
/-- `a * b` on `uint32` -/
def mul (a b : Nat) : Nat := (a * b) % 2 ^ 32

@[inherit_doc] scoped infixl:65 " ⊞ " => add
@[inherit_doc] scoped infixl:65 " ⊟ " => sub
@[inherit_doc] scoped infixl:70 " ⊠ " => mul

/-! ## bits.go -/

/-- bits.go:71-73: the loop of `popcountBlock` -/
def popcountLoop (bs : List Word) (off : Nat) : Nat → Option Nat
  | 0 => some 0
  | i + 1 => do
    let p ← popcountLoop bs off i
    let w ← bs[off ⊞ i]?
    return p ⊞ onesCount w

/-- bits.go:62-76 `popcountBlock` -/
def popcountBlock (bs : List Word) (off nbits : Nat) : Option Nat :=
  if nbits = 0 then some 0 else do
    let lastWord := (nbits ⊟ 1) / 64
    let lastBits := (nbits ⊟ 1) % 64
    let p ← popcountLoop bs off lastWord
    let w ← bs[off ⊞ lastWord]?
    let last := w <<< (64 ⊟ 1 ⊟ lastBits)
    return p ⊞ onesCount last

/-! ## bitVector, valueVector, selectVector, rankVector, labelVector -/

/-- bits_vec.go:17-23 `numWords` -/
def numWords (v : BitVector) : Nat := if v.numBits % 64 ≠ 0 then v.numBits / 64 ⊞ 1 else v.numBits / 64

/-- bits_vec.go:94-107: the loop over the following words; the first argument is `numWords-1-wordOff` -/
def distNextLoop (v : BitVector) : Nat → Nat → Nat → Option Nat
  | 0, wordOff, distance => some (if wordOff = numWords v ⊟ 1 ∧ v.numBits % 64 ≠ 0 then distance ⊟ (64 ⊟ v.numBits % 64) else distance)
  | k + 1, wordOff, distance => do
    let wordOff := wordOff ⊞ 1
    let testBits ← v.bits[wordOff]?
    if testBits ≠ 0#64 then return distance ⊞ trailingZeros testBits
    else distNextLoop v k wordOff (distance ⊞ 64)

/-- bits_vec.go:74-108 `DistanceToNextSetBit` -/
def distanceToNextSetBit (v : BitVector) (pos : Nat) : Option Nat := do
  let distance := 1
  let wordOff := (pos ⊞ 1) / 64
  let bitsOff := (pos ⊞ 1) % 64
  if wordOff ≥ u v.bits.length then return 0
  let w ← v.bits[wordOff]?
  let testBits := w >>> bitsOff
  if testBits ≠ 0#64 then return distance ⊞ trailingZeros testBits
  if wordOff = numWords v ⊟ 1 then return v.numBits ⊟ pos
  distNextLoop v (numWords v ⊟ 1 - wordOff) wordOff (distance ⊞ (64 ⊟ bitsOff))

/-- bits_vec.go:155-158 `valueVector.Get` -/
def valueGet (v : ValueVector) (pos : Nat) : Option Bytes :=
  slice v.bytes (pos ⊠ v.valueSize) (pos ⊠ v.valueSize ⊞ v.valueSize)

/-- bits_vec.go:267-274: the loop of `Select` (see `SelectVector.selectLoop` for the bound on the iterations) -/
def selectLoop (bmi : Bool) (bits : List Word) : Nat → Nat → Word → Nat → Option Nat
  | 0, _, _, _ => none
  | fuel + 1, wordOff, w, rankLeft =>
    let ones := onesCount w
    if ones < rankLeft then do
      let w' ← bits[wordOff ⊞ 1]?
      selectLoop bmi bits fuel (wordOff ⊞ 1) w' (rankLeft ⊟ ones)
    else do
      let s ← select64 bmi w rankLeft
      return wordOff ⊠ 64 ⊞ s

/-- bits_vec.go:252-274: the scan from the sampled position `pos` -/
def selectFrom (bmi : Bool) (v : SelectVector) (pos rankLeft : Nat) : Option Nat :=
  if rankLeft = 0 then some pos else do
    let wordOff := if pos % 64 = 64 ⊟ 1 then pos / 64 ⊞ 1 else pos / 64
    let bitsOff := if pos % 64 = 64 ⊟ 1 then 0 else pos % 64 ⊞ 1
    let w0 ← v.bv.bits[wordOff]?
    selectLoop bmi v.bv.bits (v.bv.bits.length + 1) wordOff ((w0 >>> bitsOff) <<< bitsOff) rankLeft

/-- bits_vec.go:244-275 `Select` -/
def select (bmi : Bool) (v : SelectVector) (rank : Nat) : Option Nat := do
  let lutIdx := rank / selectSampleInterval
  let rankLeft := rank % selectSampleInterval
  let rankLeft := if lutIdx = 0 then rankLeft ⊟ 1 else rankLeft
  let pos ← v.selectLut[lutIdx]?
  selectFrom bmi v pos rankLeft

/-- bits_vec.go:412-418 `rankVectorDense.Rank`, 428-434 `rankVectorSparse.Rank`; `blk` is the block size -/
def rank (blk : Nat) (v : RankVector) (pos : Nat) : Option Nat := do
  let wordPreBlk := blk / 64
  let blockOff := pos / blk
  let bitsOff := pos % blk
  let r ← v.rankLut[blockOff]?
  let p ← popcountBlock v.bv.bits (blockOff ⊠ wordPreBlk) (bitsOff ⊞ 1)
  return r ⊞ p

/-- bits_vec.go:412-418 -/
def rankDense (v : RankVector) (pos : Nat) : Option Nat := rank rankDenseBlockSize v pos
/-- bits_vec.go:428-434 -/
def rankSparse (v : RankVector) (pos : Nat) : Option Nat := rank rankSparseBlockSize v pos

/-- bits_vec.go:459-462 and 476-479 -/
def skipTerminator (v : LabelVector) (start size : Nat) : Option (Nat × Nat) :=
  if size > 1 then do
    let l ← v.labels[start]?
    if l = labelTerminator then return (start ⊞ 1, size ⊟ 1) else return (start, size)
  else some (start, size)

/-- bits_vec.go:458-473 `Search` -/
def search (v : LabelVector) (k : UInt8) (start size : Nat) : Option (Nat × Bool) := do
  let (start, size) ← skipTerminator v start size
  let stop := if start ⊞ size > u v.labels.length then u v.labels.length else start ⊞ size
  let sub ← slice v.labels start stop
  match indexByte sub k with
  | none => return (start, false)
  | some r => return (start ⊞ u r, true)

/-! ## prefixVec -/

/-- `endian.Uint32(v.prefixOffsets[id*4:])` -/
def offsetAt (v : PrefixVec) (id : Nat) : Option Nat := (sliceFrom v.prefixOffsets (id ⊠ 4)).bind uint32

/-- bits_vec.go:561-564 -/
def prefixEnd (v : PrefixVec) (prefixID : Nat) : Option Nat :=
  if (prefixID ⊞ 1) ⊠ 4 < v.prefixOffsets.length then offsetAt v (prefixID ⊞ 1) else some (u v.prefixData.length)

/-- bits_vec.go:554-566 `GetPrefix` -/
def getPrefix (v : PrefixVec) (nodeID : Nat) : Option Bytes := do
  let b ← v.hasPrefixVec.bv.isSet nodeID
  if !b then return []
  let r ← rankSparse v.hasPrefixVec nodeID
  let start ← offsetAt v (r ⊟ 1)
  let stop ← prefixEnd v (r ⊟ 1)
  slice v.prefixData start stop

/-- bits_vec.go:539-552 `CheckPrefix` (the comparison in line 545 is on `int`) -/
def checkPrefix (v : PrefixVec) (key : Bytes) (depth nodeID : Nat) : Option (Nat × Bool) := do
  let pre ← getPrefix v nodeID
  if pre.length = 0 then return (0, true)
  if depth + pre.length > key.length then return (0, false)
  let sub ← slice key depth (depth ⊞ u pre.length)
  if sub ≠ pre then return (0, false)
  return (u pre.length, true)

/-! ## suffixVector -/

/-- bits_vec.go:651, 776: are there fewer than `realSuffixLen` bits of the key from `level` on -/
def tooShort (key : Bytes) (level realSuffixLen : Nat) : Bool :=
  u key.length < level || (u key.length ⊟ level) ⊠ 8 < realSuffixLen

/-- bits_vec.go:774-799 `constructRealSuffix` -/
def constructRealSuffix (key : Bytes) (level realSuffixLen : Nat) : Option Word :=
  if tooShort key level realSuffixLen then some 0 else do
    let nbytes := realSuffixLen / 8
    let suffix ←
      if nbytes > 0 then do
        let b ← key[level]?
        realSuffixLoop key (0#64 + BitVec.ofNat 64 b.toNat) (nbytes - 1)
      else some 0#64
    let off := realSuffixLen % 8
    if off > 0 then do
      let suffix := suffix <<< off
      let b ← key[level ⊞ nbytes]?
      let remain := (BitVec.ofNat 64 b.toNat) >>> (8 ⊟ off)
      return suffix + remain
    else return suffix

/-- bits_vec.go:801-805 `constructMixedSuffix` (the hash part computes with `uint32` in the first model, too) -/
def constructMixedSuffix (fp : Bytes → Word) (key : Bytes) (level realSuffixLen hashSuffixLen : Nat) : Option Word := do
  let hs := constructHashSuffix fp key hashSuffixLen
  let rs ← constructRealSuffix key level realSuffixLen
  return (hs <<< realSuffixLen) ||| rs

/-- bits_vec.go:754-765 `constructSuffix` -/
def constructSuffix (fp : Bytes → Word) (key : Bytes) (level : Nat) (ty : SuffixType) (realSuffixLen hashSuffixLen : Nat) : Option Word :=
  match ty with
  | .hash => some (constructHashSuffix fp key hashSuffixLen)
  | .real => constructRealSuffix key level realSuffixLen
  | .mixed => constructMixedSuffix fp key level realSuffixLen hashSuffixLen
  | .none => some 0

/-- bits_vec.go:750-752 `suffixLen` -/
def suffixLen (v : SuffixVector) : Nat := v.hashSuffixLen ⊞ v.realSuffixLen

/-- bits_vec.go:736-748 `read` -/
def read (v : SuffixVector) (idx : Nat) : Option Word := do
  let bitPos := idx ⊠ suffixLen v
  let wordOff := bitPos / 64
  let bitsOff := bitPos % 64
  let w ← v.bv.bits[wordOff]?
  let result := (w >>> bitsOff) &&& ((1#64 <<< suffixLen v) - 1#64)
  if bitsOff ⊞ suffixLen v > 64 then do
    let leftLen := 64 ⊟ bitsOff
    let rightLen := suffixLen v ⊟ leftLen
    let w' ← v.bv.bits[wordOff ⊞ 1]?
    return result ||| ((w' &&& ((1#64 <<< rightLen) - 1#64)) <<< leftLen)
  else return result

/-- bits_vec.go:637-656 `CheckEquality` -/
def checkEquality (fp : Bytes → Word) (v : SuffixVector) (idx : Nat) (key : Bytes) (level : Nat) : Option Bool := do
  if v.suffixType = .none then return true
  if idx ⊠ suffixLen v ≥ v.bv.numBits then return false
  let suffix ← read v idx
  if v.suffixType = .real ∧ suffix = 0#64 then return true
  if v.suffixType = .real ∧ tooShort key level v.realSuffixLen then return false
  let expected ← constructSuffix fp key level v.suffixType v.realSuffixLen v.hashSuffixLen
  return suffix == expected

/-! ## loudsDense -/

/-- louds_dense.go:144-146 `childNodeID` -/
def dChildNodeID (ld : LoudsDense) (pos : Nat) : Option Nat := rankDense ld.hasChildVec pos

/-- louds_dense.go:148-158 `suffixPos` -/
def dSuffixPos (ld : LoudsDense) (pos : Nat) (isPrefix : Bool) : Option Nat := do
  let nodeID := pos / denseFanout
  let a ← rankDense ld.labelVec pos
  let b ← rankDense ld.hasChildVec pos
  let c ← rankDense ld.isPrefixVec nodeID
  let s := a ⊟ b ⊞ c ⊟ 1
  if isPrefix then do
    let leaf ← ld.leafAt pos
    return if leaf then s ⊟ 1 else s
  else return s

/-- louds_dense.go:66-69, 80-83 -/
def dFinish (fp : Bytes → Word) (ld : LoudsDense) (key : Bytes) (depth valPos : Nat) : Option (Bytes × Bool) := do
  let ok ← checkEquality fp ld.suffixes valPos key (depth ⊞ 1)
  if ok then do
    let v ← valueGet ld.values valPos
    return (v, true)
  else return ([], false)

/-- louds_dense.go:64-85 -/
def dGetAt (fp : Bytes → Word) (ld : LoudsDense) (key : Bytes) (depth nodeID : Nat) : Option (LoudsDense.GetRes ⊕ Nat) :=
  let pos := nodeID ⊠ denseFanout
  if depth ≥ u key.length then do
    let p ← ld.isPrefixVec.bv.isSet nodeID
    if p then do
      let valPos ← dSuffixPos ld pos true
      let (v, ok) ← dFinish fp ld key depth valPos
      return .inl ⟨-1, depth, v, ok⟩
    else return .inl ⟨-1, depth, [], false⟩
  else do
    let c ← key[depth]?
    let pos := pos ⊞ c.toNat
    let l ← ld.labelVec.bv.isSet pos
    if !l then return .inl ⟨-1, depth, [], false⟩
    else do
      let h ← ld.hasChildVec.bv.isSet pos
      if !h then do
        let valPos ← dSuffixPos ld pos false
        let (v, ok) ← dFinish fp ld key depth valPos
        return .inl ⟨-1, depth, v, ok⟩
      else return .inr pos

/-- louds_dense.go:56-91 -/
def dGetLoop (fp : Bytes → Word) (ld : LoudsDense) (key : Bytes) : Nat → Nat → Nat → Option LoudsDense.GetRes
  | 0, depth, nodeID => some ⟨nodeID, depth, [], true⟩
  | n + 1, depth, nodeID => do
    let (prefixLen, ok) ← checkPrefix ld.prefixVec key depth nodeID
    if !ok then return ⟨-1, depth, [], false⟩
    else do
      let depth := depth ⊞ prefixLen
      match ← dGetAt fp ld key depth nodeID with
      | .inl r => return r
      | .inr pos => do
        let child ← dChildNodeID ld pos
        dGetLoop fp ld key n (depth ⊞ 1) child

/-- louds_dense.go:54-92 `Get` -/
def dGet (fp : Bytes → Word) (ld : LoudsDense) (key : Bytes) : Option LoudsDense.GetRes := dGetLoop fp ld key ld.height 0 0

/-! ## loudsSparse -/

/-- louds_sparse.go:173-175 `suffixPos` -/
def sSuffixPos (ls : LoudsSparse) (pos : Nat) : Option Nat := do
  let r ← rankSparse ls.hasChildVec pos
  return pos ⊟ r

/-- louds_sparse.go:177-179 `firstLabelPos` -/
def firstLabelPos (bmi : Bool) (ls : LoudsSparse) (nodeID : Nat) : Option Nat :=
  select bmi ls.loudsVec (nodeID ⊞ 1 ⊟ ls.denseNodeCount)

/-- louds_sparse.go:184-186 `prefixID` -/
def prefixID (ls : LoudsSparse) (nodeID : Nat) : Nat := nodeID ⊟ ls.denseNodeCount

/-- louds_sparse.go:196-198 `childNodeID` -/
def sChildNodeID (ls : LoudsSparse) (pos : Nat) : Option Nat := do
  let r ← rankSparse ls.hasChildVec pos
  return r ⊞ ls.denseChildCount

/-- louds_sparse.go:200-202 `nodeSize` -/
def nodeSize (ls : LoudsSparse) (pos : Nat) : Option Nat := distanceToNextSetBit ls.loudsVec.bv pos

/-- louds_sparse.go:82-86, 94-98 -/
def sFinish (fp : Bytes → Word) (ls : LoudsSparse) (key : Bytes) (depth pos : Nat) : Option (Bytes × Bool) := do
  let valPos ← sSuffixPos ls pos
  let ok ← checkEquality fp ls.suffixes valPos key (depth ⊞ 1)
  if ok then do
    let v ← valueGet ls.values valPos
    return (v, true)
  else return ([], false)

/-- louds_sparse.go:93-101 -/
def sGetTail (fp : Bytes → Word) (ls : LoudsSparse) (key : Bytes) (depth pos : Nat) : Option (Bytes × Bool) := do
  let l ← ls.labelVec.getLabel pos
  if l = labelTerminator then do
    let h ← ls.hasChildVec.bv.isSet pos
    if !h then sFinish fp ls key depth pos else return ([], false)
  else return ([], false)

/-- louds_sparse.go:66-91: the loop, with a bound on its iterations (`none` = the bound does not suffice; it does where the first model's does) -/
def sGetLoop (fp : Bytes → Word) (bmi : Bool) (ls : LoudsSparse) (key : Bytes) : Nat → Nat → Nat → Nat → Option (Bytes × Bool)
  | 0, _, _, _ => none
  | fuel + 1, depth, nodeID, pos =>
    if depth < u key.length then do
      let (prefixLen, ok) ← checkPrefix ls.prefixVec key depth (prefixID ls nodeID)
      if !ok then return ([], false)
      else do
        let depth := depth ⊞ prefixLen
        if depth ≥ u key.length then sGetTail fp ls key depth pos
        else do
          let c ← key[depth]?
          let sz ← nodeSize ls pos
          let (pos, ok) ← search ls.labelVec c pos sz
          if !ok then return ([], false)
          else do
            let h ← ls.hasChildVec.bv.isSet pos
            if !h then sFinish fp ls key depth pos
            else do
              let nodeID ← sChildNodeID ls pos
              let pos ← firstLabelPos bmi ls nodeID
              sGetLoop fp bmi ls key fuel (depth ⊞ 1) nodeID pos
    else sGetTail fp ls key depth pos

/-- louds_sparse.go:60-102 `Get` -/
def sGet (fp : Bytes → Word) (bmi : Bool) (ls : LoudsSparse) (key : Bytes) (startDepth nodeID : Nat) : Option (Bytes × Bool) := do
  let pos ← firstLabelPos bmi ls nodeID
  sGetLoop fp bmi ls key (key.length + 1) startDepth nodeID pos

/-- surf.go:14-21 `Get` -/
def get (fp : Bytes → Word) (bmi : Bool) (s : SuRF) (key : Bytes) : Option (Bytes × Bool) := do
  let r ← dGet fp s.ld key
  if !r.ok ∨ r.sparseNode < 0 then return (r.value, r.ok)
  else sGet fp bmi s.ls key r.depth (u r.sparseNode.toNat)

end Surf.U32
