import Verif.Surf.Louds

/-!
# Model of marshalling: `MarshalSize`, `WriteTo`, `Unmarshal` of every structure, `SuRF.Marshal`

`io.Writer` is an arbitrary action `w : Bytes → m Unit` of a monad `m` (one call of `w` = one call of `Write`); with `m`
an error/state monad this covers every writer, including failing ones. `if _, err := w.Write(b); err != nil {return err}`
is monadic sequencing: the first error ends the function and is returned.

`Unmarshal` reads from a byte slice and returns the struct and the remaining bytes; `none` is a panic (slice bounds).
The zero-copy casts `u64SliceToBytes` … (bits.go:94-139) are little-endian encoding and decoding (amd64).
The restored slices alias the input buffer in Go; here they are values.
-/

namespace Surf

/-- little-endian bytes of a `uint64` -/
def le64 (w : Word) : Bytes :=
  [UInt8.ofNat w.toNat, UInt8.ofNat (w.toNat / 2 ^ 8), UInt8.ofNat (w.toNat / 2 ^ 16), UInt8.ofNat (w.toNat / 2 ^ 24),
   UInt8.ofNat (w.toNat / 2 ^ 32), UInt8.ofNat (w.toNat / 2 ^ 40), UInt8.ofNat (w.toNat / 2 ^ 48),
   UInt8.ofNat (w.toNat / 2 ^ 56)]

/-- bits.go:94-104 `u64SliceToBytes` -/
def u64SliceToBytes (u : List Word) : Bytes := u.flatMap le64

/-- bits.go:106-116 `bytesToU64Slice` (`len(b)/8` words) -/
def bytesToU64Slice : Bytes → List Word
  | a :: b :: c :: d :: e :: f :: g :: h :: rest =>
    BitVec.ofNat 64 (a.toNat + 2 ^ 8 * b.toNat + 2 ^ 16 * c.toNat + 2 ^ 24 * d.toNat + 2 ^ 32 * e.toNat +
      2 ^ 40 * f.toNat + 2 ^ 48 * g.toNat + 2 ^ 56 * h.toNat) :: bytesToU64Slice rest
  | _ => []

/-- bits.go:117-127 `u32SliceToBytes` -/
def u32SliceToBytes (u : List Nat) : Bytes := u.flatMap putUint32

/-- bits.go:129-139 `bytesToU32Slice` (`len(b)/4` words) -/
def bytesToU32Slice : Bytes → List Nat
  | a :: b :: c :: d :: rest =>
    (a.toNat + 2 ^ 8 * b.toNat + 2 ^ 16 * c.toNat + 2 ^ 24 * d.toNat) :: bytesToU32Slice rest
  | _ => []

/-- `zeros[:padding]` of a `[8]byte` -/
def zeros (n : Nat) : Bytes := List.replicate n 0

variable {m : Type → Type} [Monad m]

/-! ## valueVector -/

namespace ValueVector

/-- bits_vec.go:164-166 -/
def rawMarshalSize (v : ValueVector) : Nat := 8 + v.bytes.length
/-- bits_vec.go:160-162 -/
def marshalSize (v : ValueVector) : Nat := align v.rawMarshalSize

/-- bits_vec.go:168-188 `WriteTo` -/
def writeTo (w : Bytes → m Unit) (v : ValueVector) : m Unit := do
  w (putUint32 v.bytes.length)
  w (putUint32 v.valueSize)
  w v.bytes
  w (zeros (v.marshalSize - v.rawMarshalSize))

/-- bits_vec.go:190-202 `Unmarshal` -/
def unmarshal (buf : Bytes) : Option (ValueVector × Bytes) := do
  let sz ← uint32 buf
  let b4 ← sliceFrom buf 4
  let valueSize ← uint32 b4
  let bytes ← slice buf 8 (8 + sz)
  let rest ← sliceFrom buf (align (8 + sz))
  return ({ bytes, valueSize }, rest)

end ValueVector

/-! ## selectVector -/

namespace SelectVector

/-- bits_vec.go:281-283 -/
def rawMarshalSize (v : SelectVector) : Nat := 4 + 4 + v.bv.bitsSize + v.lutSize
/-- bits_vec.go:277-279 -/
def marshalSize (v : SelectVector) : Nat := align v.rawMarshalSize

/-- bits_vec.go:285-306 `WriteTo` -/
def writeTo (w : Bytes → m Unit) (v : SelectVector) : m Unit := do
  w (putUint32 v.bv.numBits)
  w (putUint32 v.numOnes)
  w (u64SliceToBytes v.bv.bits)
  w (u32SliceToBytes v.selectLut)
  w (zeros (v.marshalSize - v.rawMarshalSize))

/-- bits_vec.go:308-323 `Unmarshal` -/
def unmarshal (buf : Bytes) : Option (SelectVector × Bytes) := do
  let numBits ← uint32 buf
  let b4 ← sliceFrom buf 4
  let numOnes ← uint32 b4
  let bitsSize := numWordsOf numBits * 8
  let bits ← slice buf 8 (8 + bitsSize)
  let lutSize := (numOnes / selectSampleInterval + 1) * 4
  let lut ← slice buf (8 + bitsSize) (8 + bitsSize + lutSize)
  let rest ← sliceFrom buf (align (8 + bitsSize + lutSize))
  return ({ bv := { numBits, bits := bytesToU64Slice bits }, numOnes, selectLut := bytesToU32Slice lut }, rest)

end SelectVector

/-! ## rankVector -/

namespace RankVector

/-- bits_vec.go:360-362 -/
def rawMarshalSize (v : RankVector) : Nat := 4 + 4 + v.bv.bitsSize + v.lutSize
/-- bits_vec.go:356-358 -/
def marshalSize (v : RankVector) : Nat := align v.rawMarshalSize

/-- bits_vec.go:364-385 `WriteTo` -/
def writeTo (w : Bytes → m Unit) (v : RankVector) : m Unit := do
  w (putUint32 v.bv.numBits)
  w (putUint32 v.blockSize)
  w (u64SliceToBytes v.bv.bits)
  w (u32SliceToBytes v.rankLut)
  w (zeros (v.marshalSize - v.rawMarshalSize))

/-- bits_vec.go:387-402 `Unmarshal`; a zero block size is a division by zero -/
def unmarshal (buf : Bytes) : Option (RankVector × Bytes) := do
  let numBits ← uint32 buf
  let b4 ← sliceFrom buf 4
  let blockSize ← uint32 b4
  let bitsSize := numWordsOf numBits * 8
  let bits ← slice buf 8 (8 + bitsSize)
  if blockSize = 0 then none
  let lutSize := (numBits / blockSize + 1) * 4
  let lut ← slice buf (8 + bitsSize) (8 + bitsSize + lutSize)
  let rest ← sliceFrom buf (align (8 + bitsSize + lutSize))
  return ({ bv := { numBits, bits := bytesToU64Slice bits }, blockSize, rankLut := bytesToU32Slice lut }, rest)

end RankVector

/-! ## labelVector -/

namespace LabelVector

/-- bits_vec.go:492-494 -/
def rawMarshalSize (v : LabelVector) : Nat := 4 + v.labels.length
/-- bits_vec.go:488-490 -/
def marshalSize (v : LabelVector) : Nat := align v.rawMarshalSize

/-- bits_vec.go:496-510 `WriteTo` -/
def writeTo (w : Bytes → m Unit) (v : LabelVector) : m Unit := do
  w (putUint32 v.labels.length)
  w v.labels
  w (zeros (v.marshalSize - v.rawMarshalSize))

/-- bits_vec.go:512-516 `Unmarshal` -/
def unmarshal (buf : Bytes) : Option (LabelVector × Bytes) := do
  let l ← uint32 buf
  let labels ← slice buf 4 (4 + l)
  let rest ← sliceFrom buf (align (4 + l))
  return ({ labels }, rest)

end LabelVector

/-! ## prefixVec -/

namespace PrefixVec

/-- bits_vec.go:608-610 -/
def rawMarshalSize (v : PrefixVec) : Nat :=
  v.hasPrefixVec.marshalSize + 8 + (v.prefixOffsets.length + v.prefixData.length)
/-- bits_vec.go:612-614 -/
def marshalSize (v : PrefixVec) : Nat := align v.rawMarshalSize

/-- bits_vec.go:568-591 `WriteTo` -/
def writeTo (w : Bytes → m Unit) (v : PrefixVec) : m Unit := do
  v.hasPrefixVec.writeTo w
  w (putUint32 v.prefixOffsets.length ++ putUint32 v.prefixData.length)
  w v.prefixOffsets
  w v.prefixData
  w (zeros (v.marshalSize - v.rawMarshalSize))

/-- bits_vec.go:593-606 `Unmarshal` -/
def unmarshal (b : Bytes) : Option (PrefixVec × Bytes) := do
  let (hasPrefixVec, buf1) ← RankVector.unmarshal b
  let offsetsLen ← uint32 buf1
  let b4 ← sliceFrom buf1 4
  let dataLen ← uint32 b4
  let prefixOffsets ← slice buf1 8 (8 + offsetsLen)
  let prefixData ← slice buf1 (8 + offsetsLen) (8 + offsetsLen + dataLen)
  let v : PrefixVec := { hasPrefixVec, prefixOffsets, prefixData }
  let rest ← sliceFrom b v.marshalSize
  return (v, rest)

end PrefixVec

/-! ## suffixVector -/

/-- builder.go:6-15: the byte of a suffix type -/
def SuffixType.toByte : SuffixType → UInt8
  | .none => 0 | .hash => 1 | .real => 2 | .mixed => 3

/-- bits_vec.go:721 `SuffixType(buf[cursor])`. Other bytes than 0..3 are never written; they are outside the model. -/
def SuffixType.ofByte : UInt8 → Option SuffixType
  | 0 => some .none | 1 => some .hash | 2 => some .real | 3 => some .mixed | _ => Option.none

namespace SuffixVector

/-- bits_vec.go:686-688 -/
def rawMarshalSize (v : SuffixVector) : Nat := 4 + 1 + 4 + 4 + v.bv.bitsSize
/-- bits_vec.go:682-684 -/
def marshalSize (v : SuffixVector) : Nat := align v.rawMarshalSize

/-- bits_vec.go:690-715 `WriteTo` -/
def writeTo (w : Bytes → m Unit) (v : SuffixVector) : m Unit := do
  w (putUint32 v.bv.numBits)
  w [v.suffixType.toByte]
  w (putUint32 v.hashSuffixLen)
  w (putUint32 v.realSuffixLen)
  w (u64SliceToBytes v.bv.bits)
  w (zeros (v.marshalSize - v.rawMarshalSize))

/-- bits_vec.go:727-731: the bits (left empty for `NoneSuffix`) and the cursor -/
def unmarshalBits (buf : Bytes) (ty : SuffixType) (numBits : Nat) : Option (List Word × Nat) :=
  if ty ≠ .none then do
    let bits ← slice buf 13 (13 + numWordsOf numBits * 8)
    return (bytesToU64Slice bits, 13 + numWordsOf numBits * 8)
  else some ([], 13)

/-- bits_vec.go:717-734 `Unmarshal` -/
def unmarshal (buf : Bytes) : Option (SuffixVector × Bytes) := do
  let numBits ← uint32 buf
  let t ← buf[4]?
  let suffixType ← SuffixType.ofByte t
  let b5 ← sliceFrom buf 5
  let hashSuffixLen ← uint32 b5
  let b9 ← sliceFrom buf 9
  let realSuffixLen ← uint32 b9
  let (bits, cursor) ← unmarshalBits buf suffixType numBits
  let rest ← sliceFrom buf (align cursor)
  return ({ bv := { numBits, bits }, suffixType, hashSuffixLen, realSuffixLen }, rest)

end SuffixVector

/-! ## loudsDense -/

namespace LoudsDense

/-- louds_dense.go:98-100 -/
def rawMarshalSize (ld : LoudsDense) : Nat :=
  4 + ld.labelVec.marshalSize + ld.hasChildVec.marshalSize + ld.isPrefixVec.marshalSize + ld.suffixes.marshalSize +
    ld.prefixVec.marshalSize
/-- louds_dense.go:94-96 -/
def marshalSize (ld : LoudsDense) : Nat := align ld.rawMarshalSize

/-- louds_dense.go:102-129 `WriteTo` -/
def writeTo (w : Bytes → m Unit) (ld : LoudsDense) : m Unit := do
  w (putUint32 ld.height)
  ld.labelVec.writeTo w
  ld.hasChildVec.writeTo w
  ld.isPrefixVec.writeTo w
  ld.suffixes.writeTo w
  ld.prefixVec.writeTo w
  w (zeros (ld.marshalSize - ld.rawMarshalSize))

/-- louds_dense.go:131-142 `Unmarshal` (`values` is restored later by `SuRF.Unmarshal`) -/
def unmarshal (buf : Bytes) : Option (LoudsDense × Bytes) := do
  let height ← uint32 buf
  let buf1 ← sliceFrom buf 4
  let (labelVec, buf1) ← RankVector.unmarshal buf1
  let (hasChildVec, buf1) ← RankVector.unmarshal buf1
  let (isPrefixVec, buf1) ← RankVector.unmarshal buf1
  let (suffixes, buf1) ← SuffixVector.unmarshal buf1
  let (prefixVec, buf1) ← PrefixVec.unmarshal buf1
  let rest ← sliceFrom buf (align (buf.length - buf1.length))
  return ({ height, labelVec, hasChildVec, isPrefixVec, suffixes, prefixVec }, rest)

end LoudsDense

/-! ## loudsSparse -/

namespace LoudsSparse

/-- louds_sparse.go:108-110 -/
def rawMarshalSize (ls : LoudsSparse) : Nat :=
  4 * 4 + ls.labelVec.marshalSize + ls.hasChildVec.marshalSize + ls.loudsVec.marshalSize + ls.suffixes.marshalSize +
    ls.prefixVec.marshalSize
/-- louds_sparse.go:104-106 -/
def marshalSize (ls : LoudsSparse) : Nat := align ls.rawMarshalSize

/-- louds_sparse.go:112-150 `WriteTo` -/
def writeTo (w : Bytes → m Unit) (ls : LoudsSparse) : m Unit := do
  w (putUint32 ls.height)
  w (putUint32 ls.startLevel)
  w (putUint32 ls.denseNodeCount)
  w (putUint32 ls.denseChildCount)
  ls.labelVec.writeTo w
  ls.hasChildVec.writeTo w
  ls.loudsVec.writeTo w
  ls.suffixes.writeTo w
  ls.prefixVec.writeTo w
  w (zeros (ls.marshalSize - ls.rawMarshalSize))

/-- louds_sparse.go:152-171 `Unmarshal` -/
def unmarshal (buf : Bytes) : Option (LoudsSparse × Bytes) := do
  let height ← uint32 buf
  let buf1 ← sliceFrom buf 4
  let startLevel ← uint32 buf1
  let buf1 ← sliceFrom buf1 4
  let denseNodeCount ← uint32 buf1
  let buf1 ← sliceFrom buf1 4
  let denseChildCount ← uint32 buf1
  let buf1 ← sliceFrom buf1 4
  let (labelVec, buf1) ← LabelVector.unmarshal buf1
  let (hasChildVec, buf1) ← RankVector.unmarshal buf1
  let (loudsVec, buf1) ← SelectVector.unmarshal buf1
  let (suffixes, buf1) ← SuffixVector.unmarshal buf1
  let (prefixVec, buf1) ← PrefixVec.unmarshal buf1
  let rest ← sliceFrom buf (align (buf.length - buf1.length))
  return ({ height, startLevel, denseNodeCount, denseChildCount, labelVec, hasChildVec, loudsVec, suffixes, prefixVec },
    rest)

end LoudsSparse

/-! ## SuRF -/

namespace SuRF

/-- surf.go:44-47 `MarshalSize` -/
def marshalSize (s : SuRF) : Nat :=
  s.ld.marshalSize + s.ls.marshalSize + s.ld.values.marshalSize + s.ls.values.marshalSize

/-- surf.go:49-52 `MarshalNoValueSize` -/
def marshalNoValueSize (s : SuRF) : Nat := s.ld.marshalSize + s.ls.marshalSize

/-- surf.go:61-76 `WriteTo` -/
def writeTo (w : Bytes → m Unit) (s : SuRF) : m Unit := do
  s.ld.writeTo w
  s.ls.writeTo w
  s.ld.values.writeTo w
  s.ls.values.writeTo w

/-- `bytes.Buffer.Write`: appends, never fails -/
def bufferWrite (b : Bytes) : StateM Bytes Unit := modify (· ++ b)

/-- surf.go:54-59 `Marshal` -/
def marshal (s : SuRF) : Bytes := ((s.writeTo bufferWrite).run []).2

/-- surf.go:78-84 `Unmarshal`, into a zero `SuRF` -/
def unmarshal (b : Bytes) : Option SuRF := do
  let (ld, b) ← LoudsDense.unmarshal b
  let (ls, b) ← LoudsSparse.unmarshal b
  let (dv, b) ← ValueVector.unmarshal b
  let (sv, _) ← ValueVector.unmarshal b
  return { ld := { ld with values := dv }, ls := { ls with values := sv } }

end SuRF

end Surf
