import Verif.Surf.Receive

/-!
# `Unmarshal` with slices as parts of memory

In `Verif.Surf.Receive` the restored filter has copies of what `Unmarshal` finds in the slice. In Go its arrays are parts of the slice, also those of words, whose pointer is that of the bytes
(bits.go:106-139, `hdr.Data = uintptr(unsafe.Pointer(&b[0]))`). Here `mem` is the memory from the beginning of the slice up to its capacity, and a slice of it is where it begins and how long it is.
Its capacity reaches to the end of `mem`. The numbers are copied.
-/

set_option linter.unusedSimpArgs false

namespace Surf

/-- A slice of `mem`. -/
structure Place where
  off : Nat := 0
  len : Nat := 0

namespace Place

/-- What it contains. -/
def bytes (mem : Bytes) (b : Place) : Bytes := (mem.drop b.off).take b.len

/-- `b[a:]` -/
def drop (b : Place) (a : Nat) : Option Place := if a ≤ b.len then some ⟨b.off + a, b.len - a⟩ else none

/-- `b[a:c]` -/
def sub (mem : Bytes) (b : Place) (a c : Nat) : Option Place := if a ≤ c ∧ b.off + c ≤ mem.length then some ⟨b.off + a, c - a⟩ else none

/-- `endian.Uint32(b)` -/
def u32 (mem : Bytes) (b : Place) : Option Nat := uint32 (b.bytes mem)

end Place

/-- bits_vec.go:139-142 -/
structure ValueAt where
  valueSize : Nat
  bytes : Place

/-- bits_vec.go:11-14, 206-210 -/
structure SelectAt where
  numBits : Nat
  numOnes : Nat
  bits : Place
  lut : Place

/-- bits_vec.go:11-14, 330-334 -/
structure RankAt where
  numBits : Nat
  blockSize : Nat
  bits : Place
  lut : Place

/-- bits_vec.go:434-436 -/
structure LabelAt where
  labels : Place

/-- bits_vec.go:518-522 -/
structure PrefixAt where
  has : RankAt
  offsets : Place
  data : Place

/-- bits_vec.go:623-628 -/
structure SuffixAt where
  numBits : Nat
  suffixType : SuffixType
  hashSuffixLen : Nat
  realSuffixLen : Nat
  bits : Place

/-- louds_dense.go:8-19 -/
structure DenseAt where
  height : Nat
  labelVec : RankAt
  hasChildVec : RankAt
  isPrefixVec : RankAt
  suffixes : SuffixAt
  prefixVec : PrefixAt

/-- louds_sparse.go:8-22 -/
structure SparseAt where
  height : Nat
  startLevel : Nat
  denseNodeCount : Nat
  denseChildCount : Nat
  labelVec : LabelAt
  hasChildVec : RankAt
  loudsVec : SelectAt
  suffixes : SuffixAt
  prefixVec : PrefixAt

/-- surf.go:12-15 -/
structure FilterAt where
  dense : DenseAt
  sparse : SparseAt
  denseValues : ValueAt
  sparseValues : ValueAt

/-! ## `Unmarshal` -/

/-- bits_vec.go:190-202 -/
def ValueAt.receive (mem : Bytes) (buf : Place) : Option (ValueAt × Place) := do
  let sz ← buf.u32 mem
  let b4 ← buf.drop 4
  let valueSize ← b4.u32 mem
  let bytes ← buf.sub mem 8 (8 + sz)
  let rest ← buf.drop (align (8 + sz))
  return ({ bytes, valueSize }, rest)

/-- bits_vec.go:308-323 -/
def SelectAt.receive (mem : Bytes) (buf : Place) : Option (SelectAt × Place) := do
  let numBits ← buf.u32 mem
  let b4 ← buf.drop 4
  let numOnes ← b4.u32 mem
  let bitsSize := numWordsOf numBits * 8 % 2 ^ 32
  let bits ← buf.sub mem 8 (8 + bitsSize)
  let lutSize := (numOnes / selectSampleInterval + 1) * 4 % 2 ^ 32
  let lut ← buf.sub mem (8 + bitsSize) (8 + bitsSize + lutSize)
  let rest ← buf.drop (align (8 + bitsSize + lutSize))
  return ({ numBits, numOnes, bits, lut }, rest)

/-- bits_vec.go:387-402 -/
def RankAt.receive (mem : Bytes) (buf : Place) : Option (RankAt × Place) := do
  let numBits ← buf.u32 mem
  let b4 ← buf.drop 4
  let blockSize ← b4.u32 mem
  let bitsSize := numWordsOf numBits * 8 % 2 ^ 32
  let bits ← buf.sub mem 8 (8 + bitsSize)
  if blockSize = 0 then none
  let lutSize := (numBits / blockSize + 1) * 4 % 2 ^ 32
  let lut ← buf.sub mem (8 + bitsSize) (8 + bitsSize + lutSize)
  let rest ← buf.drop (align (8 + bitsSize + lutSize))
  return ({ numBits, blockSize, bits, lut }, rest)

/-- bits_vec.go:512-516 -/
def LabelAt.receive (mem : Bytes) (buf : Place) : Option (LabelAt × Place) := do
  let l ← buf.u32 mem
  let labels ← buf.sub mem 4 ((4 + l) % 2 ^ 32)
  let rest ← buf.drop (align ((4 + l) % 2 ^ 32))
  return ({ labels }, rest)

/-- bits_vec.go:356-362 `MarshalSize`, with the sizes as `uint32` -/
def RankAt.size (v : RankAt) : Nat := align (8 + numWordsOf v.numBits * 8 % 2 ^ 32 + (v.numBits / v.blockSize + 1) * 4 % 2 ^ 32)

/-- bits_vec.go:593-606 -/
def PrefixAt.receive (mem : Bytes) (b : Place) : Option (PrefixAt × Place) := do
  let (has, buf1) ← RankAt.receive mem b
  let offsetsLen ← buf1.u32 mem
  let b4 ← buf1.drop 4
  let dataLen ← b4.u32 mem
  let offsets ← buf1.sub mem 8 (8 + offsetsLen)
  let data ← buf1.sub mem (8 + offsetsLen) (8 + offsetsLen + dataLen)
  let rest ← b.drop (align (has.size + 8 + (offsets.len + data.len)))
  return ({ has, offsets, data }, rest)

/-- bits_vec.go:727-731. The receiver is new: without suffixes there are no bits. -/
def SuffixAt.receiveBits (mem : Bytes) (buf : Place) (ty : SuffixType) (numBits : Nat) : Option (Place × Nat) :=
  if ty ≠ .none then do
    let bits ← buf.sub mem 13 (13 + numWordsOf numBits * 8 % 2 ^ 32)
    return (bits, 13 + numWordsOf numBits * 8 % 2 ^ 32)
  else some ({}, 13)

/-- bits_vec.go:717-734 -/
def SuffixAt.receive (mem : Bytes) (buf : Place) : Option (SuffixAt × Place) := do
  let numBits ← buf.u32 mem
  let t ← (buf.bytes mem)[4]?
  let suffixType ← some (SuffixType.ofAny t)
  let b5 ← buf.drop 5
  let hashSuffixLen ← b5.u32 mem
  let b9 ← buf.drop 9
  let realSuffixLen ← b9.u32 mem
  let (bits, cursor) ← receiveBits mem buf suffixType numBits
  let rest ← buf.drop (align cursor)
  return ({ numBits, suffixType, hashSuffixLen, realSuffixLen, bits }, rest)

/-- louds_dense.go:131-142 -/
def DenseAt.receive (mem : Bytes) (buf : Place) : Option (DenseAt × Place) := do
  let height ← buf.u32 mem
  let buf1 ← buf.drop 4
  let (labelVec, buf1) ← RankAt.receive mem buf1
  let (hasChildVec, buf1) ← RankAt.receive mem buf1
  let (isPrefixVec, buf1) ← RankAt.receive mem buf1
  let (suffixes, buf1) ← SuffixAt.receive mem buf1
  let (prefixVec, buf1) ← PrefixAt.receive mem buf1
  let rest ← buf.drop (align (buf.len - buf1.len))
  return ({ height, labelVec, hasChildVec, isPrefixVec, suffixes, prefixVec }, rest)

/-- louds_sparse.go:152-171 -/
def SparseAt.receive (mem : Bytes) (buf : Place) : Option (SparseAt × Place) := do
  let height ← buf.u32 mem
  let buf1 ← buf.drop 4
  let startLevel ← buf1.u32 mem
  let buf1 ← buf1.drop 4
  let denseNodeCount ← buf1.u32 mem
  let buf1 ← buf1.drop 4
  let denseChildCount ← buf1.u32 mem
  let buf1 ← buf1.drop 4
  let (labelVec, buf1) ← LabelAt.receive mem buf1
  let (hasChildVec, buf1) ← RankAt.receive mem buf1
  let (loudsVec, buf1) ← SelectAt.receive mem buf1
  let (suffixes, buf1) ← SuffixAt.receive mem buf1
  let (prefixVec, buf1) ← PrefixAt.receive mem buf1
  let rest ← buf.drop (align (buf.len - buf1.len))
  return ({ height, startLevel, denseNodeCount, denseChildCount, labelVec, hasChildVec, loudsVec, suffixes, prefixVec }, rest)

/-- surf.go:78-84 `Unmarshal(b)` of a new `SuRF`, for `b` the first `n` bytes of `mem` -/
def FilterAt.receive (mem : Bytes) (n : Nat) : Option FilterAt := do
  let (dense, b) ← DenseAt.receive mem ⟨0, n⟩
  let (sparse, b) ← SparseAt.receive mem b
  let (denseValues, b) ← ValueAt.receive mem b
  let (sparseValues, _) ← ValueAt.receive mem b
  return { dense, sparse, denseValues, sparseValues }

/-! ## What the filter is, when memory is `mem` -/

def ValueAt.view (mem : Bytes) (v : ValueAt) : ValueVector := { bytes := v.bytes.bytes mem, valueSize := v.valueSize }
def SelectAt.view (mem : Bytes) (v : SelectAt) : SelectVector :=
  { bv := { numBits := v.numBits, bits := bytesToU64Slice (v.bits.bytes mem) }, numOnes := v.numOnes, selectLut := bytesToU32Slice (v.lut.bytes mem) }
def RankAt.view (mem : Bytes) (v : RankAt) : RankVector :=
  { bv := { numBits := v.numBits, bits := bytesToU64Slice (v.bits.bytes mem) }, blockSize := v.blockSize, rankLut := bytesToU32Slice (v.lut.bytes mem) }
def LabelAt.view (mem : Bytes) (v : LabelAt) : LabelVector := { labels := v.labels.bytes mem }
def PrefixAt.view (mem : Bytes) (v : PrefixAt) : PrefixVec := { hasPrefixVec := v.has.view mem, prefixOffsets := v.offsets.bytes mem, prefixData := v.data.bytes mem }
def SuffixAt.view (mem : Bytes) (v : SuffixAt) : SuffixVector :=
  { bv := { numBits := v.numBits, bits := bytesToU64Slice (v.bits.bytes mem) }, suffixType := v.suffixType, hashSuffixLen := v.hashSuffixLen, realSuffixLen := v.realSuffixLen }
def DenseAt.view (mem : Bytes) (v : DenseAt) : LoudsDense :=
  { height := v.height, labelVec := v.labelVec.view mem, hasChildVec := v.hasChildVec.view mem, isPrefixVec := v.isPrefixVec.view mem, suffixes := v.suffixes.view mem,
    prefixVec := v.prefixVec.view mem, values := ({} : LoudsDense).values }
def SparseAt.view (mem : Bytes) (v : SparseAt) : LoudsSparse :=
  { height := v.height, startLevel := v.startLevel, denseNodeCount := v.denseNodeCount, denseChildCount := v.denseChildCount, labelVec := v.labelVec.view mem,
    hasChildVec := v.hasChildVec.view mem, loudsVec := v.loudsVec.view mem, suffixes := v.suffixes.view mem, prefixVec := v.prefixVec.view mem, values := ({} : LoudsSparse).values }
/-- The filter that the slices stand for when memory is `mem`. -/
def FilterAt.view (mem : Bytes) (v : FilterAt) : SuRF :=
  { ld := { v.dense.view mem with values := v.denseValues.view mem }, ls := { v.sparse.view mem with values := v.sparseValues.view mem } }

/-! ## The arrays -/

/-- An array: where it is, and how many bytes its elements have. -/
structure Area where
  at_ : Place
  word : Nat

def ValueAt.areas (v : ValueAt) : List Area := [⟨v.bytes, 1⟩]
def SelectAt.areas (v : SelectAt) : List Area := [⟨v.bits, 8⟩, ⟨v.lut, 4⟩]
def RankAt.areas (v : RankAt) : List Area := [⟨v.bits, 8⟩, ⟨v.lut, 4⟩]
def LabelAt.areas (v : LabelAt) : List Area := [⟨v.labels, 1⟩]
def PrefixAt.areas (v : PrefixAt) : List Area := v.has.areas ++ [⟨v.offsets, 1⟩, ⟨v.data, 1⟩]
def SuffixAt.areas (v : SuffixAt) : List Area := if v.suffixType ≠ .none then [⟨v.bits, 8⟩] else []
def DenseAt.areas (v : DenseAt) : List Area := v.labelVec.areas ++ (v.hasChildVec.areas ++ (v.isPrefixVec.areas ++ (v.suffixes.areas ++ v.prefixVec.areas)))
def SparseAt.areas (v : SparseAt) : List Area := v.labelVec.areas ++ (v.hasChildVec.areas ++ (v.loudsVec.areas ++ (v.suffixes.areas ++ v.prefixVec.areas)))
/-- All arrays of a filter, in the order in which they are restored. -/
def FilterAt.areas (v : FilterAt) : List Area := v.dense.areas ++ (v.sparse.areas ++ (v.denseValues.areas ++ v.sparseValues.areas))

/-! ## It is the `Unmarshal` of `Verif.Surf.Receive` -/

namespace Place

/-- The slice with its bytes. -/
def buf (mem : Bytes) (b : Place) : Buf := ⟨b.bytes mem, mem.drop (b.off + b.len)⟩

/-- The slice is within memory. -/
def Ok (mem : Bytes) (b : Place) : Prop := b.off + b.len ≤ mem.length

theorem length_bytes {mem : Bytes} {b : Place} (h : b.Ok mem) : (b.bytes mem).length = b.len := by
  unfold bytes
  rw [List.length_take, List.length_drop]
  unfold Ok at h
  omega

theorem all {mem : Bytes} {b : Place} : b.bytes mem ++ mem.drop (b.off + b.len) = mem.drop b.off := by
  unfold bytes
  rw [← List.drop_drop, List.take_append_drop]

theorem drop_some {b r : Place} {a : Nat} (h : b.drop a = some r) : a ≤ b.len ∧ r.off = b.off + a ∧ r.len = b.len - a := by
  unfold drop at h
  split at h
  · cases h; exact ⟨by assumption, rfl, rfl⟩
  · cases h

theorem sub_some {mem : Bytes} {b r : Place} {a c : Nat} (h : b.sub mem a c = some r) : a ≤ c ∧ r.off = b.off + a ∧ r.len = c - a := by
  unfold sub at h
  split at h
  next e => cases h; exact ⟨e.1, rfl, rfl⟩
  · cases h

theorem Ok.drop {mem : Bytes} {b r : Place} {a : Nat} (h : b.Ok mem) (e : b.drop a = some r) : r.Ok mem := by
  obtain ⟨h1, h2, h3⟩ := drop_some e
  unfold Ok at *
  omega

theorem buf_drop {mem : Bytes} {b : Place} (h : b.Ok mem) (a : Nat) : (b.buf mem).drop a = (b.drop a).map (buf mem) := by
  unfold Buf.drop drop
  have hl := length_bytes h
  unfold buf
  dsimp only
  rw [hl]
  by_cases e : a ≤ b.len
  · rw [if_pos e, if_pos e]
    show some _ = some _
    congr 2
    · unfold bytes
      dsimp only
      rw [List.drop_take, List.drop_drop]
    · dsimp only
      congr 1
      omega
  · rw [if_neg e, if_neg e]
    rfl

theorem buf_sub {mem : Bytes} {b : Place} (h : b.Ok mem) (a c : Nat) : (b.buf mem).sub a c = (b.sub mem a c).map (bytes mem) := by
  unfold Buf.sub sub
  have hl : (b.buf mem).data.length + (b.buf mem).spare.length = mem.length - b.off := by
    rw [← List.length_append]
    show (b.bytes mem ++ mem.drop (b.off + b.len)).length = _
    rw [all, List.length_drop]
  unfold Ok at h
  rw [hl]
  by_cases e : a ≤ c ∧ b.off + c ≤ mem.length
  · rw [if_pos e, if_pos ⟨e.1, by omega⟩]
    show some _ = some _
    congr 1
    show ((b.bytes mem ++ mem.drop (b.off + b.len)).take c).drop a = _
    rw [all]
    unfold bytes
    dsimp only
    rw [List.drop_take, List.drop_drop]
  · rw [if_neg e, if_neg (by omega)]
    rfl

theorem buf_u32 (mem : Bytes) (b : Place) : (b.buf mem).u32 = b.u32 mem := rfl

end Place

/-- The two do the same, and panic on the same slices. -/
def Agrees {α β : Type} (mem : Bytes) (f : Place → Option (α × Place)) (g : Buf → Option (β × Buf)) (view : α → β) : Prop :=
  ∀ b : Place, b.Ok mem → g (b.buf mem) = (f b).map (fun x => (view x.1, x.2.buf mem)) ∧ ∀ x r, f b = some (x, r) → r.Ok mem

theorem ValueAt.agrees (mem : Bytes) : Agrees mem (receive mem) ValueVector.receive (view mem) := by
  intro b hb
  refine ⟨?_, ?_⟩
  · simp only [ValueVector.receive, receive, Place.buf_u32, Place.buf_drop hb, Place.buf_sub hb, Option.bind_eq_bind, Option.pure_def]
    cases b.u32 mem with
    | none => rfl
    | some sz =>
    simp only [Option.bind_some]
    cases e4 : b.drop 4 with
    | none => rfl
    | some b4 =>
    simp only [Option.map_some, Option.bind_some, Place.buf_u32]
    cases b4.u32 mem with
    | none => rfl
    | some vs =>
    simp only [Option.bind_some]
    cases b.sub mem 8 (8 + sz) with
    | none => rfl
    | some s1 =>
    simp only [Option.map_some, Option.bind_some]
    cases b.drop (align (8 + sz)) <;> rfl
  · intro x r h
    simp only [receive, Option.bind_eq_bind, Option.bind_eq_some_iff, Option.pure_def, Option.some.injEq, Prod.mk.injEq] at h
    obtain ⟨_, -, _, -, _, -, _, -, _, h5, -, rfl⟩ := h
    exact hb.drop h5

theorem SelectAt.agrees (mem : Bytes) : Agrees mem (receive mem) SelectVector.receive (view mem) := by
  intro b hb
  refine ⟨?_, ?_⟩
  · simp only [SelectVector.receive, receive, Place.buf_u32, Place.buf_drop hb, Place.buf_sub hb, Option.bind_eq_bind, Option.pure_def]
    cases b.u32 mem with
    | none => rfl
    | some nb =>
    simp only [Option.bind_some]
    cases e4 : b.drop 4 with
    | none => rfl
    | some b4 =>
    simp only [Option.map_some, Option.bind_some, Place.buf_u32]
    cases b4.u32 mem with
    | none => rfl
    | some vs =>
    simp only [Option.bind_some]
    cases b.sub mem 8 (8 + numWordsOf nb * 8 % 2 ^ 32) with
    | none => rfl
    | some s1 =>
    simp only [Option.map_some, Option.bind_some]
    generalize numWordsOf nb * 8 % 2 ^ 32 = u
    generalize (vs / selectSampleInterval + 1) * 4 % 2 ^ 32 = w
    cases b.sub mem (8 + u) (8 + u + w) with
    | none => rfl
    | some s2 =>
    simp only [Option.map_some, Option.bind_some]
    cases b.drop (align (8 + u + w)) <;> rfl
  · intro x r h
    simp only [receive, Option.bind_eq_bind, Option.bind_eq_some_iff, Option.pure_def, Option.some.injEq, Prod.mk.injEq] at h
    obtain ⟨_, -, _, -, _, -, _, -, _, -, _, h5, -, rfl⟩ := h
    exact hb.drop h5

theorem RankAt.agrees (mem : Bytes) : Agrees mem (receive mem) RankVector.receive (view mem) := by
  intro b hb
  refine ⟨?_, ?_⟩
  · simp only [RankVector.receive, receive, Place.buf_u32, Place.buf_drop hb, Place.buf_sub hb, Option.bind_eq_bind, Option.pure_def]
    cases b.u32 mem with
    | none => rfl
    | some nb =>
    simp only [Option.bind_some]
    cases e4 : b.drop 4 with
    | none => rfl
    | some b4 =>
    simp only [Option.map_some, Option.bind_some, Place.buf_u32]
    cases b4.u32 mem with
    | none => rfl
    | some bs =>
    simp only [Option.bind_some]
    cases b.sub mem 8 (8 + numWordsOf nb * 8 % 2 ^ 32) with
    | none => rfl
    | some s1 =>
    simp only [Option.map_some, Option.bind_some]
    by_cases hz : bs = 0
    · simp only [hz, if_true]
      rfl
    · simp only [hz, if_false]
      generalize numWordsOf nb * 8 % 2 ^ 32 = u
      generalize (nb / bs + 1) * 4 % 2 ^ 32 = w
      try simp only [Option.bind_some]
      cases b.sub mem (8 + u) (8 + u + w) with
      | none => rfl
      | some s2 =>
      simp only [Option.map_some, Option.bind_some]
      cases b.drop (align (8 + u + w)) <;> rfl
  · intro x r h
    simp only [receive, Option.bind_eq_bind, Option.bind_eq_some_iff, Option.pure_def, Option.some.injEq, Prod.mk.injEq] at h
    obtain ⟨_, -, _, -, _, -, _, -, h⟩ := h
    split at h
    · simp at h
    · simp only [Option.bind_eq_some_iff, Option.some.injEq, Prod.mk.injEq] at h
      obtain ⟨_, -, _, h5, -, rfl⟩ := h
      exact hb.drop h5

theorem LabelAt.agrees (mem : Bytes) : Agrees mem (receive mem) LabelVector.receive (view mem) := by
  intro b hb
  refine ⟨?_, ?_⟩
  · simp only [LabelVector.receive, receive, Place.buf_u32, Place.buf_drop hb, Place.buf_sub hb, Option.bind_eq_bind, Option.pure_def]
    cases b.u32 mem with
    | none => rfl
    | some l =>
    simp only [Option.bind_some]
    cases b.sub mem 4 ((4 + l) % 2 ^ 32) with
    | none => rfl
    | some s1 =>
    simp only [Option.map_some, Option.bind_some]
    cases b.drop (align ((4 + l) % 2 ^ 32)) <;> rfl
  · intro x r h
    simp only [receive, Option.bind_eq_bind, Option.bind_eq_some_iff, Option.pure_def, Option.some.injEq, Prod.mk.injEq] at h
    obtain ⟨_, -, _, -, _, h5, -, rfl⟩ := h
    exact hb.drop h5

theorem Place.sub_len {mem : Bytes} {b s : Place} {a c : Nat} (h : b.sub mem a c = some s) : (s.bytes mem).length = s.len := by
  unfold Place.sub at h
  split at h
  next e =>
    cases h
    apply Place.length_bytes
    unfold Place.Ok
    dsimp only
    omega
  · cases h

theorem PrefixAt.agrees (mem : Bytes) : Agrees mem (receive mem) PrefixVec.receive (view mem) := by
  intro b hb
  obtain ⟨h1, h2⟩ := RankAt.agrees mem b hb
  refine ⟨?_, ?_⟩
  · simp only [PrefixVec.receive, receive, h1, Option.bind_eq_bind, Option.pure_def]
    cases e1 : RankAt.receive mem b with
    | none => rfl
    | some p =>
    obtain ⟨v, b1⟩ := p
    have hb1 := h2 v b1 e1
    simp only [Option.map_some, Option.bind_some, Place.buf_u32, Place.buf_drop hb1, Place.buf_sub hb1, Place.buf_drop hb]
    cases b1.u32 mem with
    | none => rfl
    | some ol =>
    simp only [Option.bind_some]
    cases e4 : b1.drop 4 with
    | none => rfl
    | some b4 =>
    simp only [Option.map_some, Option.bind_some, Place.buf_u32]
    cases b4.u32 mem with
    | none => rfl
    | some dl =>
    simp only [Option.bind_some]
    cases e5 : b1.sub mem 8 (8 + ol) with
    | none => rfl
    | some s1 =>
    simp only [Option.map_some, Option.bind_some]
    cases e6 : b1.sub mem (8 + ol) (8 + ol + dl) with
    | none => rfl
    | some s2 =>
    simp only [Option.map_some, Option.bind_some, Place.sub_len e5, Place.sub_len e6]
    have : (v.view mem).size32 = v.size := rfl
    rw [this]
    cases b.drop (align (v.size + 8 + (s1.len + s2.len))) <;> rfl
  · intro x r h
    simp only [receive, Option.bind_eq_bind, Option.bind_eq_some_iff, Option.pure_def, Option.some.injEq, Prod.mk.injEq] at h
    obtain ⟨_, -, _, -, _, -, _, -, _, -, _, -, _, h5, -, rfl⟩ := h
    exact hb.drop h5

theorem SuffixAt.agrees (mem : Bytes) : Agrees mem (receive mem) (({} : SuffixVector).receive) (view mem) := by
  intro b hb
  refine ⟨?_, ?_⟩
  · simp only [SuffixVector.receive, SuffixVector.receiveBits, receive, receiveBits, Place.buf_u32, Place.buf_drop hb, Place.buf_sub hb, Option.bind_eq_bind, Option.pure_def]
    cases b.u32 mem with
    | none => rfl
    | some nb =>
    simp only [Option.bind_some]
    show ((b.bytes mem)[4]?).bind _ = _
    cases (b.bytes mem)[4]? with
    | none => rfl
    | some t =>
    simp only [Option.bind_some]
    cases b.drop 5 with
    | none => rfl
    | some b5 =>
    simp only [Option.map_some, Option.bind_some, Place.buf_u32]
    cases b5.u32 mem with
    | none => rfl
    | some hl =>
    simp only [Option.bind_some]
    cases b.drop 9 with
    | none => rfl
    | some b9 =>
    simp only [Option.map_some, Option.bind_some, Place.buf_u32]
    cases b9.u32 mem with
    | none => rfl
    | some rl =>
    simp only [Option.bind_some]
    generalize numWordsOf nb * 8 % 2 ^ 32 = u
    by_cases ht : SuffixType.ofAny t ≠ .none
    · simp only [if_pos ht]
      cases b.sub mem 13 (13 + u) with
      | none => rfl
      | some s1 =>
      simp only [Option.map_some, Option.bind_some]
      cases b.drop (align (13 + u)) <;> rfl
    · simp only [if_neg ht, Option.bind_some]
      cases b.drop (align 13) with
      | none => rfl
      | some r =>
        show some _ = some _
        congr 2
  · intro x r h
    simp only [receive, Option.bind_eq_bind, Option.bind_eq_some_iff, Option.pure_def, Option.some.injEq, Prod.mk.injEq] at h
    obtain ⟨_, -, _, -, _, -, _, -, _, -, _, -, _, -, _, -, _, h5, -, rfl⟩ := h
    exact hb.drop h5

/-- One more vector. -/
theorem Agrees.step {α β γ δ : Type} {mem : Bytes} {f : Place → Option (α × Place)} {g : Buf → Option (β × Buf)} {view : α → β} (h : Agrees mem f g view) {b : Place} (hb : b.Ok mem)
    {k : α × Place → Option γ} {k' : β × Buf → Option δ} {F : γ → δ} (hk : ∀ x r, f b = some (x, r) → r.Ok mem → k' (view x, r.buf mem) = (k (x, r)).map F) :
    (g (b.buf mem)).bind k' = ((f b).bind k).map F := by
  obtain ⟨h1, h2⟩ := h b hb
  rw [h1]
  cases e : f b with
  | none => rfl
  | some p =>
    obtain ⟨x, r⟩ := p
    exact hk x r e (h2 x r e)

theorem DenseAt.agrees (mem : Bytes) : Agrees mem (receive mem) (({} : LoudsDense).receive) (view mem) := by
  intro b hb
  refine ⟨?_, ?_⟩
  · simp only [LoudsDense.receive, receive, Place.buf_u32, Place.buf_drop hb, Option.bind_eq_bind, Option.pure_def]
    cases b.u32 mem with
    | none => rfl
    | some ht =>
    simp only [Option.bind_some]
    cases e1 : b.drop 4 with
    | none => rfl
    | some b1 =>
    simp only [Option.map_some, Option.bind_some]
    refine (RankAt.agrees mem).step (hb.drop e1) fun x1 r1 _ o1 => ?_
    refine (RankAt.agrees mem).step o1 fun x2 r2 _ o2 => ?_
    refine (RankAt.agrees mem).step o2 fun x3 r3 _ o3 => ?_
    refine (SuffixAt.agrees mem).step o3 fun x4 r4 _ o4 => ?_
    refine (PrefixAt.agrees mem).step o4 fun x5 r5 _ o5 => ?_
    have e2 : (b.buf mem).data.length - (r5.buf mem).data.length = b.len - r5.len := by
      show (b.bytes mem).length - (r5.bytes mem).length = _
      rw [Place.length_bytes hb, Place.length_bytes o5]
    simp only [e2]
    cases b.drop (align (b.len - r5.len)) <;> rfl
  · intro x r h
    unfold receive at h
    iterate 2 obtain ⟨_, -, h⟩ := Option.bind_eq_some_iff.mp h
    iterate 5 obtain ⟨⟨_, _⟩, -, h⟩ := Option.bind_eq_some_iff.mp h
    obtain ⟨_, h5, h⟩ := Option.bind_eq_some_iff.mp h
    cases h
    exact hb.drop h5

theorem step_u32 {γ δ : Type} {mem : Bytes} {b : Place} {k : Nat → Option γ} {k' : Nat → Option δ} {F : γ → δ} (hk : ∀ n, k' n = (k n).map F) :
    (b.buf mem).u32.bind k' = ((b.u32 mem).bind k).map F := by
  rw [Place.buf_u32]
  cases b.u32 mem with
  | none => rfl
  | some n => exact hk n

theorem step_drop {γ δ : Type} {mem : Bytes} {b : Place} (hb : b.Ok mem) {a : Nat} {k : Place → Option γ} {k' : Buf → Option δ} {F : γ → δ} (hk : ∀ r, r.Ok mem → k' (r.buf mem) = (k r).map F) :
    ((b.buf mem).drop a).bind k' = ((b.drop a).bind k).map F := by
  rw [Place.buf_drop hb]
  cases e : b.drop a with
  | none => rfl
  | some r => exact hk r (hb.drop e)

theorem SparseAt.agrees (mem : Bytes) : Agrees mem (receive mem) (({} : LoudsSparse).receive) (view mem) := by
  intro b hb
  refine ⟨?_, ?_⟩
  · unfold LoudsSparse.receive receive
    refine step_u32 fun ht => ?_
    refine step_drop hb fun b1 hb1 => ?_
    refine step_u32 fun sl => ?_
    refine step_drop hb1 fun b2 hb2 => ?_
    refine step_u32 fun nc => ?_
    refine step_drop hb2 fun b3 hb3 => ?_
    refine step_u32 fun cc => ?_
    refine step_drop hb3 fun b4 hb4 => ?_
    refine (LabelAt.agrees mem).step hb4 fun x1 r1 _ o1 => ?_
    refine (RankAt.agrees mem).step o1 fun x2 r2 _ o2 => ?_
    refine (SelectAt.agrees mem).step o2 fun x3 r3 _ o3 => ?_
    refine (SuffixAt.agrees mem).step o3 fun x4 r4 _ o4 => ?_
    refine (PrefixAt.agrees mem).step o4 fun x5 r5 _ o5 => ?_
    have e2 : (b.buf mem).data.length - (r5.buf mem).data.length = b.len - r5.len := by
      show (b.bytes mem).length - (r5.bytes mem).length = _
      rw [Place.length_bytes hb, Place.length_bytes o5]
    show ((b.buf mem).drop (align ((b.buf mem).data.length - (r5.buf mem).data.length))).bind _ = _
    rw [e2]
    exact step_drop hb fun r _ => rfl
  · intro x r h
    unfold receive at h
    iterate 8 obtain ⟨_, -, h⟩ := Option.bind_eq_some_iff.mp h
    iterate 5 obtain ⟨⟨_, _⟩, -, h⟩ := Option.bind_eq_some_iff.mp h
    obtain ⟨_, h5, h⟩ := Option.bind_eq_some_iff.mp h
    cases h
    exact hb.drop h5

/-- `Unmarshal` with slices in memory does what `Verif.Surf.Receive` says, and panics on the same slices. -/
theorem FilterAt.agrees (d spare : Bytes) : SuRF.receive ⟨{}, {}⟩ ⟨d, spare⟩ = (receive (d ++ spare) d.length).map (view (d ++ spare)) := by
  have hb : (⟨0, d.length⟩ : Place).Ok (d ++ spare) := by unfold Place.Ok; simp
  have e : (⟨d, spare⟩ : Buf) = (⟨0, d.length⟩ : Place).buf (d ++ spare) := by
    unfold Place.buf Place.bytes
    simp
  rw [e]
  simp only [SuRF.receive, receive, Option.bind_eq_bind, Option.pure_def]
  refine (DenseAt.agrees _).step hb fun x1 r1 _ o1 => ?_
  refine (SparseAt.agrees _).step o1 fun x2 r2 _ o2 => ?_
  refine (ValueAt.agrees _).step o2 fun x3 r3 _ o3 => ?_
  refine (ValueAt.agrees _).step o3 fun x4 r4 _ o4 => rfl

/-! ## Where the arrays are -/

/-- The arrays lie one behind the other between `lo` and `hi`. -/
def Chain (lo : Nat) : List Area → Nat → Prop
  | [], hi => lo ≤ hi
  | a :: as, hi => lo ≤ a.at_.off ∧ Chain (a.at_.off + a.at_.len) as hi

theorem Chain.le {as : List Area} : ∀ {lo hi : Nat}, Chain lo as hi → lo ≤ hi := by
  induction as with
  | nil => exact fun h => h
  | cons a as ih =>
    intro lo hi h
    have := ih h.2
    have := h.1
    omega

theorem Chain.mono {as : List Area} : ∀ {lo lo' hi hi' : Nat}, Chain lo as hi → lo' ≤ lo → hi ≤ hi' → Chain lo' as hi' := by
  induction as with
  | nil => intro lo lo' hi hi' h h1 h2; have h : lo ≤ hi := h; show lo' ≤ hi'; omega
  | cons a as ih => exact fun h h1 h2 => ⟨Nat.le_trans h1 h.1, ih h.2 (Nat.le_refl _) h2⟩

theorem Chain.append {as bs : List Area} : ∀ {lo mid hi : Nat}, Chain lo as mid → Chain mid bs hi → Chain lo (as ++ bs) hi := by
  induction as with
  | nil => exact fun h1 h2 => h2.mono h1 (Nat.le_refl _)
  | cons a as ih => exact fun h1 h2 => ⟨h1.1, ih h1.2 h2⟩

theorem Chain.mem {as : List Area} : ∀ {lo hi : Nat}, Chain lo as hi → ∀ a ∈ as, lo ≤ a.at_.off ∧ a.at_.off + a.at_.len ≤ hi := by
  induction as with
  | nil => intro lo hi _ a ha; cases ha
  | cons x as ih =>
    intro lo hi h a ha
    rcases List.mem_cons.mp ha with rfl | ha
    · exact ⟨h.1, h.2.le⟩
    · have := ih h.2 a ha
      have := h.1
      omega

theorem Chain.apart {as : List Area} : ∀ {lo hi : Nat}, Chain lo as hi → as.Pairwise fun a b => a.at_.off + a.at_.len ≤ b.at_.off := by
  induction as with
  | nil => exact fun _ => List.Pairwise.nil
  | cons x as ih => exact fun h => List.Pairwise.cons (fun b hb => (h.2.mem b hb).1) (ih h.2)

/-- What `Unmarshal` of one part does: it takes a multiple of eight bytes, and its arrays are there. -/
def Takes {α : Type} (f : Place → Option (α × Place)) (areas : α → List Area) (P : Nat → α → Prop) : Prop :=
  ∀ b x r, f b = some (x, r) → r.off + r.len = b.off + b.len ∧ b.off ≤ r.off ∧ r.off % 8 = b.off % 8 ∧ Chain b.off (areas x) r.off ∧ P b.off x

theorem ValueAt.takes (mem : Bytes) : Takes (receive mem) areas (fun _ _ => True) := by
  intro b x r h
  simp only [receive, Option.bind_eq_bind, Option.bind_eq_some_iff, Option.pure_def, Option.some.injEq, Prod.mk.injEq] at h
  obtain ⟨sz, -, _, -, _, -, s, h4, _, h5, rfl, rfl⟩ := h
  obtain ⟨a1, a2, a3⟩ := Place.sub_some h4
  obtain ⟨b1, b2, b3⟩ := Place.drop_some h5
  have := align_mod (8 + sz)
  have := align_le (8 + sz)
  refine ⟨by omega, by omega, by omega, ⟨?_, ?_⟩, trivial⟩
  · dsimp only; omega
  · show s.off + s.len ≤ _; omega

theorem LabelAt.takes (mem : Bytes) : Takes (receive mem) areas (fun _ _ => True) := by
  intro b x r h
  simp only [receive, Option.bind_eq_bind, Option.bind_eq_some_iff, Option.pure_def, Option.some.injEq, Prod.mk.injEq] at h
  obtain ⟨l, -, s, h4, _, h5, rfl, rfl⟩ := h
  generalize (4 + l) % 2 ^ 32 = u at h4 h5
  obtain ⟨a1, a2, a3⟩ := Place.sub_some h4
  obtain ⟨b1, b2, b3⟩ := Place.drop_some h5
  have := align_mod u
  have := align_le u
  refine ⟨by omega, by omega, by omega, ⟨?_, ?_⟩, trivial⟩
  · dsimp only; omega
  · show s.off + s.len ≤ _; omega

theorem SelectAt.takes (mem : Bytes) : Takes (receive mem) areas (fun o v => v.bits.off = o + 8 ∧ v.lut.off = v.bits.off + v.bits.len ∧ v.bits.len % 8 = 0) := by
  intro b x r h
  simp only [receive, Option.bind_eq_bind, Option.bind_eq_some_iff, Option.pure_def, Option.some.injEq, Prod.mk.injEq] at h
  obtain ⟨nb, -, _, -, no, -, s, h4, s', h6, _, h5, rfl, rfl⟩ := h
  have hu : (numWordsOf nb * 8 % 2 ^ 32) % 8 = 0 := by omega
  generalize numWordsOf nb * 8 % 2 ^ 32 = u at *
  generalize (no / selectSampleInterval + 1) * 4 % 2 ^ 32 = w at *
  obtain ⟨a1, a2, a3⟩ := Place.sub_some h4
  obtain ⟨c1, c2, c3⟩ := Place.sub_some h6
  obtain ⟨b1, b2, b3⟩ := Place.drop_some h5
  have := align_mod (8 + u + w)
  have := align_le (8 + u + w)
  refine ⟨by omega, by omega, by omega, ⟨?_, ?_, ?_⟩, ?_, ?_, ?_⟩
  · dsimp only; omega
  · dsimp only; omega
  · show s'.off + s'.len ≤ _; omega
  · dsimp only; omega
  · dsimp only; omega
  · dsimp only; omega

theorem RankAt.takes' {mem : Bytes} {b r : Place} {x : RankAt} (h : receive mem b = some (x, r)) :
    x.bits.off = b.off + 8 ∧ x.lut.off = x.bits.off + x.bits.len ∧ x.bits.len % 8 = 0 ∧ x.bits.len = numWordsOf x.numBits * 8 % 2 ^ 32 ∧ x.lut.off + x.lut.len ≤ r.off ∧ r.off = b.off + x.size ∧ x.size ≤ b.len ∧ r.len = b.len - x.size := by
  simp only [receive, Option.bind_eq_bind, Option.bind_eq_some_iff, Option.pure_def, Option.some.injEq, Prod.mk.injEq] at h
  obtain ⟨nb, -, _, -, bs, -, s, h4, h⟩ := h
  split at h
  · simp at h
  · simp only [Option.bind_eq_some_iff, Option.some.injEq, Prod.mk.injEq] at h
    obtain ⟨s', h6, _, h5, rfl, rfl⟩ := h
    show _ ∧ _ ∧ _ ∧ _ ∧ _ ∧ _ = b.off + align (8 + numWordsOf nb * 8 % 2 ^ 32 + (nb / bs + 1) * 4 % 2 ^ 32) ∧ align (8 + numWordsOf nb * 8 % 2 ^ 32 + (nb / bs + 1) * 4 % 2 ^ 32) ≤ _ ∧
      _ = b.len - align (8 + numWordsOf nb * 8 % 2 ^ 32 + (nb / bs + 1) * 4 % 2 ^ 32)
    have hu : (numWordsOf nb * 8 % 2 ^ 32) % 8 = 0 := by omega
    dsimp only
    generalize numWordsOf nb * 8 % 2 ^ 32 = u at *
    generalize (nb / bs + 1) * 4 % 2 ^ 32 = w at *
    obtain ⟨a1, a2, a3⟩ := Place.sub_some h4
    obtain ⟨c1, c2, c3⟩ := Place.sub_some h6
    obtain ⟨b1, b2, b3⟩ := Place.drop_some h5
    have := align_le (8 + u + w)
    omega

theorem RankAt.takes (mem : Bytes) : Takes (receive mem) areas (fun o v => v.bits.off = o + 8 ∧ v.lut.off = v.bits.off + v.bits.len ∧ v.bits.len % 8 = 0) := by
  intro b x r h
  obtain ⟨h1, h2, h3, -, h4, h5, h6, h7⟩ := takes' h
  have : x.size % 8 = 0 := align_mod _
  refine ⟨by omega, by omega, by omega, ⟨?_, ?_, ?_⟩, h1, h2, h3⟩
  · dsimp only; omega
  · dsimp only; omega
  · exact h4

theorem PrefixAt.takes (mem : Bytes) : Takes (receive mem) areas (fun o v => v.has.bits.off = o + 8 ∧ v.has.lut.off = v.has.bits.off + v.has.bits.len ∧ v.has.bits.len % 8 = 0) := by
  intro b x r h
  simp only [receive, Option.bind_eq_bind, Option.bind_eq_some_iff, Option.pure_def, Option.some.injEq, Prod.mk.injEq] at h
  obtain ⟨⟨v, b1⟩, h1, ol, -, _, -, dl, -, s, h4, s', h6, _, h5, rfl, rfl⟩ := h
  dsimp only at h4 h5 h6 ⊢
  obtain ⟨g1, g2, g3, -, g4, g5, g6, g7⟩ := RankAt.takes' h1
  obtain ⟨a1, a2, a3⟩ := Place.sub_some h4
  obtain ⟨c1, c2, c3⟩ := Place.sub_some h6
  obtain ⟨d1, d2, d3⟩ := Place.drop_some h5
  have := align_mod (v.size + 8 + (s.len + s'.len))
  have := align_le (v.size + 8 + (s.len + s'.len))
  refine ⟨by omega, by omega, by omega, ⟨?_, ?_, ?_, ?_, ?_⟩, g1, g2, g3⟩
  · dsimp only; omega
  · dsimp only; omega
  · dsimp only; omega
  · dsimp only; omega
  · show s'.off + s'.len ≤ _; omega

theorem SuffixAt.takes (mem : Bytes) : Takes (receive mem) areas (fun o v => (v.suffixType ≠ .none → v.bits.off = o + 13) ∧ (v.suffixType = .none → v.bits.len = 0)) := by
  intro b x r h
  simp only [receive, Option.bind_eq_bind, Option.bind_eq_some_iff, Option.pure_def, Option.some.injEq, Prod.mk.injEq] at h
  obtain ⟨nb, -, t, -, _, rfl, _, -, hl, -, _, -, rl, -, ⟨s, c⟩, h4, _, h5, rfl, rfl⟩ := h
  unfold receiveBits at h4
  generalize numWordsOf nb * 8 % 2 ^ 32 = u at *
  dsimp only at h5 ⊢
  obtain ⟨d1, d2, d3⟩ := Place.drop_some h5
  have := align_mod c
  have := align_le c
  unfold areas
  by_cases ht : SuffixType.ofAny t ≠ .none
  · rw [if_pos ht] at h4 ⊢
    simp only [Option.bind_eq_bind, Option.bind_eq_some_iff, Option.pure_def, Option.some.injEq, Prod.mk.injEq] at h4
    obtain ⟨s1, h4, rfl, rfl⟩ := h4
    obtain ⟨a1, a2, a3⟩ := Place.sub_some h4
    refine ⟨by omega, by omega, by omega, ⟨?_, ?_⟩, fun _ => a2, fun e => absurd e ht⟩
    · dsimp only; omega
    · show s1.off + s1.len ≤ _; omega
  · rw [if_neg ht] at h4 ⊢
    cases h4
    refine ⟨by omega, by omega, by omega, ?_, fun e => absurd e ht, fun _ => rfl⟩
    show b.off ≤ _
    omega

theorem mod_bits {x o k : Nat} (h : x = o + 8) (ho : o % 8 = k % 8) : x % 8 = k % 8 := by omega
theorem mod_lut {x y l o k : Nat} (h : x = o + 8) (h' : y = x + l) (hl : l % 8 = 0) (ho : o % 8 = k % 8) : y % 4 = k % 4 := by omega
theorem mod_suffix {x o k : Nat} (h : x = o + 13) (ho : o % 8 = k % 8) : x % 8 = (k + 5) % 8 := by omega
theorem mod_end {o a b : Nat} (h : a = o + b) (h' : b % 8 = 0) : a % 8 = o % 8 := by omega
theorem end_le {o lo a b r l : Nat} (h : a = o + b) (h' : l - r ≤ b) (e : lo + r = o + l) : lo ≤ a := by omega

theorem DenseAt.takes (mem : Bytes) : Takes (receive mem) areas (fun o v =>
    (∀ x ∈ [v.labelVec, v.hasChildVec, v.isPrefixVec, v.prefixVec.has], x.bits.off % 8 = (o + 4) % 8 ∧ x.lut.off % 4 = o % 4) ∧ (v.suffixes.suffixType ≠ .none → v.suffixes.bits.off % 8 = (o + 1) % 8)) := by
  intro b x r h
  unfold receive at h
  obtain ⟨ht, -, h⟩ := Option.bind_eq_some_iff.mp h
  obtain ⟨b0, e0, h⟩ := Option.bind_eq_some_iff.mp h
  obtain ⟨⟨x1, r1⟩, e1, h⟩ := Option.bind_eq_some_iff.mp h
  obtain ⟨⟨x2, r2⟩, e2, h⟩ := Option.bind_eq_some_iff.mp h
  obtain ⟨⟨x3, r3⟩, e3, h⟩ := Option.bind_eq_some_iff.mp h
  obtain ⟨⟨x4, r4⟩, e4, h⟩ := Option.bind_eq_some_iff.mp h
  obtain ⟨⟨x5, r5⟩, e5, h⟩ := Option.bind_eq_some_iff.mp h
  obtain ⟨_, e6, h⟩ := Option.bind_eq_some_iff.mp h
  cases h
  obtain ⟨p1, p2, p3⟩ := Place.drop_some e0
  obtain ⟨a1, b1, c1, d1, q1⟩ := RankAt.takes mem _ _ _ e1
  obtain ⟨a2, b2, c2, d2, q2⟩ := RankAt.takes mem _ _ _ e2
  obtain ⟨a3, b3, c3, d3, q3⟩ := RankAt.takes mem _ _ _ e3
  obtain ⟨a4, b4, c4, d4, q4⟩ := SuffixAt.takes mem _ _ _ e4
  obtain ⟨a5, b5, c5, d5, q5⟩ := PrefixAt.takes mem _ _ _ e5
  obtain ⟨g1, g2, g3⟩ := Place.drop_some e6
  dsimp only at *
  have am := align_mod (b.len - r5.len)
  have al := align_le (b.len - r5.len)
  have o0 : b0.off % 8 = (b.off + 4) % 8 := by rw [p2]
  have o1 := c1.trans o0
  have o2 := c2.trans o1
  have o3 := c3.trans o2
  have o4 := c4.trans o3
  have hz : r5.off + r5.len = b.off + b.len := by clear q1 q2 q3 q4 q5 o0 o1 o2 o3 o4 c1 c2 c3 c4 c5; omega
  have hs : b.off ≤ b0.off := by rw [p2]; exact Nat.le_add_right _ _
  refine ⟨by clear q1 q2 q3 q4 q5 o0 o1 o2 o3 o4 c1 c2 c3 c4 c5; omega, by rw [g2]; exact Nat.le_add_right _ _, mod_end g2 am,
    (d1.append (d2.append (d3.append (d4.append d5)))).mono hs (end_le g2 al hz), ?_, ?_⟩
  · intro y hy
    simp only [List.mem_cons, List.not_mem_nil, or_false] at hy
    have e4 : (b.off + 4) % 4 = b.off % 4 := by omega
    rcases hy with rfl | rfl | rfl | rfl
    · exact ⟨mod_bits q1.1 o0, (mod_lut q1.1 q1.2.1 q1.2.2 o0).trans e4⟩
    · exact ⟨mod_bits q2.1 o1, (mod_lut q2.1 q2.2.1 q2.2.2 o1).trans e4⟩
    · exact ⟨mod_bits q3.1 o2, (mod_lut q3.1 q3.2.1 q3.2.2 o2).trans e4⟩
    · exact ⟨mod_bits q5.1 o4, (mod_lut q5.1 q5.2.1 q5.2.2 o4).trans e4⟩
  · intro hn
    refine (mod_suffix (q4.1 hn) o3).trans ?_
    omega

theorem SparseAt.takes (mem : Bytes) : Takes (receive mem) areas (fun o v =>
    (∀ x ∈ [v.hasChildVec, v.prefixVec.has], x.bits.off % 8 = o % 8 ∧ x.lut.off % 4 = o % 4) ∧ v.loudsVec.bits.off % 8 = o % 8 ∧ v.loudsVec.lut.off % 4 = o % 4 ∧
      (v.suffixes.suffixType ≠ .none → v.suffixes.bits.off % 8 = (o + 5) % 8)) := by
  intro b x r h
  unfold receive at h
  obtain ⟨_, -, h⟩ := Option.bind_eq_some_iff.mp h
  obtain ⟨y1, e1, h⟩ := Option.bind_eq_some_iff.mp h
  obtain ⟨_, -, h⟩ := Option.bind_eq_some_iff.mp h
  obtain ⟨y2, e2, h⟩ := Option.bind_eq_some_iff.mp h
  obtain ⟨_, -, h⟩ := Option.bind_eq_some_iff.mp h
  obtain ⟨y3, e3, h⟩ := Option.bind_eq_some_iff.mp h
  obtain ⟨_, -, h⟩ := Option.bind_eq_some_iff.mp h
  obtain ⟨y4, e4, h⟩ := Option.bind_eq_some_iff.mp h
  obtain ⟨⟨x1, r1⟩, f1, h⟩ := Option.bind_eq_some_iff.mp h
  obtain ⟨⟨x2, r2⟩, f2, h⟩ := Option.bind_eq_some_iff.mp h
  obtain ⟨⟨x3, r3⟩, f3, h⟩ := Option.bind_eq_some_iff.mp h
  obtain ⟨⟨x4, r4⟩, f4, h⟩ := Option.bind_eq_some_iff.mp h
  obtain ⟨⟨x5, r5⟩, f5, h⟩ := Option.bind_eq_some_iff.mp h
  obtain ⟨_, e6, h⟩ := Option.bind_eq_some_iff.mp h
  cases h
  obtain ⟨p1, p2, p3⟩ := Place.drop_some e1
  obtain ⟨p4, p5, p6⟩ := Place.drop_some e2
  obtain ⟨p7, p8, p9⟩ := Place.drop_some e3
  obtain ⟨p10, p11, p12⟩ := Place.drop_some e4
  obtain ⟨a1, b1, c1, d1, q1⟩ := LabelAt.takes mem _ _ _ f1
  obtain ⟨a2, b2, c2, d2, q2⟩ := RankAt.takes mem _ _ _ f2
  obtain ⟨a3, b3, c3, d3, q3⟩ := SelectAt.takes mem _ _ _ f3
  obtain ⟨a4, b4, c4, d4, q4⟩ := SuffixAt.takes mem _ _ _ f4
  obtain ⟨a5, b5, c5, d5, q5⟩ := PrefixAt.takes mem _ _ _ f5
  obtain ⟨g1, g2, g3⟩ := Place.drop_some e6
  dsimp only at *
  have am := align_mod (b.len - r5.len)
  have al := align_le (b.len - r5.len)
  have p13 : y4.off = b.off + 16 := by rw [p11, p8, p5, p2]
  have o0 : y4.off % 8 = b.off % 8 := by rw [p13]; omega
  have o1 := c1.trans o0
  have o2 := c2.trans o1
  have o3 := c3.trans o2
  have o4 := c4.trans o3
  have hy : y4.off + y4.len = b.off + b.len := by clear q1 q2 q3 q4 q5 o0 o1 o2 o3 o4 c1 c2 c3 c4 c5 a1 a2 a3 a4 a5 b1 b2 b3 b4 b5; omega
  have hz : r5.off + r5.len = b.off + b.len := by rw [a5, a4, a3, a2, a1, hy]
  have hs : b.off ≤ y4.off := by rw [p13]; exact Nat.le_add_right _ _
  refine ⟨by clear q1 q2 q3 q4 q5 o0 o1 o2 o3 o4 c1 c2 c3 c4 c5; omega, by rw [g2]; exact Nat.le_add_right _ _, mod_end g2 am,
    (d1.append (d2.append (d3.append (d4.append d5)))).mono hs (end_le g2 al hz), ?_, mod_bits q3.1 o2, mod_lut q3.1 q3.2.1 q3.2.2 o2, fun hn => mod_suffix (q4.1 hn) o3⟩
  intro y hy
  simp only [List.mem_cons, List.not_mem_nil, or_false] at hy
  rcases hy with rfl | rfl
  · exact ⟨mod_bits q2.1 o1, mod_lut q2.1 q2.2.1 q2.2.2 o1⟩
  · exact ⟨mod_bits q5.1 o4, mod_lut q5.1 q5.2.1 q5.2.2 o4⟩

/-- The arrays lie one behind the other in the slice. -/
theorem FilterAt.chain {mem : Bytes} {n : Nat} {v : FilterAt} (h : receive mem n = some v) : Chain 0 v.areas n := by
  unfold receive at h
  obtain ⟨⟨x1, r1⟩, f1, h⟩ := Option.bind_eq_some_iff.mp h
  obtain ⟨⟨x2, r2⟩, f2, h⟩ := Option.bind_eq_some_iff.mp h
  obtain ⟨⟨x3, r3⟩, f3, h⟩ := Option.bind_eq_some_iff.mp h
  obtain ⟨⟨x4, r4⟩, f4, h⟩ := Option.bind_eq_some_iff.mp h
  cases h
  obtain ⟨a1, b1, c1, d1, -⟩ := DenseAt.takes mem _ _ _ f1
  obtain ⟨a2, b2, c2, d2, -⟩ := SparseAt.takes mem _ _ _ f2
  obtain ⟨a3, b3, c3, d3, -⟩ := ValueAt.takes mem _ _ _ f3
  obtain ⟨a4, b4, c4, d4, -⟩ := ValueAt.takes mem _ _ _ f4
  dsimp only at *
  exact (d1.append (d2.append (d3.append d4))).mono (Nat.le_refl _) (by omega)

/-! ## A longer slice -/

/-- Does the same with a longer slice. -/
def Longer {α : Type} (mem : Bytes) (f : Place → Option (α × Place)) : Prop := ∀ b x r m, f b = some (x, r) → b.off + b.len + m ≤ mem.length → f ⟨b.off, b.len + m⟩ = some (x, ⟨r.off, r.len + m⟩)

namespace Place

theorem bytes_longer (mem : Bytes) (b : Place) (m : Nat) : bytes mem ⟨b.off, b.len + m⟩ = b.bytes mem ++ ((mem.drop b.off).drop b.len).take m := by
  unfold bytes
  exact List.take_add

theorem u32_longer {mem : Bytes} {b : Place} {n : Nat} (h : b.u32 mem = some n) (m : Nat) : u32 mem ⟨b.off, b.len + m⟩ = some n := by
  unfold u32
  rw [bytes_longer]
  exact Buf.u32_app (sp := []) (sp' := []) h

theorem drop_longer {b r : Place} {a : Nat} (h : b.drop a = some r) (m : Nat) : drop ⟨b.off, b.len + m⟩ a = some ⟨r.off, r.len + m⟩ := by
  obtain ⟨h1, h2, h3⟩ := drop_some h
  unfold drop
  dsimp only
  rw [if_pos (by omega), h2, h3]
  congr 2
  omega

end Place

theorem ValueAt.longer (mem : Bytes) : Longer mem (receive mem) := by
  intro b x r m h _
  unfold receive at h ⊢
  obtain ⟨_, e1, h⟩ := Option.bind_eq_some_iff.mp h
  obtain ⟨_, e2, h⟩ := Option.bind_eq_some_iff.mp h
  obtain ⟨_, e3, h⟩ := Option.bind_eq_some_iff.mp h
  obtain ⟨_, e4, h⟩ := Option.bind_eq_some_iff.mp h
  obtain ⟨_, e5, h⟩ := Option.bind_eq_some_iff.mp h
  cases h
  refine Option.bind_eq_some_iff.mpr ⟨_, Place.u32_longer e1 m, Option.bind_eq_some_iff.mpr ⟨_, Place.drop_longer e2 m, Option.bind_eq_some_iff.mpr ⟨_, Place.u32_longer e3 m, ?_⟩⟩⟩
  exact Option.bind_eq_some_iff.mpr ⟨_, e4, Option.bind_eq_some_iff.mpr ⟨_, Place.drop_longer e5 m, rfl⟩⟩

theorem LabelAt.longer (mem : Bytes) : Longer mem (receive mem) := by
  intro b x r m h _
  unfold receive at h ⊢
  obtain ⟨_, e1, h⟩ := Option.bind_eq_some_iff.mp h
  obtain ⟨_, e4, h⟩ := Option.bind_eq_some_iff.mp h
  obtain ⟨_, e5, h⟩ := Option.bind_eq_some_iff.mp h
  cases h
  exact Option.bind_eq_some_iff.mpr ⟨_, Place.u32_longer e1 m, Option.bind_eq_some_iff.mpr ⟨_, e4, Option.bind_eq_some_iff.mpr ⟨_, Place.drop_longer e5 m, rfl⟩⟩⟩

theorem SelectAt.longer (mem : Bytes) : Longer mem (receive mem) := by
  intro b x r m h _
  unfold receive at h ⊢
  obtain ⟨_, e1, h⟩ := Option.bind_eq_some_iff.mp h
  obtain ⟨_, e2, h⟩ := Option.bind_eq_some_iff.mp h
  obtain ⟨_, e3, h⟩ := Option.bind_eq_some_iff.mp h
  obtain ⟨_, e4, h⟩ := Option.bind_eq_some_iff.mp h
  obtain ⟨_, e6, h⟩ := Option.bind_eq_some_iff.mp h
  obtain ⟨_, e5, h⟩ := Option.bind_eq_some_iff.mp h
  cases h
  refine Option.bind_eq_some_iff.mpr ⟨_, Place.u32_longer e1 m, Option.bind_eq_some_iff.mpr ⟨_, Place.drop_longer e2 m, Option.bind_eq_some_iff.mpr ⟨_, Place.u32_longer e3 m, ?_⟩⟩⟩
  exact Option.bind_eq_some_iff.mpr ⟨_, e4, Option.bind_eq_some_iff.mpr ⟨_, e6, Option.bind_eq_some_iff.mpr ⟨_, Place.drop_longer e5 m, rfl⟩⟩⟩

theorem RankAt.longer (mem : Bytes) : Longer mem (receive mem) := by
  intro b x r m h _
  unfold receive at h ⊢
  obtain ⟨_, e1, h⟩ := Option.bind_eq_some_iff.mp h
  obtain ⟨_, e2, h⟩ := Option.bind_eq_some_iff.mp h
  obtain ⟨bs, e3, h⟩ := Option.bind_eq_some_iff.mp h
  obtain ⟨_, e4, h⟩ := Option.bind_eq_some_iff.mp h
  refine Option.bind_eq_some_iff.mpr ⟨_, Place.u32_longer e1 m, Option.bind_eq_some_iff.mpr ⟨_, Place.drop_longer e2 m, Option.bind_eq_some_iff.mpr ⟨_, Place.u32_longer e3 m, Option.bind_eq_some_iff.mpr ⟨_, e4, ?_⟩⟩⟩⟩
  by_cases hz : bs = 0
  · simp only [hz, if_true] at h
    simp at h
  · simp only [hz, if_false] at h ⊢
    obtain ⟨_, e6, h⟩ := Option.bind_eq_some_iff.mp h
    obtain ⟨_, e5, h⟩ := Option.bind_eq_some_iff.mp h
    cases h
    exact Option.bind_eq_some_iff.mpr ⟨_, e6, Option.bind_eq_some_iff.mpr ⟨_, Place.drop_longer e5 m, rfl⟩⟩

theorem PrefixAt.longer (mem : Bytes) : Longer mem (receive mem) := by
  intro b x r m h hm
  unfold receive at h ⊢
  obtain ⟨⟨v, b1⟩, e0, h⟩ := Option.bind_eq_some_iff.mp h
  obtain ⟨_, e1, h⟩ := Option.bind_eq_some_iff.mp h
  obtain ⟨_, e2, h⟩ := Option.bind_eq_some_iff.mp h
  obtain ⟨_, e3, h⟩ := Option.bind_eq_some_iff.mp h
  obtain ⟨_, e4, h⟩ := Option.bind_eq_some_iff.mp h
  obtain ⟨_, e6, h⟩ := Option.bind_eq_some_iff.mp h
  obtain ⟨_, e5, h⟩ := Option.bind_eq_some_iff.mp h
  cases h
  refine Option.bind_eq_some_iff.mpr ⟨_, RankAt.longer mem _ _ _ m e0 hm, ?_⟩
  refine Option.bind_eq_some_iff.mpr ⟨_, Place.u32_longer e1 m, Option.bind_eq_some_iff.mpr ⟨_, Place.drop_longer e2 m, Option.bind_eq_some_iff.mpr ⟨_, Place.u32_longer e3 m, ?_⟩⟩⟩
  exact Option.bind_eq_some_iff.mpr ⟨_, e4, Option.bind_eq_some_iff.mpr ⟨_, e6, Option.bind_eq_some_iff.mpr ⟨_, Place.drop_longer e5 m, rfl⟩⟩⟩

theorem SuffixAt.longer (mem : Bytes) : Longer mem (receive mem) := by
  intro b x r m h _
  unfold receive at h ⊢
  obtain ⟨_, e1, h⟩ := Option.bind_eq_some_iff.mp h
  obtain ⟨t, e2, h⟩ := Option.bind_eq_some_iff.mp h
  obtain ⟨_, e3, h⟩ := Option.bind_eq_some_iff.mp h
  obtain ⟨_, e4, h⟩ := Option.bind_eq_some_iff.mp h
  obtain ⟨_, e5, h⟩ := Option.bind_eq_some_iff.mp h
  obtain ⟨_, e6, h⟩ := Option.bind_eq_some_iff.mp h
  obtain ⟨_, e7, h⟩ := Option.bind_eq_some_iff.mp h
  obtain ⟨⟨s, c⟩, e8, h⟩ := Option.bind_eq_some_iff.mp h
  obtain ⟨_, e9, h⟩ := Option.bind_eq_some_iff.mp h
  cases h
  have e2' : (Place.bytes mem ⟨b.off, b.len + m⟩)[4]? = some t := by
    rw [Place.bytes_longer, List.getElem?_append_left (List.getElem?_eq_some_iff.mp e2).1]
    exact e2
  refine Option.bind_eq_some_iff.mpr ⟨_, Place.u32_longer e1 m, Option.bind_eq_some_iff.mpr ⟨_, e2', Option.bind_eq_some_iff.mpr ⟨_, e3, ?_⟩⟩⟩
  refine Option.bind_eq_some_iff.mpr ⟨_, Place.drop_longer e4 m, Option.bind_eq_some_iff.mpr ⟨_, Place.u32_longer e5 m, Option.bind_eq_some_iff.mpr ⟨_, Place.drop_longer e6 m, ?_⟩⟩⟩
  exact Option.bind_eq_some_iff.mpr ⟨_, Place.u32_longer e7 m, Option.bind_eq_some_iff.mpr ⟨_, e8, Option.bind_eq_some_iff.mpr ⟨_, Place.drop_longer e9 m, rfl⟩⟩⟩

theorem DenseAt.longer (mem : Bytes) : Longer mem (receive mem) := by
  intro b x r m h hm
  unfold receive at h ⊢
  obtain ⟨ht, f1, h⟩ := Option.bind_eq_some_iff.mp h
  obtain ⟨b0, e0, h⟩ := Option.bind_eq_some_iff.mp h
  obtain ⟨⟨x1, r1⟩, e1, h⟩ := Option.bind_eq_some_iff.mp h
  obtain ⟨⟨x2, r2⟩, e2, h⟩ := Option.bind_eq_some_iff.mp h
  obtain ⟨⟨x3, r3⟩, e3, h⟩ := Option.bind_eq_some_iff.mp h
  obtain ⟨⟨x4, r4⟩, e4, h⟩ := Option.bind_eq_some_iff.mp h
  obtain ⟨⟨x5, r5⟩, e5, h⟩ := Option.bind_eq_some_iff.mp h
  obtain ⟨_, e6, h⟩ := Option.bind_eq_some_iff.mp h
  cases h
  obtain ⟨p1, p2, p3⟩ := Place.drop_some e0
  obtain ⟨a1, b1, -, -, -⟩ := RankAt.takes mem _ _ _ e1
  obtain ⟨a2, b2, -, -, -⟩ := RankAt.takes mem _ _ _ e2
  obtain ⟨a3, b3, -, -, -⟩ := RankAt.takes mem _ _ _ e3
  obtain ⟨a4, b4, -, -, -⟩ := SuffixAt.takes mem _ _ _ e4
  obtain ⟨a5, b5, -, -, -⟩ := PrefixAt.takes mem _ _ _ e5
  dsimp only at *
  refine Option.bind_eq_some_iff.mpr ⟨_, Place.u32_longer f1 m, Option.bind_eq_some_iff.mpr ⟨_, Place.drop_longer e0 m, ?_⟩⟩
  refine Option.bind_eq_some_iff.mpr ⟨_, RankAt.longer mem _ _ _ m e1 (by omega), Option.bind_eq_some_iff.mpr ⟨_, RankAt.longer mem _ _ _ m e2 (by omega), ?_⟩⟩
  refine Option.bind_eq_some_iff.mpr ⟨_, RankAt.longer mem _ _ _ m e3 (by omega), Option.bind_eq_some_iff.mpr ⟨_, SuffixAt.longer mem _ _ _ m e4 (by omega), ?_⟩⟩
  refine Option.bind_eq_some_iff.mpr ⟨_, PrefixAt.longer mem _ _ _ m e5 (by omega), ?_⟩
  have e7 : b.len + m - (r5.len + m) = b.len - r5.len := by omega
  dsimp only
  rw [e7]
  exact Option.bind_eq_some_iff.mpr ⟨_, Place.drop_longer e6 m, rfl⟩

theorem SparseAt.longer (mem : Bytes) : Longer mem (receive mem) := by
  intro b x r m h hm
  unfold receive at h ⊢
  obtain ⟨_, g1, h⟩ := Option.bind_eq_some_iff.mp h
  obtain ⟨y1, e1, h⟩ := Option.bind_eq_some_iff.mp h
  obtain ⟨_, g2, h⟩ := Option.bind_eq_some_iff.mp h
  obtain ⟨y2, e2, h⟩ := Option.bind_eq_some_iff.mp h
  obtain ⟨_, g3, h⟩ := Option.bind_eq_some_iff.mp h
  obtain ⟨y3, e3, h⟩ := Option.bind_eq_some_iff.mp h
  obtain ⟨_, g4, h⟩ := Option.bind_eq_some_iff.mp h
  obtain ⟨y4, e4, h⟩ := Option.bind_eq_some_iff.mp h
  obtain ⟨⟨x1, r1⟩, f1, h⟩ := Option.bind_eq_some_iff.mp h
  obtain ⟨⟨x2, r2⟩, f2, h⟩ := Option.bind_eq_some_iff.mp h
  obtain ⟨⟨x3, r3⟩, f3, h⟩ := Option.bind_eq_some_iff.mp h
  obtain ⟨⟨x4, r4⟩, f4, h⟩ := Option.bind_eq_some_iff.mp h
  obtain ⟨⟨x5, r5⟩, f5, h⟩ := Option.bind_eq_some_iff.mp h
  obtain ⟨_, e6, h⟩ := Option.bind_eq_some_iff.mp h
  cases h
  obtain ⟨p1, p2, p3⟩ := Place.drop_some e1
  obtain ⟨p4, p5, p6⟩ := Place.drop_some e2
  obtain ⟨p7, p8, p9⟩ := Place.drop_some e3
  obtain ⟨p10, p11, p12⟩ := Place.drop_some e4
  obtain ⟨a1, b1, -, -, -⟩ := LabelAt.takes mem _ _ _ f1
  obtain ⟨a2, b2, -, -, -⟩ := RankAt.takes mem _ _ _ f2
  obtain ⟨a3, b3, -, -, -⟩ := SelectAt.takes mem _ _ _ f3
  obtain ⟨a4, b4, -, -, -⟩ := SuffixAt.takes mem _ _ _ f4
  obtain ⟨a5, b5, -, -, -⟩ := PrefixAt.takes mem _ _ _ f5
  dsimp only at *
  refine Option.bind_eq_some_iff.mpr ⟨_, Place.u32_longer g1 m, Option.bind_eq_some_iff.mpr ⟨_, Place.drop_longer e1 m, ?_⟩⟩
  refine Option.bind_eq_some_iff.mpr ⟨_, Place.u32_longer g2 m, Option.bind_eq_some_iff.mpr ⟨_, Place.drop_longer e2 m, ?_⟩⟩
  refine Option.bind_eq_some_iff.mpr ⟨_, Place.u32_longer g3 m, Option.bind_eq_some_iff.mpr ⟨_, Place.drop_longer e3 m, ?_⟩⟩
  refine Option.bind_eq_some_iff.mpr ⟨_, Place.u32_longer g4 m, Option.bind_eq_some_iff.mpr ⟨_, Place.drop_longer e4 m, ?_⟩⟩
  refine Option.bind_eq_some_iff.mpr ⟨_, LabelAt.longer mem _ _ _ m f1 (by omega), Option.bind_eq_some_iff.mpr ⟨_, RankAt.longer mem _ _ _ m f2 (by omega), ?_⟩⟩
  refine Option.bind_eq_some_iff.mpr ⟨_, SelectAt.longer mem _ _ _ m f3 (by omega), Option.bind_eq_some_iff.mpr ⟨_, SuffixAt.longer mem _ _ _ m f4 (by omega), ?_⟩⟩
  refine Option.bind_eq_some_iff.mpr ⟨_, PrefixAt.longer mem _ _ _ m f5 (by omega), ?_⟩
  have e7 : b.len + m - (r5.len + m) = b.len - r5.len := by omega
  dsimp only
  rw [e7]
  exact Option.bind_eq_some_iff.mpr ⟨_, Place.drop_longer e6 m, rfl⟩

/-- A longer slice gives the same filter, in the same places. -/
theorem FilterAt.longer {mem : Bytes} {n n' : Nat} {v : FilterAt} (h : receive mem n = some v) (hn : n ≤ n') (hm : n' ≤ mem.length) : receive mem n' = some v := by
  obtain ⟨m, rfl⟩ := Nat.exists_eq_add_of_le hn
  unfold receive at h ⊢
  obtain ⟨⟨x1, r1⟩, f1, h⟩ := Option.bind_eq_some_iff.mp h
  obtain ⟨⟨x2, r2⟩, f2, h⟩ := Option.bind_eq_some_iff.mp h
  obtain ⟨⟨x3, r3⟩, f3, h⟩ := Option.bind_eq_some_iff.mp h
  obtain ⟨⟨x4, r4⟩, f4, h⟩ := Option.bind_eq_some_iff.mp h
  cases h
  obtain ⟨a1, b1, -, -, -⟩ := DenseAt.takes mem _ _ _ f1
  obtain ⟨a2, b2, -, -, -⟩ := SparseAt.takes mem _ _ _ f2
  obtain ⟨a3, b3, -, -, -⟩ := ValueAt.takes mem _ _ _ f3
  dsimp only at *
  refine Option.bind_eq_some_iff.mpr ⟨_, DenseAt.longer mem ⟨0, n⟩ _ _ m f1 (by dsimp only; omega), Option.bind_eq_some_iff.mpr ⟨_, SparseAt.longer mem _ _ _ m f2 (by omega), ?_⟩⟩
  exact Option.bind_eq_some_iff.mpr ⟨_, ValueAt.longer mem _ _ _ m f3 (by omega), Option.bind_eq_some_iff.mpr ⟨_, ValueAt.longer mem _ _ _ m f4 (by omega), rfl⟩⟩

end Surf
