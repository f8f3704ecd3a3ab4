import Verif.Common
import Verif.Surf.Marshal
import Verif.Surf.MiscLemmas

/-! Proofs about marshalling. -/

set_option linter.unusedSimpArgs false

namespace Surf

/-! ### Encoders -/

theorem le64_length (w : Word) : (le64 w).length = 8 := rfl

theorem u64SliceToBytes_length (u : List Word) : (u64SliceToBytes u).length = 8 * u.length := by
  induction u with
  | nil => rfl
  | cons a u ih => simp only [u64SliceToBytes] at ih; simp only [u64SliceToBytes, List.flatMap_cons, List.length_append, ih, le64_length, List.length_cons]; omega

theorem u32SliceToBytes_length (u : List Nat) : (u32SliceToBytes u).length = 4 * u.length := by
  induction u with
  | nil => rfl
  | cons a u ih => simp only [u32SliceToBytes] at ih; simp only [u32SliceToBytes, List.flatMap_cons, List.length_append, ih, putUint32_length, List.length_cons]; omega

theorem toNat_ofNat8 (n : Nat) : (UInt8.ofNat n).toNat = n % 256 := by simp

theorem bytes_digits (n : Nat) (h : n < 18446744073709551616) :
    n % 256 + 2 ^ 8 * (n / 2 ^ 8 % 256) + 2 ^ 16 * (n / 2 ^ 16 % 256) + 2 ^ 24 * (n / 2 ^ 24 % 256) +
      2 ^ 32 * (n / 2 ^ 32 % 256) + 2 ^ 40 * (n / 2 ^ 40 % 256) + 2 ^ 48 * (n / 2 ^ 48 % 256) +
      2 ^ 56 * (n / 2 ^ 56 % 256) = n := by omega

theorem bytesToU64Slice_roundtrip (u : List Word) : bytesToU64Slice (u64SliceToBytes u) = u := by
  induction u with
  | nil => rfl
  | cons a u ih =>
    simp only [u64SliceToBytes, List.flatMap_cons] at ih ⊢
    simp only [le64, List.cons_append, List.nil_append, bytesToU64Slice, ih, toNat_ofNat8]
    congr 1
    have hlt : a.toNat < 18446744073709551616 := by simpa using a.isLt
    rw [bytes_digits _ hlt]
    simp

theorem bytesToU32Slice_roundtrip (u : List Nat) (h : ∀ n ∈ u, n < 2 ^ 32) :
    bytesToU32Slice (u32SliceToBytes u) = u := by
  induction u with
  | nil => rfl
  | cons a u ih =>
    have ih := ih (fun n hn => h n (List.mem_cons_of_mem _ hn))
    have ha := h a List.mem_cons_self
    simp only [u32SliceToBytes, List.flatMap_cons] at ih ⊢
    simp only [putUint32, List.cons_append, List.nil_append, bytesToU32Slice, ih, toNat_ofNat8]
    congr 1
    omega

/-! ### Slices of concatenations -/

theorem slice_at {α : Type} (a b c : List α) (i j : Nat) (hi : i = a.length) (hj : j = a.length + b.length) :
    slice (a ++ (b ++ c)) i j = some b := by
  subst hi; subst hj
  rw [slice, if_pos (by simp)]
  congr 1
  rw [← List.append_assoc, List.take_left' (by simp), List.drop_left]

theorem sliceFrom_at {α : Type} (a b : List α) (i : Nat) (hi : i = a.length) : sliceFrom (a ++ b) i = some b := by
  subst hi
  rw [sliceFrom, if_pos (by simp), List.drop_left]

theorem align_mod (n : Nat) : align n % 8 = 0 := by unfold align; omega
theorem align_le (n : Nat) : n ≤ align n := by unfold align; omega
theorem align_lt (n : Nat) : align n < n + 8 := by unfold align; omega
theorem align_of_mod {n : Nat} (h : n % 8 = 0) : align n = n := by unfold align; omega
theorem align_add {a b : Nat} (h : a % 8 = 0) : align (a + b) = a + align b := by unfold align; omega
theorem zeros_length (n : Nat) : (zeros n).length = n := by simp [zeros]

/-! ### `WriteTo` is a sequence of `Write` calls -/

section
variable {m : Type → Type} [Monad m] [LawfulMonad m]

/-- One `Write` call per chunk, in order. -/
def writeAll (w : Bytes → m Unit) : List Bytes → m Unit
  | [] => pure ()
  | c :: cs => do w c; writeAll w cs

theorem writeAll_append (w : Bytes → m Unit) (a b : List Bytes) :
    writeAll w (a ++ b) = (do writeAll w a; writeAll w b) := by
  induction a with
  | nil => simp [writeAll]
  | cons c a ih => simp [writeAll, ih]

theorem writeAll_single (w : Bytes → m Unit) (c : Bytes) : writeAll w [c] = w c := by
  simp [writeAll]
end

/-- The chunks written for a value vector. -/
def ValueVector.chunks (v : ValueVector) : List Bytes :=
  [putUint32 v.bytes.length, putUint32 v.valueSize, v.bytes, zeros (v.marshalSize - v.rawMarshalSize)]
/-- The chunks written for a select vector. -/
def SelectVector.chunks (v : SelectVector) : List Bytes :=
  [putUint32 v.bv.numBits, putUint32 v.numOnes, u64SliceToBytes v.bv.bits, u32SliceToBytes v.selectLut,
    zeros (v.marshalSize - v.rawMarshalSize)]
/-- The chunks written for a rank vector. -/
def RankVector.chunks (v : RankVector) : List Bytes :=
  [putUint32 v.bv.numBits, putUint32 v.blockSize, u64SliceToBytes v.bv.bits, u32SliceToBytes v.rankLut,
    zeros (v.marshalSize - v.rawMarshalSize)]
/-- The chunks written for a label vector. -/
def LabelVector.chunks (v : LabelVector) : List Bytes :=
  [putUint32 v.labels.length, v.labels, zeros (v.marshalSize - v.rawMarshalSize)]
/-- The chunks written for a prefix vector. -/
def PrefixVec.chunks (v : PrefixVec) : List Bytes :=
  v.hasPrefixVec.chunks ++ [putUint32 v.prefixOffsets.length ++ putUint32 v.prefixData.length, v.prefixOffsets,
    v.prefixData, zeros (v.marshalSize - v.rawMarshalSize)]
/-- The chunks written for a suffix vector. -/
def SuffixVector.chunks (v : SuffixVector) : List Bytes :=
  [putUint32 v.bv.numBits, [v.suffixType.toByte], putUint32 v.hashSuffixLen, putUint32 v.realSuffixLen,
    u64SliceToBytes v.bv.bits, zeros (v.marshalSize - v.rawMarshalSize)]
/-- The chunks written for the dense part. -/
def LoudsDense.chunks (v : LoudsDense) : List Bytes :=
  [putUint32 v.height] ++ (v.labelVec.chunks ++ (v.hasChildVec.chunks ++ (v.isPrefixVec.chunks ++ (v.suffixes.chunks ++
    (v.prefixVec.chunks ++ [zeros (v.marshalSize - v.rawMarshalSize)])))))
/-- The chunks written for the sparse part. -/
def LoudsSparse.chunks (v : LoudsSparse) : List Bytes :=
  [putUint32 v.height, putUint32 v.startLevel, putUint32 v.denseNodeCount, putUint32 v.denseChildCount] ++
    (v.labelVec.chunks ++ (v.hasChildVec.chunks ++ (v.loudsVec.chunks ++ (v.suffixes.chunks ++
    (v.prefixVec.chunks ++ [zeros (v.marshalSize - v.rawMarshalSize)])))))
/-- The chunks written for a filter. -/
def SuRF.chunks (s : SuRF) : List Bytes :=
  s.ld.chunks ++ (s.ls.chunks ++ (s.ld.values.chunks ++ s.ls.values.chunks))

section
variable {m : Type → Type} [Monad m] [LawfulMonad m] (w : Bytes → m Unit)

theorem ValueVector.writeTo_eq (v : ValueVector) : v.writeTo w = writeAll w v.chunks := by
  simp [writeTo, chunks, writeAll]
theorem SelectVector.writeTo_eq (v : SelectVector) : v.writeTo w = writeAll w v.chunks := by
  simp [writeTo, chunks, writeAll]
theorem RankVector.writeTo_eq (v : RankVector) : v.writeTo w = writeAll w v.chunks := by
  simp [writeTo, chunks, writeAll]
theorem LabelVector.writeTo_eq (v : LabelVector) : v.writeTo w = writeAll w v.chunks := by
  simp [writeTo, chunks, writeAll]
theorem PrefixVec.writeTo_eq (v : PrefixVec) : v.writeTo w = writeAll w v.chunks := by
  simp [writeTo, chunks, writeAll, writeAll_append, RankVector.writeTo_eq]
theorem SuffixVector.writeTo_eq (v : SuffixVector) : v.writeTo w = writeAll w v.chunks := by
  simp [writeTo, chunks, writeAll]
theorem LoudsDense.writeTo_eq (v : LoudsDense) : v.writeTo w = writeAll w v.chunks := by
  simp only [writeTo, chunks, writeAll_append, writeAll_single, RankVector.writeTo_eq, SuffixVector.writeTo_eq,
    PrefixVec.writeTo_eq]
theorem LoudsSparse.writeTo_eq (v : LoudsSparse) : v.writeTo w = writeAll w v.chunks := by
  simp only [writeTo, chunks, writeAll_append, writeAll_single, RankVector.writeTo_eq, SuffixVector.writeTo_eq,
    PrefixVec.writeTo_eq, LabelVector.writeTo_eq, SelectVector.writeTo_eq]
  simp [writeAll]
theorem SuRF.writeTo_eq (s : SuRF) : s.writeTo w = writeAll w s.chunks := by
  simp only [writeTo, chunks, writeAll_append, LoudsDense.writeTo_eq, LoudsSparse.writeTo_eq, ValueVector.writeTo_eq]
end

theorem bufferWrite_all (cs : List Bytes) (b : Bytes) :
    ((writeAll SuRF.bufferWrite cs).run b).2 = b ++ cs.flatten := by
  induction cs generalizing b with
  | nil => simp [writeAll]; rfl
  | cons c cs ih =>
    have : ((writeAll SuRF.bufferWrite (c :: cs)).run b).2 = ((writeAll SuRF.bufferWrite cs).run (b ++ c)).2 := rfl
    rw [this, ih]; simp

theorem SuRF.marshal_eq (s : SuRF) : s.marshal = s.chunks.flatten := by
  rw [marshal, writeTo_eq, bufferWrite_all]; rfl

/-! ### Well-formedness: what the round trip needs -/

/-- Value vector sizes fit 32 bits. -/
def ValueVector.Ok (v : ValueVector) : Prop := v.bytes.length < 2 ^ 32 ∧ v.valueSize < 2 ^ 32
/-- Word count and table length are as `Init` leaves them and the numbers fit 32 bits. -/
structure SelectVector.Ok (v : SelectVector) : Prop where
  bits : v.bv.bits.length = numWordsOf v.bv.numBits
  nb : v.bv.numBits < 2 ^ 32
  no : v.numOnes < 2 ^ 32
  lut : v.selectLut.length = v.numOnes / 64 + 1
  lutv : ∀ n ∈ v.selectLut, n < 2 ^ 32
/-- See `SelectVector.Ok`. -/
structure RankVector.Ok (v : RankVector) : Prop where
  bits : v.bv.bits.length = numWordsOf v.bv.numBits
  nb : v.bv.numBits < 2 ^ 32
  bs : 0 < v.blockSize
  bs' : v.blockSize < 2 ^ 32
  lut : v.rankLut.length = v.bv.numBits / v.blockSize + 1
  lutv : ∀ n ∈ v.rankLut, n < 2 ^ 32
/-- The label count and 4 fit 32 bits (bits_vec.go:514 computes `4+l` as a `uint32`). -/
def LabelVector.Ok (v : LabelVector) : Prop := 4 + v.labels.length < 2 ^ 32
/-- See `SelectVector.Ok`. -/
structure PrefixVec.Ok (v : PrefixVec) : Prop where
  has : v.hasPrefixVec.Ok
  off : v.prefixOffsets.length < 2 ^ 32
  dat : v.prefixData.length < 2 ^ 32
/-- See `SelectVector.Ok`; a vector without suffixes holds no bits. -/
structure SuffixVector.Ok (v : SuffixVector) : Prop where
  bits : v.bv.bits.length = numWordsOf v.bv.numBits
  nb : v.bv.numBits < 2 ^ 32
  hl : v.hashSuffixLen < 2 ^ 32
  rl : v.realSuffixLen < 2 ^ 32
  none : v.suffixType = .none → v.bv.bits = []
/-- See `SelectVector.Ok`. -/
structure LoudsDense.Ok (v : LoudsDense) : Prop where
  h : v.height < 2 ^ 32
  lab : v.labelVec.Ok
  hc : v.hasChildVec.Ok
  ip : v.isPrefixVec.Ok
  suf : v.suffixes.Ok
  pre : v.prefixVec.Ok
  val : v.values.Ok
/-- See `SelectVector.Ok`. -/
structure LoudsSparse.Ok (v : LoudsSparse) : Prop where
  h : v.height < 2 ^ 32
  sl : v.startLevel < 2 ^ 32
  dn : v.denseNodeCount < 2 ^ 32
  dc : v.denseChildCount < 2 ^ 32
  lab : v.labelVec.Ok
  hc : v.hasChildVec.Ok
  lo : v.loudsVec.Ok
  suf : v.suffixes.Ok
  pre : v.prefixVec.Ok
  val : v.values.Ok
/-- A filter whose parts are as `Build` leaves them and whose sizes fit 32 bits. -/
structure SuRF.Ok (s : SuRF) : Prop where
  ld : s.ld.Ok
  ls : s.ls.Ok

/-! ### Sizes -/

theorem pad_length {raw : Nat} {l : Bytes} (h : l.length = raw) : (l ++ zeros (align raw - raw)).length = align raw := by
  have := align_le raw
  rw [List.length_append, h, zeros_length]; omega

theorem ValueVector.size (v : ValueVector) : v.chunks.flatten.length = v.marshalSize := by
  have := align_le v.rawMarshalSize
  simp only [chunks, List.flatten_cons, List.flatten_nil, List.append_nil, List.length_append, putUint32_length,
    zeros_length, marshalSize]
  simp only [rawMarshalSize] at *; omega

theorem SelectVector.size (v : SelectVector) (h : v.Ok) : v.chunks.flatten.length = v.marshalSize := by
  have := align_le v.rawMarshalSize
  have h1 := h.bits
  have h2 := h.lut
  simp only [chunks, List.flatten_cons, List.flatten_nil, List.append_nil, List.length_append, putUint32_length,
    zeros_length, marshalSize, u64SliceToBytes_length, u32SliceToBytes_length]
  simp only [rawMarshalSize, BitVector.bitsSize, BitVector.numWords, lutSize, selectSampleInterval, h1, h2] at *; omega

theorem RankVector.size (v : RankVector) (h : v.Ok) : v.chunks.flatten.length = v.marshalSize := by
  have := align_le v.rawMarshalSize
  have h1 := h.bits
  have h2 := h.lut
  simp only [chunks, List.flatten_cons, List.flatten_nil, List.append_nil, List.length_append, putUint32_length,
    zeros_length, marshalSize, u64SliceToBytes_length, u32SliceToBytes_length]
  simp only [rawMarshalSize, BitVector.bitsSize, BitVector.numWords, lutSize, h1, h2] at *; omega

theorem LabelVector.size (v : LabelVector) : v.chunks.flatten.length = v.marshalSize := by
  have := align_le v.rawMarshalSize
  simp only [chunks, List.flatten_cons, List.flatten_nil, List.append_nil, List.length_append, putUint32_length,
    zeros_length, marshalSize]
  simp only [rawMarshalSize] at *; omega

theorem PrefixVec.size (v : PrefixVec) (h : v.Ok) : v.chunks.flatten.length = v.marshalSize := by
  have := align_le v.rawMarshalSize
  have h1 := v.hasPrefixVec.size h.has
  simp only [chunks, List.flatten_append, List.flatten_cons, List.flatten_nil, List.append_nil, List.length_append,
    putUint32_length, zeros_length, marshalSize, h1]
  simp only [rawMarshalSize] at *; omega

theorem SuffixVector.size (v : SuffixVector) (h : v.Ok) : v.chunks.flatten.length = v.marshalSize := by
  have := align_le v.rawMarshalSize
  have h1 := h.bits
  simp only [chunks, List.flatten_cons, List.flatten_nil, List.append_nil, List.length_append, putUint32_length,
    zeros_length, marshalSize, u64SliceToBytes_length, List.length_singleton]
  simp only [rawMarshalSize, BitVector.bitsSize, BitVector.numWords, h1] at *; omega

theorem LoudsDense.size (v : LoudsDense) (h : v.Ok) : v.chunks.flatten.length = v.marshalSize := by
  have := align_le v.rawMarshalSize
  simp only [chunks, List.flatten_append, List.flatten_cons, List.flatten_nil, List.append_nil, List.length_append,
    putUint32_length, zeros_length, marshalSize, v.labelVec.size h.lab, v.hasChildVec.size h.hc,
    v.isPrefixVec.size h.ip, v.suffixes.size h.suf, v.prefixVec.size h.pre]
  simp only [rawMarshalSize] at *; omega

theorem LoudsSparse.size (v : LoudsSparse) (h : v.Ok) : v.chunks.flatten.length = v.marshalSize := by
  have := align_le v.rawMarshalSize
  simp only [chunks, List.flatten_append, List.flatten_cons, List.flatten_nil, List.append_nil, List.length_append,
    putUint32_length, zeros_length, marshalSize, v.labelVec.size, v.hasChildVec.size h.hc,
    v.loudsVec.size h.lo, v.suffixes.size h.suf, v.prefixVec.size h.pre]
  simp only [rawMarshalSize] at *; omega

theorem SuRF.size (s : SuRF) (h : s.Ok) : s.marshal.length = s.marshalSize := by
  rw [marshal_eq]
  simp only [chunks, List.flatten_append, List.length_append, s.ld.size h.ld, s.ls.size h.ls, ValueVector.size, marshalSize]
  omega

/-! ### Round trips -/

theorem uint32_cons (n : Nat) (h : n < 2 ^ 32) (rest : Bytes) : uint32 (putUint32 n ++ rest) = some n := uint32_put n h rest

theorem ValueVector.roundtrip (v : ValueVector) (h : v.Ok) (rest : Bytes) :
    unmarshal (v.chunks.flatten ++ rest) = some (v, rest) := by
  have hal := align_le v.rawMarshalSize
  simp only [chunks, List.flatten_cons, List.flatten_nil, List.append_nil, List.append_assoc]
  unfold unmarshal
  rw [uint32_put _ h.1, Option.bind_eq_bind, Option.bind_some, sliceFrom_at _ _ 4 rfl]
  simp only [Option.bind_eq_bind, Option.bind_some]
  rw [uint32_put _ h.2, Option.bind_some, ← List.append_assoc, slice_at _ _ _ 8 _ rfl (by simp only [List.length_append, putUint32_length]), Option.bind_some,
    ← List.append_assoc, ← List.append_assoc, sliceFrom_at]
  · rfl
  · simp only [List.length_append, putUint32_length, zeros_length, marshalSize]
    have e : 8 + v.bytes.length = v.rawMarshalSize := rfl
    rw [e]; simp only [rawMarshalSize] at *; omega

theorem SelectVector.roundtrip (v : SelectVector) (h : v.Ok) (rest : Bytes) :
    unmarshal (v.chunks.flatten ++ rest) = some (v, rest) := by
  have hal := align_le v.rawMarshalSize
  have hraw : v.rawMarshalSize = 8 + numWordsOf v.bv.numBits * 8 + (v.numOnes / selectSampleInterval + 1) * 4 := rfl
  have e1 : (u64SliceToBytes v.bv.bits).length = numWordsOf v.bv.numBits * 8 := by
    rw [u64SliceToBytes_length, h.bits]; omega
  have e2 : (u32SliceToBytes v.selectLut).length = (v.numOnes / selectSampleInterval + 1) * 4 := by
    rw [u32SliceToBytes_length, h.lut, selectSampleInterval]; omega
  simp only [chunks, List.flatten_cons, List.flatten_nil, List.append_nil, List.append_assoc]
  unfold unmarshal
  rw [uint32_put _ h.nb, Option.bind_eq_bind, Option.bind_some, sliceFrom_at _ _ 4 rfl]
  simp only [Option.bind_eq_bind, Option.bind_some]
  rw [uint32_put _ h.no, Option.bind_some, ← List.append_assoc,
    slice_at _ _ _ 8 _ rfl (by simp only [List.length_append, putUint32_length, e1]), Option.bind_some,
    ← List.append_assoc, slice_at _ _ _ _ _ (by simp only [List.length_append, putUint32_length, e1])
      (by simp only [List.length_append, putUint32_length, e1, e2]), Option.bind_some,
    ← List.append_assoc, ← List.append_assoc, sliceFrom_at]
  · simp only [Option.bind_some, Option.pure_def, bytesToU64Slice_roundtrip, bytesToU32Slice_roundtrip _ h.lutv]
  · simp only [List.length_append, putUint32_length, zeros_length, marshalSize, e1, e2]
    rw [← hraw]; omega

theorem RankVector.roundtrip (v : RankVector) (h : v.Ok) (rest : Bytes) :
    unmarshal (v.chunks.flatten ++ rest) = some (v, rest) := by
  have hal := align_le v.rawMarshalSize
  have hraw : v.rawMarshalSize = 8 + numWordsOf v.bv.numBits * 8 + (v.bv.numBits / v.blockSize + 1) * 4 := rfl
  have hbs : ¬ (v.blockSize = 0) := by have := h.bs; omega
  have e1 : (u64SliceToBytes v.bv.bits).length = numWordsOf v.bv.numBits * 8 := by
    rw [u64SliceToBytes_length, h.bits]; omega
  have e2 : (u32SliceToBytes v.rankLut).length = (v.bv.numBits / v.blockSize + 1) * 4 := by
    rw [u32SliceToBytes_length, h.lut]; omega
  simp only [chunks, List.flatten_cons, List.flatten_nil, List.append_nil, List.append_assoc]
  unfold unmarshal
  rw [uint32_put _ h.nb, Option.bind_eq_bind, Option.bind_some, sliceFrom_at _ _ 4 rfl]
  simp only [Option.bind_eq_bind, Option.bind_some]
  rw [uint32_put _ h.bs', Option.bind_some, ← List.append_assoc,
    slice_at _ _ _ 8 _ rfl (by simp only [List.length_append, putUint32_length, e1]), Option.bind_some,
    if_neg hbs]
  simp only [Option.pure_def, Option.bind_some]
  rw [← List.append_assoc, slice_at _ _ _ _ _ (by simp only [List.length_append, putUint32_length, e1])
      (by simp only [List.length_append, putUint32_length, e1, e2]), Option.bind_some,
    ← List.append_assoc, ← List.append_assoc, sliceFrom_at]
  · simp only [Option.bind_some, Option.pure_def, bytesToU64Slice_roundtrip, bytesToU32Slice_roundtrip _ h.lutv]
  · simp only [List.length_append, putUint32_length, zeros_length, marshalSize, e1, e2]
    rw [← hraw]; omega

theorem LabelVector.roundtrip (v : LabelVector) (h : v.Ok) (rest : Bytes) :
    unmarshal (v.chunks.flatten ++ rest) = some (v, rest) := by
  have hal := align_le v.rawMarshalSize
  simp only [chunks, List.flatten_cons, List.flatten_nil, List.append_nil, List.append_assoc]
  unfold unmarshal
  have h : 4 + v.labels.length < 2 ^ 32 := h
  rw [uint32_put _ (by omega), Option.bind_eq_bind, Option.bind_some, slice_at _ _ _ 4 _ rfl (by simp only [putUint32_length])]
  simp only [Option.bind_eq_bind, Option.bind_some]
  rw [← List.append_assoc, ← List.append_assoc, sliceFrom_at]
  · rfl
  · simp only [List.length_append, putUint32_length, zeros_length, marshalSize]
    have e : 4 + v.labels.length = v.rawMarshalSize := rfl
    rw [e]; simp only [rawMarshalSize] at *; omega

theorem PrefixVec.roundtrip (v : PrefixVec) (h : v.Ok) (rest : Bytes) :
    unmarshal (v.chunks.flatten ++ rest) = some (v, rest) := by
  have hsz := v.size h
  have hsplit : v.chunks.flatten ++ rest = v.hasPrefixVec.chunks.flatten ++ (putUint32 v.prefixOffsets.length ++
      (putUint32 v.prefixData.length ++ (v.prefixOffsets ++ (v.prefixData ++
      (zeros (v.marshalSize - v.rawMarshalSize) ++ rest))))) := by
    simp only [chunks, List.flatten_append, List.flatten_cons, List.flatten_nil, List.append_nil, List.append_assoc]
  unfold unmarshal
  have h1 := v.hasPrefixVec.roundtrip h.has (putUint32 v.prefixOffsets.length ++
      (putUint32 v.prefixData.length ++ (v.prefixOffsets ++ (v.prefixData ++
      (zeros (v.marshalSize - v.rawMarshalSize) ++ rest)))))
  rw [← hsplit] at h1
  simp only [h1, Option.bind_eq_bind, Option.bind_some]
  rw [uint32_put _ h.off, Option.bind_some, sliceFrom_at _ _ 4 rfl, Option.bind_some, uint32_put _ h.dat,
    Option.bind_some, ← List.append_assoc, slice_at _ _ _ 8 _ rfl (by simp only [List.length_append, putUint32_length]), Option.bind_some,
    ← List.append_assoc, slice_at _ _ _ _ _ (by simp only [List.length_append, putUint32_length])
      (by simp only [List.length_append, putUint32_length]), Option.bind_some]
  rw [sliceFrom_at _ _ _ hsz.symm]; rfl

theorem suffixType_roundtrip (t : SuffixType) : SuffixType.ofByte t.toByte = some t := by cases t <;> rfl

theorem SuffixVector.roundtrip (v : SuffixVector) (h : v.Ok) (rest : Bytes) :
    unmarshal (v.chunks.flatten ++ rest) = some (v, rest) := by
  have hal := align_le v.rawMarshalSize
  have hraw : v.rawMarshalSize = 13 + numWordsOf v.bv.numBits * 8 := rfl
  have e1 : (u64SliceToBytes v.bv.bits).length = numWordsOf v.bv.numBits * 8 := by
    rw [u64SliceToBytes_length, h.bits]; omega
  simp only [chunks, List.flatten_cons, List.flatten_nil, List.append_nil, List.append_assoc]
  generalize htail : zeros (v.marshalSize - v.rawMarshalSize) ++ rest = tail
  have hbits : unmarshalBits (putUint32 v.bv.numBits ++ ([v.suffixType.toByte] ++ (putUint32 v.hashSuffixLen ++
      (putUint32 v.realSuffixLen ++ (u64SliceToBytes v.bv.bits ++ tail))))) v.suffixType v.bv.numBits =
      some (v.bv.bits, 13 + numWordsOf v.bv.numBits * 8) := by
    unfold unmarshalBits
    by_cases ht : v.suffixType = .none
    · have hb := h.none ht
      rw [if_neg (by simp [ht]), hb]
      have : numWordsOf v.bv.numBits = 0 := by rw [← h.bits, hb]; rfl
      rw [this]
    · rw [if_pos ht, ← List.append_assoc, ← List.append_assoc, ← List.append_assoc, slice_at _ _ _ 13 _ rfl (by
        simp only [List.length_append, putUint32_length, List.length_singleton, e1])]
      simp only [Option.bind_eq_bind, Option.bind_some, Option.pure_def, bytesToU64Slice_roundtrip]
  unfold unmarshal
  rw [uint32_put _ h.nb]
  simp only [Option.bind_eq_bind, Option.bind_some]
  have h4 : (putUint32 v.bv.numBits ++ ([v.suffixType.toByte] ++ (putUint32 v.hashSuffixLen ++
      (putUint32 v.realSuffixLen ++ (u64SliceToBytes v.bv.bits ++ tail)))))[4]? = some v.suffixType.toByte := rfl
  rw [h4, Option.bind_some, suffixType_roundtrip, Option.bind_some, hbits]
  have h5 : sliceFrom (putUint32 v.bv.numBits ++ ([v.suffixType.toByte] ++ (putUint32 v.hashSuffixLen ++
      (putUint32 v.realSuffixLen ++ (u64SliceToBytes v.bv.bits ++ tail))))) 5 = some (putUint32 v.hashSuffixLen ++
      (putUint32 v.realSuffixLen ++ (u64SliceToBytes v.bv.bits ++ tail))) := by
    rw [← List.append_assoc, sliceFrom_at]; rfl
  have h9 : sliceFrom (putUint32 v.bv.numBits ++ ([v.suffixType.toByte] ++ (putUint32 v.hashSuffixLen ++
      (putUint32 v.realSuffixLen ++ (u64SliceToBytes v.bv.bits ++ tail))))) 9 = some
      (putUint32 v.realSuffixLen ++ (u64SliceToBytes v.bv.bits ++ tail)) := by
    rw [← List.append_assoc, ← List.append_assoc, sliceFrom_at]; rfl
  rw [h5, Option.bind_some, uint32_put _ h.hl, Option.bind_some, h9, Option.bind_some, uint32_put _ h.rl,
    Option.bind_some, Option.bind_some, ← htail, ← List.append_assoc, ← List.append_assoc, ← List.append_assoc,
    ← List.append_assoc, ← List.append_assoc, sliceFrom_at]
  · rfl
  · simp only [List.length_append, putUint32_length, zeros_length, marshalSize, e1, List.length_singleton]
    rw [← hraw]; omega

theorem align_total {raw len rl : Nat} (h : len = raw + rl) : align (len - rl) = align raw := by
  rw [h]; congr 1; omega

theorem LoudsDense.roundtrip (v : LoudsDense) (h : v.Ok) (rest : Bytes) :
    unmarshal (v.chunks.flatten ++ rest) = some ({ v with values := {} }, rest) := by
  have hsz := v.size h
  have hal := align_le v.rawMarshalSize
  generalize htail : zeros (v.marshalSize - v.rawMarshalSize) ++ rest = tail
  have hsplit : v.chunks.flatten ++ rest = putUint32 v.height ++ (v.labelVec.chunks.flatten ++
      (v.hasChildVec.chunks.flatten ++ (v.isPrefixVec.chunks.flatten ++ (v.suffixes.chunks.flatten ++
      (v.prefixVec.chunks.flatten ++ tail))))) := by
    rw [← htail]
    simp only [chunks, List.flatten_append, List.flatten_cons, List.flatten_nil, List.append_nil, List.append_assoc]
  unfold unmarshal
  have h1 : uint32 (v.chunks.flatten ++ rest) = some v.height := by rw [hsplit, uint32_put _ h.h]
  have h2 : sliceFrom (v.chunks.flatten ++ rest) 4 = some (v.labelVec.chunks.flatten ++
      (v.hasChildVec.chunks.flatten ++ (v.isPrefixVec.chunks.flatten ++ (v.suffixes.chunks.flatten ++
      (v.prefixVec.chunks.flatten ++ tail))))) := by rw [hsplit, sliceFrom_at]; rfl
  have h3 : (v.chunks.flatten ++ rest).length - tail.length = v.rawMarshalSize := by
    rw [List.length_append, hsz, ← htail, List.length_append, zeros_length, marshalSize]; omega
  simp only [h1, h2, Option.bind_eq_bind, Option.bind_some, v.labelVec.roundtrip h.lab, v.hasChildVec.roundtrip h.hc,
    v.isPrefixVec.roundtrip h.ip, v.suffixes.roundtrip h.suf, v.prefixVec.roundtrip h.pre, h3]
  rw [sliceFrom_at _ _ (align v.rawMarshalSize) hsz.symm]; rfl

theorem LoudsSparse.roundtrip (v : LoudsSparse) (h : v.Ok) (rest : Bytes) :
    unmarshal (v.chunks.flatten ++ rest) = some ({ v with values := {} }, rest) := by
  have hsz := v.size h
  have hal := align_le v.rawMarshalSize
  generalize htail : zeros (v.marshalSize - v.rawMarshalSize) ++ rest = tail
  have hsplit : v.chunks.flatten ++ rest = putUint32 v.height ++ (putUint32 v.startLevel ++ (putUint32 v.denseNodeCount ++
      (putUint32 v.denseChildCount ++ (v.labelVec.chunks.flatten ++
      (v.hasChildVec.chunks.flatten ++ (v.loudsVec.chunks.flatten ++ (v.suffixes.chunks.flatten ++
      (v.prefixVec.chunks.flatten ++ tail)))))))) := by
    rw [← htail]
    simp only [chunks, List.flatten_append, List.flatten_cons, List.flatten_nil, List.append_nil, List.append_assoc]
  unfold unmarshal
  have h3 : (v.chunks.flatten ++ rest).length - tail.length = v.rawMarshalSize := by
    rw [List.length_append, hsz, ← htail, List.length_append, zeros_length, marshalSize]; omega
  have h4 : uint32 (v.chunks.flatten ++ rest) = some v.height := by rw [hsplit, uint32_put _ h.h]
  have h5 := sliceFrom_at (putUint32 v.height) (putUint32 v.startLevel ++ (putUint32 v.denseNodeCount ++
      (putUint32 v.denseChildCount ++ (v.labelVec.chunks.flatten ++
      (v.hasChildVec.chunks.flatten ++ (v.loudsVec.chunks.flatten ++ (v.suffixes.chunks.flatten ++
      (v.prefixVec.chunks.flatten ++ tail)))))))) 4 rfl
  rw [← hsplit] at h5
  rw [h4, Option.bind_eq_bind, Option.bind_some, h5, Option.bind_eq_bind, Option.bind_some, uint32_put _ h.sl, Option.bind_eq_bind, Option.bind_some, sliceFrom_at _ _ 4 rfl, Option.bind_eq_bind, Option.bind_some,
    uint32_put _ h.dn, Option.bind_eq_bind, Option.bind_some, sliceFrom_at _ _ 4 rfl, Option.bind_eq_bind, Option.bind_some,
    uint32_put _ h.dc, Option.bind_eq_bind, Option.bind_some, sliceFrom_at _ _ 4 rfl, Option.bind_some]
  simp only [Option.bind_eq_bind, Option.bind_some, v.labelVec.roundtrip h.lab, v.hasChildVec.roundtrip h.hc,
    v.loudsVec.roundtrip h.lo, v.suffixes.roundtrip h.suf, v.prefixVec.roundtrip h.pre, h3]
  rw [sliceFrom_at _ _ (align v.rawMarshalSize) hsz.symm]; rfl

/-- `Unmarshal(Marshal(s) ++ rest)` restores `s`. -/
theorem SuRF.roundtrip (s : SuRF) (h : s.Ok) (rest : Bytes) : unmarshal (s.marshal ++ rest) = some s := by
  rw [marshal_eq]
  simp only [chunks, List.flatten_append, List.append_assoc]
  unfold unmarshal
  rw [s.ld.roundtrip h.ld]
  simp only [Option.bind_eq_bind, Option.bind_some]
  rw [s.ls.roundtrip h.ls]
  simp only [Option.bind_some]
  rw [s.ld.values.roundtrip h.ld.val]
  simp only [Option.bind_some]
  rw [s.ls.values.roundtrip h.ls.val]
  rfl

end Surf
