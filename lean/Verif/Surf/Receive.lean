import Verif.Surf.BuiltOk

/-!
# Model of `Unmarshal` with any receiver and any slice

`Verif.Surf.Marshal` models `Unmarshal` into a zero `SuRF` from a slice without spare capacity. Here the receiver may hold another
filter, and the slice may have a capacity larger than its length: in Go the upper bound of `b[i:j]` is checked against the capacity,
the `i` of `b[i:]` against the length. Sums of `uint32` wrap around.
-/

set_option linter.unusedSimpArgs false

namespace Surf

/-- A Go slice: the bytes up to its length, and those between its length and its capacity. -/
structure Buf where
  data : Bytes
  spare : Bytes

namespace Buf

/-- `b[a:]` -/
def drop (b : Buf) (a : Nat) : Option Buf := if a ≤ b.data.length then some ⟨b.data.drop a, b.spare⟩ else none
/-- the bytes of `b[a:c]` -/
def sub (b : Buf) (a c : Nat) : Option Bytes :=
  if a ≤ c ∧ c ≤ b.data.length + b.spare.length then some (((b.data ++ b.spare).take c).drop a) else none
/-- `endian.Uint32(b)` -/
def u32 (b : Buf) : Option Nat := uint32 b.data

end Buf

/-- bits_vec.go:190-202 -/
def ValueVector.receive (buf : Buf) : Option (ValueVector × Buf) := do
  let sz ← buf.u32
  let b4 ← buf.drop 4
  let valueSize ← b4.u32
  let bytes ← buf.sub 8 (8 + sz)
  let rest ← buf.drop (align (8 + sz))
  return ({ bytes, valueSize }, rest)

/-- bits_vec.go:308-323 -/
def SelectVector.receive (buf : Buf) : Option (SelectVector × Buf) := do
  let numBits ← buf.u32
  let b4 ← buf.drop 4
  let numOnes ← b4.u32
  let bitsSize := numWordsOf numBits * 8 % 2 ^ 32
  let bits ← buf.sub 8 (8 + bitsSize)
  let lutSize := (numOnes / selectSampleInterval + 1) * 4 % 2 ^ 32
  let lut ← buf.sub (8 + bitsSize) (8 + bitsSize + lutSize)
  let rest ← buf.drop (align (8 + bitsSize + lutSize))
  return ({ bv := { numBits, bits := bytesToU64Slice bits }, numOnes, selectLut := bytesToU32Slice lut }, rest)

/-- bits_vec.go:387-402 -/
def RankVector.receive (buf : Buf) : Option (RankVector × Buf) := do
  let numBits ← buf.u32
  let b4 ← buf.drop 4
  let blockSize ← b4.u32
  let bitsSize := numWordsOf numBits * 8 % 2 ^ 32
  let bits ← buf.sub 8 (8 + bitsSize)
  if blockSize = 0 then none
  let lutSize := (numBits / blockSize + 1) * 4 % 2 ^ 32
  let lut ← buf.sub (8 + bitsSize) (8 + bitsSize + lutSize)
  let rest ← buf.drop (align (8 + bitsSize + lutSize))
  return ({ bv := { numBits, bits := bytesToU64Slice bits }, blockSize, rankLut := bytesToU32Slice lut }, rest)

/-- bits_vec.go:512-516 -/
def LabelVector.receive (buf : Buf) : Option (LabelVector × Buf) := do
  let l ← buf.u32
  let labels ← buf.sub 4 ((4 + l) % 2 ^ 32)
  let rest ← buf.drop (align ((4 + l) % 2 ^ 32))
  return ({ labels }, rest)

/-- bits_vec.go:356-362 `MarshalSize`, with the sizes as `uint32` -/
def RankVector.size32 (v : RankVector) : Nat :=
  align (8 + numWordsOf v.bv.numBits * 8 % 2 ^ 32 + (v.bv.numBits / v.blockSize + 1) * 4 % 2 ^ 32)

/-- bits_vec.go:593-606 -/
def PrefixVec.receive (b : Buf) : Option (PrefixVec × Buf) := do
  let (hasPrefixVec, buf1) ← RankVector.receive b
  let offsetsLen ← buf1.u32
  let b4 ← buf1.drop 4
  let dataLen ← b4.u32
  let prefixOffsets ← buf1.sub 8 (8 + offsetsLen)
  let prefixData ← buf1.sub (8 + offsetsLen) (8 + offsetsLen + dataLen)
  let rest ← b.drop (align (hasPrefixVec.size32 + 8 + (prefixOffsets.length + prefixData.length)))
  return ({ hasPrefixVec, prefixOffsets, prefixData }, rest)

/-- bits_vec.go:721 `SuffixType(buf[cursor])`. Go keeps a byte that is no suffix type; `Unmarshal` only asks whether it is `NoneSuffix`. -/
def SuffixType.ofAny (b : UInt8) : SuffixType := (SuffixType.ofByte b).getD .real

/-- bits_vec.go:727-731: without suffixes the receiver keeps the bits it has -/
def SuffixVector.receiveBits (old : SuffixVector) (buf : Buf) (ty : SuffixType) (numBits : Nat) : Option (List Word × Nat) :=
  if ty ≠ .none then do
    let bits ← buf.sub 13 (13 + numWordsOf numBits * 8 % 2 ^ 32)
    return (bytesToU64Slice bits, 13 + numWordsOf numBits * 8 % 2 ^ 32)
  else some (old.bv.bits, 13)

/-- bits_vec.go:717-734 -/
def SuffixVector.receive (old : SuffixVector) (buf : Buf) : Option (SuffixVector × Buf) := do
  let numBits ← buf.u32
  let t ← buf.data[4]?
  let suffixType ← some (SuffixType.ofAny t)
  let b5 ← buf.drop 5
  let hashSuffixLen ← b5.u32
  let b9 ← buf.drop 9
  let realSuffixLen ← b9.u32
  let (bits, cursor) ← old.receiveBits buf suffixType numBits
  let rest ← buf.drop (align cursor)
  return ({ bv := { numBits, bits }, suffixType, hashSuffixLen, realSuffixLen }, rest)

/-- louds_dense.go:131-142 -/
def LoudsDense.receive (old : LoudsDense) (buf : Buf) : Option (LoudsDense × Buf) := do
  let height ← buf.u32
  let buf1 ← buf.drop 4
  let (labelVec, buf1) ← RankVector.receive buf1
  let (hasChildVec, buf1) ← RankVector.receive buf1
  let (isPrefixVec, buf1) ← RankVector.receive buf1
  let (suffixes, buf1) ← old.suffixes.receive buf1
  let (prefixVec, buf1) ← PrefixVec.receive buf1
  let rest ← buf.drop (align (buf.data.length - buf1.data.length))
  return ({ height, labelVec, hasChildVec, isPrefixVec, suffixes, prefixVec, values := old.values }, rest)

/-- louds_sparse.go:152-171 -/
def LoudsSparse.receive (old : LoudsSparse) (buf : Buf) : Option (LoudsSparse × Buf) := do
  let height ← buf.u32
  let buf1 ← buf.drop 4
  let startLevel ← buf1.u32
  let buf1 ← buf1.drop 4
  let denseNodeCount ← buf1.u32
  let buf1 ← buf1.drop 4
  let denseChildCount ← buf1.u32
  let buf1 ← buf1.drop 4
  let (labelVec, buf1) ← LabelVector.receive buf1
  let (hasChildVec, buf1) ← RankVector.receive buf1
  let (loudsVec, buf1) ← SelectVector.receive buf1
  let (suffixes, buf1) ← old.suffixes.receive buf1
  let (prefixVec, buf1) ← PrefixVec.receive buf1
  let rest ← buf.drop (align (buf.data.length - buf1.data.length))
  return ({ height, startLevel, denseNodeCount, denseChildCount, labelVec, hasChildVec, loudsVec, suffixes, prefixVec, values := old.values }, rest)

/-- surf.go:78-84 `old.Unmarshal(b)` -/
def SuRF.receive (old : SuRF) (b : Buf) : Option SuRF := do
  let (ld, b) ← old.ld.receive b
  let (ls, b) ← old.ls.receive b
  let (dv, b) ← ValueVector.receive b
  let (sv, _) ← ValueVector.receive b
  return { ld := { ld with values := dv }, ls := { ls with values := sv } }

/-! ## What follows does not matter -/

/-- If it succeeds it has looked at nothing behind the length, and does the same when more follows. -/
def Framed {α : Type} (f : Buf → Option (α × Buf)) : Prop :=
  ∀ p sp v r, f ⟨p, sp⟩ = some (v, r) → r.spare = sp ∧ r.data.length ≤ p.length ∧ ∀ q sp', f ⟨p ++ q, sp'⟩ = some (v, ⟨r.data ++ q, sp'⟩)

namespace Buf

theorem drop_some {b r : Buf} {a : Nat} (h : b.drop a = some r) : a ≤ b.data.length ∧ r = ⟨b.data.drop a, b.spare⟩ := by
  unfold drop at h
  split at h
  · exact ⟨by assumption, (Option.some.inj h).symm⟩
  · cases h

theorem drop_app {p q sp' : Bytes} {a : Nat} (h : a ≤ p.length) : drop ⟨p ++ q, sp'⟩ a = some ⟨p.drop a ++ q, sp'⟩ := by
  unfold drop
  rw [if_pos (by simp; omega), List.drop_append_of_le_length h]

theorem sub_app {p q sp sp' : Bytes} {a c : Nat} (h : c ≤ p.length) : sub ⟨p ++ q, sp'⟩ a c = sub ⟨p, sp⟩ a c := by
  unfold sub
  have e : (p ++ q ++ sp').take c = (p ++ sp).take c := by
    rw [List.append_assoc, List.take_append_of_le_length h, List.take_append_of_le_length h]
  simp only [e, List.length_append]
  by_cases hac : a ≤ c
  · rw [if_pos ⟨hac, by omega⟩, if_pos ⟨hac, by omega⟩]
  · rw [if_neg (by omega), if_neg (by omega)]

theorem sub_eq {p sp : Bytes} {a c : Nat} (h : c ≤ p.length) : sub ⟨p, sp⟩ a c = slice p a c := by
  unfold sub slice
  simp only [List.take_append_of_le_length h]
  by_cases hac : a ≤ c
  · rw [if_pos ⟨hac, by omega⟩, if_pos ⟨hac, h⟩]
  · rw [if_neg (by omega), if_neg (by omega)]

theorem u32_app {p q sp sp' : Bytes} {n : Nat} (h : u32 ⟨p, sp⟩ = some n) : u32 ⟨p ++ q, sp'⟩ = some n := by
  unfold u32 at h ⊢
  match p, h with
  | _ :: _ :: _ :: _ :: _, h => exact h

end Buf

theorem ValueVector.framed : Framed receive := by
  intro p sp v r h
  simp only [receive, Option.bind_eq_bind, Option.bind_eq_some_iff, Option.pure_def, Option.some.injEq, Prod.mk.injEq] at h
  obtain ⟨sz, h1, b4, h2, vs, h3, bytes, h4, rest, h5, rfl, rfl⟩ := h
  obtain ⟨l2, rfl⟩ := Buf.drop_some h2
  obtain ⟨l5, rfl⟩ := Buf.drop_some h5
  have a1 := align_le (8 + sz)
  dsimp only at l2 l5
  refine ⟨rfl, by simp, fun q sp' => ?_⟩
  simp only [receive, Option.bind_eq_bind, Buf.u32_app h1, Option.bind_some, Buf.drop_app l2, Buf.u32_app h3, Buf.sub_app (sp := sp) (Nat.le_trans a1 l5), h4, Buf.drop_app l5, Option.pure_def]

theorem SelectVector.framed : Framed receive := by
  intro p sp v r h
  simp only [receive, Option.bind_eq_bind, Option.bind_eq_some_iff, Option.pure_def, Option.some.injEq, Prod.mk.injEq] at h
  obtain ⟨sz, h1, b4, h2, vs, h3, bytes, h4, lut, h6, rest, h5, rfl, rfl⟩ := h
  obtain ⟨l2, rfl⟩ := Buf.drop_some h2
  obtain ⟨l5, rfl⟩ := Buf.drop_some h5
  have a1 := Nat.le_trans (align_le _) l5
  dsimp only at l2 l5 a1
  refine ⟨rfl, by simp, fun q sp' => ?_⟩
  simp only [receive, Option.bind_eq_bind, Buf.u32_app h1, Option.bind_some, Buf.drop_app l2, Buf.u32_app h3, Buf.sub_app (sp := sp) (Nat.le_trans (Nat.le_add_right _ _) a1), Buf.sub_app (sp := sp) a1, h4, h6, Buf.drop_app l5, Option.pure_def]

theorem RankVector.framed : Framed receive := by
  intro p sp v r h
  simp only [receive, Option.bind_eq_bind, Option.bind_eq_some_iff, Option.pure_def, Option.some.injEq, Prod.mk.injEq] at h
  obtain ⟨sz, h1, b4, h2, vs, h3, bytes, h4, h⟩ := h
  split at h
  · simp at h
  next hz =>
  simp only [Option.bind_eq_some_iff, Option.some.injEq, Prod.mk.injEq] at h
  obtain ⟨lut, h6, rest, h5, rfl, rfl⟩ := h
  obtain ⟨l2, rfl⟩ := Buf.drop_some h2
  obtain ⟨l5, rfl⟩ := Buf.drop_some h5
  have a1 := Nat.le_trans (align_le _) l5
  dsimp only at l2 l5 a1
  refine ⟨rfl, by simp, fun q sp' => ?_⟩
  simp only [receive, Option.bind_eq_bind, Buf.u32_app h1, Option.bind_some, Buf.drop_app l2, Buf.u32_app h3, Buf.sub_app (sp := sp) (Nat.le_trans (Nat.le_add_right _ _) a1), Buf.sub_app (sp := sp) a1, h4, h6, Buf.drop_app l5, Option.pure_def, if_neg hz]

theorem LabelVector.framed : Framed receive := by
  intro p sp v r h
  simp only [receive, Option.bind_eq_bind, Option.bind_eq_some_iff, Option.pure_def, Option.some.injEq, Prod.mk.injEq] at h
  obtain ⟨sz, h1, bytes, h4, rest, h5, rfl, rfl⟩ := h
  obtain ⟨l5, rfl⟩ := Buf.drop_some h5
  have a1 := Nat.le_trans (align_le _) l5
  dsimp only at l5 a1
  refine ⟨rfl, by simp, fun q sp' => ?_⟩
  simp only [receive, Option.bind_eq_bind, Buf.u32_app h1, Option.bind_some, Buf.sub_app (sp := sp) a1, h4, Buf.drop_app l5, Option.pure_def]

theorem RankVector.receive_rest {p sp : Bytes} {v : RankVector} {r : Buf} (h : receive ⟨p, sp⟩ = some (v, r)) : v.size32 ≤ p.length ∧ r = ⟨p.drop v.size32, sp⟩ := by
  simp only [receive, Option.bind_eq_bind, Option.bind_eq_some_iff, Option.pure_def, Option.some.injEq, Prod.mk.injEq] at h
  obtain ⟨sz, h1, b4, h2, vs, h3, bytes, h4, h⟩ := h
  split at h
  · simp at h
  next hz =>
  simp only [Option.bind_eq_some_iff, Option.some.injEq, Prod.mk.injEq] at h
  obtain ⟨lut, h6, rest, h5, rfl, rfl⟩ := h
  exact Buf.drop_some h5

theorem Buf.sub_some {b : Buf} {a c : Nat} {x : Bytes} (h : b.sub a c = some x) : a ≤ c ∧ x.length = c - a := by
  unfold sub at h
  split at h
  · next hc =>
    rw [← Option.some.inj h]
    refine ⟨hc.1, ?_⟩
    simp only [List.length_drop, List.length_take, List.length_append]
    omega
  · cases h

theorem PrefixVec.framed : Framed receive := by
  intro p sp v r h
  simp only [receive, Option.bind_eq_bind, Option.bind_eq_some_iff, Option.pure_def, Option.some.injEq, Prod.mk.injEq, Prod.exists] at h
  obtain ⟨hp, b1, h0, sz, h1, b4, h2, vs, h3, offs, h4, dat, h6, rest, h5, rfl, rfl⟩ := h
  obtain ⟨l0, rfl⟩ := RankVector.receive_rest h0
  obtain ⟨-, -, f0⟩ := RankVector.framed _ _ _ _ h0
  obtain ⟨l2, rfl⟩ := Buf.drop_some h2
  obtain ⟨l5, rfl⟩ := Buf.drop_some h5
  have c4 := Buf.sub_some h4
  have c6 := Buf.sub_some h6
  have a1 := Nat.le_trans (align_le _) l5
  dsimp only at l2 l5 a1
  have e1 : 8 + sz ≤ (p.drop hp.size32).length := by rw [List.length_drop]; omega
  have e2 : 8 + sz + vs ≤ (p.drop hp.size32).length := by rw [List.length_drop]; omega
  refine ⟨rfl, by simp, fun q sp' => ?_⟩
  simp only [receive, Option.bind_eq_bind, f0, Buf.u32_app h1, Option.bind_some, Buf.drop_app l2, Buf.u32_app h3, Buf.sub_app (sp := sp) e1, Buf.sub_app (sp := sp) e2, h4, h6, Buf.drop_app l5, Option.pure_def]

theorem SuffixVector.framed (old : SuffixVector) : Framed old.receive := by
  intro p sp v r h
  simp only [receive, Option.bind_eq_bind, Option.bind_eq_some_iff, Option.pure_def, Option.some.injEq, Prod.mk.injEq, Prod.exists] at h
  obtain ⟨nb, h1, t, h2, ty, h3, b5, h4, hl, h5, b9, h6, rl, h7, bits, cur, h8, rest, h9, rfl, rfl⟩ := h
  have h3 : SuffixType.ofAny t = ty := h3
  obtain ⟨l4, rfl⟩ := Buf.drop_some h4
  obtain ⟨l6, rfl⟩ := Buf.drop_some h6
  obtain ⟨l9, rfl⟩ := Buf.drop_some h9
  have a1 := Nat.le_trans (align_le _) l9
  dsimp only at l4 l6 l9 a1 h2
  refine ⟨rfl, by simp, fun q sp' => ?_⟩
  have e2 : (p ++ q)[4]? = some t := by rw [List.getElem?_append_left (by omega)]; exact h2
  have e8 : old.receiveBits ⟨p ++ q, sp'⟩ ty nb = some (bits, cur) := by
    unfold receiveBits at h8 ⊢
    split at h8
    · next ht =>
      rw [if_pos ht]
      simp only [Option.bind_eq_bind, Option.bind_eq_some_iff, Option.pure_def, Option.some.injEq, Prod.mk.injEq] at h8 ⊢
      obtain ⟨x, g1, g2, g3⟩ := h8
      exact ⟨x, by rw [Buf.sub_app (sp := sp) (by omega)]; exact g1, g2, g3⟩
    · next ht =>
      rw [if_neg ht]
      exact h8
  simp only [receive, Option.bind_eq_bind, Buf.u32_app h1, Option.bind_some, e2, h3, Buf.drop_app l4, Buf.u32_app h5, Buf.drop_app l6, Buf.u32_app h7, e8, Buf.drop_app l9, Option.pure_def]

theorem LoudsDense.framed (old : LoudsDense) : Framed old.receive := by
  intro p sp v r h
  simp only [receive, Option.bind_eq_bind, Option.bind_eq_some_iff, Option.pure_def, Option.some.injEq, Prod.mk.injEq, Prod.exists] at h
  obtain ⟨hh, h1, b1, h2, lv, b2, h3, hc, b3, h4, ip, b4, h5, su, b5, h6, pv, b6, h7, rest, h8, rfl, rfl⟩ := h
  obtain ⟨l2, rfl⟩ := Buf.drop_some h2
  obtain ⟨rfl, l3, f3⟩ := RankVector.framed _ _ _ _ h3
  obtain ⟨e4, l4, f4⟩ := RankVector.framed _ _ _ _ h4
  obtain ⟨e5, l5, f5⟩ := RankVector.framed _ _ _ _ h5
  obtain ⟨e6, l6, f6⟩ := SuffixVector.framed _ _ _ _ _ h6
  obtain ⟨e7, l7, f7⟩ := PrefixVec.framed _ _ _ _ h7
  obtain ⟨l8, rfl⟩ := Buf.drop_some h8
  dsimp only at l2 l3 l8
  rw [List.length_drop] at l3
  refine ⟨rfl, by simp, fun q sp' => ?_⟩
  have e8 : (p ++ q).length - (b6.data ++ q).length = p.length - b6.data.length := by
    simp only [List.length_append]
    omega
  simp only [receive, Option.bind_eq_bind, Buf.u32_app h1, Option.bind_some, Buf.drop_app l2, f3, f4, f5, f6, f7, e8, Buf.drop_app l8, Option.pure_def]

theorem LoudsSparse.framed (old : LoudsSparse) : Framed old.receive := by
  intro p sp v r h
  unfold receive at h
  obtain ⟨hh, h1, h⟩ := Option.bind_eq_some_iff.mp h
  obtain ⟨b1, h2, h⟩ := Option.bind_eq_some_iff.mp h
  obtain ⟨st, g1, h⟩ := Option.bind_eq_some_iff.mp h
  obtain ⟨b1', g2, h⟩ := Option.bind_eq_some_iff.mp h
  obtain ⟨dn, g3, h⟩ := Option.bind_eq_some_iff.mp h
  obtain ⟨b1'', g4, h⟩ := Option.bind_eq_some_iff.mp h
  obtain ⟨dc, g5, h⟩ := Option.bind_eq_some_iff.mp h
  obtain ⟨b1z, g6, h⟩ := Option.bind_eq_some_iff.mp h
  obtain ⟨⟨lv, b2⟩, h3, h⟩ := Option.bind_eq_some_iff.mp h
  obtain ⟨⟨hc, b3⟩, h4, h⟩ := Option.bind_eq_some_iff.mp h
  obtain ⟨⟨ip, b4⟩, h5, h⟩ := Option.bind_eq_some_iff.mp h
  obtain ⟨⟨su, b5⟩, h6, h⟩ := Option.bind_eq_some_iff.mp h
  obtain ⟨⟨pv, b6⟩, h7, h⟩ := Option.bind_eq_some_iff.mp h
  obtain ⟨rest, h8, h⟩ := Option.bind_eq_some_iff.mp h
  simp only [Option.pure_def, Option.some.injEq, Prod.mk.injEq] at h
  obtain ⟨rfl, rfl⟩ := h
  obtain ⟨l2, rfl⟩ := Buf.drop_some h2
  obtain ⟨m2, rfl⟩ := Buf.drop_some g2
  obtain ⟨m4, rfl⟩ := Buf.drop_some g4
  obtain ⟨m6, rfl⟩ := Buf.drop_some g6
  obtain ⟨e3, l3, f3⟩ := LabelVector.framed _ _ _ _ h3
  obtain ⟨e4, l4, f4⟩ := RankVector.framed _ _ _ _ h4
  obtain ⟨e5, l5, f5⟩ := SelectVector.framed _ _ _ _ h5
  obtain ⟨e6, l6, f6⟩ := SuffixVector.framed _ _ _ _ _ h6
  obtain ⟨e7, l7, f7⟩ := PrefixVec.framed _ _ _ _ h7
  obtain ⟨l8, rfl⟩ := Buf.drop_some h8
  dsimp only at l2 l3 l8 m2 m4 m6
  simp only [List.length_drop] at l3
  refine ⟨rfl, by simp, fun q sp' => ?_⟩
  have e8 : (p ++ q).length - (b6.data ++ q).length = p.length - b6.data.length := by
    simp only [List.length_append]
    omega
  unfold receive
  refine Option.bind_eq_some_iff.mpr ⟨_, Buf.u32_app h1, ?_⟩
  refine Option.bind_eq_some_iff.mpr ⟨_, Buf.drop_app l2, ?_⟩
  refine Option.bind_eq_some_iff.mpr ⟨_, Buf.u32_app g1, ?_⟩
  refine Option.bind_eq_some_iff.mpr ⟨_, Buf.drop_app m2, ?_⟩
  refine Option.bind_eq_some_iff.mpr ⟨_, Buf.u32_app g3, ?_⟩
  refine Option.bind_eq_some_iff.mpr ⟨_, Buf.drop_app m4, ?_⟩
  refine Option.bind_eq_some_iff.mpr ⟨_, Buf.u32_app g5, ?_⟩
  refine Option.bind_eq_some_iff.mpr ⟨_, Buf.drop_app m6, ?_⟩
  refine Option.bind_eq_some_iff.mpr ⟨_, f3 _ _, ?_⟩
  refine Option.bind_eq_some_iff.mpr ⟨_, f4 _ _, ?_⟩
  refine Option.bind_eq_some_iff.mpr ⟨_, f5 _ _, ?_⟩
  refine Option.bind_eq_some_iff.mpr ⟨_, f6 _ _, ?_⟩
  refine Option.bind_eq_some_iff.mpr ⟨_, f7 _ _, ?_⟩
  dsimp only
  rw [e8]
  refine Option.bind_eq_some_iff.mpr ⟨_, Buf.drop_app l8, ?_⟩
  rfl

/-! ## It restores what the simpler model restores -/

/-- What is left in the receiver: the suffix bits of the filter it held, if there are no suffixes. -/
def SuffixVector.over (v old : SuffixVector) : SuffixVector := if v.suffixType = .none then { v with bv := { v.bv with bits := old.bv.bits } } else v

theorem slice_some {l x : Bytes} {a c : Nat} (h : slice l a c = some x) : c ≤ l.length := by
  unfold slice at h
  split at h
  · next hc => exact hc.2
  · cases h

theorem drop_of {d r sp : Bytes} {a : Nat} (h : sliceFrom d a = some r) : Buf.drop ⟨d, sp⟩ a = some ⟨r, sp⟩ := by
  unfold sliceFrom at h
  unfold Buf.drop
  split at h
  · next hc => rw [if_pos hc, Option.some.inj h]
  · cases h

theorem sub_of {d x sp : Bytes} {a c : Nat} (h : slice d a c = some x) : Buf.sub ⟨d, sp⟩ a c = some x := by
  rw [Buf.sub_eq (slice_some h), h]

theorem uint32_lt {b : Bytes} {n : Nat} (h : uint32 b = some n) : n < 2 ^ 32 := by
  match b, h with
  | a :: b :: c :: d :: _, h =>
    simp only [uint32, Option.some.injEq] at h
    have := a.toNat_lt
    have := b.toNat_lt
    have := c.toNat_lt
    have := d.toNat_lt
    omega

theorem u32_of {d sp : Bytes} {n : Nat} (h : uint32 d = some n) : Buf.u32 ⟨d, sp⟩ = some n := h

theorem words_mod {n : Nat} (h : n < 2 ^ 32) : numWordsOf n * 8 % 2 ^ 32 = numWordsOf n * 8 := by
  apply Nat.mod_eq_of_lt
  unfold numWordsOf
  split <;> omega

theorem ValueVector.receive_of {d r : Bytes} {v : ValueVector} (sp : Bytes) (h : unmarshal d = some (v, r)) : receive ⟨d, sp⟩ = some (v, ⟨r, sp⟩) := by
  simp only [unmarshal, Option.bind_eq_bind, Option.bind_eq_some_iff, Option.pure_def, Option.some.injEq, Prod.mk.injEq] at h
  obtain ⟨sz, h1, b4, h2, vs, h3, bytes, h4, rest, h5, rfl, rfl⟩ := h
  simp only [receive, Option.bind_eq_bind, u32_of h1, Option.bind_some, drop_of h2, u32_of h3, sub_of h4, drop_of h5, Option.pure_def]

theorem SelectVector.receive_of {d r : Bytes} {v : SelectVector} (sp : Bytes) (h : unmarshal d = some (v, r)) : receive ⟨d, sp⟩ = some (v, ⟨r, sp⟩) := by
  simp only [unmarshal, Option.bind_eq_bind, Option.bind_eq_some_iff, Option.pure_def, Option.some.injEq, Prod.mk.injEq] at h
  obtain ⟨sz, h1, b4, h2, vs, h3, bytes, h4, lut, h6, rest, h5, rfl, rfl⟩ := h
  have w1 := words_mod (uint32_lt h1)
  have w2 : (vs / selectSampleInterval + 1) * 4 % 2 ^ 32 = (vs / selectSampleInterval + 1) * 4 := by
    apply Nat.mod_eq_of_lt
    have := uint32_lt h3
    unfold selectSampleInterval
    omega
  simp only [receive, Option.bind_eq_bind, u32_of h1, Option.bind_some, drop_of h2, u32_of h3, w1, w2, sub_of h4, sub_of h6, drop_of h5, Option.pure_def]

theorem RankVector.receive_of {d r : Bytes} {v : RankVector} (sp : Bytes) (h : unmarshal d = some (v, r)) (hb : 64 ≤ v.blockSize) :
    receive ⟨d, sp⟩ = some (v, ⟨r, sp⟩) ∧ v.size32 = v.marshalSize := by
  simp only [unmarshal, Option.bind_eq_bind, Option.bind_eq_some_iff, Option.pure_def, Option.some.injEq, Prod.mk.injEq] at h
  obtain ⟨sz, h1, b4, h2, vs, h3, bytes, h4, h⟩ := h
  split at h
  · simp at h
  next hz =>
  simp only [Option.bind_eq_some_iff, Option.some.injEq, Prod.mk.injEq] at h
  obtain ⟨lut, h6, rest, h5, rfl, rfl⟩ := h
  have w1 := words_mod (uint32_lt h1)
  have w2 : (sz / vs + 1) * 4 % 2 ^ 32 = (sz / vs + 1) * 4 := by
    apply Nat.mod_eq_of_lt
    have := uint32_lt h1
    have hb : 64 ≤ vs := hb
    have := Nat.div_le_div_left (a := sz) hb (by decide)
    omega
  refine ⟨?_, ?_⟩
  · simp only [receive, Option.bind_eq_bind, u32_of h1, Option.bind_some, drop_of h2, u32_of h3, w1, w2, sub_of h4, sub_of h6, drop_of h5, Option.pure_def, if_neg hz]
  · simp only [size32, marshalSize, rawMarshalSize, BitVector.bitsSize, BitVector.numWords, lutSize, w1, w2]

theorem LabelVector.receive_of {d r : Bytes} {v : LabelVector} (sp : Bytes) (h : unmarshal d = some (v, r)) (hb : v.Ok) : receive ⟨d, sp⟩ = some (v, ⟨r, sp⟩) := by
  simp only [unmarshal, Option.bind_eq_bind, Option.bind_eq_some_iff, Option.pure_def, Option.some.injEq, Prod.mk.injEq] at h
  obtain ⟨sz, h1, bytes, h4, rest, h5, rfl, rfl⟩ := h
  have w1 : (4 + sz) % 2 ^ 32 = 4 + sz := by
    apply Nat.mod_eq_of_lt
    have := (Buf.sub_some (sub_of (sp := []) h4)).2
    have hb : 4 + bytes.length < 2 ^ 32 := hb
    omega
  simp only [receive, Option.bind_eq_bind, u32_of h1, Option.bind_some, w1, sub_of h4, drop_of h5, Option.pure_def]

theorem PrefixVec.receive_of {d r : Bytes} {v : PrefixVec} (sp : Bytes) (h : unmarshal d = some (v, r)) (hb : 64 ≤ v.hasPrefixVec.blockSize) : receive ⟨d, sp⟩ = some (v, ⟨r, sp⟩) := by
  simp only [unmarshal, Option.bind_eq_bind, Option.bind_eq_some_iff, Option.pure_def, Option.some.injEq, Prod.mk.injEq, Prod.exists] at h
  obtain ⟨hp, b1, h0, sz, h1, b4, h2, vs, h3, offs, h4, dat, h6, rest, h5, rfl, rfl⟩ := h
  obtain ⟨g1, g2⟩ := RankVector.receive_of sp h0 hb
  simp only [receive, Option.bind_eq_bind, g1, g2, u32_of h1, Option.bind_some, drop_of h2, u32_of h3, sub_of h4, sub_of h6, Option.pure_def]
  have h5' := drop_of (sp := sp) h5
  simp only [marshalSize, rawMarshalSize] at h5'
  rw [h5']
  rfl

theorem SuffixVector.receive_of {d r : Bytes} {v : SuffixVector} (old : SuffixVector) (sp : Bytes) (h : unmarshal d = some (v, r)) : old.receive ⟨d, sp⟩ = some (v.over old, ⟨r, sp⟩) := by
  simp only [unmarshal, Option.bind_eq_bind, Option.bind_eq_some_iff, Option.pure_def, Option.some.injEq, Prod.mk.injEq, Prod.exists] at h
  obtain ⟨nb, h1, t, h2, ty, h3, b5, h4, hl, h5, b9, h6, rl, h7, bits, cur, h8, rest, h9, rfl, rfl⟩ := h
  have e8 : old.receiveBits ⟨d, sp⟩ ty nb = some (if ty = .none then old.bv.bits else bits, cur) := by
    unfold unmarshalBits at h8
    unfold receiveBits
    split at h8
    · next ht =>
      rw [if_pos ht, if_neg ht]
      simp only [Option.bind_eq_bind, Option.bind_eq_some_iff, Option.pure_def, Option.some.injEq, Prod.mk.injEq, words_mod (uint32_lt h1)] at h8 ⊢
      obtain ⟨x, g1, g2, g3⟩ := h8
      exact ⟨x, sub_of g1, g2, g3⟩
    · next ht =>
      have ht' : ty = .none := by
        by_contra hne
        exact ht hne
      rw [if_neg ht, if_pos ht']
      simp only [Option.some.injEq, Prod.mk.injEq] at h8
      rw [h8.2]
  have h3' : SuffixType.ofAny t = ty := by rw [SuffixType.ofAny, h3]; rfl
  simp only [receive, Option.bind_eq_bind, u32_of h1, Option.bind_some, h2, h3', drop_of h4, u32_of h5, drop_of h6, u32_of h7, e8, drop_of h9, Option.pure_def, over]
  by_cases ht : ty = .none
  · simp [ht]
  · simp [ht]

/-- The numbers of the index are far from the bounds of `uint32`. -/
structure LoudsDense.Roomy (v : LoudsDense) : Prop where
  lab : 64 ≤ v.labelVec.blockSize
  hc : 64 ≤ v.hasChildVec.blockSize
  ip : 64 ≤ v.isPrefixVec.blockSize
  pre : 64 ≤ v.prefixVec.hasPrefixVec.blockSize

/-- See `LoudsDense.Roomy`. -/
structure LoudsSparse.Roomy (v : LoudsSparse) : Prop where
  lab : v.labelVec.Ok
  hc : 64 ≤ v.hasChildVec.blockSize
  pre : 64 ≤ v.prefixVec.hasPrefixVec.blockSize

theorem LoudsDense.receive_of {d r : Bytes} {v : LoudsDense} (old : LoudsDense) (sp : Bytes) (h : unmarshal d = some (v, r)) (hb : v.Roomy) :
    old.receive ⟨d, sp⟩ = some ({ v with suffixes := v.suffixes.over old.suffixes, values := old.values }, ⟨r, sp⟩) := by
  simp only [unmarshal, Option.bind_eq_bind, Option.bind_eq_some_iff, Option.pure_def, Option.some.injEq, Prod.mk.injEq, Prod.exists] at h
  obtain ⟨hh, h1, b1, h2, lv, b2, h3, hc, b3, h4, ip, b4, h5, su, b5, h6, pv, b6, h7, rest, h8, rfl, rfl⟩ := h
  simp only [receive, Option.bind_eq_bind, u32_of h1, Option.bind_some, drop_of h2, (RankVector.receive_of sp h3 hb.lab).1, (RankVector.receive_of sp h4 hb.hc).1, (RankVector.receive_of sp h5 hb.ip).1,
    SuffixVector.receive_of old.suffixes sp h6, PrefixVec.receive_of sp h7 hb.pre, drop_of h8, Option.pure_def]

theorem LoudsSparse.receive_of {d r : Bytes} {v : LoudsSparse} (old : LoudsSparse) (sp : Bytes) (h : unmarshal d = some (v, r)) (hb : v.Roomy) :
    old.receive ⟨d, sp⟩ = some ({ v with suffixes := v.suffixes.over old.suffixes, values := old.values }, ⟨r, sp⟩) := by
  unfold unmarshal at h
  obtain ⟨hh, h1, h⟩ := Option.bind_eq_some_iff.mp h
  obtain ⟨b1, h2, h⟩ := Option.bind_eq_some_iff.mp h
  obtain ⟨st, g1, h⟩ := Option.bind_eq_some_iff.mp h
  obtain ⟨b1', g2, h⟩ := Option.bind_eq_some_iff.mp h
  obtain ⟨dn, g3, h⟩ := Option.bind_eq_some_iff.mp h
  obtain ⟨b1'', g4, h⟩ := Option.bind_eq_some_iff.mp h
  obtain ⟨dc, g5, h⟩ := Option.bind_eq_some_iff.mp h
  obtain ⟨b1z, g6, h⟩ := Option.bind_eq_some_iff.mp h
  obtain ⟨⟨lv, b2⟩, h3, h⟩ := Option.bind_eq_some_iff.mp h
  obtain ⟨⟨hc, b3⟩, h4, h⟩ := Option.bind_eq_some_iff.mp h
  obtain ⟨⟨ip, b4⟩, h5, h⟩ := Option.bind_eq_some_iff.mp h
  obtain ⟨⟨su, b5⟩, h6, h⟩ := Option.bind_eq_some_iff.mp h
  obtain ⟨⟨pv, b6⟩, h7, h⟩ := Option.bind_eq_some_iff.mp h
  obtain ⟨rest, h8, h⟩ := Option.bind_eq_some_iff.mp h
  simp only [Option.pure_def, Option.some.injEq, Prod.mk.injEq] at h
  obtain ⟨rfl, rfl⟩ := h
  unfold receive
  refine Option.bind_eq_some_iff.mpr ⟨_, u32_of h1, ?_⟩
  refine Option.bind_eq_some_iff.mpr ⟨_, drop_of h2, ?_⟩
  refine Option.bind_eq_some_iff.mpr ⟨_, u32_of g1, ?_⟩
  refine Option.bind_eq_some_iff.mpr ⟨_, drop_of g2, ?_⟩
  refine Option.bind_eq_some_iff.mpr ⟨_, u32_of g3, ?_⟩
  refine Option.bind_eq_some_iff.mpr ⟨_, drop_of g4, ?_⟩
  refine Option.bind_eq_some_iff.mpr ⟨_, u32_of g5, ?_⟩
  refine Option.bind_eq_some_iff.mpr ⟨_, drop_of g6, ?_⟩
  refine Option.bind_eq_some_iff.mpr ⟨_, LabelVector.receive_of sp h3 hb.lab, ?_⟩
  refine Option.bind_eq_some_iff.mpr ⟨_, (RankVector.receive_of sp h4 hb.hc).1, ?_⟩
  refine Option.bind_eq_some_iff.mpr ⟨_, SelectVector.receive_of sp h5, ?_⟩
  refine Option.bind_eq_some_iff.mpr ⟨_, SuffixVector.receive_of old.suffixes sp h6, ?_⟩
  refine Option.bind_eq_some_iff.mpr ⟨_, PrefixVec.receive_of sp h7 hb.pre, ?_⟩
  refine Option.bind_eq_some_iff.mpr ⟨_, drop_of h8, ?_⟩
  rfl

/-! ## Built filters -/

theorem build_roomy {fp : Bytes → Word} {bmi : Bool} {cfg : Config} {keys vals : List Bytes} {hint : Int} {s : SuRF}
    (h : build fp bmi cfg keys vals hint = some s) (hf : s.Fits) : s.ld.Roomy ∧ s.ls.Roomy := by
  simp only [build, assemble, Option.bind_eq_bind, Option.bind_eq_some_iff, Option.pure_def, Option.some.injEq] at h
  obtain ⟨lv, -, ds, -, -, -, ld, h4, ls, h5, rfl⟩ := h
  have hl := hf.sl
  clear hf
  simp only [LoudsDense.init, Option.bind_eq_bind, Option.bind_eq_some_iff, Option.pure_def, Option.some.injEq] at h4
  obtain ⟨lv, h1, hc, h2, ip, h3, su, -, pv, h6, rfl⟩ := h4
  simp only [LoudsSparse.init, Option.bind_eq_bind, Option.bind_eq_some_iff, Option.pure_def, Option.some.injEq] at h5
  obtain ⟨dc, -, hc', g2, lo, -, su', -, pv', g5, rfl⟩ := h5
  have e1 := (RankVector.init_struct h1).2.1
  have e2 := (RankVector.init_struct h2).2.1
  have e3 := (RankVector.init_struct h3).2.1
  have e4 := (PrefixVec.init_struct h6).2.1
  have e5 := (RankVector.init_struct g2).2.1
  have e6 := (PrefixVec.init_struct g5).2.1
  refine ⟨⟨?_, ?_, ?_, ?_⟩, ⟨hl, ?_, ?_⟩⟩
  · exact e1 ▸ (by decide)
  · exact e2 ▸ (by decide)
  · exact e3 ▸ (by decide)
  · exact e4 ▸ (by decide)
  · exact e5 ▸ (by decide)
  · exact e6 ▸ (by decide)

/-- What `old.Unmarshal` makes of the bytes of `s`. -/
def SuRF.over (s old : SuRF) : SuRF :=
  { ld := { s.ld with suffixes := s.ld.suffixes.over old.ld.suffixes }, ls := { s.ls with suffixes := s.ls.suffixes.over old.ls.suffixes } }

theorem SuRF.receive_marshal (s old : SuRF) (h : s.Ok) (hd : s.ld.Roomy) (hs : s.ls.Roomy) (rest sp : Bytes) :
    old.receive ⟨s.marshal ++ rest, sp⟩ = some (s.over old) := by
  rw [marshal_eq]
  simp only [chunks, List.flatten_append, List.append_assoc]
  unfold receive
  rw [LoudsDense.receive_of old.ld sp (s.ld.roundtrip h.ld _) ⟨hd.1, hd.2, hd.3, hd.4⟩]
  simp only [Option.bind_eq_bind, Option.bind_some]
  rw [LoudsSparse.receive_of old.ls sp (s.ls.roundtrip h.ls _) ⟨hs.1, hs.2, hs.3⟩]
  simp only [Option.bind_some]
  rw [ValueVector.receive_of sp (s.ld.values.roundtrip h.ld.val _)]
  simp only [Option.bind_some]
  rw [ValueVector.receive_of sp (s.ls.values.roundtrip h.ls.val _)]
  rfl

theorem SuRF.receive_short (s old : SuRF) (h : s.Ok) (hd : s.ld.Roomy) (hs : s.ls.Roomy) (p q sp : Bytes) (e : s.marshal = p ++ q) (hq : q ≠ []) :
    old.receive ⟨p, sp⟩ = none := by
  cases hr : old.receive ⟨p, sp⟩ with
  | none => rfl
  | some t =>
    exfalso
    unfold receive at hr
    obtain ⟨⟨ld, b1⟩, h1, hr⟩ := Option.bind_eq_some_iff.mp hr
    obtain ⟨⟨ls, b2⟩, h2, hr⟩ := Option.bind_eq_some_iff.mp hr
    obtain ⟨⟨dv, b3⟩, h3, hr⟩ := Option.bind_eq_some_iff.mp hr
    obtain ⟨⟨sv, b4⟩, h4, hr⟩ := Option.bind_eq_some_iff.mp hr
    have f1 := (LoudsDense.framed old.ld p sp ld b1 h1).2.2 q []
    rw [← e, marshal_eq] at f1
    simp only [chunks, List.flatten_append, List.append_assoc] at f1
    rw [LoudsDense.receive_of old.ld [] (s.ld.roundtrip h.ld _) ⟨hd.1, hd.2, hd.3, hd.4⟩] at f1
    have r1 := (Buf.mk.inj (Prod.mk.inj (Option.some.inj f1)).2).1
    have f2 := (LoudsSparse.framed old.ls b1.data b1.spare ls b2 h2).2.2 q []
    rw [← r1, LoudsSparse.receive_of old.ls [] (s.ls.roundtrip h.ls _) ⟨hs.1, hs.2, hs.3⟩] at f2
    have r2 := (Buf.mk.inj (Prod.mk.inj (Option.some.inj f2)).2).1
    have f3 := (ValueVector.framed b2.data b2.spare dv b3 h3).2.2 q []
    rw [← r2, ValueVector.receive_of [] (s.ld.values.roundtrip h.ld.val _)] at f3
    have r3 := (Buf.mk.inj (Prod.mk.inj (Option.some.inj f3)).2).1
    have f4 := (ValueVector.framed b3.data b3.spare sv b4 h4).2.2 q []
    have r4 := s.ls.values.roundtrip h.ls.val []
    rw [List.append_nil] at r4
    rw [← r3, ValueVector.receive_of [] r4] at f4
    have := (Buf.mk.inj (Prod.mk.inj (Option.some.inj f4)).2).1
    exact hq (List.append_eq_nil_iff.mp this.symm).2

end Surf
