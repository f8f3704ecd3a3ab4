import Verif.Surf.Shared
import Verif.Props.SurfAlias
import Verif.Props.SurfSize
import Verif.Props.Receive

/-!
# C80: the slices `Get` returns for a restored filter are memory of the slice it was restored from

The theorems of C77 for a filter restored by `Unmarshal`. The two value vectors lie in the caller's slice one behind the other, and the capacity of a value reaches to that of the slice.
-/

set_option linter.unusedSimpArgs false

namespace Surf.Props

open Surf

/-! ## Specification: writing through a value of a restored filter -/

/-- `copy(v[i:], xs)` with the value `v` at place `p` -/
def Shared.copyInto (x : Shared) (p : Ref) (i : Nat) (xs : Bytes) : Shared := { x with mem := overwrite x.mem (x.off p + i) (xs.take ((x.s.vec p.1).valueSize - i)) }

/-- `append(v, xs...)` with the value `v` at place `p`: stored behind the value if the capacity is sufficient, elsewhere otherwise -/
def Shared.appendTo (x : Shared) (p : Ref) (xs : Bytes) : Shared :=
  if x.off p + (x.s.vec p.1).valueSize + xs.length ≤ x.mem.length then { x with mem := overwrite x.mem (x.off p + (x.s.vec p.1).valueSize) xs } else x

/-- The padding behind a value vector -/
def padding (v : ValueVector) : Nat := align (8 + v.bytes.length) - (8 + v.bytes.length)

/-! ## Places -/

theorem padding_eq (v : ValueVector) : 8 + v.bytes.length + padding v = v.marshalSize := by
  have := align_le (8 + v.bytes.length)
  unfold padding ValueVector.marshalSize ValueVector.rawMarshalSize
  omega

theorem values_chunks (v : ValueVector) : v.chunks.flatten = (putUint32 v.bytes.length ++ putUint32 v.valueSize) ++ (v.bytes ++ zeros (padding v)) := by
  simp only [ValueVector.chunks, List.flatten_cons, List.flatten_nil, List.append_nil, List.append_assoc]
  rfl

theorem part_of {a m b : Bytes} {n : Nat} (h : a.length = n) : ((a ++ (m ++ b)).drop n).take m.length = m := by
  subst h
  rw [List.drop_left', List.take_left'] <;> rfl

section
variable {fp : Bytes → Word} {bmi : Bool} {vs h r : Nat} {keys vals : List Bytes} {hint : Int} {s : SuRF}

/-- **C80, where the values are.** `Unmarshal` finds the dense values 8 bytes behind the index, and the sparse values 8 bytes behind the dense values with their padding; the filter is `s`. The index is not in the part of memory that begins
with the values: whatever follows it, `Unmarshal` reads the same index. -/
theorem C80_places (hs : build fp bmi (newBuilder vs h r) keys vals hint = some s) (hf : s.Fits) (rest spare : Bytes) :
    ∃ x, Shared.receive ⟨s.marshal ++ rest, spare⟩ = some x ∧ x.s = s ∧ x.mem = s.marshal ++ rest ++ spare ∧ x.dense = s.marshalNoValueSize + 8 ∧
      x.sparse = x.dense + s.ld.values.bytes.length + padding s.ld.values + 8 ∧ x.sparse + s.ls.values.bytes.length + padding s.ls.values = s.marshal.length ∧ x.filter = s ∧
      ∀ q q', ∃ b1, LoudsDense.receive {} ⟨s.marshal.take s.marshalNoValueSize ++ q, q'⟩ = some ({ s.ld with values := {} }, b1) ∧ LoudsSparse.receive {} b1 = some ({ s.ls with values := {} }, ⟨q, q'⟩) := by
  have ok := build_ok hs hf
  obtain ⟨hd, hsp⟩ := build_roomy hs hf
  have o1 : s.ld.suffixes.over ({} : LoudsDense).suffixes = s.ld.suffixes := by
    unfold SuffixVector.over
    split
    · next hn =>
      have := ok.ld.suf.none hn
      show { s.ld.suffixes with bv := { s.ld.suffixes.bv with bits := [] } } = _
      rw [← this]
    · rfl
  have o2 : s.ls.suffixes.over ({} : LoudsSparse).suffixes = s.ls.suffixes := by
    unfold SuffixVector.over
    split
    · next hn =>
      have := ok.ls.suf.none hn
      show { s.ls.suffixes with bv := { s.ls.suffixes.bv with bits := [] } } = _
      rw [← this]
    · rfl
  have r1 : ∀ q q', LoudsDense.receive {} ⟨s.ld.chunks.flatten ++ q, q'⟩ = some ({ s.ld with values := {} }, ⟨q, q'⟩) := by
    intro q q'
    rw [LoudsDense.receive_of {} q' (s.ld.roundtrip ok.ld _) ⟨hd.1, hd.2, hd.3, hd.4⟩]
    dsimp only
    rw [o1]
  have r2 : ∀ q q', LoudsSparse.receive {} ⟨s.ls.chunks.flatten ++ q, q'⟩ = some ({ s.ls with values := {} }, ⟨q, q'⟩) := by
    intro q q'
    rw [LoudsSparse.receive_of {} q' (s.ls.roundtrip ok.ls _) ⟨hsp.1, hsp.2, hsp.3⟩]
    dsimp only
    rw [o2]
  have hm : s.marshal = s.ld.chunks.flatten ++ (s.ls.chunks.flatten ++ (s.ld.values.chunks.flatten ++ s.ls.values.chunks.flatten)) := by
    rw [SuRF.marshal_eq]
    simp only [SuRF.chunks, List.flatten_append]
  have l1 := s.ld.size ok.ld
  have l2 := s.ls.size ok.ls
  have l3 := s.ld.values.size
  have l4 := s.ls.values.size
  have p3 := padding_eq s.ld.values
  have p4 := padding_eq s.ls.values
  have hlen := congrArg List.length hm
  simp only [List.length_append] at hlen
  have hidx : s.marshalNoValueSize = s.ld.marshalSize + s.ls.marshalSize := rfl
  refine ⟨⟨s, s.marshal ++ rest ++ spare, s.marshalNoValueSize + 8, s.marshalNoValueSize + 8 + s.ld.values.bytes.length + padding s.ld.values + 8⟩, ?_, rfl, rfl, rfl, rfl, ?_, ?_, ?_⟩
  · unfold Shared.receive
    conv =>
      lhs
      arg 1
      rw [hm]
      simp only [List.append_assoc]
    rw [r1]
    simp only [Option.bind_eq_bind, Option.bind_some]
    rw [r2]
    simp only [Option.bind_some]
    rw [ValueVector.receive_of spare (s.ld.values.roundtrip ok.ld.val _)]
    simp only [Option.bind_some]
    rw [ValueVector.receive_of spare (s.ls.values.roundtrip ok.ls.val _)]
    simp only [Option.bind_some, Option.pure_def, Option.some.injEq, Shared.mk.injEq, List.length_append]
    refine ⟨trivial, trivial, ?_, ?_⟩ <;> omega
  · dsimp only
    omega
  · have e1 : (⟨s, s.marshal ++ rest ++ spare, s.marshalNoValueSize + 8, s.marshalNoValueSize + 8 + s.ld.values.bytes.length + padding s.ld.values + 8⟩ : Shared).vec true = s.ld.values := by
      show ({ s.ld.values with bytes := ((s.marshal ++ rest ++ spare).drop (s.marshalNoValueSize + 8)).take s.ld.values.bytes.length } : ValueVector) = s.ld.values
      have e : s.marshal ++ rest ++ spare = (s.ld.chunks.flatten ++ (s.ls.chunks.flatten ++ (putUint32 s.ld.values.bytes.length ++ putUint32 s.ld.values.valueSize))) ++
          (s.ld.values.bytes ++ (zeros (padding s.ld.values) ++ (s.ls.values.chunks.flatten ++ (rest ++ spare)))) := by
        rw [hm, values_chunks]
        simp only [List.append_assoc]
      rw [e, part_of]
      simp only [List.length_append, putUint32_length]
      omega
    have e2 : (⟨s, s.marshal ++ rest ++ spare, s.marshalNoValueSize + 8, s.marshalNoValueSize + 8 + s.ld.values.bytes.length + padding s.ld.values + 8⟩ : Shared).vec false = s.ls.values := by
      show ({ s.ls.values with bytes := ((s.marshal ++ rest ++ spare).drop (s.marshalNoValueSize + 8 + s.ld.values.bytes.length + padding s.ld.values + 8)).take s.ls.values.bytes.length } : ValueVector) = s.ls.values
      have e : s.marshal ++ rest ++ spare = (s.ld.chunks.flatten ++ (s.ls.chunks.flatten ++ (s.ld.values.chunks.flatten ++ (putUint32 s.ls.values.bytes.length ++ putUint32 s.ls.values.valueSize)))) ++
          (s.ls.values.bytes ++ (zeros (padding s.ls.values) ++ (rest ++ spare))) := by
        rw [hm, values_chunks s.ls.values]
        simp only [List.append_assoc]
      rw [e, part_of]
      simp only [List.length_append, putUint32_length]
      omega
    unfold Shared.filter
    rw [e1, e2]
    rfl
  · intro q q'
    have e : s.marshal.take s.marshalNoValueSize = s.ld.chunks.flatten ++ s.ls.chunks.flatten := by
      rw [hm, ← List.append_assoc, List.take_left' (by rw [List.length_append]; omega)]
    rw [e, List.append_assoc]
    exact ⟨_, r1 _ _, r2 _ _⟩

/-- What the following theorems assume of `x`: a filter for `keys` and `vals`, restored from a slice that begins with the marshalled bytes. -/
structure Restored (fp : Bytes → Word) (bmi : Bool) (vs h r : Nat) (keys vals : List Bytes) (hint : Int) (s : SuRF) (rest spare : Bytes) (x : Shared) : Prop where
  hhr : h + r ≤ 64
  inp : Input vs keys vals
  built : build fp bmi (newBuilder vs h r) keys vals hint = some s
  fits : s.Fits
  shared : Shared.receive ⟨s.marshal ++ rest, spare⟩ = some x

variable {rest spare : Bytes} {x : Shared}

theorem Restored.facts (R : Restored fp bmi vs h r keys vals hint s rest spare x) : x.s = s ∧ x.mem = s.marshal ++ rest ++ spare ∧ x.dense = s.marshalNoValueSize + 8 ∧
      x.sparse = x.dense + s.ld.values.bytes.length + padding s.ld.values + 8 ∧ x.sparse + s.ls.values.bytes.length + padding s.ls.values = s.marshal.length ∧ x.filter = s := by
  obtain ⟨y, h1, h2, h3, h4, h5, h6, h7, -⟩ := C80_places R.built R.fits rest spare
  rw [R.shared] at h1
  cases h1
  exact ⟨h2, h3, h4, h5, h6, h7⟩

/-- Every value lies within memory. -/
theorem Restored.inside (R : Restored fp bmi vs h r keys vals hint s rest spare x) (d : Bool) : x.base d + (s.vec d).bytes.length ≤ x.mem.length := by
  obtain ⟨h1, h2, h3, h4, h5, -⟩ := R.facts
  have : x.mem.length = s.marshal.length + rest.length + spare.length := by rw [h2, List.length_append, List.length_append]
  cases d
  · show x.sparse + s.ls.values.bytes.length ≤ _
    omega
  · show x.dense + s.ld.values.bytes.length ≤ _
    omega

theorem Restored.vec_eq (R : Restored fp bmi vs h r keys vals hint s rest spare x) (d : Bool) : (s.vec d).bytes = (x.mem.drop (x.base d)).take (s.vec d).bytes.length := by
  obtain ⟨h1, h2, h3, h4, h5, h6⟩ := R.facts
  have e : (x.filter.vec d).bytes = (s.vec d).bytes := by rw [h6]
  rw [← e]
  conv => rhs; rw [e]
  subst h1
  cases d <;> rfl

/-- What a stored key has as its value, byte by byte, when memory is `m`. -/
theorem Restored.get (R : Restored fp bmi vs h r keys vals hint s rest spare x) {n : Nat} {k v : Bytes} (hk : keys[n]? = some k) (hv : vals[n]? = some v) {p : Ref} (hp : s.getRef fp bmi k = some (some p))
    (m : Bytes) (hm : m.length = x.mem.length) : ∃ w, ({ x with mem := m } : Shared).filter.get fp bmi k = some (w, true) ∧ w.length = vs ∧ (∀ i, i < vs → w[i]? = m[x.off p + i]?) ∧
      (∀ i, i < vs → (v.take vs)[i]? = x.mem[x.off p + i]?) ∧ (v.take vs).length = vs ∧ x.off p = x.base p.1 + p.2 * vs ∧ p.2 * vs + vs ≤ (s.vec p.1).bytes.length ∧ (x.s.vec p.1).valueSize = vs := by
  obtain ⟨h1, h2, h3⟩ := stored_read R.hhr R.inp R.built hk hv hp
  obtain ⟨f1, -⟩ := R.facts
  have hin := R.inside p.1
  have hoff : x.off p = x.base p.1 + p.2 * vs := by
    unfold Shared.off
    rw [f1, h1]
  have hvec : (({ x with mem := m } : Shared).filter.vec p.1) = { s.vec p.1 with bytes := (m.drop (x.base p.1)).take (s.vec p.1).bytes.length } := by
    obtain ⟨d, j⟩ := p
    rw [← f1]
    cases d <;> rfl
  have hbl : ((m.drop (x.base p.1)).take (s.vec p.1).bytes.length).length = (s.vec p.1).bytes.length := by
    rw [List.length_take, List.length_drop]
    omega
  have hgr : ({ x with mem := m } : Shared).filter.getRef fp bmi k = some (some p) := by
    unfold Shared.filter
    rw [SuRF.reval_getRef]
    show x.s.getRef fp bmi k = _
    rw [f1, hp]
  refine ⟨(((m.drop (x.base p.1)).take (s.vec p.1).bytes.length).take (p.2 * vs + vs)).drop (p.2 * vs), ?_, ?_, ?_, ?_, ?_, hoff, h2, by rw [f1]; exact h1⟩
  · rw [SuRF.get_ref, hgr]
    simp only [Option.bind_some, SuRF.read]
    rw [hvec]
    simp only [ValueVector.get, h1]
    rw [slice_some.mpr ⟨by omega, by rw [hbl]; exact h2, rfl⟩]
    rfl
  · rw [List.length_drop, List.length_take, hbl]
    omega
  · intro i hi
    rw [part_get, if_pos hi, List.getElem?_take_of_lt (by omega), List.getElem?_drop, hoff]
    congr 1
    omega
  · intro i hi
    rw [h3, part_get, if_pos hi, R.vec_eq p.1, List.getElem?_take_of_lt (by omega), List.getElem?_drop, hoff]
    congr 1
    omega
  · rw [h3, List.length_drop, List.length_take]
    omega

/-- **C80, `append`.** After `append(v, xs...)` to the value of the stored key `k`, if the capacity allows: every byte of every value is as before, but for those that lie, in the slice the filter was restored from, at most `len(xs)` bytes behind the
value of `k`. -/
theorem C80_append (R : Restored fp bmi vs h r keys vals hint s rest spare x) {n : Nat} {k v : Bytes} (hk : keys[n]? = some k) (hv : vals[n]? = some v) {p : Ref} (hp : s.getRef fp bmi k = some (some p)) (xs : Bytes)
    (hroom : x.off p + vs + xs.length ≤ x.mem.length) {n' : Nat} {k' v' : Bytes} (hk' : keys[n']? = some k') (hv' : vals[n']? = some v') {p' : Ref} (hp' : s.getRef fp bmi k' = some (some p')) :
    ∃ w, (Shared.appendTo x p xs).filter.get fp bmi k' = some (w, true) ∧ w.length = vs ∧
      ∀ i, i < vs → w[i]? = if x.off p + vs ≤ x.off p' + i ∧ x.off p' + i < x.off p + vs + xs.length then xs[x.off p' + i - (x.off p + vs)]? else (v'.take vs)[i]? := by
  obtain ⟨-, -, -, -, -, -, -, -, hvs⟩ := R.get hk hv hp x.mem rfl
  obtain ⟨w, g1, g2, g3, g4, -⟩ := R.get hk' hv' hp' (overwrite x.mem (x.off p + vs) xs) (overwrite_length hroom)
  refine ⟨w, ?_, g2, fun i hi => ?_⟩
  · unfold Shared.appendTo
    rw [hvs, if_pos hroom]
    exact g1
  · rw [g3 i hi, overwrite_get hroom, g4 i hi]

/-- **C80, `append` without room.** -/
theorem C80_append_new (x : Shared) (p : Ref) (xs : Bytes) (h : x.mem.length < x.off p + (x.s.vec p.1).valueSize + xs.length) : Shared.appendTo x p xs = x := by
  unfold Shared.appendTo
  rw [if_neg (by omega)]

theorem list_ext_lt {a b : Bytes} {n : Nat} (ha : a.length = n) (hb : b.length = n) (h : ∀ i, i < n → a[i]? = b[i]?) : a = b := by
  apply List.ext_getElem?
  intro i
  by_cases hi : i < n
  · exact h i hi
  · rw [List.getElem?_eq_none (by omega), List.getElem?_eq_none (by omega)]

/-- **C80, into the other vector.** Appending to the last dense value `padding + 8 + vs` bytes gives the key with the first sparse value the last `vs` of them as its value. -/
theorem C80_spill (R : Restored fp bmi vs h r keys vals hint s rest spare x) {n : Nat} {k v : Bytes} (hk : keys[n]? = some k) (hv : vals[n]? = some v) {p : Nat} (hp : s.getRef fp bmi k = some (some (true, p)))
    (hlast : (p + 1) * vs = s.ld.values.bytes.length) (xs : Bytes) (hx : xs.length = padding s.ld.values + 8 + vs) {n' : Nat} {k' v' : Bytes} (hk' : keys[n']? = some k') (hv' : vals[n']? = some v')
    (hp' : s.getRef fp bmi k' = some (some (false, 0))) :
    (Shared.appendTo x (true, p) xs).filter.get fp bmi k' = some (xs.drop (padding s.ld.values + 8), true) := by
  obtain ⟨f1, f2, f3, f4, f5, -⟩ := R.facts
  obtain ⟨-, -, -, -, -, -, o1, -, -⟩ := R.get hk hv hp x.mem rfl
  obtain ⟨-, -, -, -, -, -, o2, o3, -⟩ := R.get hk' hv' hp' x.mem rfl
  have b1 : x.base (true, p).1 = x.dense := rfl
  have b2 : x.base (false, 0).1 = x.sparse := rfl
  have hml : x.mem.length = s.marshal.length + rest.length + spare.length := by rw [f2, List.length_append, List.length_append]
  have o3' : 0 * vs + vs ≤ s.ls.values.bytes.length := o3
  have e1 : x.off (true, p) + vs + padding s.ld.values + 8 = x.off (false, 0) := by
    rw [o1, o2, b1, b2]
    rw [Nat.add_mul, Nat.one_mul] at hlast
    dsimp only
    omega
  have hroom : x.off (true, p) + vs + xs.length ≤ x.mem.length := by
    rw [b2] at o2
    dsimp only at o2
    omega
  obtain ⟨w, g1, g2, g3⟩ := C80_append R hk hv hp xs hroom hk' hv' hp'
  rw [g1]
  congr 2
  refine list_ext_lt g2 (by rw [List.length_drop]; omega) fun i hi => ?_
  rw [g3 i hi, if_pos (by omega), List.getElem?_drop]
  congr 1
  omega

theorem overwrite_behind {a c xs : Bytes} {i n : Nat} (h : i + n = a.length) (hx : n ≤ xs.length) : (overwrite (a ++ c) i xs).drop a.length = xs.drop n ++ c.drop (xs.length - n) := by
  have h1 : ((a ++ c).take i).length = i := by
    rw [List.length_take, List.length_append]
    omega
  have e1 : a.length - i = n := by omega
  have e2 : i + xs.length - a.length = xs.length - n := by omega
  unfold overwrite
  rw [List.append_assoc, List.drop_append, List.drop_of_length_le (by omega), List.nil_append, h1, e1, List.drop_append_of_le_length hx, List.drop_append, List.drop_of_length_le (l := a) (by omega), List.nil_append, e2]

/-- **C80, behind the filter.** Appending to the last sparse value changes no value, but the caller's bytes behind the padding of the filter in its slice, as far as the capacity of the slice. -/
theorem C80_behind (R : Restored fp bmi vs h r keys vals hint s rest spare x) {n : Nat} {k v : Bytes} (hk : keys[n]? = some k) (hv : vals[n]? = some v) {p : Nat} (hp : s.getRef fp bmi k = some (some (false, p)))
    (hlast : (p + 1) * vs = s.ls.values.bytes.length) (xs : Bytes) (hx : padding s.ls.values ≤ xs.length) (hroom : xs.length ≤ padding s.ls.values + rest.length + spare.length) :
    (∀ (n' : Nat) (k' v' : Bytes), keys[n']? = some k' → vals[n']? = some v' → (Shared.appendTo x (false, p) xs).filter.get fp bmi k' = some (v'.take vs, true)) ∧
    (Shared.appendTo x (false, p) xs).mem.drop s.marshal.length = xs.drop (padding s.ls.values) ++ (rest ++ spare).drop (xs.length - padding s.ls.values) := by
  obtain ⟨f1, f2, f3, f4, f5, -⟩ := R.facts
  obtain ⟨-, -, -, -, -, -, o1, o3, hvs⟩ := R.get hk hv hp x.mem rfl
  have b1 : x.base (false, p).1 = x.sparse := rfl
  have hml : x.mem.length = s.marshal.length + rest.length + spare.length := by rw [f2, List.length_append, List.length_append]
  rw [Nat.add_mul, Nat.one_mul] at hlast
  rw [b1] at o1
  dsimp only at o1
  have e1 : x.off (false, p) + vs + padding s.ls.values = s.marshal.length := by omega
  have hr : x.off (false, p) + vs + xs.length ≤ x.mem.length := by omega
  refine ⟨fun n' k' v' hk' hv' => ?_, ?_⟩
  · obtain ⟨hown, -⟩ := C77_own R.hhr R.inp R.built
    obtain ⟨p', hp'⟩ := hown k' (List.mem_of_getElem? hk')
    obtain ⟨-, -, -, -, -, l1, o2, o4, -⟩ := R.get hk' hv' hp' x.mem rfl
    obtain ⟨w, g1, g2, g3⟩ := C80_append R hk hv hp xs hr hk' hv' hp'
    rw [g1]
    congr 2
    refine list_ext_lt g2 l1 fun i hi => ?_
    rw [g3 i hi, if_neg]
    obtain ⟨d, j⟩ := p'
    cases d
    · have b2 : x.base (false, j).1 = x.sparse := rfl
      have o4' : j * vs + vs ≤ s.ls.values.bytes.length := o4
      rw [b2] at o2
      dsimp only at o2
      omega
    · have b2 : x.base (true, j).1 = x.dense := rfl
      have o4' : j * vs + vs ≤ s.ld.values.bytes.length := o4
      rw [b2] at o2
      dsimp only at o2
      omega
  · unfold Shared.appendTo
    rw [hvs, if_pos hr]
    dsimp only
    rw [f2, List.append_assoc]
    exact overwrite_behind (by omega) hx

/-- **C80, `copy`.** As in C77: the value of `k` is changed, and no other. -/
theorem C80_copy (R : Restored fp bmi vs h r keys vals hint s rest spare x) {n : Nat} {k v : Bytes} (hk : keys[n]? = some k) (hv : vals[n]? = some v) {p : Ref} (hp : s.getRef fp bmi k = some (some p)) (i : Nat) (hi : i ≤ vs)
    (xs : Bytes) :
    (Shared.copyInto x p i xs).filter.get fp bmi k = some (overwrite (v.take vs) i (xs.take (vs - i)), true) ∧
    ∀ (n' : Nat) (k' v' : Bytes), keys[n']? = some k' → vals[n']? = some v' → k' ≠ k → (Shared.copyInto x p i xs).filter.get fp bmi k' = some (v'.take vs, true) := by
  have hin := R.inside p.1
  obtain ⟨f1, f2, f3, f4, f5, -⟩ := R.facts
  obtain ⟨-, -, -, -, -, l1, o1, o3, hvs⟩ := R.get hk hv hp x.mem rfl
  have hl : (xs.take (vs - i)).length ≤ vs - i := by rw [List.length_take]; omega
  have hroom : x.off p + i + (xs.take (vs - i)).length ≤ x.mem.length := by omega
  unfold Shared.copyInto
  rw [hvs]
  generalize xs.take (vs - i) = ys at hl hroom
  constructor
  · obtain ⟨w, g1, g2, g3, g4, -⟩ := R.get hk hv hp (overwrite x.mem (x.off p + i) ys) (overwrite_length hroom)
    rw [g1]
    congr 2
    refine list_ext_lt g2 (by rw [overwrite_length (by omega)]; exact l1) fun j hj => ?_
    rw [g3 j hj, overwrite_get hroom, overwrite_get (by omega), g4 j hj]
    by_cases c : i ≤ j ∧ j < i + ys.length
    · rw [if_pos c, if_pos (by omega)]
      congr 1
      omega
    · rw [if_neg c, if_neg (by omega)]
  · intro n' k' v' hk' hv' hne
    obtain ⟨hown, hdiff⟩ := C77_own R.hhr R.inp R.built
    obtain ⟨p', hp'⟩ := hown k' (List.mem_of_getElem? hk')
    obtain ⟨w, g1, g2, g3, g4, l2, o2, o4, -⟩ := R.get hk' hv' hp' (overwrite x.mem (x.off p + i) ys) (overwrite_length hroom)
    rw [g1]
    congr 2
    refine list_ext_lt g2 l2 fun j hj => ?_
    rw [g3 j hj, overwrite_get hroom, g4 j hj, if_neg]
    have hpp : p' ≠ p := fun e => hne (hdiff k' (List.mem_of_getElem? hk') k (List.mem_of_getElem? hk) p (by rw [hp', e]) hp)
    obtain ⟨d, a⟩ := p
    obtain ⟨d', a'⟩ := p'
    dsimp only at o1 o2 o3 o4
    by_cases hd : d' = d
    · subst hd
      have ha : a' ≠ a := fun e => hpp (by rw [e])
      rcases Nat.lt_or_ge a' a with q | q
      · have : (a' + 1) * vs ≤ a * vs := Nat.mul_le_mul_right vs q
        rw [Nat.add_mul, Nat.one_mul] at this
        omega
      · have : (a + 1) * vs ≤ a' * vs := Nat.mul_le_mul_right vs (by omega)
        rw [Nat.add_mul, Nat.one_mul] at this
        omega
    · have b1 : x.base true = x.dense := rfl
      have b2 : x.base false = x.sparse := rfl
      have v1 : s.vec true = s.ld.values := rfl
      have v2 : s.vec false = s.ls.values := rfl
      cases d <;> cases d' <;> first | exact absurd rfl hd | skip
      · rw [b1] at o2
        rw [b2] at o1
        rw [v1] at o4
        omega
      · rw [b2] at o2
        rw [b1] at o1
        rw [v1] at o3
        omega

end

/-! ## Example -/

/-- The keys "a", "b", "c1", "c2" with the values 1 to 4; the first two are in the dense part, the others in the sparse part. -/
def sharedFilter : Option SuRF := build (fun _ => 0) true (newBuilder 1 0 0) [[97], [98], [99, 49], [99, 50]] [[1], [2], [3], [4]] 200

/-- It is restored from a slice in which it is followed by the bytes 21, 22, 23; behind these the slice has a capacity of two bytes more. -/
def sharedExample : Option Shared := sharedFilter.bind fun s => Shared.receive ⟨s.marshal ++ [21, 22, 23], [24, 25]⟩

/-- The values and the bytes behind the filter after `append(v, xs...)` to the value at place `p`, and whether the filter could be restored from the slice once more -/
def sharedAfter (p : Ref) (xs : Bytes) : Option (List (Option (Bytes × Bool)) × Bytes × Bool) :=
  sharedFilter.bind fun s => sharedExample.map fun x =>
    let y := Shared.appendTo x p xs
    ([[97], [98], [99, 49], [99, 50]].map (y.filter.get (fun _ => 0) true), y.mem.drop s.marshal.length, (Shared.receive ⟨y.mem.take (s.marshal.length + 3), y.mem.drop (s.marshal.length + 3)⟩).isSome)

/-- One byte appended to the value of "a" becomes the value of "b". Of 16 bytes appended to the value of "b" the last two become the values of "c1" and "c2", and from the slice the filter cannot be restored again. 11 bytes appended to the
value of "c2" go over the caller's bytes, 12 do not fit. -/
theorem C80_witness :
    sharedAfter (true, 0) [9] = some ([some ([1], true), some ([9], true), some ([3], true), some ([4], true)], [21, 22, 23, 24, 25], true) ∧
    sharedAfter (true, 1) [11, 11, 11, 11, 11, 11, 12, 12, 12, 12, 12, 12, 12, 12, 13, 14] = some ([some ([1], true), some ([2], true), some ([13], true), some ([14], true)], [21, 22, 23, 24, 25], false) ∧
    sharedAfter (false, 1) [11, 11, 11, 11, 11, 11, 12, 13, 14, 15, 16] = some ([some ([1], true), some ([2], true), some ([3], true), some ([4], true)], [12, 13, 14, 15, 16], true) ∧
    sharedAfter (false, 1) [11, 11, 11, 11, 11, 11, 12, 13, 14, 15, 16, 17] = some ([some ([1], true), some ([2], true), some ([3], true), some ([4], true)], [21, 22, 23, 24, 25], true) := by
  refine ⟨?_, ?_, ?_, ?_⟩ <;> decide +kernel

/-- The hypotheses are met by the example. -/
example : ∃ s x, Restored (fun _ => 0) true 1 0 0 [[97], [98], [99, 49], [99, 50]] [[1], [2], [3], [4]] 200 s [21, 22, 23] [24, 25] x ∧ s.getRef (fun _ => 0) true [98] = some (some (true, 1)) ∧
    s.getRef (fun _ => 0) true [99, 49] = some (some (false, 0)) ∧ (Shared.appendTo x (true, 1) [0, 0, 0, 0, 0, 0, 0, 0, 0, 0, 0, 0, 0, 0, 9]).filter.get (fun _ => 0) true [99, 49] = some ([9], true) := by
  have hsome : sharedFilter.isSome = true := by decide +kernel
  obtain ⟨s, hs⟩ := Option.isSome_iff_exists.mp hsome
  have hin : Input 1 [[97], [98], [99, 49], [99, 50]] [[1], [2], [3], [4]] := ⟨by decide, by decide, by decide, rfl, by decide, by decide⟩
  have hfit : s.Fits := fits_of_input _ _ _ _ _ (by omega) _ _ hin _ _ hs (by decide) (by decide)
  obtain ⟨x, hx, -⟩ := C80_places hs hfit [21, 22, 23] [24, 25]
  have R : Restored (fun _ => 0) true 1 0 0 [[97], [98], [99, 49], [99, 50]] [[1], [2], [3], [4]] 200 s [21, 22, 23] [24, 25] x := ⟨by omega, hin, hs, hfit, hx⟩
  have f : (sharedFilter.map fun s => (s.getRef (fun _ => 0) true [98], s.getRef (fun _ => 0) true [99, 49], s.ld.values.bytes.length, padding s.ld.values)) = some (some (some (true, 1)), some (some (false, 0)), 2, 6) := by decide +kernel
  rw [hs] at f
  simp only [Option.map_some, Option.some.injEq, Prod.mk.injEq] at f
  obtain ⟨f1, f2, f3, f4⟩ := f
  refine ⟨s, x, R, f1, f2, ?_⟩
  have := C80_spill R (n := 1) (v := [2]) rfl rfl f1 (by rw [f3]) [0, 0, 0, 0, 0, 0, 0, 0, 0, 0, 0, 0, 0, 0, 9] (by rw [f4]; rfl) (n' := 2) (v' := [3]) rfl rfl f2
  rw [f4] at this
  exact this

end Surf.Props
