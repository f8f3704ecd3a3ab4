import Verif.Surf.Over
import Verif.Props.Marshal

/-!
# Properties C69 and C70: truncated filters, and `Unmarshal` into a used filter

`old.receive ⟨data, spare⟩` is `old.Unmarshal(b)` for a slice `b` with the bytes `data` up to its length and the bytes `spare` between
its length and its capacity; `none` is a panic.
-/

set_option linter.unusedSimpArgs false

namespace Surf.Props

/-- `new(SuRF)` -/
def fresh : SuRF := ⟨{}, {}⟩

/-! ## C69 -/

/-- **C69.** A marshalled filter that lost bytes at its end is not accepted: `Unmarshal` panics, whatever filter it is called on and
whatever lies behind the end of the slice (the missing bytes, for one). -/
theorem C69_truncated (fp : Bytes → Word) (bmi : Bool) (cfg : Config) (keys vals : List Bytes) (hint : Int) (s : SuRF)
    (hs : build fp bmi cfg keys vals hint = some s) (hf : s.Fits) (p q : Bytes) (e : s.marshal = p ++ q) (hq : q ≠ []) (old : SuRF) (spare : Bytes) :
    old.receive ⟨p, spare⟩ = none :=
  s.receive_short old (build_ok hs hf) (build_roomy hs hf).1 (build_roomy hs hf).2 p q spare e hq

/-- **C69.** The complete bytes are accepted, whatever follows them in the slice or behind its end; a new `SuRF` becomes `s`. -/
theorem C69_complete (fp : Bytes → Word) (bmi : Bool) (cfg : Config) (keys vals : List Bytes) (hint : Int) (s : SuRF)
    (hs : build fp bmi cfg keys vals hint = some s) (hf : s.Fits) (rest spare : Bytes) :
    (∀ old : SuRF, (old.receive ⟨s.marshal ++ rest, spare⟩).isSome) ∧ fresh.receive ⟨s.marshal ++ rest, spare⟩ = some s := by
  have ok := build_ok hs hf
  have h := fun old => s.receive_marshal old ok (build_roomy hs hf).1 (build_roomy hs hf).2 rest spare
  refine ⟨fun old => by rw [h]; rfl, ?_⟩
  rw [h]
  have o1 : s.ld.suffixes.over {} = s.ld.suffixes := by
    unfold SuffixVector.over
    split
    · next hn =>
      have := ok.ld.suf.none hn
      show { s.ld.suffixes with bv := { s.ld.suffixes.bv with bits := [] } } = _
      rw [← this]
    · rfl
  have o2 : s.ls.suffixes.over {} = s.ls.suffixes := by
    unfold SuffixVector.over
    split
    · next hn =>
      have := ok.ls.suf.none hn
      show { s.ls.suffixes with bv := { s.ls.suffixes.bv with bits := [] } } = _
      rw [← this]
    · rfl
  show some { ld := { s.ld with suffixes := s.ld.suffixes.over {} }, ls := { s.ls with suffixes := s.ls.suffixes.over {} } } = some s
  rw [o1, o2]

/-- **C69.** The bytes of one filter are never the beginning of the bytes of another one. -/
theorem C69_prefix_free (fp fp' : Bytes → Word) (bmi bmi' : Bool) (cfg cfg' : Config) (keys vals keys' vals' : List Bytes) (hint hint' : Int) (s t : SuRF)
    (hs : build fp bmi cfg keys vals hint = some s) (hf : s.Fits) (ht : build fp' bmi' cfg' keys' vals' hint' = some t) (hf' : t.Fits)
    (h : s.marshal <+: t.marshal) : s = t := by
  obtain ⟨r, e⟩ := h
  have h1 := C33_roundtrip fp' bmi' cfg' keys' vals' hint' t ht hf'
  rw [← e, s.roundtrip (build_ok hs hf)] at h1
  exact Option.some.inj h1

/-! ## C70 -/

/-- The suffix words that `old.Unmarshal` leaves where the bytes of `v` have none. -/
def stale (v old : SuffixVector) : Nat := if v.suffixType = .none then old.bv.bits.length else 0

/-- **C70, the part on queries.** `Unmarshal` into any filter, used or not, succeeds, and the result answers every call (point and range
queries, and every method of its iterators) as the marshalled filter does. -/
theorem C70_queries_partial (fp : Bytes → Word) (bmi : Bool) (cfg : Config) (keys vals : List Bytes) (hint : Int) (s : SuRF)
    (hs : build fp bmi cfg keys vals hint = some s) (hf : s.Fits) (rest spare : Bytes) (old : SuRF) :
    ∃ t, old.receive ⟨s.marshal ++ rest, spare⟩ = some t ∧
      (∀ fp' b k, t.get fp' b k = s.get fp' b k) ∧ (∀ b x y incl, t.hasOverlap b x y incl = s.hasOverlap b x y incl) ∧
      t.newIterator = s.newIterator ∧
      ∀ (b : Bool) (it : Iterator), it.next b t = it.next b s ∧ it.prev b t = it.prev b s ∧ (∀ k, it.seek b t k = it.seek b s k) ∧
        it.seekToFirst b t = it.seekToFirst b s ∧ it.seekToLast b t = it.seekToLast b s ∧ it.value t = it.value s :=
  ⟨s.over old, s.receive_marshal old (build_ok hs hf) (build_roomy hs hf).1 (build_roomy hs hf).2 rest spare,
    s.over_get old, s.over_hasOverlap old, rfl,
    fun b it => ⟨it.over_next s old b, it.over_prev s old b, it.over_seek s old b, it.over_seekToFirst s old b, it.over_seekToLast s old b, rfl⟩⟩

theorem over_chunks (v old : SuffixVector) (h : v.suffixType = .none → v.bv.bits = []) : (v.over old).chunks.flatten.length = v.chunks.flatten.length + 8 * stale v old := by
  unfold SuffixVector.over stale
  split
  · next hn =>
    simp only [SuffixVector.chunks, List.flatten_cons, List.flatten_nil, List.append_nil, List.length_append, u64SliceToBytes_length, h hn, List.length_nil,
      SuffixVector.marshalSize, SuffixVector.rawMarshalSize, BitVector.bitsSize, BitVector.numWords]
    omega
  · rfl

theorem over_marshalSize (v old : SuffixVector) : (v.over old).marshalSize = v.marshalSize := by
  unfold SuffixVector.over
  split <;> rfl

theorem over_eq_iff (v old : SuffixVector) (h : v.suffixType = .none → v.bv.bits = []) : v.over old = v ↔ stale v old = 0 := by
  unfold SuffixVector.over stale
  split
  · next hn =>
    constructor
    · intro e
      have := congrArg (fun x => x.bv.bits) e
      dsimp only at this
      rw [this, h hn]
      rfl
    · intro e
      rw [List.length_eq_zero_iff.mp e, ← h hn]
  · simp

/-- **C70, the part on marshalling.** `Unmarshal` into a used filter restores the marshalled filter exactly if no suffix words are left
in it; otherwise `Marshal` of the result returns eight bytes more than `MarshalSize` announces for each such word. -/
theorem C70_marshal_partial (fp : Bytes → Word) (bmi : Bool) (cfg : Config) (keys vals : List Bytes) (hint : Int) (s : SuRF)
    (hs : build fp bmi cfg keys vals hint = some s) (hf : s.Fits) (rest spare : Bytes) (old : SuRF) :
    ∃ t, old.receive ⟨s.marshal ++ rest, spare⟩ = some t ∧
      (t = s ↔ stale s.ld.suffixes old.ld.suffixes + stale s.ls.suffixes old.ls.suffixes = 0) ∧
      t.marshalSize = s.marshalSize ∧
      t.marshal.length = t.marshalSize + 8 * (stale s.ld.suffixes old.ld.suffixes + stale s.ls.suffixes old.ls.suffixes) := by
  have ok := build_ok hs hf
  have d1 := over_eq_iff s.ld.suffixes old.ld.suffixes ok.ld.suf.none
  have d2 := over_eq_iff s.ls.suffixes old.ls.suffixes ok.ls.suf.none
  have m1 := over_marshalSize s.ld.suffixes old.ld.suffixes
  have m2 := over_marshalSize s.ls.suffixes old.ls.suffixes
  have c1 := over_chunks s.ld.suffixes old.ld.suffixes ok.ld.suf.none
  have c2 := over_chunks s.ls.suffixes old.ls.suffixes ok.ls.suf.none
  have hsz : (s.over old).marshalSize = s.marshalSize := by
    simp only [SuRF.marshalSize, SuRF.over, LoudsDense.marshalSize, LoudsSparse.marshalSize, LoudsDense.rawMarshalSize, LoudsSparse.rawMarshalSize, m1, m2]
  refine ⟨s.over old, s.receive_marshal old ok (build_roomy hs hf).1 (build_roomy hs hf).2 rest spare, ?_, hsz, ?_⟩
  · constructor
    · intro e
      have e1 := d1.mp (congrArg (fun x => x.ld.suffixes) e)
      have e2 := d2.mp (congrArg (fun x => x.ls.suffixes) e)
      omega
    · intro e
      unfold SuRF.over
      rw [d1.mpr (by omega), d2.mpr (by omega)]
  · rw [hsz, ← s.size ok, SuRF.marshal_eq, SuRF.marshal_eq]
    simp only [SuRF.chunks, SuRF.over, LoudsDense.chunks, LoudsSparse.chunks, LoudsDense.marshalSize, LoudsSparse.marshalSize, LoudsDense.rawMarshalSize,
      LoudsSparse.rawMarshalSize, m1, m2, List.flatten_append, List.length_append, c1, c2]
    omega

/-! ### Examples -/

/-- A filter without suffixes. -/
def plainSurf : Option SuRF := build (fun _ => 0#64) true (newBuilder 1 0 0) [[1, 2], [1, 3]] [[10], [20]] 700

theorem plainSurf_isSome : plainSurf.isSome = true := by decide +kernel

/-- The filter without suffixes that is unmarshalled below. -/
def plain : SuRF := plainSurf.get plainSurf_isSome
/-- The used filter (with suffixes) that receives it. -/
def used : SuRF := exampleSurf.get exampleSurf_isSome

theorem plain_built : build (fun _ => 0#64) true (newBuilder 1 0 0) [[1, 2], [1, 3]] [[10], [20]] 700 = some plain := by
  show plainSurf = _
  simp [plain]

theorem plain_fits : plain.Fits := by constructor <;> decide +kernel

/-- C69: the last byte is missing from the slice, but still there behind its end. -/
example (old : SuRF) : old.receive ⟨plain.marshal.take 255, plain.marshal.drop 255⟩ = none :=
  C69_truncated _ _ _ _ _ _ plain plain_built plain_fits (plain.marshal.take 255) (plain.marshal.drop 255) (List.take_append_drop _ _).symm (by decide +kernel) old _

/-- **C70 as first stated is false.** A filter with suffixes is reused to restore one without; it answers as it should, but what it
marshals to is longer than `MarshalSize` and cannot be unmarshalled: `Unmarshal` panics. -/
theorem C70_violated : ∃ (s old t : SuRF), build (fun _ => 0#64) true (newBuilder 1 0 0) [[1, 2], [1, 3]] [[10], [20]] 700 = some s ∧ s.Fits ∧
    exampleSurf = some old ∧ old.receive ⟨s.marshal, []⟩ = some t ∧ (fresh.receive ⟨s.marshal, []⟩) = some s ∧
    t.marshal.length = t.marshalSize + 16 ∧ fresh.receive ⟨t.marshal, []⟩ = none := by
  refine ⟨plain, used, plain.over used, plain_built, plain_fits, by simp [used], ?_, ?_, by decide +kernel, ?_⟩
  · have := plain.receive_marshal used (build_ok plain_built plain_fits) (build_roomy plain_built plain_fits).1 (build_roomy plain_built plain_fits).2 [] []
    rwa [List.append_nil] at this
  · have := (C69_complete _ _ _ _ _ _ plain plain_built plain_fits [] []).2
    rwa [List.append_nil] at this
  · have : (fresh.receive ⟨(plain.over used).marshal, []⟩).isNone = true := by decide +kernel
    exact Option.isNone_iff_eq_none.mp this

end Surf.Props
