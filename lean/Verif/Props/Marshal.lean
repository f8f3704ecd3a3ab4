import Verif.Surf.BuiltOk
import Verif.Spec.Writer

/-!
# Properties C33–C37: serialization of filters

`build fp bmi cfg keys vals hint = some s` says that `s` is a filter returned by `Build`. `s.Fits` says that every number that
the Go structs keep in a `uint32` is below `2^32` (the model computes with natural numbers).
-/

set_option linter.unusedSimpArgs false

namespace Surf.Props

/-- **C33.** Unmarshalling what `Marshal` returns restores the filter. -/
theorem C33_roundtrip (fp : Bytes → Word) (bmi : Bool) (cfg : Config) (keys vals : List Bytes) (hint : Int) (s : SuRF)
    (hs : build fp bmi cfg keys vals hint = some s) (hf : s.Fits) : SuRF.unmarshal s.marshal = some s := by
  have := s.roundtrip (build_ok hs hf) []
  rwa [List.append_nil] at this

/-- **C36.** Whatever follows the marshalled filter is ignored. -/
theorem C36_trailing (fp : Bytes → Word) (bmi : Bool) (cfg : Config) (keys vals : List Bytes) (hint : Int) (s : SuRF)
    (hs : build fp bmi cfg keys vals hint = some s) (hf : s.Fits) (rest : Bytes) :
    SuRF.unmarshal (s.marshal ++ rest) = SuRF.unmarshal s.marshal := by
  rw [C33_roundtrip fp bmi cfg keys vals hint s hs hf, s.roundtrip (build_ok hs hf)]

/-- **C34.** The restored filter answers `Get` as the original one does, for every query. -/
theorem C34_same_answers (fp : Bytes → Word) (bmi : Bool) (cfg : Config) (keys vals : List Bytes) (hint : Int) (s : SuRF)
    (hs : build fp bmi cfg keys vals hint = some s) (hf : s.Fits) :
    ∃ s', SuRF.unmarshal s.marshal = some s' ∧ ∀ query, s'.get fp bmi query = s.get fp bmi query :=
  ⟨s, C33_roundtrip fp bmi cfg keys vals hint s hs hf, fun _ => rfl⟩

/-- The bytes that the index part (dense and sparse, without values) writes into a buffer. -/
def indexBytes (s : SuRF) : Bytes :=
  ((do s.ld.writeTo SuRF.bufferWrite; s.ls.writeTo SuRF.bufferWrite : StateM Bytes Unit).run []).2

/-- **C35.** `MarshalSize` is exactly the length of `Marshal`, `MarshalNoValueSize` the length of its index part, and both
are multiples of 8. -/
theorem C35_size (fp : Bytes → Word) (bmi : Bool) (cfg : Config) (keys vals : List Bytes) (hint : Int) (s : SuRF)
    (hs : build fp bmi cfg keys vals hint = some s) (hf : s.Fits) :
    s.marshal.length = s.marshalSize ∧ indexBytes s <+: s.marshal ∧ (indexBytes s).length = s.marshalNoValueSize ∧
      8 ∣ s.marshalSize ∧ 8 ∣ s.marshalNoValueSize := by
  have ok := build_ok hs hf
  have hidx : indexBytes s = s.ld.chunks.flatten ++ s.ls.chunks.flatten := by
    rw [indexBytes, LoudsDense.writeTo_eq, LoudsSparse.writeTo_eq, ← writeAll_append, bufferWrite_all, List.flatten_append]
    rfl
  have a1 := align_mod s.ld.rawMarshalSize
  have a2 := align_mod s.ls.rawMarshalSize
  have a3 := align_mod s.ld.values.rawMarshalSize
  have a4 := align_mod s.ls.values.rawMarshalSize
  refine ⟨s.size ok, ?_, ?_, ?_, ?_⟩
  · rw [hidx, SuRF.marshal_eq, SuRF.chunks, List.flatten_append, List.flatten_append]
    exact List.prefix_append_right_inj _ |>.2 (List.prefix_append _ _)
  · rw [hidx, List.length_append, s.ld.size ok.ld, s.ls.size ok.ls]; rfl
  · apply Nat.dvd_of_mod_eq_zero
    simp only [SuRF.marshalSize, LoudsDense.marshalSize, LoudsSparse.marshalSize, ValueVector.marshalSize]; omega
  · apply Nat.dvd_of_mod_eq_zero
    simp only [SuRF.marshalNoValueSize, LoudsDense.marshalSize, LoudsSparse.marshalSize]; omega

/-! ### Failing writers -/

theorem writeAll_call {σ ε : Type} (w : Spec.Writer σ ε) (hw : w.Lawful) (cs : List Bytes) (st : σ)
    (log : List (Spec.Call ε)) :
    ∃ log' st', ((writeAll w.call cs).run.run (st, log)).2 = (st', log ++ log') ∧
      match ((writeAll w.call cs).run.run (st, log)).1 with
      | .ok () => (∀ c ∈ log', c.err = none) ∧ Spec.reached log' = cs.flatten
      | .error e => ∃ init last, log' = init ++ [last] ∧ (∀ c ∈ init, c.err = none) ∧ last.err = some e ∧
          Spec.reached log' <+: cs.flatten := by
  induction cs generalizing st log with
  | nil =>
    refine ⟨[], st, ?_, ?_⟩
    · simp [writeAll]; rfl
    · show (∀ c ∈ ([] : List (Spec.Call ε)), c.err = none) ∧ _
      simp [Spec.reached]
  | cons c cs ih =>
    obtain ⟨h1, h2⟩ := hw st c
    rcases hwc : w st c with ⟨n, e, s'⟩
    rw [hwc] at h1 h2
    cases e with
    | none =>
      have hn : n = c.length := h2 rfl
      have hstep : (writeAll w.call (c :: cs)).run.run (st, log) =
          (writeAll w.call cs).run.run (s', log ++ [⟨c, n, none⟩]) := by
        show ((w.call c >>= fun _ => writeAll w.call cs) : Spec.WriterM σ ε Unit).run.run (st, log) = _
        simp only [Spec.Writer.call, ExceptT.run_bind, ExceptT.run_mk]
        simp only [StateT.run_bind]
        simp only [StateT.run, hwc]
        rfl
      obtain ⟨log', st', e1, e2⟩ := ih s' (log ++ [⟨c, n, none⟩])
      refine ⟨⟨c, n, none⟩ :: log', st', ?_, ?_⟩
      · rw [hstep, e1]; simp
      · rw [hstep]
        revert e2
        have htake : c.take n = c := by rw [hn]; exact List.take_length
        cases ((writeAll w.call cs).run.run (s', log ++ [⟨c, n, none⟩])).1 with
        | ok u =>
          rintro ⟨e2, e3⟩
          refine ⟨by intro x hx; rcases List.mem_cons.1 hx with rfl | hx; exacts [rfl, e2 x hx], ?_⟩
          simp only [Spec.reached, List.flatMap_cons, List.flatten_cons] at e3 ⊢
          rw [e3, htake]
        | error e =>
          rintro ⟨i, l, rfl, e2, e3, e4⟩
          refine ⟨⟨c, n, none⟩ :: i, l, rfl, ?_, e3, ?_⟩
          · intro x hx; rcases List.mem_cons.1 hx with rfl | hx; exacts [rfl, e2 x hx]
          · simp only [Spec.reached, List.flatMap_cons, List.flatten_cons] at e4 ⊢
            rw [htake]; exact List.prefix_append_right_inj _ |>.2 e4
    | some e =>
      have hstep : (writeAll w.call (c :: cs)).run.run (st, log) = (.error e, (s', log ++ [⟨c, n, some e⟩])) := by
        show ((w.call c >>= fun _ => writeAll w.call cs) : Spec.WriterM σ ε Unit).run.run (st, log) = _
        simp only [Spec.Writer.call, ExceptT.run_bind, ExceptT.run_mk]
        simp only [StateT.run_bind]
        simp only [StateT.run, hwc]
        rfl
      refine ⟨[⟨c, n, some e⟩], s', by rw [hstep], ?_⟩
      rw [hstep]
      refine ⟨[], ⟨c, n, some e⟩, rfl, by simp, rfl, ?_⟩
      simp only [Spec.reached, List.flatMap_cons, List.flatMap_nil, List.append_nil, List.flatten_cons]
      exact (List.take_prefix _ _).trans (List.prefix_append _ _)

/-- **C37.** `WriteTo` on any writer (`w` is an arbitrary state machine keeping the contract of `io.Writer`): if `WriteTo`
returns no error then no `Write` call failed and the writer took exactly the bytes of `Marshal`; if it returns an error then that
is the error of the last `Write` call made, all calls before succeeded, and the writer took a prefix of the bytes of `Marshal`.
(Holds for every filter, built or not.) -/
theorem C37_writeTo {σ ε : Type} (w : Spec.Writer σ ε) (hw : w.Lawful) (st : σ) (s : SuRF) :
    ∃ log st', ((s.writeTo w.call).run.run (st, [])).2 = (st', log) ∧
      match ((s.writeTo w.call).run.run (st, [])).1 with
      | .ok () => (∀ c ∈ log, c.err = none) ∧ Spec.reached log = s.marshal
      | .error e => ∃ init last, log = init ++ [last] ∧ (∀ c ∈ init, c.err = none) ∧ last.err = some e ∧
          Spec.reached log <+: s.marshal := by
  have := writeAll_call w hw s.chunks st []
  rw [SuRF.writeTo_eq, SuRF.marshal_eq]
  simpa using this

/-! ### Examples -/

instance (v : RankVector) : Decidable v.Fits := by unfold RankVector.Fits; infer_instance
instance (v : SelectVector) : Decidable v.Fits := by unfold SelectVector.Fits; infer_instance
instance (v : PrefixVec) : Decidable v.Fits := by unfold PrefixVec.Fits; infer_instance
instance (v : SuffixVector) : Decidable v.Fits := by unfold SuffixVector.Fits; infer_instance
instance (v : ValueVector) : Decidable v.Ok := by unfold ValueVector.Ok; infer_instance
instance (v : LabelVector) : Decidable v.Ok := by unfold LabelVector.Ok; infer_instance

/-- Keys with a shared prefix, a key that is a prefix of another one, 1-byte values, 4 bits of real suffix. -/
def exampleKeys : List Bytes := [[1, 2, 3], [1, 2, 3, 4], [1, 2, 5, 6, 7], [9]]
/-- The values of `exampleKeys`. -/
def exampleVals : List Bytes := [[10], [20], [30], [40]]
/-- A filter for `exampleKeys` with dense and sparse levels. -/
def exampleSurf : Option SuRF := build (fun _ => 0#64) true (newBuilder 1 0 4) exampleKeys exampleVals 700

theorem exampleSurf_isSome : exampleSurf.isSome = true := by decide +kernel

/-- The hypotheses of C33–C36 are met by a filter with both dense and sparse levels, prefixes and suffixes. -/
example : ∃ s, exampleSurf = some s ∧ s.Fits ∧ 0 < s.ld.height ∧ s.ld.height < s.ls.height ∧ 0 < s.ls.values.bytes.length := by
  refine ⟨exampleSurf.get exampleSurf_isSome, by simp, ?_, by decide +kernel, by decide +kernel, by decide +kernel⟩
  constructor <;> decide +kernel

/-- A writer that takes `k` bytes in total and then fails is lawful (C37). -/
example : Spec.Writer.Lawful (fun (left : Nat) (p : List UInt8) =>
    if p.length ≤ left then (p.length, (none : Option String), left - p.length) else (left, some "disk full", 0)) := by
  intro s p
  dsimp only
  split <;> simp <;> omega

end Surf.Props
