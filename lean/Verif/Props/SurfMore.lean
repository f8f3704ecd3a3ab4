import Verif.Surf.Bmi
import Verif.Props.Marshal
import Verif.Props.SurfIter

/-!
# Property C48: the BMI2 path of `select64` changes nothing; C34 for ranges and iterators

`bmi` is what `cpu.X86.HasBMI2` says on the machine that runs the code (bits.go:50-63, bits_amd64.s). A filter may be built on a machine with
BMI2, marshalled, and read on one without it.
-/

set_option linter.unusedSimpArgs false

namespace Surf.Props

/-- **C48.** Machines with and without BMI2 build the same filter (or both panic): the same bytes when it is marshalled. No hypothesis about
the keys. -/
theorem C48_build (fp : Bytes → Word) (b₁ b₂ : Bool) (cfg : Config) (keys vals : List Bytes) (hint : Int) :
    build fp b₁ cfg keys vals hint = build fp b₂ cfg keys vals hint := by
  rw [build_bmi fp b₁, build_bmi fp b₂]

/-- **C48.** They answer every query alike, on every filter, built or not. -/
theorem C48_query (fp : Bytes → Word) (b₁ b₂ : Bool) (s : SuRF) :
    (∀ query, s.get fp b₁ query = s.get fp b₂ query) ∧
    (∀ lo hi incl, s.hasOverlap b₁ lo hi incl = s.hasOverlap b₂ lo hi incl) := by
  refine ⟨fun q => ?_, fun x y i => ?_⟩
  · rw [get_bmi fp b₁, get_bmi fp b₂]
  · rw [hasOverlap_bmi b₁, hasOverlap_bmi b₂]

/-- **C48.** They move every iterator, in whatever state, to the same state. -/
theorem C48_iterator (b₁ b₂ : Bool) (s : SuRF) (it : Iterator) :
    it.next b₁ s = it.next b₂ s ∧ it.prev b₁ s = it.prev b₂ s ∧ (∀ query, it.seek b₁ s query = it.seek b₂ s query) ∧
    it.seekToFirst b₁ s = it.seekToFirst b₂ s ∧ it.seekToLast b₁ s = it.seekToLast b₂ s := by
  refine ⟨?_, ?_, fun q => ?_, ?_, ?_⟩
  · rw [Iterator.next_bmi b₁, Iterator.next_bmi b₂]
  · rw [Iterator.prev_bmi b₁, Iterator.prev_bmi b₂]
  · rw [Iterator.seek_bmi b₁, Iterator.seek_bmi b₂]
  · rw [Iterator.seekToFirst_bmi b₁, Iterator.seekToFirst_bmi b₂]
  · rw [Iterator.seekToLast_bmi b₁, Iterator.seekToLast_bmi b₂]

/-- The word-level routines behind this are different programs: `select64Broadword` on one side, `PDEP`/`TZCNT` on the other. They agree
where the callers use them (bit number 1 to the number of ones). -/
theorem C48_select (x : Word) (n : Nat) (h1 : 1 ≤ n) (h2 : n ≤ onesCount x) : select64 true x n = select64 false x n :=
  select64_bmi true x n h1 h2

/-- **C34.** The restored filter also answers `HasOverlap` as the original one, and moves iterators (of whatever state) alike and reads the same
values from them; on a machine with or without BMI2, whichever the filter was built on. -/
theorem C34_same_ranges (fp : Bytes → Word) (bmi bmi' : Bool) (cfg : Config) (keys vals : List Bytes) (hint : Int) (s : SuRF)
    (hs : build fp bmi cfg keys vals hint = some s) (hf : s.Fits) :
    ∃ s', SuRF.unmarshal s.marshal = some s' ∧ (∀ query, s'.get fp bmi' query = s.get fp bmi query) ∧
      (∀ lo hi incl, s'.hasOverlap bmi' lo hi incl = s.hasOverlap bmi lo hi incl) ∧
      ∀ it : Iterator, it.next bmi' s' = it.next bmi s ∧ it.prev bmi' s' = it.prev bmi s ∧
        (∀ query, it.seek bmi' s' query = it.seek bmi s query) ∧ it.seekToFirst bmi' s' = it.seekToFirst bmi s ∧
        it.seekToLast bmi' s' = it.seekToLast bmi s ∧ it.value s' = it.value s := by
  refine ⟨s, C33_roundtrip fp bmi cfg keys vals hint s hs hf, (C48_query fp bmi' bmi s).1, (C48_query fp bmi' bmi s).2, fun it => ?_⟩
  obtain ⟨h1, h2, h3, h4, h5⟩ := C48_iterator bmi' bmi s it
  exact ⟨h1, h2, h3, h4, h5, rfl⟩

/-- A filter with dense and sparse levels, on which the two machines agree, and not in a trivial way: a sparse `Get` runs `select`. -/
example : ∃ s, build (fun _ => 0#64) true (newBuilder 1 0 4) exampleKeys exampleVals 700 = some s ∧
    s.get (fun _ => 0#64) true [1, 2, 3] = some ([10], true) ∧ s.get (fun _ => 0#64) false [1, 2, 3] = some ([10], true) ∧ 1 ≤ 1 ∧ 1 ≤ onesCount 6#64 ∧ select64 true 6#64 1 = some 1 := by
  refine ⟨exampleSurf.get exampleSurf_isSome, (Option.some_get _).symm, ?_⟩
  decide +kernel

end Surf.Props
