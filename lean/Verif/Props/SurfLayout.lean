import Verif.Surf.Layout
import Verif.Props.SurfShared

/-!
# C83, C84: a restored filter lives in the slice it was restored from

`Surf.FilterAt` (in `Verif.Surf.Layout`) is a restored filter as Go has it: numbers, and arrays that are parts of the caller's slice. `view mem` is the filter when memory is `mem`.
-/

set_option linter.unusedSimpArgs false

namespace Surf.Props

open Surf

section
variable {mem : Bytes} {n : Nat} {v : FilterAt}

/-! ## C83: alignment -/

/-- **C83, where the words are.** Whatever the slice contains, if `Unmarshal` accepts it: the 64-bit words of the dense levels begin 4 bytes behind a multiple of 8 (counted from the beginning of the slice), those of the dense
suffixes 1 byte, those of the sparse levels at a multiple of 8, and those of the sparse suffixes 5 bytes behind one. Tables of 32-bit numbers begin at multiples of 4. -/
theorem C83_words (h : FilterAt.receive mem n = some v) :
    (∀ x ∈ [v.dense.labelVec, v.dense.hasChildVec, v.dense.isPrefixVec, v.dense.prefixVec.has], x.bits.off % 8 = 4 ∧ x.lut.off % 4 = 0) ∧
    (v.dense.suffixes.suffixType ≠ .none → v.dense.suffixes.bits.off % 8 = 1) ∧
    (∀ x ∈ [v.sparse.hasChildVec, v.sparse.prefixVec.has], x.bits.off % 8 = 0 ∧ x.lut.off % 4 = 0) ∧ v.sparse.loudsVec.bits.off % 8 = 0 ∧ v.sparse.loudsVec.lut.off % 4 = 0 ∧
    (v.sparse.suffixes.suffixType ≠ .none → v.sparse.suffixes.bits.off % 8 = 5) := by
  unfold FilterAt.receive at h
  obtain ⟨⟨x1, r1⟩, f1, h⟩ := Option.bind_eq_some_iff.mp h
  obtain ⟨⟨x2, r2⟩, f2, h⟩ := Option.bind_eq_some_iff.mp h
  obtain ⟨⟨x3, r3⟩, f3, h⟩ := Option.bind_eq_some_iff.mp h
  obtain ⟨⟨x4, r4⟩, f4, h⟩ := Option.bind_eq_some_iff.mp h
  cases h
  obtain ⟨-, -, c1, -, q1, q2⟩ := DenseAt.takes mem _ _ _ f1
  obtain ⟨-, -, -, -, q3, q4, q5, q6⟩ := SparseAt.takes mem _ _ _ f2
  dsimp only at *
  have c1 : r1.off % 8 = 0 := c1
  refine ⟨fun x hx => ?_, fun hn => q2 hn, fun x hx => ?_, by omega, by omega, fun hn => ?_⟩
  · obtain ⟨a, b⟩ := q1 x hx
    exact ⟨a, b⟩
  · obtain ⟨a, b⟩ := q3 x hx
    omega
  · have := q6 hn
    omega

theorem words_nil {b : Place} (h : bytesToU64Slice (b.bytes mem) ≠ []) : b.len ≠ 0 := by
  intro e
  apply h
  unfold Place.bytes
  rw [e, List.take_zero]
  rfl

/-- **C83, never aligned.** A filter that has both dense and sparse levels has words that are not aligned, wherever in memory (at `A`) the slice begins. -/
theorem C83_never_aligned (h : FilterAt.receive mem n = some v) (hd : (v.view mem).ld.labelVec.bv.bits ≠ []) (hs : (v.view mem).ls.hasChildVec.bv.bits ≠ []) (A : Nat) :
    ∃ a ∈ v.areas, a.word = 8 ∧ a.at_.len ≠ 0 ∧ (A + a.at_.off) % 8 ≠ 0 := by
  obtain ⟨q1, -, q3, -⟩ := C83_words h
  have e1 := (q1 v.dense.labelVec (by simp)).1
  have e2 := (q3 v.sparse.hasChildVec (by simp)).1
  by_cases hA : (A + v.dense.labelVec.bits.off) % 8 = 0
  · refine ⟨⟨v.sparse.hasChildVec.bits, 8⟩, ?_, rfl, words_nil hs, ?_⟩
    · simp [FilterAt.areas, SparseAt.areas, RankAt.areas]
    · dsimp only
      omega
  · exact ⟨⟨v.dense.labelVec.bits, 8⟩, by simp [FilterAt.areas, DenseAt.areas, RankAt.areas], rfl, words_nil hd, hA⟩

/-- **C83, suffixes.** In a slice that is aligned to 8 bytes, the words of all suffixes are at odd addresses. -/
theorem C83_suffixes (h : FilterAt.receive mem n = some v) {A : Nat} (hA : A % 8 = 0) :
    (v.dense.suffixes.suffixType ≠ .none → (A + v.dense.suffixes.bits.off) % 2 = 1) ∧ (v.sparse.suffixes.suffixType ≠ .none → (A + v.sparse.suffixes.bits.off) % 2 = 1) := by
  obtain ⟨-, q2, -, -, -, q6⟩ := C83_words h
  refine ⟨fun hn => ?_, fun hn => ?_⟩
  · have := q2 hn
    omega
  · have := q6 hn
    omega

/-! ## C84: the arrays are the caller's memory -/

/-- **C84, the filter.** `Unmarshal` of the slice `d` with spare capacity `spare` yields the filter `s` (and does not panic) exactly if it finds places in memory that `s` can be read from. -/
theorem C84_view (d spare : Bytes) (s : SuRF) : SuRF.receive ⟨{}, {}⟩ ⟨d, spare⟩ = some s ↔ ∃ v, FilterAt.receive (d ++ spare) d.length = some v ∧ v.view (d ++ spare) = s := by
  rw [FilterAt.agrees, Option.map_eq_some_iff]

/-- **C84, places.** The arrays are in the slice, within its length, and no byte belongs to two of them. -/
theorem C84_apart (h : FilterAt.receive mem n = some v) : (∀ a ∈ v.areas, a.at_.off + a.at_.len ≤ n) ∧ v.areas.Pairwise fun a b => a.at_.off + a.at_.len ≤ b.at_.off :=
  ⟨fun a ha => ((FilterAt.chain h).mem a ha).2, (FilterAt.chain h).apart⟩

/-- The two memories agree where the slice is. -/
def Agree (mem mem' : Bytes) (b : Place) : Prop := ∀ i, b.off ≤ i → i < b.off + b.len → mem'[i]? = mem[i]?

theorem Agree.bytes {mem' : Bytes} {b : Place} (h : Agree mem mem' b) : b.bytes mem' = b.bytes mem := by
  unfold Place.bytes
  apply List.ext_getElem?
  intro i
  rw [List.getElem?_take, List.getElem?_take]
  split
  · rw [List.getElem?_drop, List.getElem?_drop]
    exact h _ (by omega) (by omega)
  · rfl

/-- **C84, what matters.** The filter depends on the bytes of its arrays only: the caller may change all others (lengths, padding, what follows). -/
theorem C84_frame (h : FilterAt.receive mem n = some v) (mem' : Bytes) (ha : ∀ a ∈ v.areas, Agree mem mem' a.at_) : v.view mem' = v.view mem := by
  have key : ∀ b w, (⟨b, w⟩ : Area) ∈ v.areas → b.bytes mem' = b.bytes mem := fun b w hb => (ha _ hb).bytes
  have suf : ∀ x : SuffixAt, (∃ o, (x.suffixType ≠ .none → x.bits.off = o + 13) ∧ (x.suffixType = .none → x.bits.len = 0)) → (∀ a ∈ x.areas, a ∈ v.areas) → x.bits.bytes mem' = x.bits.bytes mem := by
    rintro x ⟨o, -, h2⟩ hx
    by_cases e : x.suffixType = .none
    · unfold Place.bytes
      rw [h2 e, List.take_zero, List.take_zero]
    · exact key _ 8 (hx _ (by unfold SuffixAt.areas; rw [if_pos e]; simp))
  have two : (∃ o, (v.dense.suffixes.suffixType ≠ .none → v.dense.suffixes.bits.off = o + 13) ∧ (v.dense.suffixes.suffixType = .none → v.dense.suffixes.bits.len = 0)) ∧
      ∃ o, (v.sparse.suffixes.suffixType ≠ .none → v.sparse.suffixes.bits.off = o + 13) ∧ (v.sparse.suffixes.suffixType = .none → v.sparse.suffixes.bits.len = 0) := by
    unfold FilterAt.receive at h
    obtain ⟨⟨x1, r1⟩, f1, h⟩ := Option.bind_eq_some_iff.mp h
    obtain ⟨⟨x2, r2⟩, f2, h⟩ := Option.bind_eq_some_iff.mp h
    obtain ⟨⟨x3, r3⟩, f3, h⟩ := Option.bind_eq_some_iff.mp h
    obtain ⟨⟨x4, r4⟩, f4, h⟩ := Option.bind_eq_some_iff.mp h
    cases h
    constructor
    · unfold DenseAt.receive at f1
      iterate 2 obtain ⟨_, -, f1⟩ := Option.bind_eq_some_iff.mp f1
      iterate 3 obtain ⟨⟨_, _⟩, -, f1⟩ := Option.bind_eq_some_iff.mp f1
      obtain ⟨⟨_, _⟩, e, f1⟩ := Option.bind_eq_some_iff.mp f1
      obtain ⟨⟨_, _⟩, -, f1⟩ := Option.bind_eq_some_iff.mp f1
      obtain ⟨_, -, f1⟩ := Option.bind_eq_some_iff.mp f1
      cases f1
      exact ⟨_, (SuffixAt.takes mem _ _ _ e).2.2.2.2⟩
    · unfold SparseAt.receive at f2
      iterate 8 obtain ⟨_, -, f2⟩ := Option.bind_eq_some_iff.mp f2
      iterate 3 obtain ⟨⟨_, _⟩, -, f2⟩ := Option.bind_eq_some_iff.mp f2
      obtain ⟨⟨_, _⟩, e, f2⟩ := Option.bind_eq_some_iff.mp f2
      obtain ⟨⟨_, _⟩, -, f2⟩ := Option.bind_eq_some_iff.mp f2
      obtain ⟨_, -, f2⟩ := Option.bind_eq_some_iff.mp f2
      cases f2
      exact ⟨_, (SuffixAt.takes mem _ _ _ e).2.2.2.2⟩
  have d1 := suf v.dense.suffixes two.1 (fun a ha => by simp [FilterAt.areas, DenseAt.areas, ha])
  have d2 := suf v.sparse.suffixes two.2 (fun a ha => by simp [FilterAt.areas, SparseAt.areas, ha])
  have ra : ∀ x : RankAt, (∀ a ∈ x.areas, a ∈ v.areas) → x.view mem' = x.view mem := by
    intro x hx
    unfold RankAt.view
    rw [key x.bits 8 (hx _ (by simp [RankAt.areas])), key x.lut 4 (hx _ (by simp [RankAt.areas]))]
  have pa : ∀ x : PrefixAt, (∀ a ∈ x.areas, a ∈ v.areas) → x.view mem' = x.view mem := by
    intro x hx
    unfold PrefixAt.view
    rw [ra x.has (fun a ha => hx a (by simp [PrefixAt.areas, ha])), key x.offsets 1 (hx _ (by simp [PrefixAt.areas])), key x.data 1 (hx _ (by simp [PrefixAt.areas]))]
  have sv : ∀ x : SuffixAt, x.bits.bytes mem' = x.bits.bytes mem → x.view mem' = x.view mem := by
    intro x hx
    unfold SuffixAt.view
    rw [hx]
  unfold FilterAt.view DenseAt.view SparseAt.view LabelAt.view SelectAt.view ValueAt.view
  rw [ra v.dense.labelVec (fun a ha => by simp [FilterAt.areas, DenseAt.areas, ha]), ra v.dense.hasChildVec (fun a ha => by simp [FilterAt.areas, DenseAt.areas, ha]),
    ra v.dense.isPrefixVec (fun a ha => by simp [FilterAt.areas, DenseAt.areas, ha]), pa v.dense.prefixVec (fun a ha => by simp [FilterAt.areas, DenseAt.areas, ha]),
    ra v.sparse.hasChildVec (fun a ha => by simp [FilterAt.areas, SparseAt.areas, ha]), pa v.sparse.prefixVec (fun a ha => by simp [FilterAt.areas, SparseAt.areas, ha]),
    sv _ d1, sv _ d2, key v.sparse.labelVec.labels 1 (by simp [FilterAt.areas, SparseAt.areas, LabelAt.areas]), key v.sparse.loudsVec.bits 8 (by simp [FilterAt.areas, SparseAt.areas, SelectAt.areas]),
    key v.sparse.loudsVec.lut 4 (by simp [FilterAt.areas, SparseAt.areas, SelectAt.areas]), key v.denseValues.bytes 1 (by simp [FilterAt.areas, ValueAt.areas]),
    key v.sparseValues.bytes 1 (by simp [FilterAt.areas, ValueAt.areas])]

/-- **C84, used again.** If the caller reads another filter into the same slice, and it has its arrays in the same places with the same numbers of elements, the old filter has become the new one. -/
theorem C84_reused {d d' spare : Bytes} {s' : SuRF} (h : FilterAt.receive (d ++ spare) d.length = some v) (h' : FilterAt.receive (d' ++ spare) d'.length = some v)
    (hs : SuRF.receive ⟨{}, {}⟩ ⟨d', spare⟩ = some s') : v.view (d' ++ spare) = s' := by
  obtain ⟨w, h1, h2⟩ := (C84_view _ _ _).mp hs
  rw [h'] at h1
  cases h1
  exact h2

end

section
variable {fp : Bytes → Word} {bmi : Bool} {vs h r : Nat} {keys vals : List Bytes} {hint : Int} {s : SuRF}

/-- **C84, built filters.** A built filter is restored, from a slice in which other bytes may follow it; its arrays are within the bytes of the filter, and what the caller does with all other memory does not matter. -/
theorem C84_built (hs : build fp bmi (newBuilder vs h r) keys vals hint = some s) (hf : s.Fits) (rest spare : Bytes) :
    ∃ v, FilterAt.receive (s.marshal ++ rest ++ spare) (s.marshal ++ rest).length = some v ∧ (∀ a ∈ v.areas, a.at_.off + a.at_.len ≤ s.marshal.length) ∧ ∀ other, v.view (s.marshal ++ other) = s := by
  have ok := build_ok hs hf
  obtain ⟨hd, hsp⟩ := build_roomy hs hf
  have hr := SuRF.receive_marshal s ⟨{}, {}⟩ ok hd hsp [] (rest ++ spare)
  have ho : s.over ⟨{}, {}⟩ = s := by
    have o1 : s.ld.suffixes.over ({} : LoudsDense).suffixes = s.ld.suffixes := by
      unfold SuffixVector.over
      split
      · next hn =>
        have := ok.ld.suf.none hn
        show { s.ld.suffixes with bv := { s.ld.suffixes.bv with bits := [] } } = _
        rw [← this]
      · rfl
    have o2 : s.ls.suffixes.over ({} : LoudsSparse).suffixes = s.ls.suffixes := by
      unfold SuffixVector.over
      split
      · next hn =>
        have := ok.ls.suf.none hn
        show { s.ls.suffixes with bv := { s.ls.suffixes.bv with bits := [] } } = _
        rw [← this]
      · rfl
    unfold SuRF.over
    dsimp only
    rw [o1, o2]
  rw [ho, List.append_nil] at hr
  obtain ⟨v, h1, h2⟩ := (C84_view _ _ _).mp hr
  refine ⟨v, ?_, (C84_apart h1).1, fun other => ?_⟩
  · rw [List.append_assoc]
    exact FilterAt.longer h1 (by simp) (by simp)
  · rw [C84_frame h1 (s.marshal ++ other), h2]
    intro a ha i _ hi
    have := (C84_apart h1).1 a ha
    rw [List.getElem?_append_left (by omega), List.getElem?_append_left (by omega)]

end

/-! ## Examples -/

/-- The filter of `C80_witness` (dense and sparse levels), restored from a slice, with other contents of the slice later -/
def layoutAfter (f : Bytes → Bytes) (k : Bytes) : Option (Option (Bytes × Bool)) :=
  sharedFilter.bind fun s => (FilterAt.receive (s.marshal ++ [1, 2]) s.marshal.length).map fun v => (v.view (f (s.marshal ++ [1, 2]))).get (fun _ => 0) true k

/-- Bytes behind the filter do not matter. With the slice cleared, stored keys are not found any more; with other bytes in it, `Get` panics. -/
theorem C84_witness :
    layoutAfter id [99, 49] = some (some ([3], true)) ∧ layoutAfter (fun m => m.take (m.length - 2)) [99, 49] = some (some ([3], true)) ∧
    layoutAfter (fun m => m.map fun _ => 0) [99, 49] = some (some ([], false)) ∧ layoutAfter (fun m => m.map fun _ => 255) [99, 49] = some none := by
  refine ⟨?_, ?_, ?_, ?_⟩ <;> decide +kernel

/-- A filter of the same keys with other values, read into the slice of the first one: what the first filter answers then. -/
def layoutReused (k : Bytes) : Option (Option (Bytes × Bool)) :=
  sharedFilter.bind fun s => (build (fun _ => 0) true (newBuilder 1 0 0) [[97], [98], [99, 49], [99, 50]] [[5], [6], [7], [8]] 200).bind fun s' =>
    (FilterAt.receive s.marshal s.marshal.length).map fun v => (v.view s'.marshal).get (fun _ => 0) true k

/-- It answers as the second. -/
theorem C84_reused_witness : layoutReused [97] = some (some ([5], true)) ∧ layoutReused [99, 50] = some (some ([8], true)) := by
  refine ⟨?_, ?_⟩ <;> decide +kernel

/-- The hypotheses of the theorems on places are met: a filter with dense and sparse levels and words in both. -/
theorem C83_example : ∃ mem n v, FilterAt.receive mem n = some v ∧ (v.view mem).ld.labelVec.bv.bits ≠ [] ∧ (v.view mem).ls.hasChildVec.bv.bits ≠ [] := by
  have h : (sharedFilter.bind fun s => (FilterAt.receive s.marshal s.marshal.length).map fun v => (v.view s.marshal).ld.labelVec.bv.bits.isEmpty || (v.view s.marshal).ls.hasChildVec.bv.bits.isEmpty) = some false := by
    decide +kernel
  simp only [Option.bind_eq_some_iff, Option.map_eq_some_iff] at h
  obtain ⟨s, -, v, h1, h2⟩ := h
  rw [Bool.or_eq_false_iff] at h2
  exact ⟨_, _, v, h1, by intro e; rw [e] at h2; exact absurd h2.1 (by decide), by intro e; rw [e] at h2; exact absurd h2.2 (by decide)⟩

end Surf.Props
