import Verif.Surf.Reuse
import Verif.Props.SurfGet

/-!
# C76: a `Builder` used twice

`Build` does not empty the `Builder`. The theorems say what a second `Build` on the same `Builder` does.
-/

set_option linter.unusedSimpArgs false

namespace Surf.Props

open Surf

/-- On a new builder, `Builder.build` is the `Build` of the other theorems. -/
theorem C76_new (fp : Bytes → Word) (bmi : Bool) (cfg : Config) (keys vals : List Bytes) (hint : Int) :
    (Builder.build fp bmi cfg {} keys vals hint).map (·.1) = Surf.build fp bmi cfg keys vals hint := Builder.build_new fp bmi cfg keys vals hint

theorem zip_len {vs : Nat} {keys vals : List Bytes} (h : Input vs keys vals) : (keys.zip vals).length = keys.length := by
  rw [List.length_zip, h.lens, Nat.min_self]

/-- What the first `Build` leaves, and what the second finds. -/
theorem reuse (fp : Bytes → Word) (bmi : Bool) (vs h r : Nat) (hhr : h + r ≤ 64) (keys₁ vals₁ keys₂ vals₂ : List Bytes) (hin₁ : Input vs keys₁ vals₁) (hin₂ : Input vs keys₂ vals₂) (hint₁ : Int)
    (s₁ : SuRF) (b : Builder) (hb : Builder.build fp bmi (newBuilder vs h r) {} keys₁ vals₁ hint₁ = some (s₁, b)) :
    ((s₁.ld.height = 0 ∧ b.dense = []) ∨ (1 ≤ s₁.ld.height ∧ ∃ d ds, b.dense = d :: ds ∧ d.labels.length ≤ 4)) ∧
    ∃ l₂, buildNodes (newBuilder vs h r) fp (maxKeyLen keys₂ + 2) b.levels keys₂ vals₂ 0 0 0 = some l₂ ∧ 0 < l₂.length ∧
      (∀ i l, l₂[i]? = some l → LvOK (newBuilder vs h r) fp (l, desc2 ⟨keys₁.zip vals₁, 0⟩ ⟨keys₂.zip vals₂, 0⟩ i)) ∧
      (∀ i, i < l₂.length → desc2 ⟨keys₁.zip vals₁, 0⟩ ⟨keys₂.zip vals₂, 0⟩ i ≠ []) := by
  obtain ⟨l₁, l₂, e1, e2, e3, e4, e5, e6, e7⟩ := levels_two (fp := fp) (fine vs h r hhr) (keys₁.zip vals₁) (keys₂.zip vals₂) hin₁.kvs hin₂.kvs
    (fun x hx => hin₁.vals x.2 (List.of_mem_zip hx).2) (fun x hx => hin₂.vals x.2 (List.of_mem_zip hx).2)
  rw [hin₁.fst, hin₁.snd] at e1
  rw [hin₂.fst, hin₂.snd] at e2
  unfold Builder.build at hb
  obtain ⟨levels, h1, hb⟩ := Option.bind_eq_some_iff.mp hb
  rw [e1] at h1
  cases h1
  dsimp only at hb
  generalize determineCutoffLevel (newBuilder vs h r) l₁ keys₁.length hint₁ = cut at hb
  obtain ⟨dense, h2, hb⟩ := Option.bind_eq_some_iff.mp hb
  obtain ⟨_, -, hb⟩ := Option.bind_eq_some_iff.mp hb
  obtain ⟨ld, h3, hb⟩ := Option.bind_eq_some_iff.mp hb
  obtain ⟨ls, h4, hb⟩ := Option.bind_eq_some_iff.mp hb
  cases hb
  refine ⟨?_, l₂, e2, e4, e6, e7⟩
  have hh : ld.height = cut := by
    unfold LoudsDense.init at h3
    obtain ⟨_, -, h3⟩ := Option.bind_eq_some_iff.mp h3
    obtain ⟨_, -, h3⟩ := Option.bind_eq_some_iff.mp h3
    obtain ⟨_, -, h3⟩ := Option.bind_eq_some_iff.mp h3
    obtain ⟨_, -, h3⟩ := Option.bind_eq_some_iff.mp h3
    obtain ⟨_, -, h3⟩ := Option.bind_eq_some_iff.mp h3
    cases h3
    rfl
  have h5 := buildDenseOn_new (l₁.take cut) []
  rw [List.length_nil, show buildDenseOn (l₁.take cut) 0 [] = some dense from h2] at h5
  show (ld.height = 0 ∧ dense = []) ∨ (1 ≤ ld.height ∧ _)
  rw [hh]
  cases cut with
  | zero =>
    left
    rw [List.take_zero] at h5
    simpa [buildDense] using h5
  | succ n =>
    right
    refine ⟨by omega, ?_⟩
    cases hl : l₁ with
    | nil => rw [hl] at e3; simp at e3
    | cons l ls' =>
      rw [hl, List.take_succ_cons, buildDense] at h5
      cases h6 : buildDenseLevel l with
      | none => rw [h6] at h5; simp at h5
      | some d =>
        rw [h6] at h5
        simp only [Option.bind_eq_bind, Option.bind_some] at h5
        cases h7 : buildDense (ls'.take n) with
        | none => rw [h7] at h5; simp at h5
        | some ds =>
          rw [h7] at h5
          simp at h5
          refine ⟨d, ds, h5, ?_⟩
          have h8 : fillDense l (initDenseVectors l) = some d := h6
          rw [fillDense_length h8]
          have h9 := (e5 0 l (by rw [hl]; rfl)).n.nc
          simp only [Grp.desc, List.length_singleton] at h9
          simp [initDenseVectors, h9]

/-- **C76.** If the filter of the first `Build` has no dense level, the second `Build` does not panic. -/
theorem C76_returns (fp : Bytes → Word) (bmi : Bool) (vs h r : Nat) (hhr : h + r ≤ 64) (keys₁ vals₁ keys₂ vals₂ : List Bytes) (hin₁ : Input vs keys₁ vals₁) (hin₂ : Input vs keys₂ vals₂)
    (h2₁ : 2 ≤ keys₁.length) (h2₂ : 2 ≤ keys₂.length) (hsize : keys₁.flatten.length + keys₂.flatten.length < 2 ^ 32) (hint₁ hint₂ : Int)
    (s₁ : SuRF) (b : Builder) (hb : Builder.build fp bmi (newBuilder vs h r) {} keys₁ vals₁ hint₁ = some (s₁, b)) (h0 : s₁.ld.height = 0) :
    ∃ s₂ b₂, Builder.build fp bmi (newBuilder vs h r) b keys₂ vals₂ hint₂ = some (s₂, b₂) := by
  obtain ⟨hd, l₂, e1, e2, e3, e4⟩ := reuse fp bmi vs h r hhr keys₁ vals₁ keys₂ vals₂ hin₁ hin₂ hint₁ s₁ b hb
  have hd : b.dense = [] := by
    rcases hd with ⟨-, hd⟩ | ⟨hd, -⟩
    · exact hd
    · omega
  have hle := determineCutoffLevel_le (newBuilder vs h r) l₂ keys₂.length hint₂
  obtain ⟨⟨ds, d1, ld, d2, -, -⟩, ⟨pv, p1⟩, ⟨ls, s1, -⟩⟩ := parts_two (fp := fp) (fine vs h r hhr) bmi (keys₁.zip vals₁) (keys₂.zip vals₂) hin₁.kvs hin₂.kvs
    (by rw [zip_len hin₁]; exact h2₁) (by rw [zip_len hin₂]; exact h2₂) (by rw [hin₁.fst, hin₂.fst]; exact hsize) l₂ e3 e4
    (determineCutoffLevel (newBuilder vs h r) l₂ keys₂.length hint₂) (by omega)
  unfold Builder.build
  rw [e1]
  simp only [Option.bind_eq_bind, Option.bind_some]
  have h5 := buildDenseOn_new (l₂.take (determineCutoffLevel (newBuilder vs h r) l₂ keys₂.length hint₂)) []
  rw [List.length_nil, d1] at h5
  rw [hd, h5]
  simp only [Option.map_some, List.nil_append, Option.bind_some]
  rw [p1]
  simp only [Option.bind_some]
  rw [d2]
  simp only [Option.bind_some]
  rw [s1]
  exact ⟨_, _, rfl⟩

theorem init_empty (cfg : Config) (levels : List Level) (ds : List DenseLevel) : LoudsDense.init cfg levels ds 0 = LoudsDense.init cfg levels [] 0 := by
  unfold LoudsDense.init
  simp only [List.take_zero]

/-- **C76.** Two filters with dense levels cannot come from one `Builder`: the second `Build` panics. -/
theorem C76_dense (fp : Bytes → Word) (bmi : Bool) (vs h r : Nat) (hhr : h + r ≤ 64) (keys₁ vals₁ keys₂ vals₂ : List Bytes) (hin₁ : Input vs keys₁ vals₁) (hin₂ : Input vs keys₂ vals₂)
    (h2₁ : 2 ≤ keys₁.length) (h2₂ : 2 ≤ keys₂.length) (hsize : keys₁.flatten.length + keys₂.flatten.length < 2 ^ 32) (hint₁ hint₂ : Int)
    (s₁ s₂ : SuRF) (b b₂ : Builder) (hb : Builder.build fp bmi (newBuilder vs h r) {} keys₁ vals₁ hint₁ = some (s₁, b))
    (hb₂ : Builder.build fp bmi (newBuilder vs h r) b keys₂ vals₂ hint₂ = some (s₂, b₂)) : s₁.ld.height = 0 ∨ s₂.ld.height = 0 := by
  obtain ⟨hd, l₂, e1, e2, e3, e4⟩ := reuse fp bmi vs h r hhr keys₁ vals₁ keys₂ vals₂ hin₁ hin₂ hint₁ s₁ b hb
  rcases hd with ⟨hd, -⟩ | ⟨-, d, ds, hd, hdl⟩
  · exact Or.inl hd
  right
  have hle := determineCutoffLevel_le (newBuilder vs h r) l₂ keys₂.length hint₂
  unfold Builder.build at hb₂
  rw [e1] at hb₂
  simp only [Option.bind_eq_bind, Option.bind_some] at hb₂
  generalize determineCutoffLevel (newBuilder vs h r) l₂ keys₂.length hint₂ = cut at hle hb₂
  obtain ⟨dense, h2, hb₂⟩ := Option.bind_eq_some_iff.mp hb₂
  obtain ⟨_, -, hb₂⟩ := Option.bind_eq_some_iff.mp hb₂
  obtain ⟨ld, h3, hb₂⟩ := Option.bind_eq_some_iff.mp hb₂
  obtain ⟨ls, -, hb₂⟩ := Option.bind_eq_some_iff.mp hb₂
  cases hb₂
  cases cut with
  | succ n =>
    exfalso
    cases hl : l₂ with
    | nil => rw [hl] at e2; simp at e2
    | cons l ls' =>
      rw [hl, List.take_succ_cons, hd] at h2
      have := e3 0 l (by rw [hl]; rfl)
      rw [dense_two (keys₁.zip vals₁) (keys₂.zip vals₂) hin₁.kvs hin₂.kvs (by rw [zip_len hin₂]; exact h2₂) this hdl] at h2
      cases h2
  | zero =>
    show ld.height = 0
    obtain ⟨⟨ds', d1, ld', d2, -, d3⟩, -, -⟩ := parts_two (fp := fp) (fine vs h r hhr) bmi (keys₁.zip vals₁) (keys₂.zip vals₂) hin₁.kvs hin₂.kvs
      (by rw [zip_len hin₁]; exact h2₁) (by rw [zip_len hin₂]; exact h2₂) (by rw [hin₁.fst, hin₂.fst]; exact hsize) l₂ e3 e4 0 e2
    rw [init_empty] at h3 d2
    rw [h3] at d2
    cases d2
    exact d3

/-- **C76.** The root of the second filter is that of the first: a key whose first byte begins no key of the first list is not found, even if it is in the second. -/
theorem C76_lost (fp : Bytes → Word) (bmi : Bool) (vs h r : Nat) (hhr : h + r ≤ 64) (keys₁ vals₁ keys₂ vals₂ : List Bytes) (hin₁ : Input vs keys₁ vals₁) (hin₂ : Input vs keys₂ vals₂)
    (h2₁ : 2 ≤ keys₁.length) (h2₂ : 2 ≤ keys₂.length) (hsize : keys₁.flatten.length + keys₂.flatten.length < 2 ^ 32) (hint₁ hint₂ : Int)
    (s₁ s₂ : SuRF) (b b₂ : Builder) (hb : Builder.build fp bmi (newBuilder vs h r) {} keys₁ vals₁ hint₁ = some (s₁, b))
    (hb₂ : Builder.build fp bmi (newBuilder vs h r) b keys₂ vals₂ hint₂ = some (s₂, b₂)) (c : UInt8) (q : Bytes) (hc : ∀ k ∈ keys₁, k.head? ≠ some c) :
    s₂.get fp bmi (c :: q) = some ([], false) := by
  have hdd := C76_dense fp bmi vs h r hhr keys₁ vals₁ keys₂ vals₂ hin₁ hin₂ h2₁ h2₂ hsize hint₁ hint₂ s₁ s₂ b b₂ hb hb₂
  obtain ⟨hd, l₂, e1, e2, e3, e4⟩ := reuse fp bmi vs h r hhr keys₁ vals₁ keys₂ vals₂ hin₁ hin₂ hint₁ s₁ b hb
  have hle := determineCutoffLevel_le (newBuilder vs h r) l₂ keys₂.length hint₂
  unfold Builder.build at hb₂
  rw [e1] at hb₂
  simp only [Option.bind_eq_bind, Option.bind_some] at hb₂
  generalize determineCutoffLevel (newBuilder vs h r) l₂ keys₂.length hint₂ = cut at hle hb₂
  obtain ⟨⟨ds', d1, ld', d2, d4, d3⟩, -, ⟨ls', s1, s2⟩⟩ := parts_two (fp := fp) (fine vs h r hhr) bmi (keys₁.zip vals₁) (keys₂.zip vals₂) hin₁.kvs hin₂.kvs
      (by rw [zip_len hin₁]; exact h2₁) (by rw [zip_len hin₂]; exact h2₂) (by rw [hin₁.fst, hin₂.fst]; exact hsize) l₂ e3 e4 cut (by omega)
  obtain ⟨dense, h2, hb₂⟩ := Option.bind_eq_some_iff.mp hb₂
  obtain ⟨_, -, hb₂⟩ := Option.bind_eq_some_iff.mp hb₂
  obtain ⟨ld, h3, hb₂⟩ := Option.bind_eq_some_iff.mp hb₂
  obtain ⟨ls, h4, hb₂⟩ := Option.bind_eq_some_iff.mp hb₂
  cases hb₂
  rw [s1] at h4
  cases h4
  have hg := hin₁.kvs.good
  have hc' : ∀ x ∈ (⟨keys₁.zip vals₁, 0⟩ : Grp).kvs, x.1.head? ≠ some c := fun x hx => hc x.1 (List.of_mem_zip hx).1
  have hfirst : ∀ n, ∃ post, nodes2 (⟨keys₁.zip vals₁, 0⟩ : Grp) ⟨keys₂.zip vals₂, 0⟩ 0 (n + 1) = (⟨keys₁.zip vals₁, 0⟩ : Grp) :: post := by
    intro n
    unfold nodes2
    rw [List.range'_succ, List.flatMap_cons]
    exact ⟨_, rfl⟩
  cases cut with
  | zero =>
    rw [init_empty] at h3 d2
    rw [h3] at d2
    cases d2
    have hv := s2 rfl
    have hok : ∀ x ∈ nodes2 (⟨keys₁.zip vals₁, 0⟩ : Grp) ⟨keys₂.zip vals₂, 0⟩ 0 l₂.length, x.OK := by
      intro x hx
      unfold nodes2 desc2 at hx
      rw [List.mem_flatMap] at hx
      obtain ⟨i, -, hx⟩ := hx
      rw [List.mem_append] at hx
      rcases hx with hx | hx
      · exact (hg.desc_ok hx).toOK
      · exact (hin₂.kvs.good.desc_ok hx).toOK
    obtain ⟨n, hn⟩ : ∃ n, l₂.length = n + 1 := ⟨l₂.length - 1, by omega⟩
    obtain ⟨post, hp⟩ := hfirst n
    rw [hn, hp] at hv hok
    have := sparse_lost hv hok hg rfl hc' q bmi
    unfold SuRF.get LoudsDense.get
    rw [d3]
    exact this
  | succ n =>
    have hl0 : s₁.ld.height = 0 := by
      rcases hdd with h | h
      · exact h
      · exfalso
        have hh : ld.height = n + 1 := by
          unfold LoudsDense.init at h3
          obtain ⟨_, -, h3⟩ := Option.bind_eq_some_iff.mp h3
          obtain ⟨_, -, h3⟩ := Option.bind_eq_some_iff.mp h3
          obtain ⟨_, -, h3⟩ := Option.bind_eq_some_iff.mp h3
          obtain ⟨_, -, h3⟩ := Option.bind_eq_some_iff.mp h3
          obtain ⟨_, -, h3⟩ := Option.bind_eq_some_iff.mp h3
          cases h3
          rfl
        have h : ld.height = 0 := h
        omega
    have hde : b.dense = [] := by
      rcases hd with ⟨-, hd⟩ | ⟨hd, -⟩
      · exact hd
      · omega
    have h5 := buildDenseOn_new (l₂.take (n + 1)) []
    rw [List.length_nil, d1] at h5
    rw [hde, h5] at h2
    cases h2
    have h3' : LoudsDense.init (newBuilder vs h r) l₂ ds' (n + 1) = some ld := h3
    rw [h3'] at d2
    cases d2
    obtain ⟨post, hp⟩ := hfirst n
    rw [hp] at d4
    obtain ⟨D, hD⟩ := dense_lost d4 hg rfl hc' q (by omega)
    unfold SuRF.get
    simp only [hD, Option.bind_eq_bind, Option.bind_some]
    rfl

/-- Keys of a first `Build`. -/
def firstKeys : List Bytes := [[1, 2], [1, 3], [4]]

/-- Keys of a second `Build`. -/
def secondKeys : List Bytes := [[5, 6], [5, 7], [8]]

theorem first_ok : (Builder.build (fun _ => 0#64) true (newBuilder 1 0 8) {} firstKeys [[1], [2], [3]] 0).isSome = true := by decide +kernel

theorem second_ok : (Builder.build (fun _ => 0#64) true (newBuilder 1 0 8) ((Builder.build (fun _ => 0#64) true (newBuilder 1 0 8) {} firstKeys [[1], [2], [3]] 0).get first_ok).2 secondKeys [[4], [5], [6]] 0).isSome = true := by decide +kernel

theorem second_ok' : (Builder.build (fun _ => 0#64) true (newBuilder 1 0 8) ((Builder.build (fun _ => 0#64) true (newBuilder 1 0 8) {} firstKeys [[1], [2], [3]] 0).get first_ok).2 secondKeys [[4], [5], [6]] (-1)).isSome = true := by decide +kernel

/-- The hypotheses of `C76_returns` and `C76_lost` hold, and a key of the second list is lost, which a new builder would not lose. -/
theorem C76_witness_lost : Input 1 firstKeys [[1], [2], [3]] ∧ Input 1 secondKeys [[4], [5], [6]] ∧ 2 ≤ firstKeys.length ∧ 2 ≤ secondKeys.length ∧ firstKeys.flatten.length + secondKeys.flatten.length < 2 ^ 32 ∧
    (∃ s₁ b s₂ b₂, Builder.build (fun _ => 0#64) true (newBuilder 1 0 8) {} firstKeys [[1], [2], [3]] 0 = some (s₁, b) ∧ s₁.ld.height = 0 ∧
      Builder.build (fun _ => 0#64) true (newBuilder 1 0 8) b secondKeys [[4], [5], [6]] 0 = some (s₂, b₂) ∧ [5, 6] ∈ secondKeys ∧ s₂.get (fun _ => 0#64) true [5, 6] = some ([], false)) ∧
    (∃ s, Surf.build (fun _ => 0#64) true (newBuilder 1 0 8) secondKeys [[4], [5], [6]] 0 = some s ∧ s.get (fun _ => 0#64) true [5, 6] = some ([4], true)) := by
  refine ⟨⟨by decide, by decide, by decide, by decide, by decide, by decide⟩, ⟨by decide, by decide, by decide, by decide, by decide, by decide⟩, by decide, by decide, by decide, ?_, ?_⟩
  · exact ⟨_, _, _, _, (Option.some_get first_ok).symm, by decide +kernel, (Option.some_get second_ok).symm, by decide, by decide +kernel⟩
  · exact ⟨_, (Option.some_get (show (Surf.build (fun _ => 0#64) true (newBuilder 1 0 8) secondKeys [[4], [5], [6]] 0).isSome = true by decide +kernel)).symm, by decide +kernel⟩

/-- With dense levels, the second `Build` panics, even on the same keys. -/
theorem C76_witness_panic : ∃ s₁ b, Builder.build (fun _ => 0#64) true (newBuilder 1 0 8) {} firstKeys [[1], [2], [3]] (-1) = some (s₁, b) ∧ s₁.ld.height = 1 ∧
    Builder.build (fun _ => 0#64) true (newBuilder 1 0 8) b firstKeys [[1], [2], [3]] (-1) = none ∧
    Builder.build (fun _ => 0#64) true (newBuilder 1 0 8) b secondKeys [[4], [5], [6]] (-1) = none := by
  exact ⟨_, _, (Option.some_get (show (Builder.build (fun _ => 0#64) true (newBuilder 1 0 8) {} firstKeys [[1], [2], [3]] (-1)).isSome = true by decide +kernel)).symm,
    by decide +kernel, by decide +kernel, by decide +kernel⟩

/-- The second may have a dense level if the first has none. -/
example : ∃ s₁ b s₂ b₂, Builder.build (fun _ => 0#64) true (newBuilder 1 0 8) {} firstKeys [[1], [2], [3]] 0 = some (s₁, b) ∧ s₁.ld.height = 0 ∧
    Builder.build (fun _ => 0#64) true (newBuilder 1 0 8) b secondKeys [[4], [5], [6]] (-1) = some (s₂, b₂) ∧ s₂.ld.height = 1 ∧ s₂.get (fun _ => 0#64) true [5, 6] = some ([], false) := by
  exact ⟨_, _, _, _, (Option.some_get first_ok).symm, by decide +kernel, (Option.some_get second_ok').symm, by decide +kernel, by decide +kernel⟩

end Surf.Props
