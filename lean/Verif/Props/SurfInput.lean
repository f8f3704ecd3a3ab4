import Verif.Surf.Demand
import Verif.Props.SurfGet

/-!
# Property C66: what `Build` demands of its input

C22–C38 say what `Build` does for sorted distinct keys with one value each. Here the keys and values are any lists. In the
model a slice has no spare capacity: Go's `vals[i:j]` and `value[:n]` (builder.go:142 and 258) read past the length of a slice
whose capacity is larger.
-/

set_option linter.unusedSimpArgs false

namespace Surf.Props

theorem le_maxKeyLen {keys : List Bytes} {x : Bytes} (h : x ∈ keys) : x.length ≤ maxKeyLen keys := by
  unfold maxKeyLen
  induction keys with
  | nil => simp at h
  | cons k ks ih =>
    simp only [List.map_cons, List.foldr_cons]
    rcases List.mem_cons.mp h with rfl | h
    · omega
    · have := ih h
      omega

/-- **C66 (the fuel).** That `build` gives nothing is never for want of fuel, whatever the keys: with more fuel the levels are
the same. So `none` is a panic. -/
theorem C66_fuel (fp : Bytes → Word) (cfg : Config) (levels : List Level) (keys vals : List Bytes) (m : Nat) :
    buildNodes cfg fp (maxKeyLen keys + 2 + m) levels keys vals 0 0 0 = buildNodes cfg fp (maxKeyLen keys + 2) levels keys vals 0 0 0 := by
  refine buildNodes_fuel_ge (fun x hx => ?_) m
  have := le_maxKeyLen hx
  omega

/-- **C66 (what is noticed).** If `Build` returns, there was a key, and not only the empty one; no key is a prefix of the key
before it, so none is equal to it; and there was a value for every key, long enough. Whatever the order of the keys. -/
theorem C66_demands (fp : Bytes → Word) (bmi : Bool) (cfg : Config) (keys vals : List Bytes) (hint : Int) (s : SuRF)
    (hs : build fp bmi cfg keys vals hint = some s) :
    keys ≠ [] ∧ keys ≠ [[]] ∧ (∀ (j : Nat) x y, keys[j]? = some x → keys[j + 1]? = some y → ¬ y <+: x) ∧
      ∀ j, j < keys.length → ∃ v, vals[j]? = some v ∧ cfg.valueSize ≤ v.length := by
  unfold build at hs
  simp only [Option.bind_eq_bind, Option.bind_eq_some_iff] at hs
  obtain ⟨ls, h, -⟩ := hs
  obtain ⟨h1, h2, h3⟩ := buildNodes_demand _ _ _ _ _ _ _ _ (fun x _ y _ => by simp) (fun x _ => Nat.zero_le _) h
  refine ⟨h2, ?_, fun j x y => h1.adj j x y (Nat.zero_le _), fun j => h1.val j (Nat.zero_le _)⟩
  rintro rfl
  have := h3 rfl [] (by simp)
  simp at this

/-- **C66 (what is ignored).** Values beyond the number of keys are ignored. -/
theorem C66_extra (fp : Bytes → Word) (bmi : Bool) (cfg : Config) (keys vals : List Bytes) (hint : Int) :
    build fp bmi cfg keys vals hint = build fp bmi cfg keys (vals.take keys.length) hint := by
  unfold build
  rw [buildNodes_vals]

/-- Sorted, repetitions allowed, and no key a prefix of the one before it: strictly sorted. -/
theorem strict_of_adj {keys : List Bytes} (hs : keys.Pairwise (· ≤ ·)) (ha : ∀ (j : Nat) x y, keys[j]? = some x → keys[j + 1]? = some y → ¬ y <+: x) : keys.Pairwise (· < ·) := by
  induction keys with
  | nil => exact .nil
  | cons k ks ih =>
    rw [List.pairwise_cons] at hs ⊢
    refine ⟨?_, ih hs.2 fun j x y hx hy => ha (j + 1) x y (by simpa using hx) (by simpa using hy)⟩
    intro z hz
    cases ks with
    | nil => simp at hz
    | cons k2 ks =>
      have h12 : k < k2 := by
        rcases List.le_iff_lt_or_eq.mp (hs.1 k2 (by simp)) with h | h
        · exact h
        · subst h
          exact absurd (List.prefix_refl k) (ha 0 k k (by simp) (by simp))
      rcases List.mem_cons.mp hz with rfl | hz
      · exact h12
      · rcases List.le_iff_lt_or_eq.mp ((List.pairwise_cons.mp hs.2).1 z hz) with q | q
        · exact List.lt_trans h12 q
        · exact q ▸ h12

/-- **C66 (exactly when `Build` returns).** For keys in order, repetitions allowed, `Build` returns exactly if there is a key,
not only the empty one, none occurs twice, and every key has a value that is long enough. -/
theorem C66_iff (fp : Bytes → Word) (bmi : Bool) (vs h r : Nat) (hhr : h + r ≤ 64) (keys vals : List Bytes) (hint : Int)
    (hsort : keys.Pairwise (· ≤ ·)) (hsize : keys.flatten.length < 2 ^ 32) :
    (∃ s, build fp bmi (newBuilder vs h r) keys vals hint = some s) ↔
      keys ≠ [] ∧ keys ≠ [[]] ∧ keys.Nodup ∧ ∀ j, j < keys.length → ∃ v, vals[j]? = some v ∧ vs ≤ v.length := by
  constructor
  · rintro ⟨s, hs⟩
    obtain ⟨h1, h2, h3, h4⟩ := C66_demands _ _ _ _ _ _ _ hs
    refine ⟨h1, h2, ?_, h4⟩
    refine (strict_of_adj hsort h3).imp ?_
    rintro a _ hab rfl
    exact List.lt_irrefl a hab
  · rintro ⟨h1, h2, h3, h4⟩
    rw [C66_extra]
    refine C38_build_partial fp bmi vs h r hhr keys _ ⟨h1, ?_, h2, ?_, ?_, hsize⟩ hint
    · refine (List.Pairwise.and hsort h3).imp ?_
      intro a b hab
      rcases List.le_iff_lt_or_eq.mp hab.1 with q | q
      · exact q
      · exact absurd q hab.2
    · rw [List.length_take]
      by_cases e : vals.length < keys.length
      · obtain ⟨v, hv, -⟩ := h4 vals.length e
        simp at hv
      · omega
    · intro v hv
      obtain ⟨j, hj⟩ := List.mem_iff_getElem?.mp hv
      have hjl := (List.getElem?_eq_some_iff.mp hj).1
      rw [List.length_take] at hjl
      obtain ⟨w, hw, hw2⟩ := h4 j (by omega)
      rw [List.getElem?_take, if_pos (by omega), hw] at hj
      cases hj
      exact hw2

/-- **C66 (what is not noticed).** For keys out of order `Build` may return a filter that gives a stored key the value of
another: here `"ab"`, stored with 3, is answered 1, the value of `"aa"`. -/
theorem C66_witness_order : (do
      let s ← build (fun _ => 0#64) true (newBuilder 1 0 0) [[97, 97], [98], [97, 98]] [[1], [2], [3]] 0
      s.get (fun _ => 0#64) true [97, 98]) = some ([1], true) := by
  decide +kernel

/-- builder.go:88-108 `Build` on a builder whose levels are already `levels`, left by an earlier `Build`. Simplified: the dense
vectors of the earlier call are not kept, so this is the code only if that call left no level dense. -/
def buildOn (fp : Bytes → Word) (bmi : Bool) (cfg : Config) (levels : List Level) (keys vals : List Bytes) (bitsPerKeyHint : Int) : Option SuRF := do
  let levels ← buildNodes cfg fp (maxKeyLen keys + 2) levels keys vals 0 0 0
  assemble bmi cfg levels (determineCutoffLevel cfg levels keys.length bitsPerKeyHint)

/-- On a fresh builder it is `build`. -/
theorem buildOn_nil (fp : Bytes → Word) (bmi : Bool) (cfg : Config) (keys vals : List Bytes) (hint : Int) :
    buildOn fp bmi cfg [] keys vals hint = build fp bmi cfg keys vals hint := rfl

/-- The levels after `Build` on a fresh builder. -/
def levelsOf (fp : Bytes → Word) (cfg : Config) (keys vals : List Bytes) : Option (List Level) :=
  buildNodes cfg fp (maxKeyLen keys + 2) [] keys vals 0 0 0

/-- **C66 (a builder serves once).** `Build` does not reset the builder. After a `Build` for `"a"` (1) and `"b"` (2), with no
level dense, a second one for `"a"` (3) and `"c"` (4) on the same builder returns a filter in which the stored `"c"` is absent,
`"a"` has the value of the first call and the first call's `"b"` is present. -/
theorem C66_witness_reuse : (do
      let levels ← levelsOf (fun _ => 0#64) (newBuilder 1 0 0) [[97], [98]] [[1], [2]]
      let s ← buildOn (fun _ => 0#64) true (newBuilder 1 0 0) levels [[97], [99]] [[3], [4]] 0
      let c ← s.get (fun _ => 0#64) true [99]
      let a ← s.get (fun _ => 0#64) true [97]
      let b ← s.get (fun _ => 0#64) true [98]
      return (determineCutoffLevel (newBuilder 1 0 0) levels 2 0, c, a, b)) = some (0, ([], false), ([1], true), ([2], true)) := by
  decide +kernel

/-- Four keys in order, one of them twice: `Build` panics. Without the repetition, and with a value too many, it returns. -/
theorem C66_example (fp : Bytes → Word) (bmi : Bool) (hint : Int) :
    build fp bmi (newBuilder 1 8 4) [[97], [97, 98], [97, 98], [99]] [[1], [2], [3], [4]] hint = none ∧
      ∃ s, build fp bmi (newBuilder 1 8 4) [[97], [97, 98], [99]] [[1], [2], [3], [4]] hint = some s := by
  constructor
  · cases hb : build fp bmi (newBuilder 1 8 4) [[97], [97, 98], [97, 98], [99]] [[1], [2], [3], [4]] hint with
    | none => rfl
    | some s =>
      have := ((C66_iff fp bmi 1 8 4 (by decide) _ _ hint (by decide) (by decide)).mp ⟨s, hb⟩).2.2.1
      exact absurd this (by decide)
  · refine (C66_iff fp bmi 1 8 4 (by decide) _ _ hint (by decide) (by decide)).mpr ⟨by decide, by decide, by decide, ?_⟩
    intro j hj
    have : j = 0 ∨ j = 1 ∨ j = 2 := by simp at hj; omega
    rcases this with rfl | rfl | rfl
    · exact ⟨[1], rfl, by decide⟩
    · exact ⟨[2], rfl, by decide⟩
    · exact ⟨[3], rfl, by decide⟩

end Surf.Props
