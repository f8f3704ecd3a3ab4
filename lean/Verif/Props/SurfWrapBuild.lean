import Verif.Surf.WrapBuildAll
import Verif.Props.SurfWrapIter
import Verif.Props.Receive
import Verif.Props.SurfSize
import Verif.Props.SurfMore

/-!
# Property C74: `Build` in wrapping arithmetic

`U32.build` is `Build` with every `uint32` and `uint64` computation taken modulo 2^32 and 2^64, as Go does it.
-/

set_option linter.unusedSimpArgs false

namespace Surf.Props

open Surf.U32

/-- **C74.** No computation in `Build` wraps around to another result: for at most 2^23 keys, each shorter than 2^29 bytes, with less than 2^32 bytes of keys and of values,
`Build` in wrapping arithmetic does not panic and returns the filter that unbounded numbers would give. -/
theorem C74_build (fp : Bytes → Word) (bmi : Bool) (vs h r : Nat) (hhr : h + r ≤ 64) (keys vals : List Bytes) (hin : Input vs keys vals) (hint : Int)
    (hn : keys.length ≤ 2 ^ 23) (hv : keys.length * vs < 2 ^ 32) (hk : ∀ k ∈ keys, k.length < 2 ^ 29) :
    ∃ s, U32.build fp bmi (newBuilder vs h r) keys vals hint = some s ∧ Surf.build fp bmi (newBuilder vs h r) keys vals hint = some s := by
  have hfine := fine vs h r hhr
  obtain ⟨levels, e1, e2, e3, e4, e5⟩ := levels_spec (newBuilder vs h r) fp hfine (keys.zip vals) hin.kvs (fun x hx => hin.vals x.2 (List.of_mem_zip hx).2)
  have hok : (⟨keys.zip vals, 0⟩ : Grp).OK := hin.kvs.good.toOK
  have hsz : restSum (⟨keys.zip vals, 0⟩ : Grp).d (⟨keys.zip vals, 0⟩ : Grp).kvs < 2 ^ 32 := by
    show restSum 0 (keys.zip vals) < _
    rw [restSum_zero, hin.fst]
    exact hin.size
  have hl : (⟨keys.zip vals, 0⟩ : Grp).kvs.length ≤ 2 ^ 23 := by
    rw [kvs_length hin]
    exact hn
  have hle := determineCutoffLevel_le (newBuilder vs h r) levels keys.length hint
  obtain ⟨s, a1, -⟩ := assemble_ok (newBuilder vs h r) fp hfine bmi (keys.zip vals) hin.kvs (fun x hx => hin.vals x.2 (List.of_mem_zip hx).2)
    (by rw [hin.fst]; exact hin.size) levels e3 e4 e5 (determineCutoffLevel (newBuilder vs h r) levels keys.length hint) (by omega)
  rw [hin.fst, hin.snd] at e1
  have hs : Surf.build fp bmi (newBuilder vs h r) keys vals hint = some s := by
    unfold Surf.build
    rw [e1]
    exact a1
  have hsm := small_of_input fp bmi vs h r hhr keys vals hin hint s hs hn hv
  obtain ⟨ht, B⟩ := the_built hhr hin hs
  have hfit := B.fits (build_luts hs) (by rw [kvs_length hin]; omega) (by rw [kvs_length hin]; exact hv) hhr
  exact ⟨s, build_u (cfg := newBuilder vs h r) fp hhr hk hn e1 (levels_small e3 hok e5 hl hsz) a1 hsm hfit.slo.2.1 (all_prefixes_small e3 hok hl hsz), hs⟩

/-- **C74**, with C72: a filter built and queried in wrapping arithmetic has every stored key, with its value. -/
theorem C74_stored (fp : Bytes → Word) (bmi : Bool) (vs h r : Nat) (hhr : h + r ≤ 64) (keys vals : List Bytes) (hin : Input vs keys vals) (hint : Int)
    (hn : keys.length ≤ 2 ^ 23) (hv : keys.length * vs < 2 ^ 32) (hk : ∀ k ∈ keys, k.length < 2 ^ 29) :
    ∃ s, U32.build fp bmi (newBuilder vs h r) keys vals hint = some s ∧
      ∀ (n : Nat) (k v : Bytes), keys[n]? = some k → vals[n]? = some v → U32.get fp bmi s k = some (v.take vs, true) := by
  obtain ⟨s, h1, h2⟩ := C74_build fp bmi vs h r hhr keys vals hin hint hn hv hk
  exact ⟨s, h1, fun n k v e1 e2 => C72_stored fp bmi vs h r hhr keys vals hin hint s h2 hn hv n k v e1 e2 (hk k (List.mem_of_getElem? e1))⟩

/-- **C74**, with C73: a filter built and scanned in wrapping arithmetic shows every stored key, in order, once. -/
theorem C74_scan (fp : Bytes → Word) (bmi : Bool) (vs h r : Nat) (hhr : h + r ≤ 64) (keys vals : List Bytes) (hin : Input vs keys vals) (hint : Int)
    (hn : keys.length ≤ 2 ^ 23) (hv : keys.length * vs < 2 ^ 32) (M : Nat) (hM : ∀ k ∈ keys, k.length ≤ M) (hb : (M + 2) * (M + 1) ≤ 2 ^ 31) :
    ∃ s it fl, U32.build fp bmi (newBuilder vs h r) keys vals hint = some s ∧ U32.seek bmi s (U32.newIterator s) [] = some (it, fl) ∧
      Loop32 bmi s it ((keys.zip vals).map (shown keys vs)) := by
  obtain ⟨s, h1, h2⟩ := C74_build fp bmi vs h r hhr keys vals hin hint hn hv (fun k hk => by
    have := hM k hk
    have hm : M < 2 ^ 16 := by
      by_contra hc
      have : (2 ^ 16 + 2) * (2 ^ 16 + 1) ≤ (M + 2) * (M + 1) := Nat.mul_le_mul (by omega) (by omega)
      omega
    omega)
  obtain ⟨it, fl, h3, h4⟩ := C73_scan fp bmi vs h r hhr keys vals hin hint s h2 hn hv M hM hb
  exact ⟨s, it, fl, h1, h3, h4⟩

/-- **C74**, with C69 and C72: a filter built in wrapping arithmetic, marshalled, and unmarshalled into a new `SuRF` (from a buffer with anything after the bytes of the filter, on a machine with BMI2 or without), has every stored key, with its value,
in wrapping arithmetic. -/
theorem C74_restored (fp : Bytes → Word) (bmi bmi' : Bool) (vs h r : Nat) (hhr : h + r ≤ 64) (keys vals : List Bytes) (hin : Input vs keys vals) (hint : Int)
    (hn : keys.length ≤ 2 ^ 23) (hv : keys.length * vs < 2 ^ 32) (hk : ∀ k ∈ keys, k.length < 2 ^ 29) (rest spare : Bytes) :
    ∃ s s', U32.build fp bmi (newBuilder vs h r) keys vals hint = some s ∧ fresh.receive ⟨s.marshal ++ rest, spare⟩ = some s' ∧
      ∀ (n : Nat) (k v : Bytes), keys[n]? = some k → vals[n]? = some v → U32.get fp bmi' s' k = some (v.take vs, true) := by
  obtain ⟨s, h1, h2⟩ := C74_build fp bmi vs h r hhr keys vals hin hint hn hv hk
  have hf := fits_of_input fp bmi vs h r hhr keys vals hin hint s h2 (by omega) hv
  refine ⟨s, s, h1, (C69_complete fp bmi _ keys vals hint s h2 hf rest spare).2, fun n k v e1 e2 => ?_⟩
  rw [C48_build fp bmi bmi'] at h2
  exact C72_stored fp bmi' vs h r hhr keys vals hin hint s h2 hn hv n k v e1 e2 (hk k (List.mem_of_getElem? e1))

/-- Where the arithmetic of `Build` does wrap around: a level of 2^23 nodes counts for nothing in the size of the dense part, so that the size hint no longer
limits it. The size that unbounded numbers give is 2^32 bits. -/
theorem C74_wraps (l : Level) (ls : List Level) (h : l.nodeCount = 2 ^ 23) : U32.denseSizeNoSuffix (l :: ls) 1 = some 0 ∧ Surf.denseSizeNoSuffix (l :: ls) 1 = 2 ^ 32 := by
  constructor
  · simp only [U32.denseSizeNoSuffix, List.getElem?_cons_zero, Option.bind_eq_bind, Option.bind_some, h]
    rw [if_neg (by decide)]
    decide
  · simp [Surf.denseSizeNoSuffix, h]

/-- The hypotheses hold for ten keys, and both builders give the same filter, which has a dense part. -/
example : Input 1 exampleKeys exampleVals ∧ exampleKeys.length ≤ 2 ^ 23 ∧ exampleKeys.length * 1 < 2 ^ 32 ∧ (∀ k ∈ exampleKeys, k.length < 2 ^ 29) ∧
    (∃ s, U32.build (fun _ => 0#64) true (newBuilder 1 0 4) exampleKeys exampleVals 700 = some s ∧ 0 < s.ld.height) := by
  refine ⟨⟨by decide, by decide, by decide, by decide, by decide, by decide⟩, by decide, by decide, by decide, ?_⟩
  exact ⟨_, (Option.some_get (show (U32.build (fun _ => 0#64) true (newBuilder 1 0 4) exampleKeys exampleVals 700).isSome = true by decide +kernel)).symm, by decide +kernel⟩

end Surf.Props
