import Verif.Surf.WrapBuilt
import Verif.Props.SurfSize

/-!
# Property C72: `Get` in the 32-bit arithmetic of the code

`Verif.Surf.Wrap` has `Get` once more with every `uint32` sum, difference and product cut to 32 bits, as in the code. The rest of the development counts with unbounded
numbers. Here: the two agree on every filter of up to 2^23 keys, for every query of less than 2^29 bytes; and a query of 2^29 bytes more is the first where they may not.
-/

set_option linter.unusedSimpArgs false

namespace Surf.Props

open Surf.U32

/-- The filters of at most 2^23 keys with less than 2^32 bytes of values are small enough for 32-bit arithmetic. -/
theorem small_of_input (fp : Bytes → Word) (bmi : Bool) (vs h r : Nat) (hhr : h + r ≤ 64) (keys vals : List Bytes) (hin : Input vs keys vals) (hint : Int) (s : SuRF)
    (hs : build fp bmi (newBuilder vs h r) keys vals hint = some s) (hn : keys.length ≤ 2 ^ 23) (hv : keys.length * vs < 2 ^ 32) : s.Small := by
  obtain ⟨ht, B⟩ := the_built hhr hin hs
  have hl := kvs_length hin
  exact B.small (build_luts hs) (by rw [hl]; exact hn) (by rw [hl]; exact hv) hhr

/-- **C72.** No `uint32` computation in `Get` wraps around to another result: on a filter of at most 2^23 keys, with less than 2^32 bytes of values, `Get` in 32-bit
arithmetic does what `Get` with unbounded numbers does, for every query of less than 2^29 bytes. -/
theorem C72_get (fp : Bytes → Word) (bmi : Bool) (vs h r : Nat) (hhr : h + r ≤ 64) (keys vals : List Bytes) (hin : Input vs keys vals) (hint : Int) (s : SuRF)
    (hs : build fp bmi (newBuilder vs h r) keys vals hint = some s) (hn : keys.length ≤ 2 ^ 23) (hv : keys.length * vs < 2 ^ 32) (q : Bytes) (hq : q.length < 2 ^ 29) :
    U32.get fp bmi s q = s.get fp bmi q := by
  obtain ⟨v, ok, e⟩ := C23_total fp bmi vs h r hhr keys vals hin hint s hs q
  rw [e]
  exact SuRF.get_u (small_of_input fp bmi vs h r hhr keys vals hin hint s hs hn hv) hq e

/-- **C72.** So every stored key is found with its value, in 32-bit arithmetic. -/
theorem C72_stored (fp : Bytes → Word) (bmi : Bool) (vs h r : Nat) (hhr : h + r ≤ 64) (keys vals : List Bytes) (hin : Input vs keys vals) (hint : Int) (s : SuRF)
    (hs : build fp bmi (newBuilder vs h r) keys vals hint = some s) (hn : keys.length ≤ 2 ^ 23) (hv : keys.length * vs < 2 ^ 32)
    (n : Nat) (k v : Bytes) (hk : keys[n]? = some k) (hkv : vals[n]? = some v) (hl : k.length < 2 ^ 29) :
    U32.get fp bmi s k = some (v.take vs, true) := by
  rw [C72_get fp bmi vs h r hhr keys vals hin hint s hs hn hv k hl]
  exact C22_stored fp bmi vs h r hhr keys vals hin hint s hs n k v hk hkv

/-- **C72.** The bound on the query is needed: a key with exactly 2^29 bytes left at its leaf counts as having none (`(uint32(len(key))-level)*8` is 0), so
that the stored real suffix, if it is not zero, is taken for another one, whatever the bytes of the key. -/
theorem C72_long (fp : Bytes → Word) (v : SuffixVector) (key : Bytes) (idx level : Nat) (w : Word) (hl : key.length = level + 2 ^ 29) (h32 : key.length < 2 ^ 32)
    (ht : v.suffixType = .real) (hr : 0 < v.realSuffixLen) (hi : U32.mul idx (U32.suffixLen v) < v.bv.numBits) (hw : U32.read v idx = some w) (h0 : w ≠ 0#64) :
    U32.checkEquality fp v idx key level = some false := by
  have hs : U32.tooShort key level v.realSuffixLen = true := by
    unfold U32.tooShort
    have e1 : U32.u key.length = key.length := u_eq h32
    have e2 : U32.sub key.length level = 2 ^ 29 := by rw [sub_eq (by omega) h32]; omega
    have e3 : U32.mul (2 ^ 29) 8 = 0 := by decide
    rw [e1, e2, e3]
    simp [hr]
  unfold U32.checkEquality
  have h1 : ¬ (v.suffixType = .none) := by rw [ht]; decide
  have h2 : ¬ (U32.mul idx (U32.suffixLen v) ≥ v.bv.numBits) := by omega
  simp [h1, h2, hw, ht, h0, hs]

/-! ### The hypotheses can be met -/

/-- An input with dense and sparse levels; in 32-bit arithmetic a stored key and an absent one. -/
example : Input 1 exampleKeys exampleVals ∧ exampleKeys.length ≤ 2 ^ 23 ∧ exampleKeys.length * 1 < 2 ^ 32 ∧
    (∃ s, build (fun _ => 0#64) true (newBuilder 1 0 4) exampleKeys exampleVals 700 = some s ∧ 0 < s.ld.height ∧
      (∀ k ∈ exampleKeys, k.length < 2 ^ 29 ∧ (U32.get (fun _ => 0#64) true s k).isSome = true) ∧ U32.get (fun _ => 0#64) true s [8] = some ([], false)) := by
  refine ⟨⟨by decide, by decide, by decide, by decide, by decide, by decide⟩, by decide, by decide, ?_⟩
  exact ⟨_, (Option.some_get exampleSurf_isSome).symm, by decide +kernel, by decide +kernel, by decide +kernel⟩

/-- Two keys of 2 bytes with 8 bits of real suffix: the suffix of the first is found by its key, and not by the same key with 2^29 - 1 bytes more (of any kind), although
with unbounded numbers those have the same suffix. -/
example : ∃ s, build (fun _ => 0#64) true (newBuilder 0 0 8) [[1, 2], [3, 4]] [[], []] 0 = some s ∧
    U32.checkEquality (fun _ => 0#64) s.ls.suffixes 0 [1, 2] 1 = some true ∧
    ∀ z : Bytes, z.length = 2 ^ 29 - 1 → U32.checkEquality (fun _ => 0#64) s.ls.suffixes 0 (1 :: 2 :: z) 1 = some false := by
  refine ⟨_, (Option.some_get (show (build (fun _ => 0#64) true (newBuilder 0 0 8) [[1, 2], [3, 4]] [[], []] 0).isSome = true by decide +kernel)).symm, by decide +kernel, fun z hz => ?_⟩
  refine C72_long _ _ _ _ _ 2#64 ?_ ?_ (by decide +kernel) (by decide +kernel) (by decide +kernel) (by decide +kernel) (by decide)
  all_goals simp only [List.length_cons, hz]; norm_num

end Surf.Props
