import Verif.Surf.WrapIterBuilt
import Verif.Props.SurfWrap
import Verif.Props.SurfTotal
import Verif.Props.SurfSeek

/-!
# Property C73: the iterators and `HasOverlap` in the 32-bit arithmetic of the code

`Verif.Surf.WrapIter` has the iterators and `HasOverlap` once more with every `uint32` sum, difference and product cut to 32 bits, as in the code. Here: on a filter of up to 2^23 keys
of up to `M` bytes with `(M + 2) * (M + 1) ≤ 2^31` (for example, keys of less than 2^15 bytes), any sequence of calls, with searches for less than 2^29 bytes, does the same in both.
-/

set_option linter.unusedSimpArgs false

namespace Surf.Props

open Surf.U32

/-- The calls that move an iterator. -/
inductive ICall
  | first
  | last
  | seek (q : Bytes)
  | next
  | prev
deriving DecidableEq

/-- A call, with unbounded numbers. -/
def ICall.run (bmi : Bool) (s : SuRF) (it : Iterator) : ICall → Option Iterator
  | .first => it.seekToFirst bmi s
  | .last => it.seekToLast bmi s
  | .seek q => (it.seek bmi s q).map (·.1)
  | .next => it.next bmi s
  | .prev => it.prev bmi s

/-- A call, in 32-bit arithmetic. -/
def ICall.run32 (bmi : Bool) (s : SuRF) (it : Iterator) : ICall → Option Iterator
  | .first => U32.seekToFirst bmi s it
  | .last => U32.seekToLast bmi s it
  | .seek q => (U32.seek bmi s it q).map (·.1)
  | .next => U32.next bmi s it
  | .prev => U32.prev bmi s it

/-- A search is for less than 2^29 bytes. -/
def ICall.Short : ICall → Prop
  | .seek q => q.length < 2 ^ 29
  | _ => True

/-- The call is `SeekToFirst` or `SeekToLast`. -/
def ICall.toEnd : ICall → Bool
  | .first | .last => true
  | _ => false

/-- Call after call; `none` if one of them panics. -/
def runCalls (f : Iterator → ICall → Option Iterator) : Iterator → List ICall → Option Iterator
  | it, [] => some it
  | it, c :: cs => (f it c).bind (fun it => runCalls f it cs)

section
variable {fp : Bytes → Word} {bmi : Bool} {vs h r : Nat} {keys vals : List Bytes} {s : SuRF} {M : Nat}

/-- The filters are small enough for the iterators. -/
theorem iSmall_of_input (hhr : h + r ≤ 64) (hin : Input vs keys vals) {hint : Int}
    (hs : build fp bmi (newBuilder vs h r) keys vals hint = some s) (hn : keys.length ≤ 2 ^ 23) (hv : keys.length * vs < 2 ^ 32) (hM : ∀ k ∈ keys, k.length ≤ M)
    (hb : (M + 2) * (M + 1) ≤ 2 ^ 31) : s.ISmall M := by
  obtain ⟨ht, B⟩ := the_built hhr hin hs
  exact B.iSmall (small_of_input fp bmi vs h r hhr keys vals hin hint s hs hn hv) (fun x hx => hM _ (List.of_mem_zip hx).1) hb

theorem ICall.follow (hs : s.ISmall M) {it it' : Iterator} (I : it.Inv s M) {c : ICall} (hc : c.Short) (hr : c.run bmi s it = some it') : c.run32 bmi s it = some it' ∧ it'.Inv s M := by
  cases c with
  | first => exact seekToFirst_u hs I hr
  | last => exact seekToLast_u hs I hr
  | seek q =>
    obtain ⟨x, h1, rfl⟩ := Option.map_eq_some_iff.mp hr
    obtain ⟨a1, a2⟩ := seek_u hs I hc h1
    exact ⟨by simp [ICall.run32, a1], a2⟩
  | next => exact next_u hs I hr
  | prev => exact prev_u hs I hr

theorem calls_follow (hs : s.ISmall M) : ∀ (cs : List ICall) (it it' : Iterator), it.Inv s M → (∀ c ∈ cs, c.Short) → runCalls (ICall.run bmi s) it cs = some it' →
    runCalls (ICall.run32 bmi s) it cs = some it' ∧ it'.Inv s M := by
  intro cs
  induction cs with
  | nil => intro it it' I _ h; cases h; exact ⟨rfl, I⟩
  | cons c cs ih =>
    intro it it' I hc h
    obtain ⟨it1, h1, h⟩ := Option.bind_eq_some_iff.mp h
    obtain ⟨a1, a2⟩ := ICall.follow hs I (hc c (by simp)) h1
    obtain ⟨b1, b2⟩ := ih _ _ a2 (fun x hx => hc x (List.mem_cons_of_mem _ hx)) h
    exact ⟨Option.bind_eq_some_iff.mpr ⟨it1, a1, b1⟩, b2⟩

theorem ICall.step_roam {ht : Nat} (hin : Input vs keys vals) (B : Built (newBuilder vs h r) fp s ⟨keys.zip vals, 0⟩ s.ld.height ht) (hs : s.ISmall M) {it : Iterator} (I : it.Inv s M)
    (hr : Reached bmi s (fun _ => True) it) {c : ICall} (hc : c.Short) (hd : c.toEnd = true → 0 < s.ld.height) :
    c.run32 bmi s it = c.run bmi s it ∧ ∀ it', c.run bmi s it = some it' → Reached bmi s (fun _ => True) it' ∧ it'.Inv s M := by
  have hlt : s.ld.height < 2 ^ 31 := hs.ld.height
  have hroam := reached_roam hin B hr
  have key : c.run32 bmi s it = c.run bmi s it := by
    cases e : c.run bmi s it with
    | some it' => exact (ICall.follow hs I hc e).1
    | none =>
      cases c with
      | first =>
        obtain ⟨ip, i, iq, e0, e1, e2⟩ := first_items B.root
        obtain ⟨it', y, a1, -⟩ := B.i_first bmi (hd rfl) hroam.ready e0 e1 e2
        rw [ICall.run, a1] at e
        cases e
      | last =>
        obtain ⟨it', b, y, a1, -⟩ := B.i_last bmi (hd rfl) hroam.ready (root_two B (hd rfl))
        rw [ICall.run, a1] at e
        cases e
      | seek q =>
        obtain ⟨it', fl, a1, -⟩ := B.r_seek bmi rfl q hroam.ready
        rw [ICall.run, a1] at e
        cases e
      | next =>
        obtain ⟨it', a1, -⟩ := B.r_next bmi hroam
        rw [ICall.run, a1] at e
        cases e
      | prev => exact B.r_prev_u bmi hlt hroam e
  refine ⟨key, fun it' e => ⟨?_, (ICall.follow hs I hc e).2⟩⟩
  cases c with
  | first => exact .first hr (hd rfl) e
  | last => exact .last hr (hd rfl) e
  | seek q =>
    obtain ⟨x, h1, rfl⟩ := Option.map_eq_some_iff.mp e
    exact .seek trivial hr h1
  | next => exact .next hr e
  | prev => exact .prev (by omega) hr e

theorem calls_same {ht : Nat} (hin : Input vs keys vals) (B : Built (newBuilder vs h r) fp s ⟨keys.zip vals, 0⟩ s.ld.height ht) (hs : s.ISmall M) :
    ∀ (cs : List ICall) (it : Iterator), it.Inv s M → Reached bmi s (fun _ => True) it → (∀ c ∈ cs, c.Short) → (∀ c ∈ cs, c.toEnd = true → 0 < s.ld.height) →
    runCalls (ICall.run32 bmi s) it cs = runCalls (ICall.run bmi s) it cs ∧ ∀ it', runCalls (ICall.run bmi s) it cs = some it' → Reached bmi s (fun _ => True) it' ∧ it'.Inv s M := by
  intro cs
  induction cs with
  | nil =>
    intro it I hr _ _
    simp only [runCalls]
    exact ⟨trivial, fun it' e => by cases e; exact ⟨hr, I⟩⟩
  | cons c cs ih =>
    intro it I hr hc hd
    obtain ⟨a1, a2⟩ := ICall.step_roam hin B hs I hr (hc c (by simp)) (hd c (by simp))
    cases e : c.run bmi s it with
    | none =>
      simp only [runCalls, a1, e, Option.bind_none]
      exact ⟨trivial, fun it' e => by cases e⟩
    | some it1 =>
      obtain ⟨b1, b2⟩ := a2 _ e
      have := ih it1 b2 b1 (fun x hx => hc x (List.mem_cons_of_mem _ hx)) (fun x hx => hd x (List.mem_cons_of_mem _ hx))
      simp only [runCalls, a1, e, Option.bind_some]
      exact this

end

/-- **C73.** Any sequence of `Seek`, `Next`, `Prev`, and, in a filter with a dense level, `SeekToFirst` and `SeekToLast`, on a new iterator, leads to the same place in 32-bit arithmetic as with
unbounded numbers, or panics in both. At a valid place, `Value` is the same. -/
theorem C73_calls (fp : Bytes → Word) (bmi : Bool) (vs h r : Nat) (hhr : h + r ≤ 64) (keys vals : List Bytes) (hin : Input vs keys vals) (hint : Int) (s : SuRF)
    (hs : build fp bmi (newBuilder vs h r) keys vals hint = some s) (hn : keys.length ≤ 2 ^ 23) (hv : keys.length * vs < 2 ^ 32)
    (M : Nat) (hM : ∀ k ∈ keys, k.length ≤ M) (hb : (M + 2) * (M + 1) ≤ 2 ^ 31) (cs : List ICall) (hc : ∀ c ∈ cs, c.Short) (hd : ∀ c ∈ cs, c.toEnd = true → 0 < s.ld.height) :
    runCalls (ICall.run32 bmi s) (U32.newIterator s) cs = runCalls (ICall.run bmi s) s.newIterator cs ∧
    ∀ it, runCalls (ICall.run bmi s) s.newIterator cs = some it → it.valid = true → U32.value s it = it.value s := by
  have hsm := iSmall_of_input hhr hin hs hn hv hM hb
  obtain ⟨ht, B⟩ := the_built hhr hin hs
  obtain ⟨n1, n2⟩ := newIterator_u hsm
  rw [n1]
  obtain ⟨a1, a2⟩ := calls_same (bmi := bmi) hin B hsm cs _ n2 .new hc hd
  refine ⟨a1, fun it e hval => ?_⟩
  obtain ⟨b1, -⟩ := a2 it e
  obtain ⟨-, ⟨x, hx, c1⟩, -⟩ := (reached_roam hin B b1).read B rfl hval
  rw [c1]
  exact value_u hsm c1

/-- **C73**, with `SeekToFirst` and `SeekToLast` in every filter: what does not panic with unbounded numbers leads to the same place in 32-bit arithmetic; and whatever `Value` returns there, it returns
in 32-bit arithmetic. -/
theorem C73_follow (fp : Bytes → Word) (bmi : Bool) (vs h r : Nat) (hhr : h + r ≤ 64) (keys vals : List Bytes) (hin : Input vs keys vals) (hint : Int) (s : SuRF)
    (hs : build fp bmi (newBuilder vs h r) keys vals hint = some s) (hn : keys.length ≤ 2 ^ 23) (hv : keys.length * vs < 2 ^ 32)
    (M : Nat) (hM : ∀ k ∈ keys, k.length ≤ M) (hb : (M + 2) * (M + 1) ≤ 2 ^ 31) (cs : List ICall) (hc : ∀ c ∈ cs, c.Short) (it : Iterator)
    (hr : runCalls (ICall.run bmi s) s.newIterator cs = some it) :
    runCalls (ICall.run32 bmi s) (U32.newIterator s) cs = some it ∧ ∀ v, it.value s = some v → U32.value s it = some v := by
  have hsm := iSmall_of_input hhr hin hs hn hv hM hb
  obtain ⟨n1, n2⟩ := newIterator_u hsm
  rw [n1]
  exact ⟨(calls_follow hsm cs _ _ n2 hc hr).1, fun v => value_u hsm⟩

/-- **C73.** `HasOverlap` gives the same answer in 32-bit arithmetic, for all bounds of less than 2^29 bytes. -/
theorem C73_overlap (fp : Bytes → Word) (bmi : Bool) (vs h r : Nat) (hhr : h + r ≤ 64) (keys vals : List Bytes) (hin : Input vs keys vals) (hint : Int) (s : SuRF)
    (hs : build fp bmi (newBuilder vs h r) keys vals hint = some s) (hn : keys.length ≤ 2 ^ 23) (hv : keys.length * vs < 2 ^ 32)
    (M : Nat) (hM : ∀ k ∈ keys, k.length ≤ M) (hb : (M + 2) * (M + 1) ≤ 2 ^ 31) (start stop : Bytes) (h1 : start.length < 2 ^ 29) (h2 : stop.length < 2 ^ 29) (includeEnd : Bool) :
    U32.hasOverlap bmi s start stop includeEnd = s.hasOverlap bmi start stop includeEnd := by
  obtain ⟨b, e⟩ := C59_overlap fp bmi vs h r hhr keys vals hin hint s hs start stop includeEnd
  rw [e]
  exact hasOverlap_u (iSmall_of_input hhr hin hs hn hv hM hb) h1 h2 e

/-- **C73.** So the loop of a client that goes through the filter with `Seek("")` and `Next` reads all keys and values, in order, in 32-bit arithmetic. (`Loop` with the 32-bit `Next` and `Value`.) -/
inductive Loop32 (bmi : Bool) (s : SuRF) : Iterator → List (Bytes × Bytes) → Prop
  | stop {it : Iterator} : it.valid = false → Loop32 bmi s it []
  | step {it it' : Iterator} {k v : Bytes} {l : List (Bytes × Bytes)} : it.valid = true → it.key = some k → U32.value s it = some v → U32.next bmi s it = some it' → Loop32 bmi s it' l →
      Loop32 bmi s it ((k, v) :: l)

theorem loop_u {bmi : Bool} {s : SuRF} {M : Nat} (hs : s.ISmall M) {it : Iterator} {l : List (Bytes × Bytes)} (I : it.Inv s M) (h : Loop s (fun it => it.next bmi s) it l) : Loop32 bmi s it l := by
  induction h with
  | stop hv => exact .stop hv
  | step hv hk hval hn _ ih =>
    obtain ⟨a1, a2⟩ := next_u hs I hn
    exact .step hv hk (value_u hs hval) a1 (ih a2)

theorem C73_scan (fp : Bytes → Word) (bmi : Bool) (vs h r : Nat) (hhr : h + r ≤ 64) (keys vals : List Bytes) (hin : Input vs keys vals) (hint : Int) (s : SuRF)
    (hs : build fp bmi (newBuilder vs h r) keys vals hint = some s) (hn : keys.length ≤ 2 ^ 23) (hv : keys.length * vs < 2 ^ 32)
    (M : Nat) (hM : ∀ k ∈ keys, k.length ≤ M) (hb : (M + 2) * (M + 1) ≤ 2 ^ 31) :
    ∃ it fl, U32.seek bmi s (U32.newIterator s) [] = some (it, fl) ∧ Loop32 bmi s it ((keys.zip vals).map (shown keys vs)) := by
  have hsm := iSmall_of_input hhr hin hs hn hv hM hb
  obtain ⟨n1, n2⟩ := newIterator_u hsm
  rw [n1]
  obtain ⟨it, fl, a1, a2⟩ := C52_scan fp bmi vs h r hhr keys vals hin hint s hs _ .new
  obtain ⟨b1, b2⟩ := seek_u hsm n2 (by decide) a1
  exact ⟨it, fl, b1, loop_u hsm b2 a2⟩

/-! ### The bound on the end of a range is needed -/

/-- "aX" and "b". -/
def longEndKeys : List Bytes := [[97, 88], [98]]

/-- The filter of the two keys, the iterator of `Seek("a")`, and what `HasOverlap` needs to know of them. -/
theorem longEnd_facts : ((build (fun _ => 0#64) true (newBuilder 0 0 8) longEndKeys [[], []] 0).bind (fun s => (U32.seek true s (U32.newIterator s) [97]).map (fun x => (s, x.1)))).any (fun p =>
    decide (p.2.valid = true ∧ p.2.d.key = some [] ∧ p.2.d.isComplete = false ∧ p.2.d.atPrefixKey = false ∧ p.2.s.key = some [97] ∧ p.2.s.startDepth = 0 ∧
      (p.2.s.posInTrie[p.2.s.level]?).bind (U32.sSuffixPos p.1.ls) = some 0 ∧ p.1.ls.suffixes.realSuffixLen = 8 ∧ U32.read p.1.ls.suffixes 0 = some 88#64 ∧ p.1.ls.suffixes.suffixType = .real ∧
      ¬ (0 ⊠ U32.suffixLen p.1.ls.suffixes ≥ p.1.ls.suffixes.bv.numBits) ∧ ¬ (p.1.ld.height = 0 ∧ p.1.ls.height = 0))) = true := by decide +kernel

theorem longEnd_compare {v : SuffixVector} (z : Bytes) (hz : z.length = 2 ^ 29 - 1) (e1 : v.realSuffixLen = 8) (e3 : U32.read v 0 = some 88#64) (e4 : v.suffixType = .real)
    (e5 : ¬ (0 ⊠ U32.suffixLen v ≥ v.bv.numBits)) : U32.compare v (97 :: 89 :: z) 0 1 = some 1 := by
  have hl : (97 :: 89 :: z : Bytes).length = 536870913 := by
    rw [List.length_cons, List.length_cons, hz]
    norm_num
  have hs : U32.tooShort (97 :: 89 :: z) 1 8 = true := by
    unfold U32.tooShort
    rw [hl]
    decide
  have e2 : U32.constructRealSuffix (97 :: 89 :: z) 1 8 = some 0#64 := by
    unfold U32.constructRealSuffix
    rw [if_pos (by simpa using hs)]
    rfl
  unfold U32.compare
  rw [if_neg (by rw [e4]; simpa using e5), e3, e1, e4]
  simp only [Option.bind_eq_bind, Option.bind_some, e2]
  rfl

/-- With 8 bits of real suffix, for the range from "a" to "aY…" with 2^29 - 1 bytes behind "aY", `HasOverlap` is false in 32-bit arithmetic although "aX" is in the range: `(uint32(len(key))-level)*8` is 0,
and so the stored suffix "X" counts as greater than the end. -/
theorem C73_long_end (z : Bytes) (hz : z.length = 2 ^ 29 - 1) (includeEnd : Bool) : ∃ s, build (fun _ => 0#64) true (newBuilder 0 0 8) longEndKeys [[], []] 0 = some s ∧
    U32.hasOverlap true s [97] (97 :: 89 :: z) includeEnd = some false ∧ ([97] : Bytes) ≤ [97, 88] ∧ ([97, 88] : Bytes) < 97 :: 89 :: z := by
  obtain ⟨⟨s, it⟩, hx, hf⟩ := (Option.any_eq_true _ _).mp longEnd_facts
  obtain ⟨s', hb, hx⟩ := Option.bind_eq_some_iff.mp hx
  obtain ⟨⟨it', fl⟩, hsk, hx⟩ := Option.map_eq_some_iff.mp hx
  obtain ⟨rfl, rfl⟩ := Prod.mk.inj hx
  obtain ⟨h1, h2, h3, h4, h5, h6, h7, e1, e3, e4, e5, h0⟩ := of_decide_eq_true hf
  clear hf hx
  refine ⟨s', hb, ?_, by decide, ?_⟩
  swap
  · exact List.cons_lt_cons_iff.mpr (.inr ⟨rfl, List.cons_lt_cons_iff.mpr (.inl (by decide))⟩)
  clear hb
  dsimp only at h1 h2 h3 h4 h5 h6 h7 e1 e3 e4 e5 h0
  have hcmp := longEnd_compare z hz e1 e3 e4 e5
  have hcmp2 : U32.iterCompare s' it' (97 :: 89 :: z) = some 1 := by
    obtain ⟨pos, g1, g2⟩ := Option.bind_eq_some_iff.mp h7
    have hd : U32.dCompare s'.ld it'.d (97 :: 89 :: z) = some 0 := by
      have hb : bytesCompare [] [] = 0 := by decide
      unfold U32.dCompare
      rw [h2]
      simp [hb, h3, h4]
    have hs : U32.sCompare s'.ls it'.s (97 :: 89 :: z) = some 1 := by
      have hb : bytesCompare [97] [97] = 0 := by decide
      unfold U32.sCompare
      rw [h5, h6]
      simp only [Option.bind_eq_bind, Option.bind_some, List.drop_zero, g1, g2]
      simp [hb, hcmp, show U32.u 1 = 1 by decide]
    unfold U32.iterCompare
    rw [hd]
    simp [h3, hs]
  unfold U32.hasOverlap
  rw [if_neg h0, hsk]
  simp only [Option.bind_eq_bind, Option.bind_some, h1, Bool.not_true, Bool.false_eq_true, if_false, hcmp2]
  cases includeEnd <;> rfl

/-! ### The hypotheses can be met -/

/-- An input with dense and sparse levels, keys of up to 2^15 - 1 bytes being allowed; a sequence with every call. -/
example : Input 1 exampleKeys exampleVals ∧ exampleKeys.length ≤ 2 ^ 23 ∧ exampleKeys.length * 1 < 2 ^ 32 ∧ (∀ k ∈ exampleKeys, k.length ≤ 2 ^ 15 - 1) ∧
    (2 ^ 15 - 1 + 2) * (2 ^ 15 - 1 + 1) ≤ 2 ^ 31 ∧ (∀ c ∈ [ICall.first, .next, .seek [8], .prev, .last, .prev], c.Short) ∧
    (∃ s, build (fun _ => 0#64) true (newBuilder 1 0 4) exampleKeys exampleVals 700 = some s ∧ 0 < s.ld.height ∧
      (runCalls (ICall.run32 true s) (U32.newIterator s) [ICall.first, .next, .seek [8], .prev, .last, .prev]).isSome = true ∧
      U32.hasOverlap true s [8] [255, 255] true = some true) := by
  refine ⟨⟨by decide, by decide, by decide, by decide, by decide, by decide⟩, by decide, by decide, by decide, by decide, ?_, ?_⟩
  · intro c hc
    simp only [List.mem_cons, List.not_mem_nil, or_false] at hc
    rcases hc with rfl | rfl | rfl | rfl | rfl | rfl <;> first | trivial | (show _ < 2 ^ 29; decide)
  · exact ⟨_, (Option.some_get exampleSurf_isSome).symm, by decide +kernel, by decide +kernel, by decide +kernel⟩

end Surf.Props
