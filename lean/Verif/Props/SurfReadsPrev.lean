import Verif.Surf.ReadsPrev
import Verif.Props.SurfReadsIter

/-!
# Property C97: what `Prev` and `SeekToLast` of an iterator read

`Cnt.prev` and `Cnt.seekToLast` are `Prev` and `SeekToLast` with a counter of the elements they read from the arrays of the filter (Surf/ReadsPrev.lean).
-/

set_option linter.unusedSimpArgs false

namespace Surf.Props

/-! ### C97 -/

/-- **C97.** On an iterator of a built filter with fewer than 2^32 dense levels, wherever `Seek`, `Next`, `Prev` and, with a dense level, `SeekToFirst` and `SeekToLast` have left it, `Prev` reads at most 34 elements for
each dense level, 557 for each sparse level and 546 more, and, unless it runs out, one for each byte of the key it gets to and two more; and it leads where the model of `Prev` leads. It panics where that panics (see C59). -/
theorem C97_prev (fp : Bytes → Word) (bmi : Bool) (vs h r : Nat) (hhr : h + r ≤ 64) (keys vals : List Bytes) (hin : Input vs keys vals) (hint : Int) (s : SuRF)
    (hs : build fp bmi (newBuilder vs h r) keys vals hint = some s) (h32 : s.ld.height < 2 ^ 32) (it : Iterator) (hr : Reached bmi s (fun _ => True) it) :
    (it.prev bmi s = none → Cnt.prev bmi s it 0 = none) ∧
    ∀ it', it.prev bmi s = some it' → ∃ n, Cnt.prev bmi s it 0 = some (it', n) ∧
      (it'.valid = false → n ≤ 34 * s.ld.height + 557 * s.ls.sparseLevels + 546) ∧
      ∀ k, it'.key = some k → n ≤ 34 * s.ld.height + 557 * s.ls.sparseLevels + 548 + k.length := by
  obtain ⟨ht, B⟩ := the_built hhr hin hs
  have hroam := reached_roam hin B hr
  have hready := hroam.ready
  have hsl : it.s.posInTrie.length = s.ls.sparseLevels := by
    unfold LoudsSparse.sparseLevels
    rw [hready.s.p, B.hs, B.start]
  have hg := Cnt.grow_prev B.close B.behind bmi it hready.p hsl 0
  refine ⟨hg.1, fun it' e => ?_⟩
  have hroam' := reached_roam hin B (.prev h32 hr e)
  obtain ⟨n, h1, h2⟩ := hg.2 _ e
  rw [Nat.zero_add] at h2
  refine ⟨n, h2, fun hv => ?_, fun k hk => ?_⟩
  · have := itLen_done (roam_done hroam' hv)
    omega
  · have := itLen_key hk (roam_part hroam')
    omega

/-- **C97.** In terms of the longest key: where `Prev` does not panic, it reads at most 558 elements for each byte of the longest key and 1105 more, however many keys the filter holds. (`Supported`: the searches before did
not go astray, see C28.) -/
theorem C97_keys (fp : Bytes → Word) (bmi : Bool) (vs h r : Nat) (hhr : h + r ≤ 64) (keys vals : List Bytes) (hin : Input vs keys vals) (hint : Int) (s : SuRF)
    (hs : build fp bmi (newBuilder vs h r) keys vals hint = some s) (h32 : s.ld.height < 2 ^ 32) (M : Nat) (hM : ∀ k ∈ keys, k.length ≤ M) (it it' : Iterator) (hr : Reached bmi s (Supported keys s) it)
    (hp : it.prev bmi s = some it') : ∃ n, Cnt.prev bmi s it 0 = some (it', n) ∧ n ≤ 558 * M + 1105 := by
  obtain ⟨ht, B⟩ := the_built hhr hin hs
  obtain ⟨n, h2, h0, h3⟩ := (C97_prev fp bmi vs h r hhr keys vals hin hint s hs h32 it (reached_any hr)).2 it' hp
  have hh := B.height_le (M := M) (fun x hx => hM _ (List.of_mem_zip hx).1)
  have hl : s.ld.height + s.ls.sparseLevels = ht := by
    have := B.lt
    unfold LoudsSparse.sparseLevels
    rw [B.hs, B.start]
    omega
  refine ⟨n, h2, ?_⟩
  cases hv' : it'.valid with
  | true =>
    rcases reached_inv hin B (.prev h32 hr hp) with ⟨b, y, ha⟩ | hd
    · have h4 := h3 _ (at_read hin B ha).2.1
      obtain ⟨c, ec⟩ := ha.split
      have hm : y ∈ keys.zip vals := by
        have : keys.zip vals = b ++ y :: c := ec
        rw [this]
        simp
      have h5 := hM _ (List.of_mem_zip hm).1
      unfold form at h4
      rw [List.length_take] at h4
      omega
    · rw [hd.valid] at hv'
      cases hv'
  | false =>
    have := h0 hv'
    omega

/-- **C97.** On an iterator that has run out `Prev` reads nothing and changes nothing. -/
theorem C97_done (fp : Bytes → Word) (bmi : Bool) (vs h r : Nat) (hhr : h + r ≤ 64) (keys vals : List Bytes) (hin : Input vs keys vals) (hint : Int) (s : SuRF)
    (hs : build fp bmi (newBuilder vs h r) keys vals hint = some s) (it : Iterator) (hr : Reached bmi s (fun _ => True) it) (hv : it.valid = false) :
    Cnt.prev bmi s it 0 = some (it, 0) := by
  obtain ⟨ht, B⟩ := the_built hhr hin hs
  have hd := roam_done (reached_roam hin B hr) hv
  unfold Cnt.prev Cnt.decrDense
  rw [hd.svalid]
  rcases hd.dvalid with h1 | ⟨h1, h2, -, -, h3⟩
  · rw [h1]
    rfl
  · rw [h2]
    unfold Cnt.dPrev
    simp only [h1, if_true, Bool.not_true, Bool.false_eq_true, if_false]
    show (StateT.bind (pure it.d) _) 0 = _
    unfold StateT.bind
    show (if _ then _ else _ : Cnt Iterator) 0 = _
    simp only [h2, h3, Bool.not_true, Bool.false_eq_true, if_false, if_true]
    rfl

/-- **C97.** `SeekToLast` on a built filter with a dense level, wherever the iterator was: at most 24 elements for each dense level, 278 for each sparse level, one for each byte of the key it gets to and 297 more. -/
theorem C97_last (fp : Bytes → Word) (bmi : Bool) (vs h r : Nat) (hhr : h + r ≤ 64) (keys vals : List Bytes) (hin : Input vs keys vals) (hint : Int) (s : SuRF)
    (hs : build fp bmi (newBuilder vs h r) keys vals hint = some s) (hd : 0 < s.ld.height) (it : Iterator) (hr : Reached bmi s (fun _ => True) it) :
    ∃ it' n k, it.seekToLast bmi s = some it' ∧ Cnt.seekToLast bmi s it 0 = some (it', n) ∧ it'.key = some k ∧
      n ≤ 24 * s.ld.height + 278 * s.ls.sparseLevels + 297 + k.length := by
  obtain ⟨ht, B⟩ := the_built hhr hin hs
  have hroam := reached_roam hin B hr
  obtain ⟨it', b, y, a1, a2, -⟩ := B.i_last bmi hd hroam.ready (root_two B hd)
  obtain ⟨n, h1, h2⟩ := (Cnt.grow_seekToLast B.close B.behind bmi it hd 0).2 _ a1
  have hk := (at_read hin B a2).2.1
  have := itLen_key hk (roam_part (a2.roam B))
  exact ⟨it', n, _, a1, by rw [h2, Nat.zero_add], hk, by omega⟩

/-! ### Examples -/

/-- The keys and the reads of up to `n` calls of `Prev`. -/
def readBack (s : SuRF) : Nat → Iterator → Option (List (Bytes × Nat))
  | 0, _ => some []
  | n + 1, it => (Cnt.prev true s it 0).bind fun x => if x.1.valid then x.1.key.bind fun k => (readBack s n x.1).map ((k, x.2) :: ·) else some [([], x.2)]

/-- A scan backwards over "ab", "ac" and 300 bytes "k" in a filter with a dense and a sparse level: `SeekToLast` reads 5 elements, `Prev` 8, 4 and, running out, 2. -/
example : (build (fun _ => 0) true (newBuilder 1 0 0) [[97, 98], [97, 99], List.replicate 300 107] [[0], [1], [2]] 10000).bind (fun s =>
    (Cnt.seekToLast true s s.newIterator 0).bind fun x => (readBack s 5 x.1).map fun l => ((s.ld.height, s.ls.sparseLevels), x.2, l)) =
    some ((1, 1), 5, [([97, 99], 8), ([97, 98], 4), ([], 2)]) := by
  decide +kernel

/-- The bytes of the key do count: `Prev` from "l" to the longer of two keys with a common prefix of 301 bytes reads 311 elements, the next ones 5, 11, 4 and, running out, 2. -/
theorem C97_example : (build (fun _ => 0) true (newBuilder 1 0 0) [[97, 98], [97, 99], 98 :: List.replicate 300 107, 98 :: List.replicate 301 107, [108]] [[0], [1], [2], [3], [4]] 10000).bind (fun s =>
    (Cnt.seekToLast true s s.newIterator 0).bind fun x => (readBack s 5 x.1).map fun l => ((s.ld.height, s.ls.sparseLevels), x.2, l)) =
    some ((1, 1), 5, [(98 :: List.replicate 301 107, 311), (98 :: List.replicate 300 107, 5), ([97, 99], 11), ([97, 98], 4), ([], 2)]) := by
  decide +kernel

end Surf.Props
