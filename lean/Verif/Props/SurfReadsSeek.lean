import Verif.Surf.ReadsSeek
import Verif.Props.SurfReadsIter

/-!
# Property C95: what `Seek` of an iterator reads

`Cnt.seek` is `Seek` with a counter of the elements it reads from the arrays of the filter (Surf/ReadsSeek.lean).
-/

set_option linter.unusedSimpArgs false

namespace Surf.Props

/-! ### C95 -/

/-- **C95.** On an iterator of a built filter, wherever it has been left, and for any searched bytes, `Seek` reads at most 96 elements for each dense level, 1109 for each sparse level, four for each searched byte and 814
more, and, unless it runs out, one for each byte of the key it gets to and two more; and it leads where the model of `Seek` leads. -/
theorem C95_seek (fp : Bytes → Word) (bmi : Bool) (vs h r : Nat) (hhr : h + r ≤ 64) (keys vals : List Bytes) (hin : Input vs keys vals) (hint : Int) (s : SuRF)
    (hs : build fp bmi (newBuilder vs h r) keys vals hint = some s) (it : Iterator) (hr : Reached bmi s (fun _ => True) it) (q : Bytes) :
    ∃ it' b n, it.seek bmi s q = some (it', b) ∧ Cnt.seek bmi s it q 0 = some ((it', b), n) ∧
      (it'.valid = false → n ≤ 96 * s.ld.height + 1109 * s.ls.sparseLevels + 4 * q.length + 814) ∧
      ∀ k, it'.key = some k → n ≤ 96 * s.ld.height + 1109 * s.ls.sparseLevels + 4 * q.length + 816 + k.length := by
  obtain ⟨ht, B⟩ := the_built hhr hin hs
  have hroam := reached_roam hin B hr
  have hready := hroam.ready
  obtain ⟨it', b, e, hroam'⟩ := B.r_seek bmi rfl q hready
  have hsl : it.s.posInTrie.length = s.ls.sparseLevels := by
    unfold LoudsSparse.sparseLevels
    rw [hready.s.p, B.hs, B.start]
  obtain ⟨n, h1, h2⟩ := (Cnt.grow_seek B.close B.near bmi it hready.p hsl q 0).2 _ e
  rw [Nat.zero_add] at h2
  dsimp only at h1
  refine ⟨it', b, n, e, h2, fun hv => ?_, fun k hk => ?_⟩
  · have := itLen_done (roam_done hroam' hv)
    omega
  · have := itLen_key hk (roam_part hroam')
    omega

/-- **C95.** In terms of the longest key: a search that does not go astray (`Supported`, see C28) reads at most 1110 elements for each byte of the longest key, four for each searched byte and 1925 more, however many keys the
filter holds. -/
theorem C95_keys (fp : Bytes → Word) (bmi : Bool) (vs h r : Nat) (hhr : h + r ≤ 64) (keys vals : List Bytes) (hin : Input vs keys vals) (hint : Int) (s : SuRF)
    (hs : build fp bmi (newBuilder vs h r) keys vals hint = some s) (M : Nat) (hM : ∀ k ∈ keys, k.length ≤ M) (it : Iterator) (hr : Reached bmi s (Supported keys s) it) (q : Bytes) (hq : Supported keys s q) :
    ∃ it' b n, it.seek bmi s q = some (it', b) ∧ Cnt.seek bmi s it q 0 = some ((it', b), n) ∧ n ≤ 1110 * M + 4 * q.length + 1925 := by
  obtain ⟨ht, B⟩ := the_built hhr hin hs
  obtain ⟨it', b, n, h1, h2, h0, h3⟩ := C95_seek fp bmi vs h r hhr keys vals hin hint s hs it (reached_any hr) q
  have hh := B.height_le (M := M) (fun x hx => hM _ (List.of_mem_zip hx).1)
  have hl : s.ld.height + s.ls.sparseLevels = ht := by
    have := B.lt
    unfold LoudsSparse.sparseLevels
    rw [B.hs, B.start]
    omega
  have hr' : Reached bmi s (Supported keys s) it' := .seek hq hr h1
  refine ⟨it', b, n, h1, h2, ?_⟩
  rcases reached_inv hin B hr' with ⟨b', y, ha⟩ | hd
  · have := h3 _ (at_read hin B ha).2.1
    obtain ⟨c, ec⟩ := ha.split
    have hm : y ∈ keys.zip vals := by
      have : keys.zip vals = b' ++ y :: c := ec
      rw [this]
      simp
    have := hM _ (List.of_mem_zip hm).1
    unfold form at *
    rw [List.length_take] at *
    omega
  · have := h0 hd.valid
    omega

/-! ### Examples -/

/-- The keys found and the reads of searches, each with a new iterator. (No key: the empty one.) -/
def readSeeks (s : SuRF) : List Bytes → Option (List (Bytes × Nat))
  | [] => some []
  | q :: qs => (Cnt.seek true s s.newIterator q 0).bind fun x => (readSeeks s qs).bind fun l => if x.1.1.valid then x.1.1.key.map fun k => (k, x.2) :: l else some (([], x.2) :: l)

/-- Searches for "ac", "ad" and "l" in a filter with a dense and a sparse level read 16, 18 and, running out, 6 elements. -/
theorem C95_example : (build (fun _ => 0) true (newBuilder 1 0 0) [[97, 98], [97, 99], List.replicate 300 107] [[0], [1], [2]] 10000).bind (fun s =>
    (readSeeks s [[97, 99], [97, 100], [108]]).map fun l => ((s.ld.height, s.ls.sparseLevels), l)) =
    some ((1, 1), [([97, 99], 16), ([107], 18), ([], 6)]) := by
  decide +kernel

/-- Both the searched bytes and the bytes of the key count: without dense levels a search for "ad" reads 336 elements to get to 300 bytes "k", and a search for 301 bytes "k" reads the prefix of 300 bytes twice, once
to compare and once to copy. -/
example : (build (fun _ => 0) true (newBuilder 1 0 0) [[97, 98], [97, 99], List.replicate 300 107, List.replicate 301 107] [[0], [1], [2], [3]] 0).bind (fun s =>
    (readSeeks s [[97, 99], [97, 100], List.replicate 301 107]).map fun l => ((s.ld.height, s.ls.sparseLevels), l)) =
    some ((0, 2), [([97, 99], 21), (List.replicate 300 107, 336), (List.replicate 301 107, 624)]) := by
  decide +kernel

end Surf.Props
