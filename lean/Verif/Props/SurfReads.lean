import Verif.Surf.ReadsBuilt
import Verif.Surf.MarshalLemmas
import Verif.Props.SurfGet

/-!
# Property C91: what `Get` of a filter reads

`Cnt.get` is `Get` with a counter of the elements it reads from the arrays of the filter (Surf/Reads.lean).
-/

set_option linter.unusedSimpArgs false

namespace Surf.Props

/-- **C91.** `Get` on a built filter reads at most 541 elements for each byte of the query and 268 more, however many keys the filter holds and however long they are, and returns what the model of `Get` returns. -/
theorem C91_reads (fp : Bytes → Word) (bmi : Bool) (vs h r : Nat) (hhr : h + r ≤ 64) (keys vals : List Bytes) (hin : Input vs keys vals) (hint : Int) (s : SuRF)
    (hs : build fp bmi (newBuilder vs h r) keys vals hint = some s) (q : Bytes) :
    ∃ v ok n, s.get fp bmi q = some (v, ok) ∧ Cnt.get fp bmi s q 0 = some ((v, ok), n) ∧ n ≤ 541 * q.length + 268 := by
  obtain ⟨_, _, B, -⟩ := get_built hhr hin hs
  obtain ⟨v, ok, e⟩ := C23_total fp bmi vs h r hhr keys vals hin hint s hs q
  obtain ⟨n, h1, h2⟩ := (Cnt.Close.tally_get B.close fp bmi q 0).2 _ e
  exact ⟨v, ok, n, e, by rw [h2, Nat.zero_add], h1⟩

/-- **C91.** `Select` on the LOUDS vector of a built filter, wherever it returns, reads at most 255 elements: the scan that follows the table passes fewer than 64 nodes, of at most 257 labels each. -/
theorem C91_select (fp : Bytes → Word) (bmi : Bool) (vs h r : Nat) (hhr : h + r ≤ 64) (keys vals : List Bytes) (hin : Input vs keys vals) (hint : Int) (s : SuRF)
    (hs : build fp bmi (newBuilder vs h r) keys vals hint = some s) (rank p : Nat) (hp : s.ls.loudsVec.select bmi rank = some p) :
    ∃ n, Cnt.select bmi s.ls.loudsVec rank 0 = some (p, n) ∧ n ≤ 255 := by
  obtain ⟨_, _, B, -⟩ := get_built hhr hin hs
  obtain ⟨n, h1, h2⟩ := (B.close.tally_select bmi rank 0).2 _ hp
  exact ⟨n, by rw [h2, Nat.zero_add], h1⟩

/-! ### Restored filters -/

/-- A LOUDS vector with one set bit and `n` words without one behind it. -/
def gapFilter (n : Nat) : SuRF where
  ld := { labelVec := { blockSize := 64, rankLut := [0] }, hasChildVec := { blockSize := 64, rankLut := [0] }, isPrefixVec := { blockSize := 64, rankLut := [0] },
          prefixVec := { hasPrefixVec := { blockSize := 512, rankLut := [0] } } }
  ls := { height := 1, labelVec := { labels := [7] }, hasChildVec := { bv := { numBits := 1, bits := [0] }, blockSize := 512, rankLut := [0] },
          loudsVec := { bv := { numBits := 64 * (n + 1), bits := 1 :: List.replicate n 0 }, numOnes := 1, selectLut := [0] },
          prefixVec := { hasPrefixVec := { bv := { numBits := 1, bits := [0] }, blockSize := 512, rankLut := [0] } } }

theorem gapFilter_ok {n : Nat} (hn : n + 1 < 2 ^ 26) : (gapFilter n).Ok := by
  have e0 : numWordsOf (64 * (n + 1)) = n + 1 := by unfold numWordsOf; rw [if_neg (by omega)]; omega
  have hr : ∀ b : Nat, 0 < b → b < 2 ^ 32 → RankVector.Ok { blockSize := b, rankLut := [0] } := fun b h1 h2 =>
    ⟨by show 0 = numWordsOf 0; rfl, by show 0 < 2 ^ 32; decide, h1, h2, by simp, by simp⟩
  have h1 : RankVector.Ok { bv := { numBits := 1, bits := [0] }, blockSize := 512, rankLut := [0] } := ⟨rfl, by decide, by decide, by decide, rfl, by simp⟩
  have hs : SuffixVector.Ok {} := ⟨rfl, by decide, by decide, by decide, fun _ => rfl⟩
  have hv : ValueVector.Ok {} := ⟨by decide, by decide⟩
  have z : 0 < 2 ^ 32 := by decide
  have o : 1 < 2 ^ 32 := by decide
  refine ⟨⟨z, hr _ (by decide) (by decide), hr _ (by decide) (by decide), hr _ (by decide) (by decide), hs, ⟨hr _ (by decide) (by decide), z, z⟩, hv⟩,
    ⟨o, z, z, z, by show 4 + 1 < 2 ^ 32; decide, h1, ⟨?_, ?_, o, by show 1 = 1 / 64 + 1; decide, by simp [gapFilter]⟩, hs, ⟨h1, z, z⟩, hv⟩⟩
  · show (1 :: List.replicate n (0 : Word)).length = numWordsOf (64 * (n + 1))
    rw [e0]
    simp
  · show 64 * (n + 1) < 2 ^ 32
    omega

theorem gap_dist (v : BitVector) (hm : v.numBits % 64 = 0) : ∀ (k off d c : Nat), (∀ i, off < i → i ≤ off + k → v.bits[i]? = some 0) → Cnt.distNextLoop v k off d c = some (d + 64 * k, c + k) := by
  intro k
  induction k with
  | zero =>
    intro off d c _
    unfold Cnt.distNextLoop
    rw [if_neg (by omega)]
    rfl
  | succ k ih =>
    intro off d c h
    have hw := h (off + 1) (by omega) (by omega)
    have := ih (off + 1) (d + 64) (c + 1) (fun i h1 h2 => h i (by omega) (by omega))
    show ((Cnt.rd 1 v.bits[off + 1]?) c).bind (fun x => (if x.1 ≠ 0#64 then (pure (d + trailingZeros x.1) : Cnt Nat) else Cnt.distNextLoop v k (off + 1) (d + 64)) x.2) = _
    rw [hw]
    show (if (0 : Word) ≠ 0#64 then (pure (d + trailingZeros 0) : Cnt Nat) else Cnt.distNextLoop v k (off + 1) (d + 64)) (c + 1) = _
    rw [if_neg (by decide), this]
    congr 2 <;> omega

theorem gap_size (n c : Nat) : Cnt.distanceToNextSetBit (gapFilter (n + 1)).ls.loudsVec.bv 0 c = some (64 + 64 * (n + 1), c + 1 + (n + 1)) := by
  have e0 : (gapFilter (n + 1)).ls.loudsVec.bv.numWords = n + 2 := by
    show numWordsOf (64 * (n + 1 + 1)) = n + 2
    unfold numWordsOf; rw [if_neg (by omega)]; omega
  have hl : ¬ (0 + 1) / 64 ≥ (gapFilter (n + 1)).ls.loudsVec.bv.bits.length := by
    show ¬ 0 ≥ (1 :: List.replicate (n + 1) (0 : Word)).length
    simp
  have hb : (gapFilter (n + 1)).ls.loudsVec.bv.bits[(0 + 1) / 64]? = some 1 := rfl
  have hd := gap_dist (gapFilter (n + 1)).ls.loudsVec.bv (show 64 * (n + 1 + 1) % 64 = 0 by omega) (n + 1) 0 64 (c + 1) (fun i h1 h2 => by
    show (1 :: List.replicate (n + 1) (0 : Word))[i]? = some 0
    cases i with
    | zero => omega
    | succ i => rw [List.getElem?_cons_succ, List.getElem?_replicate, if_pos (by omega)])
  unfold Cnt.distanceToNextSetBit
  dsimp only
  rw [if_neg hl, hb, e0]
  show (if (0 : Nat) = n + 1 then Cnt.free (usub (gapFilter (n + 1)).ls.loudsVec.bv.numBits 0) else Cnt.distNextLoop (gapFilter (n + 1)).ls.loudsVec.bv (n + 1 - 0) 0 64) (c + 1) = _
  rw [if_neg (by omega)]
  exact hd

theorem step {α β : Type} {m : Cnt α} {f : α → Cnt β} {c c' : Nat} {a : α} (e : m c = some (a, c')) : (m >>= f) c = f a c' := by
  show (m c).bind (fun x => f x.1 x.2) = _
  rw [e]
  rfl

theorem gap_search (m c : Nat) (hm : 1 < m) : Cnt.search { labels := [7] } 5 0 m c = some ((0, false), c + 2) := by
  have e1 : Cnt.skipTerminator { labels := [7] } 0 m c = some ((0, m), c + 1) := by
    unfold Cnt.skipTerminator
    rw [if_pos hm]
    refine (step (a := 7) (c' := c + 1) rfl).trans ?_
    rw [if_neg (by decide)]
    rfl
  unfold Cnt.search
  refine (step e1).trans ?_
  have e2 : Cnt.free (slice [(7 : UInt8)] 0 (min (0 + m) 1)) (c + 1) = some ([7], c + 1) := by
    rw [Nat.min_eq_right (by omega)]
    rfl
  refine (step e2).trans ?_
  rfl

/-- `Get` with one byte on the filter with `n + 1` empty words reads `n + 6` elements. -/
theorem gap_get (fp : Bytes → Word) (bmi : Bool) (n : Nat) : Cnt.get fp bmi (gapFilter (n + 1)) [5] 0 = some (([], false), n + 6) := by
  have e2 : Cnt.firstLabelPos bmi (gapFilter (n + 1)).ls 0 0 = some (0, 1) := by
    refine (step (a := 1) (c' := 0) rfl).trans ?_
    unfold Cnt.select
    have h1 : Cnt.free (SelectVector.selectRankLeft 1) 0 = some (0, 0) := by decide
    refine (step h1).trans ?_
    have h2 : Cnt.rd 1 (gapFilter (n + 1)).ls.loudsVec.selectLut[1 / selectSampleInterval]? 0 = some (0, 1) := by
      show Cnt.rd 1 [0][1 / selectSampleInterval]? 0 = some (0, 1)
      decide
    refine (step h2).trans ?_
    rfl
  have e3 : Cnt.checkPrefix (gapFilter (n + 1)).ls.prefixVec [5] 0 0 1 = some ((0, true), 2) := rfl
  unfold Cnt.get
  refine (step (a := ⟨0, 0, [], true⟩) (c' := 0) rfl).trans ?_
  show (Cnt.sGet fp bmi (gapFilter (n + 1)).ls [5] 0 0) 0 = _
  unfold Cnt.sGet
  refine (step e2).trans ?_
  show (Cnt.sGetLoop fp bmi (gapFilter (n + 1)).ls [5] (1 + 1) 0 0 0) 1 = _
  unfold Cnt.sGetLoop
  rw [if_pos (by decide)]
  refine (step (a := 0) (c' := 1) rfl).trans ?_
  refine (step e3).trans ?_
  refine (step (a := 5) (c' := 2) rfl).trans ?_
  refine (step (gap_size n 2)).trans ?_
  refine (step (gap_search (64 + 64 * (n + 1)) _ (by omega))).trans ?_
  show some (([], false), 2 + 1 + (n + 1) + 2) = _
  congr 2
  omega

/-- **C91** is about built filters: what `UnmarshalBinary` makes of other bytes need not meet any bound below the size of the data. For every `n` up to 2^26 - 3 there are bytes from which a filter is
restored on which `Get` with a query of one byte reads more than `n` elements. -/
theorem C91_restored (fp : Bytes → Word) (bmi : Bool) (n : Nat) (hn : n + 2 < 2 ^ 26) :
    ∃ d s k, SuRF.unmarshal d = some s ∧ Cnt.get fp bmi s [5] 0 = some (([], false), k) ∧ n < k := by
  have := SuRF.roundtrip (gapFilter (n + 1)) (gapFilter_ok (by omega)) []
  exact ⟨_, _, n + 6, this, gap_get fp bmi n, by omega⟩

/-! ### Example -/

/-- The sample of six keys: a stored key of five bytes is found after 43 reads. -/
example : ∃ s, build (fun _ => 0) true (newBuilder 2 0 8) sampleKeys sampleVals 0 = some s ∧ Cnt.get (fun _ => 0) true s [107, 120, 121, 122, 50] 0 = some (([12, 13], true), 43) := by
  obtain ⟨s, hs⟩ := C38_build_partial (fun _ => 0) true 2 0 8 (by decide) sampleKeys sampleVals sampleInput 0
  have h : ((build (fun _ => 0) true (newBuilder 2 0 8) sampleKeys sampleVals 0).bind fun s => Cnt.get (fun _ => 0) true s [107, 120, 121, 122, 50] 0) = some (([12, 13], true), 43) := by
    decide +kernel
  rw [hs] at h
  exact ⟨s, hs, h⟩

end Surf.Props
