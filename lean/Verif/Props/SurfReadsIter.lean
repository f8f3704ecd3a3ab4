import Verif.Surf.ReadsNear
import Verif.Surf.WrapIterBuilt
import Verif.Props.SurfTotal
import Verif.Props.SurfReads

/-!
# Property C94: what `Next` of an iterator reads

`Cnt.next` is `Next` with a counter of the elements it reads from the arrays of the filter (Surf/ReadsIter.lean).
-/

set_option linter.unusedSimpArgs false

namespace Surf.Props

theorem part_key {buf k : Bytes} {b : Bool} (hk : (if b then (usub buf.length 1).bind (cutTo buf) else some buf) = some k) : buf.length ≤ k.length + 1 := by
  cases b with
  | false => cases hk; omega
  | true =>
    obtain ⟨n, h1, h2⟩ := Option.bind_eq_some_iff.mp hk
    unfold usub at h1
    unfold cutTo at h2
    split at h1
    · cases h1
      split at h2
      · cases h2
        rw [List.length_take]
        omega
      · cases h2
    · cases h1

/-- The buffers in use hold little more than the key. -/
theorem itLen_key {it : Iterator} {k : Bytes} (hk : it.key = some k) (hs : it.d.isComplete = true → it.s.valid = false) : Cnt.itLen it ≤ k.length + 2 := by
  have hv : Cnt.dVis it.d ≤ it.d.keyBuf.length := by unfold Cnt.dVis; split <;> omega
  unfold Cnt.itLen Cnt.sVis
  unfold Iterator.key at hk
  split at hk
  · next hc =>
    rw [hs hc]
    have := part_key hk
    simp
    omega
  · obtain ⟨a, h1, hk⟩ := Option.bind_eq_some_iff.mp hk
    obtain ⟨b, h2, hk⟩ := Option.bind_eq_some_iff.mp hk
    cases hk
    have a1 := part_key h1
    have a2 := part_key h2
    rw [List.length_append]
    split <;> omega

theorem roam_part {t0 : Grp} {cut h : Nat} {it : Iterator} (hr : Roam t0 cut h it) : it.d.isComplete = true → it.s.valid = false := by
  intro hc
  rcases hr with ⟨-, h2⟩ | ⟨R, T, sc, l, rc, h1, hf, -⟩ | h1
  · exact h2.valid
  · exfalso
    unfold DenseIter.isComplete at hc
    rw [h1.comp.1, h1.comp.2.1, h1.comp.2.2, hf] at hc
    cases hc
  · exact h1.svalid

theorem roam_done {t0 : Grp} {cut h : Nat} {it : Iterator} (hr : Roam t0 cut h it) (hv : it.valid = false) : Done cut h it := by
  unfold Iterator.valid DenseIter.isComplete at hv
  rcases hr with ⟨⟨r, t, ip, i, iq, h1⟩, -⟩ | ⟨R, T, sc, l, rc, h1, -, -, h2, -⟩ | h1
  · rw [h1.valid, h1.comp.1, h1.comp.2.1, h1.comp.2.2] at hv
    cases hv
  · rw [h1.valid, h2.valid] at hv
    simp at hv
  · exact h1

/-! ### C94 -/

theorem reached_any {bmi : Bool} {s : SuRF} {ok : Bytes → Prop} {it : Iterator} (hr : Reached bmi s ok it) : Reached bmi s (fun _ => True) it := by
  induction hr with
  | new => exact .new
  | first _ h1 h2 ih => exact .first ih h1 h2
  | last _ h1 h2 ih => exact .last ih h1 h2
  | seek _ _ h2 ih => exact .seek trivial ih h2
  | next _ h2 ih => exact .next ih h2
  | prev h1 _ h2 ih => exact .prev h1 ih h2

/-- Where the iterator has run out, no buffer is in use. -/
theorem itLen_done {cut h : Nat} {it : Iterator} (hd : Done cut h it) : Cnt.itLen it = 0 := by
  have hp := hd.ready.p
  unfold Cnt.itLen Cnt.sVis Cnt.dVis
  rw [hd.svalid]
  rcases hd.dvalid with h1 | ⟨h1, -⟩
  · rw [h1]
    simp
  · rw [if_neg (by omega)]
    simp

/-- **C94.** On an iterator of a built filter, wherever `Seek`, `Next`, `Prev` and, with a dense level, `SeekToFirst` and `SeekToLast` have left it, `Next` reads at most 34 elements for each dense level, 557 for each
sparse level and 546 more, and, unless it runs out, one for each byte of the key it gets to and two more; and it leads where the model of `Next` leads. -/
theorem C94_next (fp : Bytes → Word) (bmi : Bool) (vs h r : Nat) (hhr : h + r ≤ 64) (keys vals : List Bytes) (hin : Input vs keys vals) (hint : Int) (s : SuRF)
    (hs : build fp bmi (newBuilder vs h r) keys vals hint = some s) (it : Iterator) (hr : Reached bmi s (fun _ => True) it) :
    ∃ it' n, it.next bmi s = some it' ∧ Cnt.next bmi s it 0 = some (it', n) ∧
      (it'.valid = false → n ≤ 34 * s.ld.height + 557 * s.ls.sparseLevels + 546) ∧
      ∀ k, it'.key = some k → n ≤ 34 * s.ld.height + 557 * s.ls.sparseLevels + 548 + k.length := by
  obtain ⟨ht, B⟩ := the_built hhr hin hs
  have hroam := reached_roam hin B hr
  obtain ⟨it', e, hroam'⟩ := B.r_next bmi hroam
  have hready := hroam.ready
  have hsl : it.s.posInTrie.length = s.ls.sparseLevels := by
    unfold LoudsSparse.sparseLevels
    rw [hready.s.p, B.hs, B.start]
  obtain ⟨n, h1, h2⟩ := (Cnt.grow_next B.close B.near bmi it hready.p hsl 0).2 _ e
  rw [Nat.zero_add] at h2
  refine ⟨it', n, e, h2, fun hv => ?_, fun k hk => ?_⟩
  · have := itLen_done (roam_done hroam' hv)
    omega
  · have := itLen_key hk (roam_part hroam')
    omega

/-- **C94.** In terms of the longest key: `Next` reads at most 558 elements for each of its bytes and 1105 more, however many keys the filter holds. (`Supported`: the searches before did not go astray, see C28.) -/
theorem C94_keys (fp : Bytes → Word) (bmi : Bool) (vs h r : Nat) (hhr : h + r ≤ 64) (keys vals : List Bytes) (hin : Input vs keys vals) (hint : Int) (s : SuRF)
    (hs : build fp bmi (newBuilder vs h r) keys vals hint = some s) (M : Nat) (hM : ∀ k ∈ keys, k.length ≤ M) (it : Iterator) (hr : Reached bmi s (Supported keys s) it) :
    ∃ it' n, it.next bmi s = some it' ∧ Cnt.next bmi s it 0 = some (it', n) ∧ n ≤ 558 * M + 1105 := by
  obtain ⟨ht, B⟩ := the_built hhr hin hs
  obtain ⟨it', n, h1, h2, h0, h3⟩ := C94_next fp bmi vs h r hhr keys vals hin hint s hs it (reached_any hr)
  have hh := B.height_le (M := M) (fun x hx => hM _ (List.of_mem_zip hx).1)
  have hl : s.ld.height + s.ls.sparseLevels = ht := by
    have := B.lt
    unfold LoudsSparse.sparseLevels
    rw [B.hs, B.start]
    omega
  have key : ∀ x : Iterator, Reached bmi s (Supported keys s) x → x.valid = true → ∃ k, x.key = some k ∧ k.length ≤ M := by
    intro x hx hxv
    rcases reached_inv hin B hx with ⟨b, y, ha⟩ | hd
    · refine ⟨_, (at_read hin B ha).2.1, ?_⟩
      obtain ⟨c, ec⟩ := ha.split
      have hm : y ∈ keys.zip vals := by
        have : keys.zip vals = b ++ y :: c := ec
        rw [this]
        simp
      have := hM _ (List.of_mem_zip hm).1
      unfold form
      rw [List.length_take]
      omega
    · rw [hd.valid] at hxv
      cases hxv
  refine ⟨it', n, h1, h2, ?_⟩
  cases hv' : it'.valid with
  | true =>
    obtain ⟨k, h4, h5⟩ := key it' (.next hr h1) hv'
    have := h3 k h4
    omega
  | false =>
    have := h0 hv'
    omega

/-- **C94.** On an iterator that has run out `Next` reads nothing and changes nothing. -/
theorem C94_done (fp : Bytes → Word) (bmi : Bool) (vs h r : Nat) (hhr : h + r ≤ 64) (keys vals : List Bytes) (hin : Input vs keys vals) (hint : Int) (s : SuRF)
    (hs : build fp bmi (newBuilder vs h r) keys vals hint = some s) (it : Iterator) (hr : Reached bmi s (fun _ => True) it) (hv : it.valid = false) :
    Cnt.next bmi s it 0 = some (it, 0) := by
  obtain ⟨ht, B⟩ := the_built hhr hin hs
  have hd := roam_done (reached_roam hin B hr) hv
  unfold Cnt.next Cnt.incrDense
  rw [hd.svalid]
  rcases hd.dvalid with h1 | ⟨h1, h2, -, h3, -⟩
  · rw [h1]
    rfl
  · rw [h2]
    unfold Cnt.dNext
    simp only [h1, if_true, Bool.not_true, Bool.false_eq_true, if_false]
    show (StateT.bind (pure it.d) _) 0 = _
    unfold StateT.bind
    show (if _ then _ else _ : Cnt Iterator) 0 = _
    simp only [h2, h3, Bool.not_true, Bool.false_eq_true, if_false, if_true]
    rfl

/-- **C94.** `SeekToFirst` on a built filter with a dense level, wherever the iterator was: at most 25 elements for each dense level, 278 for each sparse level, one for each byte of the key it gets to and 298 more. -/
theorem C94_first (fp : Bytes → Word) (bmi : Bool) (vs h r : Nat) (hhr : h + r ≤ 64) (keys vals : List Bytes) (hin : Input vs keys vals) (hint : Int) (s : SuRF)
    (hs : build fp bmi (newBuilder vs h r) keys vals hint = some s) (hd : 0 < s.ld.height) (it : Iterator) (hr : Reached bmi s (fun _ => True) it) :
    ∃ it' n k, it.seekToFirst bmi s = some it' ∧ Cnt.seekToFirst bmi s it 0 = some (it', n) ∧ it'.key = some k ∧
      n ≤ 25 * s.ld.height + 278 * s.ls.sparseLevels + 298 + k.length := by
  obtain ⟨ht, B⟩ := the_built hhr hin hs
  have hroam := reached_roam hin B hr
  obtain ⟨ip, i, iq, e0, e1, e2⟩ := first_items B.root
  obtain ⟨it', y, a1, a2⟩ := B.i_first bmi hd hroam.ready e0 e1 e2
  obtain ⟨n, h1, h2⟩ := (Cnt.grow_seekToFirst B.close B.near bmi it hd 0).2 _ a1
  have hk := (at_read hin B a2).2.1
  have := itLen_key hk (roam_part (a2.roam B))
  exact ⟨it', n, _, a1, by rw [h2, Nat.zero_add], hk, by omega⟩

/-! ### Examples -/

/-- The keys and the reads of up to `n` calls of `Next`. -/
def readRun (s : SuRF) : Nat → Iterator → Option (List (Bytes × Nat))
  | 0, _ => some []
  | n + 1, it => (Cnt.next true s it 0).bind fun x => if x.1.valid then x.1.key.bind fun k => (readRun s n x.1).map ((k, x.2) :: ·) else some [([], x.2)]

/-- A scan over "ab", "ac" and 300 bytes "k" in a filter with a dense and a sparse level: `SeekToFirst` reads 12 elements, `Next` 4, 2 and, running out, 3. Of the last key one byte is kept. -/
example : (build (fun _ => 0) true (newBuilder 1 0 0) [[97, 98], [97, 99], List.replicate 300 107] [[0], [1], [2]] 10000).bind (fun s =>
    (Cnt.seekToFirst true s s.newIterator 0).bind fun x => (readRun s 5 x.1).map fun l => ((s.ld.height, s.ls.sparseLevels), x.2, l)) =
    some ((1, 1), 12, [([97, 99], 4), ([107], 2), ([], 3)]) := by
  decide +kernel

/-- The bytes of the key do count: with "ab", "ac", 300 bytes "k" and 301 bytes "k" without dense levels, `Next` from "ac" reads 315 elements, 300 of them bytes of the prefix of a node. -/
theorem C94_example : (build (fun _ => 0) true (newBuilder 1 0 0) [[97, 98], [97, 99], List.replicate 300 107, List.replicate 301 107] [[0], [1], [2], [3]] 0).bind (fun s =>
    (s.newIterator.seek true s [97]).bind fun x => (readRun s 3 x.1).map fun l => ((s.ld.height, s.ls.sparseLevels), l)) =
    some ((0, 2), [([97, 99], 4), (List.replicate 300 107, 315), (List.replicate 301 107, 4)]) := by
  decide +kernel

end Surf.Props
