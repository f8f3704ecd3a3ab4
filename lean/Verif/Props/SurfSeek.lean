import Verif.Props.SurfIter
import Verif.Surf.Self

/-!
# Searching for stored keys, and scanning from there

`form keys k` is what the trie keeps of `k` (`Verif/Surf/Shape.lean`), `shown` and `Loop` are from `Verif/Props/SurfIter.lean`.
-/

set_option linter.unusedSimpArgs false

namespace Surf.Props

section
variable {fp : Bytes → Word} {vs h r : Nat} {keys vals : List Bytes} {s : SuRF} {ht : Nat}

theorem zip_split (hin : Input vs keys vals) {n : Nat} {k v : Bytes} (hk : keys[n]? = some k) (hv : vals[n]? = some v) :
    keys.zip vals = (keys.zip vals).take n ++ (k, v) :: (keys.zip vals).drop (n + 1) ∧ ((keys.zip vals).take n).length = n := by
  have hz : (keys.zip vals)[n]? = some (k, v) := by rw [List.getElem?_zip_eq_some]; exact ⟨hk, hv⟩
  obtain ⟨hn, e⟩ := List.getElem?_eq_some_iff.mp hz
  refine ⟨?_, by rw [List.length_take]; omega⟩
  conv_lhs => rw [← List.take_append_drop n (keys.zip vals)]
  rw [List.drop_eq_getElem_cons hn, e]

end

/-- **C51.** `Seek(k)` for a stored key stops on it, in every filter, with any suffixes, from any position reached before by `Seek` (of stored keys, for example), `Next` and `Prev`. -/
theorem C51_seek (fp : Bytes → Word) (bmi : Bool) (vs h r : Nat) (hhr : h + r ≤ 64) (keys vals : List Bytes) (hin : Input vs keys vals) (hint : Int) (s : SuRF)
    (hs : build fp bmi (newBuilder vs h r) keys vals hint = some s) (it : Iterator) (hr : Reached bmi s (Supported keys s) it) (n : Nat) (k v : Bytes) (hk : keys[n]? = some k) (hv : vals[n]? = some v) :
    ∃ it' fl, it.seek bmi s k = some (it', fl) ∧ it'.valid = true ∧ it'.key = some (form keys k) ∧ it'.value s = some (v.take vs) := by
  obtain ⟨ht, B⟩ := the_built hhr hin hs
  have hready := inv_ready (reached_inv hin B hr)
  obtain ⟨e, -⟩ := zip_split hin hk hv
  obtain ⟨it', fl, a1, a2⟩ := B.i_seek_self bmi rfl hin.kvs.sorted e ((supported_prefix s (List.mem_of_getElem? hk) List.prefix_rfl).clear hin B) hready
  obtain ⟨r1, r2, r3⟩ := at_read hin B a2
  exact ⟨it', fl, a1, r1, r2, r3⟩

/-- `Next` then goes through the stored keys from `k` on. -/
theorem C51_scan (fp : Bytes → Word) (bmi : Bool) (vs h r : Nat) (hhr : h + r ≤ 64) (keys vals : List Bytes) (hin : Input vs keys vals) (hint : Int) (s : SuRF)
    (hs : build fp bmi (newBuilder vs h r) keys vals hint = some s) (it : Iterator) (hr : Reached bmi s (Supported keys s) it) (n : Nat) (k v : Bytes) (hk : keys[n]? = some k) (hv : vals[n]? = some v) :
    ∃ it' fl, it.seek bmi s k = some (it', fl) ∧ Loop s (fun it => it.next bmi s) it' (((keys.zip vals).drop n).map (shown keys vs)) := by
  obtain ⟨ht, B⟩ := the_built hhr hin hs
  have hready := inv_ready (reached_inv hin B hr)
  obtain ⟨e, el⟩ := zip_split hin hk hv
  obtain ⟨it', fl, a1, a2⟩ := B.i_seek_self bmi rfl hin.kvs.sorted e ((supported_prefix s (List.mem_of_getElem? hk) List.prefix_rfl).clear hin B) hready
  refine ⟨it', fl, a1, ?_⟩
  have hdrop : (keys.zip vals).drop n = (k, v) :: (keys.zip vals).drop (n + 1) := by
    conv_lhs => rw [e]
    exact List.drop_left' el
  rw [hdrop]
  exact loop_next hin B bmi _ _ _ _ a2 e

/-- `HasOverlap(k, k, true)` is true for a stored key, with real suffixes of less than 16 bits or without dense levels. (Not otherwise: `C27_witness_real`.) -/
theorem C51_overlap (fp : Bytes → Word) (bmi : Bool) (vs h r : Nat) (hhr : h + r ≤ 64) (keys vals : List Bytes) (hin : Input vs keys vals) (hint : Int) (s : SuRF)
    (hs : build fp bmi (newBuilder vs h r) keys vals hint = some s) (h16 : r < 16 ∨ s.ld.height = 0) (k : Bytes) (hk : k ∈ keys) : s.hasOverlap bmi k k true = some true := by
  obtain ⟨ht, B⟩ := the_built hhr hin hs
  have hc := (supported_prefix s hk List.prefix_rfl).clear hin B
  have hk' := hk
  rw [← hin.fst, List.mem_map] at hk'
  obtain ⟨x, hx, rfl⟩ := hk'
  exact B.overlap_self bmi rfl h16 hin.kvs.sorted hx hc

/-- **C52.** `Seek` with the empty key and then `Next` go through all stored keys, in order, once each, with their values, in every filter. (`SeekToFirst` does not:
`C29_witness_sparse`, `C29_witness_first`.) -/
theorem C52_scan (fp : Bytes → Word) (bmi : Bool) (vs h r : Nat) (hhr : h + r ≤ 64) (keys vals : List Bytes) (hin : Input vs keys vals) (hint : Int) (s : SuRF)
    (hs : build fp bmi (newBuilder vs h r) keys vals hint = some s) (it : Iterator) (hr : Reached bmi s (Supported keys s) it) :
    ∃ it' fl, it.seek bmi s [] = some (it', fl) ∧ Loop s (fun it => it.next bmi s) it' ((keys.zip vals).map (shown keys vs)) := by
  obtain ⟨ht, B⟩ := the_built hhr hin hs
  have hready := inv_ready (reached_inv hin B hr)
  have hcl : Clear ⟨keys.zip vals, 0⟩ s.ld.height [] := fun W t c v _ _ e => by simp at e
  obtain ⟨it', fl, b, a1, ⟨hb, c, ec, hc⟩, a2⟩ := B.i_seek bmi rfl [] hcl hready
  have hb0 : b = [] := by
    apply List.eq_nil_iff_forall_not_mem.mpr
    intro x hx
    obtain ⟨m, tm, hL, hd | ⟨-, h1, h2⟩ | ⟨rfl, h1, -⟩⟩ := hb x hx
    · exact absurd hd.lt (List.not_lt_nil _)
    · exact h2 (List.prefix_nil.mp h1)
    · have h4 := hL.long B.root
      have h5 := h1.length_le
      rw [List.length_take, List.length_nil] at h5
      omega
  subst hb0
  refine ⟨it', fl, a1, ?_⟩
  rcases a2 with ⟨e, -⟩ | ⟨y, a2⟩
  · exfalso
    exact B.root.toOK.items_ne (by
      have : (⟨keys.zip vals, 0⟩ : Grp).items.flatMap (·.kvs) = [] := by rw [Grp.items_flat]; exact e.symm
      rw [List.flatMap_eq_nil_iff] at this
      apply List.eq_nil_iff_forall_not_mem.mpr
      intro i hi
      exact B.root.toOK.item_ne hi (this i hi))
  · obtain ⟨c', ec'⟩ := a2.split
    have ez : keys.zip vals = [] ++ y :: c' := ec'
    have := loop_next hin B bmi c' [] y it' a2 ez
    rw [ez]
    exact this

/-- **C53**, for `Seek(k)` with a stored key and then `Prev`, in every filter: they go through `k` and the stored keys below it that `backTo` tells to be in reach, in reverse order, once each,
with their values. Without dense levels these are all of them. (On a key that is a prefix of all keys, in a filter with a dense level, `Prev` panics: `C32_total_partial`.) -/
theorem C53_seek (fp : Bytes → Word) (bmi : Bool) (vs h r : Nat) (hhr : h + r ≤ 64) (keys vals : List Bytes) (hin : Input vs keys vals) (hint : Int) (s : SuRF)
    (hs : build fp bmi (newBuilder vs h r) keys vals hint = some s) (it : Iterator) (hr : Reached bmi s (Supported keys s) it) (n : Nat) (k v : Bytes) (hk : keys[n]? = some k) (hv : vals[n]? = some v)
    (hroot : s.ld.height = 0 ∨ ∃ y ∈ keys, ¬ k <+: y) :
    ∃ it' fl, it.seek bmi s k = some (it', fl) ∧
      Loop s (fun it => it.prev bmi s) it' (shown keys vs (k, v) :: (((keys.zip vals).take n).filter (fun kv => backTo keys s.ld.height k kv.1)).reverse.map (shown keys vs)) := by
  obtain ⟨ht, B⟩ := the_built hhr hin hs
  have hready := inv_ready (reached_inv hin B hr)
  obtain ⟨e, el⟩ := zip_split hin hk hv
  obtain ⟨it', fl, a1, a2⟩ := B.i_seek_self bmi rfl hin.kvs.sorted e ((supported_prefix s (List.mem_of_getElem? hk) List.prefix_rfl).clear hin B) hready
  refine ⟨it', fl, a1, loop_prev hin B bmi _ _ _ _ _ rfl a2 ?_ (fun z hz => backTo_free hin B (k, v) z)⟩
  rcases hroot with h0 | ⟨y, hy, hn⟩
  · exact .inl h0
  · rcases Nat.eq_zero_or_pos s.ld.height with h0 | hc
    · exact .inl h0
    · right
      intro hl
      exact hn ((prefix_all hin B.root (root_two B hc) (x := (k, v)) (by rw [e]; simp)).mp hl y hy)

/-- **C53**, without dense levels: `SeekToLast` leaves the iterator invalid. -/
theorem C53_sparse (fp : Bytes → Word) (bmi : Bool) (vs h r : Nat) (keys vals : List Bytes) (hint : Int) (s : SuRF)
    (_hs : build fp bmi (newBuilder vs h r) keys vals hint = some s) (h0 : s.ld.height = 0) (it it' : Iterator) (hl : it.seekToLast bmi s = some it') : it'.valid = false := by
  have hinv : it'.d.valid = false := by
    unfold Iterator.seekToLast at hl
    simp only [h0] at hl
    rw [if_neg (by omega)] at hl
    split at hl
    · simp only [Option.bind_eq_bind, Option.bind_eq_some_iff, Option.pure_def, Option.some.injEq] at hl
      obtain ⟨_, _, _, _, rfl⟩ := hl
      rfl
    · simp only [Option.some.injEq] at hl
      rw [← hl]
      rfl
  unfold Iterator.valid
  rw [hinv]
  rfl

/-- **C31**, after any sequence of calls (`Seek` of supported keys, `Next`, `Prev`, and, with a dense level, `SeekToFirst` and `SeekToLast`). -/
theorem C31_any (fp : Bytes → Word) (bmi : Bool) (vs h r : Nat) (hhr : h + r ≤ 64) (keys vals : List Bytes) (hin : Input vs keys vals) (hint : Int) (s : SuRF)
    (hs : build fp bmi (newBuilder vs h r) keys vals hint = some s) (it : Iterator) (hr : Reached bmi s (Supported keys s) it) (hv : it.valid = true) :
    ∃ (n : Nat) (k v : Bytes), keys[n]? = some k ∧ vals[n]? = some v ∧ it.key = some (form keys k) ∧ form keys k <+: k ∧ it.value s = some (v.take vs) := by
  obtain ⟨ht, B⟩ := the_built hhr hin hs
  rcases reached_inv hin B hr with ⟨b, y, ha⟩ | hd
  · obtain ⟨-, r2, r3⟩ := at_read hin B ha
    obtain ⟨c, ec⟩ := ha.split
    have hym : y ∈ keys.zip vals := by
      have ec' : keys.zip vals = b ++ y :: c := ec
      rw [ec']
      simp
    obtain ⟨n, hn⟩ := List.mem_iff_getElem?.mp hym
    rw [List.getElem?_zip_eq_some] at hn
    exact ⟨n, y.1, y.2, hn.1, hn.2, r2, List.take_prefix _ _, r3⟩
  · rw [hd.valid] at hv
    simp at hv

/-- A filter without dense levels, with the key "k", a prefix of the others: `Seek("")` and `Next` show all four keys. -/
example : ∃ s, build (fun k => BitVec.ofNat 64 k.length) true (newBuilder 1 3 20) endKeys endVals 0 = some s ∧ s.ld.height = 0 ∧
    (∃ it fl, s.newIterator.seek true s [] = some (it, fl) ∧ Loop s (fun it => it.next true s) it [([107], [0]), ([107, 97, 1], [1]), ([107, 97, 2], [2]), ([107, 98], [3])]) ∧
    (∃ it fl, s.newIterator.seek true s [107, 97, 2] = some (it, fl) ∧ Loop s (fun it => it.next true s) it [([107, 97, 2], [2]), ([107, 98], [3])]) ∧
    s.hasOverlap true [107] [107] true = some true := by
  obtain ⟨s, hs⟩ := C38_build_partial (fun k => BitVec.ofNat 64 k.length) true 1 3 20 (by decide) endKeys endVals endInput 0
  have h1 : (build (fun k => BitVec.ofNat 64 k.length) true (newBuilder 1 3 20) endKeys endVals 0).map (fun s => s.ld.height) = some 0 := by decide +kernel
  rw [hs] at h1
  simp only [Option.map_some, Option.some.injEq] at h1
  exact ⟨s, hs, h1, C52_scan _ true 1 3 20 (by decide) endKeys endVals endInput 0 s hs _ .new,
    C51_scan _ true 1 3 20 (by decide) endKeys endVals endInput 0 s hs _ .new 2 [107, 97, 2] [2] rfl rfl,
    C51_overlap _ true 1 3 20 (by decide) endKeys endVals endInput 0 s hs (.inr h1) [107] (by decide)⟩

/-- `endKeys`, with a dense level: from "kb" `Prev` comes to "ka\x02" and "ka\x01", and not to "k". Without dense levels it comes to all of them. -/
example : backTo endKeys 1 [107, 98] [107, 97, 2] = true ∧ backTo endKeys 1 [107, 98] [107, 97, 1] = true ∧ backTo endKeys 1 [107, 98] [107] = false ∧ backTo endKeys 0 [107, 98] [107] = true := by decide +kernel

/-- `zeroKeys`: "k\x00b" is out of reach from "kb", but "k\x00a" in reach from "k\x00b". -/
example : backTo zeroKeys 1 [107, 98] [107, 0, 98] = false ∧ backTo zeroKeys 1 [107, 0, 98] [107, 0, 97] = true := by decide +kernel

/-- With only one label in the root and it is 0x00, the key behind is out of reach from those below it, if there is more than one dense level. -/
example : backTo [[107], [107, 0], [107, 0, 1], [107, 0, 2]] 2 [107, 0, 1] [107, 0] = false ∧ backTo [[107], [107, 0], [107, 0, 1], [107, 0, 2]] 1 [107, 0, 1] [107, 0] = true ∧
    backTo [[107], [107, 0], [107, 0, 1], [107, 0, 2]] 2 [107, 0, 2] [107, 0, 1] = true := by decide +kernel

/-- `C53_last` and `C53_seek` for a filter over `zeroKeys` with a dense level. -/
example : ∃ s, build (fun k => BitVec.ofNat 64 k.length) true (newBuilder 1 0 0) zeroKeys zeroVals 10000 = some s ∧ 0 < s.ld.height ∧
    (∃ it, s.newIterator.seekToLast true s = some it ∧ Loop s (fun it => it.prev true s) it [([107, 98], [2])]) ∧
    ∃ it fl, s.newIterator.seek true s [107, 0, 98] = some (it, fl) ∧ Loop s (fun it => it.prev true s) it [([107, 0, 98], [1]), ([107, 0, 97], [0])] := by
  have hin : Input 1 zeroKeys zeroVals := by constructor <;> decide
  obtain ⟨s, hs⟩ := C38_build_partial (fun k => BitVec.ofNat 64 k.length) true 1 0 0 (by decide) zeroKeys zeroVals hin 10000
  have h1 : (build (fun k => BitVec.ofNat 64 k.length) true (newBuilder 1 0 0) zeroKeys zeroVals 10000).map (fun s => s.ld.height) = some 1 := by decide +kernel
  rw [hs] at h1
  simp only [Option.map_some, Option.some.injEq] at h1
  refine ⟨s, hs, by omega, ?_, ?_⟩
  · obtain ⟨it, b, y, a1, a2, a3⟩ := C53_last _ true 1 0 0 (by decide) zeroKeys zeroVals hin 10000 s hs (by omega)
    obtain ⟨rfl, e⟩ := List.append_inj' (show ([([107, 0, 97], [0]), ([107, 0, 98], [1])] : List KV) ++ [([107, 98], [2])] = b ++ [y] from a2) rfl
    rw [List.cons.injEq] at e
    rw [← e.1, h1] at a3
    exact ⟨it, a1, a3⟩
  · obtain ⟨it, fl, a1, a3⟩ := C53_seek _ true 1 0 0 (by decide) zeroKeys zeroVals hin 10000 s hs _ .new 1 [107, 0, 98] [1] rfl rfl (.inr ⟨[107, 98], by decide, by decide⟩)
    rw [h1] at a3
    exact ⟨it, fl, a1, a3⟩

end Surf.Props
