import Verif.Surf.FindLemmas

/-!
# Properties C22–C26 and C38: `Build` and `Get`

The hypotheses on the arguments of `Build` are gathered in `Input`. The theorems hold for every hash function `fp` (in the code,
`farm.Fingerprint64`), with and without the BMI2 `select` (`bmi`), for every size hint and every suffix configuration of at
most 64 bits.
-/

set_option linter.unusedSimpArgs false

namespace Surf.Props

/-- What a caller of `NewBuilder(valueSize, …).Build(keys, vals, …)` has to provide. -/
structure Input (valueSize : Nat) (keys vals : List Bytes) : Prop where
  /-- there is a key -/
  ne : keys ≠ []
  /-- the keys are sorted (bytewise) and distinct -/
  sorted : keys.Pairwise (· < ·)
  /-- the empty key is not the only one (see `C38_witness`) -/
  notEmpty : keys ≠ [[]]
  /-- one value for each key -/
  lens : vals.length = keys.length
  /-- of at least `valueSize` bytes -/
  vals : ∀ v ∈ vals, valueSize ≤ v.length
  /-- the vectors are addressed with `uint32` -/
  size : keys.flatten.length < 2 ^ 32

theorem Input.fst {vs : Nat} {keys vals : List Bytes} (h : Input vs keys vals) : (keys.zip vals).map (·.1) = keys :=
  List.map_fst_zip (Nat.le_of_eq h.lens.symm)

theorem Input.snd {vs : Nat} {keys vals : List Bytes} (h : Input vs keys vals) : (keys.zip vals).map (·.2) = vals :=
  List.map_snd_zip (Nat.le_of_eq h.lens)

theorem Input.kvs {vs : Nat} {keys vals : List Bytes} (h : Input vs keys vals) : Sorted (keys.zip vals) := by
  refine ⟨?_, ?_, ?_⟩
  · intro e
    have := h.fst
    rw [e] at this
    exact h.ne this.symm
  · have := h.sorted
    rw [← h.fst, List.pairwise_map] at this
    exact this
  · rw [h.fst]
    exact h.notEmpty

theorem fine (vs h r : Nat) (hhr : h + r ≤ 64) : (newBuilder vs h r).Fine := ⟨rfl, hhr⟩

theorem built (fp : Bytes → Word) (bmi : Bool) (vs h r : Nat) (hhr : h + r ≤ 64) (keys vals : List Bytes) (hin : Input vs keys vals) (hint : Int) :
    ∃ s cut ht, build fp bmi (newBuilder vs h r) keys vals hint = some s ∧ Built (newBuilder vs h r) fp s ⟨keys.zip vals, 0⟩ cut ht := by
  obtain ⟨s, cut, ht, h1, h2⟩ := build_sorted (newBuilder vs h r) fp (fine vs h r hhr) bmi (keys.zip vals) hin.kvs
    (fun x hx => hin.vals x.2 (List.of_mem_zip hx).2) (by rw [hin.fst]; exact hin.size) hint
  rw [hin.fst, hin.snd] at h1
  exact ⟨s, cut, ht, h1, h2⟩

/-- **C38**, for key lists other than `[""]` (for that one see `C38_witness`): `Build` does not panic.
What is missing: the full statement is false, `Build` panics on `[""]`. -/
theorem C38_build_partial (fp : Bytes → Word) (bmi : Bool) (vs h r : Nat) (hhr : h + r ≤ 64) (keys vals : List Bytes) (hin : Input vs keys vals) (hint : Int) :
    ∃ s, build fp bmi (newBuilder vs h r) keys vals hint = some s := by
  obtain ⟨s, -, -, h1, -⟩ := built fp bmi vs h r hhr keys vals hin hint
  exact ⟨s, h1⟩

/-- `Build` with the empty key as the only one panics (builder.go:135 reads `keys[0][depth]`), whatever the configuration, the
value and the hint. -/
theorem C38_witness (fp : Bytes → Word) (bmi : Bool) (cfg : Config) (v : Bytes) (hint : Int) : build fp bmi cfg [[]] [v] hint = none := by
  unfold build
  rw [buildNodes]
  cases he : (ensureLevel [] 0)[0]? with
  | none => simp [he]
  | some l =>
    cases hm : modifyLevel (ensureLevel [] 0) 0 (Level.insertTerminator cfg fp [] 0 v) with
    | none => simp [he, terminatorItem, hm]
    | some ls => simp [he, terminatorItem, hm, groupLoop, emitGroup]

/-- `Build` without keys panics. -/
theorem C38_witness_nil (fp : Bytes → Word) (bmi : Bool) (cfg : Config) (hint : Int) : build fp bmi cfg [] [] hint = none := by
  rfl

theorem get_built {fp : Bytes → Word} {bmi : Bool} {vs h r : Nat} (hhr : h + r ≤ 64) {keys vals : List Bytes} (hin : Input vs keys vals) {hint : Int} {s : SuRF}
    (hs : build fp bmi (newBuilder vs h r) keys vals hint = some s) :
    ∃ cut ht, Built (newBuilder vs h r) fp s ⟨keys.zip vals, 0⟩ cut ht ∧
      ∀ q, s.get fp bmi q = some (answer (newBuilder vs h r) fp q (find cut q (q.length + 1) 0 ⟨keys.zip vals, 0⟩)) := by
  obtain ⟨s', cut, ht, h1, h2⟩ := built fp bmi vs h r hhr keys vals hin hint
  rw [hs] at h1
  simp only [Option.some.injEq] at h1
  subst h1
  exact ⟨cut, ht, h2, h2.get rfl bmi⟩

/-- **C23.** `Get` does not panic, whatever the query. -/
theorem C23_total (fp : Bytes → Word) (bmi : Bool) (vs h r : Nat) (hhr : h + r ≤ 64) (keys vals : List Bytes) (hin : Input vs keys vals) (hint : Int) (s : SuRF)
    (hs : build fp bmi (newBuilder vs h r) keys vals hint = some s) (q : Bytes) : ∃ v ok, s.get fp bmi q = some (v, ok) := by
  obtain ⟨_, _, -, h1⟩ := get_built hhr hin hs
  exact ⟨_, _, h1 q⟩

/-- **C22.** `Get` finds every stored key, with its value. -/
theorem C22_stored (fp : Bytes → Word) (bmi : Bool) (vs h r : Nat) (hhr : h + r ≤ 64) (keys vals : List Bytes) (hin : Input vs keys vals) (hint : Int) (s : SuRF)
    (hs : build fp bmi (newBuilder vs h r) keys vals hint = some s) (n : Nat) (k v : Bytes) (hk : keys[n]? = some k) (hv : vals[n]? = some v) :
    s.get fp bmi k = some (v.take vs, true) := by
  obtain ⟨cut, ht, B, h1⟩ := get_built hhr hin hs
  have hx : (k, v) ∈ keys.zip vals := by
    apply List.mem_of_getElem? (i := n)
    rw [List.getElem?_zip_eq_some]
    exact ⟨hk, hv⟩
  obtain ⟨b, i, e1, e2⟩ := find_stored cut (k, v) (k.length + 1) 0 ⟨keys.zip vals, 0⟩ B.root hx (by simp)
  have e : leafKV (b, i) = (k, v) := by simp [leafKV, e2]
  have hsuf := sufOK_self (newBuilder vs h r) fp k (b + 1)
  rw [h1, e1]
  simp only [answer, leafWord, leafVal, e]
  rw [if_pos hsuf]
  rfl

/-- **C26.** For a stored key the answer does not depend on the size hint (and so on the level at which the sparse part begins). -/
theorem C26_hint (fp : Bytes → Word) (bmi : Bool) (vs h r : Nat) (hhr : h + r ≤ 64) (keys vals : List Bytes) (hin : Input vs keys vals) (hint hint' : Int) (s s' : SuRF)
    (hs : build fp bmi (newBuilder vs h r) keys vals hint = some s) (hs' : build fp bmi (newBuilder vs h r) keys vals hint' = some s') :
    ∀ k ∈ keys, s.get fp bmi k = s'.get fp bmi k := by
  intro k hk
  obtain ⟨n, hn⟩ := List.getElem?_of_mem hk
  have hlt := (List.getElem?_eq_some_iff.mp hn).1
  have hv : vals[n]? = some (vals[n]'(by rw [hin.lens]; exact hlt)) := List.getElem?_eq_getElem _
  rw [C22_stored fp bmi vs h r hhr keys vals hin hint s hs n k _ hn hv, C22_stored fp bmi vs h r hhr keys vals hin hint' s' hs' n k _ hn hv]

theorem hit_find {fp : Bytes → Word} {bmi : Bool} {vs h r : Nat} (hhr : h + r ≤ 64) {keys vals : List Bytes} (hin : Input vs keys vals) {hint : Int} {s : SuRF}
    (hs : build fp bmi (newBuilder vs h r) keys vals hint = some s) {q v : Bytes} (hit : s.get fp bmi q = some (v, true)) :
    ∃ cut ht j D, Built (newBuilder vs h r) fp s ⟨keys.zip vals, 0⟩ cut ht ∧ find cut q (q.length + 1) 0 ⟨keys.zip vals, 0⟩ = some (j, D) ∧
      sufOK (newBuilder vs h r) fp (leafWord (newBuilder vs h r) fp j) q (D + 1) = true ∧ v = leafVal (newBuilder vs h r) j ∧
      leafKV j ∈ keys.zip vals ∧ Related keys (leafKV j).1 q := by
  obtain ⟨cut, ht, B, h1⟩ := get_built hhr hin hs
  rw [h1] at hit
  cases hf : find cut q (q.length + 1) 0 ⟨keys.zip vals, 0⟩ with
  | none => rw [hf] at hit; simp [answer] at hit
  | some x =>
    obtain ⟨j, D⟩ := x
    rw [hf] at hit
    simp only [answer, Option.some.injEq] at hit
    cases hsuf : sufOK (newBuilder vs h r) fp (leafWord (newBuilder vs h r) fp j) q (D + 1) with
    | false => rw [hsuf] at hit; simp at hit
    | true =>
      rw [hsuf] at hit
      simp only [if_true, Prod.mk.injEq, and_true] at hit
      have hr := find_related cut (keys.zip vals) q (q.length + 1) 0 ⟨keys.zip vals, 0⟩ B.root (Nat.zero_le _)
        (fun x hx => ⟨hx, by simp⟩) (fun x hx _ => hx) j D hf
      rw [hin.fst] at hr
      exact ⟨cut, ht, j, D, B, hf, hsuf, hit.symm, hr⟩

/-- **C24.** A hit returns the value of a stored key `k` that is related to the query `q`: either `k` and `q` agree on a
beginning of `k` that no other stored key has; or `q` is a beginning of `k`, and `k` is a beginning of every stored key that has `q` as a beginning. -/
theorem C24_related (fp : Bytes → Word) (bmi : Bool) (vs h r : Nat) (hhr : h + r ≤ 64) (keys vals : List Bytes) (hin : Input vs keys vals) (hint : Int) (s : SuRF)
    (hs : build fp bmi (newBuilder vs h r) keys vals hint = some s) (q v : Bytes) (hit : s.get fp bmi q = some (v, true)) :
    ∃ (n : Nat) (k w : Bytes), keys[n]? = some k ∧ vals[n]? = some w ∧ v = w.take vs ∧
      ((∃ m, m ≤ k.length ∧ k.take m <+: q ∧ ∀ k' ∈ keys, k.take m <+: k' → k' = k) ∨ (q <+: k ∧ ∀ k' ∈ keys, q <+: k' → k <+: k')) := by
  obtain ⟨cut, ht, j, D, B, hf, hsuf, hv, hm, hr⟩ := hit_find hhr hin hs hit
  obtain ⟨n, hn⟩ := List.getElem?_of_mem hm
  rw [List.getElem?_zip_eq_some] at hn
  exact ⟨n, (leafKV j).1, (leafKV j).2, hn.1, hn.2, hv, hr⟩

/-- **C24**, for hash suffixes: the key of a hit also has the hash of the query, in the bits that are kept. -/
theorem C24_hash (fp : Bytes → Word) (bmi : Bool) (vs h : Nat) (hpos : 0 < h) (hh : h ≤ 64) (keys vals : List Bytes) (hin : Input vs keys vals) (hint : Int) (s : SuRF)
    (hs : build fp bmi (newBuilder vs h 0) keys vals hint = some s) (q v : Bytes) (hit : s.get fp bmi q = some (v, true)) :
    ∃ (n : Nat) (k w : Bytes), keys[n]? = some k ∧ vals[n]? = some w ∧ v = w.take vs ∧ constructHashSuffix fp k h = constructHashSuffix fp q h := by
  obtain ⟨cut, ht, j, D, B, hf, hsuf, hv, hm, -⟩ := hit_find hh hin hs hit
  obtain ⟨n, hn⟩ := List.getElem?_of_mem hm
  rw [List.getElem?_zip_eq_some] at hn
  refine ⟨n, (leafKV j).1, (leafKV j).2, hn.1, hn.2, hv, ?_⟩
  have ht : (newBuilder vs h 0).suffixType = .hash := by
    simp [newBuilder, show h ≠ 0 by omega]
  simp only [sufOK, ht, leafWord, Config.suffix, constructSuffix, beq_iff_eq] at hsuf
  exact hsuf

/-- **C25**, at a given cut-off: a query found by a filter with suffixes is found by the filter with the same dense levels and no
suffixes, with the same value. -/
theorem C25_same_cutoff (fp : Bytes → Word) (bmi : Bool) (vs h r : Nat) (hhr : h + r ≤ 64) (keys vals : List Bytes) (hin : Input vs keys vals) (cut : Nat)
    (levels levels' : List Level) (hl : buildNodes (newBuilder vs h r) fp (maxKeyLen keys + 2) [] keys vals 0 0 0 = some levels)
    (hl' : buildNodes (newBuilder vs 0 0) fp (maxKeyLen keys + 2) [] keys vals 0 0 0 = some levels') (hc : cut < levels.length) (hc' : cut < levels'.length) (s s' : SuRF)
    (hs : assemble bmi (newBuilder vs h r) levels cut = some s) (hs' : assemble bmi (newBuilder vs 0 0) levels' cut = some s')
    (q v : Bytes) (hit : s.get fp bmi q = some (v, true)) : s'.get fp bmi q = some (v, true) := by
  have key : ∀ h r, h + r ≤ 64 → ∀ levels, buildNodes (newBuilder vs h r) fp (maxKeyLen keys + 2) [] keys vals 0 0 0 = some levels → cut < levels.length →
      ∀ s, assemble bmi (newBuilder vs h r) levels cut = some s → s.get fp bmi q = some (answer (newBuilder vs h r) fp q (find cut q (q.length + 1) 0 ⟨keys.zip vals, 0⟩)) := by
    intro h r hhr levels hl hc s hs
    have hv : ∀ x ∈ keys.zip vals, (newBuilder vs h r).valueSize ≤ x.2.length := fun x hx => hin.vals x.2 (List.of_mem_zip hx).2
    obtain ⟨ls, e1, e2, e3, e4, e5⟩ := levels_spec (newBuilder vs h r) fp (fine vs h r hhr) (keys.zip vals) hin.kvs hv
    rw [hin.fst, hin.snd, hl] at e1
    simp only [Option.some.injEq] at e1
    subst e1
    obtain ⟨s1, a1, a2⟩ := assemble_ok (newBuilder vs h r) fp (fine vs h r hhr) bmi (keys.zip vals) hin.kvs hv (by rw [hin.fst]; exact hin.size) levels e3 e4 e5 cut hc
    rw [hs] at a1
    simp only [Option.some.injEq] at a1
    subst a1
    exact a2.get rfl bmi q
  rw [key 0 0 (by omega) levels' hl' hc' s' hs']
  rw [key h r hhr levels hl hc s hs] at hit
  cases hf : find cut q (q.length + 1) 0 ⟨keys.zip vals, 0⟩ with
  | none => rw [hf] at hit; simp [answer] at hit
  | some x =>
    obtain ⟨j, D⟩ := x
    rw [hf] at hit
    simp only [answer, Option.some.injEq] at hit ⊢
    cases hsuf : sufOK (newBuilder vs h r) fp (leafWord (newBuilder vs h r) fp j) q (D + 1) with
    | false => rw [hsuf] at hit; simp at hit
    | true =>
      rw [hsuf] at hit
      simp only [if_true, Prod.mk.injEq, and_true] at hit
      have : sufOK (newBuilder vs 0 0) fp (leafWord (newBuilder vs 0 0) fp j) q (D + 1) = true := rfl
      rw [this, if_pos rfl, ← hit]
      rfl

/-- **C25**, for any two hints: a query found with suffixes is found without, with the same value, unless it is a proper
beginning of a stored key. What is missing: the full statement (with equal hints, say) is false, see `C25_witness`. -/
theorem C25_filter_partial (fp : Bytes → Word) (bmi : Bool) (vs h r : Nat) (hhr : h + r ≤ 64) (keys vals : List Bytes) (hin : Input vs keys vals) (hint hint' : Int) (s s' : SuRF)
    (hs : build fp bmi (newBuilder vs h r) keys vals hint = some s) (hs' : build fp bmi (newBuilder vs 0 0) keys vals hint' = some s')
    (q v : Bytes) (hit : s.get fp bmi q = some (v, true)) :
    s'.get fp bmi q = some (v, true) ∨ ∃ k ∈ keys, q <+: k ∧ q ≠ k := by
  obtain ⟨cut, ht, j, D, B, hf, hsuf, hv, hm, -⟩ := hit_find hhr hin hs hit
  obtain ⟨cut', ht', B', h1⟩ := get_built (by omega) hin hs'
  have hroot : 2 ≤ (⟨keys.zip vals, 0⟩ : Grp).kvs.length ∨ (cut ≤ 0 ∧ cut' ≤ 0) := by
    by_cases h2 : 2 ≤ (⟨keys.zip vals, 0⟩ : Grp).kvs.length
    · exact Or.inl h2
    · right
      obtain ⟨e1, x, i, e2, e3, e4, e5, e6, e7⟩ := B.root.single h2
      have hd : (⟨keys.zip vals, 0⟩ : Grp).desc 1 = [] := by
        rw [Grp.desc_succ]
        simp [Grp.children, e3, e6, Grp.desc]
      constructor
      · by_contra hc
        exact B.ne 1 (by have := B.lt; omega) hd
      · by_contra hc
        exact B'.ne 1 (by have := B'.lt; omega) hd
  rcases find_cuts cut cut' q (q.length + 1) 0 ⟨keys.zip vals, 0⟩ B.root hroot (Nat.zero_le _) (fun x _ => by simp) j D hf with ⟨D', h2⟩ | h2
  · left
    rw [h1, h2, hv]
    rfl
  · right
    exact ⟨_, (List.of_mem_zip hm).1, h2⟩

/-! ### Examples -/

/-- "", "a", "kxy", "kxyz1", "kxyz2", "kz\xff" -/
def sampleKeys : List Bytes := [[], [97], [107, 120, 121], [107, 120, 121, 122, 49], [107, 120, 121, 122, 50], [107, 122, 255]]
def sampleVals : List Bytes := [[1, 2, 3], [4, 5, 6], [7, 8], [9, 10, 11], [12, 13, 14], [15, 16]]

theorem sampleInput : Input 2 sampleKeys sampleVals := by
  constructor <;> decide +kernel

/-- The hypotheses of the theorems above hold for a list with an empty key, keys that are beginnings of others and a prefix node. -/
example (hint : Int) : ∃ s, build (fun k => BitVec.ofNat 64 k.length) true (newBuilder 2 8 4) sampleKeys sampleVals hint = some s ∧
    s.get (fun k => BitVec.ofNat 64 k.length) true [107, 120, 121] = some ([7, 8], true) ∧
    s.get (fun k => BitVec.ofNat 64 k.length) true [] = some ([1, 2], true) := by
  obtain ⟨s, hs⟩ := C38_build_partial (fun k => BitVec.ofNat 64 k.length) true 2 8 4 (by decide) sampleKeys sampleVals sampleInput hint
  exact ⟨s, hs, C22_stored _ true 2 8 4 (by decide) sampleKeys sampleVals sampleInput hint s hs 2 _ _ rfl rfl,
    C22_stored _ true 2 8 4 (by decide) sampleKeys sampleVals sampleInput hint s hs 0 _ _ rfl rfl⟩

/-- A hit that is a false positive: "kz" is a beginning of "kz\xff", and no stored key is between them; "kza" is also found. -/
example : ((build (fun _ => 0) true (newBuilder 2 0 0) sampleKeys sampleVals 0).bind (fun s => s.get (fun _ => 0) true [107, 122, 97])) = some ([15, 16], true) := by
  decide +kernel

/-- "a", "kxy", "kxyz1", "kxyz2" -/
def gapKeys : List Bytes := [[97], [107, 120, 121], [107, 120, 121, 122, 49], [107, 120, 121, 122, 50]]

/-- The full statement of C25 fails: with a hint of 270 bits per key the filter with real suffixes of 8 bits has one dense level and the one
without suffixes two. In a sparse node the prefix "xy" is not compared when the query has ended, so "k" is found with suffixes only. -/
theorem C25_witness :
    ((build (fun _ => 0) true (newBuilder 0 0 8) gapKeys [[], [], [], []] 270).bind (fun s => s.get (fun _ => 0) true [107])) = some ([], true) ∧
    ((build (fun _ => 0) true (newBuilder 0 0 0) gapKeys [[], [], [], []] 270).bind (fun s => s.get (fun _ => 0) true [107])) = some ([], false) := by
  decide +kernel

theorem gapInput : Input 0 gapKeys [[], [], [], []] := by
  constructor <;> decide +kernel

/-- The hypotheses of `C25_filter_partial` hold for the keys of the witness, and its second alternative is the one that applies. -/
example (s s' : SuRF) (hs : build (fun _ => 0) true (newBuilder 0 0 8) gapKeys [[], [], [], []] 270 = some s)
    (hs' : build (fun _ => 0) true (newBuilder 0 0 0) gapKeys [[], [], [], []] 270 = some s') (hit : s.get (fun _ => 0) true [107] = some ([], true)) :
    ∃ k ∈ gapKeys, [107] <+: k ∧ [107] ≠ k := by
  have h2 := C25_witness.2
  rw [hs'] at h2
  rcases C25_filter_partial _ true 0 0 8 (by decide) gapKeys _ gapInput 270 270 s s' hs hs' _ _ hit with h | h
  · simp only [Option.bind_some, h] at h2
    simp at h2
  · exact h

end Surf.Props
