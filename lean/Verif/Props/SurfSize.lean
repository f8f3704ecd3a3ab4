import Verif.Surf.Cutoff
import Verif.Props.SurfMore

/-!
# Properties C49, C50: the size of a filter and the choice of its dense levels; C33–C36 for bounded inputs
-/

set_option linter.unusedSimpArgs false

namespace Surf.Props

section
variable {fp : Bytes → Word} {bmi : Bool} {vs h r : Nat} {keys vals : List Bytes} {hint : Int} {s : SuRF}

theorem kvs_length (hin : Input vs keys vals) : (keys.zip vals).length = keys.length := by
  rw [List.length_zip, hin.lens, Nat.min_self]

/-- The levels that `Build` makes of an input. -/
theorem the_levels (hhr : h + r ≤ 64) (hin : Input vs keys vals) (hs : build fp bmi (newBuilder vs h r) keys vals hint = some s) :
    ∃ levels : List Level, s.ld.height = determineCutoffLevel (newBuilder vs h r) levels keys.length hint ∧ s.ls.height = levels.length ∧ 0 < levels.length ∧
      (∀ i l, levels[i]? = some l → LvOK (newBuilder vs h r) fp (l, (⟨keys.zip vals, 0⟩ : Grp).desc i)) ∧
      buildNodes (newBuilder vs h r) fp (maxKeyLen keys + 2) [] keys vals 0 0 0 = some levels := by
  obtain ⟨levels, e1, e2, e3⟩ := build_cut hs
  obtain ⟨ls, f1, f2, f3, -, -⟩ := levels_spec (newBuilder vs h r) fp (fine vs h r hhr) (keys.zip vals) hin.kvs (fun x hx => hin.vals x.2 (List.of_mem_zip hx).2)
  rw [hin.fst, hin.snd] at f1
  rw [e1, Option.some.injEq] at f1
  subst f1
  exact ⟨levels, e2, e3, f2, f3, e1⟩

theorem levels_nodes {t : Grp} {n : Nat} (ht : t.OK) (hk : t.kvs.length = n) (hn : 0 < n) (m : Nat) : (nodesIn t 0 m).length ≤ n ∧ ((nodesIn t 0 m).flatMap Grp.items).length ≤ 2 * n := by
  have h1 := nodes_le ht m
  have h2 := items_le ht m
  omega

theorem keys_rest (hin : Input vs keys vals) : restSum 0 (keys.zip vals) = keys.flatten.length := by
  rw [restSum_zero, hin.fst]

end

/-! ### C33–C36 -/

/-- The numbers of a filter for at most 2^24 keys with fewer than 2^32 bytes of values fit their 32-bit fields, whatever the hint (fewer than
2^32 bytes of keys are part of `Input`). -/
theorem fits_of_input (fp : Bytes → Word) (bmi : Bool) (vs h r : Nat) (hhr : h + r ≤ 64) (keys vals : List Bytes) (hin : Input vs keys vals) (hint : Int) (s : SuRF)
    (hs : build fp bmi (newBuilder vs h r) keys vals hint = some s) (hn : keys.length ≤ 2 ^ 24) (hv : keys.length * vs < 2 ^ 32) : s.Fits := by
  obtain ⟨ht, B⟩ := the_built hhr hin hs
  have hl := kvs_length hin
  exact B.fits (build_luts hs) (by rw [hl]; exact hn) (by rw [hl]; exact hv) hhr

/-- **C33**, with conditions on the input only. -/
theorem C33_input (fp : Bytes → Word) (bmi : Bool) (vs h r : Nat) (hhr : h + r ≤ 64) (keys vals : List Bytes) (hin : Input vs keys vals) (hint : Int)
    (hn : keys.length ≤ 2 ^ 24) (hv : keys.length * vs < 2 ^ 32) :
    ∃ s, build fp bmi (newBuilder vs h r) keys vals hint = some s ∧ ∀ rest, SuRF.unmarshal (s.marshal ++ rest) = some s := by
  obtain ⟨s, hs⟩ := C38_build_partial fp bmi vs h r hhr keys vals hin hint
  have hf := fits_of_input fp bmi vs h r hhr keys vals hin hint s hs hn hv
  refine ⟨s, hs, fun rest => ?_⟩
  rw [C36_trailing fp bmi _ keys vals hint s hs hf rest]
  exact C33_roundtrip fp bmi _ keys vals hint s hs hf

/-- **C34**, with conditions on the input only: every stored key is found, with its value, in the filter that was marshalled and restored,
whether or not the restoring machine has BMI2. -/
theorem C34_input (fp : Bytes → Word) (bmi bmi' : Bool) (vs h r : Nat) (hhr : h + r ≤ 64) (keys vals : List Bytes) (hin : Input vs keys vals) (hint : Int) (s : SuRF)
    (hs : build fp bmi (newBuilder vs h r) keys vals hint = some s) (hn : keys.length ≤ 2 ^ 24) (hv : keys.length * vs < 2 ^ 32) (rest : Bytes) :
    ∃ s', SuRF.unmarshal (s.marshal ++ rest) = some s' ∧ ∀ (n : Nat) (k v : Bytes), keys[n]? = some k → vals[n]? = some v → s'.get fp bmi' k = some (v.take vs, true) := by
  have hf := fits_of_input fp bmi vs h r hhr keys vals hin hint s hs hn hv
  refine ⟨s, ?_, fun n k v hk hv => ?_⟩
  · rw [C36_trailing fp bmi _ keys vals hint s hs hf rest]
    exact C33_roundtrip fp bmi _ keys vals hint s hs hf
  · rw [(C48_query fp bmi' bmi s).1]
    exact C22_stored fp bmi vs h r hhr keys vals hin hint s hs n k v hk hv

/-- **C35**, with conditions on the input only. -/
theorem C35_input (fp : Bytes → Word) (bmi : Bool) (vs h r : Nat) (hhr : h + r ≤ 64) (keys vals : List Bytes) (hin : Input vs keys vals) (hint : Int) (s : SuRF)
    (hs : build fp bmi (newBuilder vs h r) keys vals hint = some s) (hn : keys.length ≤ 2 ^ 24) (hv : keys.length * vs < 2 ^ 32) :
    s.marshal.length = s.marshalSize ∧ indexBytes s <+: s.marshal ∧ (indexBytes s).length = s.marshalNoValueSize :=
  have ⟨h1, h2, h3, _⟩ := C35_size fp bmi _ keys vals hint s hs (fits_of_input fp bmi vs h r hhr keys vals hin hint s hs hn hv)
  ⟨h1, h2, h3⟩

/-! ### C49 -/

/-- **C49.** A filter of `n` keys has less than `n` nodes (or one), at most `2 * n` sparse labels (with the sentinel at the end), a value of each key and no other
byte of values, and as many suffix bits as configured for each key and no other. -/
theorem C49_counts (fp : Bytes → Word) (bmi : Bool) (vs h r : Nat) (hhr : h + r ≤ 64) (keys vals : List Bytes) (hin : Input vs keys vals) (hint : Int) (s : SuRF)
    (hs : build fp bmi (newBuilder vs h r) keys vals hint = some s) :
    s.ld.isPrefixVec.bv.numBits ≤ max 1 (keys.length - 1) ∧ s.ls.denseNodeCount ≤ s.ld.isPrefixVec.bv.numBits ∧
    s.ls.labelVec.labels.length ≤ 2 * keys.length ∧
    s.ld.values.bytes.length + s.ls.values.bytes.length = keys.length * vs ∧
    s.ld.suffixes.bv.numBits + s.ls.suffixes.bv.numBits = keys.length * (h + r) ∧
    s.ld.prefixVec.prefixData.length + s.ls.prefixVec.prefixData.length ≤ keys.flatten.length := by
  obtain ⟨ht, B⟩ := the_built hhr hin hs
  obtain ⟨dn, sn, di, si, dl, sl, C, hipn⟩ := B.counts
  have hk : (keys.zip vals).length = keys.length := kvs_length hin
  obtain ⟨c1, c2, c3, c4, c5, c6, c7, c8, c9, c10, c11, c12, c13⟩ := C
  dsimp only at c10 c11 c12 c13
  rw [hk] at c10 c11 c12 c13
  refine ⟨by omega, by rw [B.sv.dn]; omega, ?_, ?_, ?_, ?_⟩
  · rw [B.sv.lab, List.length_append, List.length_map, List.length_singleton]
    have : 1 ≤ di + si := by
      have := items_pos (a := 0) (n := ht) B.root.toOK (by have := B.lt; omega) (by simp [Grp.desc])
      have e := nodesIn_add (⟨keys.zip vals, 0⟩ : Grp) 0 s.ld.height (ht - s.ld.height)
      rw [show s.ld.height + (ht - s.ld.height) = ht by have := B.lt; omega, Nat.zero_add] at e
      rw [e, List.flatMap_append, List.length_append] at this
      omega
    omega
  · rw [B.dv.val, B.sv.val]
    have h1 := B.values_length 0 s.ld.height
    have h2 := B.values_length s.ld.height (ht - s.ld.height)
    rw [c6] at h1
    rw [c7] at h2
    rw [← c12, Nat.add_mul]
    dsimp only [newBuilder] at h1 h2 ⊢
    omega
  · by_cases h0 : (newBuilder vs h r).suffixType = .none
    · rw [B.dv.suf.none h0, B.sv.suf.none h0]
      have : h = 0 ∧ r = 0 := by
        unfold newBuilder at h0
        dsimp only at h0
        split at h0
        · assumption
        · split at h0
          · cases h0
          · split at h0 <;> cases h0
      rw [this.1, this.2]
      rfl
    · have h1 := (B.dv.suf.some_ h0).2.2.2.2
      have h2 := (B.sv.suf.some_ h0).2.2.2.2
      rw [List.length_map, c6] at h1
      rw [List.length_map, c7] at h2
      rw [h1, h2, ← c12, Nat.add_mul]
      rfl
  · have hp := B.pre_le
    rw [keys_rest hin] at hp
    have h4 : ∀ l : List Bytes, (l.filter (fun p => !p.isEmpty)).flatten.length ≤ l.flatten.length := by
      intro l
      induction l with
      | nil => exact Nat.le_refl _
      | cons p l ih =>
        rw [List.filter_cons]
        split <;> simp only [List.flatten_cons, List.length_append] <;> omega
    have h5 := h4 ((nodesIn ⟨keys.zip vals, 0⟩ 0 s.ld.height).map Grp.pre)
    have h6 := h4 ((nodesIn ⟨keys.zip vals, 0⟩ s.ld.height (ht - s.ld.height)).map Grp.pre)
    rw [B.dv.pre.wf.data, B.sv.pre.wf.data]
    omega

/-- **C49.** The marshalled filter has, besides the values and suffix bits, at most 9 bytes for each key, 96 for each dense node, the bytes of the keys, and half a kilobyte. -/
theorem C49_space (fp : Bytes → Word) (bmi : Bool) (vs h r : Nat) (hhr : h + r ≤ 64) (keys vals : List Bytes) (hin : Input vs keys vals) (hint : Int) (s : SuRF)
    (hs : build fp bmi (newBuilder vs h r) keys vals hint = some s) :
    8 * s.marshalSize ≤ 8 * (keys.length * vs) + keys.length * (h + r) + 8 * 9 * keys.length + 8 * 96 * s.ls.denseNodeCount + 8 * keys.flatten.length + 8 * 512 := by
  obtain ⟨ht, B⟩ := the_built hhr hin hs
  have h1 := B.size
  have hk : (keys.zip vals).length = keys.length := kvs_length hin
  dsimp only at h1
  rw [hk, keys_rest hin, show (newBuilder vs h r).suffixLen = h + r from rfl, show (newBuilder vs h r).valueSize = vs from rfl] at h1
  omega

/-! ### C50 -/

/-- **C50.** A hint (bits per key) bounds what is spent on dense levels: if there is a dense level, the dense bitmaps (2 times 256 bits a node), the labels with
their two bits each, and the suffixes have together at most as many bits as the hint allows. -/
theorem C50_bound (fp : Bytes → Word) (bmi : Bool) (vs h r : Nat) (hhr : h + r ≤ 64) (keys vals : List Bytes) (hin : Input vs keys vals) (hint : Int) (s : SuRF)
    (hs : build fp bmi (newBuilder vs h r) keys vals hint = some s) (h0 : 0 ≤ hint) (h1 : keys.length * hint < 2 ^ 64) (hd : 0 < s.ld.height) :
    ((512 * s.ls.denseNodeCount + 10 * (s.ls.labelVec.labels.length - 1) + keys.length * (h + r) : Nat) : Int) ≤ keys.length * hint := by
  obtain ⟨ht, B⟩ := the_built hhr hin hs
  obtain ⟨levels, e1, e2, e3, e4, -⟩ := the_levels hhr hin hs
  exact B.cut_le e4 (by rw [← B.hs, e2]) e1 hd h0 h1

/-- **C50.** A larger hint never makes fewer levels dense. -/
theorem C50_mono (fp : Bytes → Word) (bmi : Bool) (vs h r : Nat) (keys vals : List Bytes) (hint hint' : Int) (s s' : SuRF)
    (hs : build fp bmi (newBuilder vs h r) keys vals hint = some s) (hs' : build fp bmi (newBuilder vs h r) keys vals hint' = some s')
    (h0 : 0 ≤ hint) (hle : hint ≤ hint') (h1 : keys.length * hint' < 2 ^ 64) : s.ld.height ≤ s'.ld.height := by
  obtain ⟨l, e1, e2, -⟩ := build_cut hs
  obtain ⟨l', f1, f2, -⟩ := build_cut hs'
  rw [e1, Option.some.injEq] at f1
  subst f1
  rw [e2, f2]
  apply cutoffLoop_mono
  have hm : (keys.length : Int) * hint ≤ keys.length * hint' := Int.mul_le_mul_of_nonneg_left hle (Int.natCast_nonneg _)
  have a := hintBits h0 (n := keys.length) (hint := hint) (by omega)
  have b := hintBits (Int.le_trans h0 hle) h1
  omega

/-- **C50.** With a hint of 0 no level is dense. -/
theorem C50_zero (fp : Bytes → Word) (bmi : Bool) (vs h r : Nat) (hhr : h + r ≤ 64) (keys vals : List Bytes) (hin : Input vs keys vals) (s : SuRF)
    (hs : build fp bmi (newBuilder vs h r) keys vals 0 = some s) : s.ld.height = 0 := by
  by_contra hne
  have h1 := C50_bound fp bmi vs h r hhr keys vals hin 0 s hs (Int.le_refl _) (by omega) (by omega)
  obtain ⟨ht, B⟩ := the_built hhr hin hs
  have h2 := items_pos (a := s.ld.height) (n := ht - s.ld.height) B.root.toOK (by have := B.lt; omega) (B.ne _ B.lt)
  rw [B.sv.lab, List.length_append, List.length_map, List.length_singleton] at h1
  omega

/-- **C50.** A hint below 0 is taken for a large number (`uint64` of a negative `int`): all levels but the last are dense. -/
theorem C50_negative (fp : Bytes → Word) (bmi : Bool) (vs h r : Nat) (hhr : h + r ≤ 64) (keys vals : List Bytes) (hin : Input vs keys vals) (hint : Int) (s : SuRF)
    (hs : build fp bmi (newBuilder vs h r) keys vals hint = some s) (h0 : hint < 0) (h1 : -2 ^ 63 ≤ keys.length * hint) (hn : keys.length < 2 ^ 32) : s.ld.height = s.ls.height - 1 := by
  obtain ⟨ht, B⟩ := the_built hhr hin hs
  obtain ⟨levels, e1, e2, e3, e4, -⟩ := the_levels hhr hin hs
  rw [e1, e2]
  apply cutoff_all e4 B.root.toOK
  have hpos : 0 < keys.length := List.length_pos_iff.mpr hin.ne
  obtain ⟨h2, h3⟩ := levels_nodes B.root.toOK (kvs_length hin) hpos levels.length
  have h4 : keys.length * (newBuilder vs h r).suffixLen ≤ keys.length * 64 := Nat.mul_le_mul_left _ hhr
  have h5 := keys_rest hin
  have h6 := hin.size
  have h7 : (keys.length : Int) * hint < 0 := by
    have : (keys.length : Int) * hint ≤ keys.length * (-1) := Int.mul_le_mul_of_nonneg_left (by omega) (Int.natCast_nonneg _)
    omega
  have h8 : (2 ^ 63 : Nat) ≤ (BitVec.ofInt 64 ((keys.length : Int) * hint)).toNat := by
    rw [BitVec.toNat_ofInt]
    generalize (keys.length : Int) * hint = x at *
    omega
  dsimp only
  rw [h5]
  generalize keys.length * (newBuilder vs h r).suffixLen = Y at *
  omega

/-! ### The hypotheses can be met -/

/-- An input of 4 keys with dense and sparse levels: 4 bits of suffix each; a hint of 700 bits per key gives a dense level, 100 none, -1 all but one. -/
example : Input 1 exampleKeys exampleVals ∧ exampleKeys.length ≤ 2 ^ 24 ∧ exampleKeys.length * 1 < 2 ^ 32 ∧
    (∃ s, build (fun _ => 0#64) true (newBuilder 1 0 4) exampleKeys exampleVals 700 = some s ∧ 0 < s.ld.height ∧ s.ld.height < s.ls.height) ∧
    (∃ s, build (fun _ => 0#64) true (newBuilder 1 0 4) exampleKeys exampleVals 100 = some s ∧ s.ld.height = 0) ∧
    (∃ s, build (fun _ => 0#64) true (newBuilder 1 0 4) exampleKeys exampleVals (-1) = some s ∧ s.ld.height = s.ls.height - 1 ∧ 1 < s.ls.height) := by
  refine ⟨⟨by decide, by decide, by decide, by decide, by decide, by decide⟩, by decide, by decide, ?_, ?_, ?_⟩
  · exact ⟨_, (Option.some_get exampleSurf_isSome).symm, by decide +kernel, by decide +kernel⟩
  · exact ⟨_, (Option.some_get (show (build (fun _ => 0#64) true (newBuilder 1 0 4) exampleKeys exampleVals 100).isSome = true by decide +kernel)).symm, by decide +kernel⟩
  · exact ⟨_, (Option.some_get (show (build (fun _ => 0#64) true (newBuilder 1 0 4) exampleKeys exampleVals (-1)).isSome = true by decide +kernel)).symm, by decide +kernel, by decide +kernel⟩

end Surf.Props
