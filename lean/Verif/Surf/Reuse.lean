import Verif.Surf.GetSpec

/-!
# `Build` on a `Builder` that has been used

`Verif.Surf.Louds` has `Build` on a new `Builder`. `Build` never empties the slices of the `Builder`, so a second `Build` appends to those of the first: here it is modelled on what the first has left.
-/

set_option linter.unusedSimpArgs false

namespace Surf

/-- builder.go:33-60: what a `Builder` keeps from one `Build` to the next, besides its configuration: `lsLabels`, …, `isLastItemTerminator` (by level) and `ldLabels`, `ldHasChild`, `ldIsPrefix` (by level).
(`sparseStartLevel` and `totalCount` are overwritten.) -/
structure Builder where
  levels : List Level := []
  dense : List DenseLevel := []
deriving Repr, DecidableEq

/-- builder.go:165-187: the body of `buildDense` for one level, on the vectors that are there -/
def fillDense (l : Level) (d : DenseLevel) : Option DenseLevel :=
  if l.numItems = 0 then some d else do
    let d ← denseFirstItem l 0 0 d
    denseLoop l (l.numItems - 1) 1 0 d

/-- builder.go:161-189 `buildDense`, from `level` on. `initDenseVectors` appends new vectors at the end, but the bits are set in those with the index `level`. -/
def buildDenseOn : List Level → Nat → List DenseLevel → Option (List DenseLevel)
  | [], _, ds => some ds
  | l :: ls, level, ds => do
    let ds := ds ++ [initDenseVectors l]
    let d ← ds[level]?
    let d ← fillDense l d
    buildDenseOn ls (level + 1) (ds.set level d)

/-- builder.go:88-108 `Build`, on a builder that has been used; also returns what the builder keeps -/
def Builder.build (fp : Bytes → Word) (bmi : Bool) (cfg : Config) (b : Builder) (keys vals : List Bytes) (bitsPerKeyHint : Int) : Option (SuRF × Builder) := do
  let levels ← buildNodes cfg fp (maxKeyLen keys + 2) b.levels keys vals 0 0 0
  let cut := determineCutoffLevel cfg levels keys.length bitsPerKeyHint
  let dense ← buildDenseOn (levels.take cut) 0 b.dense
  let _ ← PrefixVec.init (levels.map (·.hasPrefix)) (levels.map (·.nodeCount)) (levels.map (·.prefixes))
  let ld ← LoudsDense.init cfg levels dense cut
  let ls ← LoudsSparse.init bmi cfg levels cut
  return ({ ld, ls }, { levels, dense })

/-! ## The first `Build` -/

theorem buildDenseOn_new : ∀ (ls : List Level) (ds : List DenseLevel), buildDenseOn ls ds.length ds = (buildDense ls).map (ds ++ ·) := by
  intro ls
  induction ls with
  | nil => intro ds; simp [buildDenseOn, buildDense]
  | cons l ls ih =>
    intro ds
    rw [buildDenseOn, buildDense]
    have h1 : (ds ++ [initDenseVectors l])[ds.length]? = some (initDenseVectors l) := by simp
    have h2 : fillDense l (initDenseVectors l) = buildDenseLevel l := rfl
    simp only [h1, Option.bind_eq_bind, Option.bind_some, h2]
    cases h3 : buildDenseLevel l with
    | none => rfl
    | some d =>
      simp only [Option.bind_some]
      have h4 : (ds ++ [initDenseVectors l]).set ds.length d = ds ++ [d] := by simp
      have h5 := ih (ds ++ [d])
      rw [List.length_append, List.length_singleton] at h5
      rw [h4, h5]
      cases buildDense ls with
      | none => rfl
      | some es => simp

/-- On a new builder. -/
theorem Builder.build_new (fp : Bytes → Word) (bmi : Bool) (cfg : Config) (keys vals : List Bytes) (hint : Int) :
    ((Builder.build fp bmi cfg {} keys vals hint).map (·.1)) = Surf.build fp bmi cfg keys vals hint := by
  unfold Builder.build Surf.build
  show Option.map _ (Option.bind (buildNodes cfg fp (maxKeyLen keys + 2) [] keys vals 0 0 0) _) = Option.bind _ _
  cases h : buildNodes cfg fp (maxKeyLen keys + 2) [] keys vals 0 0 0 with
  | none => rfl
  | some levels =>
    simp only [Option.bind_some]
    have h1 := buildDenseOn_new (levels.take (determineCutoffLevel cfg levels keys.length hint)) []
    rw [List.length_nil] at h1
    unfold assemble
    show Option.map _ (Option.bind (buildDenseOn _ 0 []) _) = _
    rw [h1]
    generalize buildDense (levels.take (determineCutoffLevel cfg levels keys.length hint)) = r
    cases r with
    | none => rfl
    | some ds =>
      simp only [Option.map_some, Option.bind_some, Option.bind_eq_bind, List.nil_append]
      cases PrefixVec.init (levels.map (·.hasPrefix)) (levels.map (·.nodeCount)) (levels.map (·.prefixes)) with
      | none => rfl
      | some _ =>
        simp only [Option.bind_some]
        cases LoudsDense.init cfg levels ds (determineCutoffLevel cfg levels keys.length hint) with
        | none => rfl
        | some _ =>
          simp only [Option.bind_some]
          cases LoudsSparse.init bmi cfg levels (determineCutoffLevel cfg levels keys.length hint) with
          | none => rfl
          | some _ => rfl

/-! ## Old dense vectors are too short -/

theorem setBit_length {bs bs' : List Word} {p : Nat} (h : setBit bs p = some bs') : bs'.length = bs.length ∧ p / 64 < bs.length := by
  unfold setBit at h
  obtain ⟨w, h1, h2⟩ := Option.bind_eq_some_iff.mp h
  cases h2
  refine ⟨by simp, ?_⟩
  by_contra h3
  rw [List.getElem?_eq_none (by omega)] at h1
  cases h1

theorem setLabel_length {l : Level} {n p : Nat} {d d' : DenseLevel} (h : setLabelAndHasChildVec l n p d = some d') : d'.labels.length = d.labels.length ∧ n * 4 < d.labels.length := by
  unfold setLabelAndHasChildVec at h
  obtain ⟨x, h1, h⟩ := Option.bind_eq_some_iff.mp h
  obtain ⟨y, h2, h⟩ := Option.bind_eq_some_iff.mp h
  obtain ⟨z, h3, h⟩ := Option.bind_eq_some_iff.mp h
  obtain ⟨h4, h5⟩ := setBit_length h2
  have h6 : n * 4 < d.labels.length := by
    unfold denseFanout at h5
    omega
  cases z with
  | false =>
    cases h
    exact ⟨h4, h6⟩
  | true =>
    obtain ⟨u, -, h⟩ := Option.bind_eq_some_iff.mp h
    cases h
    exact ⟨h4, h6⟩

theorem denseFirst_length {l : Level} {n p : Nat} {d d' : DenseLevel} (h : denseFirstItem l n p d = some d') : d'.labels.length = d.labels.length := by
  unfold denseFirstItem at h
  obtain ⟨x, h1, h⟩ := Option.bind_eq_some_iff.mp h
  split at h
  · unfold setIsPrefix at h
    obtain ⟨u, -, h⟩ := Option.bind_eq_some_iff.mp h
    cases h
    rfl
  · exact (setLabel_length h).1

theorem denseLoop_length {l : Level} : ∀ {n p id : Nat} {d d' : DenseLevel}, denseLoop l n p id d = some d' → d'.labels.length = d.labels.length := by
  intro n
  induction n with
  | zero => intro p id d d' h; cases h; rfl
  | succ n ih =>
    intro p id d d' h
    rw [denseLoop] at h
    obtain ⟨s, h1, h⟩ := Option.bind_eq_some_iff.mp h
    split at h
    · obtain ⟨d1, h2, h⟩ := Option.bind_eq_some_iff.mp h
      rw [ih h, denseFirst_length h2]
    · obtain ⟨d1, h2, h⟩ := Option.bind_eq_some_iff.mp h
      rw [ih h, (setLabel_length h2).1]

theorem fillDense_length {l : Level} {d d' : DenseLevel} (h : fillDense l d = some d') : d'.labels.length = d.labels.length := by
  unfold fillDense at h
  split at h
  · cases h; rfl
  · obtain ⟨d1, h1, h⟩ := Option.bind_eq_some_iff.mp h
    rw [denseLoop_length h, denseFirst_length h1]

/-- The second node has no room. -/
theorem denseLoop_full {l : Level} : ∀ (n p id : Nat) (d : DenseLevel), d.labels.length ≤ 4 → 1 ≤ id → ∀ q, p ≤ q → q < p + n → isStartOfNode l q = some false →
    denseLoop l n p id d = none := by
  intro n
  induction n with
  | zero => intro p id d _ _ q h1 h2; omega
  | succ n ih =>
    intro p id d hd hid q h1 h2 hq
    cases h : denseLoop l (n + 1) p id d with
    | none => rfl
    | some d' =>
      exfalso
      rw [denseLoop] at h
      obtain ⟨s, h3, h⟩ := Option.bind_eq_some_iff.mp h
      cases s with
      | true =>
        simp only [if_true] at h
        obtain ⟨d1, h4, h⟩ := Option.bind_eq_some_iff.mp h
        have hne : q ≠ p := by
          rintro rfl
          rw [hq] at h3
          cases h3
        rw [ih (p + 1) (id + 1) d1 (by rw [denseFirst_length h4]; exact hd) (by omega) q (by omega) (by omega) hq] at h
        cases h
      | false =>
        simp only [Bool.false_eq_true, if_false] at h
        obtain ⟨d1, h4, h⟩ := Option.bind_eq_some_iff.mp h
        have := (setLabel_length h4).2
        omega

theorem denseLoop_two {l : Level} : ∀ (n p id : Nat) (d : DenseLevel), d.labels.length ≤ 4 → ∀ q, p ≤ q → q + 1 < p + n → isStartOfNode l q = some true →
    isStartOfNode l (q + 1) = some false → denseLoop l n p id d = none := by
  intro n
  induction n with
  | zero => intro p id d _ q h1 h2; omega
  | succ n ih =>
    intro p id d hd q h1 h2 hq hq'
    cases h : denseLoop l (n + 1) p id d with
    | none => rfl
    | some d' =>
      exfalso
      rw [denseLoop] at h
      obtain ⟨s, h3, h⟩ := Option.bind_eq_some_iff.mp h
      by_cases e : p = q
      · subst e
        rw [hq] at h3
        cases h3
        simp only [if_true] at h
        obtain ⟨d1, h4, h⟩ := Option.bind_eq_some_iff.mp h
        rw [denseLoop_full n (p + 1) (id + 1) d1 (by rw [denseFirst_length h4]; exact hd) (by omega) (p + 1) (Nat.le_refl _) (by omega) hq'] at h
        cases h
      · cases s with
        | true =>
          simp only [if_true] at h
          obtain ⟨d1, h4, h⟩ := Option.bind_eq_some_iff.mp h
          rw [ih (p + 1) (id + 1) d1 (by rw [denseFirst_length h4]; exact hd) q (by omega) (by omega) hq hq'] at h
          cases h
        | false =>
          simp only [Bool.false_eq_true, if_false] at h
          obtain ⟨d1, h4, h⟩ := Option.bind_eq_some_iff.mp h
          rw [ih (p + 1) id d1 (by rw [(setLabel_length h4).1]; exact hd) q (by omega) (by omega) hq hq'] at h
          cases h

theorem fillDense_two {l : Level} {d : DenseLevel} (hd : d.labels.length ≤ 4) {q : Nat} (h0 : 0 < q) (hl : q + 1 < l.numItems) (hq : isStartOfNode l q = some true)
    (hq' : isStartOfNode l (q + 1) = some false) : fillDense l d = none := by
  unfold fillDense
  rw [if_neg (by omega)]
  cases h : denseFirstItem l 0 0 d with
  | none => rfl
  | some d1 =>
    simp only [Option.bind_eq_bind, Option.bind_some]
    exact denseLoop_two _ _ _ _ (by rw [denseFirst_length h]; exact hd) q h0 (by omega) hq hq'

/-! ## The levels of the second `Build` -/

section
variable {cfg : Config} {fp : Bytes → Word}

/-- The levels of the first `Build` and of the second. -/
theorem levels_two (hcfg : cfg.Fine) (kvs₁ kvs₂ : List KV) (hk₁ : Sorted kvs₁) (hk₂ : Sorted kvs₂) (hv₁ : ∀ x ∈ kvs₁, cfg.valueSize ≤ x.2.length)
    (hv₂ : ∀ x ∈ kvs₂, cfg.valueSize ≤ x.2.length) : ∃ l₁ l₂,
    buildNodes cfg fp (maxKeyLen (kvs₁.map (·.1)) + 2) [] (kvs₁.map (·.1)) (kvs₁.map (·.2)) 0 0 0 = some l₁ ∧
    buildNodes cfg fp (maxKeyLen (kvs₂.map (·.1)) + 2) l₁ (kvs₂.map (·.1)) (kvs₂.map (·.2)) 0 0 0 = some l₂ ∧ 0 < l₁.length ∧ 0 < l₂.length ∧
    (∀ i l, l₁[i]? = some l → LvOK cfg fp (l, (⟨kvs₁, 0⟩ : Grp).desc i)) ∧
    (∀ i l, l₂[i]? = some l → LvOK cfg fp (l, (⟨kvs₁, 0⟩ : Grp).desc i ++ (⟨kvs₂, 0⟩ : Grp).desc i)) ∧
    (∀ i, i < l₂.length → (⟨kvs₁, 0⟩ : Grp).desc i ++ (⟨kvs₂, 0⟩ : Grp).desc i ≠ []) := by
  obtain ⟨l₁, e1, e2, e3, e4, e5⟩ := buildNodes_spec (fp := fp) hcfg (maxKeyLen (kvs₁.map (·.1)) + 2) [] (fun _ => []) (fun _ => []) ⟨kvs₁, 0⟩ 0 0
    ⟨fun i l h => by simp at h, fun _ _ => ⟨rfl, rfl⟩⟩ hk₁.good (Nat.le_refl _) (Nat.zero_le _) (Nat.zero_le _) (fun _ _ => rfl) hv₁ (by
      intro x hx
      have := le_maxKeyLen (keys := kvs₁.map (·.1)) (List.mem_map_of_mem hx)
      omega)
  obtain ⟨l₂, f1, f2, f3, f4, f5⟩ := buildNodes_spec (fp := fp) hcfg (maxKeyLen (kvs₂.map (·.1)) + 2) l₁ _ (fun _ => []) ⟨kvs₂, 0⟩ 0 0
    e2 hk₂.good (Nat.le_refl _) (Nat.zero_le _) (Nat.zero_le _) (fun _ _ => rfl) hv₂ (by
      intro x hx
      have := le_maxKeyLen (keys := kvs₂.map (·.1)) (List.mem_map_of_mem hx)
      omega)
  refine ⟨l₁, l₂, e1, f1, e4, f4, ?_, ?_, ?_⟩
  · intro i l hl
    have := e2.rep i l hl
    simpa [jOf, loOf, LvOK] using this
  · intro i l hl
    have := f2.rep i l hl
    simpa [jOf, loOf, LvOK] using this
  · intro i hi
    by_cases h : i < l₁.length
    · have := e5 i (Nat.zero_le _) h
      simp at this
      simp [this]
    · have := f5 i (by omega) hi
      simp at this
      simp [this]

/-- If both have dense levels, the second panics. -/
theorem dense_two (kvs₁ kvs₂ : List KV) (hk₁ : Sorted kvs₁) (hk₂ : Sorted kvs₂) (h2 : 2 ≤ kvs₂.length) {l : Level} (hl : LvOK cfg fp (l, (⟨kvs₁, 0⟩ : Grp).desc 0 ++ (⟨kvs₂, 0⟩ : Grp).desc 0))
    {ls : List Level} {d : DenseLevel} {ds : List DenseLevel} (hd : d.labels.length ≤ 4) : buildDenseOn (l :: ls) 0 (d :: ds) = none := by
  have hg1 := hk₁.good
  have hg2 : (⟨kvs₂, 0⟩ : Grp).Two := ⟨hk₂.good, h2⟩
  obtain ⟨i, is, ei, hne, -⟩ := hg2.first
  generalize (⟨kvs₁, 0⟩ : Grp) = g1 at *
  generalize (⟨kvs₂, 0⟩ : Grp) = g2 at *
  have hlo := hl.b.lo
  have hlol := hl.b.lol
  have hlab := hl.b.labels
  have e1 : (g1.desc 0 ++ g2.desc 0).flatMap Grp.louds = g1.louds ++ g2.louds := by simp [Grp.desc]
  have e2 : (g1.desc 0 ++ g2.desc 0).flatMap Grp.jtems = g1.jtems ++ g2.jtems := by simp [Grp.desc]
  simp only [e1] at hlo hlol
  simp only [e2] at hlol hlab
  have n1 := hg1.toOK.louds_length
  have n2 := hg2.toOK.louds_length
  have p1 : 0 < g1.items.length := List.length_pos_iff.mpr hg1.toOK.items_ne
  have p2 : 2 ≤ g2.items.length := by
    rw [ei]
    have := List.length_pos_iff.mpr hne
    simp
    omega
  have hlen : (g1.louds ++ g2.louds).length = g1.items.length + g2.items.length := by rw [List.length_append, n1, n2]
  have hnum : l.numItems = g1.items.length + g2.items.length := by
    unfold Level.numItems
    rw [hlab, ← hlol, hlen]
  have s1 : isStartOfNode l g1.items.length = some true := by
    unfold isStartOfNode
    rw [hlo.readBit _ (by rw [hlen]; omega)]
    congr 1
    rw [List.getElem_eq_iff, List.getElem?_append_right (by omega), n1, Nat.sub_self]
    simp [Grp.louds]
  have s2 : isStartOfNode l (g1.items.length + 1) = some false := by
    unfold isStartOfNode
    rw [hlo.readBit _ (by rw [hlen]; omega)]
    congr 1
    rw [List.getElem_eq_iff, List.getElem?_append_right (by omega), n1, Nat.add_sub_cancel_left]
    simp [Grp.louds, List.getElem?_replicate]
    omega
  rw [buildDenseOn]
  have : fillDense l d = none := fillDense_two hd (q := g1.items.length) p1 (by omega) s1 s2
  simp only [List.cons_append, List.getElem?_cons_zero, Option.bind_eq_bind, Option.bind_some, this]
  rfl

/-! ## What the second `Build` returns -/

/-- The nodes of level `i` after both. -/
def desc2 (t₁ t₂ : Grp) (i : Nat) : List Grp := t₁.desc i ++ t₂.desc i

/-- The nodes of `n` levels from level `a` on, after both. -/
def nodes2 (t₁ t₂ : Grp) (a n : Nat) : List Grp := (List.range' a n).flatMap (desc2 t₁ t₂)

theorem nodes2_pre (t₁ t₂ : Grp) (a n : Nat) : ((nodes2 t₁ t₂ a n).map Grp.pre).flatten.length =
    ((nodesIn t₁ a n).map Grp.pre).flatten.length + ((nodesIn t₂ a n).map Grp.pre).flatten.length := by
  rw [pre_flatten_length, pre_flatten_length, pre_flatten_length]
  unfold nodes2 nodesIn
  generalize List.range' a n = l
  induction l with
  | nil => rfl
  | cons b l ih =>
    rw [List.flatMap_cons, List.flatMap_cons, List.flatMap_cons, List.map_append, List.map_append, List.map_append, List.sum_append, List.sum_append, List.sum_append, ih]
    unfold desc2
    rw [List.map_append, List.sum_append]
    omega

theorem nodesIn_pre_bound (t : Grp) (a n : Nat) : ((nodesIn t a n).map Grp.pre).flatten.length ≤ preSum (a + n) t := by
  rw [← nodesIn_pre, nodesIn_add, Nat.zero_add, List.map_append, List.flatten_append, List.length_append]
  omega

/-- What the parts hold when both have been built. -/
theorem parts_two (hcfg : cfg.Fine) (bmi : Bool) (kvs₁ kvs₂ : List KV) (hk₁ : Sorted kvs₁) (hk₂ : Sorted kvs₂) (h2₁ : 2 ≤ kvs₁.length) (h2₂ : 2 ≤ kvs₂.length)
    (hsize : (kvs₁.map (·.1)).flatten.length + (kvs₂.map (·.1)).flatten.length < 2 ^ 32) (levels : List Level)
    (h1 : ∀ i l, levels[i]? = some l → LvOK cfg fp (l, desc2 ⟨kvs₁, 0⟩ ⟨kvs₂, 0⟩ i)) (h3 : ∀ i, i < levels.length → desc2 ⟨kvs₁, 0⟩ ⟨kvs₂, 0⟩ i ≠ []) (cut : Nat) (hcut : cut < levels.length) :
    (∃ ds, buildDense (levels.take cut) = some ds ∧ ∃ ld, LoudsDense.init cfg levels ds cut = some ld ∧ DView cfg fp ld (nodes2 ⟨kvs₁, 0⟩ ⟨kvs₂, 0⟩ 0 cut) ∧ ld.height = cut) ∧
    (∃ pv, PrefixVec.init (levels.map (·.hasPrefix)) (levels.map (·.nodeCount)) (levels.map (·.prefixes)) = some pv) ∧
    (∃ ls, LoudsSparse.init bmi cfg levels cut = some ls ∧ (cut = 0 → SView cfg fp ls [] (nodes2 ⟨kvs₁, 0⟩ ⟨kvs₂, 0⟩ 0 levels.length))) := by
  have hg1 := hk₁.good
  have hg2 := hk₂.good
  have hs1 : ∀ n, preSum n ⟨kvs₁, 0⟩ ≤ (kvs₁.map (·.1)).flatten.length := fun n => by
    have := preSum_le n _ hg1.toOK
    rwa [restSum_zero] at this
  have hs2 : ∀ n, preSum n ⟨kvs₂, 0⟩ ≤ (kvs₂.map (·.1)).flatten.length := fun n => by
    have := preSum_le n _ hg2.toOK
    rwa [restSum_zero] at this
  have ht1 : (⟨kvs₁, 0⟩ : Grp).Two := ⟨hg1, h2₁⟩
  have ht2 : (⟨kvs₂, 0⟩ : Grp).Two := ⟨hg2, h2₂⟩
  clear h2₁ h2₂
  generalize (⟨kvs₁, 0⟩ : Grp) = t₁ at *
  generalize (⟨kvs₂, 0⟩ : Grp) = t₂ at *
  have hps : ∀ a n, ((nodes2 t₁ t₂ a n).map Grp.pre).flatten.length < 2 ^ 32 := by
    intro a n
    rw [nodes2_pre]
    have := nodesIn_pre_bound t₁ a n
    have := nodesIn_pre_bound t₂ a n
    have := hs1 (a + n)
    have := hs2 (a + n)
    omega
  let all := levels.zip ((List.range levels.length).map (fun i => desc2 t₁ t₂ i))
  have hall1 : all.map (·.1) = levels := by
    show (levels.zip _).map Prod.fst = _
    rw [List.map_fst_zip]
    simp
  have hall2 : all.map (·.2) = (List.range levels.length).map (fun i => desc2 t₁ t₂ i) := by
    show (levels.zip _).map Prod.snd = _
    rw [List.map_snd_zip]
    simp
  have hlen : all.length = levels.length := by rw [← hall1, List.length_map]
  have hlv : ∀ p ∈ all, LvOK cfg fp p := by
    intro p hp
    obtain ⟨i, hi, e⟩ := List.getElem_of_mem hp
    have e1 : levels[i]? = some p.1 := by
      rw [← hall1, List.getElem?_map, List.getElem?_eq_getElem hi, e]; rfl
    have e2 : p.2 = desc2 t₁ t₂ i := by
      have : (all.map (·.2))[i]? = some p.2 := by rw [List.getElem?_map, List.getElem?_eq_getElem hi, e]; rfl
      rw [hall2, List.getElem?_map, List.getElem?_range (by omega)] at this
      simpa using this.symm
    have := h1 i p.1 e1
    rw [← e2] at this
    exact this
  have htake : ∀ n, n ≤ levels.length → (all.take n).flatMap (·.2) = nodes2 t₁ t₂ 0 n := by
    intro n hn
    rw [List.flatMap_def, List.map_take, hall2, ← List.map_take, List.take_range, Nat.min_eq_left hn]
    unfold nodes2
    rw [← List.range_eq_range', List.flatMap_def]
  have hdrop : (all.drop cut).flatMap (·.2) = nodes2 t₁ t₂ cut (levels.length - cut) := by
    rw [List.flatMap_def, List.map_drop, hall2, ← List.map_drop, List.range_eq_range', List.drop_range']
    unfold nodes2
    rw [List.flatMap_def]
    simp
  have htwo : ∀ p ∈ all.take cut, ∀ x ∈ p.2, x.Two := by
    intro p hp x hx
    have hx' : x ∈ nodes2 t₁ t₂ 0 cut := by
      rw [← htake cut (by omega)]
      exact List.mem_flatMap.mpr ⟨p, hp, hx⟩
    unfold nodes2 desc2 at hx'
    rw [List.mem_flatMap] at hx'
    obtain ⟨i, -, hxi⟩ := hx'
    rw [List.mem_append] at hxi
    cases i with
    | zero =>
      rw [Grp.desc, Grp.desc, List.mem_singleton, List.mem_singleton] at hxi
      rcases hxi with rfl | rfl
      · exact ht1
      · exact ht2
    | succ i =>
      rcases hxi with hxi | hxi
      · obtain ⟨g1, g2⟩ := hg1.desc_good i x hxi
        exact ⟨g1, g2⟩
      · obtain ⟨g1, g2⟩ := hg2.desc_good i x hxi
        exact ⟨g1, g2⟩
  have hne : ∀ p ∈ all.take cut, p.2 ≠ [] := by
    intro p hp
    have : p.2 ∈ all.map (·.2) := List.mem_map_of_mem (List.mem_of_mem_take hp)
    rw [hall2, List.mem_map] at this
    obtain ⟨i, hi, e⟩ := this
    rw [← e]
    exact h3 i (List.mem_range.mp hi)
  refine ⟨?_, ?_, ?_⟩
  · obtain ⟨ds, d1, d2⟩ := dense_levels (cfg := cfg) (fp := fp) (all.take cut) (fun p hp => hlv p (List.mem_of_mem_take hp)) hne htwo
    obtain ⟨ld, l1, l2, l3, -⟩ := dense_init hcfg all cut hlv ds d2 (by rw [htake cut (by omega)]; exact hps _ _)
    rw [List.map_take, hall1] at d1
    rw [hall1] at l1
    rw [htake cut (by omega)] at l2
    exact ⟨ds, d1, ld, l1, l2, l3⟩
  · obtain ⟨pv, p1, -⟩ := pv_init (cfg := cfg) (fp := fp) all hlv (by
      have := htake levels.length (Nat.le_refl _)
      rw [List.take_of_length_le (by omega)] at this
      rw [this]
      exact hps _ _)
    rw [hall1] at p1
    exact ⟨pv, p1⟩
  · obtain ⟨ls, s1, s2, -, -⟩ := sparse_init (fp := fp) hcfg bmi (all.drop cut) 0 (fun p hp => hlv p (List.mem_of_mem_drop hp)) (by rw [List.drop_zero, hdrop]; exact hps _ _) 0
      (by simp [denseChildCountOf]) (by simp)
    rw [List.map_drop, hall1] at s1
    rw [List.drop_zero, hdrop] at s2
    by_cases h0 : cut = 0
    · subst h0
      rw [List.drop_zero] at s1
      exact ⟨ls, s1, fun _ => s2⟩
    · have hdc : ∃ c, denseChildCountOf levels cut (((levels.take cut).map (·.nodeCount)).sum) = some c := by
        unfold denseChildCountOf
        rw [if_pos h0, List.getElem?_eq_getElem hcut]
        have hn : 1 ≤ (levels[cut]).nodeCount := by
          have := (h1 cut _ (List.getElem?_eq_getElem hcut)).n.nc
          rw [this]
          exact List.length_pos_iff.mpr (h3 cut hcut)
        simp only [Option.bind_eq_bind, Option.bind_some]
        unfold usub
        rw [if_pos (by omega)]
        exact ⟨_, rfl⟩
      obtain ⟨c, hc⟩ := hdc
      unfold LoudsSparse.init at s1 ⊢
      simp only [Option.bind_eq_bind] at s1 ⊢
      rw [hc]
      simp only [Option.bind_some]
      obtain ⟨_, -, s1⟩ := Option.bind_eq_some_iff.mp s1
      rw [List.drop_zero] at s1
      obtain ⟨a1, q1, s1⟩ := Option.bind_eq_some_iff.mp s1
      obtain ⟨a2, q2, s1⟩ := Option.bind_eq_some_iff.mp s1
      obtain ⟨a3, q3, s1⟩ := Option.bind_eq_some_iff.mp s1
      obtain ⟨a4, q4, s1⟩ := Option.bind_eq_some_iff.mp s1
      rw [q1]
      simp only [Option.bind_some]
      rw [q2]
      simp only [Option.bind_some]
      rw [q3]
      simp only [Option.bind_some]
      rw [q4]
      exact ⟨_, rfl, fun h => absurd h h0⟩

/-! ## Keys that are lost -/

/-- A root with no key that begins with `c`. -/
theorem root_miss {t : Grp} (hg : t.Good) (hd : t.d = 0) {c : UInt8} (hc : ∀ x ∈ t.kvs, x.1.head? ≠ some c) (q : Bytes) :
    ¬ t.pre <+: (c :: q) ∨ (t.pre = [] ∧ t.bd = 0 ∧ ∀ i ∈ t.items, i.term = false → i.label ≠ c) := by
  have hl := hg.toOK.pre_length.2
  rw [hd, Nat.zero_add] at hl
  cases hp : t.pre with
  | nil =>
    right
    rw [hp] at hl
    refine ⟨rfl, by simpa using hl.symm, ?_⟩
    intro i hi ht e
    rcases hg.toOK.item hi with ⟨h1, -⟩ | ⟨-, -, -, h2, h3⟩
    · rw [ht] at h1; cases h1
    · obtain ⟨x, xs, ex⟩ := List.exists_cons_of_ne_nil h2
      obtain ⟨-, h4⟩ := h3 x (by rw [ex]; simp)
      have hm : x ∈ t.kvs := by
        rw [← t.items_flat, List.mem_flatMap]
        exact ⟨i, hi, by rw [ex]; simp⟩
      apply hc x hm
      rw [show t.bd = 0 by simpa using hl.symm, e] at h4
      rw [List.head?_eq_getElem?]
      exact h4
  | cons b p =>
    left
    rintro ⟨r, hr⟩
    rw [List.cons_append, List.cons.injEq] at hr
    have h1 : t.pre.head? = some c := by rw [hp]; simp [hr.1]
    unfold Grp.pre at h1
    split at h1
    · cases h1
    · rename_i x xs ex
      rw [hd, List.drop_zero] at h1
      apply hc x (by rw [ex]; simp)
      cases hx : x.1 with
      | nil => rw [hx] at h1; simp at h1
      | cons y ys =>
        rw [hx] at h1
        have hb : 0 < t.bd := by rw [← hl, hp]; simp
        obtain ⟨n, hn⟩ : ∃ n, t.bd = n + 1 := ⟨t.bd - 1, by omega⟩
        rw [hn] at h1
        simpa using h1

theorem dense_lost {ld : LoudsDense} {t : Grp} {post : List Grp} (hv : DView cfg fp ld (t :: post)) (hg : t.Good) (hd : t.d = 0) {c : UInt8} (hc : ∀ x ∈ t.kvs, x.1.head? ≠ some c) (q : Bytes)
    (hh : 1 ≤ ld.height) : ∃ D, ld.get fp (c :: q) = some ⟨-1, D, [], false⟩ := by
  unfold LoudsDense.get
  obtain ⟨n, hn⟩ : ∃ n, ld.height = n + 1 := ⟨ld.height - 1, by omega⟩
  rw [hn, LoudsDense.getLoop]
  have hv' : DView cfg fp ld ([] ++ t :: post) := hv
  have h1 := hv'.pre.checkPrefix (c :: q) 0 (Nat.zero_le _)
  rw [List.length_nil, List.drop_zero] at h1
  rcases root_miss hg hd hc q with h | ⟨h2, h3, h4⟩
  · rw [if_neg h] at h1
    rw [h1]
    exact ⟨_, rfl⟩
  · have hp : t.pre <+: c :: q := by rw [h2]; exact List.nil_prefix
    rw [if_pos hp, h2, List.length_nil] at h1
    rw [h1]
    simp only [Option.bind_eq_bind, Option.bind_some, Bool.not_true, Bool.false_eq_true, if_false, Nat.add_zero]
    unfold LoudsDense.getAt
    simp only [show denseFanout = 256 from rfl]
    rw [if_neg (by simp)]
    have h5 := hv'.label c.toNat c.toNat_lt
    have : (t.items.any fun i => !i.term && i.label.toNat == c.toNat) = false := by
      rw [List.any_eq_false]
      intro i hi hx
      simp only [Bool.and_eq_true, Bool.not_eq_true', beq_iff_eq] at hx
      exact h4 i hi hx.1 (UInt8.toNat_inj.mp hx.2)
    rw [this, List.length_nil] at h5
    simp only [List.getElem?_cons_zero, Option.bind_eq_bind, Option.bind_some]
    rw [h5]
    exact ⟨_, rfl⟩

theorem sparse_lost {ls : LoudsSparse} {t : Grp} {post : List Grp} (hv : SView cfg fp ls [] (t :: post)) (hok : ∀ x ∈ t :: post, x.OK) (hg : t.Good) (hd : t.d = 0) {c : UInt8}
    (hc : ∀ x ∈ t.kvs, x.1.head? ≠ some c) (q : Bytes) (bmi : Bool) : ls.get fp bmi (c :: q) 0 0 = some ([], false) := by
  have hv' : SView cfg fp ls [] ([] ++ t :: post) := hv
  have hf := hv'.first hok bmi
  have hi : itemN [] = 0 := rfl
  rw [hi] at hf
  simp only [List.length_nil, Nat.add_zero] at hf
  unfold LoudsSparse.get
  rw [hf]
  simp only [Option.bind_eq_bind, Option.bind_some]
  rw [LoudsSparse.getLoop, if_pos (by simp)]
  have hpid : ls.prefixID 0 = some 0 := by
    unfold LoudsSparse.prefixID usub
    rw [hv.dn]
    rfl
  have h1 := hv'.pre.checkPrefix (c :: q) 0 (Nat.zero_le _)
  rw [List.length_nil, List.drop_zero] at h1
  rw [hpid]
  simp only [Option.bind_eq_bind, Option.bind_some]
  rcases root_miss hg hd hc q with h | ⟨h2, h3, h4⟩
  · rw [if_neg h] at h1
    rw [h1]
    rfl
  · have hp : t.pre <+: c :: q := by rw [h2]; exact List.nil_prefix
    rw [if_pos hp, h2, List.length_nil] at h1
    rw [h1]
    simp only [Option.bind_eq_bind, Option.bind_some, Bool.not_true, Bool.false_eq_true, if_false, Nat.add_zero]
    rw [if_neg (by simp)]
    have h5 := hv'.size hok (Or.inr rfl)
    obtain ⟨p, h6⟩ := hv'.search_miss hg c h4
    rw [hi] at h5 h6
    simp only [List.getElem?_cons_zero, Option.bind_some]
    rw [h5]
    simp only [Option.bind_some]
    rw [h6]
    rfl

end

end Surf
