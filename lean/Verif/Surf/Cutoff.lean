import Verif.Surf.Size

/-! How `Build` chooses the number of dense levels. -/

set_option linter.unusedSimpArgs false

namespace Surf

/-- `uint64(totalCount*bitsPerKeyHint)` of a hint that is not negative and a product that does not overflow. -/
theorem hintBits {n : Nat} {hint : Int} (h0 : 0 ≤ hint) (h1 : (n : Int) * hint < 2 ^ 64) : ((BitVec.ofInt 64 ((n : Int) * hint)).toNat : Int) = n * hint := by
  rw [BitVec.toNat_ofInt]
  have h2 : 0 ≤ (n : Int) * hint := Int.mul_nonneg (Int.natCast_nonneg n) h0
  generalize (n : Int) * hint = x at *
  have : x % ((2 ^ 64 : Nat) : Int) = x := Int.emod_eq_of_lt h2 (by exact_mod_cast h1)
  rw [this]
  exact Int.toNat_of_nonneg h2

theorem cutoffLoop_mono (ls : List Level) (rest a b : Nat) (h : a ≤ b) : ∀ n, cutoffLoop ls rest a n ≤ cutoffLoop ls rest b n := by
  intro n
  induction n with
  | zero => exact Nat.le_refl _
  | succ n ih =>
    rw [cutoffLoop, cutoffLoop]
    have := cutoffLoop_le ls rest a n
    split
    · rw [if_pos (by omega)]
    · split
      · omega
      · exact ih

theorem cutoffLoop_fits (ls : List Level) (rest a : Nat) : ∀ n, 0 < cutoffLoop ls rest a n →
    denseSizeNoSuffix ls (cutoffLoop ls rest a n) + sparseSizeNoSuffix ls (cutoffLoop ls rest a n) + rest ≤ a := by
  intro n
  induction n with
  | zero => intro h; simp [cutoffLoop] at h
  | succ n ih =>
    rw [cutoffLoop]
    split
    · intro _; assumption
    · exact ih

/-- The loop stops at the largest level that fits. -/
theorem cutoffLoop_largest (ls : List Level) (rest a : Nat) : ∀ n m, cutoffLoop ls rest a n < m → m ≤ n →
    a < denseSizeNoSuffix ls m + sparseSizeNoSuffix ls m + rest := by
  intro n
  induction n with
  | zero => intro m h1 h2; omega
  | succ n ih =>
    intro m h1 h2
    rw [cutoffLoop] at h1
    split at h1
    · omega
    · by_cases e : m = n + 1
      · subst e; omega
      · exact ih m h1 (by omega)

theorem build_cut {fp : Bytes → Word} {bmi : Bool} {cfg : Config} {keys vals : List Bytes} {hint : Int} {s : SuRF}
    (h : build fp bmi cfg keys vals hint = some s) : ∃ levels, buildNodes cfg fp (maxKeyLen keys + 2) [] keys vals 0 0 0 = some levels ∧
      s.ld.height = determineCutoffLevel cfg levels keys.length hint ∧ s.ls.height = levels.length := by
  simp only [build, assemble, Option.bind_eq_bind, Option.bind_eq_some_iff, Option.pure_def, Option.some.injEq] at h
  obtain ⟨lv, h1, ds, h2, _, _, ld, h4, ls, h5, rfl⟩ := h
  refine ⟨lv, h1, ?_, ?_⟩
  · simp only [LoudsDense.init, Option.bind_eq_bind, Option.bind_eq_some_iff, Option.pure_def, Option.some.injEq] at h4
    obtain ⟨_, a1, _, a2, _, a3, _, a4, _, a5, rfl⟩ := h4
    rfl
  · simp only [LoudsSparse.init, Option.bind_eq_bind, Option.bind_eq_some_iff, Option.pure_def, Option.some.injEq] at h5
    obtain ⟨_, _, _, b2, _, b3, _, b4, _, b5, rfl⟩ := h5
    rfl

section
variable {cfg : Config} {fp : Bytes → Word} {t : Grp} {levels : List Level}

theorem levels_map {α : Type} (f : Level → α) (g : List Grp → α) (h : ∀ i l, levels[i]? = some l → f l = g (t.desc i)) :
    levels.map f = (List.range levels.length).map (fun i => g (t.desc i)) := by
  apply List.ext_getElem?
  intro i
  rw [List.getElem?_map, List.getElem?_map]
  by_cases hi : i < levels.length
  · rw [List.getElem?_range hi, List.getElem?_eq_getElem hi]
    exact congrArg some (h i _ (List.getElem?_eq_getElem hi))
  · rw [List.getElem?_eq_none (by omega), List.getElem?_eq_none (by rw [List.length_range]; omega)]
    rfl

/-- The dense estimate counts 512 bits for each node. -/
theorem denseSize_ge (h : ∀ i l, levels[i]? = some l → LvOK cfg fp (l, t.desc i)) (c : Nat) (hc : c ≤ levels.length) :
    512 * (nodesIn t 0 c).length ≤ denseSizeNoSuffix levels c := by
  unfold denseSizeNoSuffix
  have h1 := levels_map (t := t) (levels := levels) (fun l => 2 * 256 * l.nodeCount) (fun ns => 512 * ns.length) (fun i l hl => by rw [(h i l hl).n.nc])
  rw [List.map_take, h1, ← List.map_take, List.take_range, Nat.min_eq_left hc]
  unfold nodesIn
  rw [← List.range_eq_range', List.length_flatMap]
  generalize List.range c = l
  have : 512 * (l.map (fun i => (t.desc i).length)).sum = (l.map (fun i => 512 * (t.desc i).length)).sum := by
    induction l with
    | nil => rfl
    | cons a l ih => simp only [List.map_cons, List.sum_cons]; omega
  omega

/-- The sparse estimate counts 10 bits for each item. -/
theorem sparseSize_eq (h : ∀ i l, levels[i]? = some l → LvOK cfg fp (l, t.desc i)) (c : Nat) :
    sparseSizeNoSuffix levels c = 10 * ((nodesIn t c (levels.length - c)).flatMap Grp.items).length := by
  unfold sparseSizeNoSuffix
  have h1 := levels_map (t := t) (levels := levels) (fun l => l.labels.length * 8 + 2 * l.labels.length) (fun ns => 10 * (ns.flatMap Grp.items).length) (fun i l hl => by
    rw [(h i l hl).b.labels, List.length_map]
    have : ((t.desc i).flatMap Grp.jtems).length = ((t.desc i).flatMap Grp.items).length := by
      rw [List.length_flatMap, List.length_flatMap]
      congr 1
      apply List.map_congr_left
      intro g _
      exact List.length_map _
    dsimp only
    rw [this]
    omega)
  rw [List.map_drop, h1, ← List.map_drop, List.range_eq_range', List.drop_range']
  unfold nodesIn
  rw [List.flatMap_assoc, List.length_flatMap]
  rw [show (0 + c * 1) = c by omega]
  generalize List.range' c (levels.length - c) = l
  induction l with
  | nil => rfl
  | cons a l ih => simp only [List.map_cons, List.sum_cons]; omega

theorem items_pos {a n : Nat} (ht : t.OK) (hn : 0 < n) (hne : t.desc a ≠ []) : 0 < ((nodesIn t a n).flatMap Grp.items).length := by
  rw [List.length_pos_iff, Ne, List.flatMap_eq_nil_iff]
  intro h
  obtain ⟨m, rfl⟩ : ∃ m, n = m + 1 := ⟨n - 1, by omega⟩
  obtain ⟨g, hg⟩ := List.exists_mem_of_ne_nil _ hne
  have hmem : g ∈ nodesIn t a (m + 1) := by
    unfold nodesIn
    rw [List.mem_flatMap]
    exact ⟨a, by rw [List.mem_range'_1]; omega, hg⟩
  rcases nodesIn_two ht hmem with rfl | ⟨gg, -⟩
  · exact ht.items_ne (h _ hmem)
  · exact gg.items_ne (h _ hmem)

/-- What the estimate says about the parts of the filter, if there is a dense level. -/
theorem Built.cut_le {s : SuRF} {cut ht : Nat} (B : Built cfg fp s t cut ht) (h : ∀ i l, levels[i]? = some l → LvOK cfg fp (l, t.desc i)) (hl : ht = levels.length)
    {n : Nat} {hint : Int} (hc : cut = determineCutoffLevel cfg levels n hint) (hpos : 0 < cut) (h0 : 0 ≤ hint) (h1 : (n : Int) * hint < 2 ^ 64) :
    ((512 * s.ls.denseNodeCount + 10 * (s.ls.labelVec.labels.length - 1) + n * cfg.suffixLen : Nat) : Int) ≤ n * hint := by
  unfold determineCutoffLevel at hc
  dsimp only at hc
  have h2 := cutoffLoop_fits levels _ _ _ (hc ▸ hpos)
  rw [← hc] at h2
  have h3 := denseSize_ge h cut (by have := B.lt; omega)
  have h4 := sparseSize_eq h cut
  rw [← hl] at h4
  rw [← hintBits h0 h1, B.sv.dn, B.sv.lab, List.length_append, List.length_map, List.length_singleton]
  generalize (BitVec.ofInt 64 ((n : Int) * hint)).toNat = X at *
  generalize n * cfg.suffixLen = Y at *
  omega

theorem nodesIn_mono (t : Grp) {a b : Nat} (h : a ≤ b) : (nodesIn t 0 a).length ≤ (nodesIn t 0 b).length := by
  have := nodesIn_add t 0 a (b - a)
  rw [show a + (b - a) = b by omega] at this
  rw [this, List.length_append]
  omega

theorem denseSize_le (h : ∀ i l, levels[i]? = some l → LvOK cfg fp (l, t.desc i)) (c : Nat) (hc : c ≤ levels.length) :
    denseSizeNoSuffix levels c ≤ 513 * (nodesIn t 0 c).length := by
  unfold denseSizeNoSuffix
  have h1 := levels_map (t := t) (levels := levels) (fun l => 2 * 256 * l.nodeCount) (fun ns => 512 * ns.length) (fun i l hl => by rw [(h i l hl).n.nc])
  have h2 := levels_map (t := t) (levels := levels) (·.nodeCount) (fun ns => ns.length) (fun i l hl => by rw [(h i l hl).n.nc])
  rw [List.map_take, h1, ← List.map_take, List.take_range, Nat.min_eq_left hc]
  rw [List.map_take, h2, ← List.map_take, List.take_range, Nat.min_eq_left (by omega)]
  have h3 : ∀ m, ((List.range m).map (fun i => (t.desc i).length)).sum = (nodesIn t 0 m).length := by
    intro m
    unfold nodesIn
    rw [← List.range_eq_range', List.length_flatMap]
  rw [h3]
  have h4 := nodesIn_mono t (show c - 1 ≤ c by omega)
  have h5 : ((List.range c).map (fun i => 512 * (t.desc i).length)).sum = 512 * (nodesIn t 0 c).length := by
    rw [← h3]
    generalize List.range c = l
    induction l with
    | nil => rfl
    | cons a l ih => simp only [List.map_cons, List.sum_cons]; omega
  omega

theorem prefixSize_le (h : ∀ i l, levels[i]? = some l → LvOK cfg fp (l, t.desc i)) :
    (levels.map (fun l => (l.prefixes.map (fun p => p.length * 8)).sum)).sum + (levels.map (·.nodeCount)).sum ≤
      8 * preSum levels.length t + (nodesIn t 0 levels.length).length := by
  have h0 : ∀ ns : List Grp, (((ns.map Grp.pre).filter (fun p => !p.isEmpty)).map (fun p => p.length * 8)).sum = 8 * (ns.map (·.pre.length)).sum := by
    intro ns
    induction ns with
    | nil => rfl
    | cons g ns ih =>
      rw [List.map_cons, List.filter_cons, List.map_cons, List.sum_cons]
      split
      · rw [List.map_cons, List.sum_cons, ih]; omega
      · rename_i hp
        have : g.pre = [] := by simpa using hp
        rw [ih, this, List.length_nil]
        omega
  have h1 := levels_map (t := t) (levels := levels) (fun l => (l.prefixes.map (fun p => p.length * 8)).sum) (fun ns => 8 * (ns.map (·.pre.length)).sum) (fun i l hl => by
    rw [(h i l hl).n.pre]; exact h0 _)
  have h2 := levels_map (t := t) (levels := levels) (·.nodeCount) (fun ns => ns.length) (fun i l hl => by rw [(h i l hl).n.nc])
  rw [h1, h2]
  unfold preSum nodesIn
  rw [← List.range_eq_range', List.length_flatMap]
  generalize List.range levels.length = l
  induction l with
  | nil => exact Nat.le_refl _
  | cons a l ih => simp only [List.map_cons, List.sum_cons]; omega

/-- No level is refused if the hint is large. -/
theorem cutoff_all (h : ∀ i l, levels[i]? = some l → LvOK cfg fp (l, t.desc i)) (ht : t.OK) {n : Nat} {hint : Int}
    (hb : 513 * (nodesIn t 0 levels.length).length + 10 * ((nodesIn t 0 levels.length).flatMap Grp.items).length + n * cfg.suffixLen + 8 * restSum t.d t.kvs +
      (nodesIn t 0 levels.length).length ≤ (BitVec.ofInt 64 ((n : Int) * hint)).toNat) : determineCutoffLevel cfg levels n hint = levels.length - 1 := by
  have h1 := determineCutoffLevel_le cfg levels n hint
  by_contra hne
  have h2 := cutoffLoop_largest levels (n * cfg.suffixLen + ((levels.map (fun l => (l.prefixes.map (fun p => p.length * 8)).sum)).sum + (levels.map (·.nodeCount)).sum))
    (BitVec.ofInt 64 ((n : Int) * hint)).toNat (levels.length - 1) (levels.length - 1) (by
      have : cutoffLoop levels (n * cfg.suffixLen + ((levels.map (fun l => (l.prefixes.map (fun p => p.length * 8)).sum)).sum + (levels.map (·.nodeCount)).sum))
          (BitVec.ofInt 64 ((n : Int) * hint)).toNat (levels.length - 1) = determineCutoffLevel cfg levels n hint := rfl
      omega) (Nat.le_refl _)
  have h3 := prefixSize_le h
  have h4 := denseSize_le h (levels.length - 1) (by omega)
  have h5 := sparseSize_eq h (levels.length - 1)
  have h6 := preSum_le levels.length t ht
  have h7 := nodesIn_mono t (show levels.length - 1 ≤ levels.length by omega)
  have h8 : ((nodesIn t (levels.length - 1) (levels.length - (levels.length - 1))).flatMap Grp.items).length ≤ ((nodesIn t 0 levels.length).flatMap Grp.items).length := by
    have := nodesIn_add t 0 (levels.length - 1) (levels.length - (levels.length - 1))
    rw [show levels.length - 1 + (levels.length - (levels.length - 1)) = levels.length by omega, Nat.zero_add] at this
    rw [this, List.flatMap_append, List.length_append]
    omega
  generalize (BitVec.ofInt 64 ((n : Int) * hint)).toNat = X at *
  generalize n * cfg.suffixLen = Y at *
  omega

end

end Surf
