import Verif.Surf.LocateSparse
import Verif.Surf.BuildSpec

/-! `Build` succeeds on sorted keys, and what the filter it returns holds. -/

set_option linter.unusedSimpArgs false

namespace Surf

/-- The nodes of the levels `a`, …, `a + n - 1` below a root. -/
def nodesIn (t : Grp) (a n : Nat) : List Grp := (List.range' a n).flatMap (fun i => t.desc i)

theorem nodesIn_succ (t : Grp) (a n : Nat) : nodesIn t a (n + 1) = nodesIn t a n ++ t.desc (a + n) := by
  unfold nodesIn
  rw [List.range'_1_concat, List.flatMap_append]
  simp

theorem nodesIn_add (t : Grp) (a n m : Nat) : nodesIn t a (n + m) = nodesIn t a n ++ nodesIn t (a + n) m := by
  induction m with
  | zero => simp [nodesIn]
  | succ m ih => rw [← Nat.add_assoc, nodesIn_succ, ih, nodesIn_succ, List.append_assoc, Nat.add_assoc]

theorem nodesIn_children (t : Grp) (a n : Nat) : (nodesIn t a n).flatMap Grp.children = nodesIn t (a + 1) n := by
  induction n with
  | zero => rfl
  | succ n ih => rw [nodesIn_succ, List.flatMap_append, ih, nodesIn_succ, ← Grp.desc_succ]; congr 2; omega

theorem nodesIn_zero (t : Grp) (n : Nat) : nodesIn t 0 (n + 1) = t :: nodesIn t 1 n := by
  rw [Nat.add_comm, nodesIn_add]
  rfl

/-- A filter that holds the trie with root `t`: `cut` dense levels, of `h` levels in all. -/
structure Built (cfg : Config) (fp : Bytes → Word) (s : SuRF) (t : Grp) (cut h : Nat) : Prop where
  root : t.Good
  dv : DView cfg fp s.ld (nodesIn t 0 cut)
  ht : s.ld.height = cut
  sv : SView cfg fp s.ls (nodesIn t 0 cut) (nodesIn t cut (h - cut))
  hs : s.ls.height = h
  start : s.ls.startLevel = cut
  lt : cut < h
  out : ∀ i, h ≤ i → t.desc i = []
  ne : ∀ i, i < h → t.desc i ≠ []
  vals : ∀ x ∈ t.kvs, cfg.valueSize ≤ x.2.length
  cfgok : cfg.Fine
  ipn : s.ld.isPrefixVec.bv.numBits = (nodesIn t 0 h).length

theorem cutoffLoop_le (ls : List Level) (rest hint : Nat) : ∀ n, cutoffLoop ls rest hint n ≤ n := by
  intro n
  induction n with
  | zero => exact Nat.le_refl _
  | succ n ih =>
    rw [cutoffLoop]
    split <;> omega

theorem determineCutoffLevel_le (cfg : Config) (ls : List Level) (n : Nat) (hint : Int) : determineCutoffLevel cfg ls n hint ≤ ls.length - 1 := cutoffLoop_le _ _ _ _

/-! ### The total length of the prefixes -/

/-- The total length of the prefixes of `n` levels. -/
def preSum (n : Nat) (t : Grp) : Nat := ((List.range n).map (fun i => ((t.desc i).map (·.pre.length)).sum)).sum

theorem sum_add {α : Type} (l : List α) (f g : α → Nat) : (l.map (fun x => f x + g x)).sum = (l.map f).sum + (l.map g).sum := by
  induction l with
  | nil => rfl
  | cons a l ih => simp only [List.map_cons, List.sum_cons, ih]; omega

theorem sum_le_of {α : Type} (l : List α) (f g : α → Nat) (h : ∀ x ∈ l, f x ≤ g x) : (l.map f).sum ≤ (l.map g).sum := by
  induction l with
  | nil => exact Nat.le_refl _
  | cons a l ih =>
    have := ih (fun x hx => h x (List.mem_cons_of_mem _ hx))
    have := h a (by simp)
    simp only [List.map_cons, List.sum_cons]
    omega

theorem preSum_children (n : Nat) (cs : List Grp) : ((List.range n).map (fun i => ((cs.flatMap (Grp.desc i)).map (·.pre.length)).sum)).sum = (cs.map (preSum n)).sum := by
  induction cs with
  | nil => simp [List.map_const', List.sum_replicate_nat]
  | cons c cs ih =>
    simp only [List.flatMap_cons, List.map_append, List.sum_append, List.map_cons, List.sum_cons]
    rw [sum_add, ih]
    rfl

theorem preSum_succ (n : Nat) (t : Grp) : preSum (n + 1) t = t.pre.length + (t.children.map (preSum n)).sum := by
  rw [← preSum_children]
  unfold preSum
  rw [List.range_succ_eq_map, List.map_cons, List.sum_cons, List.map_map]
  congr 1

/-- The bytes of the keys behind depth `d`. -/
def restSum (d : Nat) (kvs : List KV) : Nat := (kvs.map (fun x => x.1.length - d)).sum

theorem restSum_append (d : Nat) (a b : List KV) : restSum d (a ++ b) = restSum d a + restSum d b := by simp [restSum]

theorem preSum_le (n : Nat) : ∀ t : Grp, t.OK → preSum n t ≤ restSum t.d t.kvs := by
  induction n with
  | zero => intro t _; exact Nat.zero_le _
  | succ n ih =>
    intro t h
    rw [preSum_succ]
    have hge := t.bd_ge
    have hpre : t.pre.length ≤ t.bd - t.d := by
      unfold Grp.pre
      cases t.kvs with
      | nil => simp
      | cons x xs => simp; omega
    have h1 : (t.children.map (preSum n)).sum ≤ (t.children.map (fun c => restSum (t.bd + 1) c.kvs)).sum := by
      apply sum_le_of
      intro c hc
      have h2 := ih c (h.child_good hc).1.toOK
      unfold Grp.children at hc
      rw [List.mem_map] at hc
      obtain ⟨i, -, rfl⟩ := hc
      exact h2
    have h2 : (t.children.map (fun c => restSum (t.bd + 1) c.kvs)).sum ≤ restSum (t.bd + 1) t.kvs := by
      conv_rhs => rw [← t.items_flat]
      unfold Grp.children
      rw [List.map_map]
      generalize t.items = is
      induction is with
      | nil => exact Nat.zero_le _
      | cons i is ih =>
        rw [List.flatMap_cons, restSum_append, List.filter_cons]
        split
        · rw [List.map_cons, List.sum_cons]
          have : ((fun c : Grp => restSum (t.bd + 1) c.kvs) ∘ fun i : Item => (⟨i.kvs, t.bd + 1⟩ : Grp)) i = restSum (t.bd + 1) i.kvs := rfl
          omega
        · omega
    have h3 : ∀ l : List KV, (∀ x ∈ l, t.bd ≤ x.1.length) → l ≠ [] → restSum (t.bd + 1) l + (t.bd - t.d) ≤ restSum t.d l := by
      intro l
      induction l with
      | nil => intro _ h; exact absurd rfl h
      | cons a l ih =>
        intro hl _
        have ha := hl a (by simp)
        have h4 : restSum (t.bd + 1) l ≤ restSum t.d l := by
          unfold restSum
          apply sum_le_of
          intro x _
          omega
        unfold restSum at h4 ⊢
        simp only [List.map_cons, List.sum_cons]
        omega
    have := h3 t.kvs (fun x hx => h.bd_le hx) h.ne
    omega

theorem pre_flatten_length (ns : List Grp) : (ns.map Grp.pre).flatten.length = (ns.map (·.pre.length)).sum := by
  rw [List.length_flatten, List.map_map]
  rfl

theorem nodesIn_pre (t : Grp) (n : Nat) : ((nodesIn t 0 n).map Grp.pre).flatten.length = preSum n t := by
  rw [pre_flatten_length]
  unfold nodesIn preSum
  rw [← List.range_eq_range', List.map_flatMap]
  generalize List.range n = l
  induction l with
  | nil => rfl
  | cons a l ih => rw [List.flatMap_cons, List.sum_append, ih]; rfl

theorem restSum_zero (kvs : List KV) : restSum 0 kvs = (kvs.map (·.1)).flatten.length := by
  unfold restSum
  rw [List.length_flatten, List.map_map]
  rfl

theorem le_maxKeyLen {keys : List Bytes} {k : Bytes} (h : k ∈ keys) : k.length ≤ maxKeyLen keys := by
  unfold maxKeyLen
  induction keys with
  | nil => simp at h
  | cons a keys ih =>
    simp only [List.map_cons, List.foldr_cons]
    rw [List.mem_cons] at h
    rcases h with rfl | h
    · omega
    · have := ih h
      omega

/-- A list of pairs with sorted keys for which `Build` works: at least one, and not just the empty key. -/
structure Sorted (kvs : List KV) : Prop where
  ne : kvs ≠ []
  sorted : kvs.Pairwise (fun a b => a.1 < b.1)
  notEmpty : kvs.map (·.1) ≠ [[]]

theorem Sorted.good {kvs : List KV} (h : Sorted kvs) : (⟨kvs, 0⟩ : Grp).Good := by
  refine ⟨⟨h.ne, h.sorted, fun _ _ => Nat.zero_le _, fun _ _ _ _ => by simp⟩, ?_⟩
  match kvs, h with
  | [], h => exact absurd rfl h.ne
  | [x], h =>
    right
    intro y hy
    simp only [List.mem_singleton] at hy
    subst hy
    have := h.notEmpty
    simp at this
    exact List.length_pos_iff.mpr this
  | x :: y :: r, _ => left; simp

/-- The levels `buildNodes` makes. -/
theorem levels_spec (cfg : Config) (fp : Bytes → Word) (hcfg : cfg.Fine) (kvs : List KV) (hk : Sorted kvs) (hv : ∀ x ∈ kvs, cfg.valueSize ≤ x.2.length) :
    ∃ levels, buildNodes cfg fp (maxKeyLen (kvs.map (·.1)) + 2) [] (kvs.map (·.1)) (kvs.map (·.2)) 0 0 0 = some levels ∧ 0 < levels.length ∧
      (∀ i l, levels[i]? = some l → LvOK cfg fp (l, (⟨kvs, 0⟩ : Grp).desc i)) ∧ (∀ i, levels.length ≤ i → (⟨kvs, 0⟩ : Grp).desc i = []) ∧
      (∀ i, i < levels.length → (⟨kvs, 0⟩ : Grp).desc i ≠ []) := by
  obtain ⟨ls, e1, e2, e3, e4, e5⟩ := buildNodes_spec (fp := fp) hcfg (maxKeyLen (kvs.map (·.1)) + 2) [] (fun _ => []) (fun _ => []) ⟨kvs, 0⟩ 0 0
    ⟨fun i l h => by simp at h, fun _ _ => ⟨rfl, rfl⟩⟩ hk.good (Nat.le_refl _) (Nat.zero_le _) (Nat.zero_le _) (fun _ _ => rfl) hv (by
      intro x hx
      have := le_maxKeyLen (keys := kvs.map (·.1)) (List.mem_map_of_mem hx)
      omega)
  refine ⟨ls, e1, e4, ?_, ?_, ?_⟩
  · intro i l hl
    have := e2.rep i l hl
    simpa [jOf, loOf, LvOK] using this
  · intro i hi
    have := (e2.out i hi).1
    simpa using this
  · intro i hi
    have := e5 i (Nat.zero_le _) hi
    simpa using this

/-- `assemble` succeeds for every cut-off below the height. -/
theorem assemble_ok (cfg : Config) (fp : Bytes → Word) (hcfg : cfg.Fine) (bmi : Bool) (kvs : List KV) (hk : Sorted kvs) (hv : ∀ x ∈ kvs, cfg.valueSize ≤ x.2.length)
    (hsize : (kvs.map (·.1)).flatten.length < 2 ^ 32) (levels : List Level)
    (h1 : ∀ i l, levels[i]? = some l → LvOK cfg fp (l, (⟨kvs, 0⟩ : Grp).desc i)) (h2 : ∀ i, levels.length ≤ i → (⟨kvs, 0⟩ : Grp).desc i = [])
    (h3 : ∀ i, i < levels.length → (⟨kvs, 0⟩ : Grp).desc i ≠ []) (cut : Nat) (hcut : cut < levels.length) :
    ∃ s, assemble bmi cfg levels cut = some s ∧ Built cfg fp s ⟨kvs, 0⟩ cut levels.length := by
  have hgood := hk.good
  generalize ht : (⟨kvs, 0⟩ : Grp) = t at *
  have htk : t.kvs = kvs := by rw [← ht]
  have htd : t.d = 0 := by rw [← ht]
  let all := levels.zip ((List.range levels.length).map (fun i => t.desc i))
  have hall1 : all.map (·.1) = levels := by
    show (levels.zip _).map Prod.fst = _
    rw [List.map_fst_zip]
    simp
  have hall2 : all.map (·.2) = (List.range levels.length).map (fun i => t.desc i) := by
    show (levels.zip _).map Prod.snd = _
    rw [List.map_snd_zip]
    simp
  have hlen : all.length = levels.length := by rw [← hall1, List.length_map]
  have hlv : ∀ p ∈ all, LvOK cfg fp p := by
    intro p hp
    obtain ⟨i, hi, e⟩ := List.getElem_of_mem hp
    have e1 : levels[i]? = some p.1 := by
      rw [← hall1, List.getElem?_map, List.getElem?_eq_getElem hi, e]; rfl
    have e2 : p.2 = t.desc i := by
      have : (all.map (·.2))[i]? = some p.2 := by rw [List.getElem?_map, List.getElem?_eq_getElem hi, e]; rfl
      rw [hall2, List.getElem?_map, List.getElem?_range (by omega)] at this
      simpa using this.symm
    have := h1 i p.1 e1
    rw [← e2] at this
    exact this
  have htake : ∀ n, n ≤ levels.length → (all.take n).flatMap (·.2) = nodesIn t 0 n := by
    intro n hn
    rw [List.flatMap_def, List.map_take, hall2, ← List.map_take, List.take_range, Nat.min_eq_left hn]
    unfold nodesIn
    rw [← List.range_eq_range', List.flatMap_def]
  have hdrop : (all.drop cut).flatMap (·.2) = nodesIn t cut (levels.length - cut) := by
    rw [List.flatMap_def, List.map_drop, hall2, ← List.map_drop, List.range_eq_range', List.drop_range']
    unfold nodesIn
    rw [List.flatMap_def]
    simp
  have hpsum : ∀ n, ((nodesIn t 0 n).map Grp.pre).flatten.length < 2 ^ 32 := by
    intro n
    rw [nodesIn_pre]
    have := preSum_le n t hgood.toOK
    rw [htd, restSum_zero, htk] at this
    omega
  have hallpre : ((all.flatMap (·.2)).map Grp.pre).flatten.length < 2 ^ 32 := by
    have := htake levels.length (Nat.le_refl _)
    rw [List.take_of_length_le (by omega)] at this
    rw [this]
    exact hpsum _
  have hdroppre : (((all.drop cut).flatMap (·.2)).map Grp.pre).flatten.length < 2 ^ 32 := by
    rw [hdrop]
    have e := hpsum levels.length
    rw [show levels.length = cut + (levels.length - cut) by omega, nodesIn_add, Nat.zero_add, List.map_append, List.flatten_append, List.length_append] at e
    omega
  have htwo : ∀ p ∈ all.take cut, ∀ x ∈ p.2, x.Two := by
    intro p hp x hx
    have hx' : x ∈ nodesIn t 0 cut := by
      rw [← htake cut (by omega)]
      exact List.mem_flatMap.mpr ⟨p, hp, hx⟩
    unfold nodesIn at hx'
    rw [List.mem_flatMap] at hx'
    obtain ⟨i, hi, hxi⟩ := hx'
    rw [List.mem_range'_1] at hi
    cases i with
    | zero =>
      rw [Grp.desc, List.mem_singleton] at hxi
      subst hxi
      refine ⟨hgood, ?_⟩
      have hne := h3 1 (by omega)
      by_contra hlt
      apply hne
      rw [Grp.desc]
      have : x.children = [] := by
        unfold Grp.children
        rw [List.map_eq_nil_iff, List.filter_eq_nil_iff]
        intro i hi hc
        have hfl := x.items_flat
        have : i.kvs.length ≤ x.kvs.length := by
          rw [← hfl]
          obtain ⟨a, b, e⟩ := List.append_of_mem hi
          rw [e]
          simp
          omega
        simp [Item.child] at hc
        omega
      rw [this]
      rfl
    | succ i =>
      obtain ⟨g1, g2⟩ := hgood.desc_good i x hxi
      exact ⟨g1, g2⟩
  have hne : ∀ p ∈ all.take cut, p.2 ≠ [] := by
    intro p hp
    have : p.2 ∈ all.map (·.2) := List.mem_map_of_mem (List.mem_of_mem_take hp)
    rw [hall2, List.mem_map] at this
    obtain ⟨i, hi, e⟩ := this
    rw [← e]
    exact h3 i (List.mem_range.mp hi)
  obtain ⟨ds, d1, d2⟩ := dense_levels (cfg := cfg) (fp := fp) (all.take cut) (fun p hp => hlv p (List.mem_of_mem_take hp)) hne htwo
  obtain ⟨pv, p1, -⟩ := pv_init (cfg := cfg) (fp := fp) all hlv hallpre
  obtain ⟨ld, l1, l2, l3, l4⟩ := dense_init hcfg all cut hlv ds d2 (by rw [htake cut (by omega)]; exact hpsum _)
  have hl : ∃ l, levels[cut]? = some l ∧ l.nodeCount = (t.desc cut).length := by
    refine ⟨levels[cut], List.getElem?_eq_getElem hcut, ?_⟩
    have := h1 cut _ (List.getElem?_eq_getElem hcut)
    exact this.n.nc
  obtain ⟨l, hl1, hl2⟩ := hl
  have hdc : denseChildCountOf (all.map (·.1)) cut ((all.take cut).flatMap (·.2)).length = some (((all.take cut).flatMap (·.2)).flatMap Grp.children).length := by
    rw [hall1, htake cut (by omega), nodesIn_children]
    unfold denseChildCountOf
    by_cases h0 : cut = 0
    · rw [if_neg (by simpa using h0), h0]; rfl
    · rw [if_pos h0, hl1]
      simp only [Option.bind_eq_bind, Option.bind_some]
      have e1 := nodesIn_zero t cut
      rw [nodesIn_succ, Nat.zero_add] at e1
      have e2 := congrArg List.length e1
      rw [List.length_append, List.length_cons] at e2
      unfold usub
      rw [hl2, if_pos (by omega)]
      congr 1
      simp only [Nat.zero_add]
      omega
  obtain ⟨ls, s1, s2, s3, s4⟩ := sparse_init (fp := fp) hcfg bmi all cut hlv hdroppre _ hdc rfl
  rw [hall1] at l1 p1 s1
  refine ⟨⟨ld, ls⟩, ?_, ?_⟩
  · unfold assemble
    rw [List.map_take, hall1] at d1
    rw [d1]
    simp only [Option.bind_eq_bind, Option.bind_some]
    rw [p1]
    simp only [Option.bind_some]
    rw [l1]
    simp only [Option.bind_some]
    rw [s1]
    rfl
  · rw [htake cut (by omega)] at l2 s2
    rw [hdrop] at s2
    refine ⟨hgood, l2, l3, s2, by rw [s3, hlen], s4, hcut, h2, h3, by rw [htk]; exact hv, hcfg, ?_⟩
    show ld.isPrefixVec.bv.numBits = _
    rw [l4, ← htake levels.length (Nat.le_refl _), List.take_of_length_le (by omega)]

/-- `Build` succeeds on sorted keys. -/
theorem build_sorted (cfg : Config) (fp : Bytes → Word) (hcfg : cfg.Fine) (bmi : Bool) (kvs : List KV) (hk : Sorted kvs) (hv : ∀ x ∈ kvs, cfg.valueSize ≤ x.2.length)
    (hsize : (kvs.map (·.1)).flatten.length < 2 ^ 32) (hint : Int) :
    ∃ s cut h, build fp bmi cfg (kvs.map (·.1)) (kvs.map (·.2)) hint = some s ∧ Built cfg fp s ⟨kvs, 0⟩ cut h := by
  obtain ⟨levels, e1, e2, e3, e4, e5⟩ := levels_spec cfg fp hcfg kvs hk hv
  have hle := determineCutoffLevel_le cfg levels (kvs.map (·.1)).length hint
  obtain ⟨s, a1, a2⟩ := assemble_ok cfg fp hcfg bmi kvs hk hv hsize levels e3 e4 e5 (determineCutoffLevel cfg levels (kvs.map (·.1)).length hint) (by omega)
  refine ⟨s, _, _, ?_, a2⟩
  unfold build
  rw [e1]
  exact a1

end Surf
