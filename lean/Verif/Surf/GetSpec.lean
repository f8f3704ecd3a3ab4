import Verif.Surf.Whole

/-! `Get` is a walk down the trie. -/

set_option linter.unusedSimpArgs false

namespace Surf

/-- The item of the key that ends where the node branches. -/
def Grp.endItem (t : Grp) : Option Item := t.items.find? (·.term)

/-- The first item, if it is a leaf with the label of the terminator. -/
def Grp.tail (t : Grp) : Option Item := t.items.head?.filter (fun i => i.label == 0xff && !i.child)

/-- The walk `Get` makes from node `t` of level `lev` on: the leaf at which it ends, and the depth it has reached. (On a sparse level it does not compare the prefix of a node if the query ends
where the node begins.) -/
def find (cut : Nat) (q : Bytes) : Nat → Nat → Grp → Option (JItem × Nat)
  | 0, _, _ => none
  | n + 1, lev, t =>
    if cut ≤ lev ∧ q.length ≤ t.d then t.tail.map (fun i => ((t.bd, i), t.d))
    else if ¬ t.pre <+: q.drop t.d then none
    else if q.length ≤ t.bd then (if lev < cut then t.endItem else t.tail).map (fun i => ((t.bd, i), t.bd))
    else match t.items.find? (fun i => !i.term && q[t.bd]? == some i.label) with
      | none => none
      | some i => if i.child then find cut q n (lev + 1) ⟨i.kvs, t.bd + 1⟩ else some ((t.bd, i), t.bd)

/-- What `Get` answers when the walk has ended. -/
def answer (cfg : Config) (fp : Bytes → Word) (q : Bytes) : Option (JItem × Nat) → Bytes × Bool
  | none => ([], false)
  | some (j, D) => if sufOK cfg fp (leafWord cfg fp j) q (D + 1) then (leafVal cfg j, true) else ([], false)

theorem find_tail {cut lev n : Nat} {q : Bytes} {t : Grp} (h1 : cut ≤ lev) (h2 : q.length ≤ t.d) : find cut q (n + 1) lev t = t.tail.map (fun i => ((t.bd, i), t.d)) := by
  rw [find, if_pos ⟨h1, h2⟩]

theorem find_nopre {cut lev n : Nat} {q : Bytes} {t : Grp} (h1 : ¬ (cut ≤ lev ∧ q.length ≤ t.d)) (h2 : ¬ t.pre <+: q.drop t.d) : find cut q (n + 1) lev t = none := by
  rw [find, if_neg h1, if_pos h2]

theorem find_end {cut lev n : Nat} {q : Bytes} {t : Grp} (h1 : ¬ (cut ≤ lev ∧ q.length ≤ t.d)) (h2 : t.pre <+: q.drop t.d) (h3 : q.length ≤ t.bd) :
    find cut q (n + 1) lev t = (if lev < cut then t.endItem else t.tail).map (fun i => ((t.bd, i), t.bd)) := by
  rw [find, if_neg h1, if_neg (not_not_intro h2), if_pos h3]

theorem find_miss {cut lev n : Nat} {q : Bytes} {t : Grp} (h1 : ¬ (cut ≤ lev ∧ q.length ≤ t.d)) (h2 : t.pre <+: q.drop t.d) (h3 : ¬ q.length ≤ t.bd) {c : UInt8} (hc : q[t.bd]? = some c)
    (h4 : t.items.find? (fun i => !i.term && some c == some i.label) = none) : find cut q (n + 1) lev t = none := by
  rw [find, if_neg h1, if_neg (not_not_intro h2), if_neg h3, hc, h4]

theorem find_hit {cut lev n : Nat} {q : Bytes} {t : Grp} (h1 : ¬ (cut ≤ lev ∧ q.length ≤ t.d)) (h2 : t.pre <+: q.drop t.d) (h3 : ¬ q.length ≤ t.bd) {c : UInt8} (hc : q[t.bd]? = some c)
    {i : Item} (h4 : t.items.find? (fun i => !i.term && some c == some i.label) = some i) :
    find cut q (n + 1) lev t = if i.child then find cut q n (lev + 1) ⟨i.kvs, t.bd + 1⟩ else some ((t.bd, i), t.bd) := by
  rw [find, if_neg h1, if_neg (not_not_intro h2), if_neg h3, hc, h4]

/-! ### Leaves -/

theorem leavesJ_map (b : Nat) (is : List Item) : (leavesJ (is.map (fun i => (b, i)))).length = leafN is := by
  unfold leavesJ leafN
  rw [List.countP_eq_length_filter, List.filter_map, List.length_map]
  rfl

theorem lvs_split {pre post : List Grp} {t : Grp} {ip iq : List Item} {i : Item} (e : t.items = ip ++ i :: iq) (hc : i.child = false) :
    ∃ X Y, lvs (pre ++ t :: post) = X ++ (t.bd, i) :: Y ∧ X.length = (lvs pre).length + leafN ip := by
  refine ⟨lvs pre ++ leavesJ (ip.map (fun i => (t.bd, i))), leavesJ (iq.map (fun i => (t.bd, i))) ++ lvs post, ?_, ?_⟩
  · rw [lvs_append, show t :: post = [t] ++ post from rfl, lvs_append]
    have : lvs [t] = leavesJ (ip.map (fun i => (t.bd, i))) ++ (t.bd, i) :: leavesJ (iq.map (fun i => (t.bd, i))) := by
      unfold lvs
      simp only [List.flatMap_cons, List.flatMap_nil, List.append_nil]
      unfold Grp.jtems
      rw [e, List.map_append, leavesJ_app, List.map_cons]
      congr 1
      unfold leavesJ
      rw [List.filter_cons]
      simp [hc]
    rw [this]
    simp
  · rw [List.length_append, leavesJ_map]

theorem desc_kvs (l : Nat) : ∀ (t c : Grp), c ∈ t.desc l → ∀ x ∈ c.kvs, x ∈ t.kvs := by
  induction l with
  | zero =>
    intro t c hc x hx
    rw [Grp.desc, List.mem_singleton] at hc
    subst hc
    exact hx
  | succ l ih =>
    intro t c hc x hx
    rw [Grp.desc, List.mem_flatMap] at hc
    obtain ⟨u, hu, hc⟩ := hc
    have := ih u c hc x hx
    unfold Grp.children at hu
    rw [List.mem_map] at hu
    obtain ⟨i, hi, rfl⟩ := hu
    rw [← t.items_flat, List.mem_flatMap]
    exact ⟨i, (List.mem_filter.mp hi).1, this⟩

theorem nodesIn_mem {t c : Grp} {a n : Nat} (h : c ∈ nodesIn t a n) : ∃ i, c ∈ t.desc i := by
  unfold nodesIn at h
  rw [List.mem_flatMap] at h
  obtain ⟨i, -, h⟩ := h
  exact ⟨i, h⟩

theorem Grp.Good.desc_ok {t : Grp} (h : t.Good) {l : Nat} {c : Grp} (hc : c ∈ t.desc l) : c.Good := by
  cases l with
  | zero =>
    rw [Grp.desc, List.mem_singleton] at hc
    subst hc
    exact h
  | succ l => exact (h.desc_good l c hc).1

/-- The pair of a leaf is one of the stored pairs. -/
theorem Grp.OK.leafKV {t : Grp} (h : t.OK) {i : Item} (hi : i ∈ t.items) (hc : i.child = false) : i.kvs = [Surf.leafKV (t.bd, i)] ∧ Surf.leafKV (t.bd, i) ∈ t.kvs := by
  have hne := h.item_ne hi
  have hl : i.kvs.length ≤ 1 := by simp [Item.child] at hc; omega
  match hk : i.kvs with
  | [] => exact absurd hk hne
  | _ :: _ :: _ => rw [hk] at hl; simp at hl
  | [x] =>
    have e : Surf.leafKV (t.bd, i) = x := by simp [Surf.leafKV, hk]
    rw [e]
    refine ⟨rfl, ?_⟩
    rw [← t.items_flat, List.mem_flatMap]
    exact ⟨i, hi, by rw [hk]; simp⟩

theorem lvs_mem {ns : List Grp} {j : JItem} (h : j ∈ lvs ns) : ∃ t ∈ ns, j.1 = t.bd ∧ j.2 ∈ t.items ∧ j.2.child = false := by
  unfold lvs leavesJ at h
  rw [List.mem_filter, List.mem_flatMap] at h
  obtain ⟨⟨t, ht, hj⟩, hc⟩ := h
  unfold Grp.jtems at hj
  rw [List.mem_map] at hj
  obtain ⟨i, hi, rfl⟩ := hj
  exact ⟨t, ht, rfl, hi, by simpa using hc⟩

section
variable {cfg : Config} {fp : Bytes → Word} {s : SuRF} {t0 : Grp} {cut h : Nat}

theorem Built.leafVal_length (B : Built cfg fp s t0 cut h) {a n : Nat} {v : Bytes} (hv : v ∈ (lvs (nodesIn t0 a n)).map (leafVal cfg)) : v.length = cfg.valueSize := by
  rw [List.mem_map] at hv
  obtain ⟨j, hj, rfl⟩ := hv
  obtain ⟨t, ht, e1, e2, e3⟩ := lvs_mem hj
  obtain ⟨i, hti⟩ := nodesIn_mem ht
  have := (B.root.desc_ok hti).leafKV e2 e3
  have h2 := B.vals _ (desc_kvs i t0 t hti _ this.2)
  have e : j = (t.bd, j.2) := by rw [← e1]
  rw [← e] at h2
  unfold leafVal
  rw [List.length_take]
  omega

theorem leafWord_high (hcfg : cfg.Fine) (j : JItem) : ∀ i, cfg.suffixLen ≤ i → (leafWord cfg fp j).getLsbD i = false :=
  (hcfg.suffix_spec fp (leafKV j).1 (j.1 + 1)).2

theorem Built.dense_finish (B : Built cfg fp s t0 cut h) {pre post : List Grp} {t : Grp} (e : nodesIn t0 0 cut = pre ++ t :: post) {ip iq : List Item} {i : Item} (ei : t.items = ip ++ i :: iq)
    (hc : i.child = false) (q : Bytes) (D : Nat) : s.ld.finish fp q D ((lvs pre).length + leafN ip) = some (answer cfg fp q (some ((t.bd, i), D))) := by
  obtain ⟨X, Y, e1, e2⟩ := lvs_split (pre := pre) (post := post) ei hc
  have hsv := B.dv.suf
  rw [e, e1, List.map_append, List.map_cons] at hsv
  unfold LoudsDense.finish answer
  rw [← e2]
  have hck := SV.checkEquality (fp := fp) B.cfgok hsv (leafWord_high B.cfgok _) q (D + 1)
  rw [List.length_map] at hck
  rw [hck]
  simp only [Option.bind_eq_bind, Option.bind_some]
  by_cases hs : sufOK cfg fp (leafWord cfg fp (t.bd, i)) q (D + 1) = true
  · rw [if_pos hs, if_pos hs, B.dv.val]
    have := values_get _ cfg.valueSize (fun v hv => B.leafVal_length hv) (X.map (leafVal cfg)) (Y.map (leafVal cfg)) (leafVal cfg (t.bd, i)) (by rw [e, e1]; simp)
    rw [List.length_map] at this
    rw [this]
    rfl
  · rw [if_neg hs, if_neg hs]
    rfl

theorem Built.sparse_finish (B : Built cfg fp s t0 cut h) {pre post : List Grp} {t : Grp} (e : nodesIn t0 cut (h - cut) = pre ++ t :: post) {ip iq : List Item} {i : Item} (ei : t.items = ip ++ i :: iq)
    (hc : i.child = false) (q : Bytes) (D : Nat) : s.ls.finish fp q D (itemN pre + ip.length) = some (answer cfg fp q (some ((t.bd, i), D))) := by
  obtain ⟨X, Y, e1, e2⟩ := lvs_split (pre := pre) (post := post) ei hc
  have hv := B.sv
  rw [e] at hv
  have hsv := hv.suf
  rw [e1, List.map_append, List.map_cons] at hsv
  unfold LoudsSparse.finish answer
  rw [hv.leafPos ei hc, ← e2]
  simp only [Option.bind_eq_bind, Option.bind_some]
  have hck := SV.checkEquality (fp := fp) B.cfgok hsv (leafWord_high B.cfgok _) q (D + 1)
  rw [List.length_map] at hck
  rw [hck]
  simp only [Option.bind_some]
  by_cases hs : sufOK cfg fp (leafWord cfg fp (t.bd, i)) q (D + 1) = true
  · rw [if_pos hs, if_pos hs, hv.val]
    have := values_get _ cfg.valueSize (fun v hv => B.leafVal_length (a := cut) (n := h - cut) (by rw [e]; exact hv)) (X.map (leafVal cfg)) (Y.map (leafVal cfg)) (leafVal cfg (t.bd, i)) (by rw [e1]; simp)
    rw [List.length_map] at this
    rw [this]
    rfl
  · rw [if_neg hs, if_neg hs]
    rfl

/-! ### Nodes by level -/

theorem dense_at {t0 t : Grp} {cut lev : Nat} {a b : List Grp} (hl : lev < cut) (e : t0.desc lev = a ++ t :: b) : ∃ post, nodesIn t0 0 cut = (nodesIn t0 0 lev ++ a) ++ t :: post := by
  refine ⟨b ++ nodesIn t0 (lev + 1) (cut - (lev + 1)), ?_⟩
  have h1 := nodesIn_add t0 0 (lev + 1) (cut - (lev + 1))
  rw [show lev + 1 + (cut - (lev + 1)) = cut by omega, nodesIn_succ, Nat.zero_add, Nat.zero_add, e] at h1
  rw [h1]
  simp

theorem sparse_at {t0 t : Grp} {cut h lev : Nat} {a b : List Grp} (hc : cut ≤ lev) (hl : lev < h) (e : t0.desc lev = a ++ t :: b) :
    ∃ post, nodesIn t0 cut (h - cut) = (nodesIn t0 cut (lev - cut) ++ a) ++ t :: post := by
  refine ⟨b ++ nodesIn t0 (lev + 1) (h - (lev + 1)), ?_⟩
  have h1 := nodesIn_add t0 cut (lev - cut + 1) (h - (lev + 1))
  rw [show lev - cut + 1 + (h - (lev + 1)) = h - cut by omega, nodesIn_succ, show cut + (lev - cut) = lev by omega, show cut + (lev - cut + 1) = lev + 1 by omega, e] at h1
  rw [h1]
  simp

theorem desc_child {t0 t : Grp} {lev : Nat} {a b : List Grp} (e : t0.desc lev = a ++ t :: b) {ip iq : List Item} {i : Item} (ei : t.items = ip ++ i :: iq) (hc : i.child = true) :
    t0.desc (lev + 1) = (a.flatMap Grp.children ++ kids t.bd ip) ++ ⟨i.kvs, t.bd + 1⟩ :: (kids t.bd iq ++ b.flatMap Grp.children) := by
  rw [Grp.desc_succ, e, List.flatMap_append, List.flatMap_cons, Grp.children_eq, ei, kids_append]
  have : kids t.bd (i :: iq) = ⟨i.kvs, t.bd + 1⟩ :: kids t.bd iq := by
    unfold kids
    rw [List.filter_cons, if_pos hc]
    rfl
  rw [this]
  simp

/-- The number of a node. -/
def nid (t0 : Grp) (lev : Nat) (a : List Grp) : Nat := (nodesIn t0 0 lev ++ a).length

theorem nid_child (t0 : Grp) (lev b : Nat) (a : List Grp) (ip : List Item) :
    ((nodesIn t0 0 lev ++ a).flatMap Grp.children).length + (kids b ip).length + 1 = nid t0 (lev + 1) (a.flatMap Grp.children ++ kids b ip) := by
  unfold nid
  rw [List.flatMap_append, nodesIn_children, nodesIn_zero]
  simp [Nat.add_assoc]

theorem nid_child_sparse (t0 : Grp) (cut lev b : Nat) (hc : cut ≤ lev) (a : List Grp) (ip : List Item) :
    ((nodesIn t0 0 cut).flatMap Grp.children).length + ((nodesIn t0 cut (lev - cut) ++ a).flatMap Grp.children).length + (kids b ip).length + 1 = nid t0 (lev + 1) (a.flatMap Grp.children ++ kids b ip) := by
  rw [← nid_child]
  have : nodesIn t0 0 lev = nodesIn t0 0 cut ++ nodesIn t0 cut (lev - cut) := by
    have := nodesIn_add t0 0 cut (lev - cut)
    rwa [show cut + (lev - cut) = lev by omega, Nat.zero_add] at this
  rw [this, List.append_assoc, List.flatMap_append]
  simp

theorem nid_sparse (t0 : Grp) (cut lev : Nat) (hc : cut ≤ lev) (a : List Grp) : nid t0 lev a = (nodesIn t0 0 cut).length + (nodesIn t0 cut (lev - cut) ++ a).length := by
  unfold nid
  have : nodesIn t0 0 lev = nodesIn t0 0 cut ++ nodesIn t0 cut (lev - cut) := by
    have := nodesIn_add t0 0 cut (lev - cut)
    rwa [show cut + (lev - cut) = lev by omega, Nat.zero_add] at this
  rw [this]
  simp [Nat.add_assoc]

theorem Grp.OK.pre_length {t : Grp} (h : t.OK) : t.pre.length = t.bd - t.d ∧ t.d + t.pre.length = t.bd := by
  have hge := t.bd_ge
  have : t.pre.length = t.bd - t.d := by
    unfold Grp.pre
    cases hk : t.kvs with
    | nil => exact absurd hk h.ne
    | cons x xs =>
      have := h.bd_le (x := x) (by rw [hk]; simp)
      simp
      omega
  omega

/-- A terminator is the first item. -/
theorem Grp.OK.endItem_cases {t : Grp} (h : t.OK) : (t.hasEnd = false ∧ t.endItem = none) ∨
    (t.hasEnd = true ∧ ∃ i iq, t.items = i :: iq ∧ i.term = true ∧ i.child = false ∧ t.endItem = some i) := by
  have hs := h.items_sorted
  unfold Grp.hasEnd Grp.endItem
  cases e : t.items with
  | nil => exact absurd e h.items_ne
  | cons i is =>
    rw [e, List.pairwise_cons] at hs
    cases hi : i.term with
    | true =>
      right
      refine ⟨by simp [hi], i, is, rfl, hi, h.term_leaf (by rw [e]; simp) hi, by simp [hi]⟩
    | false =>
      left
      have : ∀ j ∈ i :: is, j.term = false := by
        intro j hj
        rw [List.mem_cons] at hj
        rcases hj with rfl | hj
        · exact hi
        · exact (hs.1 j hj).1
      refine ⟨?_, ?_⟩
      · rw [List.any_eq_false]
        intro j hj
        simp [this j hj]
      · rw [List.find?_eq_none]
        intro j hj
        simp [this j hj]

theorem find_label {is : List Item} {c : UInt8} : (is.find? (fun i => !i.term && some c == some i.label) = none ∧ (∀ i ∈ is, i.term = false → i.label ≠ c)) ∨
    ∃ ip i iq, is = ip ++ i :: iq ∧ i.term = false ∧ i.label = c ∧ is.find? (fun i => !i.term && some c == some i.label) = some i := by
  cases hf : is.find? (fun i => !i.term && some c == some i.label) with
  | none =>
    left
    refine ⟨rfl, ?_⟩
    rw [List.find?_eq_none] at hf
    intro i hi ht hc
    have := hf i hi
    simp [ht, hc] at this
  | some i =>
    right
    have hmem := List.mem_of_find?_eq_some hf
    have hp := List.find?_some hf
    obtain ⟨ip, iq, e⟩ := List.append_of_mem hmem
    simp only [Bool.and_eq_true, Bool.not_eq_true', beq_iff_eq, Option.some.injEq] at hp
    exact ⟨ip, i, iq, e, hp.1, hp.2.symm, rfl⟩

/-! ### The dense part -/

/-- What the dense loop returns: the answer, or the node on the first sparse level with which the sparse loop has to go on. -/
def DenseDone (cfg : Config) (fp : Bytes → Word) (q : Bytes) (t0 : Grp) (cut : Nat) (r : LoudsDense.GetRes) (f : Option (JItem × Nat)) : Prop :=
  (r.sparseNode = -1 ∧ (r.value, r.ok) = answer cfg fp q f) ∨
  (r.ok = true ∧ ∃ (a b : List Grp) (t : Grp) (n : Nat), t0.desc cut = a ++ t :: b ∧ r.sparseNode = (nid t0 cut a : Int) ∧ r.depth = t.d ∧ t.d ≤ q.length ∧ q.length + 1 ≤ t.d + n ∧ f = find cut q n cut t)

theorem Built.dense_loop (B : Built cfg fp s t0 cut h) (q : Bytes) : ∀ (m lev n : Nat) (a b : List Grp) (t : Grp), lev + m = cut → t0.desc lev = a ++ t :: b → t.d ≤ q.length → q.length + 1 ≤ t.d + n →
    ∃ r, s.ld.getLoop fp q m t.d (nid t0 lev a) = some r ∧ DenseDone cfg fp q t0 cut r (find cut q n lev t) := by
  intro m
  induction m with
  | zero =>
    intro lev n a b t hlm e hd hn
    have : lev = cut := by omega
    subst this
    exact ⟨_, rfl, Or.inr ⟨rfl, a, b, t, n, e, rfl, rfl, hd, hn, rfl⟩⟩
  | succ m ih =>
    intro lev n a b t hlm e hd hn
    have hlt : lev < cut := by omega
    obtain ⟨post, ep⟩ := dense_at hlt e
    have hgood : t.Good := B.root.desc_ok (l := lev) (by rw [e]; simp)
    have hpok : ∀ x ∈ nodesIn t0 0 lev ++ a, x.OK := by
      intro x hx
      have : x ∈ nodesIn t0 0 cut := by rw [ep]; exact List.mem_append_left _ hx
      obtain ⟨i, hi⟩ := nodesIn_mem this
      exact (B.root.desc_ok hi).toOK
    have hv := B.dv
    rw [ep] at hv
    obtain ⟨n, rfl⟩ : ∃ n', n = n' + 1 := ⟨n - 1, by omega⟩
    have hx : ¬ (cut ≤ lev ∧ q.length ≤ t.d) := by omega
    rw [LoudsDense.getLoop]
    unfold nid
    rw [hv.pre.checkPrefix q t.d hd]
    simp only [Option.bind_eq_bind, Option.bind_some]
    obtain ⟨-, hpl⟩ := hgood.toOK.pre_length
    by_cases hpre : t.pre <+: q.drop t.d
    · simp only [if_pos hpre, Bool.not_true, Bool.false_eq_true, if_false]
      rw [hpl]
      unfold LoudsDense.getAt
      simp only [show denseFanout = 256 from rfl]
      by_cases hq : q.length ≤ t.bd
      · rw [if_pos (show t.bd ≥ q.length from hq), find_end hx hpre hq, if_pos hlt]
        simp only [Option.bind_eq_bind]
        rw [hv.isPrefix]
        simp only [Option.bind_some]
        rcases hgood.endItem_cases with ⟨h1, h2⟩ | ⟨h1, i, iq, h2, h3, h4, h5⟩
        · rw [h1, h2]
          exact ⟨_, rfl, Or.inl ⟨rfl, rfl⟩⟩
        · rw [h1, h5, hv.endPos hpok hgood.toOK h1]
          simp only [if_true, Option.bind_some, Option.map_some]
          have := B.dense_finish ep (ip := []) (iq := iq) (by simpa using h2) h4 q t.bd
          rw [show leafN [] = 0 from rfl, Nat.add_zero] at this
          rw [this]
          exact ⟨_, rfl, Or.inl ⟨rfl, rfl⟩⟩
      · rw [if_neg (show ¬ t.bd ≥ q.length from hq)]
        have hlt2 : t.bd < q.length := by omega
        have hqc := List.getElem?_eq_getElem hlt2
        rw [hqc]
        simp only [Option.bind_eq_bind, Option.bind_some]
        rcases find_label (is := t.items) (c := q[t.bd]) with ⟨h1, h2⟩ | ⟨ip, i, iq, h1, h2, h3, h4⟩
        · rw [find_miss hx hpre hq hqc h1, hv.label _ (q[t.bd]).toNat_lt]
          have : (t.items.any fun i => !i.term && i.label.toNat == (q[t.bd]).toNat) = false := by
            rw [List.any_eq_false]
            intro i hi hc
            simp only [Bool.and_eq_true, Bool.not_eq_true', beq_iff_eq] at hc
            exact h2 i hi hc.1 (UInt8.toNat_inj.mp hc.2)
          rw [this]
          exact ⟨_, rfl, Or.inl ⟨rfl, rfl⟩⟩
        · rw [find_hit hx hpre hq hqc h4, ← h3, hv.label_item hgood.toOK h1 h2, hv.hasChild_item hgood.toOK h1 h2]
          simp only [Option.bind_some, Bool.not_true, Bool.false_eq_true, if_false]
          cases hc : i.child with
          | false =>
            simp only [Bool.not_false, if_true]
            rw [hv.leafPos hpok hgood.toOK h1 h2 hc]
            simp only [Option.bind_some]
            rw [B.dense_finish ep h1 hc q t.bd]
            exact ⟨_, rfl, Or.inl ⟨rfl, rfl⟩⟩
          | true =>
            simp only [Bool.not_true, Bool.false_eq_true, if_false, Option.pure_def, Option.bind_some, if_true]
            rw [hv.child hpok hgood.toOK h1 h2 hc]
            simp only [Option.bind_some]
            rw [nid_child]
            exact ih (lev + 1) n _ _ ⟨i.kvs, t.bd + 1⟩ (by omega) (desc_child e h1 hc) (by show t.bd + 1 ≤ _; omega) (by show _ ≤ t.bd + 1 + n; have := t.bd_ge; omega)
    · simp only [if_neg hpre, Bool.not_false, if_true]
      rw [find_nopre hx hpre]
      exact ⟨_, rfl, Or.inl ⟨rfl, rfl⟩⟩

/-! ### The sparse part -/

theorem Built.sparse_tail (B : Built cfg fp s t0 cut h) {pre post : List Grp} {t : Grp} (e : nodesIn t0 cut (h - cut) = pre ++ t :: post) (q : Bytes) (D : Nat) :
    s.ls.getTail fp q D (itemN pre) = some (answer cfg fp q (t.tail.map (fun i => ((t.bd, i), D)))) := by
  have hv := B.sv
  rw [e] at hv
  have hok : t.OK := by
    obtain ⟨i, hi⟩ := nodesIn_mem (t := t0) (c := t) (a := cut) (n := h - cut) (by rw [e]; simp)
    exact (B.root.desc_ok hi).toOK
  unfold LoudsSparse.getTail Grp.tail
  cases hi : t.items with
  | nil => exact absurd hi hok.items_ne
  | cons i is =>
    have h1 := hv.label (ip := []) (i := i) (iq := is) hi
    have h2 := hv.hasChild (ip := []) (i := i) (iq := is) hi
    have h3 := B.sparse_finish e (ip := []) (i := i) (iq := is) hi
    simp only [List.length_nil, Nat.add_zero] at h1 h2 h3
    rw [h1]
    simp only [Option.bind_eq_bind, Option.bind_some, List.head?_cons]
    by_cases hl : i.label = labelTerminator
    · rw [if_pos hl, h2]
      have hl' : i.label = 0xff := hl
      simp only [Option.bind_some]
      cases hc : i.child with
      | false =>
        simp only [Bool.not_false, if_true]
        rw [h3 hc]
        simp [Option.filter, hl', hc]
      | true => simp [Option.filter, hl', hc, answer]
    · rw [if_neg hl]
      have hl' : ¬ i.label = 0xff := hl
      simp [Option.filter, hl', answer]

theorem Built.sparse_loop (B : Built cfg fp s t0 cut h) (bmi : Bool) (q : Bytes) : ∀ (fuel lev n : Nat) (a b : List Grp) (t : Grp), cut ≤ lev → t0.desc lev = a ++ t :: b → t.d ≤ q.length →
    q.length + 1 ≤ t.d + fuel → q.length + 1 ≤ t.d + n →
    s.ls.getLoop fp bmi q fuel t.d (nid t0 lev a) (itemN (nodesIn t0 cut (lev - cut) ++ a)) = some (answer cfg fp q (find cut q n lev t)) := by
  intro fuel
  induction fuel with
  | zero => intro lev n a b t _ _ _ hf; omega
  | succ fuel ih =>
    intro lev n a b t hcl e hd hf hn
    have hlh : lev < h := by
      rcases Nat.lt_or_ge lev h with h1 | h1
      · exact h1
      · have := B.out lev h1
        rw [this] at e
        simp at e
    obtain ⟨post, ep⟩ := sparse_at hcl hlh e
    have hgood : t.Good := B.root.desc_ok (l := lev) (by rw [e]; simp)
    have hpok : ∀ x ∈ (nodesIn t0 cut (lev - cut) ++ a) ++ t :: post, x.OK := by
      intro x hx
      rw [← ep] at hx
      obtain ⟨i, hi⟩ := nodesIn_mem hx
      exact (B.root.desc_ok hi).toOK
    have hv := B.sv
    rw [ep] at hv
    obtain ⟨n, rfl⟩ : ∃ n', n = n' + 1 := ⟨n - 1, by omega⟩
    rw [LoudsSparse.getLoop]
    by_cases hdq : t.d < q.length
    · rw [if_pos hdq]
      have hx : ¬ (cut ≤ lev ∧ q.length ≤ t.d) := by omega
      have hpid : s.ls.prefixID (nid t0 lev a) = some (nodesIn t0 cut (lev - cut) ++ a).length := by
        unfold LoudsSparse.prefixID usub
        rw [hv.dn, nid_sparse t0 cut lev hcl, if_pos (by omega), Nat.add_sub_cancel_left]
      rw [hpid]
      simp only [Option.bind_eq_bind, Option.bind_some]
      rw [hv.pre.checkPrefix q t.d hd]
      simp only [Option.bind_some]
      obtain ⟨-, hpl⟩ := hgood.toOK.pre_length
      by_cases hpre : t.pre <+: q.drop t.d
      · simp only [if_pos hpre, Bool.not_true, Bool.false_eq_true, if_false]
        rw [hpl]
        by_cases hq : q.length ≤ t.bd
        · rw [if_pos (show t.bd ≥ q.length from hq), find_end hx hpre hq, if_neg (by omega)]
          exact B.sparse_tail ep q t.bd
        · rw [if_neg (show ¬ t.bd ≥ q.length from hq)]
          have hlt2 : t.bd < q.length := by omega
          have hsz : 2 ≤ t.items.length ∨ nodesIn t0 cut (lev - cut) ++ a = [] := by
            by_cases h2 : 2 ≤ t.kvs.length
            · exact Or.inl (hgood.two_items h2)
            · right
              cases lev with
              | zero =>
                have : cut = 0 := by omega
                subst this
                rw [Grp.desc] at e
                cases a with
                | nil => rfl
                | cons x a => simp at e
              | succ l =>
                exfalso
                exact h2 (B.root.desc_good l t (by rw [e]; simp)).2
          have hqc := List.getElem?_eq_getElem hlt2
          rw [hqc, hv.size hpok hsz]
          simp only [Option.bind_some]
          rcases find_label (is := t.items) (c := q[t.bd]) with ⟨h1, h2⟩ | ⟨ip, i, iq, h1, h2, h3, h4⟩
          · obtain ⟨p, hp⟩ := hv.search_miss hgood _ h2
            rw [find_miss hx hpre hq hqc h1, hp]
            rfl
          · rw [find_hit hx hpre hq hqc h4, ← h3, hv.search_hit hgood h1 h2]
            simp only [Option.bind_some, Bool.not_true, Bool.false_eq_true, if_false]
            rw [hv.hasChild h1]
            simp only [Option.bind_some]
            cases hc : i.child with
            | false =>
              simp only [Bool.not_false, if_true, Bool.false_eq_true, if_false]
              exact B.sparse_finish ep h1 hc q t.bd
            | true =>
              simp only [Bool.not_true, Bool.false_eq_true, if_false, if_true]
              rw [hv.child h1 hc]
              simp only [Option.bind_some]
              rw [nid_child_sparse t0 cut lev t.bd hcl]
              have e' := desc_child e h1 hc
              have hlh' : lev + 1 < h := by
                rcases Nat.lt_or_ge (lev + 1) h with h1 | h1
                · exact h1
                · have := B.out (lev + 1) h1
                  rw [this] at e'
                  simp at e'
              obtain ⟨post', ep'⟩ := sparse_at (Nat.le_succ_of_le hcl) hlh' e'
              have hv' := B.sv
              rw [ep'] at hv'
              have hpok' : ∀ x ∈ (nodesIn t0 cut (lev + 1 - cut) ++ (a.flatMap Grp.children ++ kids t.bd ip)) ++ ⟨i.kvs, t.bd + 1⟩ :: post', x.OK := by
                intro x hx
                rw [← ep'] at hx
                obtain ⟨i, hi⟩ := nodesIn_mem hx
                exact (B.root.desc_ok hi).toOK
              have hfp : s.ls.firstLabelPos bmi (nid t0 (lev + 1) (a.flatMap Grp.children ++ kids t.bd ip)) = some (itemN (nodesIn t0 cut (lev + 1 - cut) ++ (a.flatMap Grp.children ++ kids t.bd ip))) := by
                rw [nid_sparse t0 cut (lev + 1) (by omega)]
                exact hv'.first hpok' bmi
              rw [hfp]
              simp only [Option.bind_some]
              exact ih (lev + 1) n _ _ ⟨i.kvs, t.bd + 1⟩ (by omega) e' (by show t.bd + 1 ≤ _; omega) (by show _ ≤ t.bd + 1 + fuel; have := t.bd_ge; omega)
                (by show _ ≤ t.bd + 1 + n; have := t.bd_ge; omega)
      · simp only [if_neg hpre, Bool.not_false, if_true]
        rw [find_nopre hx hpre]
        rfl
    · rw [if_neg hdq, find_tail hcl (by omega)]
      exact B.sparse_tail ep q t.d

/-- `Get` never panics, and answers by the walk down the trie. -/
theorem Built.get (B : Built cfg fp s t0 cut h) (h0 : t0.d = 0) (bmi : Bool) (q : Bytes) : s.get fp bmi q = some (answer cfg fp q (find cut q (q.length + 1) 0 t0)) := by
  obtain ⟨r, e1, e2⟩ := B.dense_loop q cut 0 (q.length + 1) [] [] t0 (by omega) rfl (by omega) (by omega)
  rw [h0, show nid t0 0 [] = 0 from rfl] at e1
  unfold SuRF.get LoudsDense.get
  rw [B.ht, e1]
  simp only [Option.bind_eq_bind, Option.bind_some]
  rcases e2 with ⟨h1, h2⟩ | ⟨h1, a, b, t, n, h2, h3, h4, h5, h6, h7⟩
  · rw [if_pos (by rw [h1]; simp), h2]
    rfl
  · rw [if_neg (by rw [h1, h3]; simp), h7, h3, h4]
    unfold LoudsSparse.get
    have hlt := B.lt
    obtain ⟨post, ep⟩ := sparse_at (Nat.le_refl cut) hlt h2
    have hv := B.sv
    rw [ep] at hv
    have hpok : ∀ x ∈ (nodesIn t0 cut (cut - cut) ++ a) ++ t :: post, x.OK := by
      intro x hx
      rw [← ep] at hx
      obtain ⟨i, hi⟩ := nodesIn_mem hx
      exact (B.root.desc_ok hi).toOK
    have hfp : s.ls.firstLabelPos bmi (nid t0 cut a) = some (itemN (nodesIn t0 cut (cut - cut) ++ a)) := by
      rw [nid_sparse t0 cut cut (Nat.le_refl _)]
      exact hv.first hpok bmi
    rw [Int.toNat_natCast, hfp]
    simp only [Option.bind_eq_bind, Option.bind_some]
    exact B.sparse_loop bmi q (q.length + 1) cut n a b t (Nat.le_refl _) h2 h5 (by omega) h6

end

end Surf
