import Verif.Art.Fuel
import Verif.Art.Count

/-!
# Where the nodes are, and `Delete` of absent keys

The paths of the inner nodes are the places where the stored keys part, whatever calls have built the tree. So whether `Delete` of a key that is not there
ends can be said in terms of the stored keys.
-/

set_option linter.unusedSimpArgs false

namespace Art

open Surf Spec

variable {E : Addr → Bytes} {live : Addr → Prop} {h : Heap} {root : Addr} {m : Map} {rf : Bool}

/-- The place `p`, a string of bytes, where stored keys part: there are two stored keys that begin with `p` and do not go on with the same byte (one of them may end there).
The root counts as such a place. -/
def Parts (m : Map) (p : Bytes) : Prop :=
  p = [] ∨ ∃ K K', m K ≠ none ∧ m K' ≠ none ∧ K ≠ K' ∧ p <+: K ∧ p <+: K' ∧ ∀ b, ¬ (p ++ [b] <+: K ∧ p ++ [b] <+: K')

/-- There is a stored key below every item of a node. -/
theorem HTr.item_key (ht : HTr E live h root m) {N : Nat} (hN : ∀ a, live a → (E a).length < N) : ∀ (k : Nat) {a : Addr} {i : Option UInt8}, live a → N ≤ k + (E a).length →
    ((view h a).item i).isSome → ∃ K, m K ≠ none ∧ match i with
      | none => K = E a
      | some b => E a ++ [b] <+: K := by
  intro k
  induction k with
  | zero =>
    intro a i ha hk
    have := hN a ha
    omega
  | succ k ih =>
    intro a i ha hk hi
    obtain ⟨r, hr⟩ := Option.isSome_iff_exists.mp hi
    cases r with
    | leaf l =>
      refine ⟨l.key, ?_, ?_⟩
      · rw [(ht.tree.mem l.key l.value).mpr ⟨a, l, ha, item_stored hr, rfl, rfl⟩]
        simp
      · cases i with
        | none => exact (ht.tree.leaves a ha).pleaf l (by simpa [View.item] using hr)
        | some b => exact (ht.tree.leaves a ha).leaf b l hr
    | node c =>
      obtain ⟨b, rfl, hb⟩ := item_node hr
      obtain ⟨hc, hp, hl⟩ := ht.tree.child a b c ha hb
      have hcr : c ≠ root := by
        rintro rfl
        exact ht.tree.root_not_child ha hb
      obtain ⟨n, hn, hv, hok⟩ := ht.view_live hc
      have h2 := hok.two hcr
      have hcard := card_items n.view
      have : (items n.view).Nonempty := by
        rw [← Finset.card_pos, hcard]
        show 0 < cnt n.child + n.prefixLeaf.isSome.toNat
        omega
      obtain ⟨j, hj⟩ := this
      rw [mem_items, ← hv] at hj
      obtain ⟨K, h3, h4⟩ := ih hc (by omega) hj
      refine ⟨K, h3, hp.trans ?_⟩
      cases j with
      | none =>
        simp only at h4
        rw [h4]
      | some b' => exact prefix_of_snoc h4

/-- Keys part at every node. -/
theorem HTr.parts (ht : HTr E live h root m) {a : Addr} (ha : live a) : Parts m (E a) := by
  by_cases hr : a = root
  · left
    rw [hr, ht.tree.root_E]
  · right
    obtain ⟨N, hN⟩ := exists_bound E h.length
    have hN' := fun a ha => hN a (ht.lt ha)
    obtain ⟨n, hn, hv, hok⟩ := ht.view_live ha
    have h2 := hok.two hr
    have hcard := card_items n.view
    obtain ⟨i, hi, j, hj, hij⟩ := Finset.one_lt_card.mp (show 1 < (items n.view).card by
      rw [hcard]
      exact h2)
    rw [mem_items, ← hv] at hi hj
    obtain ⟨K, k1, k2⟩ := ht.item_key hN' N ha (by omega) hi
    obtain ⟨K', k3, k4⟩ := ht.item_key hN' N ha (by omega) hj
    have hnot : ∀ b, ¬ (E a ++ [b] <+: K ∧ E a ++ [b] <+: K') := by
      rintro b ⟨p1, p2⟩
      cases i with
      | none =>
        simp only at k2
        rw [k2] at p1
        exact not_snoc_self p1
      | some b1 =>
        cases j with
        | none =>
          simp only at k4
          rw [k4] at p2
          exact not_snoc_self p2
        | some b2 =>
          exact hij (by rw [snoc_inj k2 p1, snoc_inj k4 p2])
    have q1 : E a <+: K := by
      cases i with
      | none =>
        simp only at k2
        rw [k2]
      | some b1 => exact prefix_of_snoc k2
    have q2 : E a <+: K' := by
      cases j with
      | none =>
        simp only at k4
        rw [k4]
      | some b1 => exact prefix_of_snoc k4
    refine ⟨K, K', k1, k3, ?_, q1, q2, hnot⟩
    rintro rfl
    by_cases e : E a = K
    · cases i with
      | none =>
        cases j with
        | none => exact hij rfl
        | some b =>
          simp only at k4
          rw [e] at k4
          exact not_snoc_self k4
      | some b =>
        simp only at k2
        rw [e] at k2
        exact not_snoc_self k2
    · obtain ⟨b, hb⟩ := snoc_of_prefix q1 e
      exact hnot b ⟨hb, hb⟩

/-- There is a node at every place where keys part. -/
theorem HTr.node_at (ht : HTr E live h root m) {p : Bytes} (hp : Parts m p) : ∃ a, live a ∧ E a = p := by
  rcases hp with rfl | ⟨K, K', hK, hK', hne, hp, hp', hb⟩
  · exact ⟨root, ht.tree.root_live, ht.tree.root_E⟩
  · obtain ⟨v, hv⟩ := Option.ne_none_iff_exists'.mp hK
    obtain ⟨v', hv'⟩ := Option.ne_none_iff_exists'.mp hK'
    obtain ⟨a, l, ha, hs, rfl, -⟩ := (ht.tree.mem K v).mp hv
    obtain ⟨a', l', ha', hs', rfl, -⟩ := (ht.tree.mem K' v').mp hv'
    have key : ∀ (k : Nat) (n : Addr), live n → E n <+: p → p.length ≤ k + (E n).length → ∃ a, live a ∧ E a = p := by
      intro k
      induction k with
      | zero => exact fun n hn hnp hl => ⟨n, hn, hnp.eq_of_length_le (by omega)⟩
      | succ k ih =>
        intro n hn hnp hl
        by_cases e : E n = p
        · exact ⟨n, hn, e⟩
        · obtain ⟨b, hbp⟩ := snoc_of_prefix hnp e
          have away : ∀ {x : Addr} {l : Leaf}, (view h x).Stored l → p <+: l.key → x = n → (view h n).child b = some (.leaf l) := by
            rintro x l hs hpl rfl
            rcases hs with hs | ⟨b', hs⟩
            · have := (ht.tree.leaves x hn).pleaf l hs
              rw [this] at hpl
              exact absurd (hbp.trans hpl) not_snoc_self
            · have := snoc_inj ((ht.tree.leaves x hn).leaf b' l hs) (hbp.trans hpl)
              rw [← this]
              exact hs
          rcases ht.tree.stored_at hn ha hs (hnp.trans hp) with e1 | ⟨b1, c, c1, c2, c3⟩
          · have l1 := away hs hp e1
            rcases ht.tree.stored_at hn ha' hs' (hnp.trans hp') with e2 | ⟨b2, c, c1, c2, c3⟩
            · have l2 := away hs' hp' e2
              rw [l1] at l2
              simp only [Option.some.injEq, Ref.leaf.injEq] at l2
              rw [l2] at hne
              exact absurd rfl hne
            · rw [snoc_inj c1 (hbp.trans hp'), l1] at c2
              simp at c2
          · rcases ht.tree.stored_at hn ha' hs' (hnp.trans hp') with e2 | ⟨b2, c', d1, d2, d3⟩
            · have l2 := away hs' hp' e2
              rw [snoc_inj c1 (hbp.trans hp), l2] at c2
              simp at c2
            · rw [snoc_inj c1 (hbp.trans hp)] at c2
              rw [snoc_inj d1 (hbp.trans hp'), c2] at d2
              simp only [Option.some.injEq, Ref.node.injEq] at d2
              subst d2
              obtain ⟨g1, g2, -⟩ := ht.tree.child n b c hn c2
              have g3 := g2.length_le
              rw [List.length_append, List.length_singleton] at g3
              rcases prefix_cases c3 hp with g4 | g4
              · exact ih c g1 g4 (by omega)
              · by_cases e3 : p = E c
                · exact ⟨c, g1, e3.symm⟩
                · obtain ⟨b3, g5⟩ := snoc_of_prefix g4 e3
                  exact absurd ⟨g5.trans c3, g5.trans d3⟩ (hb b3)
    exact key p.length root ht.tree.root_live (by rw [ht.tree.root_E]; exact List.nil_prefix) (by omega)

/-! ## `Delete` of a key that is not there -/

/-- From the depth `d` on, the walk for `key` takes `l` for the key. -/
def TakenFrom (m : Map) (key : Bytes) (d : Nat) (l : Bytes) : Prop :=
  m l ≠ none ∧ (∀ l', m l' ≠ none → l <+: l' → l' = l) ∧
  ∀ p, Parts m p → p <+: l → d ≤ p.length → p.length < key.length ∧ ∀ i, d ≤ i → i ≤ p.length → (∃ p0, Parts m p0 ∧ p0 <+: l ∧ p0.length ≤ i ∧ i ≤ p0.length + 8) → key[i]? = l[i]?

theorem pad8_eq_iff {x y : Bytes} (h : x.length = y.length) : Node.pad8 x = Node.pad8 y ↔ ∀ i, i < 8 → i < y.length → x[i]? = y[i]? := by
  constructor
  · intro e i h8 hi
    rw [← getElem?_pad8 x i h8 (by omega), ← getElem?_pad8 y i h8 hi, e]
  · intro e
    rw [pad8_def, pad8_def, h]
    congr 1
    apply List.ext_getElem?
    intro i
    rw [List.getElem?_take, List.getElem?_take]
    split
    next h8 =>
      by_cases hi : i < y.length
      · exact e i h8 hi
      · rw [List.getElem?_eq_none (by omega), List.getElem?_eq_none (by omega)]
    next => rfl

/-- What `checkPrefix` compares. -/
theorem checkPrefix_iff {n : Node} {P key : Bytes} {depth : Nat} (hd : depth + n.prefixLen = P.length)
    (hpre : n.pre = Node.pad8 (P.drop (P.length - n.prefixLen))) (hdk : depth ≤ key.length) :
    (n.checkPrefix key depth).2 = true ↔ P.length ≤ key.length ∧ ∀ i, depth ≤ i → i < P.length → i < depth + 8 → key[i]? = P[i]? := by
  unfold Node.checkPrefix
  by_cases h0 : n.prefixLen = 0
  · simp only [if_pos h0, true_iff]
    exact ⟨by omega, fun i _ _ => by omega⟩
  · simp only [if_neg h0]
    split
    next hlt =>
      simp only [Bool.false_eq_true, false_iff, not_and]
      omega
    next hge =>
      simp only [beq_iff_eq]
      rw [hpre, show P.length - n.prefixLen = depth by omega, pad8_eq_iff (by simp; omega), List.length_drop]
      constructor
      · intro e
        refine ⟨by omega, fun i h1 h2 h3 => ?_⟩
        have := e (i - depth) (by omega) (by omega)
        rw [List.getElem?_drop, List.getElem?_drop, List.getElem?_take, show depth + (i - depth) = i by omega, if_pos (by omega)] at this
        exact this
      · rintro ⟨-, e⟩ i h8 hi
        rw [List.getElem?_drop, List.getElem?_drop, List.getElem?_take, if_pos (by omega)]
        exact e _ (by omega) (by omega) (by omega)

theorem prefix_get {p l : Bytes} (h : p <+: l) {i : Nat} (hi : i < p.length) : p[i]? = l[i]? := by
  obtain ⟨s, rfl⟩ := h
  rw [List.getElem?_append_left hi]

/-- What the descent of a `Delete` returns when the key is not there. -/
theorem run_remove_absent (ht : HTr E live h root m) (hc : Calm live h) (key : Bytes) (habs : m key = none) {N : Nat} (hN : ∀ a, live a → (E a).length < N) :
    ∀ (fuel depth : Nat) (pv : Nat) (curr : Addr) (loc : Loc) (n : Node), Here E live h root depth curr loc n →
      ver h loc.1 = some pv → depth ≤ key.length → N ≤ fuel + (E curr).length →
      (∀ a, live a → E a <+: E curr → depth ≤ (E a).length → E a = E curr) → ((depth = 0 ∧ E curr = []) ∨ ∃ a, live a ∧ E a <+: E curr ∧ (E a).length + 1 = depth) →
      ∃ b, (remove key fuel depth loc.1 pv curr loc).run rf h = .done b h ∧ (b = false ↔ ∃ l, TakenFrom m key depth l ∧ E curr <+: l) := by
  intro fuel
  induction fuel with
  | zero =>
    intro depth pv curr loc n hh hpv hdk hf
    have := hN curr hh.alive
    omega
  | succ fuel ih =>
    intro depth pv curr loc n hh hpv hdk hf hgap hpar
    obtain ⟨v, hv, h4⟩ := hc curr (Or.inr hh.alive)
    obtain ⟨n', hn', hvw, hok⟩ := ht.view_live hh.alive
    have hn := hh.get
    rw [hn] at hn'
    cases hn'
    have hdE : depth ≤ (E curr).length := by
      have := hh.depth
      omega
    have hcp := checkPrefix_iff (key := key) hh.depth hok.pre hdk
    obtain ⟨-, hcp2⟩ := checkPrefix_spec (key := key) hh.depth hok.pre hdk
    have hpts := ht.parts hh.alive
    -- what a key that is taken for `key` has to agree in, here
    have htaken : ∀ {l : Bytes}, TakenFrom m key depth l → E curr <+: l → (n.checkPrefix key depth).2 = true ∧ (E curr).length < key.length ∧ key[(E curr).length]? = l[(E curr).length]? := by
      rintro l ⟨-, -, ht3⟩ hl
      obtain ⟨t1, t2⟩ := ht3 (E curr) hpts hl hdE
      refine ⟨hcp.mpr ⟨by omega, fun i h1 h2 h3 => ?_⟩, t1, ?_⟩
      · rw [prefix_get hl h2]
        refine t2 i h1 (by omega) ?_
        rcases hpar with ⟨-, e⟩ | ⟨a, ha, hap, hal⟩
        · rw [e] at h2
          simp at h2
        · exact ⟨E a, ht.parts ha, hap.trans hl, by omega, by omega⟩
      · exact t2 _ (by omega) (by omega) ⟨E curr, hpts, hl, by omega, by omega⟩
    -- and that this is all
    have hhere : ∀ {l p0 : Bytes} {i : Nat}, (n.checkPrefix key depth).2 = true → E curr <+: l → key[(E curr).length]? = l[(E curr).length]? → depth ≤ i → i ≤ (E curr).length →
        Parts m p0 → p0 <+: l → p0.length ≤ i → i ≤ p0.length + 8 → key[i]? = l[i]? := by
      intro l p0 i e hl hlast h1 h2 hp0 hpl h5 h6
      by_cases hi : i = (E curr).length
      · rw [hi]
        exact hlast
      · rw [← prefix_get hl (by omega)]
        obtain ⟨a, ha, hEa⟩ := ht.node_at hp0
        refine (hcp.mp e).2 i h1 (by omega) ?_
        by_contra hcon
        rcases prefix_cases hpl hl with g | g
        · have := hgap a ha (by rw [hEa]; exact g) (by rw [hEa]; omega)
          rw [hEa] at this
          rw [this] at h5
          omega
        · have := g.length_le
          omega
    -- the places further up do not count
    have hbelow : ∀ {l p : Bytes}, E curr <+: l → Parts m p → p <+: l → depth ≤ p.length → E curr <+: p := by
      intro l p hl hp hpl hdp
      rcases prefix_cases hpl hl with g | g
      · obtain ⟨a, ha, rfl⟩ := ht.node_at hp
        rw [hgap a ha g hdp]
      · exact g
    rw [remove, run_wait hv h4, if_neg (by simp [not_obsolete h4]), run_load hpv, if_neg (by simp), run_read hn hv]
    by_cases e : (n.checkPrefix key depth).2 = false
    · rw [if_pos e, run_load hv, run_ret]
      refine ⟨true, by simp, ?_⟩
      simp only [Bool.true_eq_false, false_iff, not_exists, not_and]
      intro l hl hEl
      rw [(htaken hl hEl).1] at e
      simp at e
    · rw [if_neg e]
      have e' : (n.checkPrefix key depth).2 = true := by simpa using e
      obtain ⟨h5, h6⟩ := hcp2 e'
      rw [h5]
      have hlv := ht.tree.leaves curr hh.alive
      rw [hvw] at hlv
      by_cases hlen : (E curr).length = key.length
      · rw [if_pos hlen]
        rcases run_removeHere (rf := rf) (key := key) ht hc hh hv hpv with ⟨⟨l, g1, g2⟩, g3⟩ | ⟨g1, g2⟩
        · exfalso
          rw [Leaf.matchKey_iff] at g2
          rw [← g2, ht.stored_value hh.alive hn (Or.inl g1)] at habs
          simp at habs
        · refine ⟨_, g2, ?_⟩
          simp only [Bool.true_eq_false, false_iff, not_exists, not_and]
          intro l hl hEl
          have := (htaken hl hEl).2.1
          omega
      · rw [if_neg hlen]
        have hlt : (E curr).length < key.length := by omega
        have hkb := List.getElem?_eq_getElem hlt
        have hnext : ∀ {l : Bytes}, TakenFrom m key depth l → E curr <+: l → E curr ++ [key[(E curr).length]] <+: l := by
          intro l hl hEl
          have := (htaken hl hEl).2.2
          rw [hkb] at this
          exact snoc_get hEl this.symm
        rw [hkb]
        generalize key[(E curr).length] = b at hnext hkb
        simp only
        rw [run_read hn hv, run_load hv, if_neg (by simp)]
        cases hfc : n.findChild b with
        | none =>
          refine ⟨true, rfl, ?_⟩
          simp only [Bool.true_eq_false, false_iff, not_exists, not_and]
          intro l hl hEl
          exact absurd (ht.tree.lookup_none hh.alive (hnext hl hEl) (by rw [hvw]; show (n.findChild b).map _ = _; rw [hfc]; rfl)) hl.1
        | some x =>
          obtain ⟨next, slot, pos⟩ := x
          cases next with
          | leaf l =>
            simp only
            have hcl := findChild_child hfc
            have hsto := ht.stored_value hh.alive hn (Or.inr ⟨b, hcl⟩)
            by_cases hm : l.matchKey key = true
            · exfalso
              rw [Leaf.matchKey_iff] at hm
              rw [← hm, hsto] at habs
              simp at habs
            · rw [removeLeaf, if_pos (by simpa using hm), run_load hv, run_ret]
              refine ⟨false, by simp, ?_⟩
              have hbl := hlv.leaf b l hcl
              have hcv : (view h curr).child b = some (.leaf l) := by
                rw [hvw]
                exact hcl
              have hEl := prefix_of_snoc hbl
              simp only [true_iff]
              refine ⟨l.key, ⟨by rw [hsto]; simp, ?_, ?_⟩, hEl⟩
              · intro l' hl' hp'
                have := ht.tree.lookup_leaf hh.alive (hbl.trans hp') hcv
                by_contra hne
                rw [if_neg (fun h => hne h.symm)] at this
                exact hl' this
              · intro p hp hpl hdp
                have hcp' := hbelow hEl hp hpl hdp
                have hpe : p = E curr := by
                  by_contra hne
                  obtain ⟨a, ha, rfl⟩ := ht.node_at hp
                  obtain ⟨b', c, q1, q2, -⟩ := ht.tree.path curr a hh.alive ha (by rintro rfl; exact hne rfl) hcp'
                  rw [snoc_inj (q1.trans hpl) hbl, hcv] at q2
                  simp at q2
                subst hpe
                refine ⟨hlt, ?_⟩
                rintro i h1 h2 ⟨p0, q1, q2, q3, q4⟩
                exact hhere e' hEl (by rw [hkb, get_of_snoc hbl]) h1 h2 q1 q2 q3 q4
          | node c =>
            simp only
            have hcc := findChild_child hfc
            have hcv : (view h curr).child b = some (.node c) := by
              rw [hvw]
              exact hcc
            obtain ⟨h10, hcr, h11, h12, nc, h13, h14⟩ := ht.child_node hh.alive hn hcc
            obtain ⟨r, hr, hiff⟩ := ih ((E curr).length + 1) v c (curr, slot) nc ⟨h10, h13, h14, .child hh.alive hn hfc⟩ hv (by omega) (by
              have := h11.length_le
              simp at this
              omega) (by
              intro a ha hac hal
              have hca : E curr <+: E a := by
                rcases prefix_cases hac (prefix_of_snoc h11) with g | g
                · have := g.length_le
                  omega
                · exact g
              obtain ⟨b', c', q1, q2, q3⟩ := ht.tree.path curr a hh.alive ha (by rintro rfl; omega) hca
              rw [snoc_inj (q1.trans hac) h11, hcv] at q2
              simp only [Option.some.injEq, Ref.node.injEq] at q2
              subst q2
              exact prefix_antisymm hac q3) (.inr ⟨curr, hh.alive, prefix_of_snoc h11, rfl⟩)
            refine ⟨r, hr, hiff.trans ⟨?_, ?_⟩⟩
            · rintro ⟨l, ⟨t1, t2, t3⟩, hcl⟩
              have hbl := h11.trans hcl
              have hEl := prefix_of_snoc hbl
              refine ⟨l, ⟨t1, t2, ?_⟩, hEl⟩
              intro p hp hpl hdp
              have hcp' := hbelow hEl hp hpl hdp
              have hle := hcp'.length_le
              refine ⟨?_, ?_⟩
              · by_cases hpe : p.length = (E curr).length
                · omega
                · exact (t3 p hp hpl (by omega)).1
              · rintro i h1 h2 ⟨p0, q1, q2, q3, q4⟩
                by_cases hi : i ≤ (E curr).length
                · exact hhere e' hEl (by rw [hkb, get_of_snoc hbl]) h1 hi q1 q2 q3 q4
                · exact (t3 p hp hpl (by omega)).2 i (by omega) h2 ⟨p0, q1, q2, q3, q4⟩
            · rintro ⟨l, hl, hEl⟩
              have hbl := hnext hl hEl
              obtain ⟨t1, t2, t3⟩ := hl
              refine ⟨l, ⟨t1, t2, ?_⟩, ?_⟩
              · intro p hp hpl hdp
                obtain ⟨u1, u2⟩ := t3 p hp hpl (by omega)
                exact ⟨u1, fun i h1 h2 => u2 i (by omega) h2⟩
              · by_contra hcon
                exact t1 (ht.tree.lookup_node hh.alive hbl hcv hcon)

/-- `Delete` of a key that is not there, running alone: it never returns if some stored key is taken for it; otherwise it returns and leaves everything as it is. -/
theorem run_delete_exact (hs : Seq h m) {key : Bytes} (hk : m key = none) :
    ((∃ l, TakenFrom m key 0 l) → ∀ fuel, (delete key fuel).run rf h = .diverge) ∧ ((¬ ∃ l, TakenFrom m key 0 l) → ∃ N, ∀ fuel ≥ N, (delete key fuel).run rf h = .done () h) := by
  obtain ⟨E, live, ⟨root, ht⟩, hc⟩ := hs
  obtain ⟨N, hN⟩ := exists_bound E h.length
  obtain ⟨n, hl, hn, hp, hE, -⟩ := ht.root_facts
  have hrem : ∀ k, N ≤ k → ∃ b, (start fun r v => remove key k 0 0 v r (0, 0)).run rf h = .done b h ∧ (b = false ↔ ∃ l, TakenFrom m key 0 l) := by
    intro k hk'
    obtain ⟨v, hv, h4, hrun⟩ := run_start (rf := rf) ht hc (fun r v => remove key k 0 0 v r (0, 0))
    obtain ⟨b, g1, g2⟩ := run_remove_absent (rf := rf) ht hc key hk (fun a ha => hN a (ht.lt ha)) k 0 v root (0, 0) n
      ⟨hl, hn, by rw [hp, hE]; rfl, .root 0⟩ hv (Nat.zero_le _) (by omega) (by
        intro a ha hap _
        rw [hE] at hap ⊢
        exact List.prefix_nil.mp hap) (.inl ⟨rfl, hE⟩)
    refine ⟨b, by rw [hrun, g1], ?_⟩
    rw [g2, hE]
    simp
  constructor
  · intro hex fuel
    induction fuel with
    | zero => rfl
    | succ k ih =>
      rw [delete, run_bind]
      rcases (Classical.em ((start fun r v => remove key k 0 0 v r (0, 0)).run rf h = .diverge)) with h1 | h1
      · rw [h1]
        rfl
      · obtain ⟨b, g1, g2⟩ := hrem (k + N) (by omega)
        obtain ⟨v, hv, h4, hrun⟩ := run_start (rf := rf) ht hc (fun r v => remove key k 0 0 v r (0, 0))
        obtain ⟨v', hv', -, hrun'⟩ := run_start (rf := rf) ht hc (fun r v => remove key (k + N) 0 0 v r (0, 0))
        rw [hv] at hv'
        cases hv'
        rw [hrun] at h1
        rw [hrun', g2.mpr hex] at g1
        have := run_fuel_le (rf := rf) (h := h) (p := fun k => remove key k 0 0 v root (0, 0)) (fun fuel => remove_mono _ _ _ _ _ _ _) (Nat.le_add_right k N) h1
        rw [hrun, ← this, g1]
        exact ih
  · intro hex
    refine ⟨N + 1, fun fuel hf => ?_⟩
    obtain ⟨k, rfl⟩ : ∃ k, fuel = k + 1 := ⟨fuel - 1, by omega⟩
    obtain ⟨b, g1, g2⟩ := hrem k (by omega)
    rw [delete, run_bind, g1]
    cases b with
    | true => rfl
    | false => exact absurd (g2.mp rfl) hex

end Art
