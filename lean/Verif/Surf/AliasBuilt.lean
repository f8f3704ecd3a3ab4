import Verif.Surf.Alias
import Verif.Surf.Size

/-! Where the values of a built filter are: every stored key has a place of its own. -/

set_option linter.unusedSimpArgs false

namespace Surf

section
variable {cfg : Config} {fp : Bytes → Word} {s : SuRF} {t0 : Grp} {cut h : Nat}

/-- The place `Get` finds when the walk has ended: that of the leaf among the leaves of the part. -/
def AnswerRef (cfg : Config) (fp : Bytes → Word) (q : Bytes) (ns : List Grp) : Option (JItem × Nat) → Option Nat → Prop
  | none, r => r = none
  | some (j, D), r => if sufOK cfg fp (leafWord cfg fp j) q (D + 1) then ∃ X Y, lvs ns = X ++ j :: Y ∧ r = some X.length else r = none

theorem Built.dense_finishRef (B : Built cfg fp s t0 cut h) {pre post : List Grp} {t : Grp} (e : nodesIn t0 0 cut = pre ++ t :: post) {ip iq : List Item} {i : Item} (ei : t.items = ip ++ i :: iq)
    (hc : i.child = false) (q : Bytes) (D : Nat) : ∃ r, s.ld.finishRef fp q D ((lvs pre).length + leafN ip) = some r ∧ AnswerRef cfg fp q (nodesIn t0 0 cut) (some ((t.bd, i), D)) r := by
  obtain ⟨X, Y, e1, e2⟩ := lvs_split (pre := pre) (post := post) ei hc
  have hsv := B.dv.suf
  rw [e, e1, List.map_append, List.map_cons] at hsv
  unfold LoudsDense.finishRef AnswerRef
  rw [← e2]
  have hck := SV.checkEquality (fp := fp) B.cfgok hsv (leafWord_high B.cfgok _) q (D + 1)
  rw [List.length_map] at hck
  rw [hck]
  simp only [Option.bind_eq_bind, Option.bind_some]
  by_cases hs : sufOK cfg fp (leafWord cfg fp (t.bd, i)) q (D + 1) = true
  · simp only [if_pos hs]
    exact ⟨_, rfl, X, Y, by rw [e, e1], rfl⟩
  · simp only [if_neg hs]
    exact ⟨_, rfl, rfl⟩

theorem Built.sparse_finishRef (B : Built cfg fp s t0 cut h) {pre post : List Grp} {t : Grp} (e : nodesIn t0 cut (h - cut) = pre ++ t :: post) {ip iq : List Item} {i : Item} (ei : t.items = ip ++ i :: iq)
    (hc : i.child = false) (q : Bytes) (D : Nat) : ∃ r, s.ls.finishRef fp q D (itemN pre + ip.length) = some r ∧ AnswerRef cfg fp q (nodesIn t0 cut (h - cut)) (some ((t.bd, i), D)) r := by
  obtain ⟨X, Y, e1, e2⟩ := lvs_split (pre := pre) (post := post) ei hc
  have hv := B.sv
  rw [e] at hv
  have hsv := hv.suf
  rw [e1, List.map_append, List.map_cons] at hsv
  unfold LoudsSparse.finishRef AnswerRef
  rw [hv.leafPos ei hc, ← e2]
  simp only [Option.bind_eq_bind, Option.bind_some]
  have hck := SV.checkEquality (fp := fp) B.cfgok hsv (leafWord_high B.cfgok _) q (D + 1)
  rw [List.length_map] at hck
  rw [hck]
  simp only [Option.bind_some]
  by_cases hs : sufOK cfg fp (leafWord cfg fp (t.bd, i)) q (D + 1) = true
  · simp only [if_pos hs]
    exact ⟨_, rfl, X, Y, by rw [e, e1], rfl⟩
  · simp only [if_neg hs]
    exact ⟨_, rfl, rfl⟩

/-! ### The dense part -/

/-- What the dense loop returns: the answer, or the node on the first sparse level with which the sparse loop has to go on. -/
def DenseDoneRef (cfg : Config) (fp : Bytes → Word) (q : Bytes) (t0 : Grp) (cut : Nat) (r : RefRes) (f : Option (JItem × Nat)) : Prop :=
  (r.sparseNode = -1 ∧ AnswerRef cfg fp q (nodesIn t0 0 cut) f r.ref) ∨
  (0 ≤ r.sparseNode ∧ ∃ (a b : List Grp) (t : Grp) (n : Nat), t0.desc cut = a ++ t :: b ∧ r.sparseNode = (nid t0 cut a : Int) ∧ r.depth = t.d ∧ t.d ≤ q.length ∧ q.length + 1 ≤ t.d + n ∧ f = find cut q n cut t)

theorem Built.dense_loopRef (B : Built cfg fp s t0 cut h) (q : Bytes) : ∀ (m lev n : Nat) (a b : List Grp) (t : Grp), lev + m = cut → t0.desc lev = a ++ t :: b → t.d ≤ q.length → q.length + 1 ≤ t.d + n →
    ∃ r, s.ld.getLoopRef fp q m t.d (nid t0 lev a) = some r ∧ DenseDoneRef cfg fp q t0 cut r (find cut q n lev t) := by
  intro m
  induction m with
  | zero =>
    intro lev n a b t hlm e hd hn
    have : lev = cut := by omega
    subst this
    exact ⟨_, rfl, Or.inr ⟨Int.natCast_nonneg _, a, b, t, n, e, rfl, rfl, hd, hn, rfl⟩⟩
  | succ m ih =>
    intro lev n a b t hlm e hd hn
    have hlt : lev < cut := by omega
    obtain ⟨post, ep⟩ := dense_at hlt e
    have hgood : t.Good := B.root.desc_ok (l := lev) (by rw [e]; simp)
    have hpok : ∀ x ∈ nodesIn t0 0 lev ++ a, x.OK := by
      intro x hx
      have : x ∈ nodesIn t0 0 cut := by rw [ep]; exact List.mem_append_left _ hx
      obtain ⟨i, hi⟩ := nodesIn_mem this
      exact (B.root.desc_ok hi).toOK
    have hv := B.dv
    rw [ep] at hv
    obtain ⟨n, rfl⟩ : ∃ n', n = n' + 1 := ⟨n - 1, by omega⟩
    have hx : ¬ (cut ≤ lev ∧ q.length ≤ t.d) := by omega
    rw [LoudsDense.getLoopRef]
    unfold nid
    rw [hv.pre.checkPrefix q t.d hd]
    simp only [Option.bind_eq_bind, Option.bind_some]
    obtain ⟨-, hpl⟩ := hgood.toOK.pre_length
    by_cases hpre : t.pre <+: q.drop t.d
    · simp only [if_pos hpre, Bool.not_true, Bool.false_eq_true, if_false]
      rw [hpl]
      unfold LoudsDense.getAtRef
      simp only [show denseFanout = 256 from rfl]
      by_cases hq : q.length ≤ t.bd
      · rw [if_pos (show t.bd ≥ q.length from hq), find_end hx hpre hq, if_pos hlt]
        simp only [Option.bind_eq_bind]
        rw [hv.isPrefix]
        simp only [Option.bind_some]
        rcases hgood.endItem_cases with ⟨h1, h2⟩ | ⟨h1, i, iq, h2, h3, h4, h5⟩
        · rw [h1, h2]
          exact ⟨_, rfl, Or.inl ⟨rfl, rfl⟩⟩
        · rw [h1, h5, hv.endPos hpok hgood.toOK h1]
          simp only [if_true, Option.bind_some, Option.map_some]
          obtain ⟨r, this, hr⟩ := B.dense_finishRef ep (ip := []) (iq := iq) (by simpa using h2) h4 q t.bd
          rw [show leafN [] = 0 from rfl, Nat.add_zero] at this
          rw [this]
          exact ⟨_, rfl, Or.inl ⟨rfl, hr⟩⟩
      · rw [if_neg (show ¬ t.bd ≥ q.length from hq)]
        have hlt2 : t.bd < q.length := by omega
        have hqc := List.getElem?_eq_getElem hlt2
        rw [hqc]
        simp only [Option.bind_eq_bind, Option.bind_some]
        rcases find_label (is := t.items) (c := q[t.bd]) with ⟨h1, h2⟩ | ⟨ip, i, iq, h1, h2, h3, h4⟩
        · rw [find_miss hx hpre hq hqc h1, hv.label _ (q[t.bd]).toNat_lt]
          have : (t.items.any fun i => !i.term && i.label.toNat == (q[t.bd]).toNat) = false := by
            rw [List.any_eq_false]
            intro i hi hc
            simp only [Bool.and_eq_true, Bool.not_eq_true', beq_iff_eq] at hc
            exact h2 i hi hc.1 (UInt8.toNat_inj.mp hc.2)
          rw [this]
          exact ⟨_, rfl, Or.inl ⟨rfl, rfl⟩⟩
        · rw [find_hit hx hpre hq hqc h4, ← h3, hv.label_item hgood.toOK h1 h2, hv.hasChild_item hgood.toOK h1 h2]
          simp only [Option.bind_some, Bool.not_true, Bool.false_eq_true, if_false]
          cases hc : i.child with
          | false =>
            simp only [Bool.not_false, if_true]
            rw [hv.leafPos hpok hgood.toOK h1 h2 hc]
            simp only [Option.bind_some]
            obtain ⟨r, this, hr⟩ := B.dense_finishRef ep h1 hc q t.bd
            rw [this]
            exact ⟨_, rfl, Or.inl ⟨rfl, hr⟩⟩
          | true =>
            simp only [Bool.not_true, Bool.false_eq_true, if_false, Option.pure_def, Option.bind_some, if_true]
            rw [hv.child hpok hgood.toOK h1 h2 hc]
            simp only [Option.bind_some]
            rw [nid_child]
            exact ih (lev + 1) n _ _ ⟨i.kvs, t.bd + 1⟩ (by omega) (desc_child e h1 hc) (by show t.bd + 1 ≤ _; omega) (by show _ ≤ t.bd + 1 + n; have := t.bd_ge; omega)
    · simp only [if_neg hpre, Bool.not_false, if_true]
      rw [find_nopre hx hpre]
      exact ⟨_, rfl, Or.inl ⟨rfl, rfl⟩⟩

/-! ### The sparse part -/

theorem Built.sparse_tailRef (B : Built cfg fp s t0 cut h) {pre post : List Grp} {t : Grp} (e : nodesIn t0 cut (h - cut) = pre ++ t :: post) (q : Bytes) (D : Nat) :
    ∃ r, s.ls.getTailRef fp q D (itemN pre) = some r ∧ AnswerRef cfg fp q (nodesIn t0 cut (h - cut)) (t.tail.map (fun i => ((t.bd, i), D))) r := by
  have hv := B.sv
  rw [e] at hv
  have hok : t.OK := by
    obtain ⟨i, hi⟩ := nodesIn_mem (t := t0) (c := t) (a := cut) (n := h - cut) (by rw [e]; simp)
    exact (B.root.desc_ok hi).toOK
  unfold LoudsSparse.getTailRef Grp.tail
  cases hi : t.items with
  | nil => exact absurd hi hok.items_ne
  | cons i is =>
    have h1 := hv.label (ip := []) (i := i) (iq := is) hi
    have h2 := hv.hasChild (ip := []) (i := i) (iq := is) hi
    have h3 := B.sparse_finishRef e (ip := []) (i := i) (iq := is) hi
    simp only [List.length_nil, Nat.add_zero] at h1 h2 h3
    rw [h1]
    simp only [Option.bind_eq_bind, Option.bind_some, List.head?_cons]
    by_cases hl : i.label = labelTerminator
    · rw [if_pos hl, h2]
      have hl' : i.label = 0xff := hl
      simp only [Option.bind_some]
      cases hc : i.child with
      | false =>
        simp only [Bool.not_false, if_true]
        obtain ⟨r, e1, e2⟩ := h3 hc q D
        refine ⟨r, e1, ?_⟩
        simpa [Option.filter, hl', hc] using e2
      | true => exact ⟨none, by simp, by simp [Option.filter, hl', hc, AnswerRef]⟩
    · rw [if_neg hl]
      have hl' : ¬ i.label = 0xff := hl
      exact ⟨none, rfl, by simp [Option.filter, hl', AnswerRef]⟩

theorem Built.sparse_loopRef (B : Built cfg fp s t0 cut h) (bmi : Bool) (q : Bytes) : ∀ (fuel lev n : Nat) (a b : List Grp) (t : Grp), cut ≤ lev → t0.desc lev = a ++ t :: b → t.d ≤ q.length →
    q.length + 1 ≤ t.d + fuel → q.length + 1 ≤ t.d + n →
    ∃ r, s.ls.getLoopRef fp bmi q fuel t.d (nid t0 lev a) (itemN (nodesIn t0 cut (lev - cut) ++ a)) = some r ∧ AnswerRef cfg fp q (nodesIn t0 cut (h - cut)) (find cut q n lev t) r := by
  intro fuel
  induction fuel with
  | zero => intro lev n a b t _ _ _ hf; omega
  | succ fuel ih =>
    intro lev n a b t hcl e hd hf hn
    have hlh : lev < h := by
      rcases Nat.lt_or_ge lev h with h1 | h1
      · exact h1
      · have := B.out lev h1
        rw [this] at e
        simp at e
    obtain ⟨post, ep⟩ := sparse_at hcl hlh e
    have hgood : t.Good := B.root.desc_ok (l := lev) (by rw [e]; simp)
    have hpok : ∀ x ∈ (nodesIn t0 cut (lev - cut) ++ a) ++ t :: post, x.OK := by
      intro x hx
      rw [← ep] at hx
      obtain ⟨i, hi⟩ := nodesIn_mem hx
      exact (B.root.desc_ok hi).toOK
    have hv := B.sv
    rw [ep] at hv
    obtain ⟨n, rfl⟩ : ∃ n', n = n' + 1 := ⟨n - 1, by omega⟩
    rw [LoudsSparse.getLoopRef]
    by_cases hdq : t.d < q.length
    · rw [if_pos hdq]
      have hx : ¬ (cut ≤ lev ∧ q.length ≤ t.d) := by omega
      have hpid : s.ls.prefixID (nid t0 lev a) = some (nodesIn t0 cut (lev - cut) ++ a).length := by
        unfold LoudsSparse.prefixID usub
        rw [hv.dn, nid_sparse t0 cut lev hcl, if_pos (by omega), Nat.add_sub_cancel_left]
      rw [hpid]
      simp only [Option.bind_eq_bind, Option.bind_some]
      rw [hv.pre.checkPrefix q t.d hd]
      simp only [Option.bind_some]
      obtain ⟨-, hpl⟩ := hgood.toOK.pre_length
      by_cases hpre : t.pre <+: q.drop t.d
      · simp only [if_pos hpre, Bool.not_true, Bool.false_eq_true, if_false]
        rw [hpl]
        by_cases hq : q.length ≤ t.bd
        · rw [if_pos (show t.bd ≥ q.length from hq), find_end hx hpre hq, if_neg (by omega)]
          exact B.sparse_tailRef ep q t.bd
        · rw [if_neg (show ¬ t.bd ≥ q.length from hq)]
          have hlt2 : t.bd < q.length := by omega
          have hsz : 2 ≤ t.items.length ∨ nodesIn t0 cut (lev - cut) ++ a = [] := by
            by_cases h2 : 2 ≤ t.kvs.length
            · exact Or.inl (hgood.two_items h2)
            · right
              cases lev with
              | zero =>
                have : cut = 0 := by omega
                subst this
                rw [Grp.desc] at e
                cases a with
                | nil => rfl
                | cons x a => simp at e
              | succ l =>
                exfalso
                exact h2 (B.root.desc_good l t (by rw [e]; simp)).2
          have hqc := List.getElem?_eq_getElem hlt2
          rw [hqc, hv.size hpok hsz]
          simp only [Option.bind_some]
          rcases find_label (is := t.items) (c := q[t.bd]) with ⟨h1, h2⟩ | ⟨ip, i, iq, h1, h2, h3, h4⟩
          · obtain ⟨p, hp⟩ := hv.search_miss hgood _ h2
            rw [find_miss hx hpre hq hqc h1, hp]
            exact ⟨none, rfl, rfl⟩
          · rw [find_hit hx hpre hq hqc h4, ← h3, hv.search_hit hgood h1 h2]
            simp only [Option.bind_some, Bool.not_true, Bool.false_eq_true, if_false]
            rw [hv.hasChild h1]
            simp only [Option.bind_some]
            cases hc : i.child with
            | false =>
              simp only [Bool.not_false, if_true, Bool.false_eq_true, if_false]
              exact B.sparse_finishRef ep h1 hc q t.bd
            | true =>
              simp only [Bool.not_true, Bool.false_eq_true, if_false, if_true]
              rw [hv.child h1 hc]
              simp only [Option.bind_some]
              rw [nid_child_sparse t0 cut lev t.bd hcl]
              have e' := desc_child e h1 hc
              have hlh' : lev + 1 < h := by
                rcases Nat.lt_or_ge (lev + 1) h with h1 | h1
                · exact h1
                · have := B.out (lev + 1) h1
                  rw [this] at e'
                  simp at e'
              obtain ⟨post', ep'⟩ := sparse_at (Nat.le_succ_of_le hcl) hlh' e'
              have hv' := B.sv
              rw [ep'] at hv'
              have hpok' : ∀ x ∈ (nodesIn t0 cut (lev + 1 - cut) ++ (a.flatMap Grp.children ++ kids t.bd ip)) ++ ⟨i.kvs, t.bd + 1⟩ :: post', x.OK := by
                intro x hx
                rw [← ep'] at hx
                obtain ⟨i, hi⟩ := nodesIn_mem hx
                exact (B.root.desc_ok hi).toOK
              have hfp : s.ls.firstLabelPos bmi (nid t0 (lev + 1) (a.flatMap Grp.children ++ kids t.bd ip)) = some (itemN (nodesIn t0 cut (lev + 1 - cut) ++ (a.flatMap Grp.children ++ kids t.bd ip))) := by
                rw [nid_sparse t0 cut (lev + 1) (by omega)]
                exact hv'.first hpok' bmi
              rw [hfp]
              simp only [Option.bind_some]
              exact ih (lev + 1) n _ _ ⟨i.kvs, t.bd + 1⟩ (by omega) e' (by show t.bd + 1 ≤ _; omega) (by show _ ≤ t.bd + 1 + fuel; have := t.bd_ge; omega)
                (by show _ ≤ t.bd + 1 + n; have := t.bd_ge; omega)
      · simp only [if_neg hpre, Bool.not_false, if_true]
        rw [find_nopre hx hpre]
        exact ⟨none, rfl, rfl⟩
    · rw [if_neg hdq, find_tail hcl (by omega)]
      exact B.sparse_tailRef ep q t.d

/-- `Get` finds the place of the leaf at which the walk down the trie ends. -/
theorem Built.getRef (B : Built cfg fp s t0 cut h) (h0 : t0.d = 0) (bmi : Bool) (q : Bytes) : ∃ r, s.getRef fp bmi q = some r ∧
    ((∃ p, r = p.map (true, ·) ∧ AnswerRef cfg fp q (nodesIn t0 0 cut) (find cut q (q.length + 1) 0 t0) p) ∨
     (∃ p, r = p.map (false, ·) ∧ AnswerRef cfg fp q (nodesIn t0 cut (h - cut)) (find cut q (q.length + 1) 0 t0) p)) := by
  obtain ⟨r, e1, e2⟩ := B.dense_loopRef q cut 0 (q.length + 1) [] [] t0 (by omega) rfl (by omega) (by omega)
  rw [h0, show nid t0 0 [] = 0 from rfl] at e1
  unfold SuRF.getRef LoudsDense.getRef
  rw [B.ht, e1]
  simp only [Option.bind_eq_bind, Option.bind_some]
  rcases e2 with ⟨h1, h2⟩ | ⟨h1, a, b, t, n, h2, h3, h4, h5, h6, h7⟩
  · rw [if_pos (by rw [h1]; simp)]
    exact ⟨_, rfl, Or.inl ⟨_, rfl, h2⟩⟩
  · rw [if_neg (by omega), h7, h3, h4]
    unfold LoudsSparse.getRef
    have hlt := B.lt
    obtain ⟨post, ep⟩ := sparse_at (Nat.le_refl cut) hlt h2
    have hv := B.sv
    rw [ep] at hv
    have hpok : ∀ x ∈ (nodesIn t0 cut (cut - cut) ++ a) ++ t :: post, x.OK := by
      intro x hx
      rw [← ep] at hx
      obtain ⟨i, hi⟩ := nodesIn_mem hx
      exact (B.root.desc_ok hi).toOK
    have hfp : s.ls.firstLabelPos bmi (nid t0 cut a) = some (itemN (nodesIn t0 cut (cut - cut) ++ a)) := by
      rw [nid_sparse t0 cut cut (Nat.le_refl _)]
      exact hv.first hpok bmi
    rw [Int.toNat_natCast, hfp]
    simp only [Option.bind_eq_bind, Option.bind_some]
    obtain ⟨p, g1, g2⟩ := B.sparse_loopRef bmi q (q.length + 1) cut n a b t (Nat.le_refl _) h2 h5 (by omega) h6
    rw [g1]
    exact ⟨_, rfl, Or.inr ⟨_, rfl, g2⟩⟩

end

end Surf
