import Verif.Art.SeqOps

/-! # Operations that run alone: `Delete` -/

set_option linter.unusedSimpArgs false

namespace Art

open Surf Spec

variable {E : Addr → Bytes} {live : Addr → Prop} {h : Heap} {root : Addr} {m : Map} {rf : Bool}

theorem only_keep {n : Node} {l0 l : Leaf} {b0 bc : UInt8} (hp : n.prefixLeaf = some l)
    (hc : ∀ b x, n.child b = some x ↔ b = b0 ∧ x = .leaf l0) : Only n.view l0 bc (.leaf l) := by
  constructor
  · intro l'
    unfold View.Stored
    show (n.prefixLeaf = some l' ∨ ∃ b, n.child b = some (.leaf l')) ↔ _
    rw [hp]
    simp only [hc, Option.some.injEq, Ref.leaf.injEq]
    constructor
    · rintro (e | ⟨b, -, e⟩)
      · exact Or.inr e
      · exact Or.inl e
    · rintro (e | e)
      · exact Or.inr ⟨b0, rfl, e⟩
      · exact Or.inl e
  · intro b' c'
    show n.child b' = some (.node c') ↔ _
    rw [hc]
    simp

/-- The heap after taking the two locks. -/
abbrev lock2 (h : Heap) (p : Addr) (pv : Nat) (c : Addr) (v : Nat) : Heap := setVer (setVer h p (pv + 2)) c (v + 2)

theorem ver_lock2 {p c : Addr} {pv v : Nat} (hne : c ≠ p) (hv : ver h c = some v) : ver (lock2 h p pv c v) c = some (v + 2) :=
  ver_setVer_same _ (w := v) (by rw [ver_setVer_ne _ hne]; exact hv)

theorem run_compressChild (ht : HTr E live h root m) (hc : Calm live h) {depth : Nat} {curr : Addr} {loc : Loc} {n : Node}
    (hh : Here E live h root depth curr loc n) (hr : curr ≠ root) {v pv : Nat} (hv : ver h curr = some v) (hpv : ver h loc.1 = some pv)
    {idx : Nat} {keys : Bytes} {children : List (Option Ref)} (hk : n.kids = .n4 keys children) {bc : UInt8} {r : Ref}
    (h1 : keys[idx]? = some bc) (h2 : children[idx]?.join = some r) {l0 : Leaf} (ho : Only n.view l0 bc r)
    (hkey : ∀ l, r = .leaf l → l.key ≠ l0.key) :
    ∃ h', (compressChild idx loc.1 curr v loc).run rf (lock2 h loc.1 pv curr v) = .done true h' ∧ Seq h' (m.delete l0.key) := by
  have hne := hh.ne_parent ht
  have ht2 := (ht.setVer loc.1 (pv + 2)).setVer curr (v + 2)
  obtain ⟨w1, hw1⟩ := get_setVer hh.get loc.1 (pv + 2)
  obtain ⟨w2, hw2⟩ := get_setVer hw1 curr (v + 2)
  have hat2 := (hh.at_.setVer loc.1 (pv + 2)).setVer curr (v + 2)
  rw [compressChild, run_read hw2 (ver_lock2 hne hv)]
  simp only [hk, h1, h2]
  cases r with
  | leaf l =>
    simp only
    refine section_replace ht hc hpv hv hne (ht.ne_zero hh.alive) ?_
    obtain ⟨h', g1, g2, g3, g4⟩ := ht2.collapse_step hat2 hr hw2 (l0 := l0) (l := l) ho (hkey l rfl)
    exact ⟨h', _, _, _, g1, g2, g4, fun a ha _ => ha⟩
  | node c =>
    simp only
    have hch : n.child bc = some (.node c) := (ho.2 bc c).mpr ⟨rfl, rfl⟩
    obtain ⟨h10, hcr, h11, h12, nc, h13, h14⟩ := ht.child_node hh.alive hh.get hch
    obtain ⟨cv, hcv, hc4⟩ := hc c (Or.inr h10)
    have hcc : c ≠ curr := by
      refine ht.tree.child_ne hh.alive (b := bc) ?_
      rw [view_eq hh.get]
      exact hch
    have hcp : c ≠ loc.1 := by
      obtain ⟨b, slot, pos, np, e, q1, q2, q3⟩ := hh.at_.parent hr
      intro e'
      have hcp : np.child b = some (.node curr) := by simp [Node.child, q3]
      obtain ⟨-, -, k1, -⟩ := ht.child_node q1 q2 hcp
      rw [← e'] at k1
      have := k1.length_le
      have := h11.length_le
      simp at *
      omega
    have hcv2 : ver (lock2 h loc.1 pv curr v) c = some cv := by
      rw [ver_setVer_ne _ hcc, ver_setVer_ne _ hcp]; exact hcv
    rw [run_lock hcv2 hc4, if_neg (by simp)]
    refine section_compress ht hc hpv hv hcv hne hcc hcp (ht.ne_zero hh.alive) ?_
    obtain ⟨w3, hw3⟩ := get_setVer hw2 c (cv + 2)
    obtain ⟨h', g1, g2, g3, g4⟩ := (ht2.setVer c (cv + 2)).compress_step (hat2.setVer c (cv + 2)) hr hw3 (l0 := l0) (bc := bc) (c := c) ho
    exact ⟨h', _, _, _, g1, g2, g4, fun a ha _ => ha⟩

theorem findChild_child {n : Node} {b : UInt8} {r : Ref} {slot pos : Nat} (hf : n.findChild b = some (r, slot, pos)) : n.child b = some r := by
  simp [Node.child, hf]

theorem run_removeChildAndShrink (ht : HTr E live h root m) (hc : Calm live h) {depth : Nat} {curr : Addr} {loc : Loc} {n : Node}
    (hh : Here E live h root depth curr loc n) {v pv : Nat} (hv : ver h curr = some v) (hpv : ver h loc.1 = some pv) {b : UInt8} {l : Leaf}
    (hb : n.child b = some (.leaf l)) (hsh : n.shouldShrink (loc.1 == 0) = some true) :
    ∃ h', (removeChildAndShrink b loc.1 curr v loc).run rf (lock2 h loc.1 pv curr v) = .done true h' ∧ Seq h' (m.delete l.key) := by
  have hne := hh.ne_parent ht
  have ht2 := (ht.setVer loc.1 (pv + 2)).setVer curr (v + 2)
  obtain ⟨w1, hw1⟩ := get_setVer hh.get loc.1 (pv + 2)
  obtain ⟨w2, hw2⟩ := get_setVer hw1 curr (v + 2)
  have hat2 := (hh.at_.setVer loc.1 (pv + 2)).setVer curr (v + 2)
  obtain ⟨n', hn', hvw, hok⟩ := ht.view_live hh.alive
  rw [hh.get] at hn'
  cases hn'
  rw [shouldShrink_spec hok.wf hok.min, Option.some.injEq] at hsh
  have hcpos : 0 < cnt n.child := (cnt_pos_iff _).mpr ⟨b, _, hb⟩
  have hlv := ht.tree.leaves curr hh.alive
  rw [hvw] at hlv
  rw [removeChildAndShrink, run_read hw2 (ver_lock2 hne hv)]
  by_cases h4 : n.cap = 4
  · rw [if_pos h4] at hsh
    have hr : curr ≠ root := by
      intro e
      have := (ht.at_root hh.at_).mpr e
      rw [this] at hsh
      simp at hsh
    have htwo := hok.two hr
    have hnum := n4_num hok.wf h4
    obtain ⟨keys, children, hk⟩ := cap4 h4
    simp only [hk]
    cases hpl : n.prefixLeaf with
    | some l' =>
      simp only
      have h1 : cnt n.child = 1 := by
        rw [hpl] at hsh
        simp at hsh
        omega
      obtain ⟨keys', children', bc, r, hk', e1, e2, e3⟩ := n4_one hok.wf h4 h1
      have hbr := (e3 b _).mp hb
      rw [← hbr.1, ← hbr.2] at e3
      refine section_replace ht hc hpv hv hne (ht.ne_zero hh.alive) ?_
      obtain ⟨h', g1, g2, g3, g4⟩ := ht2.collapse_step hat2 hr hw2 (l0 := l) (l := l') (bc := b) (only_keep hpl e3) (by
        intro e
        exact LeavesOk.ne hlv hb (Or.inl hpl) e.symm)
      exact ⟨h', _, _, _, g1, g2, g4, fun a ha _ => ha⟩
    | none =>
      simp only
      have h2 : cnt n.child = 2 := by
        rw [hpl] at hsh htwo
        simp at hsh htwo
        omega
      have hn1 : n.numChildren ≠ 1 := by
        intro e
        rw [e, h2] at hnum
        simp at hnum
      rw [if_neg hn1]
      obtain ⟨keys', children', bc, r, hk', e1, e2, e3, e4⟩ := n4_two hok.wf h4 h2 hb
      rw [hk] at hk'
      cases hk'
      have ho := only_child hpl e4
      have hkey : ∀ l', r = .leaf l' → l'.key ≠ l.key := by
        rintro l' rfl
        have hbc : n.child bc = some (.leaf l') := (e4 bc _).mpr (Or.inl ⟨rfl, rfl⟩)
        exact LeavesOk.ne hlv hbc (Or.inr ⟨b, e3.symm, hb⟩)
      by_cases e : keys[0]? = some b
      · rw [if_pos e] at e1 e2 ⊢
        exact run_compressChild ht hc hh hr hv hpv hk e1 e2 ho hkey
      · rw [if_neg e] at e1 e2 ⊢
        exact run_compressChild ht hc hh hr hv hpv hk e1 e2 ho hkey
  · rw [if_neg h4] at hsh
    obtain ⟨h', g1, g2, g3, g4⟩ := ht2.shrink_commit hh.alive hw2 hat2 h4 (of_decide_eq_true hsh) (b := b) (l := l) hb
    have key : ∃ h', (Prog.write (shrinkAt · curr b loc) (.unlockObsolete curr (.unlock loc.1 (.ret true)))).run rf
        (lock2 h loc.1 pv curr v) = .done true h' ∧ Seq h' (m.delete l.key) := by
      refine section_replace ht hc hpv hv hne (ht.ne_zero hh.alive) ⟨h', _, _, _, g1, g2, g4, ?_⟩
      rintro a (rfl | ha) hlt
      · exact absurd hlt (Nat.lt_irrefl _)
      · exact ha
    cases hk : n.kids with
    | n4 => simp [Node.cap, hk] at h4
    | n16 => exact key
    | n48 => exact key
    | n256 => exact key
    | dummy => exact key

theorem run_removeLeaf (ht : HTr E live h root m) (hc : Calm live h) {depth : Nat} {curr : Addr} {loc : Loc} {n : Node}
    (hh : Here E live h root depth curr loc n) {v pv : Nat} (hv : ver h curr = some v) (hpv : ver h loc.1 = some pv) {b : UInt8} {l : Leaf}
    {slot pos : Nat} (hf : n.findChild b = some (.leaf l, slot, pos)) {key : Bytes} (hm : l.matchKey key = true) :
    ∃ h', (removeLeaf key b l pos loc.1 pv curr v loc).run rf h = .done true h' ∧ Seq h' (m.delete key) := by
  have hne := hh.ne_parent ht
  obtain ⟨n', hn', hvw, hok⟩ := ht.view_live hh.alive
  rw [hh.get] at hn'
  cases hn'
  have hb := findChild_child hf
  rw [removeLeaf, if_neg (by simp [hm]), run_read hh.get hv]
  rw [Leaf.matchKey_iff] at hm
  subst hm
  cases hsh : n.shouldShrink (loc.1 == 0) with
  | none => rw [shouldShrink_spec hok.wf hok.min] at hsh; simp at hsh
  | some s =>
    cases s with
    | true =>
      simp only
      have hv1 : ver (setVer h loc.1 (pv + 2)) curr = some v := by rw [ver_setVer_ne _ hne]; exact hv
      rw [run_cas hpv, if_neg (by simp), run_cas hv1, if_neg (by simp)]
      exact run_removeChildAndShrink ht hc hh hv hpv hb hsh
    | false =>
      simp only
      rw [run_cas hv, if_neg (by simp)]
      rw [shouldShrink_spec hok.wf hok.min, Option.some.injEq] at hsh
      have hcpos : 0 < cnt n.child := (cnt_pos_iff _).mpr ⟨b, _, hb⟩
      have hmin := hok.min
      have hr := ht.at_root hh.at_
      obtain ⟨q1, q2⟩ : minCount n.cap < cnt n.child ∧ (curr ≠ root → 3 ≤ cnt n.child + n.prefixLeaf.isSome.toNat) := by
        by_cases h4 : n.cap = 4
        · rw [if_pos h4] at hsh
          refine ⟨by rw [h4]; exact hcpos, ?_⟩
          intro hcr
          have h0 : (loc.1 == 0) = false := by
            simp only [beq_eq_false_iff_ne, ne_eq]
            exact fun e => hcr (hr.mp e)
          rw [h0] at hsh
          cases hpl : n.prefixLeaf with
          | none => rw [hpl] at hsh; simp at hsh ⊢; omega
          | some l' => rw [hpl] at hsh; simp at hsh ⊢; omega
        · rw [if_neg h4] at hsh
          have h3 : 4 ≤ minCount n.cap := by
            rcases hok.wf.cap_cases with e | e | e | e
            · exact absurd e h4
            · rw [e]; decide
            · rw [e]; decide
            · rw [e]; decide
          simp at hsh
          refine ⟨by omega, fun _ => by omega⟩
      refine section_one ht hc hv ?_
      obtain ⟨w1, hw1⟩ := get_setVer hh.get curr (v + 2)
      obtain ⟨h', g1, g2, g3⟩ := (ht.setVer curr (v + 2)).removeChild_commit hh.alive hw1 (b := b) (by rw [findChild_setVer]; exact hf) q1 q2
      exact ⟨h', _, _, _, g1, g2, ⟨_, g3⟩, fun a ha _ => ha⟩

theorem run_removeHere (ht : HTr E live h root m) (hc : Calm live h) {depth : Nat} {curr : Addr} {loc : Loc} {n : Node}
    (hh : Here E live h root depth curr loc n) {v pv : Nat} (hv : ver h curr = some v) (hpv : ver h loc.1 = some pv) {key : Bytes} :
    ((∃ l, n.prefixLeaf = some l ∧ l.matchKey key = true) ∧
      ∃ h', (removeHere key loc.1 pv curr v loc).run rf h = .done true h' ∧ Seq h' (m.delete key)) ∨
    ((∀ l, n.prefixLeaf = some l → l.matchKey key = false) ∧ (removeHere key loc.1 pv curr v loc).run rf h = .done true h) := by
  have hne := hh.ne_parent ht
  obtain ⟨n', hn', hvw, hok⟩ := ht.view_live hh.alive
  rw [hh.get] at hn'
  cases hn'
  have hlv := ht.tree.leaves curr hh.alive
  rw [hvw] at hlv
  rw [removeHere, run_read hh.get hv, run_load hv, if_neg (by simp)]
  by_cases hmm : prefixMatch n key = false
  · right
    rw [if_pos hmm, run_load hv, run_ret]
    refine ⟨?_, by simp⟩
    intro l hl
    rw [prefixMatch, hl] at hmm
    exact hmm
  · left
    rw [if_neg hmm, run_read hh.get hv]
    cases hpl : n.prefixLeaf with
    | none => rw [prefixMatch, hpl] at hmm; simp at hmm
    | some l =>
      rw [prefixMatch, hpl] at hmm
      simp only [Bool.not_eq_false] at hmm
      refine ⟨⟨l, rfl, hmm⟩, ?_⟩
      rw [Leaf.matchKey_iff] at hmm
      have hE : E curr = key := by rw [← hmm]; exact (hlv.pleaf l hpl).symm
      by_cases hs : n.shouldCompress (loc.1 == 0) = true
      · rw [if_pos hs]
        have hv1 : ver (setVer h loc.1 (pv + 2)) curr = some v := by rw [ver_setVer_ne _ hne]; exact hv
        rw [run_cas hpv, if_neg (by simp), run_cas hv1, if_neg (by simp)]
        obtain ⟨h4, hn1, h0⟩ : n.cap = 4 ∧ n.numChildren = 1 ∧ loc.1 ≠ 0 := by
          unfold Node.shouldCompress at hs
          unfold Node.cap
          cases hk : n.kids with
          | n4 => rw [hk] at hs; simp at hs ⊢; exact hs
          | n16 => rw [hk] at hs; simp at hs
          | n48 => rw [hk] at hs; simp at hs
          | n256 => rw [hk] at hs; simp at hs
          | dummy => rw [hk] at hs; simp at hs
        have hr : curr ≠ root := fun e => h0 ((ht.at_root hh.at_).mpr e)
        have hnum := n4_num hok.wf h4
        obtain ⟨keys, children, bc, r, hk, e1, e2, e3⟩ := n4_one hok.wf h4 (by rw [← hnum, hn1]; rfl)
        have := run_compressChild (rf := rf) ht hc hh hr hv hpv hk e1 e2 (only_pleaf hpl e3) (by
          rintro l' rfl
          exact LeavesOk.ne hlv ((e3 bc _).mpr ⟨rfl, rfl⟩) (Or.inl hpl))
        rw [hmm] at this
        exact this
      · rw [if_neg hs, run_cas hv, if_neg (by simp)]
        refine section_one ht hc hv ?_
        obtain ⟨w1, hw1⟩ := get_setVer hh.get curr (v + 2)
        obtain ⟨h', g1, g2, g3⟩ := (ht.setVer curr (v + 2)).clearPrefixLeaf_commit hh.alive hw1 (by
          intro hcr
          show 2 ≤ cnt n.child
          have htwo := hok.two hcr
          rw [hpl] at htwo
          simp at htwo
          have hmin := hok.min
          by_cases h4 : n.cap = 4
          · have hnum := n4_num hok.wf h4
            have h0 : (loc.1 == 0) = false := by
              simp only [beq_eq_false_iff_ne, ne_eq]
              exact fun e => hcr ((ht.at_root hh.at_).mp e)
            obtain ⟨keys, children, hk⟩ := cap4 h4
            by_contra hlt
            apply hs
            have hone : n.numChildren = 1 := by
              apply UInt8.toNat_inj.mp
              rw [hnum]
              show cnt n.child = 1
              omega
            simp [Node.shouldCompress, hk, hone, h0]
          · have h3 : 4 ≤ minCount n.cap := by
              rcases hok.wf.cap_cases with e | e | e | e
              · exact absurd e h4
              · rw [e]; decide
              · rw [e]; decide
              · rw [e]; decide
            omega)
        rw [hE] at g3
        exact ⟨h', _, _, _, g1, g2, ⟨_, g3⟩, fun a ha _ => ha⟩

theorem run_remove (ht : HTr E live h root m) (hc : Calm live h) (key : Bytes) {N : Nat} (hN : ∀ a, live a → (E a).length < N) :
    ∀ (fuel depth : Nat) (pv : Nat) (curr : Addr) (loc : Loc) (n : Node), Here E live h root depth curr loc n →
      ver h loc.1 = some pv → depth ≤ key.length → ((E curr).take depth <+: key ∨ m key = none) → N ≤ fuel + (E curr).length →
      (m key ≠ none ∧ ∃ h', (remove key fuel depth loc.1 pv curr loc).run rf h = .done true h' ∧ Seq h' (m.delete key)) ∨
      (m key = none ∧ ∃ b, (remove key fuel depth loc.1 pv curr loc).run rf h = .done b h) := by
  intro fuel
  induction fuel with
  | zero =>
    intro depth pv curr loc n hh hpv hdk hp hf
    have := hN curr hh.alive
    omega
  | succ fuel ih =>
    intro depth pv curr loc n hh hpv hdk hp hf
    obtain ⟨v, hv, h4⟩ := hc curr (Or.inr hh.alive)
    obtain ⟨n', hn', hvw, hok⟩ := ht.view_live hh.alive
    have hn := hh.get
    rw [hn] at hn'
    cases hn'
    obtain ⟨hcp1, hcp2⟩ := checkPrefix_spec (key := key) hh.depth hok.pre hdk
    rw [remove, run_wait hv h4, if_neg (by simp [not_obsolete h4]), run_load hpv, if_neg (by simp), run_read hn hv]
    by_cases e : (n.checkPrefix key depth).2 = false
    · rw [if_pos e, run_load hv, run_ret]
      right
      refine ⟨?_, _, rfl⟩
      rcases hp with hp | hp
      · exact ht.absent hh.alive hn hh.depth hp (hcp1 e)
      · exact hp
    · rw [if_neg e]
      obtain ⟨h5, h6⟩ := hcp2 (by simpa using e)
      rw [h5]
      have hp' : E curr <+: key ∨ m key = none := by
        by_cases hx : E curr <+: key
        · exact Or.inl hx
        · rcases hp with hp | hp
          · exact Or.inr (ht.absent hh.alive hn hh.depth hp hx)
          · exact Or.inr hp
      have hlv := ht.tree.leaves curr hh.alive
      rw [hvw] at hlv
      by_cases hlen : (E curr).length = key.length
      · rw [if_pos hlen]
        rcases run_removeHere (rf := rf) (key := key) ht hc hh hv hpv with ⟨⟨l, g1, g2⟩, g3⟩ | ⟨g1, g2⟩
        · left
          refine ⟨?_, g3⟩
          rw [Leaf.matchKey_iff] at g2
          rw [← g2, ht.stored_value hh.alive hn (Or.inl g1)]
          simp
        · right
          refine ⟨?_, _, g2⟩
          rcases hp' with hp' | hp'
          · have hE := hp'.eq_of_length hlen
            have := ht.tree.lookup_end hh.alive
            rw [hE, hvw] at this
            rw [this]
            show n.prefixLeaf.map _ = none
            cases hpl : n.prefixLeaf with
            | none => rfl
            | some l =>
              exfalso
              have h8 := g1 l hpl
              have h9 := hlv.pleaf l hpl
              have h10 : l.matchKey key = true := by rw [Leaf.matchKey_iff, h9, hE]
              rw [h8] at h10
              simp at h10
          · exact hp'
      · rw [if_neg hlen]
        have hlt : (E curr).length < key.length := by omega
        have hkb := List.getElem?_eq_getElem hlt
        rw [hkb]
        have hsn : E curr <+: key → E curr ++ [key[(E curr).length]] <+: key := fun hp => snoc_get hp hkb
        generalize key[(E curr).length] = b at hsn
        simp only
        rw [run_read hn hv, run_load hv, if_neg (by simp)]
        cases hfc : n.findChild b with
        | none =>
          right
          refine ⟨?_, true, rfl⟩
          rcases hp' with hp' | hp'
          · exact ht.tree.lookup_none hh.alive (hsn hp') (by rw [hvw]; show (n.findChild b).map _ = _; rw [hfc]; rfl)
          · exact hp'
        | some x =>
          obtain ⟨next, slot, pos⟩ := x
          cases next with
          | leaf l =>
            simp only
            have hcl := findChild_child hfc
            by_cases hm : l.matchKey key = true
            · left
              refine ⟨?_, run_removeLeaf ht hc hh hv hpv hfc hm⟩
              rw [Leaf.matchKey_iff] at hm
              rw [← hm, ht.stored_value hh.alive hn (Or.inr ⟨b, hcl⟩)]
              simp
            · right
              rw [removeLeaf, if_pos (by simpa using hm), run_load hv, run_ret]
              refine ⟨?_, _, rfl⟩
              rcases hp' with hp' | hp'
              · rw [ht.tree.lookup_leaf hh.alive (hsn hp') (by rw [hvw]; exact hcl), if_neg (by rw [← Leaf.matchKey_iff]; exact hm)]
              · exact hp'
          | node c =>
            simp only
            have hcc := findChild_child hfc
            obtain ⟨h10, hcr, h11, h12, nc, h13, h14⟩ := ht.child_node hh.alive hn hcc
            refine ih ((E curr).length + 1) v c (curr, slot) nc ⟨h10, h13, h14, .child hh.alive hn hfc⟩ hv (by omega) ?_ ?_
            · rw [h12]
              exact hp'.imp hsn id
            · have := h11.length_le
              simp at this
              omega

/-- `Delete` of a key that is there, running alone. -/
theorem run_delete (hs : Seq h m) {key : Bytes} (hk : m key ≠ none) :
    ∃ N, ∀ fuel ≥ N, ∃ h', (delete key fuel).run rf h = .done () h' ∧ Seq h' (m.delete key) := by
  obtain ⟨E, live, ⟨root, ht⟩, hc⟩ := hs
  obtain ⟨N, hN⟩ := exists_bound E h.length
  obtain ⟨n, hl, hn, hp, hE, -⟩ := ht.root_facts
  refine ⟨N + 1, ?_⟩
  intro fuel hf
  obtain ⟨k, rfl⟩ : ∃ k, fuel = k + 1 := ⟨fuel - 1, by omega⟩
  rw [delete, run_bind]
  obtain ⟨v, hv, h4, hrun⟩ := run_start (rf := rf) ht hc (fun r v => remove key k 0 0 v r (0, 0))
  rcases run_remove (rf := rf) ht hc key (fun a ha => hN a (ht.lt ha)) k 0 v root (0, 0) n
    ⟨hl, hn, by rw [hp, hE]; rfl, .root 0⟩ hv (Nat.zero_le _) (Or.inl (by simp)) (by omega) with ⟨-, h', g1, g2⟩ | ⟨g1, -⟩
  · rw [hrun, g1]
    exact ⟨h', rfl, g2⟩
  · exact absurd g1 hk

end Art
