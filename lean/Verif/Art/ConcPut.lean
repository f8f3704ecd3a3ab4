import Verif.Art.ConcGet

/-! # Concurrent `Put` -/

set_option linter.unusedSimpArgs false

namespace Art

open Surf Spec

/-! ## Critical sections -/

/-- A critical section `f` of the call `c` may run: it makes the change `eff` and takes the nodes `dead` out of the tree. -/
def Sect (c : Nat) (eff : Map → Map → Prop) (f : Heap → Option Heap) (dead : List Addr) (s : St) : Prop :=
  ∃ m h' E' live' m' S, s.Now m ∧ eff m m' ∧ f s.heap = some h' ∧ Frame s.heap h' S ∧ (∀ a ∈ S, s.owner a = some c) ∧ HT E' live' h' m' ∧
    (∀ a, a < s.heap.length → E' a = s.E a) ∧ (∀ a, a < s.heap.length → (live' a ↔ s.live a ∧ a ∉ dead)) ∧ (∀ a ∈ dead, s.owner a = some c) ∧
    (∀ a, s.heap.length ≤ a → a < h'.length → live' a)

section
variable {c : Nat} {eff : Map → Map → Prop} {pk : Prop} {α : Type} {Q : α → St → Prop}

theorem Held.congr {a : Addr} {l l' : Prop} {s : St} (h : Held c a l s) (e : l ↔ l') : Held c a l' s := ⟨h.1, h.2.1, h.2.2.trans e⟩

theorem Own.held {a : Addr} {N : Node} {s : St} (h : Own c a N s) (hI : Inv s) : Held c a (a ≠ 0) s := by
  refine ⟨h.1, ⟨N, h.2.1⟩, ?_, h.2.2⟩
  intro hl e
  subst e
  obtain ⟨m, -, root, ht⟩ := hI.tree
  exact ht.zero hl

theorem Sect.wp {f : Heap → Option Heap} {dead : List Addr} {p : Prog α} {s : St} {L : List Addr} (h : ∀ s', Rely c s s' → Inv s' → Sect c eff f dead s')
    (hO : Owns c L s) (hT : Tags c 0 s) (hD : ∀ a ∈ L, ∃ N, Own c a N s)
    (next : ∀ s2, Owns c L s2 → Tags c 1 s2 → (∀ a ∈ L, Held c a (a ≠ 0 ∧ a ∉ dead) s2) → Art.wp c eff pk Q p s2) :
    Art.wp c eff pk Q (.write f p) s := by
  intro s' hR hI
  obtain ⟨m, h', E', live', m', S, h1, h2, h3, h4, h5, h6, h7, h8, h9, h10⟩ := h s' hR hI
  obtain ⟨g1, g2⟩ := commit_intro hI h4 h5 h6 h7 (fun a ha hl => ((h8 a ha).mp hl).1)
    (fun a ha ho hl => (h8 a ha).mpr ⟨hl, fun hd => ho (h9 a hd)⟩) h10
  refine ⟨hT.mono hR, h', m, m', _, h3, h1, h2, g1, g2, next _ ?_ ((hT.mono hR).commit g1) ?_⟩
  · exact (show Owns c L s' from hO.mono hR)
  · intro a ha
    obtain ⟨N, hN⟩ := hD a ha
    have hN := hN.mono hR
    obtain ⟨k1, k2, k3⟩ := hN.held hI
    obtain ⟨n', k4, -⟩ := h4.ver a N hN.2.1
    refine ⟨k1, ⟨n', k4⟩, ?_⟩
    show live' a ↔ _
    rw [h8 a (List.getElem?_eq_some_iff.mp hN.2.1).1, k3]

end

/-! ## `fullKey` and `prefixMismatch` -/

section
variable {c : Nat} {eff : Map → Map → Prop} {pk : Prop} (hpk : pk)
include hpk

theorem wp_fullKey : ∀ (fuel : Nat) (curr : Addr) (v : Nat) (N : Node) (P : Bytes) (s0 s : St), Rely c s0 s → Snap curr v N s → v % 4 = 0 →
    IsE curr P s → curr ≠ 0 → P ≠ [] → Owns c [] s →
    wp c eff pk (fun r s' => Rely c s0 s' ∧ ∀ full, r = some full → P <+: full) (fullKey fuel curr v) s := by
  intro fuel
  induction fuel with
  | zero => intro curr v N P s0 s hR0 hC h4 hE h0 hP hO s' hR hI; exact (hO.mono hR).free
  | succ fuel ih =>
    intro curr v N P s0 s hR0 hC h4 hE h0 hP hO
    unfold fullKey
    intro s1 hR hI
    replace hR0 := hR0.trans hR; replace hC := hC.mono h4 hR; replace hE := hE.mono hR; replace hO := hO.mono hR
    clear hR
    obtain ⟨n0, hn0, -⟩ := id hC
    refine ⟨n0, hn0, ?_⟩
    intro r hr1 hr2
    beta_reduce
    have hg := hC.got hn0 hr2
    clear hn0 hr1 hr2 n0 hI
    -- a leaf found in the node, when the node is checked
    have leaf : ∀ (l : Leaf) (s : St), Rely c s0 s → Snap curr v N s → IsE curr P s → (Stale curr v s ∨ N.view.Stored l) →
        wp c eff pk (fun r s' => Rely c s0 s' ∧ ∀ full, r = some full → P <+: full)
          (.load curr fun w => .ret (if w = v then some l.key else none)) s := by
      intro l s hR0 hC hE hst s2 hR hI
      replace hR0 := hR0.trans hR; replace hC := hC.mono h4 hR; replace hE := hE.mono hR
      replace hst := hst.imp (fun x => Stale.mono x hR) id
      clear hR
      obtain ⟨n0, hn0, -⟩ := id hC
      refine ⟨n0, hn0, ?_⟩
      beta_reduce
      by_cases hw : n0.version = v
      · obtain ⟨e, hl⟩ := hC.fresh hn0 hw
        subst e
        obtain ⟨m, hm, root, ht⟩ := hI.tree
        have hlv := ht.tree.leaves curr (hl h0)
        rw [view_eq hn0] at hlv
        have hs : n0.view.Stored l := hst.resolve_left (fun x => x.ne hn0 hw)
        have hp := hlv.prefix hs
        rw [hE.2] at hp
        intro s3 hR hI3
        refine ⟨hR0.trans hR, ?_⟩
        intro full hf
        rw [if_pos hw] at hf
        cases hf
        exact hp
      · intro s3 hR hI3
        refine ⟨hR0.trans hR, ?_⟩
        intro full hf
        rw [if_neg hw] at hf
        simp at hf
    cases hpl : r.prefixLeaf with
    | some l =>
      simp only
      refine leaf l s1 hR0 hC hE (hg.imp id ?_)
      rintro rfl
      exact Or.inl hpl
    | none =>
      simp only
      intro s2 hR hI
      replace hR0 := hR0.trans hR; replace hC := hC.mono h4 hR; replace hE := hE.mono hR; replace hO := hO.mono hR; replace hg := hg.mono hR
      clear hR
      obtain ⟨n0, hn0, -⟩ := id hC
      refine ⟨n0, hn0, ?_⟩
      intro r' hr1 hr2
      beta_reduce
      have hg' := hC.got hn0 hr2
      clear hn0 hr1 hr2 n0 hI
      cases hfc : r'.firstChild with
      | none => intro s3 hR hI; exact ⟨(hO.mono hR).free, hpk⟩
      | some next =>
        simp only
        intro s3 hR hI
        replace hR0 := hR0.trans hR; replace hC := hC.mono h4 hR; replace hE := hE.mono hR; replace hO := hO.mono hR
        replace hg := hg.mono hR; replace hg' := hg'.mono hR
        clear hR
        obtain ⟨n0, hn0, -⟩ := id hC
        refine ⟨n0, hn0, ?_⟩
        beta_reduce
        by_cases hw : n0.version = v
        swap
        · rw [if_pos hw]
          intro s4 hR hI4
          exact ⟨hR0.trans hR, by simp⟩
        rw [if_neg (by simp [hw])]
        have e1 := hg.eq hn0 hw
        have e2 := hg'.eq hn0 hw
        obtain ⟨e3, hl⟩ := hC.fresh hn0 hw
        subst e1; subst e2; subst e3
        clear hg hg'
        obtain ⟨m, hm, root, ht⟩ := hI.tree
        obtain ⟨nn, hnn, -, hok⟩ := ht.view_live (hl h0)
        rw [hn0] at hnn; cases hnn
        cases next with
        | none => intro s3 hR hI; exact ⟨(hO.mono hR).free, hpk⟩
        | some x =>
          obtain ⟨b, hb⟩ : ∃ b, n0.child b = some x := by
            have h2 := hok.two (by
              rintro rfl
              exact hP (by rw [← hE.2, ht.tree.root_E]))
            rw [hpl] at h2
            obtain ⟨y, b, q1, q2⟩ := firstChild_spec hok.wf (by simp at h2; omega)
            rw [hfc] at q1
            simp at q1
            exact ⟨b, by rw [q1]; exact q2⟩
          cases x with
          | leaf l =>
            simp only
            exact leaf l s3 hR0 hC hE (Or.inr (Or.inr ⟨b, hb⟩))
          | node d =>
            simp only
            obtain ⟨k1, k2, k3, k4, nc, k5, k6⟩ := ht.child_node (hl h0) hn0 hb
            have hEd : IsE d (s3.E d) s3 := ⟨ht.lt k1, rfl⟩
            have hd0 : d ≠ 0 := ht.ne_zero k1
            rw [hE.2] at k3
            generalize s3.E d = Pd at hEd k3
            intro s4 hR hI4
            replace hR0 := hR0.trans hR; replace hEd := hEd.mono hR; replace hO := hO.mono hR
            clear hR
            have hnd := List.getElem?_eq_getElem hEd.1
            generalize s4.heap[d]'hEd.1 = nd at hnd
            refine ⟨hO.free, nd, hnd, ?_⟩
            intro hlk
            beta_reduce
            by_cases hob : obsolete nd.version = true
            · rw [if_pos hob]
              intro s5 hR hI5
              exact ⟨hR0.trans hR, by simp⟩
            rw [if_neg hob]
            have hm4 := mod4_of hlk hob
            have hld := hI4.live_of hnd hd0 hm4
            refine wp.mono ?_ (ih d nd.version nd Pd s0 s4 hR0 ⟨nd, hnd, rfl, Nat.le_refl _, fun _ => ⟨rfl, fun _ => hld⟩⟩ hm4 hEd hd0 (by
              rintro rfl
              simp at k3) hO)
            rintro a s5 - ⟨z1, z2⟩
            exact ⟨z1, fun full hf => (prefix_of_snoc k3).trans (z2 full hf)⟩

/-- What `prefixMismatch` has found out, unless one of the nodes has changed. -/
def Mis (parent : Addr) (pv : Nat) (curr : Addr) (v : Nat) (Pc : Bytes) (N : Node) (key : Bytes) (depth p : Nat) (full : Bytes) (s : St) : Prop :=
  Stale parent pv s ∨ Stale curr v s ∨ MisOk (fun _ => Pc) curr N key depth p full

omit hpk in
theorem Mis.mono {parent pv curr v Pc N key depth p full} {s s' : St} (h : Mis parent pv curr v Pc N key depth p full s) (hR : Rely c s s') :
    Mis parent pv curr v Pc N key depth p full s' := h.imp (fun x => x.mono hR) (fun x => x.imp (fun x => x.mono hR) id)

theorem wp_mismatchLoop {key : Bytes} {depth : Nat} {curr : Addr} {v : Nat} {parent : Addr} {pv : Nat} {Np : Node} {Pp Pc : Bytes} {loc : Loc} {N : Node}
    (hp : Pc.take depth <+: key) (s0 : St) : ∀ (fuel : Nat) (got : Option Bytes) (s : St), Rely c s0 s → Know s parent pv Np Pp depth curr Pc loc v N →
      Owns c [] s → (Stale curr v s ∨ 8 < N.prefixLen) → (∀ full, got = some full → Pc <+: full) →
      wp c eff pk (fun r s' => Rely c s0 s' ∧ ∀ p full, r = some (p, full) → Mis parent pv curr v Pc N key depth p full s')
        (mismatchLoop key depth curr v parent pv fuel got) s := by
  intro fuel
  induction fuel with
  | zero => intro got s hR0 hK hO h8 hfull s' hR hI; exact (hO.mono hR).free
  | succ fuel ih =>
    intro got s hR0 hK hO h8 hfull
    unfold mismatchLoop
    intro s1 hR hI
    replace hR0 := hR0.trans hR; replace hK := hK.mono hR; replace hO := hO.mono hR; replace h8 := h8.imp (fun x => Stale.mono x hR) id
    clear hR
    obtain ⟨n0, hn0, -⟩ := hK.node_get
    refine ⟨n0, hn0, ?_⟩
    beta_reduce
    by_cases hw : n0.version = v
    swap
    · rw [if_pos hw]
      intro s2 hR hI2
      exact ⟨hR0.trans hR, by simp⟩
    rw [if_neg (by simp [hw])]
    replace h8 : 8 < N.prefixLen := h8.resolve_left (fun x => x.ne hn0 hw)
    clear hn0 hw n0 hI
    intro s2 hR hI
    replace hR0 := hR0.trans hR; replace hK := hK.mono hR; replace hO := hO.mono hR
    clear hR
    obtain ⟨n0, hn0⟩ := hK.parent_get
    refine ⟨n0, hn0, ?_⟩
    beta_reduce
    by_cases hw : n0.version = pv
    swap
    · rw [if_pos hw]
      intro s2 hR hI2
      exact ⟨hR0.trans hR, by simp⟩
    rw [if_neg (by simp [hw])]
    have hdep := hK.depth_eq hn0 hw
    clear hn0 hw n0 hI
    cases got with
    | none =>
      simp only
      refine wp.bind (wp.mono ?_ (wp_fullKey hpk fuel curr v N Pc s2 s2 (Rely.refl c s2) hK.sc hK.v4 hK.ctx.ec hK.ctx.c0 ?_ hO))
      · rintro got s3 - ⟨z1, z2⟩
        exact ih got s3 (hR0.trans z1) (hK.mono z1) (hO.mono z1) (Or.inr h8) z2
      · rintro rfl
        simp at hdep
        omega
    | some full =>
      simp only
      intro s3 hR hI
      replace hR0 := hR0.trans hR; replace hK := hK.mono hR; replace hO := hO.mono hR
      clear hR
      obtain ⟨n0, hn0, -⟩ := hK.node_get
      refine ⟨n0, hn0, ?_⟩
      intro r hr1 hr2
      beta_reduce
      have hg := hK.sc.got hn0 hr2
      clear hn0 hr1 hr2 n0 hI
      cases hm : mismatchLong r key full depth with
      | none => intro s3 hR hI; exact ⟨(hO.mono hR).free, hpk⟩
      | some p =>
        intro s4 hR hI
        refine ⟨hR0.trans hR, ?_⟩
        intro p' full' he
        cases he
        right
        rcases hg.mono hR with hg | hg
        · exact Or.inl hg
        · right
          subst hg
          obtain ⟨k, h1, h2, h3, h4⟩ := mismatchLong_spec (full := full) hdep (hfull full rfl) hp
          rw [hm] at h1
          cases h1
          exact ⟨h2, h3, h4, fun _ => hfull full rfl⟩

theorem wp_prefixMismatch {key : Bytes} {depth : Nat} {curr : Addr} {v : Nat} {parent : Addr} {pv : Nat} {Np : Node} {Pp Pc : Bytes} {loc : Loc} {N : Node}
    (hp : Pc.take depth <+: key) (fuel : Nat) (s : St) (hK : Know s parent pv Np Pp depth curr Pc loc v N) (hO : Owns c [] s) :
      wp c eff pk (fun r s' => Rely c s s' ∧ ∀ p full, r = some (p, full) → Mis parent pv curr v Pc N key depth p full s')
        (prefixMismatch fuel key depth curr v parent pv) s := by
  unfold prefixMismatch
  intro s1 hR0 hI
  replace hK := hK.mono hR0; replace hO := hO.mono hR0
  obtain ⟨n0, hn0, -⟩ := hK.node_get
  refine ⟨n0, hn0, ?_⟩
  intro r hr1 hr2
  beta_reduce
  have hg := hK.sc.got hn0 hr2
  clear hn0 hr1 hr2 n0 hI
  by_cases h8 : r.prefixLen ≤ maxPrefixLen
  · rw [if_pos h8]
    have h8' : r.prefixLen ≤ 8 := h8
    clear h8
    intro s2 hR hI
    replace hR0 := hR0.trans hR; replace hK := hK.mono hR; replace hO := hO.mono hR; replace hg := hg.mono hR
    clear hR
    obtain ⟨n0, hn0, -⟩ := hK.node_get
    refine ⟨n0, hn0, ?_⟩
    intro r' hr1 hr2
    beta_reduce
    have hg' := hK.sc.got hn0 hr2
    clear hn0 hr1 hr2 n0 hI
    cases hm : mismatchShort r' key depth with
    | none => intro s3 hR hI; exact ⟨(hO.mono hR).free, hpk⟩
    | some p =>
      intro s3 hR hI
      refine ⟨hR0.trans hR, ?_⟩
      intro p' full' he
      cases he
      rcases hK.d with hd | hd
      · exact Or.inl (hd.mono hR)
      · right
        rcases hg.mono hR with hg | hg
        · exact Or.inl hg
        · rcases hg'.mono hR with hg' | hg'
          · exact Or.inl hg'
          · right
            subst hg
            subst hg'
            obtain ⟨k, h1, h2, h3, h4⟩ := mismatchShort_spec hd hK.ok.pre h8' hp
            rw [hm] at h1
            cases h1
            exact ⟨h2, h3, h4, fun hh => absurd hh (by omega)⟩
  · rw [if_neg h8]
    have h8' : 8 < r.prefixLen := Nat.lt_of_not_le h8
    refine wp_mismatchLoop hpk hp s fuel none s1 hR0 hK hO (hg.imp id ?_) (by simp)
    rintro rfl
    exact h8'

end

end Art
