import Verif.Art.ConcIns
import Verif.Art.SeqDel

/-! # Concurrent `Delete` -/

set_option linter.unusedSimpArgs false

namespace Art

open Surf Spec

theorem wp.since {c : Nat} {eff : Map → Map → Prop} {pk : Prop} {α : Type} {Q : α → St → Prop} {j : Nat} {p : Prog α} :
    ∀ {s : St}, wp c eff pk Q p s → Since j s → wp c eff pk (fun a s => Q a s ∧ Since j s) p s := by
  induction p with
  | ret a => intro s h hS s' hR hI; exact ⟨h s' hR hI, hS.mono hR⟩
  | panic => intro s h hS; exact h
  | diverge => intro s h hS; exact h
  | wait a k ih =>
    intro s h hS s' hR hI
    obtain ⟨h1, n, h2, h3⟩ := h s' hR hI
    exact ⟨h1, n, h2, fun hl => ih _ (h3 hl) (hS.mono hR)⟩
  | load a k ih =>
    intro s h hS s' hR hI
    obtain ⟨n, h1, h2⟩ := h s' hR hI
    exact ⟨n, h1, ih _ h2 (hS.mono hR)⟩
  | cas a v k ih =>
    intro s h hS s' hR hI
    obtain ⟨h0, n, h1, h2, h3⟩ := h s' hR hI
    exact ⟨h0, n, h1, fun e => ih _ (h2 e) (show Since j s' from hS.mono hR), fun e => ih _ (h3 e) (hS.mono hR)⟩
  | lock a k ih =>
    intro s h hS s' hR hI
    obtain ⟨h0, n, h1, h2, h3⟩ := h s' hR hI
    exact ⟨h0, n, h1, fun e e' => ih _ (h2 e e') (hS.mono hR), fun e e' => ih _ (h3 e e') (show Since j s' from hS.mono hR)⟩
  | unlock a k ih =>
    intro s h hS s' hR hI
    obtain ⟨h0, h1, n, h2, h3⟩ := h s' hR hI
    exact ⟨h0, h1, n, h2, ih h3 (show Since j s' from hS.mono hR)⟩
  | unlockObsolete a k ih =>
    intro s h hS s' hR hI
    obtain ⟨h0, h1, h2, n, h3, h4⟩ := h s' hR hI
    exact ⟨h0, h1, h2, n, h3, ih h4 (show Since j s' from hS.mono hR)⟩
  | read a v k ih =>
    intro s h hS s' hR hI
    obtain ⟨n, h1, h2⟩ := h s' hR hI
    exact ⟨n, h1, fun r e1 e2 => ih _ (h2 r e1 e2) (hS.mono hR)⟩
  | readRoot k ih =>
    intro s h hS s' hR hI
    obtain ⟨n, h1, h2⟩ := h s' hR hI
    exact ⟨n, h1, ih _ h2 (hS.mono hR)⟩
  | choose k ih =>
    intro s h hS s' hR hI b
    exact ih _ (h s' hR hI b) (hS.mono hR)
  | write f k ih =>
    intro s h hS s' hR hI
    obtain ⟨g0, h', m, m', s2, g1, g2, g3, g4, g5, g6⟩ := h s' hR hI
    exact ⟨g0, h', m, m', s2, g1, g2, g3, g4, g5, ih g6 (g4.since (hS.mono hR))⟩

/-- The change made by `Delete`. -/
def delEff (key : Bytes) (m m' : Map) : Prop := m' = m.delete key

/-- What an attempt at `Delete` ends with. -/
def delQ (c j : Nat) (key : Bytes) (b : Bool) (s : St) : Prop :=
  Owns c [] s ∧ (b = true ∧ Tags c 1 s ∨ Tags c 0 s ∧ (b = true → Was j key none s))

theorem shouldShrink_cap {n : Node} (h : n.cap ≠ 0) (b : Bool) : ∃ r, n.shouldShrink b = some r := by
  unfold Node.cap at h
  unfold Node.shouldShrink
  cases hk : n.kids with
  | n4 => simp only; repeat' split
          all_goals exact ⟨_, rfl⟩
  | n16 => exact ⟨_, rfl⟩
  | n48 => exact ⟨_, rfl⟩
  | n256 => exact ⟨_, rfl⟩
  | dummy => rw [hk] at h; exact absurd rfl h

section
variable {c j : Nat} {key : Bytes} {pk : Prop} {s : St} {parent : Addr} {pv : Nat} {Np : Node} {Pp : Bytes} {depth : Nat} {curr : Addr} {Pc : Bytes} {loc : Loc}
    {v : Nat} {N : Node}

theorem delQ_no (s : St) (h1 : Owns c [] s) (h2 : Tags c 0 s) : delQ c j key false s := ⟨h1, Or.inr ⟨h2, by simp⟩⟩

theorem delQ_yes (s : St) (h1 : Owns c [] s) (h2 : Tags c 1 s) : delQ c j key true s := ⟨h1, Or.inl ⟨rfl, h2⟩⟩

theorem delQ_absent {b : Bool} {s : St} (h1 : Owns c [] s) (h2 : Tags c 0 s) (h3 : Was j key none s) : delQ c j key b s := ⟨h1, Or.inr ⟨h2, fun _ => h3⟩⟩

theorem wp_absent {b : Bool} {s : St} {eff : Map → Map → Prop} (h1 : Owns c [] s) (h2 : Tags c 0 s) (h3 : Was j key none s) :
    wp c eff pk (delQ c j key) (.ret b) s := fun _ hR _ => delQ_absent (h1.mono hR) (h2.mono hR) (h3.mono hR)

/-- The state in which a node is taken out of the tree. -/
structure Two (c : Nat) (s : St) (parent : Addr) (pv : Nat) (Np : Node) (Pp : Bytes) (depth : Nat) (curr : Addr) (Pc : Bytes) (loc : Loc) (v : Nat) (N : Node) :
    Prop where
  owns : Owns c [curr, parent] s
  tags : Tags c 0 s
  op : Own c parent { Np with version := pv + 2 } s
  oc : Own c curr { N with version := v + 2 } s
  ctx : Ctx s parent pv Np Pp depth curr Pc loc
  ok : NodeOK Pc (Pc = []) N
  dep : depth + N.prefixLen = Pc.length

theorem Two.mono {s s' : St} (h : Two c s parent pv Np Pp depth curr Pc loc v N) (hR : Rely c s s') : Two c s' parent pv Np Pp depth curr Pc loc v N :=
  ⟨h.owns.mono hR, h.tags.mono hR, h.op.mono hR, h.oc.mono hR, h.ctx.mono hR, h.ok, h.dep⟩

theorem Two.own (h : Two c s parent pv Np Pp depth curr Pc loc v N) : ∀ a ∈ [curr, parent], ∃ M, Own c a M s := by
  intro a ha
  simp at ha
  rcases ha with rfl | rfl
  · exact ⟨_, h.oc⟩
  · exact ⟨_, h.op⟩

/-- A section that replaces the node by something, up to the end. -/
theorem Two.replace (h : Two c s parent pv Np Pp depth curr Pc loc v N) {f : Heap → Option Heap}
    (hS : ∀ s', Two c s' parent pv Np Pp depth curr Pc loc v N → Inv s' → Sect c (delEff key) f [curr] s') :
    wp c (delEff key) pk (delQ c j key) (.write f (.unlockObsolete curr (.unlock parent (.ret true)))) s := by
  refine Sect.wp (dead := [curr]) (fun s' hR hI => hS s' (h.mono hR) hI) h.owns h.tags h.own ?_
  intro s3 hO hT hH
  have hne := h.ctx.ne
  refine wp_finR (k := 1) delQ_yes hO hne ((hH curr (by simp)).congr (by simp)) h.ctx.c0 (hH parent (by simp)) ?_ hT
  by_cases h0 : parent = 0
  · exact Or.inl h0
  · exact Or.inr ⟨h0, by simpa using hne.symm⟩

theorem Sect.collapse {c : Nat} {eff : Map → Map → Prop} {f : Heap → Option Heap} {s : St} {m m' : Map} {h' : Heap} {S : List Addr} (hm : s.Now m)
    (he : eff m m') (hf : f s.heap = some h') (hF : Frame s.heap h' S) (hS : ∀ a ∈ S, s.owner a = some c) {d : Addr}
    (ht : HT s.E (fun a => s.live a ∧ a ≠ d) h' m') (hlen : h'.length = s.heap.length) (hd : s.owner d = some c) : Sect c eff f [d] s := by
  refine ⟨m, h', _, _, m', S, hm, he, hf, hF, hS, ht, fun _ _ => rfl, ?_, by simpa using hd, ?_⟩
  · intro a ha
    simp
  · intro a h1 h2
    rw [hlen] at h2
    exact absurd h2 (Nat.not_lt.mpr h1)

theorem Two.facts (h : Two c s parent pv Np Pp depth curr Pc loc v N) {root : Addr} {m : Map} (ht : HTr s.E s.live s.heap root m) :
    At s.E s.live s.heap root loc curr ∧ s.live curr ∧ (parent ≠ 0 → curr ≠ root) := by
  have hl := h.oc.2.2 h.ctx.c0
  obtain ⟨hat, -⟩ := h.ctx.at_ ht h.op.2.1 h.op.2.2 (fun _ => rfl) hl
  refine ⟨hat, hl, ?_⟩
  intro h0 e
  have := (ht.at_root hat).mpr e
  rw [h.ctx.loc1] at this
  exact h0 this

theorem wp_compressChild (h : Two c s parent pv Np Pp depth curr Pc loc v N) (h0 : parent ≠ 0) {idx : Nat} {keys : Bytes}
    {children : List (Option Ref)} (hk : N.kids = .n4 keys children) {bc : UInt8} {r : Ref} (h1 : keys[idx]? = some bc)
    (h2 : children[idx]?.join = some r) {l0 : Leaf} (ho : Only N.view l0 bc r) (hkey : ∀ l, r = .leaf l → l.key ≠ l0.key) (hl0 : l0.key = key) :
    wp c (delEff key) pk (delQ c j key) (compressChild idx parent curr v loc) s := by
  unfold compressChild
  intro s1 hR hI
  replace h := h.mono hR
  clear hR
  refine ⟨_, h.oc.2.1, ?_⟩
  intro x hxc hx
  beta_reduce
  rw [hx rfl]
  simp only [hk, h1, h2]
  clear hxc hx x hI
  cases r with
  | leaf l =>
    simp only
    refine h.replace ?_
    intro s' h hI
    obtain ⟨m, hm, root, ht⟩ := hI.tree
    obtain ⟨hat, hl, hr⟩ := h.facts ht
    obtain ⟨h', g1, g2, g3, g4⟩ := ht.collapse_step hat (hr h0) h.oc.2.1 (l0 := l0) (l := l) ho (hkey l rfl)
    rw [hl0] at g4
    refine Sect.collapse hm (show delEff key m (m.delete key) from rfl) g1 g2 ?_ g4 g3 h.oc.1
    rw [h.ctx.loc1]
    simpa using h.op.1
  | node d =>
    simp only
    have hch : N.child bc = some (.node d) := (ho.2 bc d).mpr ⟨rfl, rfl⟩
    intro s2 hR hI
    replace h := h.mono hR
    clear hR
    obtain ⟨m, hm, root, ht⟩ := hI.tree
    obtain ⟨hat, hl, hr⟩ := h.facts ht
    obtain ⟨k1, k2, k3, k4, nd, k5, k6⟩ := ht.child_node hl h.oc.2.1 hch
    have hEc := h.ctx.ec.2
    have hEp := h.ctx.ep.2
    have hd0 : d ≠ 0 := ht.ne_zero k1
    have hlen : Pc.length + 1 ≤ (s2.E d).length := by
      have := k3.length_le
      rw [hEc] at this
      simpa using this
    have hplen : Pp.length + 1 ≤ Pc.length := by
      rcases h.ctx.pf with ⟨q1, -⟩ | ⟨q1, q2, b, slot, pos, q3, q4, q5⟩
      · exact absurd q1 h0
      · have := congrArg List.length q5
        simp at this
        omega
    have hdc : d ≠ curr := by
      rintro rfl
      rw [hEc] at hlen
      omega
    have hdp : d ≠ parent := by
      rintro rfl
      rw [hEp] at hlen
      omega
    refine ⟨?_, nd, k5, ?_, ?_⟩
    · intro b hb
      rw [h.owns b] at hb
      simp at hb
      unfold St.rank
      rw [if_neg hd0]
      rcases hb with rfl | rfl
      · rw [if_neg h.ctx.c0, hEc]
        omega
      · rw [if_neg h0, hEp]
        omega
    · intro _ hob
      exfalso
      have := hI.alive d nd k1 k5
      simp [obsolete] at hob
      omega
    · intro hlk hob
      beta_reduce
      rw [if_neg (by simp)]
      have hO := h.owns.acquire d nd.version
      have hT : Tags c 0 (s2.acquire c d nd.version) := h.tags
      have hop := h.op.acquire hdp.symm nd.version
      have hoc := h.oc.acquire hdc.symm nd.version
      have hod := own_acquire (c := c) k5 (fun _ => k1)
      have hC := h.ctx.acquire (c := c) k5
      clear ht hat hm hI
      generalize s2.acquire c d nd.version = s3 at *
      refine Sect.wp (dead := [curr]) ?_ hO hT ?_ ?_
      · intro s4 hR hI
        replace hO := hO.mono hR; replace hop := hop.mono hR; replace hoc := hoc.mono hR; replace hod := hod.mono hR; replace hC := hC.mono hR
        obtain ⟨m, hm, root, ht⟩ := hI.tree
        have hl := hoc.2.2 hC.c0
        obtain ⟨hat, -⟩ := hC.at_ ht hop.2.1 hop.2.2 (fun _ => rfl) hl
        have hr : curr ≠ root := by
          intro e
          have := (ht.at_root hat).mpr e
          rw [hC.loc1] at this
          exact h0 this
        obtain ⟨h', g1, g2, g3, g4⟩ := ht.compress_step hat hr hoc.2.1 (l0 := l0) (bc := bc) (c := d) ho
        rw [hl0] at g4
        refine Sect.collapse hm (show delEff key m (m.delete key) from rfl) g1 g2 ?_ g4 g3 hoc.1
        rw [hC.loc1]
        intro a ha
        simp at ha
        rcases ha with rfl | rfl
        · exact hop.1
        · exact hod.1
      · intro a ha
        simp at ha
        rcases ha with rfl | rfl | rfl
        · exact ⟨_, hod⟩
        · exact ⟨_, hoc⟩
        · exact ⟨_, hop⟩
      · intro s5 hO hT hH
        have hne := hC.ne
        exact wp_finC (k := 1) delQ_yes hO hne hdc hdp (hH d (by simp)) (Or.inr ⟨hd0, by simpa using hdc⟩) ((hH curr (by simp)).congr (by simp)) hC.c0
          (hH parent (by simp)) (Or.inr ⟨h0, by simpa using hne.symm⟩) hT

theorem wp_removeChildAndShrink (h : Two c s parent pv Np Pp depth curr Pc loc v N) {b : UInt8} {l : Leaf} (hb : N.child b = some (.leaf l))
    (hsh : N.shouldShrink (parent == 0) = some true) (hlk : l.key = key) (hlv : N.view.LeavesOk Pc) :
    wp c (delEff key) pk (delQ c j key) (removeChildAndShrink b parent curr v loc) s := by
  have hok := h.ok
  rw [shouldShrink_spec hok.wf hok.min, Option.some.injEq] at hsh
  have hcpos : 0 < cnt N.child := (cnt_pos_iff _).mpr ⟨b, _, hb⟩
  unfold removeChildAndShrink
  intro s1 hR hI
  replace h := h.mono hR
  clear hR
  refine ⟨_, h.oc.2.1, ?_⟩
  intro x hxc hx
  beta_reduce
  rw [hx rfl]
  simp only
  clear hxc hx x hI
  by_cases h4 : N.cap = 4
  · rw [if_pos h4] at hsh
    have h0 : parent ≠ 0 := by
      intro e
      rw [e] at hsh
      simp at hsh
    have hPc : ¬ Pc = [] := fun e => h0 (h.ctx.parent0.mpr e)
    have htwo := hok.two hPc
    have hnum := n4_num hok.wf h4
    obtain ⟨keys, children, hk⟩ := cap4 h4
    simp only [hk]
    cases hpl : N.prefixLeaf with
    | some l' =>
      simp only
      have h1 : cnt N.child = 1 := by
        rw [hpl] at hsh
        simp at hsh
        omega
      obtain ⟨keys', children', bc, r, hk', e1, e2, e3⟩ := n4_one hok.wf h4 h1
      have hbr := (e3 b _).mp hb
      rw [← hbr.1, ← hbr.2] at e3
      refine h.replace ?_
      intro s' h hI
      obtain ⟨m, hm, root, ht⟩ := hI.tree
      obtain ⟨hat, hl, hr⟩ := h.facts ht
      obtain ⟨h', g1, g2, g3, g4⟩ := ht.collapse_step hat (hr h0) h.oc.2.1 (l0 := l) (l := l') (bc := b) (only_keep hpl e3) (by
        intro e
        exact LeavesOk.ne hlv hb (Or.inl hpl) e.symm)
      rw [hlk] at g4
      refine Sect.collapse hm (show delEff key m (m.delete key) from rfl) g1 g2 ?_ g4 g3 h.oc.1
      rw [h.ctx.loc1]
      simpa using h.op.1
    | none =>
      simp only
      have h2 : cnt N.child = 2 := by
        rw [hpl] at hsh htwo
        simp at hsh htwo
        omega
      have hn1 : N.numChildren ≠ 1 := by
        intro e
        rw [e, h2] at hnum
        simp at hnum
      rw [if_neg hn1]
      obtain ⟨keys', children', bc, r, hk', e1, e2, e3, e4⟩ := n4_two hok.wf h4 h2 hb
      rw [hk] at hk'
      cases hk'
      have ho := only_child hpl e4
      have hkey : ∀ l', r = .leaf l' → l'.key ≠ l.key := by
        rintro l' rfl
        have hbc : N.child bc = some (.leaf l') := (e4 bc _).mpr (Or.inl ⟨rfl, rfl⟩)
        exact LeavesOk.ne hlv hbc (Or.inr ⟨b, e3.symm, hb⟩)
      by_cases e : keys[0]? = some b
      · rw [if_pos e] at e1 e2 ⊢
        exact wp_compressChild h h0 hk e1 e2 ho hkey hlk
      · rw [if_neg e] at e1 e2 ⊢
        exact wp_compressChild h h0 hk e1 e2 ho hkey hlk
  · rw [if_neg h4] at hsh
    have key : wp c (delEff key) pk (delQ c j key) (.write (shrinkAt · curr b loc) (.unlockObsolete curr (.unlock parent (.ret true)))) s1 := by
      refine h.replace ?_
      intro s' h hI
      obtain ⟨m, hm, root, ht⟩ := hI.tree
      obtain ⟨hat, hl, hr⟩ := h.facts ht
      obtain ⟨h', g1, g2, g3, g4⟩ := ht.shrink_commit hl h.oc.2.1 hat h4 (of_decide_eq_true hsh) (b := b) (l := l) hb
      rw [hlk] at g4
      refine Sect.replace hm (show delEff key m (m.delete key) from rfl) g1 g2 ?_ g4 g3 h.oc.1
      rw [h.ctx.loc1]
      simpa using h.op.1
    cases hk : N.kids with
    | n4 => simp [Node.cap, hk] at h4
    | n16 => exact key
    | n48 => exact key
    | n256 => exact key
    | dummy => exact key

theorem nodeOK_min {P : Bytes} {b : Prop} (hok : NodeOK P b N) (h4 : N.cap ≠ 4) : 4 ≤ minCount N.cap := by
  rcases hok.wf.cap_cases with e | e | e | e
  · exact absurd e h4
  · rw [e]; decide
  · rw [e]; decide
  · rw [e]; decide

theorem wp_removeLeaf (hK : Know s parent pv Np Pp depth curr Pc loc v N) (hO : Owns c [] s) (hT : Tags c 0 s) {b : UInt8} {l : Leaf} {slot pos : Nat}
    (hf : N.findChild b = some (.leaf l, slot, pos)) (hlv : N.view.LeavesOk Pc) (hm : l.matchKey key = true ∨ Was j key none s) :
    wp c (delEff key) pk (delQ c j key) (removeLeaf key b l pos parent pv curr v loc) s := by
  have hb := findChild_child hf
  have hok := hK.ok
  have hcap : N.cap ≠ 0 := by
    rcases hok.wf.cap_cases with e | e | e | e <;> rw [e] <;> decide
  unfold removeLeaf
  by_cases hmk : l.matchKey key = false
  · rw [if_pos hmk]
    have hW := hm.resolve_left (by simp [hmk])
    intro s1 hR hI
    replace hK := hK.mono hR; replace hO := hO.mono hR; replace hT := hT.mono hR; replace hW := hW.mono hR
    obtain ⟨n0, hn0, -⟩ := hK.node_get
    exact ⟨n0, hn0, wp_absent hO hT hW⟩
  rw [if_neg hmk]
  have hlk : l.key = key := by
    rw [← Leaf.matchKey_iff]
    simpa using hmk
  clear hm hmk
  intro s1 hR hI
  replace hK := hK.mono hR; replace hO := hO.mono hR; replace hT := hT.mono hR
  clear hR
  obtain ⟨n0, hn0, hc0⟩ := hK.node_get
  refine ⟨n0, hn0, ?_⟩
  intro r hr1 hr2
  beta_reduce
  have hg := hK.sc.got hn0 hr2
  obtain ⟨q, hq⟩ := shouldShrink_cap (n := r) (by rw [hr1, hc0]; exact hcap) (parent == 0)
  rw [hq]
  clear hn0 hr1 hr2 hc0 n0 hI
  cases q with
  | true =>
    simp only
    refine wp_lock2 (X := r = N) hK hO hT (Or.inr hg) delQ_no ?_
    rintro s2 hO hT hp hc hC hok hdep rfl
    exact wp_removeChildAndShrink ⟨hO, hT, hp, hc, hC, hok, hdep⟩ hb hq hlk hlv
  | false =>
    simp only
    refine wp_lock1 (X := r = N) hK hO hT hg delQ_no ?_
    rintro s0 s2 - - - hO hT hc hK rfl
    rw [shouldShrink_spec hok.wf hok.min, Option.some.injEq] at hq
    have hcpos : 0 < cnt r.child := (cnt_pos_iff _).mpr ⟨b, _, hb⟩
    have hmin := hok.min
    obtain ⟨q1, q2⟩ : minCount r.cap < cnt r.child ∧ (parent ≠ 0 → 3 ≤ cnt r.child + r.prefixLeaf.isSome.toNat) := by
      by_cases h4 : r.cap = 4
      · rw [if_pos h4] at hq
        refine ⟨by rw [h4]; exact hcpos, ?_⟩
        intro hcr
        have h0 : (parent == 0) = false := by
          simp only [beq_eq_false_iff_ne, ne_eq]
          exact hcr
        rw [h0] at hq
        cases hpl : r.prefixLeaf with
        | none => rw [hpl] at hq; simp at hq ⊢; omega
        | some l' => rw [hpl] at hq; simp at hq ⊢; omega
      · rw [if_neg h4] at hq
        have h3 := nodeOK_min hok h4
        simp at hq
        refine ⟨by omega, fun _ => by omega⟩
    refine Sect.wp (dead := []) ?_ hO hT ?_ ?_
    · intro s3 hR hI
      replace hc := hc.mono hR; replace hK := hK.mono hR
      obtain ⟨m, hm, root, ht⟩ := hI.tree
      have hl := hc.2.2 hK.ctx.c0
      obtain ⟨h', g1, g2, g3⟩ := ht.removeChild_commit hl hc.2.1 (b := b) (l := l) (slot := slot) (pos := pos) hf q1 (by
        intro hr
        apply q2
        intro e
        apply hr
        exact ht.tree.inj _ _ hl ht.tree.root_live (by rw [hK.ctx.ec.2, hK.ctx.parent0.mp e, ht.tree.root_E]))
      rw [hlk] at g3
      exact Sect.same hm (show delEff key m (m.delete key) from rfl) g1 g2 (by simpa using hc.1) ⟨_, g3⟩ (removeChildAt_length g1)
    · intro a ha
      simp at ha
      subst ha
      exact ⟨_, hc⟩
    · intro s3 hO hT hH
      exact wp_fin1 (k := 1) delQ_yes hO (hH curr (by simp)) (Or.inr ⟨hK.ctx.c0, by simp⟩) hT

theorem wp_removeHere (hK : Know s parent pv Np Pp depth curr Pc loc v N) (hO : Owns c [] s) (hT : Tags c 0 s) (hS : Since j s)
    (hdep : depth + N.prefixLen = Pc.length) (hX : Stale curr v s ∨ Pc.length = key.length) (hp : OnPath j key (Pc.take depth) s) :
    wp c (delEff key) pk (delQ c j key) (removeHere key parent pv curr v loc) s := by
  have hok := hK.ok
  unfold removeHere
  intro s1 hR hI
  replace hK := hK.mono hR; replace hO := hO.mono hR; replace hT := hT.mono hR; replace hS := hS.mono hR
  replace hX := hX.imp (fun y => Stale.mono y hR) id; replace hp := hp.mono hR
  clear hR
  obtain ⟨n0, hn0, -⟩ := hK.node_get
  refine ⟨n0, hn0, ?_⟩
  intro r hr1 hr2
  beta_reduce
  have hg := hK.sc.got hn0 hr2
  clear hn0 hr1 hr2 n0 hI
  intro s2 hR hI
  replace hK := hK.mono hR; replace hO := hO.mono hR; replace hT := hT.mono hR; replace hS := hS.mono hR
  replace hX := hX.imp (fun y => Stale.mono y hR) id; replace hp := hp.mono hR; replace hg := hg.mono hR
  clear hR
  obtain ⟨n0, hn0, -⟩ := hK.node_get
  refine ⟨n0, hn0, ?_⟩
  beta_reduce
  by_cases hw : n0.version = v
  swap
  · rw [if_pos hw]
    exact wp_done delQ_no hO hT
  rw [if_neg (by simp [hw])]
  have e1 := hg.eq hn0 hw
  subst e1
  replace hX := hX.resolve_left (fun y => y.ne hn0 hw)
  obtain ⟨e3, hl⟩ := hK.fresh hn0 hw
  subst e3
  clear hg
  obtain ⟨m, hm, root, ht⟩ := hI.tree
  have hE := hK.ctx.ec.2
  have hvw := view_eq hn0
  have hlv := ht.tree.leaves curr hl
  rw [hvw, hE] at hlv
  by_cases hmm : prefixMatch n0 key = false
  · rw [if_pos hmm]
    have hW : Was j key none s2 := by
      rcases hp with hp | hp
      · by_cases hh : Pc <+: key
        · have hEk := hh.eq_of_length hX
          have := ht.tree.lookup_end hl
          rw [hE, hEk, hvw] at this
          have hnone : m key = none := by
            rw [this]
            show n0.prefixLeaf.map _ = none
            cases hpl : n0.prefixLeaf with
            | none => rfl
            | some l =>
              exfalso
              have h9 := hlv.pleaf l hpl
              rw [prefixMatch, hpl] at hmm
              have h10 : l.matchKey key = true := by rw [Leaf.matchKey_iff, h9, hEk]
              simp only [h10] at hmm
              simp at hmm
          rw [← hnone]
          exact hS.was hm key
        · rw [← ht.absent hl hn0 (by rw [hE]; exact hdep) (by rw [hE]; exact hp) (by rw [hE]; exact hh)]
          exact hS.was hm key
      · exact hp
    clear hn0 hw ht hI hm hl hE hvw hp hX
    intro s3 hR hI
    replace hK := hK.mono hR; replace hO := hO.mono hR; replace hT := hT.mono hR; replace hW := hW.mono hR
    obtain ⟨n1, hn1, -⟩ := hK.node_get
    exact ⟨n1, hn1, wp_absent hO hT hW⟩
  rw [if_neg hmm]
  clear hn0 hw ht hI hm hl hE hvw hp hX
  cases hpl : n0.prefixLeaf with
  | none => rw [prefixMatch, hpl] at hmm; simp at hmm
  | some l =>
    rw [prefixMatch, hpl] at hmm
    simp only [Bool.not_eq_false] at hmm
    rw [Leaf.matchKey_iff] at hmm
    have hPk : Pc = key := by rw [← hmm]; exact (hlv.pleaf l hpl).symm
    intro s3 hR hI
    replace hK := hK.mono hR; replace hO := hO.mono hR; replace hT := hT.mono hR
    clear hR
    obtain ⟨n1, hn1, -⟩ := hK.node_get
    refine ⟨n1, hn1, ?_⟩
    intro r hr1 hr2
    beta_reduce
    have hg := hK.sc.got hn1 hr2
    clear hn1 hr1 hr2 n1 hI
    by_cases hs : r.shouldCompress (parent == 0) = true
    · rw [if_pos hs]
      refine wp_lock2 (X := r = n0) hK hO hT (Or.inr hg) delQ_no ?_
      rintro s4 hO hT hp hc hC hok hdep rfl
      obtain ⟨h4, hn1, h0⟩ : r.cap = 4 ∧ r.numChildren = 1 ∧ parent ≠ 0 := by
        unfold Node.shouldCompress at hs
        unfold Node.cap
        cases hk : r.kids with
        | n4 => rw [hk] at hs; simp at hs ⊢; exact hs
        | n16 => rw [hk] at hs; simp at hs
        | n48 => rw [hk] at hs; simp at hs
        | n256 => rw [hk] at hs; simp at hs
        | dummy => rw [hk] at hs; simp at hs
      have hnum := n4_num hok.wf h4
      obtain ⟨keys, children, bc, rr, hk, e1, e2, e3⟩ := n4_one hok.wf h4 (by rw [← hnum, hn1]; rfl)
      exact wp_compressChild ⟨hO, hT, hp, hc, hC, hok, hdep⟩ h0 hk e1 e2 (only_pleaf hpl e3) (by
        rintro l' rfl
        exact LeavesOk.ne hlv ((e3 bc _).mpr ⟨rfl, rfl⟩) (Or.inl hpl)) hmm
    · rw [if_neg hs]
      refine wp_lock1 (X := r = n0) hK hO hT hg delQ_no ?_
      rintro s0 s4 - - - hO hT hc hK rfl
      refine Sect.wp (dead := []) ?_ hO hT ?_ ?_
      · intro s5 hR hI
        replace hc := hc.mono hR; replace hK := hK.mono hR
        obtain ⟨m, hm, root, ht⟩ := hI.tree
        have hl := hc.2.2 hK.ctx.c0
        have hE := hK.ctx.ec.2
        obtain ⟨h', g1, g2, g3⟩ := ht.clearPrefixLeaf_commit hl hc.2.1 (by
          intro hcr
          show 2 ≤ cnt r.child
          have hPne : ¬ Pc = [] := by
            intro e
            exact hcr (ht.tree.inj _ _ hl ht.tree.root_live (by rw [hE, e, ht.tree.root_E]))
          have htwo := hok.two hPne
          rw [hpl] at htwo
          simp at htwo
          have hmin := hok.min
          by_cases h4 : r.cap = 4
          · have hnum := n4_num hok.wf h4
            have h0 : (parent == 0) = false := by
              simp only [beq_eq_false_iff_ne, ne_eq]
              exact fun e => hPne (hK.ctx.parent0.mp e)
            obtain ⟨keys, children, hk⟩ := cap4 h4
            by_contra hlt
            apply hs
            have hone : r.numChildren = 1 := by
              apply UInt8.toNat_inj.mp
              rw [hnum]
              show cnt r.child = 1
              omega
            simp [Node.shouldCompress, hk, hone, h0]
          · have h3 := nodeOK_min hok h4
            omega)
        rw [hE, hPk] at g3
        exact Sect.same hm (show delEff key m (m.delete key) from rfl) g1 g2 (by simpa using hc.1) ⟨_, g3⟩ (clearPrefixLeaf_length g1)
      · intro a ha
        simp at ha
        subst ha
        exact ⟨_, hc⟩
      · intro s3 hO hT hH
        exact wp_fin1 (k := 1) delQ_yes hO (hH curr (by simp)) (Or.inr ⟨hK.ctx.c0, by simp⟩) hT

end

section
variable {c j : Nat} {key : Bytes} {pk : Prop}

theorem wp_remove : ∀ (fuel depth : Nat) (parent : Addr) (pv : Nat) (curr : Addr) (loc : Loc) (Np : Node) (Pp Pc : Bytes) (s : St),
    Ctx s parent pv Np Pp depth curr Pc loc → Owns c [] s → Tags c 0 s → Since j s → depth ≤ key.length → OnPath j key (Pc.take depth) s →
    wp c (delEff key) pk (delQ c j key) (remove key fuel depth parent pv curr loc) s := by
  intro fuel
  induction fuel with
  | zero => intro depth parent pv curr loc Np Pp Pc s hC hO hT hS hd hp s' hR hI; exact (hO.mono hR).free
  | succ fuel ih =>
    intro depth parent pv curr loc Np Pp Pc s hC hO hT hS hd hp
    unfold remove
    -- waitUnlock
    intro s1 hR hI
    replace hC := hC.mono hR; replace hO := hO.mono hR; replace hT := hT.mono hR; replace hS := hS.mono hR; replace hp := hp.mono hR
    clear hR
    have hn' := List.getElem?_eq_getElem hC.ec.1
    generalize s1.heap[curr]'hC.ec.1 = N at hn'
    refine ⟨hO.free, N, hn', ?_⟩
    intro hlk
    beta_reduce
    by_cases hob : obsolete N.version = true
    · rw [if_pos hob]
      exact wp_done delQ_no hO hT
    rw [if_neg hob]
    have hK := hC.wait hI hn' (mod4_of hlk hob)
    clear hC hn' hlk hob hI
    generalize N.version = v at hK
    -- check of the parent
    intro s2 hR hI
    replace hK := hK.mono hR; replace hO := hO.mono hR; replace hT := hT.mono hR; replace hS := hS.mono hR; replace hp := hp.mono hR
    clear hR
    obtain ⟨np, hnp⟩ := hK.parent_get
    refine ⟨np, hnp, ?_⟩
    beta_reduce
    by_cases hw : np.version = pv
    swap
    · rw [if_pos hw]
      exact wp_done delQ_no hO hT
    rw [if_neg (by simp [hw])]
    have hdep := hK.depth_eq hnp hw
    clear hnp hw hI
    -- checkPrefix
    intro s3 hR hI
    replace hK := hK.mono hR; replace hO := hO.mono hR; replace hT := hT.mono hR; replace hS := hS.mono hR; replace hp := hp.mono hR
    clear hR
    obtain ⟨n0, hn0, hcap⟩ := hK.node_get
    refine ⟨n0, hn0, ?_⟩
    beta_reduce
    intro r hr1 hr2
    have hg := hK.sc.got hn0 hr2
    clear hn0 hr1 hr2 hcap n0 hI
    have hok := hK.ok
    obtain ⟨hcp1, hcp2⟩ := checkPrefix_spec (key := key) hdep hok.pre hd
    by_cases hcp : (r.checkPrefix key depth).2 = false
    · rw [if_pos hcp]
      intro s4 hR hI
      replace hK := hK.mono hR; replace hO := hO.mono hR; replace hT := hT.mono hR; replace hS := hS.mono hR; replace hp := hp.mono hR; replace hg := hg.mono hR
      clear hR
      obtain ⟨n0, hn0, hcap⟩ := hK.node_get
      refine ⟨n0, hn0, ?_⟩
      beta_reduce
      by_cases hw : n0.version = v
      · have e := hg.eq hn0 hw
        obtain ⟨e', hl⟩ := hK.fresh hn0 hw
        subst e'; subst e
        obtain ⟨m, hm, root, ht⟩ := hI.tree
        have hres : Was j key none s4 := by
          rcases hp with hp | hp
          · rw [← ht.absent (key := key) hl hn0 (by rw [hK.ctx.ec.2]; exact hdep) (by rw [hK.ctx.ec.2]; exact hp)
              (by rw [hK.ctx.ec.2]; exact hcp1 hcp)]
            exact hS.was hm key
          · exact hp
        exact wp_absent hO hT hres
      · have : decide (n0.version = v) = false := by simp [hw]
        rw [this]
        exact wp_done delQ_no hO hT
    rw [if_neg hcp]
    by_cases hlen : (r.checkPrefix key depth).1 = key.length
    · rw [if_pos hlen]
      refine wp_removeHere hK hO hT hS hdep ?_ hp
      rcases hg with hg | hg
      · exact Or.inl hg
      · right
        subst hg
        obtain ⟨h5, h6⟩ := hcp2 (by simpa using hcp)
        rw [← h5, hlen]
    rw [if_neg hlen]
    cases hkb : key[(r.checkPrefix key depth).1]? with
    | none =>
      simp only
      intro s4 hR hI
      replace hK := hK.mono hR; replace hO := hO.mono hR; replace hT := hT.mono hR; replace hS := hS.mono hR; replace hp := hp.mono hR; replace hg := hg.mono hR
      clear hR
      obtain ⟨n0, hn0, hcap⟩ := hK.node_get
      refine ⟨n0, hn0, ?_⟩
      beta_reduce
      by_cases hw : n0.version = v
      · exfalso
        have e := hg.eq hn0 hw
        subst e
        obtain ⟨h5, h6⟩ := hcp2 (by simpa using hcp)
        rw [h5] at hkb hlen
        rw [List.getElem?_eq_none_iff] at hkb
        omega
      · have : decide (n0.version = v) = false := by simp [hw]
        rw [this]
        exact wp_done delQ_no hO hT
    | some b =>
      simp only
      -- reading the next pointer
      intro s4 hR hI
      replace hK := hK.mono hR; replace hO := hO.mono hR; replace hT := hT.mono hR; replace hS := hS.mono hR; replace hp := hp.mono hR; replace hg := hg.mono hR
      clear hR
      obtain ⟨n0, hn0, hcap⟩ := hK.node_get
      refine ⟨n0, hn0, ?_⟩
      beta_reduce
      intro r' hr1 hr2
      have hg' := hK.sc.got hn0 hr2
      clear hn0 hr1 hr2 hcap n0 hI
      -- check of the node
      intro s5 hR hI
      replace hK := hK.mono hR; replace hO := hO.mono hR; replace hT := hT.mono hR; replace hS := hS.mono hR; replace hp := hp.mono hR
      replace hg := hg.mono hR; replace hg' := hg'.mono hR
      clear hR
      obtain ⟨n0, hn0, hcap⟩ := hK.node_get
      refine ⟨n0, hn0, ?_⟩
      beta_reduce
      by_cases hw : n0.version = v
      swap
      · rw [if_pos hw]
        exact wp_done delQ_no hO hT
      rw [if_neg (by simp [hw])]
      have e1 := hg.eq hn0 hw
      have e2 := hg'.eq hn0 hw
      obtain ⟨e3, hl⟩ := hK.fresh hn0 hw
      rw [e1] at hkb hlen hcp ⊢
      rw [e2]
      clear hg hg' e1 e2
      subst e3
      obtain ⟨m, hm, root, ht⟩ := hI.tree
      have hE := hK.ctx.ec.2
      have hvw := view_eq hn0
      have hlv := ht.tree.leaves curr hl
      rw [hvw, hE] at hlv
      obtain ⟨h5, h6⟩ := hcp2 (by simpa using hcp)
      rw [h5] at hkb hlen ⊢
      have hp' : OnPath j key Pc s5 := by
        by_cases hh : Pc <+: key
        · exact Or.inl hh
        · rcases hp with hp | hp
          · right
            rw [← ht.absent hl hn0 (by rw [hE]; exact hdep) (by rw [hE]; exact hp) (by rw [hE]; exact hh)]
            exact hS.was hm key
          · exact Or.inr hp
      have hlt : Pc.length < key.length := by omega
      have hsn : Pc <+: key → Pc ++ [b] <+: key := fun hp => snoc_get hp hkb
      cases hfc : n0.findChild b with
      | none =>
        have hres : Was j key none s5 := by
          rcases hp' with hp' | hp'
          · rw [← ht.tree.lookup_none hl (by rw [hE]; exact hsn hp') (by rw [hvw]; show (n0.findChild b).map _ = _; rw [hfc]; rfl)]
            exact hS.was hm key
          · exact hp'
        exact wp_absent hO hT hres
      | some x =>
        obtain ⟨next, slot, pos⟩ := x
        cases next with
        | leaf l =>
          simp only
          have hcl := findChild_child hfc
          refine wp_removeLeaf hK hO hT hfc hlv ?_
          by_cases hmk : l.matchKey key = true
          · exact Or.inl hmk
          · right
            rcases hp' with hp' | hp'
            · have := ht.tree.lookup_leaf hl (by rw [hE]; exact hsn hp') (by rw [hvw]; exact hcl)
              rw [if_neg (by rw [← Leaf.matchKey_iff]; exact hmk)] at this
              rw [← this]
              exact hS.was hm key
            · exact hp'
        | node d =>
          simp only
          obtain ⟨Pd, q1, q2⟩ := hK.child hI hn0 hw hfc
          refine ih _ _ _ _ _ _ _ _ s5 q1 hO hT hS (by omega) ?_
          rw [q2]
          rcases hp' with hp' | hp'
          · exact Or.inl (hsn hp')
          · exact Or.inr hp'

theorem wp_delete : ∀ (fuel : Nat) (s : St), Owns c [] s → Tags c 0 s → Since j s →
    wp c (delEff key) pk (fun _ s => Owns c [] s ∧ (Tags c 1 s ∨ Tags c 0 s ∧ Was j key none s)) (delete key fuel) s := by
  intro fuel
  induction fuel with
  | zero => intro s hO hT hS s' hR hI; exact (hO.mono hR).free
  | succ fuel ih =>
    intro s hO hT hS
    rw [delete]
    refine wp.bind (wp.mono (Q := fun b s => delQ c j key b s ∧ Since j s) ?_ (wp.since ?_ hS))
    · rintro (_ | _) s1 - ⟨⟨h1, h2⟩, h3⟩
      · refine ih s1 h1 ?_ h3
        rcases h2 with ⟨h2, -⟩ | ⟨h2, -⟩
        · simp at h2
        · exact h2
      · intro s2 hR hI
        refine ⟨h1.mono hR, ?_⟩
        rcases h2 with ⟨-, h2⟩ | ⟨h2, h4⟩
        · exact Or.inl (Tags.mono h2 hR)
        · exact Or.inr ⟨Tags.mono h2 hR, (h4 rfl).mono hR⟩
    · refine wp_start hO ?_
      intro s1 r v Np Pp hR hC
      exact wp_remove fuel 0 0 v r (0, 0) Np Pp [] s1 hC (hO.mono hR) (hT.mono hR) (hS.mono hR) (Nat.zero_le _) (Or.inl (by simp))

end

end Art
