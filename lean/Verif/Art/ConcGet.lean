import Verif.Art.RG2

/-! # Concurrent `Get` -/

set_option linter.unusedSimpArgs false

namespace Art

open Surf Spec

/-- What a call knows when it gets to the node `curr`: the pointer `loc` to it was in the node `parent` at the version `pv`. -/
structure Ctx (s : St) (parent : Addr) (pv : Nat) (Np : Node) (Pp : Bytes) (depth : Nat) (curr : Addr) (Pc : Bytes) (loc : Loc) : Prop where
  sp : Snap parent pv Np s
  p4 : pv % 4 = 0
  ep : IsE parent Pp s
  ec : IsE curr Pc s
  c0 : curr ≠ 0
  loc1 : loc.1 = parent
  pf : parent = 0 ∧ depth = 0 ∧ Pc = [] ∨
    parent ≠ 0 ∧ depth = Pp.length + 1 ∧ ∃ b slot pos, loc = (parent, slot) ∧ Np.findChild b = some (.node curr, slot, pos) ∧
      Pc.take depth = Pp ++ [b]

section
variable {c : Nat} {s s' : St} {parent : Addr} {pv : Nat} {Np : Node} {Pp : Bytes} {depth : Nat} {curr : Addr} {Pc : Bytes} {loc : Loc} {v : Nat} {N : Node}

theorem Ctx.mono (h : Ctx s parent pv Np Pp depth curr Pc loc) (hR : Rely c s s') : Ctx s' parent pv Np Pp depth curr Pc loc :=
  ⟨h.sp.mono h.p4 hR, h.p4, h.ep.mono hR, h.ec.mono hR, h.c0, h.loc1, h.pf⟩

theorem Ctx.acquire (h : Ctx s parent pv Np Pp depth curr Pc loc) {a : Addr} {n : Node} (hn : s.heap[a]? = some n) :
    Ctx (s.acquire c a n.version) parent pv Np Pp depth curr Pc loc :=
  ⟨h.sp.acquire hn, h.p4, h.ep.acquire _, h.ec.acquire _, h.c0, h.loc1, h.pf⟩

theorem Ctx.parent0 (h : Ctx s parent pv Np Pp depth curr Pc loc) : parent = 0 ↔ Pc = [] := by
  rcases h.pf with ⟨h1, h2, h3⟩ | ⟨h1, h2, b, slot, pos, h3, h4, h5⟩
  · simp [h1, h3]
  · constructor
    · intro e
      exact absurd e h1
    · intro e
      rw [e] at h5
      simp at h5

/-- At an instant when the parent is unchanged and the node belongs to the tree. -/
theorem Ctx.at_ (h : Ctx s parent pv Np Pp depth curr Pc loc) {root : Addr} {m : Map} (ht : HTr s.E s.live s.heap root m) {np : Node}
    (hp : s.heap[parent]? = some np) (hpl : parent ≠ 0 → s.live parent) (hw : ∀ b, np.findChild b = Np.findChild b) (hl : s.live curr) :
    At s.E s.live s.heap root loc curr ∧ ∃ n, s.heap[curr]? = some n ∧ depth + n.prefixLen = Pc.length := by
  rcases h.pf with ⟨h1, h2, h3⟩ | ⟨h1, h2, b, slot, pos, h3, h4, h5⟩
  · have hr : curr = root := ht.tree.inj _ _ hl ht.tree.root_live (by rw [h.ec.2, h3, ht.tree.root_E])
    obtain ⟨n, g1, g2, g3, g4, g5⟩ := ht.root_facts
    constructor
    · obtain ⟨x, y⟩ := loc
      have e : x = 0 := by
        have := h.loc1
        simp only at this
        rw [this, h1]
      subst e
      subst hr
      exact .root y
    · rw [hr]
      exact ⟨n, g2, by rw [h2, g3, h3]; rfl⟩
  · have hf : np.findChild b = some (.node curr, slot, pos) := by rw [hw]; exact h4
    constructor
    · rw [h3]
      exact .child (hpl h1) hp hf
    · obtain ⟨-, -, -, -, nc, k1, k2⟩ := ht.child_node (hpl h1) hp (findChild_child hf)
      refine ⟨nc, k1, ?_⟩
      rw [h.ep.2, h.ec.2] at k2
      omega

/-- What a call knows once it has the version of `curr`. -/
structure Know (s : St) (parent : Addr) (pv : Nat) (Np : Node) (Pp : Bytes) (depth : Nat) (curr : Addr) (Pc : Bytes) (loc : Loc) (v : Nat)
    (N : Node) : Prop where
  ctx : Ctx s parent pv Np Pp depth curr Pc loc
  sc : Snap curr v N s
  v4 : v % 4 = 0
  ok : NodeOK Pc (Pc = []) N
  d : Stale parent pv s ∨ depth + N.prefixLen = Pc.length

theorem Know.mono (h : Know s parent pv Np Pp depth curr Pc loc v N) (hR : Rely c s s') : Know s' parent pv Np Pp depth curr Pc loc v N :=
  ⟨h.ctx.mono hR, h.sc.mono h.v4 hR, h.v4, h.ok, h.d.imp (fun x => x.mono hR) id⟩

theorem Know.acquire (h : Know s parent pv Np Pp depth curr Pc loc v N) {a : Addr} {n : Node} (hn : s.heap[a]? = some n) :
    Know (s.acquire c a n.version) parent pv Np Pp depth curr Pc loc v N :=
  ⟨h.ctx.acquire hn, h.sc.acquire hn, h.v4, h.ok, h.d.imp (fun x => x.acquire hn) id⟩

theorem mod4_of {v : Nat} (h1 : locked v = false) (h2 : obsolete v ≠ true) : v % 4 = 0 := by
  simp [locked, obsolete] at h1 h2
  omega

theorem Ctx.wait (h : Ctx s parent pv Np Pp depth curr Pc loc) (hI : Inv s) {n : Node} (hn : s.heap[curr]? = some n)
    (h4 : n.version % 4 = 0) : Know s parent pv Np Pp depth curr Pc loc n.version n := by
  have hl := hI.live_of hn h.c0 h4
  refine ⟨h, ⟨n, hn, rfl, Nat.le_refl _, fun _ => ⟨rfl, fun _ => hl⟩⟩, h4, ?_, ?_⟩
  · obtain ⟨m, -, root, ht⟩ := hI.tree
    obtain ⟨n', hn', -, hok⟩ := ht.view_live hl
    rw [hn] at hn'
    cases hn'
    rw [h.ec.2] at hok
    refine ⟨hok.wf, hok.plen_le, hok.pre, hok.min, fun hne => hok.two ?_⟩
    rintro rfl
    exact hne (by rw [← h.ec.2, ht.tree.root_E])
  rcases h.sp.stale_or with hs | ⟨h1, h2, h3⟩
  · exact Or.inl hs
  · obtain ⟨m, -, root, ht⟩ := hI.tree
    obtain ⟨-, n', k1, k2⟩ := h.at_ ht h1 h3 (fun _ => rfl) hl
    rw [hn] at k1
    cases k1
    exact Or.inr k2

/-- The parent is found unchanged. -/
theorem Know.depth_eq (h : Know s parent pv Np Pp depth curr Pc loc v N) {np : Node} (hn : s.heap[parent]? = some np) (e : np.version = pv) :
    depth + N.prefixLen = Pc.length := by
  rcases h.d with hs | hd
  · exact absurd e (hs.ne hn)
  · exact hd

/-- The node is found unchanged. -/
theorem Know.fresh (h : Know s parent pv Np Pp depth curr Pc loc v N) {n : Node} (hn : s.heap[curr]? = some n) (e : n.version = v) :
    n = N ∧ s.live curr := by
  obtain ⟨h1, h2⟩ := h.sc.fresh hn e
  exact ⟨h1, h2 h.ctx.c0⟩

theorem Know.node_get (h : Know s parent pv Np Pp depth curr Pc loc v N) : ∃ n, s.heap[curr]? = some n ∧ n.cap = N.cap := by
  obtain ⟨n, h1, h2, -⟩ := h.sc
  exact ⟨n, h1, h2⟩

theorem Know.parent_get (h : Know s parent pv Np Pp depth curr Pc loc v N) : ∃ n, s.heap[parent]? = some n := by
  obtain ⟨n, h1, -⟩ := h.ctx.sp
  exact ⟨n, h1⟩

/-- A read of the node `curr`: the contents are `N`, or the node has changed. -/
def Got (a : Addr) (v : Nat) (N r : Node) (s : St) : Prop := Stale a v s ∨ r = N

theorem Got.mono {a : Addr} {r : Node} (h : Got a v N r s) (hR : Rely c s s') : Got a v N r s' := h.imp (fun x => x.mono hR) id

theorem Got.acquire {a b : Addr} {r n : Node} (h : Got a v N r s) (hn : s.heap[b]? = some n) : Got a v N r (s.acquire c b n.version) :=
  h.imp (fun x => x.acquire hn) id

theorem Got.eq {a : Addr} {r n : Node} (h : Got a v N r s) (hn : s.heap[a]? = some n) (e : n.version = v) : r = N := by
  rcases h with h | h
  · exact absurd e (h.ne hn)
  · exact h

theorem Snap.got {a : Addr} {n r : Node} (h : Snap a v N s) (hn : s.heap[a]? = some n) (hr : n.version = v → r = n) : Got a v N r s := by
  rcases h.stale_or with hs | ⟨h1, h2, -⟩
  · exact Or.inl hs
  · rw [hn] at h1
    cases h1
    exact Or.inr (hr h2)

/-- The context for a child. -/
theorem Know.child (h : Know s parent pv Np Pp depth curr Pc loc v N) (hI : Inv s) {n : Node} (hn : s.heap[curr]? = some n)
    (e : n.version = v) {b : UInt8} {d : Addr} {slot pos : Nat} (hf : N.findChild b = some (.node d, slot, pos)) :
    ∃ Pd, Ctx s curr v N Pc (Pc.length + 1) d Pd (curr, slot) ∧ Pd.take (Pc.length + 1) = Pc ++ [b] := by
  obtain ⟨h1, h2⟩ := h.fresh hn e
  subst h1
  obtain ⟨m, -, root, ht⟩ := hI.tree
  obtain ⟨k1, k2, k3, k4, nc, k5, k6⟩ := ht.child_node h2 hn (findChild_child hf)
  rw [h.ctx.ec.2] at k4
  refine ⟨s.E d, ⟨h.sc, h.v4, h.ctx.ec, ⟨ht.lt k1, rfl⟩, ht.ne_zero k1, rfl, Or.inr ⟨h.ctx.c0, rfl, b, slot, pos, rfl, hf, ?_⟩⟩, ?_⟩
  · exact k4
  · exact k4

end

section
variable {c : Nat} {eff : Map → Map → Prop} {pk : Prop} {s : St}

/-- The key is known to continue along the path of the node, or to have been absent at some instant of the call. -/
def OnPath (j : Nat) (key P : Bytes) (s : St) : Prop := P <+: key ∨ Was j key none s

theorem OnPath.mono {j key P} {s s' : St} (h : OnPath j key P s) (hR : Rely c s s') : OnPath j key P s' := h.imp id (fun x => x.mono hR)

theorem wp_search (key : Bytes) (j : Nat) : ∀ (fuel depth : Nat) (parent : Addr) (pv : Nat) (curr : Addr) (Np : Node) (Pp Pc : Bytes) (loc : Loc) (s : St),
    Ctx s parent pv Np Pp depth curr Pc loc → Owns c [] s → Since j s → depth ≤ key.length → OnPath j key (Pc.take depth) s →
    wp c eff pk (fun r s => Owns c [] s ∧ Since j s ∧ ∀ o, r = some o → Was j key o s) (search key fuel depth parent pv curr) s := by
  intro fuel
  induction fuel with
  | zero =>
    intro depth parent pv curr Np Pp Pc loc s hC hO hS hd hp s' hR hI
    exact (hO.mono hR).free
  | succ fuel ih =>
    intro depth parent pv curr Np Pp Pc loc s hC hO hS hd hp
    unfold search
    -- waitUnlock
    intro s1 hR hI
    replace hC := hC.mono hR; replace hO := hO.mono hR; replace hS := hS.mono hR; replace hp := hp.mono hR
    clear hR
    refine ⟨hO.free, s1.heap[curr]'hC.ec.1, List.getElem?_eq_getElem hC.ec.1, ?_⟩
    generalize hn : s1.heap[curr]'hC.ec.1 = N
    have hn' : s1.heap[curr]? = some N := by rw [← hn]; exact List.getElem?_eq_getElem hC.ec.1
    clear hn
    intro hlk
    beta_reduce
    by_cases hob : obsolete N.version = true
    · rw [if_pos hob]
      intro s2 hR hI2
      exact ⟨hO.mono hR, hS.mono hR, by simp⟩
    rw [if_neg hob]
    have hK := hC.wait hI hn' (mod4_of hlk hob)
    clear hC hn' hlk hob hI
    generalize N.version = v at hK
    -- check of the parent
    intro s2 hR hI
    replace hK := hK.mono hR; replace hO := hO.mono hR; replace hS := hS.mono hR; replace hp := hp.mono hR
    clear hR
    obtain ⟨np, hnp⟩ := hK.parent_get
    refine ⟨np, hnp, ?_⟩
    beta_reduce
    by_cases hw : np.version = pv
    swap
    · rw [if_pos hw]
      intro s3 hR hI3
      exact ⟨hO.mono hR, hS.mono hR, by simp⟩
    rw [if_neg (by simp [hw])]
    have hdep := hK.depth_eq hnp hw
    clear hnp hw hI
    -- checkPrefix
    intro s3 hR hI
    replace hK := hK.mono hR; replace hO := hO.mono hR; replace hS := hS.mono hR; replace hp := hp.mono hR
    clear hR
    obtain ⟨n0, hn0, hcap⟩ := hK.node_get
    refine ⟨n0, hn0, ?_⟩
    beta_reduce
    intro r hr1 hr2
    have hg := hK.sc.got hn0 hr2
    clear hn0 hr1 hr2 hcap n0 hI
    by_cases hcp : (r.checkPrefix key depth).2 = false
    · rw [if_pos hcp]
      intro s4 hR hI
      replace hK := hK.mono hR; replace hO := hO.mono hR; replace hS := hS.mono hR; replace hp := hp.mono hR; replace hg := hg.mono hR
      clear hR
      obtain ⟨n0, hn0, hcap⟩ := hK.node_get
      refine ⟨n0, hn0, ?_⟩
      beta_reduce
      by_cases hw : n0.version = v
      · have e := hg.eq hn0 hw
        obtain ⟨e', hl⟩ := hK.fresh hn0 hw
        subst e'; subst e
        obtain ⟨m, hm, root, ht⟩ := hI.tree
        have hres : Was j key none s4 := by
          rcases hp with hp | hp
          · obtain ⟨nn, hnn, -, hok⟩ := ht.view_live hl
            rw [hn0] at hnn; cases hnn
            obtain ⟨hcp1, -⟩ := checkPrefix_spec (key := key) (by rw [hK.ctx.ec.2]; exact hdep) hok.pre hd
            rw [← ht.absent (key := key) hl hn0 (by rw [hK.ctx.ec.2]; exact hdep) (by rw [hK.ctx.ec.2]; exact hp) (hcp1 hcp)]
            exact hS.was hm key
          · exact hp
        intro s5 hR hI5
        refine ⟨hO.mono hR, hS.mono hR, ?_⟩
        intro o ho
        rw [if_pos hw] at ho
        cases ho
        exact hres.mono hR
      · intro s5 hR hI5
        refine ⟨hO.mono hR, hS.mono hR, ?_⟩
        intro o ho
        rw [if_neg hw] at ho
        simp at ho
    rw [if_neg hcp]
    -- reading the next pointer
    intro s4 hR hI
    replace hK := hK.mono hR; replace hO := hO.mono hR; replace hS := hS.mono hR; replace hp := hp.mono hR; replace hg := hg.mono hR
    clear hR
    obtain ⟨n0, hn0, hcap⟩ := hK.node_get
    refine ⟨n0, hn0, ?_⟩
    beta_reduce
    intro r' hr1 hr2
    have hg' := hK.sc.got hn0 hr2
    clear hn0 hr1 hr2 hcap n0 hI
    -- check of the node
    intro s5 hR hI
    replace hK := hK.mono hR; replace hO := hO.mono hR; replace hS := hS.mono hR; replace hp := hp.mono hR
    replace hg := hg.mono hR; replace hg' := hg'.mono hR
    clear hR
    obtain ⟨n0, hn0, hcap⟩ := hK.node_get
    refine ⟨n0, hn0, ?_⟩
    beta_reduce
    by_cases hw : n0.version = v
    swap
    · rw [if_pos hw]
      intro s6 hR hI6
      exact ⟨hO.mono hR, hS.mono hR, by simp⟩
    rw [if_neg (by simp [hw])]
    have e1 := hg.eq hn0 hw
    have e2 := hg'.eq hn0 hw
    obtain ⟨e3, hl⟩ := hK.fresh hn0 hw
    subst e3; subst e1; subst e2
    clear hg hg'
    obtain ⟨m, hm, root, ht⟩ := hI.tree
    obtain ⟨nn, hnn, -, hok⟩ := ht.view_live hl
    rw [hn0] at hnn; cases hnn
    have hE := hK.ctx.ec.2
    obtain ⟨-, hcp2⟩ := checkPrefix_spec (key := key) (P := s5.E curr) (by rw [hE]; exact hdep) hok.pre hd
    obtain ⟨h5, h6⟩ := hcp2 (by simpa using hcp)
    rw [h5]
    have hp' : OnPath j key (s5.E curr) s5 := by
      by_cases hh : s5.E curr <+: key
      · exact Or.inl hh
      · rcases hp with hp | hp
        · right
          rw [← ht.absent hl hn0 (by rw [hE]; exact hdep) (by rw [hE]; exact hp) hh]
          exact hS.was hm key
        · exact Or.inr hp
    cases hx : nextNode r' key (s5.E curr).length with
    | none =>
      have hres : Was j key none s5 := by
        rcases hp' with hp' | hp'
        · have := ht.next_spec hl hn0 hp'
          rw [hx] at this
          simp only at this
          rw [← this]
          exact hS.was hm key
        · exact hp'
      intro s6 hR hI6
      refine ⟨hO.mono hR, hS.mono hR, ?_⟩
      intro o ho
      cases ho
      exact hres.mono hR
    | some x =>
      cases x with
      | leaf l =>
        have hres : Was j key (if l.matchKey key then some l.value else none) s5 := by
          rcases hp' with hp' | hp'
          · have := ht.next_spec hl hn0 hp'
            rw [hx] at this
            simp only at this
            rw [← this]
            exact hS.was hm key
          · by_cases hmk : l.matchKey key = true
            · have := ht.next_leaf hl hn0 hx hmk
              rw [if_pos hmk, ← this]
              exact hS.was hm key
            · rw [if_neg hmk]
              exact hp'
        intro s6 hR hI6
        refine ⟨hO.mono hR, hS.mono hR, ?_⟩
        intro o ho
        cases ho
        exact hres.mono hR
      | node d =>
        simp only
        obtain ⟨b, h7, h8, h9⟩ := next_node hx
        obtain ⟨⟨rr, slot, pos⟩, hfc, hfe⟩ : ∃ y, r'.findChild b = some y ∧ y.1 = .node d := by
          unfold Node.child at h7
          cases hfc : r'.findChild b with
          | none => rw [hfc] at h7; simp at h7
          | some y => rw [hfc] at h7; simp at h7; exact ⟨y, rfl, h7⟩
        simp only at hfe
        subst hfe
        obtain ⟨Pd, q1, q2⟩ := hK.child hI hn0 hw hfc
        rw [hE]
        rw [hE] at h9 h8 hp'
        refine ih _ _ _ _ _ _ _ _ s5 q1 hO hS (by omega) ?_
        rw [q2]
        rcases hp' with hp' | hp'
        · exact Or.inl (snoc_get hp' h8)
        · exact Or.inr hp'

theorem Inv.root (hI : Inv s) : ∃ n root, s.heap[0]? = some n ∧ n.root = some (.node root) ∧ IsE root [] s ∧ root ≠ 0 := by
  obtain ⟨m, -, root, ht⟩ := hI.tree
  obtain ⟨d, hd, hk⟩ := ht.dummy
  exact ⟨d, root, hd, by simp [Node.root, hk], ⟨ht.lt ht.tree.root_live, ht.tree.root_E⟩, ht.ne_zero ht.tree.root_live⟩

theorem Inv.dummy_snap (hI : Inv s) {n : Node} (hn : s.heap[0]? = some n) (hl : locked n.version = false) :
    n.version % 4 = 0 ∧ Snap 0 n.version n s ∧ IsE 0 (s.E 0) s := by
  have h0 := hI.zero n hn
  refine ⟨?_, ⟨n, hn, rfl, Nat.le_refl _, fun _ => ⟨rfl, fun h => absurd rfl h⟩⟩, (List.getElem?_eq_some_iff.mp hn).1, rfl⟩
  simp [locked] at hl
  omega

theorem wp_start {α : Type} {Q : α → St → Prop} {k : Addr → Nat → Prog α} (hO : Owns c [] s)
    (hk : ∀ s' r v Np Pp, Rely c s s' → Ctx s' 0 v Np Pp 0 r [] (0, 0) → wp c eff pk Q (k r v) s') : wp c eff pk Q (start k) s := by
  unfold start
  intro s1 hR1 hI1 b
  beta_reduce
  cases b with
  | true =>
    rw [if_pos rfl]
    intro s2 hR2 hI2
    obtain ⟨n, root, h1, h2, h3, h4⟩ := hI2.root
    refine ⟨n, h1, ?_⟩
    beta_reduce
    rw [h2]
    intro s3 hR3 hI3
    obtain ⟨n', root', g1, -⟩ := hI3.root
    have hR := (hR1.trans hR2).trans hR3
    refine ⟨(hO.mono hR).free, n', g1, ?_⟩
    intro hlk
    obtain ⟨k1, k2, k3⟩ := hI3.dummy_snap g1 hlk
    exact hk s3 _ _ n' _ hR ⟨k2, k1, k3, h3.mono hR3, h4, rfl, Or.inl ⟨rfl, rfl, rfl⟩⟩
  | false =>
    rw [if_neg (by simp)]
    intro s2 hR2 hI2
    obtain ⟨n', root', g1, -⟩ := hI2.root
    refine ⟨(hO.mono (hR1.trans hR2)).free, n', g1, ?_⟩
    intro hlk
    obtain ⟨k1, k2, k3⟩ := hI2.dummy_snap g1 hlk
    intro s3 hR3 hI3
    obtain ⟨n, root, h1, h2, h3, h4⟩ := hI3.root
    have hR := (hR1.trans hR2).trans hR3
    refine ⟨n, h1, ?_⟩
    beta_reduce
    rw [h2]
    exact hk s3 _ _ n' _ hR ⟨k2.mono k1 hR3, k1, k3.mono hR3, h3, h4, rfl, Or.inl ⟨rfl, rfl, rfl⟩⟩

theorem wp_get (key : Bytes) (j : Nat) : ∀ (fuel : Nat) (s : St), Owns c [] s → Since j s →
    wp c eff pk (fun o s => Owns c [] s ∧ Was j key o s) (get key fuel) s := by
  intro fuel
  induction fuel with
  | zero => intro s hO hS s' hR hI; exact (hO.mono hR).free
  | succ fuel ih =>
    intro s hO hS
    rw [get]
    refine wp.bind (wp.mono (Q := fun r s => Owns c [] s ∧ Since j s ∧ ∀ o, r = some o → Was j key o s) ?_ ?_)
    · rintro (_ | o) s1 - ⟨h1, h2, h3⟩
      · exact ih s1 h1 h2
      · intro s2 hR hI
        exact ⟨h1.mono hR, (h3 o rfl).mono hR⟩
    · refine wp_start hO ?_
      intro s1 r v Np Pp hR hC
      exact wp_search key j fuel 0 0 v r Np Pp [] (0, 0) s1 hC (hO.mono hR) (hS.mono hR) (Nat.zero_le _) (Or.inl (by simp))

end

end Art
