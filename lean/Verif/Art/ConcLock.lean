import Verif.Art.ConcPut

/-! # Taking the locks of a critical section -/

set_option linter.unusedSimpArgs false

namespace Art

open Surf Spec

section
variable {c : Nat} {eff : Map → Map → Prop} {pk : Prop} {α : Type} {Q : α → St → Prop} {x : α}
variable {s : St} {parent : Addr} {pv : Nat} {Np : Node} {Pp : Bytes} {depth : Nat} {curr : Addr} {Pc : Bytes} {loc : Loc} {v : Nat} {N : Node}

theorem Ctx.ne (h : Ctx s parent pv Np Pp depth curr Pc loc) : curr ≠ parent := by
  intro e
  subst e
  rcases h.pf with ⟨h1, -⟩ | ⟨h1, h2, b, slot, pos, h3, h4, h5⟩
  · exact h.c0 h1
  · have : Pc = Pp := by rw [← h.ec.2, ← h.ep.2]
    subst this
    rw [h2, List.take_of_length_le (by omega)] at h5
    have := congrArg List.length h5
    simp at this

theorem wp_lock1 {X : Prop} (hK : Know s parent pv Np Pp depth curr Pc loc v N) (hO : Owns c [] s) (hT : Tags c 0 s) (hX : Stale curr v s ∨ X)
    (hQ : ∀ s, Owns c [] s → Tags c 0 s → Q x s) {rest : Prog α}
    (next : ∀ s0 s1, Rely c s s0 → s0.heap[curr]? = some N → s1 = s0.acquire c curr N.version → Owns c [curr] s1 → Tags c 0 s1 →
      Own c curr { N with version := v + 2 } s1 → Know s1 parent pv Np Pp depth curr Pc loc v N → X → wp c eff pk Q rest s1) :
    wp c eff pk Q (.cas curr v fun ok => if !ok then .ret x else rest) s := by
  intro s1 hR hI
  replace hK := hK.mono hR; replace hO := hO.mono hR; replace hT := hT.mono hR; replace hX := hX.imp (fun y => Stale.mono y hR) id
  obtain ⟨n0, hn0, -⟩ := hK.node_get
  refine ⟨hK.v4, n0, hn0, ?_, ?_⟩
  · intro hw
    beta_reduce
    rw [if_neg (by simp)]
    obtain ⟨e, hl⟩ := hK.fresh hn0 hw
    subst e
    subst hw
    exact next s1 _ hR hn0 rfl (hO.acquire _ _) hT (own_acquire hn0 (fun _ => hl)) (hK.acquire hn0) (hX.resolve_left (fun y => y.ne hn0 rfl))
  · intro hw
    beta_reduce
    rw [if_pos (by simp)]
    exact wp_done hQ hO hT

theorem wp_checkParent {X : Prop} (hK : Know s parent pv Np Pp depth curr Pc loc v N) (hO : Owns c [curr] s) (hT : Tags c 0 s)
    {M : Node} (hC : Own c curr M s) (hX : Stale parent pv s ∨ X)
    (hQ : ∀ s, Owns c [] s → Tags c 0 s → Q x s) {rest : Prog α}
    (next : ∀ s1, Owns c [curr] s1 → Tags c 0 s1 → Own c curr M s1 → Ctx s1 parent pv Np Pp depth curr Pc loc →
      depth + N.prefixLen = Pc.length → X → wp c eff pk Q rest s1) :
    wp c eff pk Q (.load parent fun w => if w ≠ pv then .unlock curr (.ret x) else rest) s := by
  intro s1 hR hI
  replace hK := hK.mono hR; replace hO := hO.mono hR; replace hT := hT.mono hR; replace hX := hX.imp (fun y => Stale.mono y hR) id
  replace hC := hC.mono hR
  obtain ⟨n0, hn0⟩ := hK.parent_get
  refine ⟨n0, hn0, ?_⟩
  beta_reduce
  by_cases hw : n0.version = pv
  · rw [if_neg (by simp [hw])]
    exact next s1 hO hT hC hK.ctx (hK.depth_eq hn0 hw) (hX.resolve_left (fun y => y.ne hn0 hw))
  · rw [if_pos hw]
    exact wp_fin1 hQ hO (hC.held hI) (Or.inr hK.ctx.c0) hT

theorem wp_lock2 {X : Prop} (hK : Know s parent pv Np Pp depth curr Pc loc v N) (hO : Owns c [] s) (hT : Tags c 0 s)
    (hX : Stale parent pv s ∨ Stale curr v s ∨ X) (hQ : ∀ s, Owns c [] s → Tags c 0 s → Q x s) {rest : Prog α}
    (next : ∀ s1, Owns c [curr, parent] s1 → Tags c 0 s1 → Own c parent { Np with version := pv + 2 } s1 →
      Own c curr { N with version := v + 2 } s1 → Ctx s1 parent pv Np Pp depth curr Pc loc → NodeOK Pc (Pc = []) N →
      depth + N.prefixLen = Pc.length → X → wp c eff pk Q rest s1) :
    wp c eff pk Q (.cas parent pv fun ok => if !ok then .ret x else .cas curr v fun ok => if !ok then .unlock parent (.ret x) else rest) s := by
  intro s1 hR hI
  replace hK := hK.mono hR; replace hO := hO.mono hR; replace hT := hT.mono hR
  replace hX := hX.imp (fun y => Stale.mono y hR) (Or.imp (fun y => Stale.mono y hR) id)
  clear hR
  obtain ⟨n0, hn0⟩ := hK.parent_get
  refine ⟨hK.ctx.p4, n0, hn0, ?_, ?_⟩
  · intro hw
    beta_reduce
    rw [if_neg (by simp)]
    have hdep := hK.depth_eq hn0 hw
    replace hX := hX.resolve_left (fun y => y.ne hn0 hw)
    obtain ⟨e, hl⟩ := hK.ctx.sp.fresh hn0 hw
    subst e
    subst hw
    replace hK := hK.acquire (c := c) hn0
    have hOp := own_acquire (c := c) hn0 hl
    replace hO := hO.acquire parent n0.version
    replace hT : Tags c 0 (s1.acquire c parent n0.version) := hT
    replace hX := hX.imp (fun y => Stale.acquire (c := c) y hn0) id
    generalize s1.acquire c parent n0.version = s2 at *
    intro s3 hR hI3
    replace hK := hK.mono hR; replace hO := hO.mono hR; replace hT := hT.mono hR
    replace hX := hX.imp (fun y => Stale.mono y hR) id
    replace hOp := hOp.mono hR
    clear hR
    obtain ⟨nc, hnc, -⟩ := hK.node_get
    refine ⟨hK.v4, nc, hnc, ?_, ?_⟩
    · intro hw
      beta_reduce
      rw [if_neg (by simp)]
      obtain ⟨e, hl⟩ := hK.fresh hnc hw
      subst e
      subst hw
      have hne := hK.ctx.ne
      exact next _ (hO.acquire _ _) hT (hOp.acquire hne.symm _) (own_acquire hnc (fun _ => hl)) (hK.ctx.acquire hnc) hK.ok hdep
        (hX.resolve_left (fun y => y.ne hnc rfl))
    · intro hw
      beta_reduce
      rw [if_pos (by simp)]
      refine wp_fin1 hQ hO (hOp.held hI3) ?_ hT
      by_cases h0 : parent = 0
      · exact Or.inl h0
      · exact Or.inr h0
  · intro hw
    beta_reduce
    rw [if_pos (by simp)]
    exact wp_done hQ hO hT

end

end Art
