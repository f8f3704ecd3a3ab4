import Verif.Art.WrapProg
import Verif.Art.Absent

/-! # A run with wrapping arithmetic is a run over the natural numbers -/

set_option linter.unusedSimpArgs false

namespace Art.U32

open Surf (Word Bytes usub)
open Spec Props

/-! ## Facts from the rely-guarantee proofs -/

section
variable {i : Nat} {eff : Map → Map → Prop} {pk : Prop} {α : Type} {Q : α → St → Prop}

/-- A node that is unlocked and not made obsolete is in the tree. -/
theorem keeps_live : ∀ {p : Prog α} {s : St}, wp i eff pk Q p s → Inv s → ∀ {a : Addr}, a ∈ keeps p → a ≠ 0 → s.live a := by
  intro p
  induction p with
  | unlock b k ih =>
    intro s h hI a ha h0
    obtain ⟨h1, h2, n, h3, h4⟩ := h s (Rely.refl _ _) hI
    rcases List.mem_cons.mp ha with rfl | ha
    · exact h2.resolve_left h0
    · have := ih h4 (hI.release h3 (by rw [h1]; simp) (.inl ⟨rfl, h2⟩)) ha h0
      exact this
  | unlockObsolete b k ih =>
    intro s h hI a ha h0
    obtain ⟨h1, h2, h5, n, h3, h4⟩ := h s (Rely.refl _ _) hI
    exact ih h4 (hI.release h3 (by rw [h1]; simp) (.inr ⟨rfl, h2, h5⟩)) ha h0
  | _ => intro s h hI a ha; cases ha

/-- The lock that `compressChild` takes is not that of the dummy node. -/
theorem lock_ne_zero {a b : Addr} {k : Bool → Prog α} {f : Heap → Option Heap} {k1 : Prog α} {s : St} {n : Node} (h : wp i eff pk Q (.lock a k) s) (hI : Inv s)
    (hk : k true = .write f (.unlock a (.unlockObsolete b k1))) (hn : s.heap[a]? = some n) (hl : locked n.version = false) (ho : obsolete n.version = false) : a ≠ 0 := by
  obtain ⟨h1, n', h2, -, h3⟩ := h s (Rely.refl _ _) hI
  rw [hn] at h2
  cases h2
  have h4 := h3 hl ho
  rw [hk] at h4
  have h40 : n.version % 4 = 0 := by
    simp [locked] at hl
    simp [obsolete] at ho
    omega
  have hI2 : Inv (s.acquire i a n.version) := hI.acquire hn h40
  obtain ⟨-, h', m, m', s2, -, -, -, hC, hI3, h5⟩ := h4 _ (Rely.refl _ _) hI2
  obtain ⟨g1, g2, n2, g3, g4⟩ := h5 s2 (Rely.refl _ _) hI3
  obtain ⟨g5, -⟩ := g4 _ (Rely.refl _ _) (hI3.release g3 (by rw [g1]; simp) (.inl ⟨rfl, g2⟩))
  have g6 : upd s2.owner a none b = some i := g5
  rw [upd_eq] at g6
  split at g6
  · cases g6
  · rename_i hba
    rw [hC.owner] at g6
    have g7 : upd s.owner a (some i) b = some i := g6
    rw [upd_eq, if_neg hba] at g7
    have := h1 b g7
    rintro rfl
    simp [St.rank] at this

end

/-- A node of the tree has a prefix no longer than the longest stored key. -/
theorem Inv.low {s : St} (hI : Inv s) {m : Map} (hm : s.Now m) {N : Nat} (hN : 0 < N) (hK : ∀ K, m K ≠ none → K.length < N) {a : Addr} (ha : s.live a) {n : Node}
    (hn : s.heap[a]? = some n) : n.prefixLen < N := by
  obtain ⟨m', hm', root, ht⟩ := hI.tree
  have e : m' = m := by
    obtain ⟨t, h1⟩ := hm
    obtain ⟨t', h2⟩ := hm'
    rw [h1] at h2
    cases h2
    rfl
  subst e
  obtain ⟨n', h1, h2⟩ := ht.node a ha
  rw [hn] at h1
  cases h1
  have h3 := h2.plen_le
  rcases ht.parts ha with h4 | ⟨K, -, h4, -, -, h5, -⟩
  · rw [h4] at h3
    simp at h3
    omega
  · have := hK K h4
    have := h5.length_le
    omega

/-! ## The simulation -/

/-- The states of a call. -/
inductive PRel : Proc → Proc → Prop
  | idle : PRel .idle .idle
  | running {c p p'} : Small c → Near Any p p' → PRel (.running c p) (.running c p')
  | done {c o} : PRel (.done c o) (.done c o)
  | crashed {c} : PRel (.crashed c) (.crashed c)

/-- The states of the two systems. -/
structure Rel (σ τ : Conf) : Prop where
  heap : σ.heap = τ.heap
  owner : σ.owner = τ.owner
  procs : ∀ i, PRel (σ.procs i) (τ.procs i)

theorem Rel.to {σ τ : Conf} (h : Rel σ τ) (i : Nat) (g : Heap) {p p' : Proc} (hp : PRel p p') : Rel (σ.to i g p) (τ.to i g p') := by
  refine ⟨rfl, h.owner, fun j => ?_⟩
  show PRel (if j = i then p else σ.procs j) (if j = i then p' else τ.procs j)
  split
  · exact hp
  · exact h.procs j

theorem Rel.own {σ τ : Conf} (h : Rel σ τ) (a : Addr) (o : Option Nat) : Rel (σ.own a o) (τ.own a o) :=
  ⟨h.heap, by show upd σ.owner a o = upd τ.owner a o; rw [h.owner], h.procs⟩

theorem Rel.running {σ τ : Conf} (h : Rel σ τ) {i : Nat} {c : Call} {p' : Prog (Option Bytes)} (hp : τ.procs i = .running c p') :
    ∃ p, σ.procs i = .running c p ∧ Small c ∧ Near Any p p' := by
  have := h.procs i
  rw [hp] at this
  generalize hq : σ.procs i = q at this
  cases this with
  | running h1 h2 => exact ⟨_, rfl, h1, h2⟩

theorem small_fits {c : Call} (h : Small c) : c.Fits := by
  cases c with
  | get k => trivial
  | put k v => exact ⟨by have := h.1; omega, h.2⟩
  | delete k => trivial

theorem near_faulty {p p' : Prog (Option Bytes)} {h : Heap} (hn : Near Any p p') (hl : Low h) (hf : Faulty h p') : Faulty h p := by
  cases hn with
  | ret _ => exact hf
  | panic => trivial
  | diverge => exact hf
  | wait _ => exact hf
  | load _ => exact hf
  | cas _ => exact hf
  | lock _ _ _ => exact hf
  | unlock _ => exact hf
  | unlockObsolete _ => exact hf
  | read _ => exact hf
  | readRoot _ => exact hf
  | choose _ => exact hf
  | write h1 _ _ =>
    show _ = none
    rw [h1 h hl]
    exact hf

/-- What holds of the heap at every instant. -/
structure Fine (h : Heap) : Prop where
  low : Low h
  zero : ∀ d, h[0]? = some d → d.prefixLen = 0

theorem Fine.setVer {h : Heap} (hf : Fine h) (a : Addr) (v : Nat) : Fine (Art.setVer h a v) := by
  have : ∀ (b : Addr) n', (Art.setVer h a v)[b]? = some n' → ∃ n, h[b]? = some n ∧ n'.prefixLen = n.prefixLen := by
    intro b n' hb
    rw [getElem?_setVer] at hb
    split at hb
    · obtain ⟨n, h1, rfl⟩ := Option.map_eq_some_iff.mp hb
      exact ⟨n, h1, rfl⟩
    · exact ⟨n', hb, rfl⟩
  constructor
  · intro b n' hb
    obtain ⟨n, h1, h2⟩ := this b n' hb
    rw [h2]
    exact hf.low b n h1
  · intro d hd
    obtain ⟨n, h1, h2⟩ := this 0 d hd
    rw [h2]
    exact hf.zero n h1

/-- The next state of the run over the natural numbers. -/
theorem step_rel {T : Nat} {σ : Nat → Conf} {who : Nat → Nat} (hrun : Art.Run T σ who) {τ τ' : Conf} (hrel : Rel (σ T) τ) (hf : Fine (σ T).heap) {i : Nat}
    (hs : Step (fun _ l => l < 2 ^ 31) i τ τ') : ∃ σ', Art.Step i (σ T) σ' ∧ Rel σ' τ' := by
  obtain ⟨s, hsi⟩ := hrun.si T (Nat.le_refl _)
  have hh := hrel.heap
  cases hs with
  | call c fuel h1 h2 =>
    have h3 : (σ T).procs i = .idle := by
      have := hrel.procs i
      rw [h1] at this
      generalize hq : (σ T).procs i = q at this
      cases this
      rfl
    exact ⟨_, .call c fuel h3 (small_fits h2), by rw [← hh]; exact hrel.to i _ (.running h2 (near_prog h2 fuel))⟩
  | ret h1 =>
    obtain ⟨p, hp, hc, hn⟩ := hrel.running h1
    cases hn
    exact ⟨_, .ret hp, by rw [← hh]; exact hrel.to i _ .done⟩
  | crash h1 h2 =>
    obtain ⟨p, hp, hc, hn⟩ := hrel.running h1
    rw [← hh] at h2
    exact ⟨_, .crash hp (near_faulty hn hf.low h2), by rw [← hh]; exact hrel.to i _ .crashed⟩
  | wait h1 h2 h3 =>
    obtain ⟨p, hp, hc, hn⟩ := hrel.running h1
    rw [← hh] at h2
    cases hn with
    | wait g => exact ⟨_, .wait hp h2 h3, by rw [← hh]; exact hrel.to i _ (.running hc (g _))⟩
  | load h1 h2 =>
    obtain ⟨p, hp, hc, hn⟩ := hrel.running h1
    rw [← hh] at h2
    cases hn with
    | load g => exact ⟨_, .load hp h2, by rw [← hh]; exact hrel.to i _ (.running hc (g _))⟩
  | cas h1 h2 h3 =>
    obtain ⟨p, hp, hc, hn⟩ := hrel.running h1
    rw [← hh] at h2
    cases hn with
    | cas g => exact ⟨_, .cas hp h2 h3, by rw [← hh]; exact (hrel.to i _ (.running hc (g _))).own _ _⟩
  | casFail h1 h2 h3 =>
    obtain ⟨p, hp, hc, hn⟩ := hrel.running h1
    rw [← hh] at h2
    cases hn with
    | cas g => exact ⟨_, .casFail hp h2 h3, by rw [← hh]; exact hrel.to i _ (.running hc (g _))⟩
  | lockFail h1 h2 h3 h4 =>
    obtain ⟨p, hp, hc, hn⟩ := hrel.running h1
    rw [← hh] at h2
    cases hn with
    | lock g _ _ => exact ⟨_, .lockFail hp h2 h3 h4, by rw [← hh]; exact hrel.to i _ (.running hc g)⟩
  | lock h1 h2 h3 h4 =>
    obtain ⟨p, hp, hc, hn⟩ := hrel.running h1
    rw [← hh] at h2
    cases hn with
    | lock _ g1 g2 =>
      obtain ⟨f, b, k1, e⟩ := g1
      have := hsi.procs i
      rw [hp] at this
      obtain ⟨j, -, -, hw⟩ := this
      have h0 := lock_ne_zero hw hsi.inv e (by rw [hsi.heap]; exact h2) h3 h4
      exact ⟨_, .lock hp h2 h3 h4, by rw [← hh]; exact (hrel.to i _ (.running hc (g2 h0))).own _ _⟩
  | unlock h1 h2 =>
    obtain ⟨p, hp, hc, hn⟩ := hrel.running h1
    rw [← hh] at h2
    cases hn with
    | unlock g => exact ⟨_, .unlock hp h2, by rw [← hh]; exact (hrel.to i _ (.running hc g)).own _ _⟩
  | unlockObsolete h1 h2 =>
    obtain ⟨p, hp, hc, hn⟩ := hrel.running h1
    rw [← hh] at h2
    cases hn with
    | unlockObsolete g => exact ⟨_, .unlockObsolete hp h2, by rw [← hh]; exact (hrel.to i _ (.running hc g)).own _ _⟩
  | @read _ _ v _ n r h1 h2 h3 h4 h5 =>
    obtain ⟨p, hp, hc, hn⟩ := hrel.running h1
    rw [← hh] at h2
    cases hn with
    | read g =>
      have hr : r.prefixLen < 2 ^ 31 := by
        by_cases hv : n.version = v
        · rw [h4 hv]
          exact hf.low _ _ h2
        · exact h5 hv
      exact ⟨_, .read r hp h2 h3 h4, by rw [← hh]; exact hrel.to i _ (.running hc (g r hr))⟩
  | readRoot h1 h2 =>
    obtain ⟨p, hp, hc, hn⟩ := hrel.running h1
    rw [← hh] at h2
    cases hn with
    | readRoot g => exact ⟨_, .readRoot hp h2, by rw [← hh]; exact hrel.to i _ (.running hc (g _))⟩
  | choose b h1 =>
    obtain ⟨p, hp, hc, hn⟩ := hrel.running h1
    cases hn with
    | choose g => exact ⟨_, .choose b hp, by rw [← hh]; exact hrel.to i _ (.running hc (g b))⟩
  | write h1 h2 =>
    obtain ⟨p, hp, hc, hn⟩ := hrel.running h1
    rw [← hh] at h2
    cases hn with
    | write g1 g2 g3 =>
      rw [← g1 _ hf.low] at h2
      exact ⟨_, .write hp h2, hrel.to i _ (.running hc g3)⟩

/-- All calls have short keys. -/
def AllSmall (σ : Conf) : Prop := ∀ i c p, σ.procs i = .running c p → Small c

theorem Rel.allSmall {σ τ : Conf} (h : Rel σ τ) : AllSmall σ := by
  intro i c p hp
  have := h.procs i
  rw [hp] at this
  generalize hq : τ.procs i = q at this
  cases this with
  | running h1 _ => exact h1

theorem Rel.near {σ τ : Conf} (h : Rel σ τ) : ∀ i c p, σ.procs i = .running c p → ∃ p', Near Any p p' := by
  intro i c p hp
  have := h.procs i
  rw [hp] at this
  generalize hq : τ.procs i = q at this
  cases this with
  | running _ h1 => exact ⟨_, h1⟩

/-- All stored keys are short. -/
theorem keys_small {T : Nat} {σ : Nat → Conf} {who : Nat → Nat} (hrun : Art.Run T σ who) (hs : ∀ t, t < T → AllSmall (σ t)) :
    ∀ t, t ≤ T → ∀ m, Stands (σ t).heap m → ∀ K, m K ≠ none → K.length < 2 ^ 31 := by
  intro t
  induction t with
  | zero =>
    intro _ m hm K hK
    rw [hm.unique (C14_map hrun).1] at hK
    exact absurd rfl hK
  | succ t ih =>
    intro ht m' hm' K hK
    obtain ⟨m, hm⟩ := (C14_map hrun).2 t (by omega)
    have ih := ih (by omega) m hm
    rcases C15_only_effects hrun (by omega) hm hm' with rfl | ⟨k, v, p, h1, rfl⟩ | ⟨k, p, h1, rfl⟩
    · exact ih K hK
    · by_cases e : K = k
      · rw [e]
        exact (hs t (by omega) _ _ _ h1).1
      · apply ih
        intro h
        apply hK
        simp [Map.put, e, h]
    · apply ih
      intro h
      apply hK
      simp [Map.delete, h]

theorem fine_step {T : Nat} {σ : Nat → Conf} {who : Nat → Nat} (hrun : Art.Run (T + 1) σ who) (hs : ∀ t, t < T + 1 → AllSmall (σ t))
    (hnear : ∀ i c p, (σ T).procs i = .running c p → ∃ p', Near Any p p') (hf : Fine (σ T).heap) : Fine (σ (T + 1)).heap := by
  obtain ⟨s, hsi⟩ := hrun.si (T + 1) (Nat.le_refl _)
  have hst := hrun.step T (Nat.lt_succ_self _)
  generalize hw : who T = i at hst
  generalize hσ : σ (T + 1) = σ' at hst
  cases hst with
  | call c fuel h1 h2 => exact hf
  | ret h1 => exact hf
  | crash h1 h2 => exact hf
  | wait h1 h2 h3 => exact hf
  | load h1 h2 => exact hf
  | cas h1 h2 h3 => exact hf.setVer _ _
  | casFail h1 h2 h3 => exact hf
  | lockFail h1 h2 h3 h4 => exact hf
  | lock h1 h2 h3 h4 => exact hf.setVer _ _
  | unlock h1 h2 => exact hf.setVer _ _
  | unlockObsolete h1 h2 => exact hf.setVer _ _
  | read r h1 h2 h3 h4 => exact hf
  | readRoot h1 h2 => exact hf
  | choose b h1 => exact hf
  | @write c f k h' h1 h2 =>
    obtain ⟨p', hn⟩ := hnear _ _ _ h1
    have hchg : Chg (keeps k) (σ T).heap h' := by
      cases hn with
      | write _ g2 _ => exact g2 _ _ hf.zero h2
    have hheap : s.heap = h' := by rw [hsi.heap, hσ]; rfl
    obtain ⟨m, hm, ht⟩ := hsi.inv.tree
    have hstand : Stands (σ (T + 1)).heap m := by
      obtain ⟨root, ht⟩ := ht
      rw [← hsi.heap]
      exact ht.stands
    have hK := keys_small hrun hs (T + 1) (Nat.le_refl _) m hstand
    have hpr := hsi.procs i
    rw [hσ, to_procs, if_pos rfl] at hpr
    obtain ⟨j, -, -, hwp⟩ := hpr
    have hpos : 0 < (σ T).heap.length := by
      obtain ⟨s0, hs0⟩ := hrun.si T (by omega)
      obtain ⟨m0, -, root, ht0⟩ := hs0.inv.tree
      rw [← hs0.heap]
      exact ht0.pos
    constructor
    · intro a n' hn'
      have hn' : h'[a]? = some n' := hn'
      rcases hchg.node a n' hn' with ⟨n, e1, e2, -⟩ | ⟨h0, e1⟩ | ⟨e1, e2⟩
      · rw [e2]
        exact hf.low a n e1
      · exact Inv.low hsi.inv hm (by decide) hK (keeps_live hwp hsi.inv e1 h0) (by rw [hheap]; exact hn')
      · have h0 : a ≠ 0 := by
          rintro rfl
          exact absurd hpos (Nat.not_lt.mpr e1)
        have hn2 : s.heap[a]? = some n' := by rw [hheap]; exact hn'
        exact Inv.low hsi.inv hm (by decide) hK (hsi.inv.live_of hn2 h0 (by rw [e2])) hn2
    · intro d hd
      have hd : h'[0]? = some d := hd
      rcases hchg.node 0 d hd with ⟨n, e1, e2, -⟩ | ⟨h0, -⟩ | ⟨e1, -⟩
      · rw [e2]
        exact hf.zero n e1
      · exact absurd rfl h0
      · omega

theorem fine_init : Fine Conf.init.heap := by
  constructor
  · intro a n h
    match a, h with
    | 0, h => cases h; decide
    | 1, h => cases h; decide
    | a + 2, h => simp [Conf.init, new] at h
  · intro d h
    cases h
    rfl

theorem Step.mono {B B' : Addr → Nat → Prop} {i : Nat} {σ σ' : Conf} (h : Step B i σ σ') (hB : ∀ a l, B a l → B' a l) : Step B' i σ σ' := by
  cases h with
  | call c fuel h1 h2 => exact .call c fuel h1 h2
  | ret h1 => exact .ret h1
  | crash h1 h2 => exact .crash h1 h2
  | wait h1 h2 h3 => exact .wait h1 h2 h3
  | load h1 h2 => exact .load h1 h2
  | cas h1 h2 h3 => exact .cas h1 h2 h3
  | casFail h1 h2 h3 => exact .casFail h1 h2 h3
  | lockFail h1 h2 h3 h4 => exact .lockFail h1 h2 h3 h4
  | lock h1 h2 h3 h4 => exact .lock h1 h2 h3 h4
  | unlock h1 h2 => exact .unlock h1 h2
  | unlockObsolete h1 h2 => exact .unlockObsolete h1 h2
  | read r h1 h2 h3 h4 h5 => exact .read r h1 h2 h3 h4 (fun hv => hB _ _ (h5 hv))
  | readRoot h1 h2 => exact .readRoot h1 h2
  | choose b h1 => exact .choose b h1
  | write h1 h2 => exact .write h1 h2

/-- Every run with wrapping arithmetic is a run over the natural numbers. -/
theorem simulate {who : Nat → Nat} {τ : Nat → Conf} : ∀ T, Run T τ who → ∃ σ, Art.Run T σ who ∧ (∀ t, t ≤ T → Rel (σ t) (τ t)) ∧ (∀ t, t ≤ T → Fine (σ t).heap) := by
  intro T
  induction T with
  | zero =>
    intro h
    refine ⟨fun _ => Conf.init, ⟨rfl, fun t ht => absurd ht (Nat.not_lt_zero _)⟩, ?_, fun t _ => fine_init⟩
    intro t ht
    have : t = 0 := by omega
    subst this
    rw [h.init]
    exact ⟨rfl, rfl, fun i => .idle⟩
  | succ T ih =>
    intro h
    obtain ⟨σ, h1, h2, h3⟩ := ih ⟨h.init, fun t ht => h.step t (by omega)⟩
    obtain ⟨σ', g1, g2⟩ := step_rel h1 (h2 T (Nat.le_refl _)) (h3 T (Nat.le_refl _)) ((h.step T (Nat.lt_succ_self _)).mono (by
      rintro a l ⟨t', n, e1, e2, rfl⟩
      rw [← (h2 t' e1).heap] at e2
      exact (h3 t' e1).low a n e2))
    let ρ : Nat → Conf := fun t => if t ≤ T then σ t else σ'
    have e1 : ∀ t, t ≤ T → ρ t = σ t := fun t ht => if_pos ht
    have e2 : ρ (T + 1) = σ' := if_neg (by omega)
    have hrun : Art.Run (T + 1) ρ who := by
      refine ⟨by rw [e1 0 (Nat.zero_le _)]; exact h1.init, ?_⟩
      intro t ht
      by_cases hlt : t < T
      · rw [e1 t (by omega), e1 (t + 1) (by omega)]
        exact h1.step t hlt
      · have : t = T := by omega
        subst this
        rw [e1 t (Nat.le_refl _), e2]
        exact g1
    have hrel : ∀ t, t ≤ T + 1 → Rel (ρ t) (τ t) := by
      intro t ht
      by_cases hle : t ≤ T
      · rw [e1 t hle]
        exact h2 t hle
      · have : t = T + 1 := by omega
        subst this
        rw [e2]
        exact g2
    refine ⟨ρ, hrun, hrel, ?_⟩
    intro t ht
    by_cases hle : t ≤ T
    · rw [e1 t hle]
      exact h3 t hle
    · have : t = T + 1 := by omega
      subst this
      refine fine_step hrun (fun t ht => (hrel t (by omega)).allSmall) (hrel T (by omega)).near ?_
      rw [e1 T (Nat.le_refl _)]
      exact h3 T (Nat.le_refl _)

end Art.U32
