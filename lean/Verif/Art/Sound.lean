import Verif.Art.System
import Verif.Art.ConcDel

/-! # The proofs about single calls hold together in every run -/

set_option linter.unusedSimpArgs false

namespace Art

open Surf Spec Props

/-! ## The map of a heap -/

section
variable {E : Addr → Bytes} {live : Addr → Prop} {h : Heap} {root : Addr} {m : Map}

theorem HTr.live_of_inTree (ht : HTr E live h root m) {a : Addr} (ha : InTree h a) : live a := by
  induction ha with
  | root h1 h2 =>
    obtain ⟨d, g1, g2⟩ := ht.dummy
    rw [h1] at g1
    cases g1
    rw [h2] at g2
    cases g2
    exact ht.tree.root_live
  | child _ h1 h2 ih => exact (ht.child_node ih h1 h2).1

theorem HTr.inTree_of_path (ht : HTr E live h root m) {k : Addr} (hk : live k) :
    ∀ (N : Nat) (n : Addr), (E k).length ≤ (E n).length + N → live n → InTree h n → E n <+: E k → InTree h k := by
  intro N
  induction N with
  | zero =>
    intro n hN hl hi hp
    have := ht.tree.inj _ _ hl hk (hp.eq_of_length (by have := hp.length_le; omega))
    rw [← this]
    exact hi
  | succ N ih =>
    intro n hN hl hi hp
    by_cases e : n = k
    · rw [← e]; exact hi
    · obtain ⟨b, c, h1, h2, h3⟩ := ht.tree.path n k hl hk e hp
      obtain ⟨nn, g1, g2, -⟩ := ht.view_live hl
      rw [g2] at h2
      obtain ⟨k1, k2, k3, -⟩ := ht.child_node hl g1 (show nn.child b = some (.node c) from h2)
      have := k3.length_le
      simp at this
      exact ih c (by omega) k1 (.child hi g1 h2) h3

theorem HTr.inTree_of_live (ht : HTr E live h root m) {a : Addr} (ha : live a) : InTree h a := by
  obtain ⟨d, hd, hk⟩ := ht.dummy
  exact ht.inTree_of_path ha _ root (Nat.le_add_left _ _) ht.tree.root_live (.root hd hk) (by rw [ht.tree.root_E]; simp)

theorem HTr.inTree_iff (ht : HTr E live h root m) (a : Addr) : InTree h a ↔ live a := ⟨ht.live_of_inTree, ht.inTree_of_live⟩

theorem HTr.stands (ht : HTr E live h root m) : Stands h m := by
  intro K v
  rw [ht.tree.mem]
  constructor
  · rintro ⟨a, l, h1, h2, h3, h4⟩
    obtain ⟨n, g1, g2, -⟩ := ht.view_live h1
    rw [g2] at h2
    exact ⟨a, n, l, ht.inTree_of_live h1, g1, h2, h3, h4⟩
  · rintro ⟨a, n, l, h1, h2, h3, h4, h5⟩
    have hl := ht.live_of_inTree h1
    refine ⟨a, l, hl, ?_, h4, h5⟩
    rw [view_eq h2]
    exact h3

theorem Stands.unique {m m' : Map} (h1 : Stands h m) (h2 : Stands h m') : m = m' := by
  funext K
  cases e : m K with
  | some v => exact ((h2 K v).mpr ((h1 K v).mp e)).symm
  | none =>
    cases e' : m' K with
    | none => rfl
    | some v =>
      have := (h1 K v).mpr ((h2 K v).mp e')
      rw [e] at this
      simp at this

end

/-! ## One call -/

/-- The change a call makes. -/
def callEff : Call → Map → Map → Prop
  | .get _ => fun _ _ => False
  | .put k v => putEff k v
  | .delete k => delEff k

/-- Only `Put` may panic. -/
def callPk : Call → Prop
  | .put _ _ => True
  | _ => False

/-- What holds when the call returns. -/
def callQ (i j : Nat) : Call → Option Bytes → St → Prop
  | .get k, o, s => Owns i [] s ∧ Was j k o s
  | .put _ _, _, s => Owns i [] s ∧ Tags i 1 s
  | .delete k, _, s => Owns i [] s ∧ (Tags i 1 s ∨ Tags i 0 s ∧ Was j k none s)

theorem callQ.owns {i j c o s} (h : callQ i j c o s) : Owns i [] s := by
  cases c <;> exact h.1

theorem wp_call {i j : Nat} {c : Call} (hf : c.Fits) (fuel : Nat) {s : St} (hO : Owns i [] s) (hT : Tags i 0 s) (hS : Since j s) :
    wp i (callEff c) (callPk c) (callQ i j c) (c.prog fuel) s := by
  cases c with
  | get k => exact wp_get k j fuel s hO hS
  | put k v =>
    refine wp.bind (wp.mono ?_ (wp_put hf.1 hf.2 trivial fuel s hO hT))
    intro a s1 hI h s2 hR hI2
    exact ⟨h.1.mono hR, h.2.mono hR⟩
  | delete k =>
    refine wp.bind (wp.mono ?_ (wp_delete fuel s hO hT hS))
    intro a s1 hI h s2 hR hI2
    exact ⟨h.1.mono hR, h.2.imp (fun x => x.mono hR) (fun x => ⟨x.1.mono hR, x.2.mono hR⟩)⟩

/-! ## Steps of the ghost state -/

/-- A step in which the history is extended without a change. -/
def St.tick (s : St) (m : Map) : St := { s with hist := s.hist ++ [(none, m)] }

theorem tick_rely (c : Nat) (s : St) (m : Map) : Rely c s (s.tick m) := by
  refine ⟨Nat.le_refl _, fun _ _ => rfl, ?_, fun _ => Iff.rfl, [(none, m)], rfl, by simp⟩
  intro a n hn
  exact ⟨n, hn, rfl, Nat.le_refl _, fun _ _ => ⟨rfl, Iff.rfl⟩, fun _ => rfl⟩

theorem Inv.tick {s : St} (hI : Inv s) {m : Map} (hm : s.Now m) : Inv (s.tick m) := by
  obtain ⟨m', hm', ht⟩ := hI.tree
  have e : m' = m := by
    obtain ⟨t, h1⟩ := hm
    obtain ⟨t', h2⟩ := hm'
    rw [h1] at h2
    cases h2
    rfl
  refine ⟨⟨m, ⟨none, by simp [St.tick]⟩, by rw [← e]; exact ht⟩, hI.own, hI.lt, hI.held, hI.zero, hI.alive, hI.dead, ?_⟩
  intro a c h0 hl ho
  have := hI.repl a c h0 hl ho
  unfold Tags at *
  simpa [St.tick] using this

/-- A step of the call `i` on the ghost state. -/
inductive GStep (i : Nat) (eff : Map → Map → Prop) (s : St) : St → Prop
  | tick {m} : s.Now m → GStep i eff s (s.tick m)
  | acquire {m a n} : s.Now m → s.heap[a]? = some n → n.version % 4 = 0 → GStep i eff s ((s.acquire i a n.version).tick m)
  | release {m a n d} : s.Now m → s.heap[a]? = some n → s.owner a = some i → (d = 2 ∧ (a = 0 ∨ s.live a) ∨ d = 3 ∧ a ≠ 0 ∧ ¬ s.live a) →
      GStep i eff s ((s.release a n.version d).tick m)
  | commit {m m' h' s2} : s.Now m → eff m m' → Commit i s h' m' s2 → Inv s2 → Tags i 0 s → GStep i eff s s2

section
variable {i : Nat} {eff : Map → Map → Prop} {s s2 : St}

theorem GStep.inv (h : GStep i eff s s2) (hI : Inv s) : Inv s2 := by
  cases h with
  | tick hm => exact hI.tick hm
  | acquire hm hn h4 => exact (hI.acquire hn h4).tick hm
  | release hm hn ho hd => exact (hI.release hn (by rw [ho]; simp) hd).tick hm
  | commit _ _ _ h _ => exact h

theorem GStep.rely (h : GStep i eff s s2) (hI : Inv s) {c : Nat} (hc : c ≠ i) : Rely c s s2 := by
  cases h with
  | tick hm => exact tick_rely _ _ _
  | acquire hm hn h4 => exact (acquire_rely hc hI hn h4).trans (tick_rely _ _ _)
  | release hm hn ho hd => exact (release_rely hc (by rcases hd with ⟨rfl, -⟩ | ⟨rfl, -⟩ <;> decide) hn ho).trans (tick_rely _ _ _)
  | commit _ _ h _ _ => exact h.rely hc hI

/-- How a step extends the history. -/
theorem GStep.hist (h : GStep i eff s s2) : ∃ m τ m', s.Now m ∧ s2.hist = s.hist ++ [(τ, m')] ∧
    (τ = none ∧ m' = m ∨ τ = some i ∧ eff m m' ∧ Tags i 0 s) := by
  cases h with
  | tick hm => exact ⟨_, _, _, hm, rfl, Or.inl ⟨rfl, rfl⟩⟩
  | acquire hm hn h4 => exact ⟨_, _, _, hm, rfl, Or.inl ⟨rfl, rfl⟩⟩
  | release hm hn ho hd => exact ⟨_, _, _, hm, rfl, Or.inl ⟨rfl, rfl⟩⟩
  | commit hm he h _ h0 => exact ⟨_, _, _, hm, h.hist, Or.inr ⟨rfl, he, h0⟩⟩

end

/-- What a step of the call `i` does to nodes and locks. -/
structure StepOk (i : Nat) (σ σ' : Conf) : Prop where
  node : ∀ (a : Addr) n, σ.heap[a]? = some n → ∃ n', σ'.heap[a]? = some n' ∧ n'.cap = n.cap ∧ n.version ≤ n'.version ∧
    (n' = n ∨ σ.owner a = some i ∨ σ.owner a = none ∧ σ'.owner a = some i ∧ n.version % 4 = 0 ∧ n' = { n with version := n.version + 2 })
  owner : ∀ a, σ'.owner a = σ.owner a ∨ σ.owner a = none ∧ σ'.owner a = some i ∨ σ.owner a = some i ∧ σ'.owner a = none
  dead : ∀ (a : Addr) n, a ≠ 0 → σ.heap[a]? = some n → ¬ InTree σ.heap a →
    ¬ InTree σ'.heap a ∧ ∃ n', σ'.heap[a]? = some n' ∧ n' = { n with version := n'.version }

theorem Inv.inTree_iff {s : St} (hI : Inv s) (a : Addr) : InTree s.heap a ↔ s.live a := by
  obtain ⟨m, -, root, ht⟩ := hI.tree
  exact ht.inTree_iff a

theorem GStep.stepOk {i : Nat} {eff : Map → Map → Prop} {s s2 : St} (h : GStep i eff s s2) (hI : Inv s) {σ σ' : Conf} (h1 : s.heap = σ.heap)
    (h2 : s.owner = σ.owner) (h3 : s2.heap = σ'.heap) (h4 : s2.owner = σ'.owner) : StepOk i σ σ' := by
  have hI2 := h.inv hI
  have hdead : (∀ a, a ≠ 0 → a < s.heap.length → ¬ s.live a → ¬ s2.live a) →
      (∀ (a : Addr) n, a ≠ 0 → s.heap[a]? = some n → ¬ s.live a → ∃ n', s2.heap[a]? = some n' ∧ n' = { n with version := n'.version }) →
      ∀ (a : Addr) n, a ≠ 0 → σ.heap[a]? = some n → ¬ InTree σ.heap a →
        ¬ InTree σ'.heap a ∧ ∃ n', σ'.heap[a]? = some n' ∧ n' = { n with version := n'.version } := by
    intro g1 g2 a n h0 hn hi
    rw [← h1] at hn hi
    rw [hI.inTree_iff] at hi
    rw [← h3, hI2.inTree_iff]
    exact ⟨g1 a h0 (List.getElem?_eq_some_iff.mp hn).1 hi, g2 a n h0 hn hi⟩
  cases h with
  | tick hm =>
    have e1 : s.heap = σ'.heap := h3
    have e2 : s.owner = σ'.owner := h4
    refine ⟨?_, ?_, hdead (fun a _ _ h => h) (fun a n _ hn _ => ⟨n, hn, rfl⟩)⟩
    · intro a n hn
      rw [← e1, h1]
      exact ⟨n, hn, rfl, Nat.le_refl _, Or.inl rfl⟩
    · intro a
      rw [← e2, h2]
      exact Or.inl rfl
  | @acquire m b k hm hk hk4 =>
    have e1 : (s.acquire i b k.version).heap = σ'.heap := h3
    have e2 : upd s.owner b (some i) = σ'.owner := h4
    have ho := hI.unowned hk hk4
    have hget : ∀ (a : Addr) n, s.heap[a]? = some n → a = b ∧ n = k ∧ (s.acquire i b k.version).heap[a]? = some { n with version := n.version + 2 } ∨
        a ≠ b ∧ (s.acquire i b k.version).heap[a]? = some n := by
      intro a n hn
      by_cases e : a = b
      · subst e
        rw [hk] at hn
        cases hn
        exact Or.inl ⟨rfl, rfl, acquire_get hk⟩
      · exact Or.inr ⟨e, by rw [acquire_get_ne _ e]; exact hn⟩
    refine ⟨?_, ?_, hdead (fun a _ _ h => h) ?_⟩
    · intro a n hn
      rw [← h1] at hn
      rw [← e1, ← e2, ← h2]
      rcases hget a n hn with ⟨rfl, rfl, g⟩ | ⟨e, g⟩
      · exact ⟨_, g, rfl, Nat.le_add_right _ _, Or.inr (Or.inr ⟨ho, by simp [upd_eq], hk4, rfl⟩)⟩
      · exact ⟨n, g, rfl, Nat.le_refl _, Or.inl rfl⟩
    · intro a
      rw [← e2, ← h2, upd_eq]
      by_cases e : a = b
      · subst e
        exact Or.inr (Or.inl ⟨ho, by simp⟩)
      · rw [if_neg e]
        exact Or.inl rfl
    · intro a n _ hn _
      show ∃ n', (s.acquire i b k.version).heap[a]? = some n' ∧ _
      rcases hget a n hn with ⟨rfl, rfl, g⟩ | ⟨e, g⟩
      · exact ⟨_, g, rfl⟩
      · exact ⟨n, g, rfl⟩
  | @release m b k d hm hk ho hd =>
    have e1 : (s.release b k.version d).heap = σ'.heap := h3
    have e2 : upd s.owner b none = σ'.owner := h4
    have hget : ∀ (a : Addr) n, s.heap[a]? = some n → a = b ∧ n = k ∧ (s.release b k.version d).heap[a]? = some { n with version := n.version + d } ∨
        a ≠ b ∧ (s.release b k.version d).heap[a]? = some n := by
      intro a n hn
      by_cases e : a = b
      · subst e
        rw [hk] at hn
        cases hn
        exact Or.inl ⟨rfl, rfl, release_get hk⟩
      · exact Or.inr ⟨e, by rw [release_get_ne _ e]; exact hn⟩
    refine ⟨?_, ?_, hdead (fun a _ _ h => h) ?_⟩
    · intro a n hn
      rw [← h1] at hn
      rw [← e1, ← e2, ← h2]
      rcases hget a n hn with ⟨rfl, rfl, g⟩ | ⟨e, g⟩
      · exact ⟨_, g, rfl, Nat.le_add_right _ _, Or.inr (Or.inl ho)⟩
      · exact ⟨n, g, rfl, Nat.le_refl _, Or.inl rfl⟩
    · intro a
      rw [← e2, ← h2, upd_eq]
      by_cases e : a = b
      · subst e
        exact Or.inr (Or.inr ⟨ho, by simp⟩)
      · rw [if_neg e]
        exact Or.inl rfl
    · intro a n _ hn _
      show ∃ n', (s.release b k.version d).heap[a]? = some n' ∧ _
      rcases hget a n hn with ⟨rfl, rfl, g⟩ | ⟨e, g⟩
      · exact ⟨_, g, rfl⟩
      · exact ⟨n, g, rfl⟩
  | commit hm he hC hI' hT =>
    rw [hC.heap] at h3
    rw [hC.owner] at h4
    refine ⟨?_, ?_, hdead ?_ ?_⟩
    · intro a n hn
      rw [← h1] at hn
      rw [← h3, ← h4, ← h2]
      obtain ⟨n', g1, g2, g3⟩ := hC.node a n hn
      refine ⟨n', g1, g2, Nat.le_of_eq g3.symm, ?_⟩
      by_cases ho : s.owner a = some i
      · exact Or.inr (Or.inl ho)
      · left
        have := (hC.keep a (List.getElem?_eq_some_iff.mp hn).1 ho).1
        rw [g1, hn] at this
        simpa using this
    · intro a
      rw [← h4, h2]
      exact Or.inl rfl
    · intro a h0 ha hl hl'
      exact hl (hC.mono a ha hl')
    · intro a n h0 hn hl
      rw [hC.heap]
      have ho : s.owner a ≠ some i := fun ho => hI.repl a i h0 hl ho hT
      refine ⟨n, ?_, rfl⟩
      rw [(hC.keep a (List.getElem?_eq_some_iff.mp hn).1 ho).1]
      exact hn

/-! ## The invariant of a run -/

/-- The call `i`, at the instant `t`. -/
def ProcOk (σ : Nat → Conf) (t : Nat) (s : St) (i : Nat) : Proc → Prop
  | .idle => Owns i [] s ∧ Tags i 0 s
  | .running c p => ∃ j, Since j s ∧ (∃ p, (σ j).procs i = .running c p) ∧ wp i (callEff c) (callPk c) (callQ i j c) p s
  | .done c o => Owns i [] s ∧ match c with
    | .get k => ∃ j τ m p, j ≤ t ∧ (σ j).procs i = .running c p ∧ s.hist[j]? = some (τ, m) ∧ m k = o
    | .put _ _ => Tags i 1 s
    | .delete k => Tags i 1 s ∨ Tags i 0 s ∧ ∃ j τ m p, j ≤ t ∧ (σ j).procs i = .running c p ∧ s.hist[j]? = some (τ, m) ∧ m k = none
  | .crashed c => Free i s ∧ callPk c

/-- The ghost state `s` fits to the first `t` steps of a run. -/
structure SI (σ : Nat → Conf) (who : Nat → Nat) (t : Nat) (s : St) : Prop where
  heap : s.heap = (σ t).heap
  owner : s.owner = (σ t).owner
  inv : Inv s
  len : s.hist.length = t + 1
  maps : ∀ (j : Nat) τ m, s.hist[j]? = some (τ, m) → Stands (σ j).heap m
  first : ∃ m, s.hist[0]? = some (none, m)
  next : ∀ (j : Nat) τ m τ' m', s.hist[j]? = some (τ, m) → s.hist[j + 1]? = some (τ', m') →
    τ' = none ∧ m' = m ∨ τ' = some (who j) ∧ ∃ c p, (σ j).procs (who j) = .running c p ∧ callEff c m m'
  one : ∀ i, s.hist.countP (fun e => e.1 == some i) ≤ 1
  procs : ∀ i, ProcOk σ t s i ((σ t).procs i)

/-- What a step does to the ghost state. -/
structure Sim (σ : Nat → Conf) (i t : Nat) (s s2 : St) (c : Call) : Prop where
  g : GStep i (callEff c) s s2
  run : (∀ m m', ¬ callEff c m m') ∨ ∃ p, (σ t).procs i = .running c p
  heap : s2.heap = (σ (t + 1)).heap
  owner : s2.owner = (σ (t + 1)).owner
  others : ∀ j, j ≠ i → (σ (t + 1)).procs j = (σ t).procs j
  self : ProcOk σ (t + 1) s2 i ((σ (t + 1)).procs i)

theorem getLast_now {s : St} {t : Nat} (hlen : s.hist.length = t + 1) {m : Map} (hm : s.Now m) : ∃ τ, s.hist[t]? = some (τ, m) := by
  obtain ⟨τ, e⟩ := hm
  rw [List.getLast?_eq_getElem?, hlen] at e
  exact ⟨τ, e⟩

theorem ProcOk.other {σ : Nat → Conf} {t : Nat} {s s2 : St} {i : Nat} (hR : Rely i s s2) {p : Proc} (h : ProcOk σ t s i p) : ProcOk σ (t + 1) s2 i p := by
  have hext : ∀ (j : Nat) x, s.hist[j]? = some x → s2.hist[j]? = some x := by
    intro j x hj
    obtain ⟨ext, e, -⟩ := hR.hist
    rw [e, List.getElem?_append_left (List.getElem?_eq_some_iff.mp hj).1]
    exact hj
  cases p with
  | idle => exact ⟨h.1.mono hR, h.2.mono hR⟩
  | running c p =>
    obtain ⟨j, h1, h2, h3⟩ := h
    exact ⟨j, h1.mono hR, h2, h3.rely hR⟩
  | done c o =>
    refine ⟨h.1.mono hR, ?_⟩
    cases c with
    | get k =>
      obtain ⟨j, τ, m, p, h1, h2, h3, h4⟩ := h.2
      exact ⟨j, τ, m, p, by omega, h2, hext _ _ h3, h4⟩
    | put k v => exact h.2.mono hR
    | delete k =>
      rcases h.2 with h | ⟨h, j, τ, m, p, h1, h2, h3, h4⟩
      · exact Or.inl (h.mono hR)
      · exact Or.inr ⟨h.mono hR, j, τ, m, p, by omega, h2, hext _ _ h3, h4⟩
  | crashed c => exact ⟨h.1.mono hR, h.2⟩

theorem SI.step {σ : Nat → Conf} {who : Nat → Nat} {t : Nat} {s s2 : St} (h : SI σ who t s) {c : Call} (hs : Sim σ (who t) t s s2 c) :
    SI σ who (t + 1) s2 := by
  have hI2 := hs.g.inv h.inv
  obtain ⟨m, τ, m', hm, hh, hcase⟩ := hs.g.hist
  obtain ⟨τ0, hlast⟩ := getLast_now h.len hm
  have hlen2 : s2.hist.length = t + 1 + 1 := by rw [hh, List.length_append, h.len]; rfl
  have hold : ∀ (j : Nat) x, s2.hist[j]? = some x → (j ≤ t ∧ s.hist[j]? = some x) ∨ (j = t + 1 ∧ x = (τ, m')) := by
    intro j x hj
    rw [hh] at hj
    by_cases hlt : j < s.hist.length
    · rw [List.getElem?_append_left hlt] at hj
      rw [h.len] at hlt
      exact Or.inl ⟨by omega, hj⟩
    · have hl : j < s2.hist.length := by rw [hh]; exact (List.getElem?_eq_some_iff.mp hj).1
      rw [hlen2] at hl
      rw [h.len] at hlt
      have e : j = t + 1 := by omega
      subst e
      rw [List.getElem?_append_right (by rw [h.len]), h.len] at hj
      simp at hj
      exact Or.inr ⟨rfl, hj.symm⟩
  have hnow2 : s2.Now m' := ⟨τ, by rw [hh]; simp⟩
  refine ⟨hs.heap, hs.owner, hI2, hlen2, ?_, ?_, ?_, ?_, ?_⟩
  · intro j τ1 m1 hj
    rcases hold j _ hj with ⟨-, hj'⟩ | ⟨rfl, e⟩
    · exact h.maps j τ1 m1 hj'
    · cases e
      obtain ⟨mm, hmm, root, ht⟩ := hI2.tree
      have e : mm = m' := by
        obtain ⟨x, h1⟩ := hmm
        obtain ⟨y, h2⟩ := hnow2
        rw [h1] at h2
        cases h2
        rfl
      rw [← hs.heap, ← e]
      exact ht.stands
  · obtain ⟨m0, h0⟩ := h.first
    refine ⟨m0, ?_⟩
    rw [hh, List.getElem?_append_left (by rw [h.len]; omega)]
    exact h0
  · intro j τ1 m1 τ2 m2 h1 h2
    rcases hold _ _ h2 with ⟨hle, h2'⟩ | ⟨e, e2⟩
    · rcases hold _ _ h1 with ⟨-, h1'⟩ | ⟨e, -⟩
      · exact h.next j τ1 m1 τ2 m2 h1' h2'
      · omega
    · cases e2
      have e : j = t := by omega
      subst e
      rcases hold _ _ h1 with ⟨-, h1'⟩ | ⟨e, -⟩
      · rw [hlast] at h1'
        cases h1'
        rcases hcase with ⟨rfl, rfl⟩ | ⟨rfl, he, -⟩
        · exact Or.inl ⟨rfl, rfl⟩
        · right
          refine ⟨rfl, ?_⟩
          rcases hs.run with hr | ⟨p, hp⟩
          · exact absurd he (hr _ _)
          · exact ⟨c, p, hp, he⟩
      · omega
  · intro i
    have h1 := h.one i
    rw [hh, List.countP_append]
    rcases hcase with ⟨rfl, rfl⟩ | ⟨rfl, -, h0⟩
    · simpa using h1
    · by_cases e : who t = i
      · subst e
        unfold Tags at h0
        rw [h0]
        simp
      · have : ((some (who t) : Option Nat) == some i) = false := by simpa using e
        simp [this]
        exact h1
  · intro i
    by_cases e : i = who t
    · subst e
      exact hs.self
    · rw [hs.others i e]
      exact (h.procs i).other (hs.g.rely h.inv e)

/-! ## Every step keeps the invariant -/

/-- The call of a process. -/
def Proc.call : Proc → Option Call
  | .idle => none
  | .running c _ => some c
  | .done c _ => some c
  | .crashed c => some c

/-- How far a process is. -/
def Proc.phase : Proc → Nat
  | .idle => 0
  | .running _ _ => 1
  | .done _ _ => 2
  | .crashed _ => 2

theorem to_procs (σ : Conf) (i : Nat) (h : Heap) (p : Proc) (j : Nat) : (σ.to i h p).procs j = if j = i then p else σ.procs j := rfl

theorem own_procs (σ : Conf) (a : Addr) (o : Option Nat) (j : Nat) : (σ.own a o).procs j = σ.procs j := rfl

theorem Step.other {i : Nat} {σ σ' : Conf} (h : Step i σ σ') {j : Nat} (hj : j ≠ i) : σ'.procs j = σ.procs j := by
  cases h <;> simp [to_procs, own_procs, hj]

/-- The process of a step that is not the beginning of the call. -/
theorem Step.phase {i : Nat} {σ σ' : Conf} (h : Step i σ σ') (j : Nat) :
    (σ.procs j).phase ≤ (σ'.procs j).phase ∧ ∀ c, (σ.procs j).call = some c → (σ'.procs j).call = some c := by
  by_cases e : j = i
  · subst e
    cases h with
    | call c f h1 h2 => simp [to_procs, h1, Proc.phase, Proc.call]
    | ret h1 => simp [to_procs, h1, Proc.phase, Proc.call]
    | crash h1 => simp [to_procs, h1, Proc.phase, Proc.call]
    | wait h1 => simp [to_procs, h1, Proc.phase, Proc.call]
    | load h1 => simp [to_procs, h1, Proc.phase, Proc.call]
    | cas h1 => simp [to_procs, own_procs, h1, Proc.phase, Proc.call]
    | casFail h1 => simp [to_procs, h1, Proc.phase, Proc.call]
    | lockFail h1 => simp [to_procs, h1, Proc.phase, Proc.call]
    | lock h1 => simp [to_procs, own_procs, h1, Proc.phase, Proc.call]
    | unlock h1 => simp [to_procs, own_procs, h1, Proc.phase, Proc.call]
    | unlockObsolete h1 => simp [to_procs, own_procs, h1, Proc.phase, Proc.call]
    | read r h1 => simp [to_procs, h1, Proc.phase, Proc.call]
    | readRoot h1 => simp [to_procs, h1, Proc.phase, Proc.call]
    | choose b h1 => simp [to_procs, h1, Proc.phase, Proc.call]
    | write h1 => simp [to_procs, h1, Proc.phase, Proc.call]
  · rw [h.other e]
    exact ⟨Nat.le_refl _, fun _ h => h⟩

theorem Run.mono {T : Nat} {σ : Nat → Conf} {who : Nat → Nat} (h : Run T σ who) {T' : Nat} (hT : T' ≤ T) : Run T' σ who :=
  ⟨h.init, fun t ht => h.step t (by omega)⟩

theorem Run.phase {T : Nat} {σ : Nat → Conf} {who : Nat → Nat} (h : Run T σ who) (i : Nat) {t : Nat} : ∀ d, t + d ≤ T →
    ((σ t).procs i).phase ≤ ((σ (t + d)).procs i).phase ∧ ∀ c, ((σ t).procs i).call = some c → ((σ (t + d)).procs i).call = some c := by
  intro d
  induction d with
  | zero => intro _; exact ⟨Nat.le_refl _, fun _ h => h⟩
  | succ d ih =>
    intro hd
    obtain ⟨h1, h2⟩ := ih (by omega)
    obtain ⟨h3, h4⟩ := (h.step (t + d) (by omega)).phase i
    exact ⟨Nat.le_trans h1 h3, fun c hc => h4 c (h2 c hc)⟩

/-- A call that runs at two instants runs in between. -/
theorem Run.between {T : Nat} {σ : Nat → Conf} {who : Nat → Nat} (h : Run T σ who) {i j k t : Nat} {c c' : Call} {p p'}
    (hj : (σ j).procs i = .running c p) (ht : (σ t).procs i = .running c' p') (h1 : j ≤ k) (h2 : k ≤ t) (hT : t ≤ T) :
    ∃ q, (σ k).procs i = .running c q := by
  obtain ⟨a1, a2⟩ := h.phase i (t := j) (k - j) (by omega)
  obtain ⟨b1, b2⟩ := h.phase i (t := k) (t - k) (by omega)
  rw [show j + (k - j) = k by omega] at a1 a2
  rw [show k + (t - k) = t by omega] at b1 b2
  rw [hj] at a1 a2
  rw [ht] at b1
  simp only [Proc.phase, Proc.call, Option.some.injEq] at a1 a2 b1
  have a3 := a2 c rfl
  cases hp : (σ k).procs i with
  | idle => rw [hp] at a1; simp at a1
  | running c2 q =>
    rw [hp] at a3
    simp at a3
    exact ⟨q, by rw [a3]⟩
  | done c2 o => rw [hp] at b1; simp at b1
  | crashed c2 => rw [hp] at b1; simp at b1

section
variable {σ : Nat → Conf} {who : Nat → Nat} {t : Nat} {s : St}

theorem SI.now (h : SI σ who t s) : ∃ m, s.Now m := by
  obtain ⟨m, hm, -⟩ := h.inv.tree
  exact ⟨m, hm⟩

theorem sim_tick (h : SI σ who t s) {i : Nat} (h1 : (σ (t + 1)).heap = (σ t).heap) (h2 : (σ (t + 1)).owner = (σ t).owner)
    (h3 : ∀ j, j ≠ i → (σ (t + 1)).procs j = (σ t).procs j) (h4 : ∀ m, s.Now m → ProcOk σ (t + 1) (s.tick m) i ((σ (t + 1)).procs i)) :
    ∃ s2 c, Sim σ i t s s2 c := by
  obtain ⟨m, hm⟩ := h.now
  exact ⟨s.tick m, .get [], .tick hm, Or.inl (fun _ _ h => h), h.heap.trans h1.symm, h.owner.trans h2.symm, h3, h4 m hm⟩

theorem Proc.running_of {σ : Nat → Conf} {t i : Nat} {s : St} {c : Call} {p} (h : ProcOk σ t s i (.running c p)) :
    ∃ j, Since j s ∧ (∃ p, (σ j).procs i = .running c p) ∧ wp i (callEff c) (callPk c) (callQ i j c) p s := h

theorem Since.acquire {j c v : Nat} {a : Addr} (h : Since j s) : Since j (s.acquire c a v) := h

theorem wp_not_faulty {i : Nat} {c : Call} {Q : Option Bytes → St → Prop} {p : Prog (Option Bytes)} (h : wp i (callEff c) (callPk c) Q p s) (hI : Inv s)
    (hf : Faulty s.heap p) : Free i s ∧ callPk c := by
  cases p with
  | panic => exact h s (Rely.refl _ _) hI
  | ret => exact absurd hf id
  | diverge => exact absurd hf id
  | choose => exact absurd hf id
  | wait a k =>
    obtain ⟨-, n, h1, -⟩ := h s (Rely.refl _ _) hI
    rw [show s.heap[a]? = none from hf] at h1
    simp at h1
  | load a k =>
    obtain ⟨n, h1, -⟩ := h s (Rely.refl _ _) hI
    rw [show s.heap[a]? = none from hf] at h1
    simp at h1
  | cas a v k =>
    obtain ⟨-, n, h1, -⟩ := h s (Rely.refl _ _) hI
    rw [show s.heap[a]? = none from hf] at h1
    simp at h1
  | lock a k =>
    obtain ⟨-, n, h1, -⟩ := h s (Rely.refl _ _) hI
    rw [show s.heap[a]? = none from hf] at h1
    simp at h1
  | unlock a k =>
    obtain ⟨-, -, n, h1, -⟩ := h s (Rely.refl _ _) hI
    rw [show s.heap[a]? = none from hf] at h1
    simp at h1
  | unlockObsolete a k =>
    obtain ⟨-, -, -, n, h1, -⟩ := h s (Rely.refl _ _) hI
    rw [show s.heap[a]? = none from hf] at h1
    simp at h1
  | read a v k =>
    obtain ⟨n, h1, -⟩ := h s (Rely.refl _ _) hI
    rw [show s.heap[a]? = none from hf] at h1
    simp at h1
  | readRoot k =>
    obtain ⟨n, h1, -⟩ := h s (Rely.refl _ _) hI
    rw [show s.heap[0]? = none from hf] at h1
    simp at h1
  | write f k =>
    obtain ⟨-, h', m, m', s2, h1, -⟩ := h s (Rely.refl _ _) hI
    rw [show f s.heap = none from hf] at h1
    simp at h1

theorem SI.sim {T : Nat} (hrun : Run T σ who) (hT : t < T) (h : SI σ who t s) : ∃ s2 c, Sim σ (who t) t s s2 c := by
  have hst := hrun.step t hT
  have hoth : ∀ j, j ≠ who t → (σ (t + 1)).procs j = (σ t).procs j := fun j hj => hst.other hj
  have hpi := h.procs (who t)
  have hI := h.inv
  generalize hi : who t = i at *
  generalize hσ' : σ (t + 1) = σ' at hst
  -- a step that changes only the process
  have quiet : ∀ c p, σ' = (σ t).to i (σ t).heap (.running c p) →
      (∃ j, Since j s ∧ (∃ p, (σ j).procs i = .running c p) ∧ wp i (callEff c) (callPk c) (callQ i j c) p s) → ∃ s2 c, Sim σ i t s s2 c := by
    rintro c p e ⟨j, g1, g2, g3⟩
    refine sim_tick h (by rw [hσ', e]; rfl) (by rw [hσ', e]; rfl) hoth ?_
    intro m hm
    rw [hσ', e, to_procs, if_pos rfl]
    exact ⟨j, g1.mono (tick_rely i s m), g2, g3.rely (tick_rely i s m)⟩
  -- a step that takes a lock
  have lock : ∀ c p (a : Addr) n, σ' = ((σ t).to i (setVer (σ t).heap a (n.version + 2)) (.running c p)).own a (some i) →
      (σ t).heap[a]? = some n → n.version % 4 = 0 → (∃ p, (σ t).procs i = .running c p) →
      (∃ j, Since j s ∧ (∃ p, (σ j).procs i = .running c p) ∧ wp i (callEff c) (callPk c) (callQ i j c) p (s.acquire i a n.version)) →
      ∃ s2 c, Sim σ i t s s2 c := by
    rintro c p a n e hn h4 hr ⟨j, g1, g2, g3⟩
    rw [← h.heap] at hn
    obtain ⟨m, hm⟩ := h.now
    refine ⟨(s.acquire i a n.version).tick m, c, .acquire hm hn h4, Or.inr hr, ?_, ?_, hoth, ?_⟩
    · rw [hσ', e]
      show setVer s.heap a (n.version + 2) = setVer (σ t).heap a (n.version + 2)
      rw [h.heap]
    · rw [hσ', e]
      show upd s.owner a (some i) = upd (σ t).owner a (some i)
      rw [h.owner]
    · rw [hσ', e, own_procs, to_procs, if_pos rfl]
      exact ⟨j, Since.mono (show Since j (s.acquire i a n.version) from g1) (tick_rely i _ m), g2, g3.rely (tick_rely i _ m)⟩
  -- a step that releases a lock
  have release : ∀ c p (a : Addr) n d, σ' = ((σ t).to i (setVer (σ t).heap a (n.version + d)) (.running c p)).own a none →
      (σ t).heap[a]? = some n → s.owner a = some i → (d = 2 ∧ (a = 0 ∨ s.live a) ∨ d = 3 ∧ a ≠ 0 ∧ ¬ s.live a) →
      (∃ p, (σ t).procs i = .running c p) →
      (∃ j, Since j s ∧ (∃ p, (σ j).procs i = .running c p) ∧ wp i (callEff c) (callPk c) (callQ i j c) p (s.release a n.version d)) →
      ∃ s2 c, Sim σ i t s s2 c := by
    rintro c p a n d e hn ho hd hr ⟨j, g1, g2, g3⟩
    rw [← h.heap] at hn
    obtain ⟨m, hm⟩ := h.now
    refine ⟨(s.release a n.version d).tick m, c, .release hm hn ho hd, Or.inr hr, ?_, ?_, hoth, ?_⟩
    · rw [hσ', e]
      show setVer s.heap a (n.version + d) = setVer (σ t).heap a (n.version + d)
      rw [h.heap]
    · rw [hσ', e]
      show upd s.owner a none = upd (σ t).owner a none
      rw [h.owner]
    · rw [hσ', e, own_procs, to_procs, if_pos rfl]
      exact ⟨j, Since.mono (show Since j (s.release a n.version d) from g1) (tick_rely i _ m), g2, g3.rely (tick_rely i _ m)⟩
  cases hst with
  | call c fuel h1 h2 =>
    rw [h1] at hpi
    refine sim_tick h (by rw [hσ']; rfl) (by rw [hσ']; rfl) hoth ?_
    intro m hm
    have hp : (σ (t + 1)).procs i = .running c (c.prog fuel) := by rw [hσ', to_procs, if_pos rfl]
    rw [hp]
    have hS : Since (t + 1) (s.tick m) := by
      unfold Since
      show t + 1 < (s.hist ++ [(none, m)]).length
      rw [List.length_append, h.len]
      simp
    exact ⟨t + 1, hS, ⟨_, hp⟩, wp_call h2 fuel (hpi.1.mono (tick_rely i s m)) (hpi.2.mono (tick_rely i s m)) hS⟩
  | @ret c o h1 =>
    rw [h1] at hpi
    obtain ⟨j, g1, ⟨p, g2⟩, g3⟩ := hpi
    refine sim_tick h (by rw [hσ']; rfl) (by rw [hσ']; rfl) hoth ?_
    intro m hm
    rw [hσ', to_procs, if_pos rfl]
    have hQ := g3 _ (tick_rely i s m) (hI.tick hm)
    refine ⟨hQ.owns, ?_⟩
    have hwas : ∀ k o, Was j k o (s.tick m) → ∃ j τ m1 p, j ≤ t + 1 ∧ (σ j).procs i = .running c p ∧ (s.tick m).hist[j]? = some (τ, m1) ∧ m1 k = o := by
      rintro k o ⟨x, τ, m1, e1, e2, e3⟩
      have hx : x ≤ t + 1 := by
        have := (List.getElem?_eq_some_iff.mp e2).1
        change x < (s.hist ++ [(none, m)]).length at this
        rw [List.length_append, h.len] at this
        simp at this
        omega
      by_cases hxt : x ≤ t
      · obtain ⟨q, hq⟩ := hrun.between g2 h1 e1 hxt (by omega)
        exact ⟨x, τ, m1, q, by omega, hq, e2, e3⟩
      · -- the instant of the return itself: the map is the one before
        obtain ⟨τ0, hl⟩ := getLast_now h.len hm
        have ex : x = t + 1 := by omega
        have em : m1 = m := by
          change (s.hist ++ [(none, m)])[x]? = some (τ, m1) at e2
          rw [ex, List.getElem?_append_right (by rw [h.len]), h.len] at e2
          simp at e2
          exact e2.2.symm
        obtain ⟨q, hq⟩ := hrun.between g2 h1 (show j ≤ t by unfold Since at g1; rw [h.len] at g1; omega) (Nat.le_refl t) (by omega)
        refine ⟨t, τ0, m, q, by omega, hq, ?_, by rw [← em]; exact e3⟩
        show (s.hist ++ [(none, m)])[t]? = _
        rw [List.getElem?_append_left (by rw [h.len]; exact Nat.lt_succ_self _)]
        exact hl
    cases c with
    | get k => exact hwas k o hQ.2
    | put k v => exact hQ.2
    | delete k => exact hQ.2.imp id (fun x => ⟨x.1, hwas k none x.2⟩)
  | @crash c p h1 h2 =>
    rw [h1] at hpi
    obtain ⟨j, g1, g2, g3⟩ := hpi
    refine sim_tick h (by rw [hσ']; rfl) (by rw [hσ']; rfl) hoth ?_
    intro m hm
    rw [hσ', to_procs, if_pos rfl]
    rw [← h.heap] at h2
    obtain ⟨k1, k2⟩ := wp_not_faulty g3 hI h2
    exact ⟨k1.mono (tick_rely i s m), k2⟩
  | @wait c a k n h1 h2 h3 =>
    rw [h1] at hpi
    obtain ⟨j, g1, g2, g3⟩ := hpi
    obtain ⟨-, n', q1, q2⟩ := g3 s (Rely.refl _ _) hI
    rw [h.heap, h2] at q1
    cases q1
    exact quiet _ _ rfl ⟨j, g1, g2, q2 h3⟩
  | @load c a k n h1 h2 =>
    rw [h1] at hpi
    obtain ⟨j, g1, g2, g3⟩ := hpi
    obtain ⟨n', q1, q2⟩ := g3 s (Rely.refl _ _) hI
    rw [h.heap, h2] at q1
    cases q1
    exact quiet _ _ rfl ⟨j, g1, g2, q2⟩
  | @cas c a v k n h1 h2 h3 =>
    rw [h1] at hpi
    obtain ⟨j, g1, g2, g3⟩ := hpi
    obtain ⟨q0, n', q1, q2, q3⟩ := g3 s (Rely.refl _ _) hI
    rw [h.heap, h2] at q1
    cases q1
    subst h3
    exact lock _ _ a n rfl h2 q0 ⟨_, h1⟩ ⟨j, g1, g2, q2 rfl⟩
  | @casFail c a v k n h1 h2 h3 =>
    rw [h1] at hpi
    obtain ⟨j, g1, g2, g3⟩ := hpi
    obtain ⟨q0, n', q1, q2, q3⟩ := g3 s (Rely.refl _ _) hI
    rw [h.heap, h2] at q1
    cases q1
    exact quiet _ _ rfl ⟨j, g1, g2, q3 h3⟩
  | @lockFail c a k n h1 h2 h3 h4 =>
    rw [h1] at hpi
    obtain ⟨j, g1, g2, g3⟩ := hpi
    obtain ⟨q0, n', q1, q2, q3⟩ := g3 s (Rely.refl _ _) hI
    rw [h.heap, h2] at q1
    cases q1
    exact quiet _ _ rfl ⟨j, g1, g2, q2 h3 h4⟩
  | @lock c a k n h1 h2 h3 h4 =>
    rw [h1] at hpi
    obtain ⟨j, g1, g2, g3⟩ := hpi
    obtain ⟨q0, n', q1, q2, q3⟩ := g3 s (Rely.refl _ _) hI
    rw [h.heap, h2] at q1
    cases q1
    refine lock _ _ a n rfl h2 ?_ ⟨_, h1⟩ ⟨j, g1, g2, q3 h3 h4⟩
    exact mod4_of h3 (by simp [h4])
  | @unlock c a k n h1 h2 =>
    rw [h1] at hpi
    obtain ⟨j, g1, g2, g3⟩ := hpi
    obtain ⟨q0, q1, n', q2, q3⟩ := g3 s (Rely.refl _ _) hI
    rw [h.heap, h2] at q2
    cases q2
    exact release _ _ a n 2 rfl h2 q0 (Or.inl ⟨rfl, q1⟩) ⟨_, h1⟩ ⟨j, g1, g2, q3⟩
  | @unlockObsolete c a k n h1 h2 =>
    rw [h1] at hpi
    obtain ⟨j, g1, g2, g3⟩ := hpi
    obtain ⟨q0, q1, q1', n', q2, q3⟩ := g3 s (Rely.refl _ _) hI
    rw [h.heap, h2] at q2
    cases q2
    exact release _ _ a n 3 rfl h2 q0 (Or.inr ⟨rfl, q1, q1'⟩) ⟨_, h1⟩ ⟨j, g1, g2, q3⟩
  | @read c a v k n r h1 h2 h3 h4 =>
    rw [h1] at hpi
    obtain ⟨j, g1, g2, g3⟩ := hpi
    obtain ⟨n', q1, q2⟩ := g3 s (Rely.refl _ _) hI
    rw [h.heap, h2] at q1
    cases q1
    exact quiet _ _ rfl ⟨j, g1, g2, q2 r h3 h4⟩
  | @readRoot c k n h1 h2 =>
    rw [h1] at hpi
    obtain ⟨j, g1, g2, g3⟩ := hpi
    obtain ⟨n', q1, q2⟩ := g3 s (Rely.refl _ _) hI
    rw [h.heap, h2] at q1
    cases q1
    exact quiet _ _ rfl ⟨j, g1, g2, q2⟩
  | @choose c k b h1 =>
    rw [h1] at hpi
    obtain ⟨j, g1, g2, g3⟩ := hpi
    exact quiet _ _ rfl ⟨j, g1, g2, g3 s (Rely.refl _ _) hI b⟩
  | @write c f k h' h1 h2 =>
    rw [h1] at hpi
    obtain ⟨j, g1, g2, g3⟩ := hpi
    obtain ⟨q0, h'', m, m', s2, q1, q2, q3, q4, q5, q6⟩ := g3 s (Rely.refl _ _) hI
    rw [h.heap, h2] at q1
    cases q1
    refine ⟨s2, c, .commit q2 q3 q4 q5 q0, Or.inr ⟨_, h1⟩, ?_, ?_, hoth, ?_⟩
    · rw [hσ', q4.heap]
      rfl
    · rw [hσ', q4.owner, h.owner]
      rfl
    · rw [hσ', to_procs, if_pos rfl]
      exact ⟨j, q4.since g1, g2, q6⟩

end

/-! ## The beginning -/

/-- The ghost state at the beginning. -/
theorem si_init {σ : Nat → Conf} {who : Nat → Nat} (h0 : σ 0 = Conf.init) : ∃ s, SI σ who 0 s ∧ s.hist = [(none, Map.empty)] := by
  obtain ⟨E, live, ⟨root, ht⟩, hc⟩ := seq_new
  have hlt : ∀ a n, new[a]? = some n → n.version = 0 ∧ (a = 0 ∨ a = 1) := by
    intro a n hn
    match a, hn with
    | 0, hn => cases hn; exact ⟨rfl, Or.inl rfl⟩
    | 1, hn => cases hn; exact ⟨rfl, Or.inr rfl⟩
    | a + 2, hn => simp [new] at hn
  have hroot : root = 1 := by
    obtain ⟨d, h1, h2⟩ := ht.dummy
    cases h1
    cases h2
    rfl
  refine ⟨⟨new, fun _ => none, E, live, [(none, Map.empty)]⟩, ⟨?_, ?_, ?_, rfl, ?_, ⟨_, rfl⟩, ?_, ?_, ?_⟩, rfl⟩
  · rw [h0]; rfl
  · rw [h0]; rfl
  · refine ⟨⟨_, ⟨none, rfl⟩, root, ht⟩, ?_, ?_, ?_, ?_, ?_, ?_, ?_⟩
    · intro a n hn
      rw [(hlt a n hn).1]
      exact ⟨fun _ => rfl, fun _ => rfl⟩
    · intro a ha; exact absurd rfl ha
    · intro a n hn ha; exact absurd rfl ha
    · intro n hn
      rw [(hlt 0 n hn).1]
    · intro a n _ hn
      rw [(hlt a n hn).1]
    · intro a n hn h1 hl
      rcases (hlt a n hn).2 with e | e
      · exact absurd e h1
      · rw [e, ← hroot] at hl
        exact absurd ht.tree.root_live hl
    · intro a c _ _ ho
      simp at ho
  · intro j τ m hj
    cases j with
    | zero =>
      simp at hj
      rw [h0, ← hj.2]
      exact ht.stands
    | succ j => simp at hj
  · intro j τ m τ' m' _ h2
    simp at h2
  · intro i
    simp
  · intro i
    rw [h0]
    exact ⟨fun a => by simp, by simp [Tags]⟩

theorem Run.si {T : Nat} {σ : Nat → Conf} {who : Nat → Nat} (h : Run T σ who) : ∀ t, t ≤ T → ∃ s, SI σ who t s := by
  intro t
  induction t with
  | zero =>
    intro _
    obtain ⟨s, hs, -⟩ := si_init (who := who) h.init
    exact ⟨s, hs⟩
  | succ t ih =>
    intro ht
    obtain ⟨s, hs⟩ := ih (by omega)
    obtain ⟨s2, c, hsim⟩ := hs.sim h (by omega)
    exact ⟨s2, hs.step hsim⟩

theorem Run.stepOk {T : Nat} {σ : Nat → Conf} {who : Nat → Nat} (h : Run T σ who) {t : Nat} (ht : t < T) : StepOk (who t) (σ t) (σ (t + 1)) := by
  obtain ⟨s, hs⟩ := h.si t (by omega)
  obtain ⟨s2, c, hsim⟩ := hs.sim h ht
  exact hsim.g.stepOk hs.inv hs.heap hs.owner hsim.heap hsim.owner

end Art
