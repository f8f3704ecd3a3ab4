import Verif.Art.Sound

/-!
# The tree used by any number of threads: C14 - C21

`Run T σ who` (in `Verif.Art.System`) is a run of `T` steps of any number of calls in any order, from a new tree on. The call `i` runs from
the step in which it begins up to the step in which it returns; `(σ t).procs i` is `running` at the instants in between. The
specification is `Stands h m`: the map of all leaves that can be reached from the root of the heap `h`.
-/

set_option linter.unusedSimpArgs false

namespace Art.Props

open Surf Spec

section
variable {T : Nat} {σ : Nat → Conf} {who : Nat → Nat}

/-! ## Proofs -/

theorem countP_one {α : Type} (f : α → Bool) : ∀ (l : List α), l.countP f = 1 →
    ∃ j x, l[j]? = some x ∧ f x = true ∧ ∀ (j' : Nat) x', l[j']? = some x' → f x' = true → j' = j := by
  intro l
  induction l with
  | nil => intro h; simp at h
  | cons a l ih =>
    intro h
    rw [List.countP_cons] at h
    by_cases ha : f a = true
    · rw [if_pos ha] at h
      have h0 : l.countP f = 0 := by omega
      rw [List.countP_eq_zero] at h0
      refine ⟨0, a, rfl, ha, ?_⟩
      intro j' x' hj hx
      cases j' with
      | zero => rfl
      | succ j' =>
        simp at hj
        exact absurd hx (h0 x' (List.mem_of_getElem? hj))
    · rw [if_neg ha] at h
      obtain ⟨j, x, h1, h2, h3⟩ := ih (by omega)
      refine ⟨j + 1, x, by simpa using h1, h2, ?_⟩
      intro j' x' hj hx
      cases j' with
      | zero =>
        simp at hj
        subst hj
        exact absurd hx ha
      | succ j' =>
        simp at hj
        rw [h3 j' x' hj hx]

theorem countP_zero_get {α : Type} {f : α → Bool} {l : List α} (h : l.countP f = 0) {j : Nat} {x : α} (hj : l[j]? = some x) : f x = false := by
  rw [List.countP_eq_zero] at h
  have := h x (List.mem_of_getElem? hj)
  simpa using this

theorem hist_get {s : St} {t : Nat} (hlen : s.hist.length = t + 1) {j : Nat} (hj : j ≤ t) : ∃ τ m, s.hist[j]? = some (τ, m) := by
  have : j < s.hist.length := by omega
  exact ⟨_, _, List.getElem?_eq_getElem this⟩

/-- What a step does to the map, in terms of the history. -/
theorem hist_next (h : Run T σ who) : ∃ s, SI σ who T s ∧ ∀ t, t < T → ∃ τ m τ' m', s.hist[t]? = some (τ, m) ∧ s.hist[t + 1]? = some (τ', m') ∧
    Stands (σ t).heap m ∧ Stands (σ (t + 1)).heap m' ∧
    (τ' = none ∧ m' = m ∨ τ' = some (who t) ∧ ∃ c p, (σ t).procs (who t) = .running c p ∧ callEff c m m') := by
  obtain ⟨s, hs⟩ := h.si T (Nat.le_refl _)
  refine ⟨s, hs, ?_⟩
  intro t ht
  obtain ⟨τ, m, h1⟩ := hist_get hs.len (show t ≤ T by omega)
  obtain ⟨τ', m', h2⟩ := hist_get hs.len (show t + 1 ≤ T by omega)
  exact ⟨τ, m, τ', m', h1, h2, hs.maps _ _ _ h1, hs.maps _ _ _ h2, hs.next _ _ _ _ _ h1 h2⟩

/-- The call of a process that has returned is the one that ran. -/
theorem run_call (h : Run T σ who) {t i : Nat} (ht : t ≤ T) {c c' : Call} {p} (h1 : (σ t).procs i = .running c p)
    (h2 : ((σ T).procs i).call = some c') : c = c' := by
  have := (h.phase i (t := t) (T - t) (by omega)).2 c (by rw [h1]; rfl)
  rw [show t + (T - t) = T by omega, h2] at this
  cases this
  rfl

/-- The one step of a call with an effect. -/
theorem one_effect (h : Run T σ who) {s : St} (hs : SI σ who T s)
    (hn : ∀ t, t < T → ∃ τ m τ' m', s.hist[t]? = some (τ, m) ∧ s.hist[t + 1]? = some (τ', m') ∧
      Stands (σ t).heap m ∧ Stands (σ (t + 1)).heap m' ∧
      (τ' = none ∧ m' = m ∨ τ' = some (who t) ∧ ∃ c p, (σ t).procs (who t) = .running c p ∧ callEff c m m')) {i : Nat} {c : Call}
    (hc : ((σ T).procs i).call = some c) (hT : Tags i 1 s) :
    ∃ t m m' p, t < T ∧ who t = i ∧ (σ t).procs i = .running c p ∧ Stands (σ t).heap m ∧ Stands (σ (t + 1)).heap m' ∧ callEff c m m' ∧
      ∀ t', t' < T → who t' = i → t' ≠ t → ∀ m, Stands (σ t').heap m → Stands (σ (t' + 1)).heap m := by
  obtain ⟨j, ⟨τ0, m0⟩, h1, h2, h3⟩ := countP_one _ _ hT
  simp only [beq_iff_eq] at h2
  subst h2
  have hj0 : j ≠ 0 := by
    rintro rfl
    obtain ⟨m, hm⟩ := hs.first
    rw [h1] at hm
    simp at hm
  obtain ⟨t, rfl⟩ : ∃ t, j = t + 1 := ⟨j - 1, by omega⟩
  have hlt : t + 1 < s.hist.length := (List.getElem?_eq_some_iff.mp h1).1
  rw [hs.len] at hlt
  obtain ⟨τ, m, τ', m', g1, g2, g3, g4, g5⟩ := hn t (by omega)
  rw [h1] at g2
  cases g2
  rcases g5 with ⟨e, -⟩ | ⟨e, c', p, g6, g7⟩
  · simp at e
  · simp only [Option.some.injEq] at e
    subst e
    have := run_call h (by omega) g6 hc
    subst this
    refine ⟨t, m, m0, p, by omega, rfl, g6, g3, g4, g7, ?_⟩
    intro t' ht' hw hne mm hmm
    obtain ⟨τ1, m1, τ2, m2, k1, k2, k3, k4, k5⟩ := hn t' ht'
    have e1 := hmm.unique k3
    rcases k5 with ⟨-, e2⟩ | ⟨e2, -⟩
    · rw [e1, ← e2]
      exact k4
    · exfalso
      apply hne
      have := h3 (t' + 1) _ k2 (by simp [e2, hw])
      omega

theorem no_effect {s : St}
    (hn : ∀ t, t < T → ∃ τ m τ' m', s.hist[t]? = some (τ, m) ∧ s.hist[t + 1]? = some (τ', m') ∧
      Stands (σ t).heap m ∧ Stands (σ (t + 1)).heap m' ∧
      (τ' = none ∧ m' = m ∨ τ' = some (who t) ∧ ∃ c p, (σ t).procs (who t) = .running c p ∧ callEff c m m')) {i : Nat}
    (hT : Tags i 0 s) : ∀ t', t' < T → who t' = i → ∀ m, Stands (σ t').heap m → Stands (σ (t' + 1)).heap m := by
  intro t' ht' hw mm hmm
  obtain ⟨τ1, m1, τ2, m2, k1, k2, k3, k4, k5⟩ := hn t' ht'
  have e1 := hmm.unique k3
  rcases k5 with ⟨-, e2⟩ | ⟨e2, -⟩
  · rw [e1, ← e2]
    exact k4
  · have := countP_zero_get hT k2
    rw [e2, hw] at this
    simp at this

/-! ## The properties -/

/-- At every instant the tree stands for a map; at first, for the empty one. -/
theorem C14_map (h : Run T σ who) : Stands (σ 0).heap Map.empty ∧ ∀ t, t ≤ T → ∃ m, Stands (σ t).heap m := by
  constructor
  · obtain ⟨s, hs, e⟩ := si_init (who := who) h.init
    exact hs.maps 0 none _ (by rw [e]; rfl)
  · intro t ht
    obtain ⟨s, hs⟩ := h.si t ht
    obtain ⟨τ, m, h1⟩ := hist_get hs.len (Nat.le_refl t)
    exact ⟨m, hs.maps _ _ _ h1⟩

/-- C14: what a `Get` returns is what the map held under the key at an instant between call and return. -/
theorem C14_get (h : Run T σ who) {i : Nat} {k : Bytes} {o : Option Bytes} (hd : (σ T).procs i = .done (.get k) o) :
    ∃ t m p, t ≤ T ∧ (σ t).procs i = .running (.get k) p ∧ Stands (σ t).heap m ∧ m k = o := by
  obtain ⟨s, hs⟩ := h.si T (Nat.le_refl _)
  have := hs.procs i
  rw [hd] at this
  obtain ⟨-, j, τ, m, p, h1, h2, h3, h4⟩ := this
  exact ⟨j, m, p, h1, h2, hs.maps _ _ _ h3, h4⟩

/-- C14: a `Get`, returned or not, does not change the map. -/
theorem C14_get_silent (h : Run T σ who) {t : Nat} (ht : t < T) {k : Bytes} (hc : ((σ t).procs (who t)).call = some (.get k)) {m : Map}
    (hm : Stands (σ t).heap m) : Stands (σ (t + 1)).heap m := by
  obtain ⟨s, hs, hn⟩ := hist_next h
  obtain ⟨τ1, m1, τ2, m2, k1, k2, k3, k4, k5⟩ := hn t ht
  have e1 := hm.unique k3
  rcases k5 with ⟨-, e2⟩ | ⟨e2, c, p, e3, e4⟩
  · rw [e1, ← e2]
    exact k4
  · rw [e3] at hc
    simp only [Proc.call, Option.some.injEq] at hc
    subst hc
    exact absurd e4 id

/-- C15: a `Put` that has returned has changed the map from `m` to `m[k := v]` in exactly one step, between call and return; in all its other
steps the map stayed as it was. -/
theorem C15_put (h : Run T σ who) {i : Nat} {k v : Bytes} {o : Option Bytes} (hd : (σ T).procs i = .done (.put k v) o) :
    ∃ t m p, t < T ∧ who t = i ∧ (σ t).procs i = .running (.put k v) p ∧ Stands (σ t).heap m ∧ Stands (σ (t + 1)).heap (m.put k v) ∧
      ∀ t', t' < T → who t' = i → t' ≠ t → ∀ m, Stands (σ t').heap m → Stands (σ (t' + 1)).heap m := by
  obtain ⟨s, hs, hn⟩ := hist_next h
  have := hs.procs i
  rw [hd] at this
  obtain ⟨t, m, m', p, h1, h2, h3, h4, h5, h6, h7⟩ := one_effect h hs hn (c := .put k v) (by rw [hd]; rfl) this.2
  have h6 : m' = m.put k v := h6
  subst h6
  exact ⟨t, m, p, h1, h2, h3, h4, h5, h7⟩

/-- C15: no update is lost: in every step the map either stays as it is, or changes by the effect of the call that makes the step. -/
theorem C15_only_effects (h : Run T σ who) {t : Nat} (ht : t < T) {m m' : Map} (hm : Stands (σ t).heap m) (hm' : Stands (σ (t + 1)).heap m') :
    m' = m ∨ (∃ k v p, (σ t).procs (who t) = .running (.put k v) p ∧ m' = m.put k v) ∨
      ∃ k p, (σ t).procs (who t) = .running (.delete k) p ∧ m' = m.delete k := by
  obtain ⟨s, hs, hn⟩ := hist_next h
  obtain ⟨τ1, m1, τ2, m2, k1, k2, k3, k4, k5⟩ := hn t ht
  have e1 := hm.unique k3
  have e2 := hm'.unique k4
  subst e1
  subst e2
  rcases k5 with ⟨-, e⟩ | ⟨-, c, p, e3, e4⟩
  · exact Or.inl e
  · right
    cases c with
    | get k => exact absurd e4 id
    | put k v => exact Or.inl ⟨k, v, p, e3, e4⟩
    | delete k => exact Or.inr ⟨k, p, e3, e4⟩

/-- C15, C16: no call, returned or not, changes the map in two steps. -/
theorem C15_at_most_once (h : Run T σ who) {t t' : Nat} (ht : t < T) (ht' : t' < T) (hw : who t = who t') {m m1 n n1 : Map}
    (hm : Stands (σ t).heap m) (hm1 : Stands (σ (t + 1)).heap m1) (hn : Stands (σ t').heap n) (hn1 : Stands (σ (t' + 1)).heap n1)
    (e : m1 ≠ m) (e' : n1 ≠ n) : t = t' := by
  obtain ⟨s, hs, hnx⟩ := hist_next h
  obtain ⟨τ1, a1, τ2, a2, k1, k2, k3, k4, k5⟩ := hnx t ht
  obtain ⟨τ3, a3, τ4, a4, j1, j2, j3, j4, j5⟩ := hnx t' ht'
  have e1 := hm.unique k3
  have e2 := hm1.unique k4
  have e3 := hn.unique j3
  have e4 := hn1.unique j4
  subst e1 e2 e3 e4
  rcases k5 with ⟨-, x⟩ | ⟨k5, -⟩
  · exact absurd x e
  · rcases j5 with ⟨-, x⟩ | ⟨j5, -⟩
    · exact absurd x e'
    · have h1 := hs.one (who t)
      have hpos : 0 < s.hist.countP (fun e => e.1 == some (who t)) := by
        rw [List.countP_pos_iff]
        exact ⟨_, List.mem_of_getElem? k2, by simp [k5]⟩
      obtain ⟨j, x, -, -, huniq⟩ := countP_one _ _ (show s.hist.countP (fun e => e.1 == some (who t)) = 1 by omega)
      have q1 := huniq _ _ k2 (by simp [k5])
      have q2 := huniq _ _ j2 (by simp [j5, hw])
      omega

/-- C16: a `Delete` that has returned either has removed the key in exactly one step, between call and return, or it has changed nothing
and the key was absent at an instant between call and return. -/
theorem C16_delete (h : Run T σ who) {i : Nat} {k : Bytes} {o : Option Bytes} (hd : (σ T).procs i = .done (.delete k) o) :
    (∃ t m p, t < T ∧ who t = i ∧ (σ t).procs i = .running (.delete k) p ∧ Stands (σ t).heap m ∧ Stands (σ (t + 1)).heap (m.delete k) ∧
      ∀ t', t' < T → who t' = i → t' ≠ t → ∀ m, Stands (σ t').heap m → Stands (σ (t' + 1)).heap m) ∨
    ((∀ t', t' < T → who t' = i → ∀ m, Stands (σ t').heap m → Stands (σ (t' + 1)).heap m) ∧
      ∃ t m p, t ≤ T ∧ (σ t).procs i = .running (.delete k) p ∧ Stands (σ t).heap m ∧ m k = none) := by
  obtain ⟨s, hs, hn⟩ := hist_next h
  have := hs.procs i
  rw [hd] at this
  rcases this.2 with hT | ⟨hT, j, τ, m, p, h1, h2, h3, h4⟩
  · obtain ⟨t, m, m', p, h1, h2, h3, h4, h5, h6, h7⟩ := one_effect h hs hn (c := .delete k) (by rw [hd]; rfl) hT
    have h6 : m' = m.delete k := h6
    subst h6
    exact Or.inl ⟨t, m, p, h1, h2, h3, h4, h5, h7⟩
  · exact Or.inr ⟨no_effect hn hT, j, m, p, h1, h2, hs.maps _ _ _ h3, h4⟩

/-- C17: a node is locked exactly while some call holds its lock (and `owner` names only one). -/
theorem C17_locked_iff (h : Run T σ who) {t : Nat} (ht : t ≤ T) {a : Addr} {n : Node} (hn : (σ t).heap[a]? = some n) :
    locked n.version = true ↔ ∃ i, (σ t).owner a = some i := by
  obtain ⟨s, hs⟩ := h.si t ht
  have := hs.inv.own a n (by rw [hs.heap]; exact hn)
  rw [hs.owner] at this
  cases ho : (σ t).owner a with
  | none =>
    have := this.mp ho
    simp [this]
  | some i =>
    rw [ho] at this
    simp at this
    simp [this]

/-- C17: a lock passes only from free to the call that makes the step, or from this call to free. -/
theorem C17_lock_steps (h : Run T σ who) {t : Nat} (ht : t < T) (a : Addr) :
    (σ (t + 1)).owner a = (σ t).owner a ∨ (σ t).owner a = none ∧ (σ (t + 1)).owner a = some (who t) ∨
      (σ t).owner a = some (who t) ∧ (σ (t + 1)).owner a = none := (h.stepOk ht).owner a

/-- C17: a step changes a node only if the call that makes it holds the lock of the node, or takes the free lock by this step (which changes
nothing but the version). -/
theorem C17_change (h : Run T σ who) {t : Nat} (ht : t < T) {a : Addr} {n : Node} (hn : (σ t).heap[a]? = some n) :
    ∃ n', (σ (t + 1)).heap[a]? = some n' ∧ (n' = n ∨ (σ t).owner a = some (who t) ∨
      (σ t).owner a = none ∧ (σ (t + 1)).owner a = some (who t) ∧ n' = { n with version := n.version + 2 }) := by
  obtain ⟨n', h1, -, -, h2⟩ := (h.stepOk ht).node a n hn
  exact ⟨n', h1, h2.imp id (Or.imp id (fun x => ⟨x.1, x.2.1, x.2.2.2⟩))⟩

/-- C17: a call that has not begun, has returned, or has panicked holds no lock. -/
theorem C17_released (h : Run T σ who) {i : Nat} (hd : ∀ c p, (σ T).procs i ≠ .running c p) (a : Addr) : (σ T).owner a ≠ some i := by
  obtain ⟨s, hs⟩ := h.si T (Nat.le_refl _)
  have hp := hs.procs i
  rw [← hs.owner]
  cases hc : (σ T).procs i with
  | idle => rw [hc] at hp; exact hp.1.free a
  | running c p => exact absurd hc (hd c p)
  | done c o => rw [hc] at hp; exact hp.1.free a
  | crashed c => rw [hc] at hp; exact hp.1 a

/-- C18: nodes stay, with their type, and the version of a node never falls. -/
theorem C18_version_monotone (h : Run T σ who) {t : Nat} {a : Addr} {n : Node} (hn : (σ t).heap[a]? = some n) :
    ∀ d, t + d ≤ T → ∃ n', (σ (t + d)).heap[a]? = some n' ∧ n'.cap = n.cap ∧ n.version ≤ n'.version := by
  intro d
  induction d with
  | zero => intro _; exact ⟨n, hn, rfl, Nat.le_refl _⟩
  | succ d ih =>
    intro hd
    obtain ⟨n1, h1, h2, h3⟩ := ih (by omega)
    obtain ⟨n2, g1, g2, g3, -⟩ := (h.stepOk (show t + d < T by omega)).node a n1 h1
    exact ⟨n2, g1, by rw [g2, h2], by omega⟩

/-- C18: if a node that was not locked has the same version at a later instant, it did not change in between. -/
theorem C18_snapshot (h : Run T σ who) {t : Nat} {a : Addr} {n : Node} (hn : (σ t).heap[a]? = some n) (hl : locked n.version = false)
    {d : Nat} (hd : t + d ≤ T) {n' : Node} (hn' : (σ (t + d)).heap[a]? = some n') (hv : n'.version = n.version) :
    ∀ e, e ≤ d → (σ (t + e)).heap[a]? = some n := by
  have hbetween : ∀ e, e ≤ d → ∃ n1, (σ (t + e)).heap[a]? = some n1 ∧ n1.version = n.version := by
    intro e he
    obtain ⟨n1, h1, h2, h3⟩ := C18_version_monotone h hn e (by omega)
    obtain ⟨n2, g1, g2, g3⟩ := C18_version_monotone h h1 (d - e) (by omega)
    rw [show t + e + (d - e) = t + d by omega, hn'] at g1
    cases g1
    exact ⟨n1, h1, by omega⟩
  intro e
  induction e with
  | zero => intro _; exact hn
  | succ e ih =>
    intro he
    have h1 := ih (by omega)
    obtain ⟨n2, g1, g2, g3, g4⟩ := (h.stepOk (show t + e < T by omega)).node a n h1
    obtain ⟨n3, k1, k2⟩ := hbetween (e + 1) he
    have k1' : (σ (t + e + 1)).heap[a]? = some n3 := k1
    rw [g1] at k1'
    cases k1'
    rcases g4 with g4 | g4 | ⟨-, -, -, g4⟩
    · rw [← g4]
      exact g1
    · have := (C17_locked_iff h (show t + e ≤ T by omega) h1).mpr ⟨_, g4⟩
      rw [hl] at this
      simp at this
    · rw [g4] at k2
      simp at k2

/-- C18: whatever a call reads from the node `a` after recording its version `v`, and before finding it still at `v`, is what the node held all the time. -/
theorem C18_validated_read (h : Run T σ who) {t : Nat} {a : Addr} {n : Node} (hn : (σ t).heap[a]? = some n) (hl : locked n.version = false)
    {d : Nat} (hd : t + d ≤ T) {n' : Node} (hn' : (σ (t + d)).heap[a]? = some n') (hv : n'.version = n.version)
    {e : Nat} (he : e < d) {c : Call} {k : Node → Prog (Option Bytes)} (hp : (σ (t + e)).procs (who (t + e)) = .running c (.read a n.version k)) :
    (σ (t + e + 1)).procs (who (t + e)) = .running c (k n) := by
  have hsnap := C18_snapshot h hn hl hd hn' hv e (by omega)
  have hst := h.step (t + e) (by omega)
  generalize σ (t + e + 1) = σ1 at hst
  generalize who (t + e) = i at *
  cases hst with
  | read r h1 h2 h3 h4 =>
    rw [hp] at h1
    cases h1
    rw [hsnap] at h2
    cases h2
    rw [h4 rfl, to_procs, if_pos rfl]
  | crash h1 h2 =>
    rw [hp] at h1
    cases h1
    rw [show (σ (t + e)).heap[a]? = none from h2] at hsnap
    simp at hsnap
  | call c f h1 h2 => rw [hp] at h1; cases h1
  | ret h1 => rw [hp] at h1; cases h1
  | wait h1 => rw [hp] at h1; cases h1
  | load h1 => rw [hp] at h1; cases h1
  | cas h1 => rw [hp] at h1; cases h1
  | casFail h1 => rw [hp] at h1; cases h1
  | lockFail h1 => rw [hp] at h1; cases h1
  | lock h1 => rw [hp] at h1; cases h1
  | unlock h1 => rw [hp] at h1; cases h1
  | unlockObsolete h1 => rw [hp] at h1; cases h1
  | readRoot h1 => rw [hp] at h1; cases h1
  | choose b h1 => rw [hp] at h1; cases h1
  | write h1 => rw [hp] at h1; cases h1

/-- C19: a node that is not part of the tree (and not the dummy) is obsolete, unless the call that took it out still holds its lock. -/
theorem C19_obsolete (h : Run T σ who) {t : Nat} (ht : t ≤ T) {a : Addr} {n : Node} (hn : (σ t).heap[a]? = some n) (h0 : a ≠ 0)
    (hi : ¬ InTree (σ t).heap a) : obsolete n.version = true ∨ ∃ i, (σ t).owner a = some i := by
  obtain ⟨s, hs⟩ := h.si t ht
  rw [← hs.heap] at hn hi
  rw [hs.inv.inTree_iff] at hi
  cases ho : (σ t).owner a with
  | some i => exact Or.inr ⟨i, rfl⟩
  | none =>
    left
    have := hs.inv.dead a n hn h0 hi (by rw [hs.owner]; exact ho)
    simp [obsolete, this]

/-- C19: a node taken out of the tree never comes back, and nothing in it but the version changes any more. -/
theorem C19_gone (h : Run T σ who) {t : Nat} {a : Addr} {n : Node} (hn : (σ t).heap[a]? = some n) (h0 : a ≠ 0)
    (hi : ¬ InTree (σ t).heap a) : ∀ d, t + d ≤ T → ¬ InTree (σ (t + d)).heap a ∧
      ∃ n', (σ (t + d)).heap[a]? = some n' ∧ n' = { n with version := n'.version } := by
  intro d
  induction d with
  | zero => intro _; exact ⟨hi, n, hn, rfl⟩
  | succ d ih =>
    intro hd
    obtain ⟨h1, n1, h2, h3⟩ := ih (by omega)
    obtain ⟨g1, n2, g2, g3⟩ := (h.stepOk (show t + d < T by omega)).dead a n1 h0 h2 h1
    refine ⟨g1, n2, g2, ?_⟩
    rw [h3] at g3
    exact g3

/-- C19: an obsolete node is never locked or changed again, and a reader that recorded its version before it was replaced does not find this
version any more (recorded versions are those of `waitUnlock`, which are not obsolete). -/
theorem C19_frozen (h : Run T σ who) {t : Nat} {a : Addr} {n : Node} (hn : (σ t).heap[a]? = some n) (ho : obsolete n.version = true) :
    ∀ d, t + d ≤ T → (σ (t + d)).heap[a]? = some n ∧ (σ (t + d)).owner a = none ∧ ∀ v, obsolete v = false → n.version ≠ v := by
  have hne : ∀ v, obsolete v = false → n.version ≠ v := by
    rintro v hv rfl
    rw [hv] at ho
    simp at ho
  have hown : ∀ t, t ≤ T → (σ t).heap[a]? = some n → (σ t).owner a = none := by
    intro t ht hn
    obtain ⟨s, hs⟩ := h.si t ht
    by_contra hh
    have := hs.inv.held a n (by rw [hs.heap]; exact hn) (by rw [hs.owner]; exact hh)
    simp [obsolete] at ho
    omega
  intro d
  induction d with
  | zero => intro hd; exact ⟨hn, hown _ (by omega) hn, hne⟩
  | succ d ih =>
    intro hd
    obtain ⟨h1, h2, -⟩ := ih (by omega)
    obtain ⟨n', g1, g2, g3, g4⟩ := (h.stepOk (show t + d < T by omega)).node a n h1
    have e : n' = n := by
      rcases g4 with g4 | g4 | ⟨-, -, g4, -⟩
      · exact g4
      · rw [h2] at g4
        simp at g4
      · simp [obsolete] at ho
        omega
    subst e
    exact ⟨g1, hown _ hd g1, hne⟩

/-- A call that waits for a lock (lock.go:43-55, 65-77). -/
def Waits (σ : Conf) (i : Nat) : Prop :=
  ∃ c a k n, (σ.procs i = .running c (.wait a k) ∨ ∃ k', σ.procs i = .running c (.lock a k')) ∧ σ.heap[a]? = some n ∧ locked n.version = true

/-- A running call can make a step, waits for a lock, or has used up its fuel. -/
theorem can_step {σ : Conf} {i : Nat} {c : Call} {p : Prog (Option Bytes)} (hp : σ.procs i = .running c p) :
    (∃ σ', Step i σ σ') ∨ (∃ a k n, p = .wait a k ∧ σ.heap[a]? = some n ∧ locked n.version = true) ∨
      (∃ a k n, p = .lock a k ∧ σ.heap[a]? = some n ∧ locked n.version = true) ∨ p = .diverge := by
  cases p with
  | ret o => exact Or.inl ⟨_, .ret hp⟩
  | panic => exact Or.inl ⟨_, .crash hp trivial⟩
  | diverge => exact Or.inr (Or.inr (Or.inr rfl))
  | wait a k =>
    cases hn : σ.heap[a]? with
    | none => exact Or.inl ⟨_, .crash hp hn⟩
    | some n =>
      cases hl : locked n.version with
      | false => exact Or.inl ⟨_, .wait hp hn hl⟩
      | true => exact Or.inr (Or.inl ⟨a, k, n, rfl, hn, hl⟩)
  | load a k =>
    cases hn : σ.heap[a]? with
    | none => exact Or.inl ⟨_, .crash hp hn⟩
    | some n => exact Or.inl ⟨_, .load hp hn⟩
  | cas a v k =>
    cases hn : σ.heap[a]? with
    | none => exact Or.inl ⟨_, .crash hp hn⟩
    | some n =>
      by_cases e : n.version = v
      · exact Or.inl ⟨_, .cas hp hn e⟩
      · exact Or.inl ⟨_, .casFail hp hn e⟩
  | lock a k =>
    cases hn : σ.heap[a]? with
    | none => exact Or.inl ⟨_, .crash hp hn⟩
    | some n =>
      cases hl : locked n.version with
      | false =>
        cases ho : obsolete n.version with
        | false => exact Or.inl ⟨_, .lock hp hn hl ho⟩
        | true => exact Or.inl ⟨_, .lockFail hp hn hl ho⟩
      | true => exact Or.inr (Or.inr (Or.inl ⟨a, k, n, rfl, hn, hl⟩))
  | unlock a k =>
    cases hn : σ.heap[a]? with
    | none => exact Or.inl ⟨_, .crash hp hn⟩
    | some n => exact Or.inl ⟨_, .unlock hp hn⟩
  | unlockObsolete a k =>
    cases hn : σ.heap[a]? with
    | none => exact Or.inl ⟨_, .crash hp hn⟩
    | some n => exact Or.inl ⟨_, .unlockObsolete hp hn⟩
  | read a v k =>
    cases hn : σ.heap[a]? with
    | none => exact Or.inl ⟨_, .crash hp hn⟩
    | some n => exact Or.inl ⟨_, .read n hp hn rfl (fun _ => rfl)⟩
  | readRoot k =>
    cases hn : σ.heap[0]? with
    | none => exact Or.inl ⟨_, .crash hp hn⟩
    | some n => exact Or.inl ⟨_, .readRoot hp hn⟩
  | choose k => exact Or.inl ⟨_, .choose true hp⟩
  | write f k =>
    cases hn : f σ.heap with
    | none => exact Or.inl ⟨_, .crash hp hn⟩
    | some h => exact Or.inl ⟨_, .write hp hn⟩

/-- C20: if a node is locked, some call that holds a lock can make a step (that is, a step other than waiting). -/
theorem C20_no_deadlock (h : Run T σ who) {a : Addr} {i : Nat} (ho : (σ T).owner a = some i) :
    ∃ b j σ', (σ T).owner b = some j ∧ Step j (σ T) σ' := by
  obtain ⟨s, hs⟩ := h.si T (Nat.le_refl _)
  obtain ⟨B, hB⟩ := exists_bound s.E s.heap.length
  have key : ∀ (N : Nat) (a : Addr) (i : Nat), s.owner a = some i → B + 1 ≤ s.rank a + N → ∃ b j σ', (σ T).owner b = some j ∧ Step j (σ T) σ' := by
    intro N
    induction N with
    | zero =>
      intro a i ho hN
      exfalso
      have hlt := hs.inv.lt a (by rw [ho]; simp)
      have := hB a hlt
      unfold St.rank at hN
      split at hN <;> omega
    | succ N ih =>
      intro a i ho hN
      have hp := hs.procs i
      cases hc : (σ T).procs i with
      | idle => rw [hc] at hp; exact absurd ho (hp.1.free a)
      | done c o => rw [hc] at hp; exact absurd ho (hp.1.free a)
      | crashed c => rw [hc] at hp; exact absurd ho (hp.1 a)
      | running c p =>
        rw [hc] at hp
        obtain ⟨j, -, -, hwp⟩ := hp
        rcases can_step hc with ⟨σ', hst⟩ | ⟨b, k, n, rfl, -, -⟩ | ⟨b, k, n, rfl, hn, hl⟩ | rfl
        · exact ⟨a, i, σ', by rw [← hs.owner]; exact ho, hst⟩
        · obtain ⟨hf, -⟩ := hwp s (Rely.refl _ _) hs.inv
          exact absurd ho (hf a)
        · obtain ⟨hr, -⟩ := hwp s (Rely.refl _ _) hs.inv
          have hlt := hr a ho
          obtain ⟨i', hi'⟩ := (C17_locked_iff h (Nat.le_refl T) hn).mp hl
          exact ih b i' (by rw [hs.owner]; exact hi') (by omega)
        · exact absurd ho (hwp s (Rely.refl _ _) hs.inv a)
  exact key (B + 1) a i (by rw [hs.owner]; exact ho) (Nat.le_add_left _ _)

/-- C20: a running call that can make no step waits for a lock, and then some call that holds a lock can make a step. (Fuel that is used up stands for a loop
that has not come to its end within the run.) -/
theorem C20_progress (h : Run T σ who) {i : Nat} {c : Call} {p : Prog (Option Bytes)} (hp : (σ T).procs i = .running c p) (hd : p ≠ .diverge) :
    (∃ σ', Step i (σ T) σ') ∨ Waits (σ T) i ∧ ∃ b j σ', (σ T).owner b = some j ∧ Step j (σ T) σ' := by
  rcases can_step hp with hst | ⟨b, k, n, rfl, hn, hl⟩ | ⟨b, k, n, rfl, hn, hl⟩ | rfl
  · exact Or.inl hst
  · obtain ⟨i', hi'⟩ := (C17_locked_iff h (Nat.le_refl T) hn).mp hl
    exact Or.inr ⟨⟨c, b, k, n, Or.inl hp, hn, hl⟩, C20_no_deadlock h hi'⟩
  · obtain ⟨i', hi'⟩ := (C17_locked_iff h (Nat.le_refl T) hn).mp hl
    exact Or.inr ⟨⟨c, b, fun _ => .diverge, n, Or.inr ⟨k, hp⟩, hn, hl⟩, C20_no_deadlock h hi'⟩
  · exact absurd rfl hd

/-- C21, without `Put`: no `Get` and no `Delete` panics in any run. For `Put` the claim is false, see `C21_violated`. -/
theorem C21_no_panic_partial (h : Run T σ who) {i : Nat} {c : Call} (hc : (σ T).procs i = .crashed c) : ∃ k v, c = .put k v := by
  obtain ⟨s, hs⟩ := h.si T (Nat.le_refl _)
  have hp := hs.procs i
  rw [hc] at hp
  cases c with
  | put k v => exact ⟨k, v, rfl⟩
  | get k => exact absurd hp.2 id
  | delete k => exact absurd hp.2 id

/-- C21: a `Put` that panics holds no lock then, so the others are not blocked. -/
theorem C21_panic_free (h : Run T σ who) {i : Nat} {c : Call} (hc : (σ T).procs i = .crashed c) (a : Addr) : (σ T).owner a ≠ some i :=
  C17_released h (by rw [hc]; simp) a

end

/-! ## Examples: runs by a schedule -/

/-- What the schedule says: begin a call, or make a step (with the order of evaluation to take). -/
inductive Act where
  | call (c : Call) (fuel : Nat)
  | go (b : Bool)

/-- A step of the call `i` that reads what is there. -/
def act (σ : Conf) (i : Nat) : Act → Option Conf
  | .call c fuel => match σ.procs i with
    | .idle => if c.Fits then some (σ.to i σ.heap (.running c (c.prog fuel))) else none
    | _ => none
  | .go b => match σ.procs i with
    | .running c (.ret o) => some (σ.to i σ.heap (.done c o))
    | .running c .panic => some (σ.to i σ.heap (.crashed c))
    | .running c (.wait a k) => match σ.heap[a]? with
      | some n => if locked n.version = false then some (σ.to i σ.heap (.running c (k n.version))) else none
      | none => none
    | .running c (.load a k) => match σ.heap[a]? with
      | some n => some (σ.to i σ.heap (.running c (k n.version)))
      | none => none
    | .running c (.cas a v k) => match σ.heap[a]? with
      | some n => if n.version = v then some ((σ.to i (setVer σ.heap a (v + 2)) (.running c (k true))).own a (some i))
        else some (σ.to i σ.heap (.running c (k false)))
      | none => none
    | .running c (.lock a k) => match σ.heap[a]? with
      | some n => if locked n.version = false then
          if obsolete n.version = false then some ((σ.to i (setVer σ.heap a (n.version + 2)) (.running c (k true))).own a (some i))
          else none
        else none
      | none => none
    | .running c (.unlock a k) => match σ.heap[a]? with
      | some n => some ((σ.to i (setVer σ.heap a (n.version + 2)) (.running c k)).own a none)
      | none => none
    | .running c (.unlockObsolete a k) => match σ.heap[a]? with
      | some n => some ((σ.to i (setVer σ.heap a (n.version + 3)) (.running c k)).own a none)
      | none => none
    | .running c (.read a _ k) => match σ.heap[a]? with
      | some n => some (σ.to i σ.heap (.running c (k n)))
      | none => none
    | .running c (.readRoot k) => match σ.heap[0]? with
      | some n => some (σ.to i σ.heap (.running c (k n.root)))
      | none => none
    | .running c (.choose k) => some (σ.to i σ.heap (.running c (k b)))
    | .running c (.write f k) => match f σ.heap with
      | some h => some (σ.to i h (.running c k))
      | none => none
    | _ => none

theorem act_step {σ σ' : Conf} {i : Nat} {x : Act} (h : act σ i x = some σ') : Step i σ σ' := by
  cases x with
  | call c fuel =>
    simp only [act] at h
    split at h
    next hp =>
      by_cases e : c.Fits
      · rw [if_pos e] at h
        cases h
        exact .call c fuel hp e
      · rw [if_neg e] at h
        simp at h
    next => simp at h
  | go b =>
    simp only [act] at h
    split at h
    next c o hp => cases h; exact .ret hp
    next c hp => cases h; exact .crash hp trivial
    next c a k hp =>
      split at h
      next n hn =>
        by_cases e : locked n.version = false
        · rw [if_pos e] at h; cases h; exact .wait hp hn e
        · rw [if_neg e] at h; simp at h
      next => simp at h
    next c a k hp =>
      split at h
      next n hn => cases h; exact .load hp hn
      next => simp at h
    next c a v k hp =>
      split at h
      next n hn =>
        by_cases e : n.version = v
        · rw [if_pos e] at h; cases h; exact .cas hp hn e
        · rw [if_neg e] at h; cases h; exact .casFail hp hn e
      next => simp at h
    next c a k hp =>
      split at h
      next n hn =>
        by_cases e : locked n.version = false
        · rw [if_pos e] at h
          by_cases e' : obsolete n.version = false
          · rw [if_pos e'] at h; cases h; exact .lock hp hn e e'
          · rw [if_neg e'] at h; simp at h
        · rw [if_neg e] at h; simp at h
      next => simp at h
    next c a k hp =>
      split at h
      next n hn => cases h; exact .unlock hp hn
      next => simp at h
    next c a k hp =>
      split at h
      next n hn => cases h; exact .unlockObsolete hp hn
      next => simp at h
    next c a v k hp =>
      split at h
      next n hn => cases h; exact .read n hp hn rfl (fun _ => rfl)
      next => simp at h
    next c k hp =>
      split at h
      next n hn => cases h; exact .readRoot hp hn
      next => simp at h
    next c k hp => cases h; exact .choose b hp
    next c f k hp =>
      split at h
      next hh hn => cases h; exact .write hp hn
      next => simp at h
    next => simp at h

/-- Run a schedule. -/
def exec : List (Nat × Act) → Conf → Option Conf
  | [], σ => some σ
  | (i, x) :: xs, σ => (act σ i x).bind (exec xs)

/-- The states of a run by a schedule. -/
def states : List (Nat × Act) → Conf → Nat → Conf
  | [], σ, _ => σ
  | _ :: _, σ, 0 => σ
  | (i, x) :: xs, σ, t + 1 => match act σ i x with
    | some σ' => states xs σ' t
    | none => σ

theorem states_zero (xs : List (Nat × Act)) (σ : Conf) : states xs σ 0 = σ := by
  cases xs <;> rfl

theorem exec_steps : ∀ (xs : List (Nat × Act)) (σ σ' : Conf), exec xs σ = some σ' → states xs σ xs.length = σ' ∧
    ∀ t, t < xs.length → Step ((xs[t]?.map (·.1)).getD 0) (states xs σ t) (states xs σ (t + 1)) := by
  intro xs
  induction xs with
  | nil =>
    intro σ σ' h
    cases h
    exact ⟨rfl, by simp⟩
  | cons x xs ih =>
    intro σ σ' h
    obtain ⟨i, x⟩ := x
    simp only [exec, Option.bind_eq_some_iff] at h
    obtain ⟨σ1, h1, h2⟩ := h
    obtain ⟨g1, g2⟩ := ih σ1 σ' h2
    refine ⟨by simp only [List.length_cons, states, h1]; exact g1, ?_⟩
    intro t ht
    cases t with
    | zero =>
      simp only [states, h1, List.getElem?_cons_zero, Option.map_some, Option.getD_some, states_zero]
      exact act_step h1
    | succ t =>
      simp only [states, h1, List.getElem?_cons_succ]
      exact g2 t (by simpa using ht)

theorem exec_run {xs : List (Nat × Act)} {σ' : Conf} (h : exec xs Conf.init = some σ') :
    ∃ σ who, Run xs.length σ who ∧ σ xs.length = σ' := by
  obtain ⟨h1, h2⟩ := exec_steps xs _ _ h
  exact ⟨states xs Conf.init, fun t => (xs[t]?.map (·.1)).getD 0, ⟨states_zero _ _, h2⟩, h1⟩

/-- `n` steps of the call `i`. -/
def goes (i n : Nat) : List (Nat × Act) := List.replicate n (i, .go true)

/-- The key of `n` bytes 7 and a byte `b`. -/
def sevens (n : Nat) (b : UInt8) : Bytes := List.replicate n 7 ++ [b]

/-- Three `Put`s, one after the other: a root, below it a node with the prefix 7777, below this a node with the prefix 7777. -/
def setup : List (Nat × Act) :=
  [(0, .call (.put (sevens 5 8) [1]) 9)] ++ goes 0 16 ++ [(1, .call (.put (sevens 10 1) [2]) 9)] ++ goes 1 15 ++
  [(2, .call (.put (sevens 10 2) [3]) 9)] ++ goes 2 23

/-- The call `i` has returned `o`. -/
def _root_.Art.Conf.returned (σ : Conf) (i : Nat) (o : Option Bytes) : Bool := match σ.procs i with
  | .done _ o' => o' == o
  | _ => false

/-- The call `i` has panicked. -/
def _root_.Art.Conf.panicked (σ : Conf) (i : Nat) : Bool := match σ.procs i with
  | .crashed _ => true
  | _ => false

/-- A `Get` overtaken by a `Put` of the same key, begun later: at the last node, its version check fails, it starts again, and finds the new value. -/
def overtaken : List (Nat × Act) := setup ++ [(5, .call (.get (sevens 20 2)) 9), (3, .call (.put (sevens 20 2) [4]) 9)] ++
  goes 5 17 ++ goes 3 32 ++ goes 5 20

/-- The hypotheses of `C14_get`, `C15_put`, `C14_map` are met by this run. -/
theorem C14_C15_example : ∃ σ who, Run overtaken.length σ who ∧ (σ overtaken.length).returned 5 (some [4]) ∧ (σ overtaken.length).returned 3 none := by
  have h : ((exec overtaken Conf.init).map fun σ => σ.returned 5 (some [4]) && σ.returned 3 none) = some true := by decide +kernel
  simp only [Option.map_eq_some_iff] at h
  obtain ⟨σ', h1, h2⟩ := h
  obtain ⟨σ, who, h3, h4⟩ := exec_run h1
  rw [Bool.and_eq_true] at h2
  exact ⟨σ, who, h3, by rw [h4]; exact h2.1, by rw [h4]; exact h2.2⟩

/-- A `Put` of `sevens 20 2` comes to the third node and finds that its prefix is not longer than 8 (node.go:611); then `Delete(sevens 5 8)` runs, removes the node above,
and so makes the prefix of the third node 9 bytes long; then the `Put` goes on. -/
def unlucky : List (Nat × Act) := setup ++ [(3, .call (.put (sevens 20 2) [4]) 9)] ++ goes 3 21 ++ [(4, .call (.delete (sevens 5 8)) 9)] ++
  goes 4 24 ++ goes 3 2

/-- C21 is violated: there is a run in which a `Put` panics (it reads `n.prefixLen` a second time, then `n.prefix[8]`, node.go:612-615), though all that is ever read is what the nodes hold. The run also meets the
hypotheses of `C16_delete`, `C21_no_panic_partial` and `C21_panic_free`. -/
theorem C21_violated : ∃ T σ who, Run T σ who ∧ (σ T).panicked 3 ∧ (σ T).returned 4 none := by
  have h : ((exec unlucky Conf.init).map fun σ => σ.panicked 3 && σ.returned 4 none) = some true := by decide +kernel
  simp only [Option.map_eq_some_iff] at h
  obtain ⟨σ', h1, h2⟩ := h
  obtain ⟨σ, who, h3, h4⟩ := exec_run h1
  rw [Bool.and_eq_true] at h2
  exact ⟨_, σ, who, h3, by rw [h4]; exact h2.1, by rw [h4]; exact h2.2⟩

/-- A `Put` holds the lock of the third node while a `Delete` that holds the locks of the first two waits for it. -/
def waiting : List (Nat × Act) := setup ++ [(3, .call (.put (sevens 20 2) [4]) 9)] ++ goes 3 28 ++ [(4, .call (.delete (sevens 5 8)) 9)] ++ goes 4 18

/-- The hypotheses of `C17_locked_iff`, `C17_change`, `C20_no_deadlock`, `C20_progress` are met by this run, where two calls hold three locks. -/
theorem C20_example : ∃ σ who, Run waiting.length σ who ∧ (σ waiting.length).owner 1 = some 4 ∧ (σ waiting.length).owner 2 = some 4 ∧
    (σ waiting.length).owner 3 = some 3 ∧ act (σ waiting.length) 4 (.go true) = none := by
  have h : ((exec waiting Conf.init).map fun σ => σ.owner 1 == some 4 && σ.owner 2 == some 4 && σ.owner 3 == some 3 && (act σ 4 (.go true)).isNone) =
    some true := by decide +kernel
  simp only [Option.map_eq_some_iff, Bool.and_eq_true, beq_iff_eq, Option.isNone_iff_eq_none] at h
  obtain ⟨σ', h1, ⟨⟨h2, h3⟩, h4⟩, h5⟩ := h
  obtain ⟨σ, who, g3, g4⟩ := exec_run h1
  subst g4
  exact ⟨σ, who, g3, h2, h3, h4, h5⟩

/-- The hypotheses of `C19_obsolete`, `C19_gone`, `C19_frozen`: the run above with the second node out of the tree and obsolete; and those of `C18_snapshot`: the first node
is not locked at the end, and its version is 12. -/
theorem C19_example : ((exec unlucky Conf.init).map fun σ => (σ.heap.map fun n => (n.version, n.prefixLen))) =
    some [(0, 0), (12, 0), (9, 4), (4, 9)] := by decide +kernel

end Art.Props
