import Verif.Props.ArtLive

/-!
# Property C92: all locks can be released
-/

set_option linter.unusedSimpArgs false

namespace Art.Props

open Surf Spec

/-- The call holds a lock. -/
def Keeps (σ : Conf) (i : Nat) : Prop := ∃ a, σ.owner a = some i

theorem sum_less {n m : Nat → Nat} {j : Nat} : ∀ {L : List Nat}, (∀ i ∈ L, m i ≤ n i) → j ∈ L → m j < n j → (L.map m).sum < (L.map n).sum := by
  intro L
  induction L with
  | nil => intro _ hj; cases hj
  | cons x L ih =>
    intro hle hj hlt
    have hsum : (L.map m).sum ≤ (L.map n).sum := by
      clear ih hj hlt
      have : ∀ i ∈ L, m i ≤ n i := fun i hi => hle i (List.mem_cons_of_mem _ hi)
      clear hle
      induction L with
      | nil => simp
      | cons y L ih =>
        have h1 := this y (by simp)
        have h2 := ih (fun i hi => this i (List.mem_cons_of_mem _ hi))
        simp only [List.map_cons, List.sum_cons]
        omega
    simp only [List.map_cons, List.sum_cons]
    rcases List.mem_cons.mp hj with rfl | hj
    · omega
    · have h1 := hle x (by simp)
      have h2 := ih (fun i hi => hle i (List.mem_cons_of_mem _ hi)) hj hlt
      omega

theorem release {L : List Nat} : ∀ (N : Nat) {T : Nat} {σ : Nat → Conf} {who : Nat → Nat} (n : Nat → Nat), Run T σ who → (∀ i, Keeps (σ T) i → i ∈ L) → (∀ i, Keeps (σ T) i → Left (σ T) i (n i)) →
    (L.map n).sum ≤ N → ∃ d σ' who', d ≤ N ∧ Run (T + d) σ' who' ∧ (∀ u, u ≤ T → σ' u = σ u) ∧ (∀ u, u < T → who' u = who u) ∧ (∀ u, T ≤ u → u < T + d → Keeps (σ' u) (who' u)) ∧ ∀ i, ¬ Keeps (σ' (T + d)) i := by
  intro N
  induction N with
  | zero =>
    intro T σ who n h hL hn hs
    refine ⟨0, σ, who, Nat.le_refl _, h, fun _ _ => rfl, fun _ _ => rfl, fun u _ _ => by omega, ?_⟩
    rintro i ⟨a, ha⟩
    obtain ⟨b, j, x, hb, hst⟩ := C20_no_deadlock h ha
    obtain ⟨σ', who', k1, k2, k3, -, -⟩ := Run.extend h hst
    have hid : (∀ c p, (σ T).procs j ≠ .running c p) → ∀ a, (σ T).owner a ≠ some j := fun hd a => C17_released h hd a
    have haf : (∀ c p, x.procs j ≠ .running c p) → ∀ a, x.owner a ≠ some j := fun hd a => by
      have := C17_released k1 (i := j) (by rw [k3]; exact hd) a
      rwa [k3] at this
    obtain ⟨n', -, h2⟩ := (hn j ⟨b, hb⟩).step hid hst haf
    have h1 := (h2 ⟨b, hb⟩).1
    have : n j ≤ (L.map n).sum := List.le_sum_of_mem (List.mem_map_of_mem (hL j ⟨b, hb⟩))
    omega
  | succ N ih =>
    intro T σ who n h hL hn hs
    by_cases hk : ∃ i, Keeps (σ T) i
    · obtain ⟨i, a, ha⟩ := hk
      obtain ⟨b, j, x, hb, hst⟩ := C20_no_deadlock h ha
      obtain ⟨σ1, who1, k1, k2, k3, k4, k5⟩ := Run.extend h hst
      have hid : (∀ c p, (σ T).procs j ≠ .running c p) → ∀ a, (σ T).owner a ≠ some j := fun hd a => C17_released h hd a
      have haf : (∀ c p, x.procs j ≠ .running c p) → ∀ a, x.owner a ≠ some j := fun hd a => by
        have := C17_released k1 (i := j) (by rw [k3]; exact hd) a
        rwa [k3] at this
      obtain ⟨n', hl', h2⟩ := (hn j ⟨b, hb⟩).step hid hst haf
      obtain ⟨h1, h3⟩ := h2 ⟨b, hb⟩
      have hoth : ∀ i, i ≠ j → Keeps (σ1 (T + 1)) i → Keeps (σ T) i := by
        rintro i hi ⟨a, ha⟩
        have := C17_lock_steps k1 (Nat.lt_succ_self T) a
        rw [k5, k2 T (Nat.le_refl _)] at this
        rcases this with e | ⟨-, e⟩ | ⟨-, e⟩
        · exact ⟨a, by rw [← e]; exact ha⟩
        · rw [ha] at e; exact absurd (Option.some.inj e) hi
        · rw [ha] at e; cases e
      classical
      let m : Nat → Nat := fun i => if i = j then (if Keeps (σ1 (T + 1)) j then n' else 0) else n i
      have hm1 : m j < n j := by
        show (if j = j then (if Keeps (σ1 (T + 1)) j then n' else 0) else n j) < n j
        rw [if_pos rfl]
        split
        · next hk =>
          have := h3 (by rw [k3] at hk; exact hk)
          omega
        · omega
      have hm2 : ∀ i ∈ L, m i ≤ n i := by
        intro i _
        by_cases e : i = j
        · subst e; omega
        · show (if i = j then _ else n i) ≤ n i
          rw [if_neg e]
      have hlt := sum_less hm2 (hL j ⟨b, hb⟩) hm1
      obtain ⟨d, σ2, who2, g0, g1, g2, g3, g4, g5⟩ := ih m k1 (fun i hi => by
          by_cases e : i = j
          · subst e; exact hL i ⟨b, hb⟩
          · exact hL i (hoth i e hi)) (fun i hi => by
          by_cases e : i = j
          · subst e
            show Left _ i (if i = i then _ else _)
            rw [if_pos rfl, if_pos hi, k3]
            exact hl'
          · show Left _ i (if i = j then _ else _)
            rw [if_neg e]
            refine left_other k1 (Nat.lt_succ_self T) (by rw [k5]; exact fun e' => e e'.symm) ?_
            rw [k2 T (Nat.le_refl _)]
            exact hn i (hoth i e hi)) (by omega)
      refine ⟨d + 1, σ2, who2, by omega, by rwa [show T + (d + 1) = T + 1 + d by omega], fun u hu => by rw [g2 u (by omega), k2 u hu], fun u hu => by rw [g3 u (by omega), k4 u hu], ?_, ?_⟩
      · intro u h1 h2
        by_cases e : u = T
        · subst e
          rw [g2 u (by omega), g3 u (by omega), k2 u (Nat.le_refl _), k5]
          exact ⟨b, hb⟩
        · exact g4 u (by omega) (by omega)
      · rw [show T + (d + 1) = T + 1 + d by omega]
        exact g5
    · exact ⟨0, σ, who, by omega, h, fun _ _ => rfl, fun _ _ => rfl, fun u _ _ => by omega, fun i hi => hk ⟨i, hi⟩⟩

/-- **C92.** From every reachable state all locks can be released: those who hold locks need only go on, at most eight steps each (`L` is any list of them), and then no node is locked; the calls that hold no lock need not
make a step, and nothing but the calls that hold locks makes one. -/
theorem C92_release {T : Nat} {σ : Nat → Conf} {who : Nat → Nat} (h : Run T σ who) (L : List Nat) (hL : ∀ i, Keeps (σ T) i → i ∈ L) :
    ∃ d σ' who', d ≤ 8 * L.length ∧ Run (T + d) σ' who' ∧ (∀ u, u ≤ T → σ' u = σ u) ∧ (∀ u, u < T → who' u = who u) ∧ (∀ u, T ≤ u → u < T + d → Keeps (σ' u) (who' u) ∧ Keeps (σ T) (who' u)) ∧
      (∀ i, ¬ Keeps (σ' (T + d)) i) ∧ Quiet (σ' (T + d)).heap := by
  have hn : ∀ i, ∃ n, Left (σ T) i n := fun i => left_run h i T (Nat.le_refl _)
  have hb : (L.map fun i => (hn i).choose).sum ≤ 8 * L.length := by
    clear hL
    induction L with
    | nil => simp
    | cons x L ih =>
      have := (hn x).choose_spec.1
      simp only [List.map_cons, List.sum_cons, List.length_cons]
      omega
  obtain ⟨d, σ', who', g0, g1, g2, g3, g4, g5⟩ := release (8 * L.length) (fun i => (hn i).choose) h hL (fun i _ => (hn i).choose_spec) hb
  have hback : ∀ e, e ≤ d → ∀ i, Keeps (σ' (T + e)) i → Keeps (σ T) i := by
    intro e
    induction e with
    | zero => intro _ i hi; rw [Nat.add_zero, g2 T (Nat.le_refl _)] at hi; exact hi
    | succ e ih =>
      rintro he i ⟨a, ha⟩
      refine ih (by omega) i ?_
      rcases C17_lock_steps g1 (show T + e < T + d by omega) a with e1 | ⟨-, e1⟩ | ⟨-, e1⟩
      · exact ⟨a, by rw [← e1]; exact ha⟩
      · rw [show T + (e + 1) = T + e + 1 by omega, e1] at ha
        rw [← Option.some.inj ha]
        exact g4 (T + e) (by omega) (by omega)
      · rw [show T + (e + 1) = T + e + 1 by omega, e1] at ha
        cases ha
  refine ⟨d, σ', who', g0, g1, g2, g3, fun u h1 h2 => ⟨g4 u h1 h2, ?_⟩, g5, fun a n ha => ?_⟩
  · have := hback (u - T) (by omega) (who' u)
    rw [show T + (u - T) = u by omega] at this
    exact this (g4 u h1 h2)
  cases e : locked n.version with
  | false => rfl
  | true =>
    obtain ⟨i, hi⟩ := (C17_locked_iff g1 (Nat.le_refl _) ha).mp e
    exact absurd ⟨a, hi⟩ (g5 i)

/-- **C92.** So a call that waits in `waitUnlock` gets through as soon as those who hold locks have gone on for at most eight steps each and nobody has taken a lock meanwhile. -/
theorem C92_through {T : Nat} {σ : Nat → Conf} {who : Nat → Nat} (h : Run T σ who) (L : List Nat) (hL : ∀ i, Keeps (σ T) i → i ∈ L) {i : Nat} {c : Call} {a : Addr} {k : Nat → Prog (Option Bytes)}
    (hp : (σ T).procs i = .running c (.wait a k)) :
    ∃ d σ' who' x, d ≤ 8 * L.length ∧ Run (T + d) σ' who' ∧ (∀ u, u ≤ T → σ' u = σ u) ∧ (∀ u, T ≤ u → u < T + d → Keeps (σ' u) (who' u) ∧ Keeps (σ T) (who' u) ∧ who' u ≠ i) ∧
      (σ' (T + d)).procs i = .running c (.wait a k) ∧ Step i (σ' (T + d)) x := by
  obtain ⟨d, σ', who', g0, g1, g2, -, g4, -, g6⟩ := C92_release h L hL
  have hstay : ∀ e, e ≤ d → (σ' (T + e)).procs i = .running c (.wait a k) := by
    intro e
    induction e with
    | zero => intro _; rw [Nat.add_zero, g2 T (Nat.le_refl _)]; exact hp
    | succ e ih =>
      intro he
      have hi := ih (by omega)
      have hne : i ≠ who' (T + e) := by
        intro e'
        obtain ⟨⟨b, hb⟩, -⟩ := g4 (T + e) (by omega) (by omega)
        rw [← e'] at hb
        exact C56_no_wait (Run.cut g1 (show T + e ≤ T + d by omega)) hb hi
      rw [show T + (e + 1) = T + e + 1 by omega, (g1.step (T + e) (by omega)).other hne]
      exact hi
  have hend := hstay d (Nat.le_refl _)
  have hx : ∃ x, Step i (σ' (T + d)) x := by
    cases hn : (σ' (T + d)).heap[a]? with
    | none => exact ⟨_, .crash hend hn⟩
    | some n => exact ⟨_, .wait hend hn (g6 a n hn)⟩
  obtain ⟨x, hx⟩ := hx
  refine ⟨d, σ', who', x, g0, g1, g2, fun u h1 h2 => ⟨(g4 u h1 h2).1, (g4 u h1 h2).2, fun e => ?_⟩, hend, hx⟩
  obtain ⟨⟨b, hb⟩, -⟩ := g4 u h1 h2
  have hw := hstay (u - T) (by omega)
  rw [show T + (u - T) = u by omega] at hw
  rw [e] at hb
  exact C56_no_wait (Run.cut g1 (show u ≤ T + d by omega)) hb hw

/-- A run in which two calls hold three locks and one of the two waits for the lock of the other. -/
theorem C92_example : ∃ σ who, Run waiting.length σ who ∧ Keeps (σ waiting.length) 3 ∧ Keeps (σ waiting.length) 4 ∧ ∀ i, Keeps (σ waiting.length) i → i ∈ [0, 1, 2, 3, 4] := by
  have h : ((exec waiting Conf.init).map fun σ => σ.owner 1 == some 4 && σ.owner 3 == some 3) = some true := by decide +kernel
  simp only [Option.map_eq_some_iff, Bool.and_eq_true, beq_iff_eq] at h
  obtain ⟨σ', h1, h2, h3⟩ := h
  obtain ⟨σ, who, g3, g4⟩ := exec_run h1
  refine ⟨σ, who, g3, ⟨3, by rw [g4]; exact h3⟩, ⟨1, by rw [g4]; exact h2⟩, ?_⟩
  rintro i ⟨a, ha⟩
  by_contra hi
  have hid : σ'.procs i = .idle := by
    rw [exec_other (j := i) waiting h1]
    · rfl
    · intro x hx e
      have : ∀ x ∈ waiting, x.1 ∈ [0, 1, 2, 3, 4] := by decide +kernel
      exact hi (e ▸ this x hx)
  exact C17_released g3 (i := i) (by rw [g4, hid]; simp) a ha

end Art.Props
