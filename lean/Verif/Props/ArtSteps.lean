import Verif.Art.Time
import Verif.Props.ArtTime

/-!
# How many steps a call takes that nobody disturbs: C89

C58 says that such a call ends after a number of steps that depends on the heap and the call only. Here the number is given.
-/

set_option linter.unusedSimpArgs false

namespace Art.Props

open Surf Spec

/-- The bound: `L` is the length of the longest key in the tree. -/
def callSteps (L : Nat) : Call → Nat
  | .get k => 5 * k.length + 8
  | .put k _ => 8 * k.length + 12 + (k.length / 10 + 1) * (4 * (L - 9))
  | .delete k => 5 * k.length + 17

/-- A call that comes to an end when it runs alone. -/
theorem solo_steps {h : Heap} {m : Map} (hs : Seq h m) {c : Call} (hf : c.Fits) (hr : (∀ k, c ≠ .delete k) ∨ ∃ o h', c.Returns h o h') {L : Nat} (hL : ∀ K, m K ≠ none → K.length ≤ L)
    {fuel : Nat} (hfu : L + 5 ≤ fuel) : Solo (fun o h' => c.Returns h o h') (callSteps L c) h (c.prog fuel) := by
  obtain ⟨E, live, ⟨root, ht⟩, hc⟩ := id hs
  have hN : ∀ a, live a → (E a).length < max L 1 := fun a ha => ht.path_le hL ha
  obtain ⟨n, hl, hn, hp, hE, -⟩ := ht.root_facts
  obtain ⟨v, hv, -⟩ := hc 0 (Or.inl rfl)
  have key : ∃ a h', Solo (fun x y => x = a ∧ y = h') (callSteps L c) h (c.prog (L + 5)) := by
    cases c with
    | get k =>
      have g := run_search (rf := true) ht hc k hN (L + 4) 0 0 v root n hl hn (by rw [hp, hE]; rfl) hv (Nat.zero_le _) (Or.inl (by simp)) (by omega)
      have hj := (solo_cost (plain_search _ _ _ _ _ _) g).mono (brisk_search k (L + 4) 0 0 v root (Nat.zero_le _) true h)
      refine ⟨m k, h, ?_⟩
      show Solo _ (5 * (k.length - 0) + 5 + 3 + 0) h (Art.get k (L + 4 + 1))
      unfold Art.get
      refine Solo.bind (m := 0) (Solo.imp (solo_start (k := fun r v => search k (L + 4) 0 0 v r) ht hc hv hj) ?_)
      rintro a h' ⟨rfl, rfl⟩
      exact .ret ⟨rfl, rfl⟩
    | put k w =>
      obtain ⟨h', g, -⟩ := run_insert (rf := true) ht hc hf.1 hf.2 hN (L + 4) 0 v root (0, 0) n
        ⟨hl, hn, by rw [hp, hE]; rfl, .root 0⟩ hv (by simp) (by omega)
      have hco := cost_insert (rf := true) (key := k) (value := w) ht hc hN (L + 4) 0 v root (0, 0) n ⟨hl, hn, by rw [hp, hE]; rfl, .root 0⟩ hv (by simp) (by omega)
      have hj := (solo_cost (plain_insert _ _ _ _ _ _ _ _) g).mono hco
      refine ⟨none, h', ?_⟩
      have e : callSteps L (.put k w) = insertCost (max L 1) (k.length - 0) + 3 + 0 + 0 := by
        unfold callSteps insertCost
        simp only [Nat.sub_zero]
        rw [show max L 1 - 9 = L - 9 by omega]
        omega
      rw [e]
      show Solo _ _ h ((Art.put k w (L + 4 + 1)).bind fun _ => .ret none)
      refine Solo.bind (m := 0) ?_
      unfold Art.put
      refine Solo.bind (m := 0) (Solo.imp (solo_start (k := fun r v => insert k w (L + 4) 0 0 v r (0, 0)) ht hc hv hj) ?_)
      rintro a h' ⟨rfl, rfl⟩
      exact .ret (.ret ⟨rfl, rfl⟩)
    | delete k =>
      obtain ⟨o, h1, rf, fuel, hret⟩ := hr.resolve_left (fun hh => hh k rfl)
      have hrem := run_remove (rf := rf) ht hc k hN (L + 4) 0 v root (0, 0) n
          ⟨hl, hn, by rw [hp, hE]; rfl, .root 0⟩ hv (Nat.zero_le _) (Or.inl (by simp)) (by omega)
      obtain ⟨h', g⟩ : ∃ h', (remove k (L + 4) 0 0 v root (0, 0)).run rf h = .done true h' := by
        rcases hrem with ⟨-, h', g1, -⟩ | ⟨hk0, b, g1⟩
        · exact ⟨_, g1⟩
        · cases b with
          | true => exact ⟨_, g1⟩
          | false =>
            exfalso
            have hbad : ∀ j, (Art.delete k j).run rf h = .diverge := by
              intro j
              induction j with
              | zero => rfl
              | succ j ih =>
                rw [Art.delete, run_bind]
                obtain ⟨v', hv', h4, hrun⟩ := run_start (rf := rf) ht hc (fun r v => remove k j 0 0 v r (0, 0))
                rw [hv] at hv'
                cases hv'
                rw [hrun]
                rcases (Classical.em ((remove k j 0 0 v root (0, 0)).run rf h = .diverge)) with h1 | h1
                · rw [h1]; rfl
                · have e1 := run_fuel_le (p := fun j => remove k j 0 0 v root (0, 0)) (fun fuel => remove_mono _ _ _ _ _ _ _) (Nat.le_add_right j (L + 4)) h1
                  have e2 := run_fuel_le (p := fun j => remove k j 0 0 v root (0, 0)) (rf := rf) (h := h) (fun fuel => remove_mono _ _ _ _ _ _ _) (Nat.le_add_left (L + 4) j) (by simp only [g1]; simp)
                  rw [← e1, e2]
                  dsimp only at g1
                  rw [g1]
                  exact ih
            rw [Call.prog, run_bind, hbad] at hret
            simp [Out.andThen] at hret
      have hj := (solo_cost (plain_remove _ _ _ _ _ _ _) g).mono (brisk_remove k (L + 4) 0 0 v root (0, 0) (Nat.zero_le _) rf h)
      refine ⟨none, h', ?_⟩
      show Solo _ (5 * (k.length - 0) + 14 + 3 + 0 + 0) h ((Art.delete k (L + 4 + 1)).bind fun _ => .ret none)
      refine Solo.bind (m := 0) ?_
      unfold Art.delete
      refine Solo.bind (m := 0) (Solo.imp (solo_start (k := fun r v => remove k (L + 4) 0 0 v r (0, 0)) ht hc hv hj) ?_)
      rintro a h' ⟨rfl, rfl⟩
      exact .ret (.ret ⟨rfl, rfl⟩)
  obtain ⟨a, h', hsolo⟩ := key
  refine Solo.imp (Solo.fuel (prog_mono c) hsolo hfu) ?_
  rintro o y ⟨rfl, rfl⟩
  obtain ⟨a, y', g1, rfl, rfl⟩ := hsolo.run true
  exact ⟨true, L + 5, g1⟩

section
variable {T : Nat} {σ : Nat → Conf} {who : Nat → Nat}

/-- **C89**: a call that begins when nobody holds a lock, and while which nobody else changes the heap, is through after at most `callSteps L c` steps and the return, where `L` is the length of the longest key in
the tree. It never waits. -/
theorem C89_steps (h : Run T σ who) {t d i fuel L : Nat} {c : Call} {m : Map} (ht : t + d ≤ T) (hq : Quiet (σ t).heap) (hp : (σ t).procs i = .running c (c.prog fuel)) (hm : Stands (σ t).heap m)
    (hL : ∀ K, m K ≠ none → K.length ≤ L) (hfu : L + 5 ≤ fuel) (hr : (∀ k, c ≠ .delete k) ∨ ∃ o h', c.Returns (σ t).heap o h')
    (hoth : ∀ e, e < d → who (t + e) ≠ i → (σ (t + e + 1)).heap = (σ (t + e)).heap) :
    steps who i t d ≤ callSteps L c + 1 ∧
    ((∃ o, (σ (t + d)).procs i = .done c o ∧ c.Returns (σ t).heap o (σ (t + d)).heap) ∨
      ((∃ p, (σ (t + d)).procs i = .running c p) ∧ ∃ σ', Step i (σ (t + d)) σ')) := by
  obtain ⟨m', hs⟩ := quiet_seq h (show t ≤ T by omega) hq
  have e : m' = m := by
    obtain ⟨E, live, ⟨root, htr⟩, -⟩ := hs
    exact htr.stands.unique hm
  subst e
  exact solo_undisturbed h d t _ _ ht hoth hp (solo_steps hs (fits_run h t (by omega) _ hp) hr hL hfu)

/-- A program that comes to its end in `n` steps, left to itself, does. -/
theorem finish_solo {i : Nat} {c : Call} {H : Heap} : ∀ (n : Nat) {T : Nat} {σ : Nat → Conf} {who : Nat → Nat} {p : Prog (Option Bytes)}, Run T σ who → (σ T).procs i = .running c p →
    Solo (fun o h' => c.Returns H o h') n (σ T).heap p →
    ∃ d σ' who' o, d ≤ n + 1 ∧ Run (T + d) σ' who' ∧ (∀ u, u ≤ T → σ' u = σ u) ∧ (∀ u, u < T → who' u = who u) ∧ (∀ u, T ≤ u → u < T + d → who' u = i) ∧
      (σ' (T + d)).procs i = .done c o ∧ c.Returns H o (σ' (T + d)).heap := by
  intro n
  induction n with
  | zero =>
    intro T σ who p h hp hs
    obtain ⟨x, hx⟩ := hs.can hp
    obtain ⟨σ2, who2, k1, k2, k3, k4, k5⟩ := Run.extend h hx
    rcases hs.step hp hx with ⟨o, h1, h2⟩ | ⟨j, p', e, -⟩
    · refine ⟨1, σ2, who2, o, by omega, k1, k2, k4, fun u h3 h4 => ?_, by rw [k3]; exact h1, by rw [k3]; exact h2⟩
      rw [show u = T by omega, k5]
    · omega
  | succ n ih =>
    intro T σ who p h hp hs
    obtain ⟨x, hx⟩ := hs.can hp
    obtain ⟨σ2, who2, k1, k2, k3, k4, k5⟩ := Run.extend h hx
    rcases hs.step hp hx with ⟨o, h1, h2⟩ | ⟨j, p', e, h1, h2⟩
    · refine ⟨1, σ2, who2, o, by omega, k1, k2, k4, fun u h3 h4 => ?_, by rw [k3]; exact h1, by rw [k3]; exact h2⟩
      rw [show u = T by omega, k5]
    · obtain rfl : n = j := by omega
      obtain ⟨d, σ3, who3, o, g1, g2, g3, g7, g4, g5, g6⟩ := ih (p := p') k1 (by rw [k3]; exact h1) (by rw [k3]; exact h2)
      refine ⟨d + 1, σ3, who3, o, by omega, ?_, fun u hu => by rw [g3 u (by omega), k2 u hu], fun u hu => by rw [g7 u (by omega), k4 u hu], ?_, ?_, ?_⟩
      · rw [show T + (d + 1) = T + 1 + d by omega]; exact g2
      · intro u h3 h4
        by_cases hu : u = T
        · rw [g7 u (by omega), hu, k5]
        · exact g4 u (by omega) (by omega)
      · rw [show T + (d + 1) = T + 1 + d by omega]; exact g5
      · rw [show T + (d + 1) = T + 1 + d by omega]; exact g6

/-- C89: from such an instant on the call, left to itself, returns within so many steps. -/
theorem C89_finish (h : Run T σ who) {i fuel L : Nat} {c : Call} {m : Map} (hq : Quiet (σ T).heap) (hp : (σ T).procs i = .running c (c.prog fuel)) (hm : Stands (σ T).heap m)
    (hL : ∀ K, m K ≠ none → K.length ≤ L) (hfu : L + 5 ≤ fuel) (hr : (∀ k, c ≠ .delete k) ∨ ∃ o h', c.Returns (σ T).heap o h') :
    ∃ d σ' who' o, d ≤ callSteps L c + 1 ∧ Run (T + d) σ' who' ∧ (∀ u, u ≤ T → σ' u = σ u) ∧ (∀ u, u < T → who' u = who u) ∧ (∀ u, T ≤ u → u < T + d → who' u = i) ∧
      (σ' (T + d)).procs i = .done c o ∧ c.Returns (σ T).heap o (σ' (T + d)).heap := by
  obtain ⟨m', hs⟩ := quiet_seq h (Nat.le_refl T) hq
  have e : m' = m := by
    obtain ⟨E, live, ⟨root, htr⟩, -⟩ := hs
    exact htr.stands.unique hm
  subst e
  exact finish_solo _ h hp (solo_steps hs (fits_run h T (Nat.le_refl _) _ hp) hr hL hfu)

end

/-! ### The bounds are reached -/

/-- Nobody holds a lock, and no leaf has a key of more than `L` bytes. -/
def restful (L : Nat) (h : Heap) : Bool := h.all fun n => !locked n.version && (match n.prefixLeaf with | some l => decide (l.key.length ≤ L) | none => true) &&
  allBytes.all fun b => match n.child b with | some (.leaf l) => decide (l.key.length ≤ L) | _ => true

theorem restful_spec {L : Nat} {h : Heap} (hr : restful L h = true) : Quiet h ∧ ∀ m, Stands h m → ∀ K, m K ≠ none → K.length ≤ L := by
  have hall := List.all_eq_true.mp hr
  refine ⟨?_, ?_⟩
  · intro a n hn
    have := hall n (List.mem_of_getElem? hn)
    simp only [Bool.and_eq_true] at this
    simpa using this.1.1
  · intro m hm K hK
    cases hv : m K with
    | none => exact absurd hv hK
    | some v =>
      obtain ⟨a, n, l, -, h1, h2, rfl, -⟩ := (hm K v).mp hv
      have h3 := hall n (List.mem_of_getElem? h1)
      simp only [Bool.and_eq_true, List.all_eq_true] at h3
      rcases h2 with h2 | ⟨b, h2⟩
      · simpa [h2] using h3.1.2
      · simpa [h2] using h3.2 b (mem_allBytes b)

/-- The call `i` is still running. -/
def busy (σ : Conf) (i : Nat) : Bool := match σ.procs i with
  | .running _ _ => true
  | _ => false

theorem run_goes {i : Nat} {x : Conf} : ∀ (n : Nat) {T : Nat} {σ : Nat → Conf} {who : Nat → Nat}, Run T σ who → exec (goes i n) (σ T) = some x →
    ∃ σ' who', Run (T + n) σ' who' ∧ (∀ u, u ≤ T → σ' u = σ u) ∧ (∀ u, u < T → who' u = who u) ∧ (∀ u, T ≤ u → u < T + n → who' u = i) ∧ σ' (T + n) = x := by
  intro n
  induction n with
  | zero =>
    intro T σ who h hx
    cases hx
    exact ⟨σ, who, h, fun _ _ => rfl, fun _ _ => rfl, fun u h1 h2 => by omega, rfl⟩
  | succ n ih =>
    intro T σ who h hx
    rw [goes, List.replicate_succ] at hx
    obtain ⟨y, hy, hx⟩ := Option.bind_eq_some_iff.mp hx
    obtain ⟨σ2, who2, k1, k2, k3, k4, k5⟩ := Run.extend h (act_step hy)
    obtain ⟨σ3, who3, g1, g2, g3, g4, g5⟩ := ih k1 (by rw [k3]; exact hx)
    refine ⟨σ3, who3, ?_, fun u hu => by rw [g2 u (by omega), k2 u hu], fun u hu => by rw [g3 u (by omega), k4 u hu], ?_, ?_⟩
    · rw [show T + (n + 1) = T + 1 + n by omega]; exact g1
    · intro u h3 h4
      by_cases hu : u = T
      · rw [g3 u (by omega), hu, k5]
      · exact g4 u (by omega) (by omega)
    · rw [show T + (n + 1) = T + 1 + n by omega]; exact g5

/-- There is a run in which the call begins as `C89_steps` demands, nobody else makes a step, and after `callSteps L c` steps the call has not returned (so that the next step is its return). -/
def Attained (L : Nat) (c : Call) : Prop :=
  ∃ T σ who i fuel m p, Run (T + callSteps L c) σ who ∧ Quiet (σ T).heap ∧ Stands (σ T).heap m ∧ (∀ K, m K ≠ none → K.length ≤ L) ∧ L + 5 ≤ fuel ∧ (σ T).procs i = .running c (c.prog fuel) ∧
    (∀ u, T ≤ u → u < T + callSteps L c → who u = i) ∧ (σ (T + callSteps L c)).procs i = .running c p

theorem reached (pre : List (Nat × Act)) (i L : Nat) {c : Call} (hf : c.Fits)
    (h1 : ((exec pre Conf.init).map fun σ => restful L σ.heap && (match σ.procs i with | .idle => true | _ => false)) = some true)
    (h2 : ((exec pre Conf.init).bind fun σ => (exec (goes i (callSteps L c)) (σ.to i σ.heap (.running c (c.prog (L + 5))))).map fun σ => busy σ i) = some true) : Attained L c := by
  obtain ⟨σ0, e0, h1⟩ := Option.map_eq_some_iff.mp h1
  simp only [Bool.and_eq_true] at h1
  obtain ⟨h1, hidle⟩ := h1
  have hidle : σ0.procs i = .idle := by
    split at hidle
    · next e => exact e
    · simp at hidle
  rw [e0] at h2
  obtain ⟨x, e1, h2⟩ := Option.map_eq_some_iff.mp (show Option.map _ _ = _ from h2)
  obtain ⟨σ, who, g1, g2⟩ := exec_run e0
  obtain ⟨σ2, who2, k1, k2, k3, -⟩ := Run.extend g1 (.call c (L + 5) (by rw [g2]; exact hidle) hf)
  rw [g2] at k3
  have hheap : (σ2 (pre.length + 1)).heap = σ0.heap := by rw [k3]; rfl
  have hp : (σ2 (pre.length + 1)).procs i = .running c (c.prog (L + 5)) := by rw [k3]; exact to_self _ _ _ _
  obtain ⟨σ3, who3, q1, q2, q3, q4, q5⟩ := run_goes (i := i) (callSteps L c) k1 (by rw [k3]; exact e1)
  have e := q2 _ (Nat.le_refl _)
  obtain ⟨hq, hL⟩ := restful_spec h1
  obtain ⟨m, hs⟩ := quiet_seq k1 (Nat.le_refl _) (by rw [hheap]; exact hq)
  obtain ⟨E, live, ⟨root, htr⟩, -⟩ := hs
  have hst := htr.stands
  rw [hheap] at hst
  obtain ⟨p, hpx⟩ : ∃ p, x.procs i = .running c p := by
    have hcall : ∀ n, n ≤ callSteps L c → ((σ3 (pre.length + 1 + n)).procs i).call = some c := by
      intro n
      induction n with
      | zero => intro _; rw [Nat.add_zero, e, hp]; rfl
      | succ n ih => intro hn; exact ((q1.step (pre.length + 1 + n) (by omega)).phase i).2 c (ih (by omega))
    have := hcall _ (Nat.le_refl _)
    rw [q5] at this
    unfold busy at h2
    split at h2
    · next c' p hc =>
      rw [hc] at this
      simp only [Proc.call, Option.some.injEq] at this
      subst this
      exact ⟨p, hc⟩
    · simp at h2
  exact ⟨pre.length + 1, σ3, who3, i, L + 5, m, p, q1, by rw [e, hheap]; exact hq, by rw [e, hheap]; exact hst, hL m hst, Nat.le_refl _, by rw [e]; exact hp, q4, by rw [q5]; exact hpx⟩

/-- C89: the bound for `Get` is reached, by `Get` of the empty key in an empty tree. -/
theorem C89_tight_get : Attained 0 (.get []) := reached [] 0 0 trivial (by decide +kernel) (by decide +kernel)

/-- C89: the bound for `Put` is reached, where a `Put` meets a prefix of nine bytes that it has to split. -/
theorem C89_tight_put : Attained 11 (.put [7] [3]) :=
  reached ([(0, .call (.put (sevens 10 1) [1]) 20)] ++ goes 0 16 ++ [(1, .call (.put (sevens 10 2) [2]) 20)] ++ goes 1 15) 2 11 (by decide) (by decide +kernel) (by decide +kernel)

/-- C89: the bound for `Delete` is reached, where a `Delete` merges a node with its only child. -/
theorem C89_tight_delete : Attained 3 (.delete [7]) :=
  reached ([(0, .call (.put [7] [1]) 20)] ++ goes 0 16 ++ [(1, .call (.put [7, 7, 1] [2]) 20)] ++ goes 1 15 ++ [(2, .call (.put [7, 7, 2] [3]) 20)] ++ goes 2 23) 3 3 trivial (by decide +kernel) (by decide +kernel)

end Art.Props
