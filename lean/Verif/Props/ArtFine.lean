import Verif.Art.FineSim
import Verif.Props.ArtTime
import Verif.Props.ArtLin

/-!
# Critical sections and reads in small steps: C67

`FRun` (in `Verif.Art.Fine`) are the runs in which critical sections and racy reads are many steps. What has been shown of the runs of
large steps holds of them too. `Legal` and `Op` (in `Verif.Art.Lin`) are the specification.
-/

set_option linter.unusedSimpArgs false

namespace Art.Props

open Surf Spec

/-- What a call is doing, without what it is in the middle of. -/
def _root_.Art.FProc.plain : FProc → Proc
  | .idle => .idle
  | .running c p _ => .running c p
  | .done c o => .done c o
  | .crashed c => .crashed c

/-- No call is within a critical section. -/
def _root_.Art.FConf.Settled (φ : FConf) : Prop := ∀ i c p w, φ.procs i = .running c p w → w.inside = false

section
variable {T : Nat} {φ : Nat → FConf} {who : Nat → Nat}

theorem rel_init : Mirror FConf.init Conf.init :=
  ⟨rfl, rfl, fun _ n h => ⟨n, h, rfl, rfl, fun _ => rfl⟩, fun _ => .idle⟩

theorem match_plain {σ : Conf} {i : Nat} {P : FProc} {Q : Proc} (h : Match σ i P Q) : P.plain = Q := by
  cases h <;> rfl

theorem refines (h : FRun T φ who) : ∃ (g : Nat → Nat) (σ : Nat → Conf) (who' : Nat → Nat), Run (g T) σ who' ∧ g 0 = 0 ∧
    (∀ t, t < T → g (t + 1) = g t ∨ g (t + 1) = g t + 1 ∧ who' (g t) = who t) ∧ ∀ t, t ≤ T → g t ≤ g T ∧ Mirror (φ t) (σ (g t)) := by
  induction T with
  | zero =>
    refine ⟨fun _ => 0, fun _ => Conf.init, fun _ => 0, ⟨rfl, by simp⟩, rfl, by simp, fun t ht => ⟨Nat.le_refl _, ?_⟩⟩
    have : t = 0 := by omega
    subst this
    rw [h.init]
    exact rel_init
  | succ T ih =>
    obtain ⟨g, σ, who', h1, h2, h3, h4⟩ := ih ⟨h.init, fun t ht => h.step t (by omega)⟩
    have hS := h1.sane (g T) (Nat.le_refl _)
    rcases (h4 T (Nat.le_refl _)).2.step hS (h.step T (Nat.lt_succ_self _)) with hr | ⟨x, hx, hr⟩
    · refine ⟨fun t => if t ≤ T then g t else g T, σ, who', by simpa using h1, by simpa using h2, ?_, ?_⟩
      · intro t ht
        by_cases e : t < T
        · have a1 : t ≤ T := by omega
          have a2 : t + 1 ≤ T := by omega
          simp only [a1, a2, if_true]
          exact h3 t e
        · have : t = T := by omega
          subst this
          simp
      · intro t ht
        by_cases e : t ≤ T
        · simp only [e, if_true]
          rw [if_neg (by omega)]
          exact h4 t e
        · have : t = T + 1 := by omega
          subst this
          simp only [e, if_false]
          exact ⟨Nat.le_refl _, hr⟩
    · obtain ⟨σ', w2, g1, g2, g3, g4, g5⟩ := Run.extend h1 hx
      have hok := g1.stepOk (Nat.lt_succ_self (g T))
      rw [g5, g2 _ (Nat.le_refl _), g3] at hok
      have hS' := g1.sane (g T + 1) (Nat.le_refl _)
      rw [g3] at hS'
      refine ⟨fun t => if t ≤ T then g t else g T + 1, σ', w2, by simpa using g1, by simpa using h2, ?_, ?_⟩
      · intro t ht
        by_cases e : t < T
        · have a1 : t ≤ T := by omega
          have a2 : t + 1 ≤ T := by omega
          simp only [a1, a2, if_true]
          rcases h3 t e with h5 | ⟨h5, h6⟩
          · exact .inl h5
          · refine .inr ⟨h5, ?_⟩
            rw [g4 _ (by have := (h4 (t + 1) a2).1; omega)]
            exact h6
        · have : t = T := by omega
          subst this
          simp [g5]
      · intro t ht
        by_cases e : t ≤ T
        · simp only [e, if_true]
          rw [if_neg (by omega), g2 _ (h4 t e).1]
          exact ⟨by have := (h4 t e).1; omega, (h4 t e).2⟩
        · have : t = T + 1 := by omega
          subst this
          simp only [e, if_false, Nat.lt_irrefl]
          rw [g3]
          exact ⟨Nat.le_refl _, hr hok hS'⟩

/-- If no call is within a critical section, the tree in memory is the tree of the run of large steps. -/
theorem rel_stands {n : Nat} {σ : Nat → Conf} {who' : Nat → Nat} {ψ : FConf} (h : Run n σ who') {t : Nat} (ht : t ≤ n) (hr : Mirror ψ (σ t)) (hq : ψ.Settled) (m : Map) :
    Stands ψ.heap m ↔ Stands (σ t).heap m := by
  obtain ⟨s, hs⟩ := h.si t ht
  have halive : ∀ a x, InTree (σ t).heap a → (σ t).heap[a]? = some x → obsolete x.version = false := by
    intro a x hi hx
    rw [← hs.heap] at hi hx
    have := hs.inv.alive a x ((hs.inv.inTree_iff a).mp hi) hx
    simp [obsolete, this]
  have hzero : ∀ x, (σ t).heap[0]? = some x ↔ ψ.heap[0]? = some x := by
    intro x
    constructor
    · intro hx
      obtain ⟨y, h1, -, -, h2⟩ := hr.node 0 x hx
      rw [h1, h2 (.inl rfl)]
    · intro hx
      obtain ⟨y, h1, -, -, h2⟩ := hr.get hx
      rw [h1, h2 (.inl rfl)]
  have hnode : ∀ a, InTree (σ t).heap a → ∀ x, (σ t).heap[a]? = some x ↔ ψ.heap[a]? = some x := by
    intro a hi x
    constructor
    · intro hx
      obtain ⟨y, h1, -, -, h2⟩ := hr.node a x hx
      rw [h1, h2 (.inr ⟨halive a x hi hx, fun i c p w _ h4 => hq i c p w h4⟩)]
    · intro hx
      obtain ⟨y, h1, -, -, h2⟩ := hr.get hx
      rw [h1, h2 (.inr ⟨halive a y hi h1, fun i c p w _ h4 => hq i c p w h4⟩)]
  have htree : ∀ a, InTree ψ.heap a ↔ InTree (σ t).heap a := by
    intro a
    constructor
    · intro hi
      induction hi with
      | root h1 h2 => exact .root ((hzero _).mpr h1) h2
      | child _ h1 h2 ih => exact .child ih ((hnode _ ih _).mpr h1) h2
    · intro hi
      induction hi with
      | root h1 h2 => exact .root ((hzero _).mp h1) h2
      | child hi h1 h2 ih => exact .child ih ((hnode _ hi _).mp h1) h2
  have hholds : ∀ K v, Holds ψ.heap K v ↔ Holds (σ t).heap K v := by
    intro K v
    constructor
    · rintro ⟨a, x, l, h1, h2, h3⟩
      exact ⟨a, x, l, (htree a).mp h1, (hnode a ((htree a).mp h1) x).mpr h2, h3⟩
    · rintro ⟨a, x, l, h1, h2, h3⟩
      exact ⟨a, x, l, (htree a).mpr h1, (hnode a h1 x).mp h2, h3⟩
  unfold Stands
  simp only [hholds]

/-- C67: every run of small steps follows a run of large steps. Step by step the calls are as far, with the same locks; and whenever no call
is within a critical section, the tree in memory stands for the same map. -/
theorem C67_refines (h : FRun T φ who) : ∃ (g : Nat → Nat) (σ : Nat → Conf) (who' : Nat → Nat), Run (g T) σ who' ∧ g 0 = 0 ∧
    (∀ t, t < T → g (t + 1) = g t ∨ g (t + 1) = g t + 1 ∧ who' (g t) = who t) ∧
    ∀ t, t ≤ T → (∀ i, ((φ t).procs i).plain = (σ (g t)).procs i) ∧ (φ t).owner = (σ (g t)).owner ∧
      ((φ t).Settled → ∀ m, Stands (φ t).heap m ↔ Stands (σ (g t)).heap m) := by
  obtain ⟨g, σ, who', h1, h2, h3, h4⟩ := refines h
  refine ⟨g, σ, who', h1, h2, h3, fun t ht => ?_⟩
  obtain ⟨h5, h6⟩ := h4 t ht
  exact ⟨fun i => match_plain (h6.proc i), h6.owner, fun hq m => rel_stands h1 h5 h6 hq m⟩

/-- C67: every run of small steps is linearizable. There is one order of calls – each one once; all those that have returned, with what they returned, and some of those that have
begun – such that made one after the other on an empty store they return the same, and the store holds then what the tree holds (when no call is within a critical section);
and no call is in this order before a call that returned before it began. -/
theorem C67_linearizable (h : FRun T φ who) : ∃ L : List Op,
    (L.map Op.id).Nodup ∧
    (∀ i c o, (φ T).procs i = .done c o → ⟨i, c, o⟩ ∈ L) ∧
    (∀ e ∈ L, ((φ T).procs e.id).plain.call = some e.call ∧ ∀ c o, (φ T).procs e.id = .done c o → e.out = o) ∧
    L.Pairwise (fun a b => ¬ ∃ t, t ≤ T ∧ (φ t).procs a.id = .idle ∧ ∃ c o, (φ t).procs b.id = .done c o) ∧
    ∃ m, Legal Map.empty L m ∧ ((φ T).Settled → Stands (φ T).heap m) := by
  obtain ⟨g, σ, who', h1, -, -, h4⟩ := refines h
  obtain ⟨L, a1, a2, a3, a4, m, a5, a6⟩ := C46_linearizable h1
  have hpl : ∀ t, t ≤ T → ∀ i, ((φ t).procs i).plain = (σ (g t)).procs i := fun t ht i => match_plain ((h4 t ht).2.proc i)
  refine ⟨L, a1, ?_, ?_, ?_, m, a5, fun hq => (rel_stands h1 (Nat.le_refl _) (h4 T (Nat.le_refl _)).2 hq m).mpr a6⟩
  · intro i c o hd
    apply a2
    rw [← hpl T (Nat.le_refl _), hd]
    rfl
  · intro e he
    obtain ⟨b1, b2⟩ := a3 e he
    rw [hpl T (Nat.le_refl _)]
    refine ⟨b1, fun c o hd => b2 c o ?_⟩
    rw [← hpl T (Nat.le_refl _), hd]
    rfl
  · refine a4.imp ?_
    rintro a b hno ⟨t, ht, e1, c, o, e2⟩
    refine hno ⟨g t, (h4 t ht).1, ?_, c, o, ?_⟩
    · rw [← hpl t ht, e1]
      rfl
    · rw [← hpl t ht, e2]
      rfl

/-- C67: at every instant a node is locked exactly if a call holds its lock. -/
theorem C67_locked_iff (h : FRun T φ who) {t : Nat} (ht : t ≤ T) {a : Addr} {n : Node} (hn : (φ t).heap[a]? = some n) :
    locked n.version = true ↔ ∃ i, (φ t).owner a = some i := by
  obtain ⟨g, σ, who', h1, -, -, h4⟩ := refines h
  obtain ⟨h5, h6⟩ := h4 t ht
  obtain ⟨m, e1, e2, -⟩ := h6.get hn
  rw [e2, h6.owner]
  exact C17_locked_iff h1 h5 e1

/-- C67: a call that has returned or panicked holds no lock. -/
theorem C67_released (h : FRun T φ who) {i : Nat} (hi : ∀ c p w, (φ T).procs i ≠ .running c p w) (a : Addr) : (φ T).owner a ≠ some i := by
  obtain ⟨g, σ, who', h1, -, -, h4⟩ := refines h
  obtain ⟨-, h6⟩ := h4 T (Nat.le_refl _)
  rw [h6.owner]
  refine C17_released h1 ?_ a
  intro c p hp
  have := match_plain (h6.proc i)
  rw [hp] at this
  cases e : (φ T).procs i with
  | running c' p' w => exact hi _ _ _ e
  | idle => rw [e] at this; cases this
  | done _ _ => rw [e] at this; cases this
  | crashed _ => rw [e] at this; cases this

/-- C67: no `Get` and no `Delete` panics. -/
theorem C67_no_panic (h : FRun T φ who) {i : Nat} {c : Call} (hc : (φ T).procs i = .crashed c) : ∃ k v, c = .put k v := by
  obtain ⟨g, σ, who', h1, -, -, h4⟩ := refines h
  refine C21_no_panic_partial h1 (i := i) ?_
  rw [← match_plain ((h4 T (Nat.le_refl _)).2.proc i), hc]
  rfl

end

/-! ## The other way round: schedules of large steps are among the runs of small steps -/

/-- The state is reached by a run of small steps. -/
def Reached (x : FConf) : Prop := ∃ T φ who, FRun T φ who ∧ φ T = x

theorem Reached.step {x y : FConf} {i : Nat} (h : Reached x) (hs : FStep i x y) : Reached y := by
  obtain ⟨T, φ, who, h1, h2⟩ := h
  refine ⟨T + 1, fun u => if u ≤ T then φ u else y, fun u => if u < T then who u else i, ⟨by simp [h1.init], ?_⟩, by simp⟩
  intro t ht
  by_cases e : t < T
  · have : t ≤ T := by omega
    have : t + 1 ≤ T := by omega
    simp only [*, if_true]
    exact h1.step t e
  · have : t = T := by omega
    subst this
    simp only [Nat.le_refl, if_true, Nat.lt_irrefl, if_false]
    rw [if_neg (by omega), h2]
    exact hs

theorem Reached.init : Reached FConf.init := ⟨0, fun _ => FConf.init, fun _ => 0, ⟨rfl, by simp⟩, rfl⟩

/-- A call in the middle of nothing. -/
def _root_.Art.Proc.lift : Proc → FProc
  | .idle => .idle
  | .running c p => .running c p .calm
  | .done c o => .done c o
  | .crashed c => .crashed c

/-- The state of large steps as one of small steps. -/
def _root_.Art.Conf.lift (σ : Conf) : FConf := ⟨σ.heap, σ.owner, fun i => (σ.procs i).lift⟩

theorem lift_to (σ : Conf) (i : Nat) (h : Heap) (P : Proc) : (σ.to i h P).lift = σ.lift.to i h P.lift := by
  unfold Conf.lift Conf.to FConf.to
  congr
  funext j
  by_cases e : j = i <;> simp [e]

theorem lift_own (σ : Conf) (a : Addr) (o : Option Nat) : (σ.own a o).lift = σ.lift.own a o := rfl

theorem overlay_self (S : Addr → Bool) (h : Heap) : overlay S h h = h := by
  apply List.ext_getElem?
  intro a
  rw [getElem?_overlay]
  cases e : h[a]? with
  | none => rfl
  | some n => by_cases e' : S a <;> simp [e']

theorem overlay_twice (S S' : Addr → Bool) (h x : Heap) (hS : ∀ a, S' a = true → S a = true) : overlay S (overlay S' h x) h = h := by
  apply List.ext_getElem?
  intro a
  rw [getElem?_overlay, getElem?_overlay]
  cases e : h[a]? with
  | none => rfl
  | some n =>
    by_cases e' : S a = true
    · simp [e']
    · have : S' a ≠ true := fun h => e' (hS a h)
      simp [e', this]

theorem to_to (φ : FConf) (i : Nat) (h h' : Heap) (P P' : FProc) : (φ.to i h P).to i h' P' = φ.to i h' P' := by
  unfold FConf.to
  congr
  funext j
  by_cases e : j = i <;> simp [e]

/-- What a schedule does in one step is done by small steps. -/
theorem reached_act {σ σ' : Conf} {i : Nat} {x : Act} (hr : Reached σ.lift) (h : act σ i x = some σ') : Reached σ'.lift := by
  have hl : ∀ {P}, σ.procs i = P → σ.lift.procs i = P.lift := fun e => by rw [← e]; rfl
  cases x with
  | call c fuel =>
    simp only [act] at h
    split at h
    next hp =>
      by_cases e : c.Fits
      · rw [if_pos e] at h
        cases h
        rw [lift_to]
        exact hr.step (.call c fuel (hl hp) e)
      · rw [if_neg e] at h
        simp at h
    next => simp at h
  | go b =>
    simp only [act] at h
    split at h
    next c o hp => cases h; rw [lift_to]; exact hr.step (.ret (hl hp))
    next c hp => cases h; rw [lift_to]; exact hr.step (.crash (hl hp) trivial)
    next c a k hp =>
      split at h
      next n hn =>
        by_cases e : locked n.version = false
        · rw [if_pos e] at h; cases h; rw [lift_to]; exact hr.step (.wait (hl hp) hn e)
        · rw [if_neg e] at h; simp at h
      next => simp at h
    next c a k hp =>
      split at h
      next n hn => cases h; rw [lift_to]; exact hr.step (.load (hl hp) hn)
      next => simp at h
    next c a v k hp =>
      split at h
      next n hn =>
        by_cases e : n.version = v
        · rw [if_pos e] at h; cases h; rw [lift_own, lift_to]; exact hr.step (.cas (hl hp) hn e)
        · rw [if_neg e] at h; cases h; rw [lift_to]; exact hr.step (.casFail (hl hp) hn e)
      next => simp at h
    next c a k hp =>
      split at h
      next n hn =>
        by_cases e : locked n.version = false
        · rw [if_pos e] at h
          by_cases e' : obsolete n.version = false
          · rw [if_pos e'] at h; cases h; rw [lift_own, lift_to]; exact hr.step (.lock (hl hp) hn e e')
          · rw [if_neg e'] at h; simp at h
        · rw [if_neg e] at h; simp at h
      next => simp at h
    next c a k hp =>
      split at h
      next n hn => cases h; rw [lift_own, lift_to]; exact hr.step (.unlock (hl hp) hn)
      next => simp at h
    next c a k hp =>
      split at h
      next n hn =>
        cases h
        rw [lift_own, lift_to, setVer_eq_set hn]
        exact hr.step (.unlockObsolete n (hl hp) hn rfl)
      next => simp at h
    next c a v k hp =>
      split at h
      next n hn =>
        cases h
        have h1 := hr.step (.readBegin (hl hp) hn)
        have h2 := h1.step (.readEnd (i := i) n (FConf.to_self _ _ _ _) hn rfl (fun _ _ => rfl))
        rw [lift_to]
        rw [to_to] at h2
        exact h2
      next => simp at h
    next c k hp =>
      split at h
      next n hn => cases h; rw [lift_to]; exact hr.step (.readRoot (hl hp) hn)
      next => simp at h
    next c k hp => cases h; rw [lift_to]; exact hr.step (.choose b (hl hp))
    next c f k hp =>
      split at h
      next hh hn =>
        cases h
        have h1 := hr.step (.enter (hl hp))
        have h2 := h1.step (.commit (i := i) (h1 := hh) (FConf.to_self _ _ _ _) (by
          show f (overlay _ σ.heap σ.heap) = some hh
          rw [overlay_self]
          exact hn))
        have h3 := h2.step (.settle (i := i) (FConf.to_self _ _ _ _))
        rw [to_to, to_to] at h3
        rw [lift_to]
        refine (congrArg Reached ?_).mp h3
        congr 1
        exact overlay_twice _ _ _ _ (fun a => by
          simp only [Bool.and_eq_true]
          exact fun h => h.1)
      next => simp at h
    next => simp at h

/-- C67: what a schedule of large steps leads to, small steps lead to as well. So the findings about them, such as `C21_violated`, do not depend on large steps. -/
theorem C67_exec : ∀ {xs : List (Nat × Act)} {σ' : Conf}, exec xs Conf.init = some σ' → Reached σ'.lift := by
  have : ∀ (xs : List (Nat × Act)) (σ σ' : Conf), Reached σ.lift → exec xs σ = some σ' → Reached σ'.lift := by
    intro xs
    induction xs with
    | nil => intro σ σ' hr h; cases h; exact hr
    | cons x xs ih =>
      intro σ σ' hr h
      simp only [exec, Option.bind_eq_some_iff] at h
      obtain ⟨σ1, h1, h2⟩ := h
      exact ih σ1 σ' (reached_act hr h1) h2
  exact fun {_ _} h => this _ Conf.init _ Reached.init h

/-- The `Put` of `C21_violated` panics in small steps too. -/
theorem C67_violated : ∃ T φ who c, FRun T φ who ∧ (φ T).procs 3 = .crashed c := by
  have h : ((exec unlucky Conf.init).map fun σ => σ.panicked 3) = some true := by decide +kernel
  simp only [Option.map_eq_some_iff] at h
  obtain ⟨σ', h1, h2⟩ := h
  obtain ⟨T, φ, who, h3, h4⟩ := C67_exec h1
  unfold Conf.panicked at h2
  split at h2
  next c hc => exact ⟨T, φ, who, c, h3, by rw [h4]; show (σ'.procs 3).lift = _; rw [hc]; rfl⟩
  next => simp at h2

/-- The call reads the node 3. -/
def readsThird : Proc → Bool
  | .running _ (.read a _ _) => a == 3
  | _ => false

/-- The call is about to begin a critical section. -/
def writes : Proc → Bool
  | .running _ (.write _ _) => true
  | _ => false

/-- The `Get` of `overtaken` reads the third node while the `Put` has its lock and is about to change it. -/
def torn : List (Nat × Act) := setup ++ [(5, .call (.get (sevens 20 2)) 9), (3, .call (.put (sevens 20 2) [4]) 9)] ++ goes 5 16 ++ goes 3 29

/-- The hypotheses of the theorems above are met by a run in which a `Get` has found two different things in one read, because a `Put` is within its critical section. -/
theorem C67_example : ∃ T φ who c p n, FRun T φ who ∧ (φ T).procs 5 = .running c p (.reading n false) ∧ ¬ (φ T).Settled := by
  have h : ((exec torn Conf.init).map fun σ => readsThird (σ.procs 5) && writes (σ.procs 3) && (σ.owner 3 == some 3) && σ.heap[3]?.isSome) = some true := by decide +kernel
  simp only [Option.map_eq_some_iff, Bool.and_eq_true, beq_iff_eq] at h
  obtain ⟨σ, h1, ⟨⟨h2, h3⟩, h4⟩, h5⟩ := h
  have hr := C67_exec h1
  obtain ⟨n, hn⟩ := Option.isSome_iff_exists.mp h5
  unfold readsThird at h2
  split at h2
  next c a v k hp =>
    rw [beq_iff_eq] at h2
    subst h2
    unfold writes at h3
    split at h3
    next c' f k' hp' =>
      have e5 : σ.lift.procs 5 = .running c (.read 3 v k) .calm := by show (σ.procs 5).lift = _; rw [hp]; rfl
      have e3 : σ.lift.procs 3 = .running c' (.write f k') .calm := by show (σ.procs 3).lift = _; rw [hp']; rfl
      have r1 := hr.step (.readBegin (n := n) e5 hn)
      have r2 := r1.step (.enter (i := 3) (c := c') (f := f) (k := k') (by rw [FConf.to_other _ _ _ (by decide)]; exact e3))
      have r3 := r2.step (.scribble (i := 3) (a := 3) (n := n) { n with prefixLen := n.prefixLen + 1 } (FConf.to_self _ _ _ _) rfl h4 (by decide) hn rfl rfl)
      have r4 := r3.step (.readLook (i := 5) (a := 3) (n := n) (s := true) (m := { n with prefixLen := n.prefixLen + 1 }) (v := v) (c := c) (k := k)
        (by rw [FConf.to_other _ _ _ (by decide), FConf.to_other _ _ _ (by decide), FConf.to_self])
        (List.getElem?_set_self (List.getElem?_eq_some_iff.mp hn).1))
      have hne : (decide (({ n with prefixLen := n.prefixLen + 1 } : Node) = n)) = false := by
        rw [decide_eq_false_iff_not]
        intro e
        have := congrArg Node.prefixLen e
        simp at this
      obtain ⟨T, φ, who, q1, q2⟩ := r4
      refine ⟨T, φ, who, c, .read 3 v k, n, q1, ?_, ?_⟩
      · rw [q2, FConf.to_self]
        simp [hne]
      · intro hs
        have := hs 3 c' (.write f k') (.opened σ.heap) (by
          rw [q2, FConf.to_other _ _ _ (by decide), FConf.to_self]
          rfl)
        cases this
    next => simp at h3
  next => simp at h2

end Art.Props
