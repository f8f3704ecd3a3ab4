import Verif.Art.FineWrapSim
import Verif.Props.ArtWrap

/-!
# Property C78: `Get`, `Put` and `Delete` in small steps and in the 32-bit arithmetic of the code

C67 is about critical sections and racy reads that are many steps, with unbounded numbers; C75 about 32-bit arithmetic, with critical sections and reads that are one step. Here both at once.
-/

set_option linter.unusedSimpArgs false

namespace Art.Props

open Surf Spec

/-- What can be seen of a call. -/
def _root_.Art.FProc.seen (p : FProc) : Seen := p.plain.seen

section
variable {T : Nat} {ψ : Nat → FConf} {who : Nat → Nat}

/-- **C78.** Every run of small steps in 32-bit arithmetic is a run of small steps with unbounded numbers: there is one with the same nodes in memory, also in the middle of critical sections, the same locks held, and the same calls begun,
returned (with the same results) and panicked, at every instant. -/
theorem C78_refines (h : U32.FRun T ψ who) : ∃ φ, FRun T φ who ∧ ∀ t, t ≤ T →
    (φ t).heap = (ψ t).heap ∧ (φ t).owner = (ψ t).owner ∧ (∀ i, ((φ t).procs i).seen = ((ψ t).procs i).seen) ∧ ((φ t).Settled ↔ (ψ t).Settled) := by
  obtain ⟨φ, h1, h2, -⟩ := U32.fsimulate T h
  refine ⟨φ, h1, fun t ht => ⟨(h2 t ht).heap, (h2 t ht).owner, fun i => ?_, ?_⟩⟩
  · have := (h2 t ht).procs i
    generalize (φ t).procs i = p, (ψ t).procs i = q at this
    cases this <;> rfl
  · constructor
    · intro hq i c p' w hp
      obtain ⟨p, e, -⟩ := (h2 t ht).running hp
      exact hq i c p w e
    · intro hq i c p w hp
      have := (h2 t ht).procs i
      rw [hp] at this
      generalize e : (ψ t).procs i = q at this
      cases this with
      | running _ _ => exact hq i _ _ _ e

/-- **C78.** No prefix length of 2^31 or more is ever stored, be it in the middle of a critical section. -/
theorem C78_lengths (h : U32.FRun T ψ who) {t : Nat} (ht : t ≤ T) {a : Addr} {n : Node} (hn : (ψ t).heap[a]? = some n) : n.prefixLen < 2 ^ 31 := by
  obtain ⟨φ, h1, h2, h3⟩ := U32.fsimulate T h
  rw [← (h2 t ht).heap] at hn
  exact h3 t ht a n hn

theorem fseen_done {p : FProc} {q : FProc} (h : p.seen = q.seen) {c : Call} {o : Option Bytes} : p = .done c o ↔ q = .done c o := by
  cases p <;> cases q <;> simp_all [FProc.seen, FProc.plain, Proc.seen]

theorem fseen_idle {p q : FProc} (h : p.seen = q.seen) : p = .idle ↔ q = .idle := by
  cases p <;> cases q <;> simp_all [FProc.seen, FProc.plain, Proc.seen]

theorem fseen_crashed {p q : FProc} (h : p.seen = q.seen) {c : Call} : p = .crashed c ↔ q = .crashed c := by
  cases p <;> cases q <;> simp_all [FProc.seen, FProc.plain, Proc.seen]

theorem fseen_running {p q : FProc} (h : p.seen = q.seen) {c : Call} : (∃ x w, p = .running c x w) ↔ ∃ x w, q = .running c x w := by
  cases p <;> cases q <;> simp_all [FProc.seen, FProc.plain, Proc.seen]

/-- **C78.** Every run of small steps in 32-bit arithmetic is linearizable, as in C67. -/
theorem C78_linearizable (h : U32.FRun T ψ who) : ∃ L : List Op,
    (L.map Op.id).Nodup ∧
    (∀ i c o, (ψ T).procs i = .done c o → ⟨i, c, o⟩ ∈ L) ∧
    (∀ e ∈ L, ((ψ T).procs e.id).plain.call = some e.call ∧ ∀ c o, (ψ T).procs e.id = .done c o → e.out = o) ∧
    L.Pairwise (fun a b => ¬ ∃ t, t ≤ T ∧ (ψ t).procs a.id = .idle ∧ ∃ c o, (ψ t).procs b.id = .done c o) ∧
    ∃ m, Legal Map.empty L m ∧ ((ψ T).Settled → Stands (ψ T).heap m) := by
  obtain ⟨φ, h1, h2⟩ := C78_refines h
  obtain ⟨e1, -, e2, e3⟩ := h2 T (Nat.le_refl _)
  obtain ⟨L, g1, g2, g3, g4, m, g5, g6⟩ := C67_linearizable h1
  refine ⟨L, g1, fun i c o hd => g2 i c o ((fseen_done (e2 i)).mpr hd), fun e he => ?_, g4.imp ?_, m, g5, fun hq => by rw [← e1]; exact g6 (e3.mpr hq)⟩
  · obtain ⟨f1, f2⟩ := g3 e he
    exact ⟨by rw [← seen_call (e2 e.id)]; exact f1, fun c o hd => f2 c o ((fseen_done (e2 e.id)).mpr hd)⟩
  · rintro a b hab ⟨t, ht, f1, c, o, f2⟩
    obtain ⟨-, -, e3, -⟩ := h2 t ht
    exact hab ⟨t, ht, (fseen_idle (e3 a.id)).mpr f1, c, o, (fseen_done (e3 b.id)).mpr f2⟩

/-- **C78.** At every instant a node is locked exactly if a call holds its lock. -/
theorem C78_locked_iff (h : U32.FRun T ψ who) {t : Nat} (ht : t ≤ T) {a : Addr} {n : Node} (hn : (ψ t).heap[a]? = some n) :
    locked n.version = true ↔ ∃ i, (ψ t).owner a = some i := by
  obtain ⟨φ, h1, h2⟩ := C78_refines h
  obtain ⟨e1, e2, -⟩ := h2 t ht
  rw [← e2]
  exact C67_locked_iff h1 ht (by rw [e1]; exact hn)

/-- **C78.** A call that is not under way holds no lock. -/
theorem C78_released (h : U32.FRun T ψ who) {i : Nat} (hi : ∀ c p w, (ψ T).procs i ≠ .running c p w) (a : Addr) : (ψ T).owner a ≠ some i := by
  obtain ⟨φ, h1, h2⟩ := C78_refines h
  obtain ⟨-, e1, e2, -⟩ := h2 T (Nat.le_refl _)
  rw [← e1]
  refine C67_released h1 (fun c p w hp => ?_) a
  obtain ⟨x, w', hq⟩ := (fseen_running (e2 i)).mp ⟨p, w, hp⟩
  exact hi c x w' hq

/-- **C78.** No `Get` and no `Delete` panics: whatever is read in the middle of a critical section, no depth or length wraps to a slice expression out of bounds. -/
theorem C78_no_panic (h : U32.FRun T ψ who) {i : Nat} {c : Call} (hc : (ψ T).procs i = .crashed c) : ∃ k v, c = .put k v := by
  obtain ⟨φ, h1, h2⟩ := C78_refines h
  exact C67_no_panic h1 ((fseen_crashed ((h2 T (Nat.le_refl _)).2.2.1 i)).mpr hc)

end

/-! ## Examples: runs by a schedule -/

/-- The state is reached by a run of small steps in 32-bit arithmetic. -/
def ReachedU (x : FConf) : Prop := ∃ T φ who, U32.FRun T φ who ∧ φ T = x

/-- One more step, that reads no prefix length but the present one. -/
theorem ReachedU.step {x y : FConf} {i : Nat} (h : ReachedU x) (hs : U32.FStep (fun a l => ∃ n, x.heap[a]? = some n ∧ n.prefixLen = l) i x y) : ReachedU y := by
  obtain ⟨T, φ, who, h1, h2⟩ := h
  refine ⟨T + 1, fun u => if u ≤ T then φ u else y, fun u => if u < T then who u else i, ⟨by simp [h1.init], ?_⟩, by simp⟩
  intro t ht
  by_cases e : t < T
  · have a1 : t ≤ T := by omega
    have a2 : t + 1 ≤ T := by omega
    simp only [a1, a2, e, if_true]
    refine (h1.step t e).mono ?_
    rintro a l ⟨t', n, b1, b2, b3⟩
    have : t' ≤ T := by omega
    exact ⟨t', n, b1, by simpa only [this, if_true] using b2, b3⟩
  · have : t = T := by omega
    subst this
    simp only [Nat.le_refl, if_true, Nat.lt_irrefl, if_false]
    rw [if_neg (by omega), h2]
    refine hs.mono ?_
    rintro a l ⟨n, b2, b3⟩
    exact ⟨t, n, Nat.le_refl _, by simpa [h2] using b2, b3⟩

theorem ReachedU.init : ReachedU FConf.init := ⟨0, fun _ => FConf.init, fun _ => 0, ⟨rfl, by simp⟩, rfl⟩

/-- What a schedule does in one step is done by small steps. -/
theorem reachedU_act {σ σ' : Conf} {i : Nat} {x : Act} (hr : ReachedU σ.lift) (h : actU σ i x = some σ') : ReachedU σ'.lift := by
  have hl : ∀ {P}, σ.procs i = P → σ.lift.procs i = P.lift := fun e => by rw [← e]; rfl
  cases x with
  | call c fuel =>
    simp only [actU] at h
    split at h
    next hp =>
      by_cases e : U32.Small c
      · rw [if_pos e] at h
        cases h
        rw [lift_to]
        exact hr.step (.call c fuel (hl hp) e)
      · rw [if_neg e] at h
        simp at h
    next => simp at h
  | go b =>
    simp only [actU, act] at h
    split at h
    next c o hp => cases h; rw [lift_to]; exact hr.step (.ret (hl hp))
    next c hp => cases h; rw [lift_to]; exact hr.step (.crash (hl hp) trivial)
    next c a k hp =>
      split at h
      next n hn =>
        by_cases e : locked n.version = false
        · rw [if_pos e] at h; cases h; rw [lift_to]; exact hr.step (.wait (hl hp) hn e)
        · rw [if_neg e] at h; simp at h
      next => simp at h
    next c a k hp =>
      split at h
      next n hn => cases h; rw [lift_to]; exact hr.step (.load (hl hp) hn)
      next => simp at h
    next c a v k hp =>
      split at h
      next n hn =>
        by_cases e : n.version = v
        · rw [if_pos e] at h; cases h; rw [lift_own, lift_to]; exact hr.step (.cas (hl hp) hn e)
        · rw [if_neg e] at h; cases h; rw [lift_to]; exact hr.step (.casFail (hl hp) hn e)
      next => simp at h
    next c a k hp =>
      split at h
      next n hn =>
        by_cases e : locked n.version = false
        · rw [if_pos e] at h
          by_cases e' : obsolete n.version = false
          · rw [if_pos e'] at h; cases h; rw [lift_own, lift_to]; exact hr.step (.lock (hl hp) hn e e')
          · rw [if_neg e'] at h; simp at h
        · rw [if_neg e] at h; simp at h
      next => simp at h
    next c a k hp =>
      split at h
      next n hn => cases h; rw [lift_own, lift_to]; exact hr.step (.unlock (hl hp) hn)
      next => simp at h
    next c a k hp =>
      split at h
      next n hn =>
        cases h
        rw [lift_own, lift_to, setVer_eq_set hn]
        exact hr.step (.unlockObsolete n (hl hp) hn rfl (.inl (Nat.le_refl _)))
      next => simp at h
    next c a v k hp =>
      split at h
      next n hn =>
        cases h
        have h1 := hr.step (.readBegin (hl hp) hn)
        have h2 := h1.step (.readEnd (i := i) n (FConf.to_self _ _ _ _) hn rfl (fun _ _ => rfl) ⟨n, hn, rfl⟩)
        rw [lift_to]
        rw [to_to] at h2
        exact h2
      next => simp at h
    next c k hp =>
      split at h
      next n hn => cases h; rw [lift_to]; exact hr.step (.readRoot (hl hp) hn)
      next => simp at h
    next c k hp => cases h; rw [lift_to]; exact hr.step (.choose b (hl hp))
    next c f k hp =>
      split at h
      next hh hn =>
        cases h
        have h1 := hr.step (.enter (hl hp))
        have h2 := h1.step (.commit (i := i) (h1 := hh) (FConf.to_self _ _ _ _) (by
          show f (overlay _ σ.heap σ.heap) = some hh
          rw [overlay_self]
          exact hn))
        have h3 := h2.step (.settle (i := i) (FConf.to_self _ _ _ _))
        rw [to_to, to_to] at h3
        rw [lift_to]
        refine (congrArg ReachedU ?_).mp h3
        congr 1
        exact overlay_twice _ _ _ _ (fun a => by
          simp only [Bool.and_eq_true]
          exact fun h => h.1)
      next => simp at h
    next => simp at h

/-- What a schedule of large steps in 32-bit arithmetic leads to, small steps lead to as well. -/
theorem C78_exec : ∀ {xs : List (Nat × Act)} {σ' : Conf}, execU xs Conf.init = some σ' → ReachedU σ'.lift := by
  have : ∀ (xs : List (Nat × Act)) (σ σ' : Conf), ReachedU σ.lift → execU xs σ = some σ' → ReachedU σ'.lift := by
    intro xs
    induction xs with
    | nil => intro σ σ' hr h; cases h; exact hr
    | cons x xs ih =>
      intro σ σ' hr h
      simp only [execU, Option.bind_eq_some_iff] at h
      obtain ⟨σ1, h1, h2⟩ := h
      exact ih σ1 σ' (reachedU_act hr h1) h2
  exact fun {_ _} h => this _ Conf.init _ ReachedU.init h

/-- The `Put` of `C21_violated` panics here too. The run meets the hypotheses of the theorems above. -/
theorem C78_violated : ∃ T φ who c, U32.FRun T φ who ∧ (φ T).procs 3 = .crashed c := by
  have h : ((execU unlucky Conf.init).map fun σ => σ.panicked 3) = some true := by decide +kernel
  simp only [Option.map_eq_some_iff] at h
  obtain ⟨σ', h1, h2⟩ := h
  obtain ⟨T, φ, who, h3, h4⟩ := C78_exec h1
  unfold Conf.panicked at h2
  split at h2
  next c hc => exact ⟨T, φ, who, c, h3, by rw [h4]; show (σ'.procs 3).lift = _; rw [hc]; rfl⟩
  next => simp at h2

/-- The hypotheses of the theorems above are met by a run in which a `Get` has found two different things in one read, because a `Put` is within its critical section. -/
theorem C78_example : ∃ T φ who c p n, U32.FRun T φ who ∧ (φ T).procs 5 = .running c p (.reading n false) ∧ ¬ (φ T).Settled := by
  have h : ((execU torn Conf.init).map fun σ => readsThird (σ.procs 5) && writes (σ.procs 3) && (σ.owner 3 == some 3) && σ.heap[3]?.isSome) = some true := by decide +kernel
  simp only [Option.map_eq_some_iff, Bool.and_eq_true, beq_iff_eq] at h
  obtain ⟨σ, h1, ⟨⟨h2, h3⟩, h4⟩, h5⟩ := h
  have hr := C78_exec h1
  obtain ⟨n, hn⟩ := Option.isSome_iff_exists.mp h5
  unfold readsThird at h2
  split at h2
  next c a v k hp =>
    rw [beq_iff_eq] at h2
    subst h2
    unfold writes at h3
    split at h3
    next c' f k' hp' =>
      have e5 : σ.lift.procs 5 = .running c (.read 3 v k) .calm := by show (σ.procs 5).lift = _; rw [hp]; rfl
      have e3 : σ.lift.procs 3 = .running c' (.write f k') .calm := by show (σ.procs 3).lift = _; rw [hp']; rfl
      have r1 := hr.step (.readBegin (n := n) e5 hn)
      have r2 := r1.step (.enter (i := 3) (c := c') (f := f) (k := k') (by rw [FConf.to_other _ _ _ (by decide)]; exact e3))
      have r3 := r2.step (.scribble (i := 3) (a := 3) (n := n) { n with numChildren := n.numChildren + 1 } (FConf.to_self _ _ _ _) rfl h4 (by decide) hn rfl rfl (.inl (Nat.le_refl _)))
      have r4 := r3.step (.readLook (i := 5) (a := 3) (n := n) (s := true) (m := { n with numChildren := n.numChildren + 1 }) (v := v) (c := c) (k := k)
        (by rw [FConf.to_other _ _ _ (by decide), FConf.to_other _ _ _ (by decide), FConf.to_self])
        (List.getElem?_set_self (List.getElem?_eq_some_iff.mp hn).1))
      have hne : (decide (({ n with numChildren := n.numChildren + 1 } : Node) = n)) = false := by
        rw [decide_eq_false_iff_not]
        intro e
        have := congrArg Node.numChildren e
        simp at this
      obtain ⟨T, φ, who, q1, q2⟩ := r4
      refine ⟨T, φ, who, c, .read 3 v k, n, q1, ?_, ?_⟩
      · rw [q2, FConf.to_self]
        simp [hne]
      · intro hs
        have := hs 3 c' (.write f k') (.opened σ.heap) (by
          rw [q2, FConf.to_other _ _ _ (by decide), FConf.to_self]
          rfl)
        cases this
    next => simp at h3
  next => simp at h2

end Art.Props
