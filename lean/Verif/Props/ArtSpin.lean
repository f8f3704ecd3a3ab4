import Verif.Art.SpinRun
import Verif.Props.ArtRelease

/-!
# Property C93: the loops of lock.go
-/

set_option linter.unusedSimpArgs false

namespace Art.Props

open Surf Spec

/-- **C93.** Every run with the loops of lock.go is, apart from steps that change the position of a call in such a loop and nothing else, a run of the system in which `waitUnlock` and `lock` are single steps. So whatever is proved
of all runs of that system holds with the loops. -/
theorem C93_sim {s : Nat → SConf} {who : Nat → Nat} {ev : Nat → Ev} : ∀ {T : Nat}, SRun T s who ev → ∃ (f : Nat → Nat) (τ : Nat → Conf) (by_ : Nat → Nat), f 0 = 0 ∧
    (∀ t, t < T → f (t + 1) = f t ∨ f (t + 1) = f t + 1 ∧ by_ (f t) = who t) ∧ Run (f T) τ by_ ∧ ∀ t, t ≤ T → τ (f t) = (s t).conf := by
  intro T
  induction T with
  | zero => intro h; exact ⟨fun _ => 0, fun _ => Conf.init, fun _ => 0, rfl, fun t ht => by omega, ⟨rfl, fun t ht => absurd ht (Nat.not_lt_zero t)⟩, fun t ht => by rw [show t = 0 by omega, h.init]⟩
  | succ T ih =>
    intro h
    obtain ⟨f, τ, w, h0, h1, h2, h3⟩ := ih ⟨h.init, fun t ht => h.step t (by omega)⟩
    have hmono : ∀ t, t ≤ T → f t ≤ f T := by
      intro t ht
      have : ∀ d, t + d ≤ T → f t ≤ f (t + d) := by
        intro d
        induction d with
        | zero => intro _; exact Nat.le_refl _
        | succ d ih =>
          intro hd
          have := ih (by omega)
          have := h1 (t + d) (by omega)
          rw [show t + (d + 1) = t + d + 1 by omega]
          omega
      have := this (T - t) (by omega)
      rwa [show t + (T - t) = T by omega] at this
    rcases (h.step T (by omega)).sim (h.fine T (by omega)) with e | hst
    · refine ⟨fun t => if t ≤ T then f t else f T, τ, w, by simp [h0], fun t ht => ?_, by simpa using h2, fun t ht => ?_⟩
      · by_cases e1 : t + 1 ≤ T
        · have e2 : t ≤ T := by omega
          simp only [e1, e2, if_true]
          exact h1 t (by omega)
        · have e2 : t = T := by omega
          subst e2
          simp
      · by_cases e1 : t ≤ T
        · simp only [e1, if_true]; exact h3 t e1
        · have e2 : t = T + 1 := by omega
          subst e2
          simp only [e1, if_false]
          rw [h3 T (Nat.le_refl _), e]
    · rw [← h3 T (Nat.le_refl _)] at hst
      obtain ⟨τ', w', k1, k2, k3, k4, k5⟩ := Run.extend h2 hst
      refine ⟨fun t => if t ≤ T then f t else f T + 1, τ', w', by simp [h0], fun t ht => ?_, by simpa using k1, fun t ht => ?_⟩
      · by_cases e1 : t + 1 ≤ T
        · have e2 : t ≤ T := by omega
          simp only [e1, e2, if_true]
          rcases h1 t (by omega) with e | ⟨e3, e4⟩
          · exact Or.inl e
          · refine Or.inr ⟨e3, ?_⟩
            rw [k4 (f t) (by have := hmono (t + 1) e1; omega)]
            exact e4
        · have e2 : t = T := by omega
          subst e2
          simp only [Nat.le_refl, e1, if_true, if_false]
          exact Or.inr ⟨trivial, k5⟩
      · by_cases e1 : t ≤ T
        · simp only [e1, if_true]; rw [k2 (f t) (hmono t e1)]; exact h3 t e1
        · have e2 : t = T + 1 := by omega
          subst e2
          simp only [e1, if_false]
          exact k3

section
variable {T : Nat} {s : Nat → SConf} {who : Nat → Nat} {ev : Nat → Ev}

/-- The state at an instant is one of a run of the system without the loops. -/
theorem _root_.Art.SRun.coarse (h : SRun T s who ev) : ∃ n τ w, Run n τ w ∧ τ n = (s T).conf := by
  obtain ⟨f, τ, w, -, -, h2, h3⟩ := C93_sim h
  exact ⟨f T, τ, w, h2, h3 T (Nat.le_refl _)⟩

theorem _root_.Art.SRun.node (h : SRun (T + 1) s who ev) {a : Addr} {n : Node} (hn : (s T).conf.heap[a]? = some n) : ∃ n', (s (T + 1)).conf.heap[a]? = some n' := by
  obtain ⟨m, τ, w, h1, h2⟩ := SRun.coarse (T := T) ⟨h.init, fun t ht => h.step t (by omega)⟩
  rcases (h.step T (by omega)).sim (h.fine T (by omega)) with e | hst
  · rw [e]; exact ⟨n, hn⟩
  · rw [← h2] at hst hn
    obtain ⟨τ', w', k1, k2, k3, -, -⟩ := Run.extend h1 hst
    rw [← k2 m (Nat.le_refl _)] at hn
    obtain ⟨n', h3, -⟩ := C17_change k1 (Nat.lt_succ_self m) hn
    rw [k3] at h3
    exact ⟨n', h3⟩

theorem _root_.Art.SStep.others {i : Nat} {x y : SConf} {e : Ev} (h : SStep i x e y) {j : Nat} (hj : j ≠ i) : y.pos j = x.pos j ∧ y.conf.procs j = x.conf.procs j := by
  cases h with
  | other h1 h2 h3 => exact ⟨rfl, h3.other hj⟩
  | busy | yield | got | miss => exact ⟨by simp [SConf.to, hj], rfl⟩
  | free | obsolete => exact ⟨by simp [SConf.to, hj], by simp [SConf.to, Conf.to, hj]⟩
  | swap => exact ⟨by simp [SConf.to, hj], by simp [SConf.to, Conf.to, Conf.own, hj]⟩

theorem _root_.Art.SRun.placed (h : SRun T s who ev) : (s T).Placed := by
  induction T with
  | zero => rw [h.init]; exact fun i => ⟨fun m hm => (by cases hm), fun v hv => (by cases hv)⟩
  | succ T ih =>
    have hT : SRun T s who ev := ⟨h.init, fun t ht => h.step t (by omega)⟩
    have hp := ih hT
    have hs := h.step T (by omega)
    intro i
    by_cases hi : i = who T
    · generalize s (T + 1) = y at hs ⊢
      generalize ev T = e0 at hs
      subst hi
      cases hs with
      | other h1 h2 h3 => exact ⟨fun m hm => (by have hm : (s T).pos (who T) = _ := hm; rw [h1] at hm; cases hm), fun v hv => (by have hv : (s T).pos (who T) = _ := hv; rw [h1] at hv; cases hv)⟩
      | busy h1 h2 h3 h4 =>
        refine ⟨fun m hm => ⟨?_, _, _, h1, h3⟩, fun v hv => ?_⟩
        · simp only [SConf.to, if_true] at hm
          cases e : (s T).pos (who T) with
          | «at» => rw [e] at hm; cases hm; exact Nat.le_refl _
          | spin c => rw [e] at hm; cases hm; have := ((hp (who T)).1 c e).1; omega
          | got v => rw [e] at h2; exact h2.elim
        · simp only [SConf.to, if_true] at hv
          cases e : (s T).pos (who T) <;> rw [e] at hv <;> cases hv
      | yield h1 =>
        refine ⟨fun m hm => ?_, fun v hv => ?_⟩
        · simp only [SConf.to, if_true] at hm
          cases hm
          exact ⟨Nat.le_refl _, ((hp (who T)).1 0 h1).2⟩
        · simp only [SConf.to, if_true] at hv
          cases hv
      | free | obsolete | swap | miss => exact ⟨fun m hm => by simp [SConf.to] at hm, fun v hv => by simp [SConf.to] at hv⟩
      | got h1 h2 h3 h4 h5 => exact ⟨fun m hm => by simp [SConf.to] at hm, fun v hv => ⟨_, _, _, _, h1, h3⟩⟩
    · obtain ⟨e1, e2⟩ := hs.others hi
      refine ⟨fun m hm => ?_, fun v hv => ?_⟩
      · rw [e1] at hm
        obtain ⟨g1, a, n, ⟨c, g2⟩, g3⟩ := (hp i).1 m hm
        obtain ⟨n', g4⟩ := h.node g3
        exact ⟨g1, a, n', ⟨c, by rw [e2]; exact g2⟩, g4⟩
      · rw [e1] at hv
        obtain ⟨c, a, k, n, g1, g2⟩ := (hp i).2 v hv
        obtain ⟨n', g4⟩ := h.node g2
        exact ⟨c, a, k, n', by rw [e2]; exact g1, g4⟩

/-! ### `runtime.Gosched` -/

/-- How many loads are left. -/
def patience : Pos → Nat
  | .at => spinCount + 1
  | .spin c => c
  | .got _ => 0

/-- **C93.** A call that waits lets others run (`runtime.Gosched`) after at most 31 loads in a row: if, between two instants, all steps of the call are loads of `waitUnlock` that find the lock taken, they are at most 31. -/
theorem C93_yields (h : SRun T s who ev) (i t d : Nat) (ht : t + d ≤ T) (hw : ∀ e, e < d → who (t + e) = i → ev (t + e) = .load ∧ ∃ m, (s (t + e + 1)).pos i = .spin m) : steps who i t d ≤ 31 := by
  have key : ∀ d t, t + d ≤ T → (∀ e, e < d → who (t + e) = i → ev (t + e) = .load ∧ ∃ m, (s (t + e + 1)).pos i = .spin m) → steps who i t d ≤ patience ((s t).pos i) := by
    intro d
    induction d with
    | zero => intro t _ _; simp [steps]
    | succ d ih =>
      intro t ht hw
      rw [steps_succ]
      have := ih (t + 1) (by omega) (fun e he hi => by
        have := hw (e + 1) (by omega) (by rwa [show t + (e + 1) = t + 1 + e by omega])
        rwa [show t + (e + 1) = t + 1 + e by omega] at this)
      have hs := h.step t (by omega)
      by_cases hi : who t = i
      · rw [if_pos hi]
        obtain ⟨e1, m, e2⟩ := hw 0 (by omega) hi
        simp only [Nat.add_zero] at e1 e2
        have hlt : patience ((s (t + 1)).pos i) < patience ((s t).pos i) := by
          rw [e1, hi] at hs
          generalize s (t + 1) = y at hs e2 ⊢
          cases hs with
          | busy h1 h2 h3 h4 =>
            simp only [SConf.to, if_true]
            cases e : (s t).pos i with
            | «at» => simp [Pos.again, patience]
            | spin c => rw [e] at h2; have : 0 < c := h2; simp [Pos.again, patience]; omega
            | got v => rw [e] at h2; exact h2.elim
          | free | obsolete | got => simp [SConf.to] at e2
        omega
      · rw [if_neg hi]
        have e := (hs.others (fun e => hi e.symm)).1
        rw [e] at this
        omega
  have h1 := key d t ht hw
  have h2 : patience ((s t).pos i) ≤ 31 := by
    cases e : (s t).pos i with
    | «at» => simp [patience, spinCount]
    | spin c =>
      have := ((SRun.placed (T := t) ⟨h.init, fun u hu => h.step u (by omega)⟩ i).1 c e).1
      simp [patience, spinCount] at this ⊢
      omega
    | got v => simp [patience]
  omega

end

/-! ### Steps without the loops are steps with them -/

theorem due_path {x : SConf} (hp : x.Placed) {j : Nat} {a : Addr} (ha : Awaits x.conf j a) (hg : ∀ v n, x.pos j = .got v → x.conf.heap[a]? = some n → n.version ≠ v) {n : Node} (hn : x.conf.heap[a]? = some n) :
    ∃ y, SPath (· = j) x y ∧ y.conf = x.conf ∧ Due (y.pos j) ∧ ∀ i, i ≠ j → y.pos i = x.pos i := by
  cases e : x.pos j with
  | «at» => exact ⟨x, .refl, rfl, by rw [e]; trivial, fun _ _ => rfl⟩
  | spin c =>
    cases c with
    | zero => exact ⟨x.to j x.conf (.spin spinCount), .step rfl (.yield e) .refl, rfl, by simp [SConf.to, Due, spinCount], fun i hi => by simp [SConf.to, hi]⟩
    | succ c => exact ⟨x, .refl, rfl, by rw [e]; exact Nat.succ_pos c, fun _ _ => rfl⟩
  | got v =>
    obtain ⟨c, b, k, m, h1, h2⟩ := (hp j).2 v e
    have hab : a = b := by
      obtain ⟨c', ⟨k', h3⟩ | ⟨k', h3⟩⟩ := ha
      · rw [h1] at h3; cases h3
      · rw [h1] at h3; cases h3; rfl
    subst hab
    exact ⟨x.to j x.conf .at, .step rfl (.miss h1 e h2 (hg v m e h2)) .refl, rfl, by simp [SConf.to, Due], fun i hi => by simp [SConf.to, hi]⟩

theorem lift_step {x : SConf} (hf : x.Fine) (hp : x.Placed) {j : Nat} {σ' : Conf} (hs : Step j x.conf σ') :
    ∃ y, SPath (· = j) x y ∧ y.conf = σ' ∧ y.pos j = .at ∧ ∀ i, i ≠ j → y.pos i = x.pos i := by
  by_cases hA : ∃ a n, Awaits x.conf j a ∧ x.conf.heap[a]? = some n
  · obtain ⟨a, n, ⟨c, ⟨k, hc⟩ | ⟨k, hc⟩⟩, hn⟩ := hA
    · have hg : ∀ v, x.pos j ≠ .got v := by
        intro v hv
        obtain ⟨c', b, k', m, h1, -⟩ := (hp j).2 v hv
        rw [hc] at h1
        cases h1
      obtain ⟨y, h1, h2, h3, h4⟩ := due_path hp ⟨c, Or.inl ⟨k, hc⟩⟩ (fun v _ hv => absurd hv (hg v)) hn
      cases hs with
      | wait e1 e2 e3 =>
        rw [hc] at e1
        cases e1
        rw [← h2] at hc e2
        refine ⟨_, h1.trans (.step rfl (.free hc h3 e2 e3) .refl), by simp [SConf.to, h2], by simp [SConf.to], fun i hi => by simp [SConf.to, hi, h4 i hi]⟩
      | crash e1 e2 =>
        rw [hc] at e1
        cases e1
        have e2 : x.conf.heap[a]? = none := e2
        rw [hn] at e2
        cases e2
      | _ => simp_all
    · by_cases hg : x.pos j = .got n.version
      · cases hs with
        | lock e1 e2 e3 e4 =>
          rw [hc] at e1
          cases e1
          rw [hn] at e2
          cases e2
          exact ⟨_, .step rfl (.swap hc hg hn rfl) .refl, rfl, by simp [SConf.to], fun i hi => by simp [SConf.to, hi]⟩
        | lockFail e1 e2 e3 e4 =>
          rw [hc] at e1
          cases e1
          rw [hn] at e2
          cases e2
          have := (hf j _ hg).2
          rw [e4] at this
          cases this
        | crash e1 e2 =>
          rw [hc] at e1
          cases e1
          have e2 : x.conf.heap[a]? = none := e2
          rw [hn] at e2
          cases e2
        | _ => simp_all
      · obtain ⟨y, h1, h2, h3, h4⟩ := due_path hp ⟨c, Or.inr ⟨k, hc⟩⟩ (fun v m hv hm e => by
          rw [hn] at hm
          cases hm
          subst e
          exact hg hv) hn
        cases hs with
        | @lock _ _ _ m e1 e2 e3 e4 =>
          rw [hc] at e1
          cases e1
          rw [← h2] at hc e2
          have s1 : SStep j y .load (y.to j y.conf (.got m.version)) := .got hc h3 e2 e3 e4
          have s2 := SStep.swap (i := j) (s := y.to j y.conf (.got m.version)) (v := m.version) hc (by simp [SConf.to]) e2 rfl
          refine ⟨_, h1.trans (.step rfl s1 (.step rfl s2 .refl)), by simp [SConf.to, h2], by simp [SConf.to], fun i hi => by simp [SConf.to, hi, h4 i hi]⟩
        | lockFail e1 e2 e3 e4 =>
          rw [hc] at e1
          cases e1
          rw [← h2] at hc e2
          refine ⟨_, h1.trans (.step rfl (.obsolete hc h3 e2 e3 e4) .refl), by simp [SConf.to, h2], by simp [SConf.to], fun i hi => by simp [SConf.to, hi, h4 i hi]⟩
        | crash e1 e2 =>
          rw [hc] at e1
          cases e1
          have e2 : x.conf.heap[a]? = none := e2
          rw [hn] at e2
          cases e2
        | _ => simp_all
  · have hat : x.pos j = .at := by
      cases e : x.pos j with
      | «at» => rfl
      | spin m =>
        obtain ⟨-, a, n, h1, h2⟩ := (hp j).1 m e
        exact absurd ⟨a, n, h1, h2⟩ hA
      | got v =>
        obtain ⟨c, a, k, n, h1, h2⟩ := (hp j).2 v e
        exact absurd ⟨a, n, ⟨c, Or.inr ⟨k, h1⟩⟩, h2⟩ hA
    refine ⟨⟨σ', x.pos⟩, .step rfl (.other hat (fun a ha => ?_) hs) .refl, rfl, hat, fun _ _ => rfl⟩
    cases e : x.conf.heap[a]? with
    | none => rfl
    | some n => exact absurd ⟨a, n, ha, e⟩ hA

/-- **C93.** Conversely, every run of the system in which `waitUnlock` and `lock` are single steps is one with the loops, with further steps of the same call in between. -/
theorem C93_lift {σ : Nat → Conf} {who : Nat → Nat} : ∀ {T : Nat}, Run T σ who → ∃ (f : Nat → Nat) (s : Nat → SConf) (by_ : Nat → Nat) (ev : Nat → Ev), f 0 = 0 ∧
    (∀ t, t < T → f t ≤ f (t + 1) ∧ ∀ u, f t ≤ u → u < f (t + 1) → by_ u = who t) ∧ SRun (f T) s by_ ev ∧ ∀ t, t ≤ T → (s (f t)).conf = σ t := by
  intro T
  induction T with
  | zero =>
    intro h
    exact ⟨fun _ => 0, fun _ => ⟨Conf.init, fun _ => .at⟩, fun _ => 0, fun _ => .other, rfl, fun t ht => absurd ht (Nat.not_lt_zero t), ⟨rfl, fun t ht => absurd ht (Nat.not_lt_zero t)⟩,
      fun t ht => by rw [show t = 0 by omega, h.init]⟩
  | succ T ih =>
    intro h
    obtain ⟨f, s, w, ev, h0, h1, h2, h3⟩ := ih (Run.cut h (by omega))
    have hmono : ∀ t, t ≤ T → f t ≤ f T := by
      intro t ht
      have : ∀ d, t + d ≤ T → f t ≤ f (t + d) := by
        intro d
        induction d with
        | zero => intro _; exact Nat.le_refl _
        | succ d ih =>
          intro hd
          have := ih (by omega)
          have := (h1 (t + d) (by omega)).1
          rw [show t + (d + 1) = t + d + 1 by omega]
          omega
      have := this (T - t) (by omega)
      rwa [show t + (T - t) = T by omega] at this
    have hst := h.step T (by omega)
    rw [← h3 T (Nat.le_refl _)] at hst
    obtain ⟨y, k1, k2, -, -⟩ := lift_step (h2.fine _ (Nat.le_refl _)) h2.placed hst
    obtain ⟨d, s', w', ev', g1, g2, g3, g4, g5⟩ := SRun.append k1 h2 rfl
    refine ⟨fun t => if t ≤ T then f t else f T + d, s', w', ev', by simp [h0], fun t ht => ?_, by simpa using g1, fun t ht => ?_⟩
    · by_cases e1 : t + 1 ≤ T
      · have e2 : t ≤ T := by omega
        simp only [e1, e2, if_true]
        refine ⟨(h1 t (by omega)).1, fun u hu1 hu2 => ?_⟩
        rw [(g4 u (by have := hmono (t + 1) e1; omega)).1]
        exact (h1 t (by omega)).2 u hu1 hu2
      · have e2 : t = T := by omega
        subst e2
        simp only [Nat.le_refl, e1, if_true, if_false]
        exact ⟨by omega, g5⟩
    · by_cases e1 : t ≤ T
      · simp only [e1, if_true]; rw [g2 (f t) (hmono t e1)]; exact h3 t e1
      · have e2 : t = T + 1 := by omega
        subst e2
        simp only [e1, if_false]
        rw [g3, k2]

/-! ### Getting through -/

theorem keeps_who {T : Nat} {σ : Nat → Conf} {who : Nat → Nat} (h : Run T σ who) {i : Nat} : Keeps (σ T) i → i ∈ (List.range T).map who := by
  induction T with
  | zero => rintro ⟨a, ha⟩; rw [h.init] at ha; cases ha
  | succ T ih =>
    rintro ⟨a, ha⟩
    have hT := ih (Run.cut h (by omega))
    simp only [List.mem_map, List.mem_range] at hT ⊢
    rcases C17_lock_steps h (Nat.lt_succ_self T) a with e | ⟨-, e⟩ | ⟨-, e⟩
    · rw [e] at ha
      obtain ⟨t, h1, h2⟩ := hT ⟨a, ha⟩
      exact ⟨t, by omega, h2⟩
    · rw [ha] at e
      exact ⟨T, by omega, (Option.some.inj e).symm⟩
    · rw [ha] at e
      cases e

/-- **C93.** A call that spins in `waitUnlock` can always get through: there are steps of those who hold a lock now, followed by steps of the call itself, after which it goes on with a version. -/
theorem C93_through {T : Nat} {s : Nat → SConf} {who : Nat → Nat} {ev : Nat → Ev} (h : SRun T s who ev) {i m : Nat} {c : Call} {a : Addr} {k : Nat → Prog (Option Bytes)}
    (hp : (s T).conf.procs i = .running c (.wait a k)) (hm : (s T).pos i = .spin m) :
    ∃ d e s' who' ev' v, SRun (T + d + e) s' who' ev' ∧ (∀ u, u ≤ T → s' u = s u) ∧ (∀ u, T ≤ u → u < T + d → Keeps (s T).conf (who' u) ∧ who' u ≠ i) ∧
      (∀ u, T + d ≤ u → u < T + d + e → who' u = i) ∧ (s' (T + d)).pos i = .spin m ∧ (s' (T + d + e)).conf.procs i = .running c (k v) := by
  obtain ⟨N, τ, w, r1, r2⟩ := SRun.coarse h
  obtain ⟨d, σ', w', x, -, g1, g2, g3, g4, g5⟩ := C92_through r1 _ (fun i => keeps_who r1) (by rw [r2]; exact hp)
  have hfollow : ∀ e, e ≤ d → ∃ p s1 who1 ev1, SRun (T + p) s1 who1 ev1 ∧ (∀ u, u ≤ T → s1 u = s u) ∧ (s1 (T + p)).conf = σ' (N + e) ∧ (∀ u, T ≤ u → u < T + p → Keeps (s T).conf (who1 u) ∧ who1 u ≠ i) ∧
      (s1 (T + p)).pos i = .spin m := by
    intro e
    induction e with
    | zero => intro _; exact ⟨0, s, who, ev, h, fun _ _ => rfl, by rw [Nat.add_zero, Nat.add_zero, g2 N (Nat.le_refl _), r2], fun u _ _ => by omega, hm⟩
    | succ e ih =>
      intro he
      obtain ⟨p, s1, who1, ev1, k1, k2, k3, k4, k5⟩ := ih (by omega)
      have hst := g1.step (N + e) (by omega)
      obtain ⟨-, hk, hne⟩ := g3 (N + e) (by omega) (by omega)
      rw [r2] at hk
      rw [← k3] at hst
      obtain ⟨y, l1, l2, -, l4⟩ := lift_step (k1.fine _ (Nat.le_refl _)) k1.placed hst
      obtain ⟨q, s2, who2, ev2, n1, n2, n3, n4, n5⟩ := SRun.append l1 k1 rfl
      refine ⟨p + q, s2, who2, ev2, by rwa [show T + (p + q) = T + p + q by omega], fun u hu => by rw [n2 u (by omega), k2 u hu], ?_, fun u h1 h2 => ?_, ?_⟩
      · rw [show T + (p + q) = T + p + q by omega, n3, l2, show N + (e + 1) = N + e + 1 by omega]
      · by_cases e1 : u < T + p
        · rw [(n4 u e1).1]; exact k4 u h1 e1
        · rw [n5 u (by omega) (by omega)]; exact ⟨hk, hne⟩
      · rw [show T + (p + q) = T + p + q by omega, n3, l4 i (fun e => hne e.symm)]
        exact k5
  obtain ⟨p, s1, who1, ev1, k1, k2, k3, k4, k5⟩ := hfollow d (Nat.le_refl _)
  have hst := g5
  rw [← k3] at hst g4
  obtain ⟨y, l1, l2, -, -⟩ := lift_step (k1.fine _ (Nat.le_refl _)) k1.placed hst
  obtain ⟨q, s2, who2, ev2, n1, n2, n3, n4, n5⟩ := SRun.append l1 k1 rfl
  obtain ⟨-, b, n, ⟨c', hb⟩, hn⟩ := (k1.placed i).1 m k5
  have hab : (s1 (T + p)).conf.heap[a]? = some n := by
    rcases hb with ⟨k', e⟩ | ⟨k', e⟩
    · rw [g4] at e; cases e; exact hn
    · rw [g4] at e; cases e
  have hv : ∃ v, x.procs i = .running c (k v) := by
    cases hst with
    | wait e1 e2 e3 =>
      rw [g4] at e1
      cases e1
      exact ⟨_, by simp [Conf.to]; rfl⟩
    | crash e1 e2 =>
      rw [g4] at e1
      cases e1
      have e2 : (s1 (T + p)).conf.heap[a]? = none := e2
      rw [hab] at e2
      cases e2
    | _ => simp_all
  obtain ⟨v, hv⟩ := hv
  refine ⟨p, q, s2, who2, ev2, v, n1, fun u hu => by rw [n2 u (by omega), k2 u hu], fun u h1 h2 => by rw [(n4 u h2).1]; exact k4 u h1 h2, n5, by rw [n2 _ (Nat.le_refl _)]; exact k5, by rw [n3, l2]; exact hv⟩

end Art.Props
