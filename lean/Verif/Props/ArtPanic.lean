import Verif.Art.NoPanic
import Verif.Props.ArtConc

/-!
# When a `Put` panics: C62

C21 is false for `Put` (`C21_violated`). Here is what it takes: while the `Put` runs, a `Delete` merges two nodes, and so makes the prefix of a node longer.
-/

set_option linter.unusedSimpArgs false

namespace Art.Props

open Surf Spec

/-- The reads of the call `i` give the prefix length that is there (a single word of memory), an array of 8 bytes, and a first child if there is one. Everything else
they give may be outdated, if the version is not what the reader believes in. -/
def ReadsLens (T : Nat) (σ : Nat → Conf) (who : Nat → Nat) (i : Nat) : Prop :=
  ∀ t, t < T → who t = i → ∀ c a v k, (σ t).procs i = .running c (.read a v k) →
    ∃ n r : Node, (σ t).heap[a]? = some n ∧ r.cap = n.cap ∧ (n.version = v → r = n) ∧ (σ (t + 1)).procs i = .running c (k r) ∧
      r.prefixLen = n.prefixLen ∧ r.pre.length = n.pre.length ∧ ((∃ x, n.firstChild = some (some x)) → ∃ x, r.firstChild = some (some x))

/-- In step `t` the prefix of a node gets longer. -/
def Lengthens (σ : Nat → Conf) (t : Nat) : Prop :=
  ∃ (a : Addr) (n n' : Node), (σ t).heap[a]? = some n ∧ (σ (t + 1)).heap[a]? = some n' ∧ n.prefixLen < n'.prefixLen

section
variable {T : Nat} {σ : Nat → Conf} {who : Nat → Nat}

/-- C62: only `Delete` makes prefixes longer. -/
theorem C62_lengthens (h : Run T σ who) {t : Nat} (ht : t < T) (hl : Lengthens σ t) : ∃ k p, (σ t).procs (who t) = .running (.delete k) p := by
  obtain ⟨a, n, n', h1, h2, h3⟩ := hl
  rcases h.mild ht with ⟨-, hv⟩ | ⟨c, p, d, hp, hm⟩
  · obtain ⟨n'', q1, q2⟩ := hv a n h1
    rw [h2] at q1
    cases q1
    rw [q2] at h3
    exact absurd h3 (Nat.lt_irrefl _)
  · obtain ⟨n'', q1, -, q2, -⟩ := hm.old a n h1
    rw [h2] at q1
    cases q1
    cases c with
    | delete k => exact ⟨k, p, hp⟩
    | get k => exact absurd (q2.resolve_left id) (Nat.not_le_of_gt h3)
    | put k x => exact absurd (q2.resolve_left id) (Nat.not_le_of_gt h3)

theorem faulty_panic {i : Nat} {s : St} {eff : Map → Map → Prop} {pk : Prop} {Q : Option Bytes → St → Prop} {p : Prog (Option Bytes)}
    (h : wp i eff pk Q p s) (hI : Inv s) (hf : Faulty s.heap p) : p = .panic := by
  cases p with
  | panic => rfl
  | ret => exact absurd hf id
  | diverge => exact absurd hf id
  | choose => exact absurd hf id
  | wait a k =>
    obtain ⟨-, n, h1, -⟩ := h s (Rely.refl _ _) hI
    rw [show s.heap[a]? = none from hf] at h1
    simp at h1
  | load a k =>
    obtain ⟨n, h1, -⟩ := h s (Rely.refl _ _) hI
    rw [show s.heap[a]? = none from hf] at h1
    simp at h1
  | cas a v k =>
    obtain ⟨-, n, h1, -⟩ := h s (Rely.refl _ _) hI
    rw [show s.heap[a]? = none from hf] at h1
    simp at h1
  | lock a k =>
    obtain ⟨-, n, h1, -⟩ := h s (Rely.refl _ _) hI
    rw [show s.heap[a]? = none from hf] at h1
    simp at h1
  | unlock a k =>
    obtain ⟨-, -, n, h1, -⟩ := h s (Rely.refl _ _) hI
    rw [show s.heap[a]? = none from hf] at h1
    simp at h1
  | unlockObsolete a k =>
    obtain ⟨-, -, -, n, h1, -⟩ := h s (Rely.refl _ _) hI
    rw [show s.heap[a]? = none from hf] at h1
    simp at h1
  | read a v k =>
    obtain ⟨n, h1, -⟩ := h s (Rely.refl _ _) hI
    rw [show s.heap[a]? = none from hf] at h1
    simp at h1
  | readRoot k =>
    obtain ⟨n, h1, -⟩ := h s (Rely.refl _ _) hI
    rw [show s.heap[0]? = none from hf] at h1
    simp at h1
  | write f k =>
    obtain ⟨-, h', m, m', s2, h1, -⟩ := h s (Rely.refl _ _) hI
    rw [show f s.heap = none from hf] at h1
    simp at h1

/-- A program that does not panic keeps this property in its own steps. -/
theorem np.step {i : Nat} {σ σ' : Conf} (hst : Step i σ σ') {s : St} (hh : s.heap = σ.heap) (hG : Good s) {Q : Option Bytes → St → Prop} {c : Call}
    {p p' : Prog (Option Bytes)} (hp : σ.procs i = .running c p) (hp' : σ'.procs i = .running c p') (hnp : np Q p s)
    (hr : ∀ a v k, p = .read a v k → ∃ n r : Node, σ.heap[a]? = some n ∧ r.cap = n.cap ∧ (n.version = v → r = n) ∧ p' = k r ∧ Sees n r) : np Q p' s := by
  have hR := Rel.refl s
  cases hst <;> simp only [to_procs, own_procs, if_true, Proc.running.injEq, reduceCtorEq] at hp'
  case call h _ => rw [hp] at h; simp at h
  case wait h h1 h2 => rw [hp] at h; cases h; obtain ⟨-, rfl⟩ := hp'; exact hnp s hR hG _ (by rw [hh]; exact h1) h2
  case load h h1 => rw [hp] at h; cases h; obtain ⟨-, rfl⟩ := hp'; exact hnp s hR hG _ (by rw [hh]; exact h1)
  case cas h _ _ => rw [hp] at h; cases h; obtain ⟨-, rfl⟩ := hp'; exact hnp _
  case casFail h _ _ => rw [hp] at h; cases h; obtain ⟨-, rfl⟩ := hp'; exact hnp _
  case lockFail h _ _ _ => rw [hp] at h; cases h; obtain ⟨-, rfl⟩ := hp'; exact hnp _
  case lock h _ _ _ => rw [hp] at h; cases h; obtain ⟨-, rfl⟩ := hp'; exact hnp _
  case unlock h _ => rw [hp] at h; cases h; obtain ⟨-, rfl⟩ := hp'; exact hnp
  case unlockObsolete h _ => rw [hp] at h; cases h; obtain ⟨-, rfl⟩ := hp'; exact hnp
  case read h _ _ _ =>
    rw [hp] at h
    cases h
    obtain ⟨n, r, g1, g2, g3, rfl, g5⟩ := hr _ _ _ rfl
    exact hnp s hR hG n r (by rw [hh]; exact g1) g2 g3 g5
  case readRoot h h1 => rw [hp] at h; cases h; obtain ⟨-, rfl⟩ := hp'; exact hnp s hR hG _ (by rw [hh]; exact h1)
  case choose h => rw [hp] at h; cases h; obtain ⟨-, rfl⟩ := hp'; exact hnp _
  case write h _ => rw [hp] at h; cases h; obtain ⟨-, rfl⟩ := hp'; exact hnp

/-- C62: if a call panics whose reads give the prefix lengths that are there, then a `Delete` has made the prefix of a node longer while the call was running. -/
theorem C62_panic (h : Run T σ who) {i : Nat} (hr : ReadsLens T σ who i) {c : Call} (hc : (σ T).procs i = .crashed c) :
    ∃ t, t < T ∧ (∃ p, (σ t).procs i = .running c p) ∧ (∃ k p, (σ t).procs (who t) = .running (.delete k) p) ∧ Lengthens σ t := by
  by_contra hno
  have hno' : ∀ t, t < T → (∃ c p, (σ t).procs i = .running c p) → ¬ Lengthens σ t := by
    rintro t ht ⟨c', p, hp⟩ hl
    refine hno ⟨t, ht, ⟨p, ?_⟩, C62_lengthens h ht hl, hl⟩
    have := (h.phase i (t := t) (T - t) (by omega)).2 c' (by rw [hp]; rfl)
    rw [show t + (T - t) = T by omega, hc] at this
    cases this
    exact hp
  have key : ∀ t, t ≤ T → ∃ s, SI σ who t s ∧ Firm s ∧ (∀ c, (σ t).procs i ≠ .crashed c) ∧
      ∀ k x p, (σ t).procs i = .running (.put k x) p → np (fun _ _ => True) p s := by
    intro t
    induction t with
    | zero =>
      intro _
      obtain ⟨s, hs, -⟩ := si_init (who := who) h.init
      refine ⟨s, hs, firm_init h.init hs, ?_, ?_⟩
      · intro c
        rw [h.init]
        simp [Conf.init]
      · intro k x p hp
        rw [h.init] at hp
        simp [Conf.init] at hp
    | succ t ih =>
      intro ht
      obtain ⟨s, hs, hF, hnc, hnp⟩ := ih (by omega)
      obtain ⟨s2, c2, hsim⟩ := hs.sim h (by omega)
      have hs2 := hs.step hsim
      have hG : Good s := ⟨hs.inv, hF⟩
      refine ⟨s2, hs2, hF.step h (by omega) hs hsim, ?_, ?_⟩
      · intro c' hc'
        by_cases e : i = who t
        swap
        · exact hnc c' (by rw [← hsim.others i e]; exact hc')
        obtain ⟨k, x, rfl⟩ := C21_no_panic_partial (h.mono ht) hc'
        have hst := h.step t (by omega)
        rw [← e] at hst
        generalize σ (t + 1) = σ' at hst hc'
        cases hst <;> simp only [to_procs, own_procs, if_true, Proc.crashed.injEq, reduceCtorEq] at hc'
        case crash h1 h2 =>
          subst hc'
          have hpo := hs.procs i
          rw [h1] at hpo
          obtain ⟨j, -, -, hw⟩ := hpo
          rw [← hs.heap] at h2
          have := faulty_panic hw hs.inv h2
          subst this
          exact hnp k x _ h1 s (Rel.refl s) hG
      · intro k x p hp
        by_cases hid : ∃ c p, (σ t).procs i = .running c p
        · have hR : Rel s s2 := by
            refine (hsim.g.rely hs.inv (c := who t + 1) (by omega)).rel ?_
            intro a n n' h1 h2
            rw [hs.heap] at h1
            rw [hsim.heap] at h2
            by_contra hlt
            exact hno' t (by omega) hid ⟨a, n, n', h1, h2, by omega⟩
          obtain ⟨c', q, hq⟩ := hid
          have hcc : c' = .put k x := by
            have := ((h.step t (by omega)).phase i).2 c' (by rw [hq]; rfl)
            rw [hp] at this
            cases this
            rfl
          subst hcc
          by_cases e : i = who t
          swap
          · rw [hsim.others i e] at hp
            exact (hnp k x p hp).rel hR
          have hst := h.step t (by omega)
          rw [← e] at hst
          refine (np.step hst hs.heap hG hq hp (hnp k x q hq) ?_).rel hR
          rintro a v kk rfl
          obtain ⟨n, r, g1, g2, g3, g4, g5, g6, g7⟩ := hr t (by omega) e.symm _ _ _ _ hq
          rw [hp] at g4
          cases g4
          exact ⟨n, r, g1, g2, g3, rfl, g5, g6, g7⟩
        · -- the call begins
          by_cases e : i = who t
          swap
          · exact absurd ⟨_, _, by rw [← hsim.others i e]; exact hp⟩ hid
          have hst := h.step t (by omega)
          rw [← e] at hst
          generalize σ (t + 1) = σ' at hst hp
          cases hst <;> simp only [to_procs, own_procs, if_true, Proc.running.injEq, reduceCtorEq] at hp
          case call => obtain ⟨rfl, rfl⟩ := hp; exact np_call_put _ _ _ _
          all_goals exact absurd ⟨_, _, by assumption⟩ hid
  obtain ⟨s, -, -, h1, -⟩ := key T (Nat.le_refl T)
  exact h1 c hc

/-- C62: in a run without `Delete` no call panics whose reads give the prefix lengths that are there. -/
theorem C62_no_delete (h : Run T σ who) {i : Nat} (hr : ReadsLens T σ who i) (hd : ∀ t j k p, t ≤ T → (σ t).procs j ≠ .running (.delete k) p) (c : Call) :
    (σ T).procs i ≠ .crashed c := by
  intro hc
  obtain ⟨t, ht, -, ⟨k, p, hp⟩, -⟩ := C62_panic h hr hc
  exact hd t _ k p (by omega) hp

end

/-! ## Examples -/

theorem act_reads {σ σ' : Conf} {i : Nat} {x : Act} (h : act σ i x = some σ') {c a v k} (hp : σ.procs i = .running c (.read a v k)) :
    ∃ n, σ.heap[a]? = some n ∧ σ'.procs i = .running c (k n) := by
  cases x with
  | call => simp [act, hp] at h
  | go b =>
    simp only [act, hp] at h
    split at h
    next n hn => cases h; exact ⟨n, hn, by simp [to_procs]⟩
    next => simp at h

theorem exec_acts : ∀ (xs : List (Nat × Act)) (σ σ' : Conf), exec xs σ = some σ' →
    ∀ t, t < xs.length → ∃ x, act (states xs σ t) ((xs[t]?.map (·.1)).getD 0) x = some (states xs σ (t + 1)) := by
  intro xs
  induction xs with
  | nil => intro σ σ' h t ht; simp at ht
  | cons x xs ih =>
    intro σ σ' h
    obtain ⟨i, x⟩ := x
    simp only [exec, Option.bind_eq_some_iff] at h
    obtain ⟨σ1, h1, h2⟩ := h
    intro t ht
    cases t with
    | zero =>
      simp only [states, h1, List.getElem?_cons_zero, Option.map_some, Option.getD_some, states_zero]
      exact ⟨x, h1⟩
    | succ t =>
      simp only [states, h1, List.getElem?_cons_succ]
      exact ih σ1 σ' h2 t (by simpa using ht)

/-- Runs by a schedule read what is there. -/
theorem exec_reads {xs : List (Nat × Act)} {σ' : Conf} (h : exec xs Conf.init = some σ') :
    ∃ σ who, Run xs.length σ who ∧ σ xs.length = σ' ∧ (∀ i, ReadsLens xs.length σ who i) ∧ σ = states xs Conf.init := by
  obtain ⟨h1, h2⟩ := exec_steps xs _ _ h
  refine ⟨states xs Conf.init, fun t => (xs[t]?.map (·.1)).getD 0, ⟨states_zero _ _, h2⟩, h1, ?_, rfl⟩
  intro i t ht hi c a v k hp
  obtain ⟨x, hx⟩ := exec_acts xs _ _ h t ht
  change (xs[t]?.map (·.1)).getD 0 = i at hi
  rw [hi] at hx
  obtain ⟨n, g1, g2⟩ := act_reads hx hp
  exact ⟨n, n, g1, rfl, fun _ => rfl, g2, rfl, rfl, id⟩

/-- The hypotheses of `C62_panic` and `C62_lengthens` are met: in the run of `C21_violated` all reads give what is there, and the `Put` panics. -/
theorem C62_example : ∃ T σ who, Run T σ who ∧ (∀ i, ReadsLens T σ who i) ∧ (∃ c, (σ T).procs 3 = .crashed c) ∧ ∃ t, t < T ∧ Lengthens σ t := by
  have h : ((exec unlucky Conf.init).map fun σ => σ.panicked 3) = some true := by decide +kernel
  simp only [Option.map_eq_some_iff] at h
  obtain ⟨σ', h1, h2⟩ := h
  obtain ⟨σ, who, h3, h4, h5, -⟩ := exec_reads h1
  have hc : ∃ c, (σ unlucky.length).procs 3 = .crashed c := by
    rw [← h4] at h2
    unfold Conf.panicked at h2
    split at h2
    next c hc => exact ⟨c, hc⟩
    next => simp at h2
  obtain ⟨c, hc⟩ := hc
  obtain ⟨t, ht, -, -, hl⟩ := C62_panic h3 (h5 3) hc
  exact ⟨_, σ, who, h3, h5, ⟨c, hc⟩, t, ht, hl⟩

/-- A step begins no `Delete`. -/
def Act.Keeps : Act → Bool
  | .call (.delete _) _ => false
  | _ => true

theorem act_keeps {σ σ' : Conf} {i : Nat} {x : Act} (hx : x.Keeps = true) (h : act σ i x = some σ') (hd : ∀ j k p, σ.procs j ≠ .running (.delete k) p) (j : Nat) (k : Bytes)
    (p : Prog (Option Bytes)) : σ'.procs j ≠ .running (.delete k) p := by
  intro hp
  by_cases e : j = i
  swap
  · exact hd j k p (by rw [← (act_step h).other e]; exact hp)
  subst e
  cases x with
  | call c fuel =>
    simp only [act] at h
    split at h
    next hi =>
      by_cases f : c.Fits
      · rw [if_pos f] at h
        cases h
        simp only [to_procs, if_true, Proc.running.injEq] at hp
        rw [hp.1] at hx
        simp [Act.Keeps] at hx
      · rw [if_neg f] at h
        simp at h
    next => simp at h
  | go b =>
    have hst := act_step h
    cases hq : σ.procs j with
    | running c q =>
      have := (hst.phase j).2 c (by rw [hq]; rfl)
      rw [hp] at this
      cases this
      exact hd j k q hq
    | idle => simp [act, hq] at h
    | done => simp [act, hq] at h
    | crashed => simp [act, hq] at h

theorem states_keeps : ∀ (xs : List (Nat × Act)) (σ σ' : Conf), exec xs σ = some σ' → xs.all (fun x => x.2.Keeps) = true → (∀ j k p, σ.procs j ≠ .running (.delete k) p) →
    ∀ t j k p, (states xs σ t).procs j ≠ .running (.delete k) p := by
  intro xs
  induction xs with
  | nil => intro σ σ' _ _ hd t; exact hd
  | cons x xs ih =>
    intro σ σ' h hx hd t
    obtain ⟨i, x⟩ := x
    simp only [exec, Option.bind_eq_some_iff] at h
    obtain ⟨σ1, h1, h2⟩ := h
    simp only [List.all_cons, Bool.and_eq_true] at hx
    cases t with
    | zero => rw [states_zero]; exact hd
    | succ t =>
      simp only [states, h1]
      exact ih σ1 σ' h2 hx.2 (act_keeps hx.1 h1 hd) t

/-- The hypotheses of `C62_no_delete` are met by the run `overtaken`, in which a `Get` and a `Put` of the same key overlap. -/
theorem C62_example_no_delete : ∃ σ who, Run overtaken.length σ who ∧ (∀ i, ReadsLens overtaken.length σ who i) ∧
    (∀ t j k p, t ≤ overtaken.length → (σ t).procs j ≠ .running (.delete k) p) ∧ (σ overtaken.length).returned 3 none := by
  have h : ((exec overtaken Conf.init).map fun σ => σ.returned 3 none) = some true := by decide +kernel
  simp only [Option.map_eq_some_iff] at h
  obtain ⟨σ', h1, h2⟩ := h
  obtain ⟨σ, who, h3, h4, h5, h6⟩ := exec_reads h1
  refine ⟨σ, who, h3, h5, ?_, by rw [h4]; exact h2⟩
  intro t j k p _
  rw [h6]
  exact states_keeps overtaken _ _ h1 (by decide +kernel) (by intro j k p; simp [Conf.init]) t j k p

end Art.Props
