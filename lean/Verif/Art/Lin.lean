import Verif.Props.ArtConc

/-!
# The order of all calls of a run

From the history of maps (`Verif.Art.Sound`) to one order of all calls.
-/

set_option linter.unusedSimpArgs false

namespace Art

open Surf Spec Props

/-! ## `Put` and `Delete` return nothing -/

/-- The program ends with "return nothing". -/
def Void (p : Prog (Option Bytes)) : Prop := ∃ (α : Type) (q : Prog α), p = q.bind fun _ => .ret none

/-- What the process has returned, or will return, if it is not `Get`. -/
def VoidProc : Proc → Prop
  | .running c p => (∀ k, c ≠ .get k) → Void p
  | .done c o => (∀ k, c ≠ .get k) → o = none
  | _ => True

theorem Void.next {p : Prog (Option Bytes)} (h : Void p) :
    match p with
    | .ret o => o = none
    | .wait _ k => ∀ v, Void (k v)
    | .load _ k => ∀ v, Void (k v)
    | .cas _ _ k => ∀ v, Void (k v)
    | .lock _ k => ∀ v, Void (k v)
    | .unlock _ k => Void k
    | .unlockObsolete _ k => Void k
    | .read _ _ k => ∀ v, Void (k v)
    | .readRoot k => ∀ v, Void (k v)
    | .choose k => ∀ v, Void (k v)
    | .write _ k => Void k
    | _ => True := by
  obtain ⟨α, q, rfl⟩ := h
  cases q with
  | ret x => rfl
  | panic => trivial
  | diverge => trivial
  | wait a k => exact fun v => ⟨α, k v, rfl⟩
  | load a k => exact fun v => ⟨α, k v, rfl⟩
  | cas a v k => exact fun v => ⟨α, k v, rfl⟩
  | lock a k => exact fun v => ⟨α, k v, rfl⟩
  | unlock a k => exact ⟨α, k, rfl⟩
  | unlockObsolete a k => exact ⟨α, k, rfl⟩
  | read a v k => exact fun v => ⟨α, k v, rfl⟩
  | readRoot k => exact fun v => ⟨α, k v, rfl⟩
  | choose k => exact fun v => ⟨α, k v, rfl⟩
  | write f k => exact ⟨α, k, rfl⟩

theorem Step.void {i : Nat} {σ σ' : Conf} (h : Step i σ σ') (hv : ∀ j, VoidProc (σ.procs j)) (j : Nat) : VoidProc (σ'.procs j) := by
  by_cases e : j = i
  · subst e
    have hj := hv j
    cases h with
    | call c f h1 h2 =>
      rw [to_procs, if_pos rfl]
      intro hc
      cases c with
      | get k => exact absurd rfl (hc k)
      | put k v => exact ⟨_, Art.put k v f, rfl⟩
      | delete k => exact ⟨_, Art.delete k f, rfl⟩
    | ret h1 => rw [h1] at hj; rw [to_procs, if_pos rfl]; exact fun hc => (hj hc).next
    | crash h1 => rw [to_procs, if_pos rfl]; trivial
    | wait h1 => rw [h1] at hj; rw [to_procs, if_pos rfl]; exact fun hc => (hj hc).next _
    | load h1 => rw [h1] at hj; rw [to_procs, if_pos rfl]; exact fun hc => (hj hc).next _
    | cas h1 => rw [h1] at hj; rw [own_procs, to_procs, if_pos rfl]; exact fun hc => (hj hc).next _
    | casFail h1 => rw [h1] at hj; rw [to_procs, if_pos rfl]; exact fun hc => (hj hc).next _
    | lockFail h1 => rw [h1] at hj; rw [to_procs, if_pos rfl]; exact fun hc => (hj hc).next _
    | lock h1 => rw [h1] at hj; rw [own_procs, to_procs, if_pos rfl]; exact fun hc => (hj hc).next _
    | unlock h1 => rw [h1] at hj; rw [own_procs, to_procs, if_pos rfl]; exact fun hc => (hj hc).next
    | unlockObsolete h1 => rw [h1] at hj; rw [own_procs, to_procs, if_pos rfl]; exact fun hc => (hj hc).next
    | read r h1 => rw [h1] at hj; rw [to_procs, if_pos rfl]; exact fun hc => (hj hc).next _
    | readRoot h1 => rw [h1] at hj; rw [to_procs, if_pos rfl]; exact fun hc => (hj hc).next _
    | choose b h1 => rw [h1] at hj; rw [to_procs, if_pos rfl]; exact fun hc => (hj hc).next _
    | write h1 => rw [h1] at hj; rw [to_procs, if_pos rfl]; exact fun hc => (hj hc).next
  · rw [h.other e]
    exact hv j

section
variable {T : Nat} {σ : Nat → Conf} {who : Nat → Nat}

theorem Run.void (h : Run T σ who) : ∀ t, t ≤ T → ∀ j, VoidProc ((σ t).procs j) := by
  intro t
  induction t with
  | zero => intro _ j; rw [h.init]; trivial
  | succ t ih => intro ht j; exact (h.step t (by omega)).void (ih (by omega)) j

end

/-! ## The specification: histories that one thread could have made -/

/-- A call with what it returned. -/
structure Op where
  id : Nat
  call : Call
  out : Option Bytes

/-- One after the other, on a store that holds `m`, the calls return what they have returned, and the store holds `m'` then. -/
def Legal : Map → List Op → Map → Prop
  | m, [], m' => m' = m
  | m, e :: l, m' => e.out = e.call.answer m ∧ Legal (e.call.effect m) l m'

theorem legal_append : ∀ (l l' : List Op) (m m1 m2 : Map), Legal m l m1 → Legal m1 l' m2 → Legal m (l ++ l') m2 := by
  intro l
  induction l with
  | nil =>
    intro l' m m1 m2 h1 h2
    have h1 : m1 = m := h1
    subst h1
    exact h2
  | cons e l ih =>
    intro l' m m1 m2 h1 h2
    exact ⟨h1.1, ih _ _ _ _ h1.2 h2⟩

theorem legal_same : ∀ (l : List Op) (m : Map), (∀ e ∈ l, e.out = e.call.answer m ∧ e.call.effect m = m) → Legal m l m := by
  intro l
  induction l with
  | nil => intro m _; rfl
  | cons e l ih =>
    intro m h
    refine ⟨(h e List.mem_cons_self).1, ?_⟩
    rw [(h e List.mem_cons_self).2]
    exact ih m (fun x hx => h x (List.mem_cons_of_mem _ hx))

theorem callEff_spec {c : Call} {m m' : Map} (h : callEff c m m') : m' = c.effect m ∧ c.answer m = none ∧ ∀ k, c ≠ .get k := by
  cases c with
  | get k => exact absurd h id
  | put k v => exact ⟨h, rfl, by simp⟩
  | delete k => exact ⟨h, rfl, by simp⟩

theorem delete_absent {m : Map} {k : Bytes} (h : m k = none) : m.delete k = m := by
  funext k'
  unfold Map.delete
  split
  · rename_i e; rw [e, h]
  · rfl

/-! ## The order -/

section
variable {T : Nat} {σ : Nat → Conf} {who : Nat → Nat}

/-- The entry for the process `i`. -/
def opOf (σ : Conf) (i : Nat) : Op :=
  match σ.procs i with
  | .done c o => ⟨i, c, o⟩
  | .running c _ => ⟨i, c, none⟩
  | .crashed c => ⟨i, c, none⟩
  | .idle => ⟨i, .get [], none⟩

theorem opOf_id (σ : Conf) (i : Nat) : (opOf σ i).id = i := by
  unfold opOf
  split <;> rfl

theorem opOf_call {σ : Conf} {i : Nat} {c : Call} (h : (σ.procs i).call = some c) : (opOf σ i).call = c := by
  unfold opOf
  cases hp : σ.procs i <;> rw [hp] at h <;> simp [Proc.call] at h <;> simp [h]

/-- The process `i` has returned at the end and reads at the instant `t` what it returns; it changes nothing. -/
def ReadsAt (σ : Nat → Conf) (T : Nat) (s : St) (i t : Nat) : Prop :=
  t ≤ T ∧ ∃ c o p τ m, (σ T).procs i = .done c o ∧ (σ t).procs i = .running c p ∧ s.hist[t]? = some (τ, m) ∧ o = c.answer m ∧ c.effect m = m ∧
    ∀ (j : Nat) τ' m', s.hist[j]? = some (τ', m') → τ' ≠ some i

theorem tagged_not_get (h : Run T σ who) {s : St} (hs : SI σ who T s) {j : Nat} {i : Nat} {m' : Map} (hj : s.hist[j]? = some (some i, m')) :
    ∃ t m c p, j = t + 1 ∧ t < T ∧ who t = i ∧ (∃ τ, s.hist[t]? = some (τ, m)) ∧ (σ t).procs i = .running c p ∧ callEff c m m' ∧ ((σ T).procs i).call = some c := by
  have hj0 : j ≠ 0 := by
    rintro rfl
    obtain ⟨m, hm⟩ := hs.first
    rw [hj] at hm
    simp at hm
  obtain ⟨t, rfl⟩ : ∃ t, j = t + 1 := ⟨j - 1, by omega⟩
  have hlt : t + 1 < s.hist.length := (List.getElem?_eq_some_iff.mp hj).1
  rw [hs.len] at hlt
  obtain ⟨τ, m, h1⟩ := hist_get hs.len (show t ≤ T by omega)
  rcases hs.next _ _ _ _ _ h1 hj with ⟨e, -⟩ | ⟨e, c, p, g1, g2⟩
  · simp at e
  · simp only [Option.some.injEq] at e
    subst e
    refine ⟨t, m, c, p, rfl, by omega, rfl, ⟨τ, h1⟩, g1, g2, ?_⟩
    have := (h.phase (who t) (t := t) (T - t) (by omega)).2 c (by rw [g1]; rfl)
    rw [show t + (T - t) = T by omega] at this
    exact this

theorem no_tag {s : St} {i : Nat} (h : Tags i 0 s) (j : Nat) (τ' : Option Nat) (m' : Map) (hj : s.hist[j]? = some (τ', m')) : τ' ≠ some i := by
  have := countP_zero_get h hj
  rintro rfl
  simp at this

/-- A process that has returned reads at an instant or is in the history. -/
theorem done_has (h : Run T σ who) {s : St} (hs : SI σ who T s) {i : Nat} {c : Call} {o : Option Bytes} (hd : (σ T).procs i = .done c o) :
    (∃ t, ReadsAt σ T s i t) ∨ ∃ (j : Nat) (m' : Map), s.hist[j]? = some (some i, m') := by
  have hp := hs.procs i
  rw [hd] at hp
  have one : Tags i 1 s → ∃ (j : Nat) (m' : Map), s.hist[j]? = some (some i, m') := by
    intro hT
    obtain ⟨j, ⟨τ0, m0⟩, h1, h2, -⟩ := countP_one _ _ hT
    simp only [beq_iff_eq] at h2
    subst h2
    exact ⟨j, m0, h1⟩
  cases c with
  | get k =>
    obtain ⟨-, j, τ, m, p, h1, h2, h3, h4⟩ := hp
    left
    refine ⟨j, h1, .get k, o, p, τ, m, hd, h2, h3, h4.symm, rfl, ?_⟩
    rintro j' τ' m' hj rfl
    obtain ⟨t, m1, c, p', -, -, -, -, -, g1, g2⟩ := tagged_not_get h hs hj
    rw [hd] at g2
    simp only [Proc.call, Option.some.injEq] at g2
    subst g2
    exact g1
  | put k v => exact Or.inr (one hp.2)
  | delete k =>
    rcases hp.2 with hT | ⟨hT, j, τ, m, p, h1, h2, h3, h4⟩
    · exact Or.inr (one hT)
    · left
      have ho : o = none := by
        have := h.void T (Nat.le_refl _) i
        rw [hd] at this
        exact this (by simp)
      exact ⟨j, h1, .delete k, o, p, τ, m, hd, h2, h3, ho, delete_absent h4, no_tag hT⟩

open Classical in
/-- The instant at which the process reads what it returns. -/
noncomputable def readTime (σ : Nat → Conf) (T : Nat) (s : St) (i : Nat) : Nat := if h : ∃ t, ReadsAt σ T s i t then h.choose else T + 1

theorem readTime_spec {s : St} {i t : Nat} (ht : t ≤ T) (h : readTime σ T s i = t) : ReadsAt σ T s i t := by
  unfold readTime at h
  split at h
  next hx => rw [← h]; exact hx.choose_spec
  next => omega

theorem readTime_le {s : St} {i : Nat} (h : ∃ t, ReadsAt σ T s i t) : readTime σ T s i ≤ T := by
  unfold readTime
  rw [dif_pos h]
  exact h.choose_spec.1

/-- The processes that have made a step. -/
noncomputable def idsOf (T : Nat) (who : Nat → Nat) : List Nat := ((List.range T).map who).dedup

/-- The process whose effect the step `t` is. -/
def effectOf (s : St) (t : Nat) : List Nat :=
  match s.hist[t + 1]? with
  | some (some i, _) => [i]
  | _ => []

theorem mem_effectOf {s : St} {t i : Nat} : i ∈ effectOf s t ↔ ∃ m', s.hist[t + 1]? = some (some i, m') := by
  unfold effectOf
  split
  next j m' e =>
    rw [e, List.mem_singleton]
    constructor
    · rintro rfl; exact ⟨m', rfl⟩
    · rintro ⟨m2, e2⟩
      simp only [Option.some.injEq, Prod.mk.injEq] at e2
      exact e2.1.symm
  next hn =>
    simp only [List.not_mem_nil, false_iff]
    rintro ⟨m', e⟩
    exact hn _ _ e

/-- Those who read at the instant `t`, then the one whose effect the step `t` is. -/
noncomputable def block (σ : Nat → Conf) (T : Nat) (who : Nat → Nat) (s : St) (t : Nat) : List Nat :=
  (idsOf T who).filter (fun i => decide (readTime σ T s i = t)) ++ effectOf s t

/-- All calls in order. -/
noncomputable def order (σ : Nat → Conf) (T : Nat) (who : Nat → Nat) (s : St) : List Nat := (List.range (T + 1)).flatMap (block σ T who s)

theorem mem_block {s : St} {t i : Nat} (ht : t ≤ T) (hi : i ∈ block σ T who s t) : ReadsAt σ T s i t ∨ ∃ m', s.hist[t + 1]? = some (some i, m') := by
  unfold block at hi
  rw [List.mem_append, List.mem_filter, decide_eq_true_eq, mem_effectOf] at hi
  exact hi.imp (fun h => readTime_spec ht h.2) id

/-- Whoever is in the block `t` runs at the instant `t`. -/
theorem block_runs (h : Run T σ who) {s : St} (hs : SI σ who T s) {t i : Nat} (ht : t ≤ T) (hi : i ∈ block σ T who s t) :
    ∃ c p, (σ t).procs i = .running c p ∧ ((σ T).procs i).call = some c := by
  rcases mem_block ht hi with ⟨-, c, o, p, τ, m, h1, h2, -⟩ | ⟨m', h1⟩
  · exact ⟨c, p, h2, by rw [h1]; rfl⟩
  · obtain ⟨t', m, c, p, e, -, -, -, g1, -, g2⟩ := tagged_not_get h hs h1
    have : t' = t := by omega
    subst this
    exact ⟨c, p, g1, g2⟩

theorem block_legal (h : Run T σ who) {s : St} (hs : SI σ who T s) {t : Nat} (ht : t ≤ T) {τ : Option Nat} {m : Map} (hm : s.hist[t]? = some (τ, m)) :
    ∃ m', (t < T → ∃ τ', s.hist[t + 1]? = some (τ', m')) ∧ (t = T → m' = m) ∧ Legal m ((block σ T who s t).map (opOf (σ T))) m' := by
  have hread : Legal m (((idsOf T who).filter (fun i => decide (readTime σ T s i = t))).map (opOf (σ T))) m := by
    apply legal_same
    intro e he
    rw [List.mem_map] at he
    obtain ⟨i, hi, rfl⟩ := he
    rw [List.mem_filter, decide_eq_true_eq] at hi
    obtain ⟨-, c, o, p, τ1, m1, h1, h2, h3, h4, h5, -⟩ := readTime_spec ht hi.2
    rw [hm] at h3
    cases h3
    have : opOf (σ T) i = ⟨i, c, o⟩ := by unfold opOf; rw [h1]
    rw [this]
    exact ⟨h4, h5⟩
  unfold block
  rw [List.map_append]
  cases hn : s.hist[t + 1]? with
  | none =>
    have hT : ¬ t < T := by
      intro hlt
      obtain ⟨τ', m', e⟩ := hist_get hs.len (show t + 1 ≤ T by omega)
      rw [hn] at e
      cases e
    have : effectOf s t = [] := by unfold effectOf; rw [hn]
    rw [this]
    exact ⟨m, fun h => absurd h hT, fun _ => rfl, legal_append _ _ _ _ _ hread rfl⟩
  | some x =>
    obtain ⟨τ', m'⟩ := x
    have hlt : t + 1 < s.hist.length := (List.getElem?_eq_some_iff.mp hn).1
    rw [hs.len] at hlt
    refine ⟨m', fun _ => ⟨τ', rfl⟩, fun e => by omega, legal_append _ _ _ _ _ hread ?_⟩
    cases τ' with
    | none =>
      have : effectOf s t = [] := by unfold effectOf; rw [hn]
      rw [this]
      rcases hs.next _ _ _ _ _ hm hn with ⟨-, e⟩ | ⟨e, -⟩
      · exact e
      · cases e
    | some i =>
      have : effectOf s t = [i] := by unfold effectOf; rw [hn]
      rw [this]
      obtain ⟨t', m1, c, p, e1, e2, e3, ⟨τ1, e4⟩, e5, e6, e7⟩ := tagged_not_get h hs hn
      have : t' = t := by omega
      subst this
      rw [hm] at e4
      cases e4
      obtain ⟨f1, f2, f3⟩ := callEff_spec e6
      rw [List.map_singleton]
      have hc := opOf_call e7
      refine ⟨?_, ?_⟩
      · rw [hc, f2]
        unfold opOf
        cases hp : (σ T).procs i with
        | idle => rfl
        | running c' p' => rfl
        | crashed c' => rfl
        | done c' o =>
          have hv := h.void T (Nat.le_refl _) i
          rw [hp] at hv e7
          simp only [Proc.call, Option.some.injEq] at e7
          subst e7
          exact hv f3
      · rw [hc]
        exact f1

theorem order_legal (h : Run T σ who) {s : St} (hs : SI σ who T s) {m0 : Map} (h0 : s.hist[0]? = some (none, m0)) :
    ∃ m, Stands (σ T).heap m ∧ Legal m0 ((order σ T who s).map (opOf (σ T))) m := by
  have key : ∀ n, n ≤ T → ∃ τ m, s.hist[n]? = some (τ, m) ∧ Legal m0 (((List.range n).flatMap (block σ T who s)).map (opOf (σ T))) m := by
    intro n
    induction n with
    | zero => intro _; exact ⟨none, m0, h0, rfl⟩
    | succ n ih =>
      intro hn
      obtain ⟨τ, m, h1, h2⟩ := ih (by omega)
      obtain ⟨m', g1, -, g3⟩ := block_legal h hs (show n ≤ T by omega) h1
      obtain ⟨τ', g1⟩ := g1 (by omega)
      refine ⟨τ', m', g1, ?_⟩
      rw [List.range_succ, List.flatMap_append, List.map_append]
      refine legal_append _ _ _ _ _ h2 ?_
      simpa using g3
  obtain ⟨τ, m, h1, h2⟩ := key T (Nat.le_refl _)
  obtain ⟨m', -, g2, g3⟩ := block_legal h hs (Nat.le_refl T) h1
  have g2 := g2 rfl
  subst g2
  refine ⟨m', hs.maps _ _ _ h1, ?_⟩
  unfold order
  rw [List.range_succ, List.flatMap_append, List.map_append]
  refine legal_append _ _ _ _ _ h2 ?_
  simpa using g3

/-- A process that has done something has made a step. -/
theorem mem_idsOf (h : Run T σ who) {i : Nat} (hi : (σ T).procs i ≠ .idle) : i ∈ idsOf T who := by
  unfold idsOf
  rw [List.mem_dedup, List.mem_map]
  by_contra hc
  have : ∀ t, t ≤ T → (σ t).procs i = .idle := by
    intro t
    induction t with
    | zero => intro _; rw [h.init]; rfl
    | succ t ih =>
      intro ht
      have hne : i ≠ who t := by
        rintro rfl
        exact hc ⟨t, List.mem_range.mpr (by omega), rfl⟩
      rw [(h.step t (by omega)).other hne]
      exact ih (by omega)
  exact hi (this T (Nat.le_refl _))

theorem order_complete (h : Run T σ who) {s : St} (hs : SI σ who T s) {i : Nat} {c : Call} {o : Option Bytes} (hd : (σ T).procs i = .done c o) :
    i ∈ order σ T who s := by
  unfold order
  rw [List.mem_flatMap]
  rcases done_has h hs hd with hr | ⟨j, m', hj⟩
  · refine ⟨readTime σ T s i, List.mem_range.mpr (by have := readTime_le hr; omega), ?_⟩
    unfold block
    rw [List.mem_append, List.mem_filter]
    exact Or.inl ⟨mem_idsOf h (by rw [hd]; simp), by simp⟩
  · obtain ⟨t, m, c, p, rfl, h2, -⟩ := tagged_not_get h hs hj
    refine ⟨t, List.mem_range.mpr (by omega), ?_⟩
    unfold block
    rw [List.mem_append, mem_effectOf]
    exact Or.inr ⟨m', hj⟩

theorem order_nodup (h : Run T σ who) {s : St} (hs : SI σ who T s) : (order σ T who s).Nodup := by
  have huniq : ∀ (j j' i : Nat) (m m' : Map), s.hist[j]? = some (some i, m) → s.hist[j']? = some (some i, m') → j = j' := by
    intro j j' i m m' h1 h2
    have h3 := hs.one i
    have hpos : 0 < s.hist.countP (fun e => e.1 == some i) := by
      rw [List.countP_pos_iff]
      exact ⟨_, List.mem_of_getElem? h1, by simp⟩
    obtain ⟨k, x, -, -, hu⟩ := countP_one _ _ (show s.hist.countP (fun e => e.1 == some i) = 1 by omega)
    rw [hu _ _ h1 (by simp), hu _ _ h2 (by simp)]
  unfold order
  rw [List.nodup_flatMap]
  constructor
  · intro t ht
    rw [List.mem_range] at ht
    unfold block
    rw [List.nodup_append]
    refine ⟨(List.nodup_dedup _).filter _, ?_, ?_⟩
    · unfold effectOf
      split
      · exact List.nodup_singleton _
      · exact List.nodup_nil
    · intro i hi i' hi' e
      subst e
      rw [List.mem_filter, decide_eq_true_eq] at hi
      rw [mem_effectOf] at hi'
      obtain ⟨m', e⟩ := hi'
      obtain ⟨-, c, o, p, τ, m, -, -, -, -, -, hno⟩ := readTime_spec (show t ≤ T by omega) hi.2
      exact hno _ _ _ e rfl
  · rw [List.pairwise_iff_getElem]
    intro a b ha hb hab
    rw [List.length_range] at ha hb
    rw [List.getElem_range, List.getElem_range]
    intro i h1 h2
    rcases mem_block (show a ≤ T by omega) h1 with r1 | ⟨m1, r1⟩ <;> rcases mem_block (show b ≤ T by omega) h2 with r2 | ⟨m2, r2⟩
    · unfold block at h1 h2
      rw [List.mem_append, List.mem_filter, decide_eq_true_eq, mem_effectOf] at h1 h2
      obtain ⟨-, c, o, p, τ, m, -, -, -, -, -, hno⟩ := r1
      rcases h1 with h1 | ⟨m', h1⟩
      · rcases h2 with h2 | ⟨m', h2⟩
        · omega
        · exact hno _ _ _ h2 rfl
      · exact hno _ _ _ h1 rfl
    · obtain ⟨-, c, o, p, τ, m, -, -, -, -, -, hno⟩ := r1
      exact hno _ _ _ r2 rfl
    · obtain ⟨-, c, o, p, τ, m, -, -, -, -, -, hno⟩ := r2
      exact hno _ _ _ r1 rfl
    · have := huniq _ _ _ _ _ r1 r2
      omega

/-- No call is in the order before one that returned before it began. -/
theorem order_time (h : Run T σ who) {s : St} (hs : SI σ who T s) :
    (order σ T who s).Pairwise (fun i j => ¬ ∃ t, t ≤ T ∧ (σ t).procs i = .idle ∧ ∃ c o, (σ t).procs j = .done c o) := by
  have key : ∀ (a b i j : Nat), a ≤ b → b ≤ T → i ∈ block σ T who s a → j ∈ block σ T who s b →
      ¬ ∃ t, t ≤ T ∧ (σ t).procs i = .idle ∧ ∃ c o, (σ t).procs j = .done c o := by
    rintro a b i j hab hb hi hj ⟨t, ht, h1, c, o, h2⟩
    obtain ⟨c1, p1, g1, -⟩ := block_runs h hs (show a ≤ T by omega) hi
    obtain ⟨c2, p2, g2, -⟩ := block_runs h hs hb hj
    have k1 : t < a := by
      by_contra hc
      have := (h.phase i (t := a) (t - a) (by omega)).1
      rw [show a + (t - a) = t by omega, g1, h1] at this
      simp [Proc.phase] at this
    have k2 : b < t := by
      by_contra hc
      have := (h.phase j (t := t) (b - t) (by omega)).1
      rw [show t + (b - t) = b by omega, g2, h2] at this
      simp [Proc.phase] at this
    omega
  unfold order
  rw [List.pairwise_flatMap]
  constructor
  · intro t ht
    rw [List.mem_range] at ht
    exact List.pairwise_of_forall_mem_list (fun i hi j hj => key t t i j (Nat.le_refl _) (by omega) hi hj)
  · rw [List.pairwise_iff_getElem]
    intro a b ha hb hab i hi j hj
    rw [List.length_range] at ha hb
    rw [List.getElem_range] at hi hj
    exact key a b i j (by omega) (by omega) hi hj

end

end Art
