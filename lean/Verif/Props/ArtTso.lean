import Verif.Art.TsoSim
import Verif.Props.ArtFine

/-!
# The tree on a machine with store buffers: C82

`TRun` (in `Verif.Art.Tso`) are the runs of the machine whose processors have store buffers (x86-TSO), with the critical sections store by store. `Legal` and `Op` (in
`Verif.Art.Lin`) are the specification, as in C46 and C67.
-/

set_option linter.unusedSimpArgs false

namespace Art.Props

open Surf Spec

/-- What is known of the state at the end of a run in small steps. -/
theorem facts_of {T : Nat} {φ : Nat → FConf} {who : Nat → Nat} (h : FRun T φ who) : Facts (φ T) := by
  obtain ⟨g, σ, who', h1, -, -, h4⟩ := refines h
  obtain ⟨-, hm⟩ := h4 T (Nat.le_refl _)
  have hS := h1.sane (g T) (Nat.le_refl _)
  obtain ⟨s, hs⟩ := h1.si (g T) (Nat.le_refl _)
  have hwp : ∀ {i c p}, (σ (g T)).procs i = .running c p → ∃ j, wp i (callEff c) (callPk c) (callQ i j c) p s := by
    intro i c p hp
    have := hs.procs i
    rw [hp] at this
    obtain ⟨j, -, -, h⟩ := this
    exact ⟨j, h⟩
  refine ⟨?_, ?_, ?_, ?_, ?_, ?_⟩
  · intro a n hn
    exact C67_locked_iff h (Nat.le_refl _) hn
  · intro a j ho
    rw [hm.owner] at ho
    obtain ⟨n, hn, -⟩ := hS.lt a j ho
    obtain ⟨m, h1, -⟩ := hm.node a n hn
    exact ⟨m, h1⟩
  · intro j hj a
    exact C67_released h hj a
  · intro i c a v k w hp
    obtain ⟨L, K, ⟨hv, -⟩, -⟩ := hS.keeps i _ _ (hm.running hp).1
    exact hv
  · rintro i c a k w hp ⟨b, hb⟩ rfl
    obtain ⟨j, hw⟩ := hwp (hm.running hp).1
    obtain ⟨hw, -⟩ := hw s (Rely.refl _ _) hs.inv
    have := hw b (by rw [hs.owner, ← hm.owner]; exact hb)
    simp [St.rank] at this
  · intro i c f k h0 hp he
    obtain ⟨hp', hw⟩ := hm.running hp
    obtain ⟨j, hwp⟩ := hwp hp'
    obtain ⟨-, h', m, m', s2, e1, -⟩ := hwp s (Rely.refl _ _) hs.inv
    rw [hs.heap] at e1
    obtain ⟨L, K, ⟨hf, -⟩, hL, -⟩ := hS.keeps i _ _ hp'
    have hl : ((φ T).seen i (.opened h0)).length = (σ (g T)).heap.length := by
      rw [FConf.seen, length_overlay]
      exact hm.length
    have hag : ∀ a, a ∈ L → ((φ T).seen i (.opened h0))[a]? = (σ (g T)).heap[a]? := by
      intro a ha
      have ho := (hL a).mpr ha
      obtain ⟨n, hn, -⟩ := hS.lt a i ho
      obtain ⟨m, hm', -⟩ := hm.node a n hn
      rw [FConf.seen, getElem?_overlay, hm', hn]
      simp [FConf.mine, hm.owner, ho, hw.2 a ho, hn]
    rcases hf _ _ hl hag with ⟨e0, e⟩ | ⟨x, y, e, -⟩
    · rw [e1] at e
      cases e
    · rw [he] at e
      cases e

/-- A run in small steps goes on. -/
theorem extend_steps {T : Nat} {φ : Nat → FConf} {who : Nat → Nat} (h : FRun T φ who) {i : Nat} {x : FConf} (hs : FSteps i (φ T) x) :
    ∃ T' φ' who', FRun T' φ' who' ∧ T ≤ T' ∧ (∀ u, u ≤ T → φ' u = φ u) ∧ φ' T' = x ∧ (∀ u, u < T → who' u = who u) ∧ ∀ u, T ≤ u → u < T' → who' u = i := by
  generalize hy : φ T = y at hs
  induction hs with
  | refl => exact ⟨T, φ, who, h, Nat.le_refl _, fun _ _ => rfl, hy, fun _ _ => rfl, fun u h1 h2 => by omega⟩
  | @tail b c _ hst ih =>
    obtain ⟨T', φ', who', g1, g2, g3, g4, g5, g6⟩ := ih
    refine ⟨T' + 1, fun u => if u ≤ T' then φ' u else c, fun u => if u < T' then who' u else i, ⟨?_, ?_⟩, by omega, ?_, ?_, ?_, ?_⟩
    · simp [g1.init]
    · intro t ht
      by_cases e : t < T'
      · have : t ≤ T' := by omega
        have : t + 1 ≤ T' := by omega
        simp only [*, if_true]
        exact g1.step t e
      · have : t = T' := by omega
        subst this
        simp only [Nat.le_refl, if_true, Nat.lt_irrefl, if_false]
        rw [if_neg (by omega), g4]
        exact hst
    · intro u hu
      have : u ≤ T' := by omega
      simp only [this, if_true]
      exact g3 u hu
    · simp
    · intro u hu
      have : u < T' := by omega
      simp only [this, if_true]
      exact g5 u hu
    · intro u h1 h2
      by_cases e : u < T'
      · simp only [e, if_true]
        exact g6 u h1 e
      · simp only [e, if_false]

theorem trel_init : TRel TConf.init FConf.init := by
  refine ⟨rfl, rfl, ?_, ?_, fun _ => .idle⟩
  · refine ⟨(new)[0], rfl, ?_, ?_⟩ <;> decide
  · intro a n hn
    rcases a with _ | _ | a
    · cases hn; decide
    · cases hn; decide
    · cases hn

section
variable {T : Nat} {μ : Nat → TConf} {who : Nat → Nat}

theorem tso_refines (h : TRun T μ who) : ∃ (g : Nat → Nat) (φ : Nat → FConf) (who' : Nat → Nat), FRun (g T) φ who' ∧ g 0 = 0 ∧
    (∀ t, t < T → g t ≤ g (t + 1) ∧ ∀ u, g t ≤ u → u < g (t + 1) → who' u = who t) ∧ ∀ t, t ≤ T → g t ≤ g T ∧ TRel (μ t) (φ (g t)) := by
  induction T with
  | zero =>
    refine ⟨fun _ => 0, fun _ => FConf.init, fun _ => 0, ⟨rfl, by simp⟩, rfl, by simp, fun t ht => ⟨Nat.le_refl _, ?_⟩⟩
    have : t = 0 := by omega
    subst this
    rw [h.init]
    exact trel_init
  | succ T ih =>
    obtain ⟨g, φ, who', h1, h2, h3, h4⟩ := ih ⟨h.init, fun t ht => h.step t (by omega)⟩
    obtain ⟨x, hx, hr⟩ := (h4 T (Nat.le_refl _)).2.step (facts_of h1) (h.step T (Nat.lt_succ_self _))
    obtain ⟨N, φ', w2, g1, g2, g3, g4, g5, g6⟩ := extend_steps h1 hx
    refine ⟨fun t => if t ≤ T then g t else N, φ', w2, by simpa using g1, by simpa using h2, ?_, ?_⟩
    · intro t ht
      by_cases e : t < T
      · have a1 : t ≤ T := by omega
        have a2 : t + 1 ≤ T := by omega
        simp only [a1, a2, if_true]
        obtain ⟨h5, h6⟩ := h3 t e
        refine ⟨h5, fun u hu1 hu2 => ?_⟩
        rw [g5 u (by have := (h4 (t + 1) a2).1; omega)]
        exact h6 u hu1 hu2
      · have : t = T := by omega
        subst this
        simp only [Nat.le_refl, if_true]
        rw [if_neg (by omega)]
        exact ⟨g2, g6⟩
    · intro t ht
      by_cases e : t ≤ T
      · simp only [e, if_true]
        rw [if_neg (by omega), g3 _ (h4 t e).1]
        exact ⟨by have := (h4 t e).1; omega, (h4 t e).2⟩
      · have : t = T + 1 := by omega
        subst this
        simp only [e, if_false]
        rw [g4]
        exact ⟨Nat.le_refl _, hr⟩

/-! ## The theorems -/

/-- Which call it is, once it has begun. -/
def _root_.Art.TProc.call : TProc → Option Call
  | .idle => none
  | .running c _ _ => some c
  | .done c _ => some c
  | .crashed c => some c

/-- The call has stores that may not have reached memory: it is within a critical section, or has just left one and is about to return. -/
def _root_.Art.TProc.writing : TProc → Bool
  | .running _ _ (.inside _ _) => true
  | _ => false

theorem tmatch_call {h : Heap} {ow : Addr → Option Nat} {i : Nat} {P : TProc} {F : FProc} (hm : TMatch h ow i P F) : P.call = F.plain.call := by
  cases hm <;> rfl

theorem tmatch_done {h : Heap} {ow : Addr → Option Nat} {i : Nat} {P : TProc} {F : FProc} (hm : TMatch h ow i P F) (c : Call) (o : Option Bytes) : P = .done c o ↔ F = .done c o := by
  cases hm <;> simp

theorem tmatch_idle {h : Heap} {ow : Addr → Option Nat} {i : Nat} {P : TProc} {F : FProc} (hm : TMatch h ow i P F) : P = .idle ↔ F = .idle := by
  cases hm <;> simp

theorem trel_settled {μ : TConf} {φ : FConf} (h : TRel μ φ) (hq : ∀ i, (μ.procs i).writing = false) : φ.Settled := by
  intro i c p w hp
  have := h.proc i
  rw [hp] at this
  have hi := hq i
  generalize μ.procs i = P at this hi
  cases this with
  | calm => rfl
  | reading => rfl
  | opened => cases hi
  | closing => cases hi

/-- C82: every run of the machine with store buffers follows a run of large steps (`Verif.Art.System`, where critical sections are single steps and there are no buffers): at every instant the same calls
have begun, returned (the same) or panicked, the same locks are held; and whenever no call has stores that may be in its buffer, the tree in memory stands for the same map. -/
theorem C82_refines (h : TRun T μ who) : ∃ (g : Nat → Nat) (σ : Nat → Conf) (who' : Nat → Nat), Run (g T) σ who' ∧ g 0 = 0 ∧
    ∀ t, t ≤ T → g t ≤ g T ∧ (∀ i, ((μ t).procs i = .idle ↔ (σ (g t)).procs i = .idle) ∧ (∀ c o, (μ t).procs i = .done c o ↔ (σ (g t)).procs i = .done c o) ∧
        ((μ t).procs i).call = ((σ (g t)).procs i).call) ∧ (μ t).owner = (σ (g t)).owner ∧
      ((∀ i, ((μ t).procs i).writing = false) → ∀ m, Stands (μ t).heap m ↔ Stands (σ (g t)).heap m) := by
  obtain ⟨g, φ, who', h1, h2, h3, h4⟩ := tso_refines h
  obtain ⟨g', σ, who2, k1, k2, k3, k4⟩ := refines h1
  refine ⟨fun t => g' (g t), σ, who2, k1, by simp only [h2, k2], fun t ht => ?_⟩
  obtain ⟨h5, h6⟩ := h4 t ht
  obtain ⟨k5, k6⟩ := k4 (g t) h5
  have hpl := fun i => match_plain (k6.proc i)
  refine ⟨k5, fun i => ⟨?_, fun c o => ?_, ?_⟩, ?_, fun hq m => ?_⟩
  · rw [tmatch_idle (h6.proc i), ← hpl]
    cases (φ (g t)).procs i <;> simp [FProc.plain]
  · rw [tmatch_done (h6.proc i), ← hpl]
    cases (φ (g t)).procs i <;> simp [FProc.plain]
  · rw [tmatch_call (h6.proc i), hpl]
  · rw [← h6.owner, k6.owner]
  · rw [← h6.heap]
    exact rel_stands k1 k5 k6 (trel_settled h6 hq) m

/-- C82: every run of the machine with store buffers is linearizable. There is one order of calls – each one once; all those that have returned, with what they returned, and some of those that have
begun – such that made one after the other on an empty store they return the same, and the store holds then what the tree holds (when no call has stores that may be in its buffer);
and no call is in this order before a call that returned before it began. -/
theorem C82_linearizable (h : TRun T μ who) : ∃ L : List Op,
    (L.map Op.id).Nodup ∧
    (∀ i c o, (μ T).procs i = .done c o → ⟨i, c, o⟩ ∈ L) ∧
    (∀ e ∈ L, ((μ T).procs e.id).call = some e.call ∧ ∀ c o, (μ T).procs e.id = .done c o → e.out = o) ∧
    L.Pairwise (fun a b => ¬ ∃ t, t ≤ T ∧ (μ t).procs a.id = .idle ∧ ∃ c o, (μ t).procs b.id = .done c o) ∧
    ∃ m, Legal Map.empty L m ∧ ((∀ i, ((μ T).procs i).writing = false) → Stands (μ T).heap m) := by
  obtain ⟨g, φ, who', h1, -, -, h4⟩ := tso_refines h
  obtain ⟨L, a1, a2, a3, a4, m, a5, a6⟩ := C67_linearizable h1
  have hT := (h4 T (Nat.le_refl _)).2
  refine ⟨L, a1, ?_, ?_, ?_, m, a5, fun hq => by rw [← hT.heap]; exact a6 (trel_settled hT hq)⟩
  · intro i c o hd
    exact a2 i c o ((tmatch_done (hT.proc i) c o).mp hd)
  · intro e he
    obtain ⟨b1, b2⟩ := a3 e he
    refine ⟨by rw [tmatch_call (hT.proc e.id)]; exact b1, fun c o hd => b2 c o ((tmatch_done (hT.proc e.id) c o).mp hd)⟩
  · refine a4.imp ?_
    rintro a b hno ⟨t, ht, e1, c, o, e2⟩
    obtain ⟨b1, b2⟩ := h4 t ht
    exact hno ⟨g t, b1, (tmatch_idle (b2.proc a.id)).mp e1, c, o, (tmatch_done (b2.proc b.id) c o).mp e2⟩

/-- C82: at every instant a node is locked in memory exactly if a call holds its lock. -/
theorem C82_locked_iff (h : TRun T μ who) {a : Addr} {n : Node} (hn : (μ T).heap[a]? = some n) : locked n.version = true ↔ ∃ i, (μ T).owner a = some i := by
  obtain ⟨g, φ, who', h1, -, -, h4⟩ := tso_refines h
  have hT := (h4 T (Nat.le_refl _)).2
  have := (facts_of h1).own a n (by rw [hT.heap]; exact hn)
  rw [hT.owner] at this
  exact this

/-- C82: a call that has returned or panicked holds no lock. -/
theorem C82_released (h : TRun T μ who) {i : Nat} (hi : ∀ c p w, (μ T).procs i ≠ .running c p w) (a : Addr) : (μ T).owner a ≠ some i := by
  obtain ⟨g, φ, who', h1, -, -, h4⟩ := tso_refines h
  have hT := (h4 T (Nat.le_refl _)).2
  rw [← hT.owner]
  refine C67_released h1 (fun c p w hp => ?_) a
  have := hT.proc i
  rw [hp] at this
  generalize hP : (μ T).procs i = P at this
  cases this <;> exact hi _ _ _ hP

/-- C82: no `Get` and no `Delete` panics. -/
theorem C82_no_panic (h : TRun T μ who) {i : Nat} {c : Call} (hc : (μ T).procs i = .crashed c) : ∃ k v, c = .put k v := by
  obtain ⟨g, φ, who', h1, -, -, h4⟩ := tso_refines h
  have := (h4 T (Nat.le_refl _)).2.proc i
  rw [hc] at this
  generalize hF : (φ (g T)).procs i = F at this
  cases this
  exact C67_no_panic h1 hF

/-- The node that a store in a buffer goes to (for a new node: the one that gets the pointer). -/
def _root_.Art.Item.at : Item → Addr
  | .store a _ => a
  | .link _ loc => loc.1

theorem bufIn_at {L : List Addr} {s : Sec} : ∀ {buf : List Item}, BufIn L s buf → ∀ x ∈ buf, x.at ∈ L
  | [], _, x, hx => absurd hx (by simp)
  | .store a y :: buf, h, x, hx => by
    rcases List.mem_cons.mp hx with rfl | hx
    · exact h.1
    · exact bufIn_at h.2.2 x hx
  | .link n loc :: buf, h, x, hx => by
    obtain ⟨h1, -, rfl, -⟩ := h
    rcases List.mem_cons.mp hx with rfl | hx
    · exact h1
    · exact absurd hx (by simp)

/-- C82: what is in a buffer are stores to nodes whose lock the call holds, so there are never stores of two calls to the same node under way. -/
theorem C82_exclusive (h : TRun T μ who) {i : Nat} {c : Call} {p : MProg (Option Bytes)} {s : Sec} {buf : List Item} (hp : (μ T).procs i = .running c p (.inside s buf)) :
    ∀ x ∈ buf, (μ T).owner x.at = some i := by
  obtain ⟨g, φ, who', h1, -, -, h4⟩ := tso_refines h
  have := (h4 T (Nat.le_refl _)).2.proc i
  rw [hp] at this
  generalize (φ (g T)).procs i = F at this
  cases this with
  | opened hL ht htl hb => exact fun x hx => (hL _).mpr (bufIn_at hb.buf x hx)
  | closing hL ht htl ha =>
    cases ha with
    | over => simp
    | late => simp
    | stored e1 =>
      intro x hx
      rw [List.mem_singleton] at hx
      subst hx
      exact (hL _).mpr e1

/-- C82: no critical section panics: its loads and stores are within the nodes, as the call sees them and when they reach memory. -/
theorem C82_sections (h : TRun T μ who) {i : Nat} {c : Call} {p : MProg (Option Bytes)} {s : Sec} {buf : List Item} (hp : (μ T).procs i = .running c p (.inside s buf)) :
    (∃ h', applyAll buf (μ T).heap = some h' ∧ ¬ s.Stuck h') ∧ ∀ x rest, buf = x :: rest → x.apply (μ T).heap ≠ none := by
  obtain ⟨g, φ, who', h1, -, -, h4⟩ := tso_refines h
  have hr := (h4 T (Nat.le_refl _)).2
  have hf := facts_of h1
  have key : ∃ h', applyAll buf (μ T).heap = some h' := by
    have := hr.proc i
    rw [hp] at this
    generalize hF : (φ (g T)).procs i = F at this
    cases this with
    | opened hL ht htl hb =>
      obtain ⟨g1, h', -, e2, -⟩ := hb.result hr hf hF hL
      rw [Option.bind_eq_some_iff] at e2
      obtain ⟨x, e2, -⟩ := e2
      exact ⟨x, e2⟩
    | closing hL ht htl ha =>
      cases ha with
      | over => exact ⟨_, rfl⟩
      | late => exact ⟨_, rfl⟩
      | stored e1 e2 e3 e4 e5 => exact ⟨_, by show (storeAt _ _ _).bind _ = _; rw [storeAt_of e4 e5]; rfl⟩
  obtain ⟨h', e⟩ := key
  refine ⟨⟨h', e, fun hst => ?_⟩, ?_⟩
  · obtain ⟨x, hx, hr'⟩ := hr.step hf (.secCrash hp e hst)
    have hm := hr'.proc i
    have hc : ((μ T).to i (μ T).heap (.crashed c)).procs i = .crashed c := TConf.to_self _ _ _ _
    rw [hc] at hm
    generalize hF : x.procs i = F at hm
    cases hm
    -- the run in small steps would have panicked within a critical section
    have := hr.proc i
    rw [hp] at this
    generalize hF' : (φ (g T)).procs i = F' at this
    cases this with
    | opened hL ht htl hb =>
      obtain ⟨g1, h2, e1, e2, -⟩ := hb.result hr hf hF' hL
      rw [e] at e2
      have e2 : s.run h' = some h2 := e2
      cases s with
      | done => exact hst
      | panic => cases e2
      | load a k =>
        have e2 : h'[a]?.bind _ = some h2 := e2
        rw [show h'[a]? = none from hst] at e2
        cases e2
      | store a x k =>
        have e2 : (storeAt a x h').bind _ = some h2 := e2
        rw [show storeAt a x h' = none from hst] at e2
        cases e2
      | link n loc =>
        have e2 : allocAt h' loc n = some h2 := e2
        rw [show allocAt h' loc n = none from hst] at e2
        cases e2
      | late loc r => exact hst
    | closing hL ht htl ha =>
      cases ha with
      | over => exact hst
      | late e1 e2 e3 e4 e5 e6 e7 =>
        cases e
        have := storeAt_of e4 e5
        rw [show storeAt _ _ (μ T).heap = none from hst] at this
        cases this
      | stored => exact hst
  · rintro x rest rfl hx
    have e : (x.apply (μ T).heap).bind (applyAll rest) = some h' := e
    rw [hx] at e
    cases e

/-- C82: when a call returns, its section is over and all its stores are in memory: the condition of the step `ret` is always met. -/
theorem C82_drained (h : TRun T μ who) {i : Nat} {c : Call} {o : Option Bytes} {w : Stage} (hp : (μ T).procs i = .running c (.ret o) w) : w.Over := by
  obtain ⟨g, φ, who', h1, -, -, h4⟩ := tso_refines h
  have hr := (h4 T (Nat.le_refl _)).2
  have hf := facts_of h1
  obtain ⟨cap, hcap⟩ := exists_cap hr.zero
  have := hr.proc i
  rw [hp] at this
  generalize hF : (φ (g T)).procs i = F at this
  cases this with
  | calm => trivial
  | reading =>
    obtain ⟨g', σ, who2, k1, -, -, k4⟩ := refines h1
    obtain ⟨-, a, v, k, m, e, -⟩ := (k4 (g T) (Nat.le_refl _)).2.running hF
    cases e
  | @opened _ _ t s buf h0 L hL ht htl hb =>
    have hnil : L = [] := ht cap hcap
    subst hnil
    have hbuf : buf = [] := by
      cases buf with
      | nil => rfl
      | cons x rest =>
        have := bufIn_at hb.buf x (by simp)
        simp at this
    subst hbuf
    obtain ⟨g1, h', -, e2, -⟩ := hb.result hr hf hF hL
    have hc := hb.code
    cases s with
    | done => trivial
    | panic => cases e2
    | load a k => exact absurd hc.1 (by simp)
    | store a x k => exact absurd hc.1 (by simp)
    | link n loc => exact absurd hc.1 (by simp)
    | late loc r => exact absurd hc.1 (by simp)
  | @closing _ _ s buf h0 L O hL ht htl ha =>
    have hnil : L = [] := ht cap hcap
    subst hnil
    cases ha with
    | over => trivial
    | late e1 => simp at e1
    | stored e1 => simp at e1

end

/-! ## Runs that can be computed -/

/-- What a call does next. -/
inductive TAct where
  | call (c : Call) (fuel : Nat)
  /-- the next instruction -/
  | go (b : Bool)
  /-- the oldest store reaches memory -/
  | flush

/-- The next instruction after a section. -/
def tafter (μ : TConf) (i : Nat) (c : Call) (s : Sec) : MProg (Option Bytes) → Option TConf
  | .unlock a k => match s.release, μ.heap[a]? with
    | some s', some n => some ((μ.to i (setVer μ.heap a (n.version + 2)) (.running c k (.inside s' []))).own a none)
    | _, _ => none
  | .unlockObsolete a k => match s, μ.heap[a]? with
    | .done, some n => some ((μ.to i (setVer μ.heap a (n.version + 3)) (.running c k (.inside .done []))).own a none)
    | _, _ => none
  | .ret o => match s with
    | .done => some (μ.to i μ.heap (.done c o))
    | _ => none
  | _ => none

/-- The next instruction of a section. -/
def tsec (μ : TConf) (i : Nat) (c : Call) (p : MProg (Option Bytes)) (s : Sec) (buf : List Item) : Option TConf :=
  match s with
  | .load a k => match applyAll buf μ.heap with
    | some h => match h[a]? with
      | some n => some (μ.to i μ.heap (.running c p (.inside (k n) buf)))
      | none => none
    | none => none
  | .store a x k => match applyAll buf μ.heap with
    | some h => if (storeAt a x h).isSome then some (μ.to i μ.heap (.running c p (.inside k (buf ++ [.store a x])))) else none
    | none => none
  | .link n loc => match applyAll buf μ.heap with
    | some h => if (allocAt h loc n).isSome then some (μ.to i μ.heap (.running c p (.inside .done (buf ++ [.link n loc])))) else none
    | none => none
  | s => match buf with
    | [] => tafter μ i c s p
    | _ => none

/-- The next instruction outside of a section. -/
def tcalm (μ : TConf) (i : Nat) (c : Call) (b : Bool) : MProg (Option Bytes) → Option TConf
  | .ret o => some (μ.to i μ.heap (.done c o))
  | .panic => some (μ.to i μ.heap (.crashed c))
  | .wait a k => match μ.heap[a]? with
    | some n => if locked n.version = false then some (μ.to i μ.heap (.running c (k n.version) .calm)) else none
    | none => none
  | .load a k => match μ.heap[a]? with
    | some n => some (μ.to i μ.heap (.running c (k n.version) .calm))
    | none => none
  | .cas a v k => match μ.heap[a]? with
    | some n => if n.version = v then some ((μ.to i (setVer μ.heap a (v + 2)) (.running c (k true) .calm)).own a (some i))
      else some (μ.to i μ.heap (.running c (k false) .calm))
    | none => none
  | .lock a k => match μ.heap[a]? with
    | some n => if locked n.version = false then
        if obsolete n.version = false then some ((μ.to i (setVer μ.heap a (n.version + 2)) (.running c (k true) .calm)).own a (some i))
        else none
      else none
    | none => none
  | .unlock a k => match μ.heap[a]? with
    | some n => some ((μ.to i (setVer μ.heap a (n.version + 2)) (.running c k .calm)).own a none)
    | none => none
  | .unlockObsolete a k => match μ.heap[a]? with
    | some n => some ((μ.to i (setVer μ.heap a (n.version + 3)) (.running c k .calm)).own a none)
    | none => none
  | .read a v k => match μ.heap[a]? with
    | some n => some (μ.to i μ.heap (.running c (.read a v k) (.reading n true)))
    | none => none
  | .readRoot k => match μ.heap[0]? with
    | some n => some (μ.to i μ.heap (.running c (k n.root) .calm))
    | none => none
  | .choose k => some (μ.to i μ.heap (.running c (k b) .calm))
  | .sect t k => some (μ.to i μ.heap (.running c k (.inside t.code [])))
  | .diverge => none

/-- A step of the call `i` that reads what is there. -/
def tact (μ : TConf) (i : Nat) : TAct → Option TConf
  | .call c fuel => match μ.procs i with
    | .idle => if c.Fits then some (μ.to i μ.heap (.running c (c.mprog fuel) .calm)) else none
    | _ => none
  | .go b => match μ.procs i with
    | .running c p .calm => tcalm μ i c b p
    | .running c (.read a _ k) (.reading _ _) => match μ.heap[a]? with
      | some m => some (μ.to i μ.heap (.running c (k m) .calm))
      | none => none
    | .running c p (.inside s buf) => tsec μ i c p s buf
    | _ => none
  | .flush => match μ.procs i with
    | .running c p (.inside s (x :: buf)) => match x.apply μ.heap with
      | some h => some (μ.to i h (.running c p (.inside s buf)))
      | none => none
    | _ => none

theorem tafter_step {μ μ' : TConf} {i : Nat} {c : Call} {s : Sec} {p : MProg (Option Bytes)} (hp : μ.procs i = .running c p (.inside s [])) (h : tafter μ i c s p = some μ') : TStep i μ μ' := by
  cases p with
  | unlock a k =>
    simp only [tafter] at h
    split at h
    next s' n h1 h2 => cases h; exact .unlockEnd hp h1 h2
    next => cases h
  | unlockObsolete a k =>
    simp only [tafter] at h
    split at h
    next n h2 => cases h; exact .unlockObsolete hp trivial h2
    next => cases h
  | ret o =>
    simp only [tafter] at h
    split at h
    next => cases h; exact .ret hp trivial
    next => cases h
  | _ => cases h

theorem tsec_step {μ μ' : TConf} {i : Nat} {c : Call} {s : Sec} {buf : List Item} {p : MProg (Option Bytes)} (hp : μ.procs i = .running c p (.inside s buf)) (h : tsec μ i c p s buf = some μ') :
    TStep i μ μ' := by
  cases s with
  | load a k =>
    simp only [tsec] at h
    split at h
    next h' h1 =>
      split at h
      next n h2 => cases h; exact .secLoad hp h1 h2
      next => cases h
    next => cases h
  | store a x k =>
    simp only [tsec] at h
    split at h
    next h' h1 =>
      split at h
      next h2 => cases h; exact .secStore hp h1 (by intro e; rw [e] at h2; cases h2)
      next => cases h
    next => cases h
  | link n loc =>
    simp only [tsec] at h
    split at h
    next h' h1 =>
      split at h
      next h2 => cases h; exact .secLink hp h1 (by intro e; rw [e] at h2; cases h2)
      next => cases h
    next => cases h
  | done =>
    cases buf with
    | nil => exact tafter_step hp h
    | cons x xs => cases h
  | panic =>
    cases buf with
    | nil => exact tafter_step hp h
    | cons x xs => cases h
  | late loc r =>
    cases buf with
    | nil => exact tafter_step hp h
    | cons x xs => cases h

theorem tcalm_step {μ μ' : TConf} {i : Nat} {c : Call} {b : Bool} {p : MProg (Option Bytes)} (hp : μ.procs i = .running c p .calm) (h : tcalm μ i c b p = some μ') : TStep i μ μ' := by
  cases p with
  | ret o => cases h; exact .ret hp trivial
  | panic => cases h; exact .crash hp (by simp) trivial
  | diverge => cases h
  | wait a k =>
    simp only [tcalm] at h
    split at h
    next n hn =>
      split at h
      next e => cases h; exact .wait hp hn e
      next => cases h
    next => cases h
  | load a k =>
    simp only [tcalm] at h
    split at h
    next n hn => cases h; exact .load hp hn
    next => cases h
  | cas a v k =>
    simp only [tcalm] at h
    split at h
    next n hn =>
      split at h
      next e => cases h; exact .cas hp hn e
      next e => cases h; exact .casFail hp hn e
    next => cases h
  | lock a k =>
    simp only [tcalm] at h
    split at h
    next n hn =>
      split at h
      next e =>
        split at h
        next e' => cases h; exact .lock hp hn e e'
        next => cases h
      next => cases h
    next => cases h
  | unlock a k =>
    simp only [tcalm] at h
    split at h
    next n hn => cases h; exact .unlock hp hn
    next => cases h
  | unlockObsolete a k =>
    simp only [tcalm] at h
    split at h
    next n hn => cases h; exact .unlockObsolete hp trivial hn
    next => cases h
  | read a v k =>
    simp only [tcalm] at h
    split at h
    next n hn => cases h; exact .readBegin hp hn
    next => cases h
  | readRoot k =>
    simp only [tcalm] at h
    split at h
    next n hn => cases h; exact .readRoot hp hn
    next => cases h
  | choose k => cases h; exact .choose b hp
  | sect t k => cases h; exact .enter hp

theorem tact_step {μ μ' : TConf} {i : Nat} {x : TAct} (h : tact μ i x = some μ') : TStep i μ μ' := by
  cases x with
  | call c fuel =>
    simp only [tact] at h
    split at h
    next hp =>
      split at h
      next e => cases h; exact .call c fuel hp e
      next => cases h
    next => cases h
  | go b =>
    simp only [tact] at h
    split at h
    next c p hp => exact tcalm_step hp h
    next c a v k n s hp =>
      split at h
      next m hm => cases h; exact .readEnd m hp hm rfl (fun _ e => e)
      next => cases h
    next c p s buf hp => exact tsec_step hp h
    next => cases h
  | flush =>
    simp only [tact] at h
    split at h
    next c p s x buf hp =>
      split at h
      next h' e => cases h; exact .flush hp e
      next => cases h
    next => cases h

/-- The state is reached by a run. -/
def TReached (x : TConf) : Prop := ∃ T μ who, TRun T μ who ∧ μ T = x

theorem TReached.init : TReached TConf.init := ⟨0, fun _ => TConf.init, fun _ => 0, ⟨rfl, by simp⟩, rfl⟩

theorem TReached.step {x y : TConf} {i : Nat} (h : TReached x) (hs : TStep i x y) : TReached y := by
  obtain ⟨T, μ, who, h1, h2⟩ := h
  refine ⟨T + 1, fun u => if u ≤ T then μ u else y, fun u => if u < T then who u else i, ⟨by simp [h1.init], ?_⟩, by simp⟩
  intro t ht
  by_cases e : t < T
  · have : t ≤ T := by omega
    have : t + 1 ≤ T := by omega
    simp only [*, if_true]
    exact h1.step t e
  · have : t = T := by omega
    subst this
    simp only [Nat.le_refl, if_true, Nat.lt_irrefl, if_false]
    rw [if_neg (by omega), h2]
    exact hs

/-- Finish the read or the section that the call is in the middle of. -/
def finish (i : Nat) : Nat → TConf → Option TConf
  | 0, μ => some μ
  | fuel + 1, μ => match μ.procs i with
    | .running _ _ (.reading _ _) => (tact μ i (.go false)).bind (finish i fuel)
    | .running _ _ (.inside _ (_ :: _)) => (tact μ i .flush).bind (finish i fuel)
    | .running _ _ (.inside (.load _ _) []) => (tact μ i (.go false)).bind (finish i fuel)
    | .running _ _ (.inside (.store _ _ _) []) => (tact μ i (.go false)).bind (finish i fuel)
    | .running _ _ (.inside (.link _ _) []) => (tact μ i (.go false)).bind (finish i fuel)
    | _ => some μ

theorem finish_reached {i : Nat} : ∀ (fuel : Nat) {μ μ' : TConf}, TReached μ → finish i fuel μ = some μ' → TReached μ'
  | 0, μ, μ', hr, h => by cases h; exact hr
  | fuel + 1, μ, μ', hr, h => by
    have one : ∀ {x}, (tact μ i x).bind (finish i fuel) = some μ' → TReached μ' := by
      intro x h
      rw [Option.bind_eq_some_iff] at h
      obtain ⟨y, h1, h2⟩ := h
      exact finish_reached fuel (hr.step (tact_step h1)) h2
    simp only [finish] at h
    split at h
    · exact one h
    · exact one h
    · exact one h
    · exact one h
    · exact one h
    · cases h; exact hr

/-- A schedule of large steps, done by the machine with store buffers: reads and sections are done without a break. -/
def texec : List (Nat × Act) → TConf → Option TConf
  | [], μ => some μ
  | (i, .call c fuel) :: xs, μ => (tact μ i (.call c fuel)).bind (texec xs)
  | (i, .go b) :: xs, μ => ((tact μ i (.go b)).bind (finish i 99)).bind (texec xs)

theorem texec_reached : ∀ {xs : List (Nat × Act)} {μ μ' : TConf}, TReached μ → texec xs μ = some μ' → TReached μ'
  | [], μ, μ', hr, h => by cases h; exact hr
  | (i, .call c fuel) :: xs, μ, μ', hr, h => by
    simp only [texec, Option.bind_eq_some_iff] at h
    obtain ⟨y, h1, h2⟩ := h
    exact texec_reached (hr.step (tact_step h1)) h2
  | (i, .go b) :: xs, μ, μ', hr, h => by
    simp only [texec, Option.bind_eq_some_iff] at h
    obtain ⟨y, ⟨z, h0, h1⟩, h2⟩ := h
    exact texec_reached (finish_reached 99 (hr.step (tact_step h0)) h1) h2

/-- Several steps of one call. -/
def tacts (i : Nat) : List TAct → TConf → Option TConf
  | [], μ => some μ
  | x :: xs, μ => (tact μ i x).bind (tacts i xs)

theorem tacts_reached {i : Nat} : ∀ {xs : List TAct} {μ μ' : TConf}, TReached μ → tacts i xs μ = some μ' → TReached μ'
  | [], μ, μ', hr, h => by cases h; exact hr
  | x :: xs, μ, μ', hr, h => by
    simp only [tacts, Option.bind_eq_some_iff] at h
    obtain ⟨y, h1, h2⟩ := h
    exact tacts_reached (hr.step (tact_step h1)) h2

/-- The call is in the middle of a read of the node 3. -/
def readingThird : TProc → Bool
  | .running _ (.read a _ _) (.reading _ _) => a == 3
  | _ => false

/-- How many stores of the call are in the buffer. -/
def buffered : TProc → Nat
  | .running _ _ (.inside _ buf) => buf.length
  | _ => 0

/-- The hypotheses of the theorems above are met by a run in which a `Get` is in the middle of reading a node while a `Put`, within its critical section, has stored to this node: one store has reached memory, one has not. -/
theorem C82_example : ∃ T μ who, TRun T μ who ∧ readingThird ((μ T).procs 5) = true ∧ buffered ((μ T).procs 3) = 1 ∧ ((μ T).procs 3).writing = true ∧ (μ T).owner 3 = some 3 := by
  have h : (((texec torn TConf.init).bind fun μ => (tacts 5 [.go false] μ).bind fun μ => tacts 3 [.go false, .go false, .go false, .go false, .flush] μ).map fun μ =>
      readingThird (μ.procs 5) && (buffered (μ.procs 3) == 1) && (μ.procs 3).writing && (μ.owner 3 == some 3)) = some true := by decide +kernel
  simp only [Option.map_eq_some_iff, Option.bind_eq_some_iff, Bool.and_eq_true, beq_iff_eq] at h
  obtain ⟨μ', ⟨μ1, h1, μ2, h2, h3⟩, ⟨⟨h4, h5⟩, h6⟩, h7⟩ := h
  obtain ⟨T, μ, who, g1, rfl⟩ := tacts_reached (tacts_reached (texec_reached TReached.init h1) h2) h3
  exact ⟨T, μ, who, g1, h4, h5, h6, h7⟩

/-- The `Put` of `C21_violated` panics on this machine too. -/
theorem C82_violated : ∃ T μ who c, TRun T μ who ∧ (μ T).procs 3 = .crashed c := by
  have h : ((texec unlucky TConf.init).map fun μ => match μ.procs 3 with | .crashed _ => true | _ => false) = some true := by decide +kernel
  simp only [Option.map_eq_some_iff] at h
  obtain ⟨μ', h1, h2⟩ := h
  obtain ⟨T, μ, who, g1, rfl⟩ := texec_reached TReached.init h1
  split at h2
  next c hc => exact ⟨T, μ, who, c, g1, hc⟩
  next => simp at h2

end Art.Props
