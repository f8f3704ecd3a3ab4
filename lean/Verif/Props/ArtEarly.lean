import Verif.Art.Early
import Verif.Props.ArtTso
import Verif.Props.ArtLive

/-!
# C85: the tree relies on loads being done in order

On the machine of `Verif.Art.Early` every run is linearizable as long as no version is loaded ahead of the read it validates; with such loads, as arm64 does them, `Get` and `Delete` can miss a key that is there all the time.
-/

set_option linter.unusedSimpArgs false

namespace Art.Props

open Surf Spec

/-! ## Without loads ahead -/

theorem pick_self {α : Type} {xs zs : List α} (h : Pick xs xs zs) : zs = xs := by
  apply List.ext_getElem?
  intro j
  exact (h j).elim id id

theorem _root_.Art.Between.self {n r : Node} (h : Between n n r) : r = n := by
  obtain ⟨h1, h2, h3, h4, h5, h6⟩ := h
  have e1 := h1.elim id id
  have e2 := h2.elim id id
  have e3 := h3.elim id id
  have e4 := pick_self h4
  have e5 := h5.elim id id
  have e6 : r.kids = n.kids := by
    generalize n.kids = k, r.kids = k'' at h6
    cases h6 with
    | n4 a b => rw [pick_self a, pick_self b]
    | n16 a b => rw [pick_self a, pick_self b]
    | n48 a b c => rw [pick_self a, pick_self b, c.elim id id]
    | n256 a => rw [pick_self a]
    | dummy a => rw [a.elim id id]
  cases r
  cases n
  dsimp only at *
  subst e1 e2 e3 e4 e5 e6
  rfl

theorem _root_.Art.Between.cap {n m r : Node} (h : Between n m r) : r.cap = m.cap := by
  have := h.kids
  unfold Node.cap
  generalize n.kids = k, m.kids = k', r.kids = k'' at this
  cases this <;> rfl

/-- The call with its read under way. -/
def liftRead : Proc → Option Node → FProc
  | .running c (.read a v k), some n => .running c (.read a v k) (.reading n true)
  | p, _ => p.lift

theorem liftRead_none (p : Proc) : liftRead p none = p.lift := by
  unfold liftRead
  split <;> simp_all

/-- The state as one of small steps. -/
def _root_.Art.EConf.lift (σ : EConf) : FConf := ⟨σ.base.heap, σ.base.owner, fun i => liftRead (σ.base.procs i) (σ.first i)⟩

theorem liftRead_done {p : Proc} {f : Option Node} {c : Call} {o : Option Bytes} : liftRead p f = .done c o ↔ p = .done c o := by
  unfold liftRead
  split
  · simp
  · cases p <;> simp [Proc.lift]

theorem liftRead_idle {p : Proc} {f : Option Node} : liftRead p f = .idle ↔ p = .idle := by
  unfold liftRead
  split
  · simp
  · cases p <;> simp [Proc.lift]

theorem liftRead_call {p : Proc} {f : Option Node} : (liftRead p f).plain.call = p.call := by
  unfold liftRead
  split
  · rfl
  · cases p <;> rfl

theorem elift_to (σ : EConf) (i : Nat) (h : Heap) (P : Proc) (f : Option Node) (e : Nat → Option (Addr × Nat)) (g : Nat → Option Node) (hg : ∀ j, g j = if j = i then f else σ.first j) :
    EConf.lift ⟨σ.base.to i h P, g, e⟩ = σ.lift.to i h (liftRead P f) := by
  unfold EConf.lift FConf.to Conf.to
  congr
  funext j
  dsimp only
  rw [hg j]
  by_cases ej : j = i <;> simp [ej]

/-- A step of this machine without loads ahead is some small steps of the machine of C67. -/
theorem estep_fsteps {σ σ' : EConf} {i : Nat} (he : ∀ j, σ.early j = none) (h : EStep false i σ σ') : FSteps i σ.lift σ'.lift ∧ ∀ j, σ'.early j = none := by
  have hl : ∀ {P}, σ.base.procs i = P → σ.lift.procs i = liftRead P (σ.first i) := fun e => by rw [← e]; rfl
  cases h with
  | ahead hw => cases hw
  | load _ h2 => rw [he i] at h2; cases h2
  | @look c a v k n h1 h2 h3 =>
    refine ⟨?_, he⟩
    have := FSteps.one (.readBegin (i := i) (φ := σ.lift) (by rw [hl h1, h2]; rfl) h3)
    refine (congrArg (FSteps i σ.lift) ?_).mp this
    unfold EConf.lift FConf.to
    congr
    funext j
    unfold put1
    by_cases ej : j = i
    · subst ej
      simp only [if_true]
      rw [h1]
      rfl
    · simp only [ej, if_false]
  | @read c a v k n m r h1 h2 h3 h4 =>
    refine ⟨?_, he⟩
    have := FSteps.one (.readEnd (i := i) (φ := σ.lift) r (by rw [hl h1, h2]; rfl) h3 h4.cap (fun _ e => by subst e; exact h4.self))
    refine (congrArg (FSteps i σ.lift) ?_).mp this
    rw [elift_to σ i _ _ none _ (put1 σ.first i none) (fun j => rfl)]
    congr 1
    rw [liftRead_none]
    rfl
  | @plain τ hs hf _ hr =>
    refine ⟨?_, he⟩
    have hl : ∀ {P}, σ.base.procs i = P → σ.lift.procs i = P.lift := fun e => by rw [hl e, hf, liftRead_none]
    have ht : ∀ (h : Heap) (P : Proc), EConf.lift ⟨σ.base.to i h P, σ.first, σ.early⟩ = σ.lift.to i h P.lift := by
      intro h P
      rw [elift_to σ i h P none _ _ (fun j => by split <;> simp_all), liftRead_none]
    have ho : ∀ (h : Heap) (P : Proc) (a : Addr) (o : Option Nat), EConf.lift ⟨(σ.base.to i h P).own a o, σ.first, σ.early⟩ = (σ.lift.to i h P.lift).own a o := by
      intro h P a o
      rw [← ht]
      rfl
    cases hs with
    | call c fuel hp e => rw [ht]; exact .one (.call c fuel (hl hp) e)
    | ret hp => rw [ht]; exact .one (.ret (hl hp))
    | crash hp e => rw [ht]; exact .one (.crash (hl hp) e)
    | wait hp hn e => rw [ht]; exact .one (.wait (hl hp) hn e)
    | load hp hn => rw [ht]; exact .one (.load (hl hp) hn)
    | cas hp hn e => rw [ho]; exact .one (.cas (hl hp) hn e)
    | casFail hp hn e => rw [ht]; exact .one (.casFail (hl hp) hn e)
    | lockFail hp hn e e' => rw [ht]; exact .one (.lockFail (hl hp) hn e e')
    | lock hp hn e e' => rw [ho]; exact .one (.lock (hl hp) hn e e')
    | unlock hp hn => rw [ho]; exact .one (.unlock (hl hp) hn)
    | @unlockObsolete c a k n hp hn =>
      rw [ho, setVer_eq_set hn]
      exact .one (.unlockObsolete n (hl hp) hn rfl)
    | read r hp => exact absurd hp (hr _ _ _ _)
    | readRoot hp hn => rw [ht]; exact .one (.readRoot (hl hp) hn)
    | choose b hp => rw [ht]; exact .one (.choose b (hl hp))
    | @write c f k hh hp hn =>
      have h1 := FSteps.one (.enter (i := i) (hl hp))
      have h2 := h1.tail (.commit (i := i) (h1 := hh) (FConf.to_self _ _ _ _) (by
        show f (overlay _ σ.base.heap σ.base.heap) = some hh
        rw [overlay_self]
        exact hn))
      have h3 := h2.tail (.settle (i := i) (FConf.to_self _ _ _ _))
      rw [to_to, to_to] at h3
      rw [ht]
      refine (congrArg (FSteps i σ.lift) ?_).mp h3
      congr 1
      exact overlay_twice _ _ _ _ (fun a => by
        simp only [Bool.and_eq_true]
        exact fun h => h.1)

section
variable {T : Nat} {σ : Nat → EConf} {who : Nat → Nat}

theorem erefines (h : ERun false T σ who) : (∀ j, (σ T).early j = none) ∧ ∃ (g : Nat → Nat) (φ : Nat → FConf) (who' : Nat → Nat), FRun (g T) φ who' ∧ ∀ t, t ≤ T → g t ≤ g T ∧ φ (g t) = (σ t).lift := by
  induction T with
  | zero =>
    refine ⟨by rw [h.init]; exact fun _ => rfl, fun _ => 0, fun _ => FConf.init, fun _ => 0, ⟨rfl, by simp⟩, fun t ht => ⟨Nat.le_refl _, ?_⟩⟩
    have : t = 0 := by omega
    subst this
    rw [h.init]
    rfl
  | succ T ih =>
    obtain ⟨h0, g, φ, who', h1, h4⟩ := ih ⟨h.init, fun t ht => h.step t (by omega)⟩
    obtain ⟨hx, hr⟩ := estep_fsteps h0 (h.step T (Nat.lt_succ_self _))
    rw [← (h4 T (Nat.le_refl _)).2] at hx
    obtain ⟨N, φ', w2, g1, g2, g3, g4, -⟩ := extend_steps h1 hx
    refine ⟨hr, fun t => if t ≤ T then g t else N, φ', w2, by simpa using g1, ?_⟩
    intro t ht
    by_cases e : t ≤ T
    · simp only [e, if_true]
      rw [if_neg (by omega), g3 _ (h4 t e).1]
      exact ⟨by have := (h4 t e).1; omega, (h4 t e).2⟩
    · have : t = T + 1 := by omega
      subst this
      simp only [e, if_false]
      exact ⟨Nat.le_refl _, g4⟩

/-- There is one order of calls – each one once; all those that have returned, with what they returned, and some of those that have begun – such that made one after the other on an empty store they
return the same; and no call is in this order before a call that returned before it began. -/
def Linearizable (T : Nat) (σ : Nat → EConf) : Prop := ∃ L : List Op,
    (L.map Op.id).Nodup ∧
    (∀ i c o, (σ T).base.procs i = .done c o → ⟨i, c, o⟩ ∈ L) ∧
    (∀ e ∈ L, ((σ T).base.procs e.id).call = some e.call ∧ ∀ c o, (σ T).base.procs e.id = .done c o → e.out = o) ∧
    L.Pairwise (fun a b => ¬ ∃ t, t ≤ T ∧ (σ t).base.procs a.id = .idle ∧ ∃ c o, (σ t).base.procs b.id = .done c o) ∧
    ∃ m, Legal Map.empty L m

/-- **C85, in order.** Every run in which no version is loaded ahead of the read it validates is linearizable, though reads may mix what the node was at two instants. -/
theorem C85_in_order (h : ERun false T σ who) : Linearizable T σ := by
  obtain ⟨-, g, φ, who', h1, h4⟩ := erefines h
  obtain ⟨L, a1, a2, a3, a4, m, a5, -⟩ := C67_linearizable h1
  have hT := (h4 T (Nat.le_refl _)).2
  rw [hT] at a2 a3
  refine ⟨L, a1, ?_, ?_, ?_, m, a5⟩
  · intro i c o hd
    exact a2 i c o (liftRead_done.mpr hd)
  · intro e he
    obtain ⟨b1, b2⟩ := a3 e he
    exact ⟨liftRead_call.symm.trans b1, fun c o hd => b2 c o (liftRead_done.mpr hd)⟩
  · refine a4.imp ?_
    rintro a b hno ⟨t, ht, e1, c, o, e2⟩
    obtain ⟨b1, b2⟩ := h4 t ht
    exact hno ⟨g t, b1, by rw [b2]; exact liftRead_idle.mpr e1, c, o, by rw [b2]; exact liftRead_done.mpr e2⟩

/-! ## With loads ahead -/

theorem legal_keeps (K : Bytes) : ∀ (L : List Op) (m m' : Map), (m K).isSome → (∀ e ∈ L, e.call ≠ .delete K) → Legal m L m' → ∀ e ∈ L, e.call = .get K → e.out.isSome := by
  intro L
  induction L with
  | nil => intro m m' _ _ _ e he; simp at he
  | cons x L ih =>
    rintro m m' hm hd ⟨h1, h2⟩ e he hc
    rcases List.mem_cons.mp he with rfl | he
    · rw [h1, hc]
      exact hm
    · refine ih _ m' ?_ (fun y hy => hd y (by simp [hy])) h2 e he hc
      have := hd x (by simp)
      cases hx : x.call with
      | get k => exact hm
      | put k v =>
        show (if K = k then some v else m K).isSome
        by_cases e : K = k <;> simp [e, hm]
      | delete k =>
        rw [hx] at this
        show (if K = k then none else m K).isSome
        have : K ≠ k := fun e => this (by rw [e])
        simp [this, hm]

theorem legal_split : ∀ (A B : List Op) (m m' : Map), Legal m (A ++ B) m' → ∃ m1, Legal m A m1 ∧ Legal m1 B m' := by
  intro A
  induction A with
  | nil => intro B m m' h; exact ⟨m, rfl, h⟩
  | cons x A ih =>
    rintro B m m' ⟨h1, h2⟩
    obtain ⟨m1, b1, b2⟩ := ih B _ m' h2
    exact ⟨m1, ⟨h1, b1⟩, b2⟩

/-- A run is not linearizable if a `Get` that began after a `Put` of the same key had returned finds nothing, and this key is not deleted. -/
theorem not_linearizable {K v : Bytes} {i j t : Nat} {o : Option Bytes} (hij : i ≠ j) (ht : t ≤ T) (h1 : (σ t).base.procs i = .done (.put K v) o) (h2 : (σ t).base.procs j = .idle) (h1' : (σ T).base.procs i = .done (.put K v) o)
    (h3 : (σ T).base.procs j = .done (.get K) none) (h4 : ∀ i, ((σ T).base.procs i).call ≠ some (.delete K)) : ¬ Linearizable T σ := by
  rintro ⟨L, a1, a2, a3, a4, m, a5⟩
  have m1 := a2 _ _ _ h1'
  have m2 := a2 _ _ _ h3
  obtain ⟨L1, L2, hL⟩ := List.append_of_mem m1
  have hd : ∀ e ∈ L, e.call ≠ .delete K := fun e he hc => h4 e.id (by rw [(a3 e he).1, hc])
  have m3 : (⟨j, .get K, none⟩ : Op) ∈ L2 := by
    rw [hL] at m2 a4
    rcases List.mem_append.mp m2 with hm | hm
    · exact absurd ⟨t, ht, h2, _, _, h1⟩ ((List.pairwise_append.mp a4).2.2 _ hm ⟨i, .put K v, o⟩ (by simp))
    · rcases List.mem_cons.mp hm with e | hm
      · exact absurd (congrArg Op.id e).symm hij
      · exact hm
  rw [hL] at a5
  obtain ⟨m1, -, b2⟩ := legal_split L1 _ _ _ a5
  have := legal_keeps K L2 _ m (by
    show (if K = K then some v else m1 K).isSome
    simp) (fun e he => hd e (by rw [hL]; simp [he])) b2.2 _ m3 rfl
  simp at this

end

/-! ## Runs by a schedule -/

/-- There is a run that goes through the states `M` in this order and ends with `y`. -/
def EReached (w : Bool) (M : List EConf) (y : EConf) : Prop := ∃ (ts : List Nat) (T : Nat) (σ : Nat → EConf) (who : Nat → Nat), ERun w T σ who ∧ (∀ t ∈ ts, t ≤ T) ∧ ts.Pairwise (· ≤ ·) ∧ ts.map σ = M ∧ σ T = y

theorem EReached.step {w : Bool} {M : List EConf} {y z : EConf} {i : Nat} (h : EReached w M y) (hs : EStep w i y z) : EReached w M z := by
  obtain ⟨ts, T, σ, who, h1, h2, h2', h3, h4⟩ := h
  refine ⟨ts, T + 1, fun u => if u ≤ T then σ u else z, fun u => if u < T then who u else i, ⟨by simp [h1.init], ?_⟩, fun t ht => Nat.le_succ_of_le (h2 t ht), h2', ?_, by simp⟩
  · intro u hu
    by_cases e : u < T
    · have : u ≤ T := by omega
      have : u + 1 ≤ T := by omega
      simp only [*, if_true]
      exact h1.step u e
    · have : u = T := by omega
      subst this
      simp only [Nat.le_refl, if_true, Nat.lt_irrefl, if_false]
      rw [if_neg (by omega), h4]
      exact hs
  · rw [← h3]
    apply List.map_congr_left
    intro t ht
    simp [h2 t ht]

theorem EReached.here {w : Bool} {M : List EConf} {y : EConf} (h : EReached w M y) : EReached w (M ++ [y]) y := by
  obtain ⟨ts, T, σ, who, h1, h2, h2', h3, h4⟩ := h
  refine ⟨ts ++ [T], T, σ, who, h1, ?_, ?_, by simp [h3, h4], h4⟩
  · intro t ht
    rcases List.mem_append.mp ht with ht | ht
    · exact h2 t ht
    · simp at ht
      omega
  · rw [List.pairwise_append]
    exact ⟨h2', by simp, fun a ha b hb => by simp at hb; subst hb; exact h2 a ha⟩

theorem EReached.init {w : Bool} : EReached w [] EConf.init := ⟨[], 0, fun _ => EConf.init, fun _ => 0, ⟨rfl, by simp⟩, by simp, by simp, rfl, rfl⟩

/-- What the schedule says: begin a call, make a step (a read sees one state of the node), or do one half of a read, or load a version ahead, or use it. -/
inductive EAct where
  | call (c : Call)
  | go
  | look
  | ahead
  | mixed
  | mixedPrefix
  | use

/-- A read of a node4 that finds the keys as they were at first, and all else as it is later. -/
def mix (n m : Node) : Option Node := match n.kids, m.kids with
  | .n4 k _, .n4 _ c' => some { m with kids := .n4 k c' }
  | _, _ => none

theorem mix_between {n m r : Node} (h : mix n m = some r) : Between n m r := by
  unfold mix at h
  split at h
  next k c k' c' h1 h2 =>
    cases h
    refine ⟨.inr rfl, .inr rfl, .inr rfl, fun _ => .inr rfl, .inr rfl, ?_⟩
    rw [h1, h2]
    exact .n4 (fun _ => .inl rfl) (fun _ => .inr rfl)
  next => simp at h

/-- A read of a node4 that finds the length of the prefix as it was at first, and all else as it is later. -/
def mixPrefix (n m : Node) : Option Node := match n.kids, m.kids with
  | .n4 _ _, .n4 _ _ => some { m with prefixLen := n.prefixLen }
  | _, _ => none

theorem mixPrefix_between {n m r : Node} (h : mixPrefix n m = some r) : Between n m r := by
  unfold mixPrefix at h
  split at h
  next k c k' c' h1 h2 =>
    cases h
    refine ⟨.inr rfl, .inr rfl, .inl rfl, fun _ => .inr rfl, .inr rfl, ?_⟩
    rw [h1, h2]
    exact .n4 (fun _ => .inr rfl) (fun _ => .inr rfl)
  next => simp at h

theorem between_refl (n : Node) : Between n n n := by
  refine ⟨.inl rfl, .inl rfl, .inl rfl, fun _ => .inl rfl, .inl rfl, ?_⟩
  cases n.kids with
  | n4 => exact .n4 (fun _ => .inl rfl) (fun _ => .inl rfl)
  | n16 => exact .n16 (fun _ => .inl rfl) (fun _ => .inl rfl)
  | n48 => exact .n48 (fun _ => .inl rfl) (fun _ => .inl rfl) (.inl rfl)
  | n256 => exact .n256 (fun _ => .inl rfl)
  | dummy => exact .dummy (.inl rfl)

/-- The call is about to read. -/
def reads : Proc → Bool
  | .running _ (.read _ _ _) => true
  | _ => false

/-- A step of the schedule. -/
def eact (w : Bool) (σ : EConf) (i : Nat) (x : EAct) : Option EConf :=
  match x, σ.base.procs i with
  | .call c, .idle => if c.Fits ∧ σ.first i = none ∧ σ.early i = none then some ⟨σ.base.to i σ.base.heap (.running c (c.prog 9)), σ.first, σ.early⟩ else none
  | .go, .running c (.read a _ k) => if σ.first i = none then (σ.base.heap[a]?).map fun n => ⟨σ.base.to i σ.base.heap (.running c (k n)), put1 (put1 σ.first i (some n)) i none, σ.early⟩ else none
  | .go, p => if reads p = false ∧ σ.first i = none ∧ σ.early i = none then (act σ.base i (.go true)).map fun τ => ⟨τ, σ.first, σ.early⟩ else none
  | .look, .running _ (.read a _ _) => if σ.first i = none then (σ.base.heap[a]?).map fun n => ⟨σ.base, put1 σ.first i (some n), σ.early⟩ else none
  | .ahead, .running _ (.read a _ _) => if w = true ∧ σ.early i = none then (σ.base.heap[a]?).map fun n => ⟨σ.base, σ.first, put1 σ.early i (some (a, n.version))⟩ else none
  | .mixed, .running c (.read a _ k) => do
    let n ← σ.first i
    let m ← σ.base.heap[a]?
    let r ← mix n m
    return ⟨σ.base.to i σ.base.heap (.running c (k r)), put1 σ.first i none, σ.early⟩
  | .mixedPrefix, .running c (.read a _ k) => do
    let n ← σ.first i
    let m ← σ.base.heap[a]?
    let r ← mixPrefix n m
    return ⟨σ.base.to i σ.base.heap (.running c (k r)), put1 σ.first i none, σ.early⟩
  | .use, .running c (.load a k) => match σ.early i with
    | some (b, v) => if b = a then some ⟨σ.base.to i σ.base.heap (.running c (k v)), σ.first, put1 σ.early i none⟩ else none
    | none => none
  | _, _ => none

theorem eact_reached {w : Bool} {x : List EConf} {σ σ' : EConf} {i : Nat} {a : EAct} (hr : EReached w x σ) (h : eact w σ i a = some σ') : EReached w x σ' := by
  unfold eact at h
  split at h
  next c hp =>
    split at h
    next e =>
      cases h
      exact hr.step (.plain (.call c 9 hp e.1) e.2.1 e.2.2 (by rw [hp]; simp))
    next => simp at h
  next c a v k hp =>
    split at h
    next e =>
      simp only [Option.map_eq_some_iff] at h
      obtain ⟨n, hn, rfl⟩ := h
      have h1 := hr.step (.look hp e hn)
      exact h1.step (.read (i := i) (n := n) (m := n) hp (by simp [put1]) hn (between_refl n))
    next => simp at h
  next p hp =>
    split at h
    next e =>
      simp only [Option.map_eq_some_iff] at h
      obtain ⟨τ, ht, rfl⟩ := h
      exact hr.step (.plain (act_step ht) e.2.1 e.2.2 (fun c a v k hk => by rw [hk] at e; exact absurd e.1 (by simp [reads])))
    next => simp at h
  next c a v k hp =>
    split at h
    next e =>
      simp only [Option.map_eq_some_iff] at h
      obtain ⟨n, hn, rfl⟩ := h
      exact hr.step (.look hp e hn)
    next => simp at h
  next c a v k hp =>
    split at h
    next e =>
      simp only [Option.map_eq_some_iff] at h
      obtain ⟨n, hn, rfl⟩ := h
      exact hr.step (.ahead e.1 hp e.2 hn)
    next => simp at h
  next c a v k hp =>
    simp only [Option.bind_eq_bind, Option.bind_eq_some_iff, Option.pure_def, Option.some.injEq] at h
    obtain ⟨n, h1, m, h2, r, h3, rfl⟩ := h
    exact hr.step (.read hp h1 h2 (mix_between h3))
  next c a v k hp =>
    simp only [Option.bind_eq_bind, Option.bind_eq_some_iff, Option.pure_def, Option.some.injEq] at h
    obtain ⟨n, h1, m, h2, r, h3, rfl⟩ := h
    exact hr.step (.read hp h1 h2 (mixPrefix_between h3))
  next c a k hp =>
    split at h
    next b v he =>
      split at h
      next e =>
        subst e
        cases h
        exact hr.step (.load hp he)
      next => simp at h
    next => simp at h
  next => simp at h

/-- All steps of a schedule. -/
def eexec (w : Bool) : List (Nat × EAct) → EConf → Option EConf
  | [], σ => some σ
  | (i, a) :: xs, σ => (eact w σ i a).bind (eexec w xs)

theorem eexec_reached {w : Bool} : ∀ (xs : List (Nat × EAct)) {x : List EConf} {σ σ' : EConf}, EReached w x σ → eexec w xs σ = some σ' → EReached w x σ' := by
  intro xs
  induction xs with
  | nil => intro x σ σ' hr h; cases h; exact hr
  | cons a xs ih =>
    intro x σ σ' hr h
    simp only [eexec, Option.bind_eq_some_iff] at h
    obtain ⟨σ1, h1, h2⟩ := h
    exact ih (eact_reached hr h1) h2

/-- `n` steps of the call `i`. -/
def egoes (i n : Nat) : List (Nat × EAct) := List.replicate n (i, .go)

/-- `Put` of the keys "a", "b", "c" with the values 1, 2, 3 -/
def earlySetup : List (Nat × EAct) :=
  [(0, .call (.put [97] [1]))] ++ egoes 0 16 ++ [(1, .call (.put [98] [2]))] ++ egoes 1 16 ++ [(2, .call (.put [99] [3]))] ++ egoes 2 16

/-- `Get("b")` comes to the read of the children of the root; it loads the version ahead and looks at the keys; `Delete("a")` moves "b" and "c" to the first two places; `Get` finds the child of "c" in the second place, where
the keys had "b". -/
def earlyGet : List (Nat × EAct) := [(3, .call (.get [98]))] ++ egoes 3 6 ++ [(3, .look), (3, .ahead)] ++ [(4, .call (.delete [97]))] ++ egoes 4 13 ++ [(3, .mixed), (3, .use)] ++ egoes 3 1

/-- `Delete("c")` does the same; it sees that there are two children, and looks for "c" in the first two keys as they were before. -/
def earlyDelete : List (Nat × EAct) := [(3, .call (.delete [99]))] ++ egoes 3 6 ++ [(3, .look), (3, .ahead)] ++ [(4, .call (.delete [97]))] ++ egoes 4 13 ++ [(3, .mixed), (3, .use)] ++ egoes 3 1

theorem eact_other {w : Bool} {σ σ' : EConf} {i j : Nat} {a : EAct} (h : eact w σ i a = some σ') (hj : j ≠ i) : σ'.base.procs j = σ.base.procs j := by
  have ht : ∀ (h : Heap) (P : Proc), (σ.base.to i h P).procs j = σ.base.procs j := fun h P => by simp [Conf.to, hj]
  unfold eact at h
  split at h
  · split at h
    · cases h; exact ht _ _
    · simp at h
  · split at h
    · simp only [Option.map_eq_some_iff] at h
      obtain ⟨n, hn, rfl⟩ := h
      exact ht _ _
    · simp at h
  · split at h
    · simp only [Option.map_eq_some_iff] at h
      obtain ⟨τ, h1, rfl⟩ := h
      exact exec_other [(i, .go true)] (by simp [exec, h1]) (by simpa using fun e => hj e.symm)
    · simp at h
  · split at h
    · simp only [Option.map_eq_some_iff] at h
      obtain ⟨n, hn, rfl⟩ := h
      rfl
    · simp at h
  · split at h
    · simp only [Option.map_eq_some_iff] at h
      obtain ⟨n, hn, rfl⟩ := h
      rfl
    · simp at h
  · simp only [Option.bind_eq_bind, Option.bind_eq_some_iff, Option.pure_def, Option.some.injEq] at h
    obtain ⟨n, h1, m, h2, r, h3, rfl⟩ := h
    exact ht _ _
  · simp only [Option.bind_eq_bind, Option.bind_eq_some_iff, Option.pure_def, Option.some.injEq] at h
    obtain ⟨n, h1, m, h2, r, h3, rfl⟩ := h
    exact ht _ _
  · split at h
    · split at h
      · cases h; exact ht _ _
      · simp at h
    · simp at h
  · simp at h

theorem eexec_other {w : Bool} {j : Nat} : ∀ (xs : List (Nat × EAct)) {σ σ' : EConf}, eexec w xs σ = some σ' → (∀ x ∈ xs, x.1 ≠ j) → σ'.base.procs j = σ.base.procs j := by
  intro xs
  induction xs with
  | nil => intro σ σ' h _; cases h; rfl
  | cons x xs ih =>
    intro σ σ' h hx
    simp only [eexec, Option.bind_eq_some_iff] at h
    obtain ⟨σ1, h1, h2⟩ := h
    rw [ih h2 (fun y hy => hx y (by simp [hy])), eact_other h1 (fun e => hx x (by simp) e.symm)]

/-- What call `i` is and whether it has returned. -/
def seenAt (σ : EConf) (i : Nat) : Option (Call × Option (Option Bytes)) := match σ.base.procs i with
  | .idle => none
  | .running c _ => some (c, none)
  | .done c o => some (c, some o)
  | .crashed c => some (c, none)

theorem eseen_idle {σ : EConf} {i : Nat} (h : seenAt σ i = none) : σ.base.procs i = .idle := by
  unfold seenAt at h
  split at h <;> simp_all

theorem eseen_done {σ : EConf} {i : Nat} {c : Call} {o : Option Bytes} (h : seenAt σ i = some (c, some o)) : σ.base.procs i = .done c o := by
  unfold seenAt at h
  split at h <;> simp_all

theorem eseen_call {σ : EConf} {i : Nat} {c : Call} (h : (σ.base.procs i).call = some c) : (seenAt σ i).map (·.1) = some c := by
  unfold seenAt
  cases e : σ.base.procs i <;> rw [e] at h <;> simp_all [Proc.call]

set_option synthInstance.maxSize 2000 in
theorem early_get : (eexec true earlySetup EConf.init).map (fun x => ((List.range 5).map (seenAt x), (eexec true earlyGet x).map fun y => (List.range 5).map (seenAt y))) =
    some ([some (.put [97] [1], some none), some (.put [98] [2], some none), some (.put [99] [3], some none), none, none],
      some [some (.put [97] [1], some none), some (.put [98] [2], some none), some (.put [99] [3], some none), some (.get [98], some none), some (.delete [97], some none)]) := by
  decide +kernel

/-- **C85, Get.** With versions loaded ahead of reads there is a run in which `Put("b")` returns, then `Get("b")` begins and finds nothing, though "b" is never deleted: the run is not linearizable. -/
theorem C85_get_misses : ∃ t T σ who, ERun true T σ who ∧ t ≤ T ∧ (σ t).base.procs 1 = .done (.put [98] [2]) none ∧ (σ t).base.procs 3 = .idle ∧ (σ T).base.procs 3 = .done (.get [98]) none ∧
    (∀ i, ((σ T).base.procs i).call ≠ some (.delete [98])) ∧ ¬ Linearizable T σ := by
  have h := early_get
  simp only [Option.map_eq_some_iff, Prod.mk.injEq] at h
  obtain ⟨x, hx, h1, y, hy, h2⟩ := h
  have l1 := fun i (hi : i < 5) => congrArg (fun l => l[i]?) h1
  have l2 := fun i (hi : i < 5) => congrArg (fun l => l[i]?) h2
  simp only [List.getElem?_map] at l1 l2
  obtain ⟨ts, T, σ, who, g1, g2, -, g3, g4⟩ := eexec_reached earlyGet (eexec_reached earlySetup EReached.init hx).here hy
  obtain ⟨t, rfl⟩ : ∃ t, ts = [t] := by
    match ts, g3 with
    | [t], _ => exact ⟨t, rfl⟩
  have g2 := g2 t (by simp)
  have g3 : σ t = x := by simpa using g3
  have p1 : x.base.procs 1 = .done (.put [98] [2]) none := eseen_done (by simpa using l1 1 (by decide))
  have p2 : x.base.procs 3 = .idle := eseen_idle (by simpa using l1 3 (by decide))
  have p3 : y.base.procs 3 = .done (.get [98]) none := eseen_done (by simpa using l2 3 (by decide))
  have p4 : y.base.procs 1 = .done (.put [98] [2]) none := eseen_done (by simpa using l2 1 (by decide))
  have p5 : ∀ i, (y.base.procs i).call ≠ some (.delete [98]) := by
    intro i hc
    have hc := eseen_call hc
    match i with
    | 0 => have := l2 0 (by decide); simp at this; rw [this] at hc; simp at hc
    | 1 => have := l2 1 (by decide); simp at this; rw [this] at hc; simp at hc
    | 2 => have := l2 2 (by decide); simp at this; rw [this] at hc; simp at hc
    | 3 => have := l2 3 (by decide); simp at this; rw [this] at hc; simp at hc
    | 4 => have := l2 4 (by decide); simp at this; rw [this] at hc; simp at hc
    | i + 5 =>
      have e : y.base.procs (i + 5) = .idle := by
        rw [eexec_other earlyGet hy (by simp [earlyGet, egoes]), eexec_other earlySetup hx (by simp [earlySetup, egoes])]
        rfl
      unfold seenAt at hc
      rw [e] at hc
      simp at hc
  subst g3 g4
  exact ⟨t, T, σ, who, g1, g2, p1, p2, p3, p5, not_linearizable (i := 1) (j := 3) (by decide) g2 p1 p2 p4 p3 p5⟩

/-- `Put` of the keys "cxy1" and "cxy2": below the root there is a node with the prefix "xy". -/
def prefixSetup : List (Nat × EAct) := [(0, .call (.put [99, 120, 121, 49] [1]))] ++ egoes 0 16 ++ [(1, .call (.put [99, 120, 121, 50] [2]))] ++ egoes 1 15

/-- `Get("cxy1")` comes to the prefix; it loads the version ahead and looks at the length of the prefix, which is 2; `Put("cz")` makes a node above this one and shortens the prefix to "y"; `Get` finds that "y" is not the beginning of "xy1". -/
def prefixGet : List (Nat × EAct) :=
  [(2, .call (.get [99, 120, 121, 49]))] ++ egoes 2 10 ++ [(2, .look), (2, .ahead)] ++ [(3, .call (.put [99, 122] [3]))] ++ egoes 3 21 ++ [(2, .mixedPrefix), (2, .use)] ++ egoes 2 1

set_option synthInstance.maxSize 2000 in
theorem prefix_get : (eexec true prefixSetup EConf.init).map (fun x => ((List.range 4).map (seenAt x), (eexec true prefixGet x).map fun y => (List.range 4).map (seenAt y))) =
    some ([some (.put [99, 120, 121, 49] [1], some none), some (.put [99, 120, 121, 50] [2], some none), none, none],
      some [some (.put [99, 120, 121, 49] [1], some none), some (.put [99, 120, 121, 50] [2], some none), some (.get [99, 120, 121, 49], some none), some (.put [99, 122] [3], some none)]) := by
  decide +kernel

/-- **C85, Get beside Put.** It does not take a `Delete`: there is a run with three calls of `Put` and one of `Get`, in which `Get("cxy1")` begins after `Put("cxy1")` has returned, and finds nothing. -/
theorem C85_get_misses_puts : ∃ t T σ who, ERun true T σ who ∧ t ≤ T ∧ (σ t).base.procs 0 = .done (.put [99, 120, 121, 49] [1]) none ∧ (σ t).base.procs 2 = .idle ∧
    (σ T).base.procs 2 = .done (.get [99, 120, 121, 49]) none ∧ (∀ i k, ((σ T).base.procs i).call ≠ some (.delete k)) ∧ ¬ Linearizable T σ := by
  have h := prefix_get
  simp only [Option.map_eq_some_iff, Prod.mk.injEq] at h
  obtain ⟨x, hx, h1, y, hy, h2⟩ := h
  have l1 := fun i (hi : i < 4) => congrArg (fun l => l[i]?) h1
  have l2 := fun i (hi : i < 4) => congrArg (fun l => l[i]?) h2
  simp only [List.getElem?_map] at l1 l2
  obtain ⟨ts, T, σ, who, g1, g2, -, g3, g4⟩ := eexec_reached prefixGet (eexec_reached prefixSetup EReached.init hx).here hy
  obtain ⟨t, rfl⟩ : ∃ t, ts = [t] := by
    match ts, g3 with
    | [t], _ => exact ⟨t, rfl⟩
  have g2 := g2 t (by simp)
  have g3 : σ t = x := by simpa using g3
  have p1 : x.base.procs 0 = .done (.put [99, 120, 121, 49] [1]) none := eseen_done (by simpa using l1 0 (by decide))
  have p2 : x.base.procs 2 = .idle := eseen_idle (by simpa using l1 2 (by decide))
  have p3 : y.base.procs 2 = .done (.get [99, 120, 121, 49]) none := eseen_done (by simpa using l2 2 (by decide))
  have p4 : y.base.procs 0 = .done (.put [99, 120, 121, 49] [1]) none := eseen_done (by simpa using l2 0 (by decide))
  have p5 : ∀ i k, (y.base.procs i).call ≠ some (.delete k) := by
    intro i k hc
    have hc := eseen_call hc
    match i with
    | 0 => have := l2 0 (by decide); simp at this; rw [this] at hc; simp at hc
    | 1 => have := l2 1 (by decide); simp at this; rw [this] at hc; simp at hc
    | 2 => have := l2 2 (by decide); simp at this; rw [this] at hc; simp at hc
    | 3 => have := l2 3 (by decide); simp at this; rw [this] at hc; simp at hc
    | i + 4 =>
      have e : y.base.procs (i + 4) = .idle := by
        rw [eexec_other prefixGet hy (by simp [prefixGet, egoes]), eexec_other prefixSetup hx (by simp [prefixSetup, egoes])]
        rfl
      unfold seenAt at hc
      rw [e] at hc
      simp at hc
  subst g3 g4
  exact ⟨t, T, σ, who, g1, g2, p1, p2, p3, p5, not_linearizable (i := 0) (j := 2) (by decide) g2 p1 p2 p4 p3 (fun i => p5 i _)⟩

set_option synthInstance.maxSize 2000 in
theorem early_delete : (eexec true earlySetup EConf.init).map (fun x => ((List.range 6).map (seenAt x), (eexec true earlyDelete x).map fun y => ((List.range 6).map (seenAt y),
      (eexec true ([(5, .call (.get [99]))] ++ egoes 5 9) y).map fun z => (List.range 6).map (seenAt z)))) =
    some ([some (.put [97] [1], some none), some (.put [98] [2], some none), some (.put [99] [3], some none), none, none, none],
      some ([some (.put [97] [1], some none), some (.put [98] [2], some none), some (.put [99] [3], some none), some (.delete [99], some none), some (.delete [97], some none), none],
      some [some (.put [97] [1], some none), some (.put [98] [2], some none), some (.put [99] [3], some none), some (.delete [99], some none), some (.delete [97], some none), some (.get [99], some (some [3]))])) := by
  decide +kernel

/-- **C85, Delete.** In the same way a `Delete("c")` that begins when `Put("c")` has returned can return without having deleted anything: a `Get("c")` that begins then finds the value. No other call puts "c". -/
theorem C85_delete_misses : ∃ t1 t2 T σ who, ERun true T σ who ∧ t1 ≤ t2 ∧ t2 ≤ T ∧ (σ t1).base.procs 2 = .done (.put [99] [3]) none ∧ (σ t1).base.procs 3 = .idle ∧
    (σ t2).base.procs 3 = .done (.delete [99]) none ∧ (σ t2).base.procs 5 = .idle ∧ (σ T).base.procs 5 = .done (.get [99]) (some [3]) ∧
    ∀ i v, ((σ T).base.procs i).call = some (.put [99] v) → i = 2 := by
  have h := early_delete
  simp only [Option.map_eq_some_iff, Prod.mk.injEq] at h
  obtain ⟨x, hx, h1, y, hy, h2, z, hz, h3⟩ := h
  have l1 := fun i (_ : i < 6) => congrArg (fun l => l[i]?) h1
  have l2 := fun i (_ : i < 6) => congrArg (fun l => l[i]?) h2
  have l3 := fun i (_ : i < 6) => congrArg (fun l => l[i]?) h3
  simp only [List.getElem?_map] at l1 l2 l3
  obtain ⟨ts, T, σ, who, g1, g2, g2', g3, g4⟩ := eexec_reached _ (eexec_reached earlyDelete (eexec_reached earlySetup EReached.init hx).here hy).here hz
  obtain ⟨t1, t2, rfl⟩ : ∃ t1 t2, ts = [t1, t2] := by
    match ts, g3 with
    | [t1, t2], _ => exact ⟨t1, t2, rfl⟩
  have e1 : t2 ≤ T := g2 t2 (by simp)
  have e2 : t1 ≤ t2 := by simpa using g2'
  have g3 : σ t1 = x ∧ σ t2 = y := by simpa using g3
  obtain ⟨rfl, rfl⟩ := g3
  subst g4
  refine ⟨t1, t2, T, σ, who, g1, e2, e1, eseen_done (by simpa using l1 2 (by decide)), eseen_idle (by simpa using l1 3 (by decide)), eseen_done (by simpa using l2 3 (by decide)), eseen_idle (by simpa using l2 5 (by decide)),
    eseen_done (by simpa using l3 5 (by decide)), fun i v hc => ?_⟩
  have hc := eseen_call hc
  match i with
  | 0 => have := l3 0 (by decide); simp at this; rw [this] at hc; simp at hc
  | 1 => have := l3 1 (by decide); simp at this; rw [this] at hc; simp at hc
  | 2 => rfl
  | 3 => have := l3 3 (by decide); simp at this; rw [this] at hc; simp at hc
  | 4 => have := l3 4 (by decide); simp at this; rw [this] at hc; simp at hc
  | 5 => have := l3 5 (by decide); simp at this; rw [this] at hc; simp at hc
  | i + 6 =>
    have e : (σ T).base.procs (i + 6) = .idle := by
      rw [eexec_other _ hz (by simp [egoes]), eexec_other earlyDelete hy (by simp [earlyDelete, egoes]), eexec_other earlySetup hx (by simp [earlySetup, egoes])]
      rfl
    unfold seenAt at hc
    rw [e] at hc
    simp at hc

/-- The same without loads ahead: `Get("b")` finds the child of "c" in the same way, then that the version has changed, and starts again. -/
def inOrder : List (Nat × EAct) := earlySetup ++ [(3, .call (.get [98]))] ++ egoes 3 6 ++ [(3, .look)] ++ [(4, .call (.delete [97]))] ++ egoes 4 13 ++ [(3, .mixed)] ++ egoes 3 10

/-- The hypotheses of `C85_in_order` are met by a run in which a read mixes two states of a node. -/
theorem C85_example : ∃ T σ who, ERun false T σ who ∧ (σ T).base.procs 3 = .done (.get [98]) (some [2]) := by
  have h : (eexec false inOrder EConf.init).map (fun x => seenAt x 3) = some (some (.get [98], some (some [2]))) := by decide +kernel
  simp only [Option.map_eq_some_iff] at h
  obtain ⟨x, h1, h2⟩ := h
  obtain ⟨-, T, σ, who, g1, -, -, -, g2⟩ := eexec_reached inOrder EReached.init h1
  exact ⟨T, σ, who, g1, by rw [g2]; exact eseen_done h2⟩

end Art.Props
