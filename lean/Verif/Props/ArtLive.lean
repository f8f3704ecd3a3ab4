import Verif.Props.ArtTime

/-!
# Progress of the system: C68

A call that is alone in changing the tree returns (C58). Two `Put`s, however, can keep each other from returning for ever.
-/

set_option linter.unusedSimpArgs false

namespace Art.Props

open Surf Spec

/-- Steps of the program of the call `i`, from a heap and locks to others. -/
inductive Go (i : Nat) : Heap → (Addr → Option Nat) → Prog (Option Bytes) → Heap → (Addr → Option Nat) → Prog (Option Bytes) → Prop
  | refl {h o p} : Go i h o p h o p
  | choose {h o k h' o' p'} (b : Bool) : Go i h o (k b) h' o' p' → Go i h o (.choose k) h' o' p'
  | readRoot {h o k h' o' p' n} : h[0]? = some n → Go i h o (k n.root) h' o' p' → Go i h o (.readRoot k) h' o' p'
  | wait {h o a k h' o' p' n} : h[a]? = some n → locked n.version = false → Go i h o (k n.version) h' o' p' → Go i h o (.wait a k) h' o' p'
  | load {h o a k h' o' p' n} : h[a]? = some n → Go i h o (k n.version) h' o' p' → Go i h o (.load a k) h' o' p'
  | read {h o a v k h' o' p' n} : h[a]? = some n → Go i h o (k n) h' o' p' → Go i h o (.read a v k) h' o' p'
  | cas {h o a v k h' o' p' n} : h[a]? = some n → n.version = v → Go i (setVer h a (v + 2)) (upd o a (some i)) (k true) h' o' p' → Go i h o (.cas a v k) h' o' p'
  | casFail {h o a v k h' o' p' n} : h[a]? = some n → n.version ≠ v → Go i h o (k false) h' o' p' → Go i h o (.cas a v k) h' o' p'
  | unlock {h o a k h' o' p' n} : h[a]? = some n → Go i (setVer h a (n.version + 2)) (upd o a none) k h' o' p' → Go i h o (.unlock a k) h' o' p'

/-- A `Put` that splits the prefix of the node 2. -/
def rivalA : Call := .put [7, 7, 9] [4]
/-- A `Put` that inserts a leaf into the node 2. -/
def rivalB : Call := .put [7, 7, 7, 7, 7, 9] [4]

/-- The tree of the keys 777778 and 77777777771, with versions `v` of the root and `w` of the node below. -/
def twoNodes (v w : Nat) : Heap :=
  [{ kids := .dummy (some (.node 1)) },
   { version := v, numChildren := 1, kids := .n4 [7, 0, 0, 0] [some (.node 2), none, none, none] },
   { version := w, numChildren := 2, prefixLen := 4, pre := [7, 7, 7, 7, 0, 0, 0, 0],
     kids := .n4 [8, 7, 0, 0] [some (.leaf (newLeaf (sevens 5 8) [1])), some (.leaf (newLeaf (sevens 10 1) [2])), none, none] }]

theorem rivalA_prog (n : Nat) : rivalA.prog n = (put [7, 7, 9] [4] n).bind fun _ => .ret none := rfl

/-- The `Put` that splits reads its way to the node 2, then comes to lock the root; the lock of the node 2 cannot be taken any more. -/
theorem goA (v w fuel : Nat) (hv : locked v = false) (hv' : obsolete v = false) (hw : locked w = false) (hw' : obsolete w = false) :
    ∃ p p2, (∀ o, Go 3 (twoNodes v w) o (rivalA.prog (fuel + 9)) (twoNodes v w) o p) ∧
      (∀ o, Go 3 (twoNodes v (w + 2)) o p (twoNodes (v + 2) (w + 2)) (upd o 1 (some 3)) p2) ∧
      ∀ o, Go 3 (twoNodes (v + 2) (w + 2)) o p2 (twoNodes (v + 4) (w + 2)) (upd o 1 none) (rivalA.prog (fuel + 8)) := by
  refine ⟨?p, ?p2, ?h1, ?h2, ?h3⟩
  case h1 =>
    intro o
    apply Go.choose true
    apply Go.readRoot rfl
    apply Go.wait rfl rfl
    apply Go.wait rfl hv
    dsimp only
    rw [hv']
    apply Go.read rfl
    apply Go.read rfl
    apply Go.read rfl
    apply Go.read rfl
    apply Go.read rfl
    apply Go.load rfl
    dsimp only
    rw [if_neg (fun h => h rfl)]
    apply Go.load rfl
    apply Go.wait rfl hw
    dsimp only
    rw [hw']
    apply Go.read rfl
    apply Go.read rfl
    apply Go.read rfl
    show Go _ _ _ (Prog.cas 1 v _) _ _ _
    exact .refl
  case h2 =>
    intro o
    refine Go.cas (h := twoNodes v (w + 2)) (a := 1) (v := v) rfl rfl ?_
    show Go _ _ _ (Prog.cas 2 w _) _ _ _
    refine Go.casFail (h := twoNodes (v + 2) (w + 2)) (a := 2) (v := w) rfl (by simp) ?_
    show Go _ _ _ (Prog.unlock 1 _) _ _ _
    exact .refl
  case h3 =>
    intro o
    rw [rivalA_prog]
    have key : ∀ P : Prog Unit, Go 3 (twoNodes (v + 2) (w + 2)) o (Prog.unlock 1 (((Prog.ret false).bind fun x => match x with | true => Prog.ret () | false => P).bind fun _ => Prog.ret none)) (twoNodes (v + 4) (w + 2)) (upd o 1 none) (P.bind fun _ => Prog.ret none) := by
      intro P
      have hn : (twoNodes (v + 2) (w + 2))[1]? = some { version := v + 2, numChildren := 1, kids := .n4 [7, 0, 0, 0] [some (.node 2), none, none, none] } := rfl
      refine Go.unlock hn ?_
      have hh : setVer (twoNodes (v + 2) (w + 2)) 1 (v + 2 + 2) = twoNodes (v + 4) (w + 2) := rfl
      rw [hh]
      exact .refl
    exact key (put [7, 7, 9] [4] (fuel + 8))

theorem rivalB_prog (n : Nat) : rivalB.prog n = (put [7, 7, 7, 7, 7, 9] [4] n).bind fun _ => .ret none := rfl

theorem goB (v w fuel : Nat) (hv : locked v = false) (hv' : obsolete v = false) (hw : locked w = false) (hw' : obsolete w = false) :
    ∃ q q2 q3, (∀ o, Go 5 (twoNodes v w) o (rivalB.prog (fuel + 9)) (twoNodes v w) o q) ∧
      (∀ o, Go 5 (twoNodes v w) o q (twoNodes v (w + 2)) (upd o 2 (some 5)) q2) ∧
      (∀ o, Go 5 (twoNodes (v + 2) (w + 2)) o q2 (twoNodes (v + 2) (w + 2)) o q3) ∧
      ∀ o, Go 5 (twoNodes (v + 4) (w + 2)) o q3 (twoNodes (v + 4) (w + 4)) (upd o 2 none) (rivalB.prog (fuel + 8)) := by
  refine ⟨?p, ?p2, ?p3, ?h1, ?h2, ?h3, ?h4⟩
  case h1 =>
    intro o
    apply Go.choose true
    apply Go.readRoot rfl
    apply Go.wait rfl rfl
    apply Go.wait rfl hv
    dsimp only
    rw [hv']
    apply Go.read rfl
    apply Go.read rfl
    apply Go.read rfl
    apply Go.read rfl
    apply Go.read rfl
    apply Go.load rfl
    dsimp only
    rw [if_neg (fun h => h rfl)]
    apply Go.load rfl
    apply Go.wait rfl hw
    dsimp only
    rw [hw']
    apply Go.read rfl
    apply Go.read rfl
    apply Go.read rfl
    apply Go.read rfl
    apply Go.read rfl
    apply Go.load rfl
    dsimp only
    rw [if_neg (fun h => h rfl)]
    apply Go.read rfl
    show Go _ _ _ (Prog.cas 2 w _) _ _ _
    exact .refl
  case h2 =>
    intro o
    refine Go.cas (h := twoNodes v w) (a := 2) (v := w) rfl rfl ?_
    show Go _ _ _ (Prog.load 1 _) _ _ _
    exact .refl
  case h3 =>
    intro o
    have hn : (twoNodes (v + 2) (w + 2))[1]? = some { version := v + 2, numChildren := 1, kids := .n4 [7, 0, 0, 0] [some (.node 2), none, none, none] } := rfl
    refine Go.load hn ?_
    dsimp only
    rw [if_pos (by simp)]
    show Go _ _ _ (Prog.unlock 2 _) _ _ _
    exact .refl
  case h4 =>
    intro o
    rw [rivalB_prog]
    have key : ∀ P : Prog Unit, Go 5 (twoNodes (v + 4) (w + 2)) o (Prog.unlock 2 (((Prog.ret false).bind fun x => match x with | true => Prog.ret () | false => P).bind fun _ => Prog.ret none)) (twoNodes (v + 4) (w + 4)) (upd o 2 none) (P.bind fun _ => Prog.ret none) := by
      intro P
      have hn : (twoNodes (v + 4) (w + 2))[2]? = some { version := w + 2, numChildren := 2, prefixLen := 4, pre := [7, 7, 7, 7, 0, 0, 0, 0], kids := .n4 [8, 7, 0, 0] [some (.leaf (newLeaf (sevens 5 8) [1])), some (.leaf (newLeaf (sevens 10 1) [2])), none, none] } := rfl
      refine Go.unlock hn ?_
      have hh : setVer (twoNodes (v + 4) (w + 2)) 2 (w + 2 + 2) = twoNodes (v + 4) (w + 4) := rfl
      rw [hh]
      exact .refl
    exact key (put [7, 7, 7, 7, 7, 9] [4] (fuel + 8))

theorem steps_last (who : Nat → Nat) (i t d : Nat) : steps who i t (d + 1) = steps who i t d + (if who (t + d) = i then 1 else 0) := by
  unfold steps
  rw [List.range_succ, List.filter_append, List.length_append]
  by_cases e : who (t + d) = i <;> simp [e]

theorem steps_congr {who who' : Nat → Nat} {i t d : Nat} (h : ∀ e, e < d → who' (t + e) = who (t + e)) : steps who' i t d = steps who i t d := by
  unfold steps
  congr 1
  apply List.filter_congr
  intro e he
  rw [h e (List.mem_range.mp he)]

/-- There is a run that from the state `S` on consists of `a` steps of the call 3 and `b` of the call 5, and leads to `x`. -/
def Duel (S : Conf) (a b : Nat) (x : Conf) : Prop :=
  ∃ t d σ who, Run (t + d) σ who ∧ σ t = S ∧ σ (t + d) = x ∧ (∀ u, t ≤ u → u < t + d → who u = 3 ∨ who u = 5) ∧ steps who 3 t d = a ∧ steps who 5 t d = b

theorem Duel.step {S x y : Conf} {a b i : Nat} (h : Duel S a b x) (hi : i = 3 ∨ i = 5) (hs : Step i x y) :
    Duel S (a + if i = 3 then 1 else 0) (b + if i = 5 then 1 else 0) y := by
  obtain ⟨t, d, σ, who, h1, h2, h3, h4, h5, h6⟩ := h
  obtain ⟨σ', who', g1, g2, g3, g4, g5⟩ := Run.extend h1 (by rw [h3]; exact hs)
  refine ⟨t, d + 1, σ', who', g1, ?_, g3, ?_, ?_, ?_⟩
  · rw [g2 t (by omega), h2]
  · intro u hu hu'
    by_cases e : u < t + d
    · rw [g4 u e]
      exact h4 u hu e
    · rw [show u = t + d by omega, g5]
      exact hi
  · rw [steps_last, steps_congr (fun e he => g4 (t + e) (by omega)), g5, h5]
  · rw [steps_last, steps_congr (fun e he => g4 (t + e) (by omega)), g5, h6]

/-- The state in which the two `Put`s are at `p` and `q`. -/
def rivals (base : Nat → Proc) (h : Heap) (o : Addr → Option Nat) (p q : Prog (Option Bytes)) : Conf :=
  ⟨h, o, fun j => if j = 3 then .running rivalA p else if j = 5 then .running rivalB q else base j⟩

theorem rivals_to3 {base h o p q h' p'} : (rivals base h o p q).to 3 h' (.running rivalA p') = rivals base h' o p' q := by
  simp only [rivals, Conf.to, Conf.mk.injEq, true_and]
  funext j
  by_cases e : j = 3 <;> simp [e]

theorem rivals_to5 {base h o p q h' q'} : (rivals base h o p q).to 5 h' (.running rivalB q') = rivals base h' o p q' := by
  simp only [rivals, Conf.to, Conf.mk.injEq, true_and]
  funext j
  by_cases e : j = 5
  · simp [e]
  · simp [e]

theorem Go.duel {i : Nat} (hi : i = 3 ∨ i = 5) {h o p h' o' p'} (g : Go i h o p h' o' p') : ∀ {S a b} {x : Conf} {c}, Duel S a b x → x.heap = h → x.owner = o →
    x.procs i = .running c p → ∃ n, (h ≠ h' → 0 < n) ∧ Duel S (a + if i = 3 then n else 0) (b + if i = 5 then n else 0) ⟨h', o', fun j => if j = i then .running c p' else x.procs j⟩ := by
  have more : ∀ {S a b} {x y : Conf} {c} {h h' : Heap} {o o' : Addr → Option Nat} {p p' : Prog (Option Bytes)}, Duel S a b x → Step i x y → y.heap = h → y.owner = o →
      y.procs i = .running c p → (∀ j, j ≠ i → y.procs j = x.procs j) →
      (∀ {S a b} {x : Conf} {c}, Duel S a b x → x.heap = h → x.owner = o → x.procs i = .running c p →
        ∃ n, (h ≠ h' → 0 < n) ∧ Duel S (a + if i = 3 then n else 0) (b + if i = 5 then n else 0) ⟨h', o', fun j => if j = i then .running c p' else x.procs j⟩) →
      ∀ (g0 : Heap), ∃ n, (g0 ≠ h' → 0 < n) ∧ Duel S (a + if i = 3 then n else 0) (b + if i = 5 then n else 0) ⟨h', o', fun j => if j = i then .running c p' else x.procs j⟩ := by
    intro S a b x y c h h' o o' p p' hd hs e1 e2 e3 e4 ih g0
    obtain ⟨n, -, h2⟩ := ih (hd.step hi hs) e1 e2 e3
    refine ⟨n + 1, fun _ => by omega, ?_⟩
    have e : (fun j => if j = i then Proc.running c p' else y.procs j) = fun j => if j = i then .running c p' else x.procs j := by
      funext j
      by_cases e : j = i
      · simp [e]
      · simp [e, e4 j e]
    rw [e] at h2
    rcases hi with rfl | rfl <;> simp at h2 ⊢
    · rwa [show a + (n + 1) = a + 1 + n by omega]
    · rwa [show b + (n + 1) = b + 1 + n by omega]
  have to_i : ∀ (x : Conf) h p, (x.to i h p).procs i = p := by intro x h p; simp [Conf.to]
  have to_j : ∀ (x : Conf) h p j, j ≠ i → (x.to i h p).procs j = x.procs j := by intro x h p j hj; simp [Conf.to, hj]
  induction g with
  | @refl h o p =>
    intro S a b x c hd e1 e2 e3
    refine ⟨0, fun e => absurd rfl e, ?_⟩
    have e : (fun j => if j = i then Proc.running c p else x.procs j) = x.procs := by
      funext j
      by_cases e : j = i
      · rw [if_pos e, e, e3]
      · rw [if_neg e]
    rw [e, ← e1, ← e2]
    simpa using hd
  | choose b _ ih => exact fun hd e1 e2 e3 => more hd (.choose b e3) e1 e2 (to_i ..) (to_j _ _ _) ih _
  | readRoot hn _ ih => exact fun hd e1 e2 e3 => more hd (.readRoot e3 (e1 ▸ hn)) e1 e2 (to_i ..) (to_j _ _ _) ih _
  | wait hn hl _ ih => exact fun hd e1 e2 e3 => more hd (.wait e3 (e1 ▸ hn) hl) e1 e2 (to_i ..) (to_j _ _ _) ih _
  | load hn _ ih => exact fun hd e1 e2 e3 => more hd (.load e3 (e1 ▸ hn)) e1 e2 (to_i ..) (to_j _ _ _) ih _
  | read hn _ ih => exact fun hd e1 e2 e3 => more hd (.read _ e3 (e1 ▸ hn) rfl (fun _ => rfl)) e1 e2 (to_i ..) (to_j _ _ _) ih _
  | @cas h _ a v k _ _ _ _ hn hv _ ih =>
    intro S _ _ x c hd e1 e2 e3
    exact more hd (.cas e3 (e1 ▸ hn) hv) (by rw [← e1]; rfl) (by rw [← e2]; rfl) (to_i x (setVer x.heap a (v + 2)) _) (to_j x (setVer x.heap a (v + 2)) _) ih _
  | casFail hn hv _ ih => exact fun hd e1 e2 e3 => more hd (.casFail e3 (e1 ▸ hn) hv) e1 e2 (to_i ..) (to_j _ _ _) ih _
  | @unlock h _ a k _ _ _ n hn _ ih =>
    intro S _ _ x c hd e1 e2 e3
    exact more hd (.unlock e3 (e1 ▸ hn)) (by rw [← e1]; rfl) (by rw [← e2]; rfl) (to_i x (setVer x.heap a (n.version + 2)) _) (to_j x (setVer x.heap a (n.version + 2)) _) ih _

theorem Go.duelA {h o p h' o' p'} (g : Go 3 h o p h' o' p') {S a b base q} (hd : Duel S a b (rivals base h o p q)) :
    ∃ n, (h ≠ h' → 0 < n) ∧ Duel S (a + n) b (rivals base h' o' p' q) := by
  obtain ⟨n, h1, h2⟩ := g.duel (.inl rfl) hd rfl rfl (c := rivalA) rfl
  refine ⟨n, h1, ?_⟩
  have := rivals_to3 (base := base) (h := h) (o := o') (p := p) (q := q) (h' := h') (p' := p')
  rw [← this]
  simp at h2
  exact h2

theorem Go.duelB {h o q h' o' q'} (g : Go 5 h o q h' o' q') {S a b base p} (hd : Duel S a b (rivals base h o p q)) :
    ∃ n, (h ≠ h' → 0 < n) ∧ Duel S a (b + n) (rivals base h' o' p q') := by
  obtain ⟨n, h1, h2⟩ := g.duel (.inr rfl) hd rfl rfl (c := rivalB) rfl
  refine ⟨n, h1, ?_⟩
  have := rivals_to5 (base := base) (h := h) (o := o') (p := p) (q := q) (h' := h') (q' := q')
  rw [← this]
  simp at h2
  exact h2

/-- A round: both calls start again, without having changed the tree. -/
theorem duel_round {S a b base} {o : Addr → Option Nat} {v w : Nat} (hv : v % 4 = 0) (hw : w % 4 = 0) {m n : Nat}
    (hd : Duel S a b (rivals base (twoNodes v w) o (rivalA.prog (m + 9)) (rivalB.prog (n + 9)))) :
    ∃ a' b' o', a < a' ∧ b < b' ∧ Duel S a' b' (rivals base (twoNodes (v + 4) (w + 4)) o' (rivalA.prog (m + 8)) (rivalB.prog (n + 8))) := by
  have lk : ∀ u, u % 4 = 0 → locked u = false ∧ obsolete u = false := by
    intro u hu
    simp only [locked, obsolete, beq_eq_false_iff_ne, ne_eq]
    omega
  obtain ⟨p, p2, p1, p3, p4⟩ := goA v w m (lk v hv).1 (lk v hv).2 (lk w hw).1 (lk w hw).2
  obtain ⟨q, q2, q3, q1, q4, q5, q6⟩ := goB v w n (lk v hv).1 (lk v hv).2 (lk w hw).1 (lk w hw).2
  obtain ⟨n1, -, d1⟩ := (p1 _).duelA hd
  obtain ⟨n2, -, d2⟩ := (q1 _).duelB d1
  obtain ⟨n3, f3, d3⟩ := (q4 _).duelB d2
  obtain ⟨n4, f4, d4⟩ := (p3 _).duelA d3
  obtain ⟨n5, -, d5⟩ := (q5 _).duelB d4
  obtain ⟨n6, -, d6⟩ := (p4 _).duelA d5
  obtain ⟨n7, -, d7⟩ := (q6 _).duelB d6
  have f3 := f3 (by simp [twoNodes])
  have f4 := f4 (by simp [twoNodes])
  exact ⟨_, _, _, by omega, by omega, d7⟩

theorem duel_rounds {S base} {o : Addr → Option Nat} {v w : Nat} (hv : v % 4 = 0) (hw : w % 4 = 0) {m n : Nat} : ∀ (r : Nat) {a b : Nat}
    (_ : Duel S a b (rivals base (twoNodes v w) o (rivalA.prog (m + r + 8)) (rivalB.prog (n + r + 8)))),
    ∃ a' b' o', a + r ≤ a' ∧ b + r ≤ b' ∧ Duel S a' b' (rivals base (twoNodes (v + 4 * r) (w + 4 * r)) o' (rivalA.prog (m + 8)) (rivalB.prog (n + 8))) := by
  intro r
  induction r generalizing o v w with
  | zero => exact fun hd => ⟨_, _, _, Nat.le_refl _, Nat.le_refl _, hd⟩
  | succ r ih =>
    intro a b hd
    obtain ⟨a1, b1, o1, h1, h2, h3⟩ := duel_round (m := m + r) (n := n + r) hv hw hd
    obtain ⟨a2, b2, o2, g1, g2, g3⟩ := ih (v := v + 4) (w := w + 4) (by omega) (by omega) h3
    refine ⟨a2, b2, o2, by omega, by omega, ?_⟩
    rwa [show v + 4 * (r + 1) = v + 4 + 4 * r by omega, show w + 4 * (r + 1) = w + 4 + 4 * r by omega]

/-- Two `Put`s, one after the other: a root, below it a node with the prefix 7777. -/
def ground : List (Nat × Act) :=
  [(0, .call (.put (sevens 5 8) [1]) 9)] ++ goes 0 16 ++ [(1, .call (.put (sevens 10 1) [2]) 9)] ++ goes 1 15

theorem exec_other {j : Nat} : ∀ (xs : List (Nat × Act)) {σ σ' : Conf}, exec xs σ = some σ' → (∀ x, x ∈ xs → x.1 ≠ j) → σ'.procs j = σ.procs j := by
  intro xs
  induction xs with
  | nil => intro σ σ' h _; rw [← Option.some.inj h]
  | cons x xs ih =>
    intro σ σ' h hj
    simp only [exec, Option.bind_eq_some_iff] at h
    obtain ⟨y, h1, h2⟩ := h
    rw [ih h2 (fun z hz => hj z (List.mem_cons_of_mem _ hz)), (act_step h1).other (fun e => hj x List.mem_cons_self e.symm)]

/-- After the two `Put`s of `ground` the two others begin. -/
theorem ground_duel (m n : Nat) : ∃ base o, (∀ j c p, base j ≠ .running c p) ∧
    Duel (rivals base (twoNodes 8 0) o (rivalA.prog m) (rivalB.prog n)) 0 0 (rivals base (twoNodes 8 0) o (rivalA.prog m) (rivalB.prog n)) := by
  have h : ((exec ground Conf.init).map fun σ => decide (σ.heap = twoNodes 8 0) && (σ.returned 0 none && σ.returned 1 none)) = some true := by decide +kernel
  simp only [Option.map_eq_some_iff, Bool.and_eq_true] at h
  obtain ⟨σ', h1, h2, h3, h4⟩ := h
  have h2 := of_decide_eq_true h2
  have hi : ∀ j, 2 ≤ j → σ'.procs j = .idle := by
    intro j hj
    rw [exec_other (j := j) ground h1]
    · rfl
    · intro x hx
      simp only [ground, goes, List.mem_append, List.mem_singleton, List.mem_replicate] at hx
      rcases hx with ((rfl | ⟨-, rfl⟩) | rfl) | ⟨-, rfl⟩ <;> simp <;> omega
  obtain ⟨σ, who, g3, g4⟩ := exec_run h1
  refine ⟨σ'.procs, σ'.owner, ?_, ?_⟩
  · intro j c p hp
    by_cases e : 2 ≤ j
    · rw [hi j e] at hp
      cases hp
    · have : j = 0 ∨ j = 1 := by omega
      rcases this with rfl | rfl
      · simp [Conf.returned, hp] at h3
      · simp [Conf.returned, hp] at h4
  · obtain ⟨σ2, who2, k1, k2, k3, -⟩ := Run.extend g3 (.call (i := 3) rivalA m (by rw [g4]; exact hi 3 (by omega)) ⟨by decide, by decide⟩)
    obtain ⟨σ3, who3, l1, l2, l3, -⟩ := Run.extend k1 (.call (i := 5) rivalB n (by rw [k3, to_procs, g4]; exact hi 5 (by omega)) ⟨by decide, by decide⟩)
    have e : σ3 (ground.length + 1 + 1) = rivals σ'.procs (twoNodes 8 0) σ'.owner (rivalA.prog m) (rivalB.prog n) := by
      rw [l3, k3, g4]
      simp only [rivals, Conf.to, Conf.mk.injEq, true_and, h2]
      funext j
      by_cases e : j = 5
      · simp [e]
      · simp [e]
    refine ⟨ground.length + 1 + 1, 0, σ3, who3, l1, e, e, fun u _ _ => by omega, ?_, ?_⟩ <;> simp [steps]

/-- Two `Put`s, alone, make as many steps as one likes, and are then both at the beginning, with nothing but two version numbers of the tree changed, and no lock taken. -/
theorem C68_livelock (N : Nat) : ∃ t d σ who, Run (t + d) σ who ∧ (σ t).heap = twoNodes 8 0 ∧ (∀ j c p, (σ t).procs j = .running c p → j = 3 ∨ j = 5) ∧
    (σ t).procs 3 = .running rivalA (rivalA.prog (N + 8)) ∧ (σ t).procs 5 = .running rivalB (rivalB.prog (N + 8)) ∧
    (∀ u, t ≤ u → u < t + d → who u = 3 ∨ who u = 5) ∧ N ≤ steps who 3 t d ∧ N ≤ steps who 5 t d ∧
    (σ (t + d)).heap = twoNodes (8 + 4 * N) (4 * N) ∧ (σ (t + d)).procs 3 = .running rivalA (rivalA.prog 8) ∧ (σ (t + d)).procs 5 = .running rivalB (rivalB.prog 8) := by
  obtain ⟨base, o, h1, h2⟩ := ground_duel (N + 8) (N + 8)
  have h2' := h2
  rw [show N + 8 = 0 + N + 8 by omega] at h2'
  obtain ⟨a, b, o', h3, h4, t, d, σ, who, g1, g2, g3, g4, g5, g6⟩ := duel_rounds (m := 0) (n := 0) (by omega) (by omega) N h2'
  rw [show 0 + N + 8 = N + 8 by omega] at g2
  refine ⟨t, d, σ, who, g1, by rw [g2]; rfl, ?_, by rw [g2]; rfl, by rw [g2]; rfl, g4, by omega, by omega, by rw [g3]; simp only [rivals, Nat.zero_add], by rw [g3]; rfl, by rw [g3]; rfl⟩
  intro j c p hj
  rw [g2] at hj
  by_contra hne
  rw [not_or] at hne
  simp only [rivals, hne.1, hne.2, if_false] at hj
  exact h1 j c p hj

/-- C68 is violated: no bound on the number of steps, however it depends on the heap and the calls, makes one of two `Put`s return. -/
theorem C68_violated : ¬∃ M : Heap → Call → Call → Nat, ∀ {T : Nat} {σ : Nat → Conf} {who : Nat → Nat}, Run T σ who → ∀ {t d i j fuel : Nat} {c c' : Call}, t + d ≤ T → Quiet (σ t).heap → i ≠ j →
    (σ t).procs i = .running c (c.prog fuel) → (σ t).procs j = .running c' (c'.prog fuel) → M (σ t).heap c c' ≤ fuel →
    (∀ k c p, (σ t).procs k = .running c p → k = i ∨ k = j) → (∀ u, t ≤ u → u < t + d → who u = i ∨ who u = j) → M (σ t).heap c c' ≤ steps who i t d → M (σ t).heap c c' ≤ steps who j t d →
    (∃ o, (σ (t + d)).procs i = .done c o) ∨ ∃ o, (σ (t + d)).procs j = .done c' o := by
  rintro ⟨M, hM⟩
  obtain ⟨t, d, σ, who, h1, h2, h3, h4, h5, h6, h7, h8, h9, h10, h11⟩ := C68_livelock (M (twoNodes 8 0) rivalA rivalB)
  have hq : Quiet (σ t).heap := by
    rw [h2]
    intro a n hn
    have : ∀ n ∈ twoNodes 8 0, locked n.version = false := by decide
    exact this n (List.mem_of_getElem? hn)
  have := hM h1 (Nat.le_refl _) hq (by decide) h4 h5 (by rw [h2]; omega) h3 h6 (by rw [h2]; exact h7) (by rw [h2]; exact h8)
  rw [h10, h11] at this
  rcases this with ⟨o, h⟩ | ⟨o, h⟩ <;> cases h

/-- C68, what does hold: a call that begins when no lock is taken, and during which no other calls but `Get`s make steps, has returned after a number of steps that depends on the heap and the call alone. The full
statement, with any other calls, is refuted above. -/
theorem C68_progress_partial : ∃ M : Heap → Call → Nat, ∀ {T : Nat} {σ : Nat → Conf} {who : Nat → Nat}, Run T σ who → ∀ {t d i fuel : Nat} {c : Call}, t + d ≤ T → Quiet (σ t).heap →
    (σ t).procs i = .running c (c.prog fuel) → M (σ t).heap c ≤ fuel → ((∀ k, c ≠ .delete k) ∨ ∃ o h', c.Returns (σ t).heap o h') →
    (∀ u, t ≤ u → u < t + d → who u = i ∨ ∃ key p, (σ u).procs (who u) = .running (.get key) p) → M (σ t).heap c ≤ steps who i t d →
    ∃ o, (σ (t + d)).procs i = .done c o ∧ c.Returns (σ t).heap o (σ (t + d)).heap := by
  obtain ⟨M, hM⟩ := C58_undisturbed
  refine ⟨fun h c => M h c + 1, ?_⟩
  intro T σ who h t d i fuel c ht hq hp hf hr ho hs
  have same : ∀ e, e < d → who (t + e) ≠ i → (σ (t + e + 1)).heap = (σ (t + e)).heap := by
    intro e he hne
    rcases ho (t + e) (by omega) (by omega) with h1 | ⟨key, p, h1⟩
    · exact absurd h1 hne
    · exact (C57_reads h (by omega) h1).1
  dsimp only at hf hs
  rcases (hM h ht hq hp (by omega) hr same).2 with h1 | ⟨-, y, h1⟩
  · exact h1
  -- otherwise the call could make one step too many
  have h' : Run (t + d) σ who := ⟨h.init, fun u hu => h.step u (by omega)⟩
  obtain ⟨σ', who', g1, g2, g3, g4, g5⟩ := Run.extend h' h1
  have e := g2 t (by omega)
  have := (hM g1 (t := t) (d := d + 1) (i := i) (fuel := fuel) (c := c) (by omega) (by rw [e]; exact hq) (by rw [e]; exact hp) (by rw [e]; omega) (by rw [e]; exact hr) (fun u hu hne => by
    by_cases hu' : u < d
    · rw [g2 (t + u + 1) (by omega), g2 (t + u) (by omega)]
      exact same u hu' (by rwa [g4 (t + u) (by omega)] at hne)
    · rw [show u = d by omega] at hne
      exact absurd g5 hne)).1
  rw [steps_last, steps_congr (fun e he => g4 (t + e) (by omega)), g5, if_pos rfl, e] at this
  omega

/-- The hypotheses of `C68_progress_partial` are met, with any amount of fuel, by a `Put` after those of `setup`. -/
theorem C68_example (fuel : Nat) : ∃ σ who, Run 58 σ who ∧ Quiet (σ 58).heap ∧ (σ 58).procs 3 = .running (.put (sevens 20 2) [4]) ((Call.put (sevens 20 2) [4]).prog fuel) := C58_example fuel

end Art.Props
