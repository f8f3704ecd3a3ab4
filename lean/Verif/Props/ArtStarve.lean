import Verif.Props.ArtSpin

/-!
# Property C93: a `Get` that never gets through
-/

set_option linter.unusedSimpArgs false

namespace Art.Props

open Surf Spec

/-- Steps of the call `j`, without the loops of lock.go. -/
inductive CPath (j : Nat) : Conf → Conf → Prop
  | refl {x} : CPath j x x
  | step {x y z} : Step j x y → CPath j y z → CPath j x z

theorem CPath.trans {j : Nat} {x y z : Conf} (h : CPath j x y) (h' : CPath j y z) : CPath j x z := by
  induction h with
  | refl => exact h'
  | step h1 _ ih => exact .step h1 (ih h')

/-- The call `j` at the program `p`, with this heap and these locks. -/
def spot (x : Conf) (j : Nat) (h : Heap) (o : Addr → Option Nat) (p : Proc) : Conf := ⟨h, o, fun i => if i = j then p else x.procs i⟩

theorem spot_to {x : Conf} {j : Nat} {h h' : Heap} {o : Addr → Option Nat} {p p' : Proc} : (spot x j h o p).to j h' p' = spot x j h' o p' := by
  simp only [spot, Conf.to, Conf.mk.injEq, true_and]
  funext i
  split <;> rfl

theorem spot_own {x : Conf} {j : Nat} {h : Heap} {o : Addr → Option Nat} {p : Proc} {a : Addr} {w : Option Nat} : (spot x j h o p).own a w = spot x j h (upd o a w) p := rfl

theorem spot_procs {x : Conf} {j : Nat} {h : Heap} {o : Addr → Option Nat} {p : Proc} : (spot x j h o p).procs j = p := by simp [spot]

section
variable {x y : Conf} {j : Nat} {h : Heap} {o : Addr → Option Nat} {c : Call}

theorem cgo_choose {k : Bool → Prog (Option Bytes)} (b : Bool) (g : CPath j (spot x j h o (.running c (k b))) y) : CPath j (spot x j h o (.running c (.choose k))) y := by
  refine .step (.choose b spot_procs) ?_
  rw [spot_to]; exact g

theorem cgo_readRoot {k : Option Ref → Prog (Option Bytes)} {n : Node} (hn : h[0]? = some n) (g : CPath j (spot x j h o (.running c (k n.root))) y) : CPath j (spot x j h o (.running c (.readRoot k))) y := by
  refine .step (.readRoot spot_procs hn) ?_
  rw [spot_to]; exact g

theorem cgo_wait {a : Addr} {k : Nat → Prog (Option Bytes)} {n : Node} (hn : h[a]? = some n) (hl : locked n.version = false) (g : CPath j (spot x j h o (.running c (k n.version))) y) :
    CPath j (spot x j h o (.running c (.wait a k))) y := by
  refine .step (.wait spot_procs hn hl) ?_
  rw [spot_to]; exact g

theorem cgo_load {a : Addr} {k : Nat → Prog (Option Bytes)} {n : Node} (hn : h[a]? = some n) (g : CPath j (spot x j h o (.running c (k n.version))) y) : CPath j (spot x j h o (.running c (.load a k))) y := by
  refine .step (.load spot_procs hn) ?_
  rw [spot_to]; exact g

theorem cgo_read {a : Addr} {v : Nat} {k : Node → Prog (Option Bytes)} {n : Node} (hn : h[a]? = some n) (g : CPath j (spot x j h o (.running c (k n))) y) : CPath j (spot x j h o (.running c (.read a v k))) y := by
  refine .step (.read n spot_procs hn rfl (fun _ => rfl)) ?_
  rw [spot_to]; exact g

theorem cgo_cas {a : Addr} {v : Nat} {k : Bool → Prog (Option Bytes)} {n : Node} (hn : h[a]? = some n) (hv : n.version = v) (g : CPath j (spot x j (setVer h a (v + 2)) (upd o a (some j)) (.running c (k true))) y) :
    CPath j (spot x j h o (.running c (.cas a v k))) y := by
  refine .step (.cas spot_procs hn hv) ?_
  rw [spot_to, spot_own]; exact g

theorem cgo_unlock {a : Addr} {k : Prog (Option Bytes)} {n : Node} (hn : h[a]? = some n) (g : CPath j (spot x j (setVer h a (n.version + 2)) (upd o a none) (.running c k)) y) :
    CPath j (spot x j h o (.running c (.unlock a k))) y := by
  refine .step (.unlock spot_procs hn) ?_
  rw [spot_to, spot_own]; exact g

theorem cgo_write {f : Heap → Option Heap} {k : Prog (Option Bytes)} {h' : Heap} (hf : f h = some h') (g : CPath j (spot x j h' o (.running c k)) y) : CPath j (spot x j h o (.running c (.write f k))) y := by
  refine .step (.write spot_procs hf) ?_
  rw [spot_to]; exact g

theorem cgo_ret {r : Option Bytes} (g : CPath j (spot x j h o (.done c r)) y) : CPath j (spot x j h o (.running c (.ret r))) y := by
  refine .step (.ret spot_procs) ?_
  rw [spot_to]; exact g

end

/-- The tree that holds the empty key only, with version `v` of the root; or an empty tree. -/
def oneNode (v : Nat) (l : Option Leaf) : Heap := [{ kids := .dummy (some (.node 1)) }, { newNode4 with version := v, prefixLeaf := l }]

/-- Put of the empty key -/
def emptyPut : Call := .put [] [1]

theorem put_lock (x : Conf) (j v : Nat) (o : Addr → Option Nat) (l : Option Leaf) (hv : locked v = false) (hv' : obsolete v = false) : ∃ q,
    CPath j (spot x j (oneNode v l) o (.running emptyPut (emptyPut.prog 2))) (spot x j (oneNode (v + 2) l) (upd o 1 (some j)) (.running emptyPut q)) ∧
    CPath j (spot x j (oneNode (v + 2) l) (upd o 1 (some j)) (.running emptyPut q)) (spot x j (oneNode (v + 4) (some (newLeaf [] [1]))) (upd (upd o 1 (some j)) 1 none) (.done emptyPut none)) := by
  refine ⟨?q, ?h1, ?h2⟩
  case h1 =>
    apply cgo_choose true
    apply cgo_readRoot rfl
    apply cgo_wait rfl rfl
    apply cgo_wait rfl hv
    dsimp only
    rw [hv']
    apply cgo_read rfl
    apply cgo_read rfl
    apply cgo_read rfl
    apply cgo_read rfl
    refine cgo_cas (a := 1) (v := v) (h := oneNode v l) rfl rfl ?_
    exact .refl
  case h2 =>
    apply cgo_load rfl
    refine cgo_write (h' := oneNode (v + 2) (some (newLeaf [] [1]))) rfl ?_
    refine cgo_unlock (h := oneNode (v + 2) (some (newLeaf [] [1]))) (n := { newNode4 with version := v + 2, prefixLeaf := some (newLeaf [] [1]) }) rfl ?_
    apply cgo_ret
    exact .refl

theorem lift_path {j : Nat} {x y : Conf} (hp : CPath j x y) : ∀ {T : Nat} {s : Nat → SConf} {who : Nat → Nat} {ev : Nat → Ev}, SRun T s who ev → (s T).conf = x → (s T).pos j = .at →
    ∃ d s' who' ev', SRun (T + d) s' who' ev' ∧ (∀ u, u ≤ T → s' u = s u) ∧ (s' (T + d)).conf = y ∧ (s' (T + d)).pos j = .at ∧ (∀ i, i ≠ j → (s' (T + d)).pos i = (s T).pos i) ∧
      (∀ u, u < T → who' u = who u) ∧ ∀ u, T ≤ u → u < T + d → who' u = j := by
  induction hp with
  | refl => intro T s who ev h e1 e2; exact ⟨0, s, who, ev, h, fun _ _ => rfl, e1, e2, fun _ _ => rfl, fun _ _ => rfl, fun u _ _ => by omega⟩
  | step h1 _ ih =>
    intro T s who ev h e1 e2
    subst e1
    obtain ⟨z, l1, l2, l3, l4⟩ := lift_step (h.fine _ (Nat.le_refl _)) h.placed h1
    obtain ⟨p, s1, who1, ev1, k1, k2, k3, k4, k5⟩ := SRun.append l1 h rfl
    obtain ⟨q, s2, who2, ev2, n1, n2, n3, n4, n5, n6, n7⟩ := ih k1 (by rw [k3, l2]) (by rw [k3, l3])
    refine ⟨p + q, s2, who2, ev2, by rwa [← Nat.add_assoc], fun u hu => by rw [n2 u (by omega), k2 u hu], by rwa [← Nat.add_assoc], by rwa [← Nat.add_assoc], fun i hi => ?_, fun u hu => ?_, fun u h1 h2 => ?_⟩
    · rw [← Nat.add_assoc, n5 i hi, k3, l4 i hi]
    · rw [n6 u (by omega), (k4 u hu).1]
    · by_cases e : u < T + p
      · rw [n6 u e]; exact k5 u h1 e
      · exact n7 u (by omega) (by omega)

theorem stays {T d j i : Nat} {s : Nat → SConf} {who : Nat → Nat} {ev : Nat → Ev} (h : SRun (T + d) s who ev) (hj : ∀ u, T ≤ u → u < T + d → who u = j) (hi : i ≠ j) : ∀ e, e ≤ d → (s (T + e)).conf.procs i = (s T).conf.procs i := by
  intro e
  induction e with
  | zero => intro _; rfl
  | succ e ih =>
    intro he
    have := ((h.step (T + e) (by omega)).others (j := i) (by rw [hj (T + e) (by omega) (by omega)]; exact hi)).2
    rw [show T + (e + 1) = T + e + 1 by omega, this]
    exact ih (by omega)

theorem steps_zero {who : Nat → Nat} {i t d : Nat} (h : ∀ u, t ≤ u → u < t + d → who u ≠ i) : steps who i t d = 0 := by
  induction d generalizing t with
  | zero => simp [steps]
  | succ d ih => rw [steps_succ, if_neg (h t (by omega) (by omega)), ih (fun u h1 h2 => h u (by omega) (by omega))]

theorem steps_split (who : Nat → Nat) (i t d e : Nat) : steps who i t (d + e) = steps who i t d + steps who i (t + d) e := by
  induction d generalizing t with
  | zero => simp [steps]
  | succ d ih =>
    rw [show d + 1 + e = d + e + 1 by omega, steps_succ, steps_succ, ih (t + 1), show t + 1 + d = t + (d + 1) by omega]
    omega

/-- The `Get` waits since the instant `t`, and has made `r` steps or more since; `r` Puts have returned. -/
structure Stuck (k : Nat → Prog (Option Bytes)) (t T r : Nat) (s : Nat → SConf) (who : Nat → Nat) (ev : Nat → Ev) : Prop where
  run : SRun T s who ev
  le : t ≤ T
  heap : (s T).conf.heap = oneNode (4 + 4 * r) (some (newLeaf [] [1]))
  owner : (s T).conf.owner = fun _ => none
  stay : ∀ u, t ≤ u → u ≤ T → (s u).conf.procs 1 = .running (.get []) (.wait 1 k)
  pos : ∀ v, (s T).pos 1 ≠ .got v
  idle : ∀ j, r + 2 ≤ j → (s T).conf.procs j = .idle ∧ (s T).pos j = .at
  done : ∀ j, 2 ≤ j → j < r + 2 → (s T).conf.procs j = .done emptyPut none
  count : r ≤ steps who 1 t (T - t)
  first : ∀ j, 2 ≤ j → (s t).conf.procs j = .idle
  start : r = 0 → (s T).pos 1 = .at

theorem upd_back {o : Addr → Option Nat} (h : o = fun _ => none) (j : Option Nat) : upd (upd o 1 j) 1 none = fun _ => none := by
  subst h
  funext a
  simp only [upd]
  split <;> rfl

theorem look1 {T : Nat} {s : Nat → SConf} {who : Nat → Nat} {ev : Nat → Ev} (h : SRun T s who ev) {i : Nat} {a : Addr} {n : Node} (ha : Awaits (s T).conf i a) (hd : Due ((s T).pos i)) (hn : (s T).conf.heap[a]? = some n) (hl : locked n.version = true) :
    ∃ s' who' ev', SRun (T + 1) s' who' ev' ∧ (∀ u, u ≤ T → s' u = s u) ∧ (∀ u, T ≤ u → u ≤ T + 1 → (s' u).conf = (s T).conf) ∧ who' T = i ∧ (∀ u, u < T → who' u = who u) ∧
      (∀ v, (s' (T + 1)).pos i ≠ .got v) ∧ ∀ j, j ≠ i → (s' (T + 1)).pos j = (s T).pos j := by
  obtain ⟨s3, who3, ev3, f1, f2, f3, f4, f5, -⟩ := h.extend (.busy ha hd hn hl)
  refine ⟨s3, who3, ev3, f1, f2, fun u h1 h2 => ?_, f5, fun u hu => (f4 u hu).1, fun v hv => ?_, fun j hj => ?_⟩
  · rcases Nat.eq_or_lt_of_le h1 with rfl | h1
    · rw [f2 _ (Nat.le_refl _)]
    · rw [show u = T + 1 by omega, f3]; rfl
  · rw [f3] at hv
    simp only [SConf.to, if_true] at hv
    cases e : (s T).pos i <;> rw [e] at hv <;> cases hv
  · rw [f3]; simp [SConf.to, hj]

/-- A call that waits looks at the lock, in one step or two, and goes on waiting. -/
theorem look {T : Nat} {s : Nat → SConf} {who : Nat → Nat} {ev : Nat → Ev} (h : SRun T s who ev) {i : Nat} {a : Addr} {n : Node} (ha : Awaits (s T).conf i a) (hd : ∀ v, (s T).pos i ≠ .got v) (hn : (s T).conf.heap[a]? = some n) (hl : locked n.version = true) :
    ∃ d s' who' ev', SRun (T + d + 1) s' who' ev' ∧ (∀ u, u ≤ T → s' u = s u) ∧ (∀ u, T ≤ u → u ≤ T + d + 1 → (s' u).conf = (s T).conf) ∧ who' (T + d) = i ∧ (∀ u, u < T → who' u = who u) ∧
      (∀ v, (s' (T + d + 1)).pos i ≠ .got v) ∧ ∀ j, j ≠ i → (s' (T + d + 1)).pos j = (s T).pos j := by
  by_cases hy : (s T).pos i = .spin 0
  · obtain ⟨s3, who3, ev3, f1, f2, f3, f4, f5, -⟩ := h.extend (.yield hy)
    have hc : (s3 (T + 1)).conf = (s T).conf := by rw [f3]; rfl
    obtain ⟨s4, who4, ev4, g1, g2, g3, g4, g5, g6, g7⟩ := look1 f1 (i := i) (a := a) (n := n) (by rw [hc]; exact ha) (by rw [f3]; simp [SConf.to, Due, spinCount]) (by rw [hc]; exact hn) hl
    refine ⟨1, s4, who4, ev4, g1, fun u hu => by rw [g2 u (by omega), f2 u hu], fun u h1 h2 => ?_, g4, fun u hu => by rw [g5 u (by omega), (f4 u hu).1], g6, fun j hj => ?_⟩
    · by_cases e : u = T
      · rw [e, g2 T (by omega), f2 T (Nat.le_refl _)]
      · rw [g3 u (by omega) h2, hc]
    · rw [g7 j hj, f3]; simp [SConf.to, hj]
  · have hdue : Due ((s T).pos i) := by
      cases e : (s T).pos i with
      | «at» => trivial
      | spin c =>
        cases c with
        | zero => exact absurd e hy
        | succ c => exact Nat.succ_pos c
      | got v => exact absurd e (hd v)
    obtain ⟨s4, who4, ev4, g⟩ := look1 h ha hdue hn hl
    exact ⟨0, s4, who4, ev4, g⟩

theorem Stuck.next {k : Nat → Prog (Option Bytes)} {t T r : Nat} {s : Nat → SConf} {who : Nat → Nat} {ev : Nat → Ev} (h : Stuck k t T r s who ev) : ∃ T' s' who' ev', Stuck k t T' (r + 1) s' who' ev' := by
  have hv : locked (4 + 4 * r) = false := by unfold locked; simp; omega
  have hv' : obsolete (4 + 4 * r) = false := by unfold obsolete; simp; omega
  have hv2 : locked (4 + 4 * r + 2) = true := by unfold locked; simp; omega
  obtain ⟨q, p1, p2⟩ := put_lock (s T).conf (r + 2) (4 + 4 * r) (s T).conf.owner (some (newLeaf [] [1])) hv hv'
  have c1 : Step (r + 2) (s T).conf (spot (s T).conf (r + 2) (oneNode (4 + 4 * r) (some (newLeaf [] [1]))) (s T).conf.owner (.running emptyPut (emptyPut.prog 2))) := by
    have := Step.call (i := r + 2) (σ := (s T).conf) emptyPut 2 (h.idle (r + 2) (Nat.le_refl _)).1 ⟨by decide, by decide⟩
    rw [h.heap] at this
    exact this
  -- the Put up to its lock
  obtain ⟨d1, s1, who1, ev1, a1, a2, a3, a4, a5, a6, a7⟩ := lift_path (.step c1 p1) h.run rfl (h.idle (r + 2) (Nat.le_refl _)).2
  have st1 := stays (i := 1) a1 a7 (by omega)
  have hw1 : (s1 (T + d1)).conf.procs 1 = .running (.get []) (.wait 1 k) := by
    rw [st1 d1 (Nat.le_refl _), a2 T (Nat.le_refl _)]
    exact h.stay T h.le (Nat.le_refl _)
  -- the Get looks
  have hn : (s1 (T + d1)).conf.heap[1]? = some { newNode4 with version := 4 + 4 * r + 2, prefixLeaf := some (newLeaf [] [1]) } := by rw [a3]; rfl
  obtain ⟨d2, s3, who3, ev3, f1, f2, f3, f4, f5, f6, f7⟩ := look a1 (i := 1) (a := 1) ⟨_, Or.inl ⟨k, hw1⟩⟩ (by rw [a5 1 (by omega)]; exact h.pos) hn hv2
  have hc3 : (s3 (T + d1 + d2 + 1)).conf = (s1 (T + d1)).conf := f3 _ (by omega) (Nat.le_refl _)
  -- the Put from its lock on
  obtain ⟨d4, s4, who4, ev4, g1, g2, g3, g4, g5, g6, g7⟩ := lift_path p2 f1 (by rw [hc3, a3]) (by rw [f7 _ (by omega), a4])
  have st4 := stays (i := 1) g1 g7 (by omega)
  have hproc : ∀ j, j ≠ r + 2 → (s4 (T + d1 + d2 + 1 + d4)).conf.procs j = (s T).conf.procs j := fun j hj => by
    rw [g3]; simp only [spot]; rw [if_neg hj]
  refine ⟨T + d1 + d2 + 1 + d4, s4, who4, ev4, g1, by have := h.le; omega, ?_, ?_, fun u h1 h2 => ?_, ?_, fun j hj => ⟨?_, ?_⟩, fun j h1 h2 => ?_, ?_, fun j hj => ?_, ?_⟩
  · rw [g3]; rfl
  · rw [g3]; exact upd_back h.owner _
  · by_cases c1 : u ≤ T
    · rw [g2 u (by omega), f2 u (by omega), a2 u c1]; exact h.stay u h1 c1
    by_cases c2 : u ≤ T + d1
    · rw [g2 u (by omega), f2 u (by omega), show u = T + (u - T) by omega, st1 _ (by omega), a2 T (Nat.le_refl _)]; exact h.stay T h.le (Nat.le_refl _)
    by_cases c3 : u ≤ T + d1 + d2 + 1
    · rw [g2 u (by omega), f3 u (by omega) c3, hw1]
    · rw [show u = T + d1 + d2 + 1 + (u - (T + d1 + d2 + 1)) by omega, st4 _ (by omega), g2 _ (Nat.le_refl _), hc3, hw1]
  · rw [g5 1 (by omega)]; exact f6
  · rw [hproc j (by omega)]; exact (h.idle j (by omega)).1
  · rw [g5 j (by omega), f7 j (by omega), a5 j (by omega)]; exact (h.idle j (by omega)).2
  · by_cases e : j = r + 2
    · rw [g3, e]; simp [spot]
    · rw [hproc j e]; exact h.done j h1 (by omega)
  · have hle := h.le
    have hcount := h.count
    rw [show T + d1 + d2 + 1 + d4 - t = (T - t) + ((d1 + d2) + (1 + d4)) by omega, steps_split, steps_split, show t + (T - t) + (d1 + d2) = T + d1 + d2 by omega, Nat.add_comm 1 d4, steps_succ,
      if_pos (by rw [g6 _ (by omega), f4])]
    have : steps who4 1 t (T - t) = steps who 1 t (T - t) := steps_congr fun e he => by
      rw [g6 _ (by omega), f5 _ (by omega), a6 _ (by omega)]
    omega
  · rw [g2 t (by have := h.le; omega), f2 t (by have := h.le; omega), a2 t h.le]; exact h.first j hj
  · intro hr; omega

theorem get_wait (x : Conf) (o : Addr → Option Nat) (v : Nat) (l : Option Leaf) : ∃ k,
    CPath 1 (spot x 1 (oneNode v l) o (.running (.get []) ((Call.get []).prog 2))) (spot x 1 (oneNode v l) o (.running (.get []) (.wait 1 k))) := by
  refine ⟨?k, ?h⟩
  case h =>
    apply cgo_choose true
    apply cgo_readRoot rfl
    apply cgo_wait rfl rfl
    exact .refl

theorem stuck_first : ∃ k t s who ev, Stuck k t t 0 s who ev := by
  obtain ⟨q, p1, p2⟩ := put_lock Conf.init 0 0 (fun _ => none) none rfl rfl
  have c1 : Step 0 Conf.init (spot Conf.init 0 (oneNode 0 none) (fun _ => none) (.running emptyPut (emptyPut.prog 2))) :=
    Step.call (i := 0) (σ := Conf.init) emptyPut 2 rfl ⟨by decide, by decide⟩
  obtain ⟨d1, s1, who1, ev1, a1, a2, a3, a4, a5, a6, a7⟩ := lift_path (.step c1 (p1.trans p2)) (T := 0) (s := fun _ => ⟨Conf.init, fun _ => .at⟩) (who := fun _ => 0) (ev := fun _ => .other) ⟨rfl, fun t ht => by omega⟩ rfl rfl
  rw [upd_back rfl] at a3
  obtain ⟨k, g⟩ := get_wait (s1 (0 + d1)).conf (fun _ => none) 4 (some (newLeaf [] [1]))
  have c2 : Step 1 (s1 (0 + d1)).conf (spot (s1 (0 + d1)).conf 1 (oneNode 4 (some (newLeaf [] [1]))) (fun _ => none) (.running (.get []) ((Call.get []).prog 2))) := by
    have := Step.call (i := 1) (σ := (s1 (0 + d1)).conf) (.get []) 2 (by rw [a3]; rfl) trivial
    have e : (s1 (0 + d1)).conf.heap = oneNode 4 (some (newLeaf [] [1])) := by rw [a3]; rfl
    have e' : (s1 (0 + d1)).conf.owner = fun _ => none := by rw [a3]; rfl
    unfold Conf.to at this
    rw [e, e'] at this
    exact this
  obtain ⟨d2, s2, who2, ev2, b1, b2, b3, b4, b5, b6, b7⟩ := lift_path (.step c2 g) a1 rfl (by rw [a5 1 (by omega)])
  have hidle : ∀ j, 2 ≤ j → (s2 (0 + d1 + d2)).conf.procs j = .idle := fun j hj => by
    rw [b3]; simp only [spot]; rw [if_neg (by omega), a3]; simp only [spot]; rw [if_neg (by omega)]; rfl
  refine ⟨k, 0 + d1 + d2, s2, who2, ev2, b1, Nat.le_refl _, ?_, ?_, fun u h1 h2 => ?_, fun v hv => ?_, fun j hj => ⟨hidle j hj, ?_⟩, fun j h1 h2 => by omega, Nat.zero_le _, hidle, fun _ => b4⟩
  · rw [b3]; rfl
  · rw [b3]; rfl
  · rw [show u = 0 + d1 + d2 by omega, b3]; simp [spot]
  · rw [b4] at hv; cases hv
  · rw [b5 j (by omega), a5 j (by omega)]

/-- **C93.** A `Get` that waits for a lock can starve: whatever `N`, there is a run in which it looks `N` times or more at one and the same lock without getting through,
while `N` Puts begin after it has begun to wait and return before it is done. Every Put goes through undisturbed, and the lock is free in between. -/
theorem C93_starve (N : Nat) : ∃ t d s who ev k, SRun (t + d) s who ev ∧ (∀ e, e ≤ d → (s (t + e)).conf.procs 1 = .running (.get []) (.wait 1 k)) ∧ N ≤ steps who 1 t d ∧
    ∀ j, 2 ≤ j → j < N + 2 → (s t).conf.procs j = .idle ∧ (s (t + d)).conf.procs j = .done emptyPut none := by
  have hN : ∃ k t T s who ev, Stuck k t T N s who ev := by
    induction N with
    | zero =>
      obtain ⟨k, t, s, who, ev, h⟩ := stuck_first
      exact ⟨k, t, t, s, who, ev, h⟩
    | succ N ih =>
      obtain ⟨k, t, T, s, who, ev, h⟩ := ih
      obtain ⟨T', s', who', ev', h'⟩ := h.next
      exact ⟨k, t, T', s', who', ev', h'⟩
  obtain ⟨k, t, T, s, who, ev, h⟩ := hN
  have hT : t + (T - t) = T := by have := h.le; omega
  exact ⟨t, T - t, s, who, ev, k, by rw [hT]; exact h.run, fun e he => h.stay _ (by omega) (by omega), h.count, fun j h1 h2 => ⟨h.first j h1, by rw [hT]; exact h.done j h1 h2⟩⟩

theorem loads {T : Nat} {s : Nat → SConf} {who : Nat → Nat} {ev : Nat → Ev} (h : SRun T s who ev) {i : Nat} {a : Addr} {n : Node} (ha : Awaits (s T).conf i a) (hp : (s T).pos i = .at) (hn : (s T).conf.heap[a]? = some n) (hl : locked n.version = true) :
    ∀ m, m ≤ 30 → ∃ s' who' ev', SRun (T + (m + 1)) s' who' ev' ∧ (s' (T + (m + 1))).conf = (s T).conf ∧ (s' (T + (m + 1))).pos i = .spin (30 - m) ∧
      ∀ e, e < m + 1 → who' (T + e) = i ∧ ev' (T + e) = .load ∧ ∃ c, (s' (T + e + 1)).pos i = .spin c := by
  intro m
  induction m with
  | zero =>
    intro _
    obtain ⟨s3, who3, ev3, f1, f2, f3, f4, f5, f6⟩ := h.extend (.busy ha (by rw [hp]; trivial) hn hl)
    have e1 : (s3 (T + 1)).pos i = .spin 30 := by rw [f3]; simp [SConf.to, hp, Pos.again, spinCount]
    refine ⟨s3, who3, ev3, f1, by rw [f3]; rfl, e1, fun e he => ?_⟩
    rw [show e = 0 by omega]
    exact ⟨f5, f6, _, e1⟩
  | succ m ih =>
    intro hm
    obtain ⟨s', who', ev', g1, g2, g3, g4⟩ := ih (by omega)
    obtain ⟨s3, who3, ev3, f1, f2, f3, f4, f5, f6⟩ := g1.extend (.busy (i := i) (a := a) (n := n) (by rw [g2]; exact ha) (by rw [g3]; show 0 < 30 - m; omega) (by rw [g2]; exact hn) hl)
    have e1 : (s3 (T + (m + 1) + 1)).pos i = .spin (30 - (m + 1)) := by
      rw [f3]; simp only [SConf.to, if_true, g3, Pos.again]; congr 1
    refine ⟨s3, who3, ev3, f1, by rw [← Nat.add_assoc, ← Nat.add_assoc, Nat.add_assoc T m 1, f3]; exact g2, e1, fun e he => ?_⟩
    by_cases e0 : e = m + 1
    · rw [e0]; exact ⟨f5, f6, _, e1⟩
    · have := g4 e (by omega)
      rw [(f4 (T + e) (by omega)).1, (f4 (T + e) (by omega)).2, f2 (T + e + 1) (by omega)]
      exact this

/-- **C93.** 31 loads in a row do occur: `C93_yields` is exact. -/
theorem C93_yields_exact : ∃ T s who ev t, SRun T s who ev ∧ t + 31 = T ∧ (∀ e, e < 31 → who (t + e) = 1 → ev (t + e) = .load ∧ ∃ m, (s (t + e + 1)).pos 1 = .spin m) ∧ steps who 1 t 31 = 31 := by
  obtain ⟨k, T, s, who, ev, h⟩ := stuck_first
  obtain ⟨q, p1, p2⟩ := put_lock (s T).conf 2 4 (s T).conf.owner (some (newLeaf [] [1])) rfl rfl
  have c1 : Step 2 (s T).conf (spot (s T).conf 2 (oneNode 4 (some (newLeaf [] [1]))) (s T).conf.owner (.running emptyPut (emptyPut.prog 2))) := by
    have := Step.call (i := 2) (σ := (s T).conf) emptyPut 2 (h.idle 2 (Nat.le_refl _)).1 ⟨by decide, by decide⟩
    rw [h.heap] at this
    exact this
  obtain ⟨d1, s1, who1, ev1, a1, a2, a3, a4, a5, a6, a7⟩ := lift_path (.step c1 p1) h.run rfl (h.idle 2 (Nat.le_refl _)).2
  have hw1 : (s1 (T + d1)).conf.procs 1 = .running (.get []) (.wait 1 k) := by
    rw [stays (i := 1) a1 a7 (by omega) d1 (Nat.le_refl _), a2 T (Nat.le_refl _)]
    exact h.stay T h.le (Nat.le_refl _)
  have hn : (s1 (T + d1)).conf.heap[1]? = some { newNode4 with version := 6, prefixLeaf := some (newLeaf [] [1]) } := by rw [a3]; rfl
  obtain ⟨s', who', ev', g1, g2, g3, g4⟩ := loads a1 (i := 1) (a := 1) ⟨_, Or.inl ⟨k, hw1⟩⟩ (by rw [a5 1 (by omega), h.start rfl]) hn rfl 30 (Nat.le_refl _)
  refine ⟨T + d1 + 31, s', who', ev', T + d1, g1, rfl, fun e he _ => (g4 e he).2, ?_⟩
  have : ∀ d t, (∀ e, e < d → who' (t + e) = 1) → steps who' 1 t d = d := by
    intro d
    induction d with
    | zero => intro t _; simp [steps]
    | succ d ih =>
      intro t ht
      rw [steps_succ, if_pos (show who' t = 1 from ht 0 (by omega)), ih (t + 1) (fun e he => by rw [show t + 1 + e = t + (e + 1) by omega]; exact ht _ (by omega))]
      omega
  exact this 31 _ (fun e he => (g4 e he).1)

end Art.Props
