import Verif.Art.System

/-! The calls once more, with the loops of lock.go step by step: `waitUnlock` loads the version again and again, `lock` waits, then tries a compare-and-swap, and begins again if that fails. `Art/System.lean` has one step for each,
which can be taken when the lock is free. -/

namespace Art

open Surf Spec

/-- lock.go:8 -/
def spinCount : Nat := 30

/-- Where a call is within `waitUnlock` or `lock`. -/
inductive Pos where
  /-- at the beginning of them, or somewhere else -/
  | at
  /-- lock.go:68: in the loop, the version loaded last had the lock bit set; with the value of `count` -/
  | spin (count : Nat)
  /-- lock.go:49: `rLock` has returned this version -/
  | got (version : Nat)

/-- The state of the system with the positions. -/
structure SConf where
  conf : Conf
  pos : Nat → Pos

/-- Another state, and call `i` at the position. -/
def SConf.to (s : SConf) (i : Nat) (σ : Conf) (p : Pos) : SConf := ⟨σ, fun j => if j = i then p else s.pos j⟩

/-- What a step is. -/
inductive Ev where
  /-- lock.go:66, 74: a load of the version in `waitUnlock` -/
  | load
  /-- lock.go:70: `runtime.Gosched` -/
  | yield
  /-- lock.go:49: the compare-and-swap of `lock` -/
  | swap
  /-- anything else -/
  | other
deriving DecidableEq

/-- The call is about to wait for the node `a`, in `waitUnlock` or in `lock`. -/
def Awaits (σ : Conf) (i : Nat) (a : Addr) : Prop := ∃ c, (∃ k, σ.procs i = .running c (.wait a k)) ∨ ∃ k, σ.procs i = .running c (.lock a k)

/-- A load is due: the first one, or one in the loop with `count` above 0 after lines 69-73. -/
def Due : Pos → Prop
  | .at => True
  | .spin count => 0 < count
  | .got _ => False

/-- The position after a load that has found the lock taken. -/
def Pos.again : Pos → Pos
  | .spin count => .spin (count - 1)
  | _ => .spin spinCount

/-- One step of the call `i`. -/
inductive SStep (i : Nat) (s : SConf) : Ev → SConf → Prop
  /-- a step of `Step` that is not one of `waitUnlock` or `lock` (a node that does not exist makes these crash) -/
  | other {σ'} : s.pos i = .at → (∀ a, Awaits s.conf i a → s.conf.heap[a]? = none) → Step i s.conf σ' → SStep i s .other ⟨σ', s.pos⟩
  /-- lock.go:66-68, 74: the lock is taken -/
  | busy {a n} : Awaits s.conf i a → Due (s.pos i) → s.conf.heap[a]? = some n → locked n.version = true → SStep i s .load (s.to i s.conf (s.pos i).again)
  /-- lock.go:69-72 -/
  | yield : s.pos i = .spin 0 → SStep i s .yield (s.to i s.conf (.spin spinCount))
  /-- lock.go:66, 74-76: `waitUnlock` returns -/
  | free {c a k n} : s.conf.procs i = .running c (.wait a k) → Due (s.pos i) → s.conf.heap[a]? = some n → locked n.version = false →
      SStep i s .load (s.to i (s.conf.to i s.conf.heap (.running c (k n.version))) .at)
  /-- lock.go:45-48: `lock` returns false -/
  | obsolete {c a k n} : s.conf.procs i = .running c (.lock a k) → Due (s.pos i) → s.conf.heap[a]? = some n → locked n.version = false → obsolete n.version = true →
      SStep i s .load (s.to i (s.conf.to i s.conf.heap (.running c (k false))) .at)
  /-- lock.go:45: `rLock` returns the version -/
  | got {c a k n} : s.conf.procs i = .running c (.lock a k) → Due (s.pos i) → s.conf.heap[a]? = some n → locked n.version = false → obsolete n.version = false →
      SStep i s .load (s.to i s.conf (.got n.version))
  /-- lock.go:49-54: the compare-and-swap succeeds, `lock` returns true -/
  | swap {c a k n v} : s.conf.procs i = .running c (.lock a k) → s.pos i = .got v → s.conf.heap[a]? = some n → n.version = v →
      SStep i s .swap (s.to i ((s.conf.to i (setVer s.conf.heap a (v + 2)) (.running c (k true))).own a (some i)) .at)
  /-- lock.go:49: it fails, `lock` begins again -/
  | miss {c a k n v} : s.conf.procs i = .running c (.lock a k) → s.pos i = .got v → s.conf.heap[a]? = some n → n.version ≠ v → SStep i s .swap (s.to i s.conf .at)

/-- The first `T` steps of a run. -/
structure SRun (T : Nat) (s : Nat → SConf) (who : Nat → Nat) (ev : Nat → Ev) : Prop where
  init : s 0 = ⟨Conf.init, fun _ => .at⟩
  step : ∀ t, t < T → SStep (who t) (s t) (ev t) (s (t + 1))

/-- A version that `rLock` has returned says that the node is free and not obsolete. -/
def SConf.Fine (s : SConf) : Prop := ∀ i v, s.pos i = .got v → locked v = false ∧ Art.obsolete v = false

theorem SConf.Fine.to {s : SConf} (h : s.Fine) {i : Nat} {σ : Conf} {p : Pos} (hp : ∀ v, p = .got v → locked v = false ∧ Art.obsolete v = false) : (s.to i σ p).Fine := by
  intro j v hj
  simp only [SConf.to] at hj
  split at hj
  · exact hp v hj
  · exact h j v hj

theorem SStep.fine {i : Nat} {s s' : SConf} {e : Ev} (h : s.Fine) (hs : SStep i s e s') : s'.Fine := by
  cases hs with
  | other h1 h2 h3 => exact h
  | busy h1 h2 h3 h4 =>
    refine h.to fun v hv => ?_
    cases hp : s.pos i <;> rw [hp] at hv <;> cases hv
  | yield h1 => exact h.to fun v hv => by cases hv
  | free h1 h2 h3 h4 => exact h.to fun v hv => by cases hv
  | obsolete h1 h2 h3 h4 h5 => exact h.to fun v hv => by cases hv
  | got h1 h2 h3 h4 h5 => exact h.to fun v hv => by cases hv; exact ⟨h4, h5⟩
  | swap h1 h2 h3 h4 => exact h.to fun v hv => by cases hv
  | miss h1 h2 h3 h4 => exact h.to fun v hv => by cases hv

/-- A step is one of `Step`, or leaves everything but the position of the call as it is. -/
theorem SStep.sim {i : Nat} {s s' : SConf} {e : Ev} (h : s.Fine) (hs : SStep i s e s') : s'.conf = s.conf ∨ Step i s.conf s'.conf := by
  cases hs with
  | other h1 h2 h3 => exact Or.inr h3
  | busy h1 h2 h3 h4 => exact Or.inl rfl
  | yield h1 => exact Or.inl rfl
  | free h1 h2 h3 h4 => exact Or.inr (.wait h1 h3 h4)
  | obsolete h1 h2 h3 h4 h5 => exact Or.inr (.lockFail h1 h3 h4 h5)
  | got h1 h2 h3 h4 h5 => exact Or.inl rfl
  | swap h1 h2 h3 h4 =>
    subst h4
    exact Or.inr (.lock h1 h3 (h i _ h2).1 (h i _ h2).2)
  | miss h1 h2 h3 h4 => exact Or.inl rfl

theorem SRun.fine {T : Nat} {s : Nat → SConf} {who : Nat → Nat} {ev : Nat → Ev} (h : SRun T s who ev) : ∀ t, t ≤ T → (s t).Fine := by
  intro t
  induction t with
  | zero => intro _; rw [h.init]; intro i v hv; cases hv
  | succ t ih => intro ht; exact (h.step t (by omega)).fine (ih (by omega))

end Art
