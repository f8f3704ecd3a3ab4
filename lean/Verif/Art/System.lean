import Verif.Props.ArtSeq

/-!
# Any number of calls running at the same time

A call is a process with a number. A thread that makes several calls is several processes that start one after the other; every
schedule of every number of threads is among the runs considered here. One step of a run is one access to shared memory by one call
(sequential consistency). `owner` only records who took which lock; no step depends on it.
-/

namespace Art

open Surf Spec Props

/-- A call: not started, running with the program still to be run, returned, or panicked. -/
inductive Proc where
  | idle
  | running (c : Call) (p : Prog (Option Bytes))
  | done (c : Call) (o : Option Bytes)
  | crashed (c : Call)

/-- The state of the system. -/
structure Conf where
  heap : Heap
  owner : Addr → Option Nat
  procs : Nat → Proc

/-- The state with another heap, and call `i` at `p`. -/
def Conf.to (σ : Conf) (i : Nat) (h : Heap) (p : Proc) : Conf := ⟨h, σ.owner, fun j => if j = i then p else σ.procs j⟩

/-- Record that the lock of `a` is taken or released. -/
def Conf.own (σ : Conf) (a : Addr) (o : Option Nat) : Conf := { σ with owner := upd σ.owner a o }

/-- A program can do nothing but crash: it accesses an address outside of the heap, or a critical section panics. -/
def Faulty (h : Heap) : Prog (Option Bytes) → Prop
  | .panic => True
  | .wait a _ => h[a]? = none
  | .load a _ => h[a]? = none
  | .cas a _ _ => h[a]? = none
  | .lock a _ => h[a]? = none
  | .unlock a _ => h[a]? = none
  | .unlockObsolete a _ => h[a]? = none
  | .read a _ _ => h[a]? = none
  | .readRoot _ => h[0]? = none
  | .write f _ => f h = none
  | _ => False

/-- One step of the call `i`. Waiting for a lock (lock.go:43-55, 65-77) is no step. The steps of `lock.go` are those of `Prog.run`. A racy read
gives what is there if the version is still the one the reader believes in, otherwise any contents of the same node type. -/
inductive Step (i : Nat) (σ : Conf) : Conf → Prop
  /-- art.go:36, 46, 56: the call begins -/
  | call (c fuel) : σ.procs i = .idle → c.Fits → Step i σ (σ.to i σ.heap (.running c (c.prog fuel)))
  /-- the call returns -/
  | ret {c o} : σ.procs i = .running c (.ret o) → Step i σ (σ.to i σ.heap (.done c o))
  /-- the call panics -/
  | crash {c p} : σ.procs i = .running c p → Faulty σ.heap p → Step i σ (σ.to i σ.heap (.crashed c))
  /-- lock.go:65-77 -/
  | wait {c a k n} : σ.procs i = .running c (.wait a k) → σ.heap[a]? = some n → locked n.version = false →
      Step i σ (σ.to i σ.heap (.running c (k n.version)))
  /-- lock.go:20, 24 -/
  | load {c a k n} : σ.procs i = .running c (.load a k) → σ.heap[a]? = some n → Step i σ (σ.to i σ.heap (.running c (k n.version)))
  /-- lock.go:32, 36: the compare-and-swap succeeds -/
  | cas {c a v k n} : σ.procs i = .running c (.cas a v k) → σ.heap[a]? = some n → n.version = v →
      Step i σ ((σ.to i (setVer σ.heap a (v + 2)) (.running c (k true))).own a (some i))
  /-- lock.go:32, 36: the compare-and-swap fails -/
  | casFail {c a v k n} : σ.procs i = .running c (.cas a v k) → σ.heap[a]? = some n → n.version ≠ v →
      Step i σ (σ.to i σ.heap (.running c (k false)))
  /-- lock.go:43-55: the node is obsolete -/
  | lockFail {c a k n} : σ.procs i = .running c (.lock a k) → σ.heap[a]? = some n → locked n.version = false → obsolete n.version = true →
      Step i σ (σ.to i σ.heap (.running c (k false)))
  /-- lock.go:43-55 -/
  | lock {c a k n} : σ.procs i = .running c (.lock a k) → σ.heap[a]? = some n → locked n.version = false → obsolete n.version = false →
      Step i σ ((σ.to i (setVer σ.heap a (n.version + 2)) (.running c (k true))).own a (some i))
  /-- lock.go:57-59 -/
  | unlock {c a k n} : σ.procs i = .running c (.unlock a k) → σ.heap[a]? = some n →
      Step i σ ((σ.to i (setVer σ.heap a (n.version + 2)) (.running c k)).own a none)
  /-- lock.go:61-63 -/
  | unlockObsolete {c a k n} : σ.procs i = .running c (.unlockObsolete a k) → σ.heap[a]? = some n →
      Step i σ ((σ.to i (setVer σ.heap a (n.version + 3)) (.running c k)).own a none)
  /-- a read that is not atomic -/
  | read {c a v k n} (r : Node) : σ.procs i = .running c (.read a v k) → σ.heap[a]? = some n → r.cap = n.cap → (n.version = v → r = n) →
      Step i σ (σ.to i σ.heap (.running c (k r)))
  /-- art.go:38, 48, 58: `t.root` -/
  | readRoot {c k n} : σ.procs i = .running c (.readRoot k) → σ.heap[0]? = some n → Step i σ (σ.to i σ.heap (.running c (k n.root)))
  /-- an order of evaluation -/
  | choose {c k} (b : Bool) : σ.procs i = .running c (.choose k) → Step i σ (σ.to i σ.heap (.running c (k b)))
  /-- the changes of a critical section -/
  | write {c f k h} : σ.procs i = .running c (.write f k) → f σ.heap = some h → Step i σ (σ.to i h (.running c k))

/-- art.go:27-32: a new tree, no call has begun -/
def Conf.init : Conf := ⟨new, fun _ => none, fun _ => .idle⟩

/-- The first `T` steps of a run: `σ t` is the state at the instant `t`, and step `t` is one of the call `who t`. -/
structure Run (T : Nat) (σ : Nat → Conf) (who : Nat → Nat) : Prop where
  init : σ 0 = Conf.init
  step : ∀ t, t < T → Step (who t) (σ t) (σ (t + 1))

/-- The tree in the heap holds the value under the key. -/
def Holds (h : Heap) (K v : Bytes) : Prop :=
  ∃ (a : Addr) (n : Node) (l : Leaf), InTree h a ∧ h[a]? = some n ∧ (n.prefixLeaf = some l ∨ ∃ b, n.child b = some (.leaf l)) ∧ l.key = K ∧ l.value = v

/-- The map that the tree in the heap stands for. -/
def Stands (h : Heap) (m : Map) : Prop := ∀ K v, m K = some v ↔ Holds h K v

end Art
