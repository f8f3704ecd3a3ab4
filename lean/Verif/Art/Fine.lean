import Verif.Art.System

/-!
# The same calls in smaller steps

In `Verif.Art.System` the changes of a critical section are one step, and so is a racy read of a node. Here neither is.

* A critical section begins (`enter`); from then on until their locks are released the nodes locked by the call hold anything, changed in
  any number of steps (`scribble`): this covers the stores of the code in whatever order, field by field. At one instant (`commit`) the root
  pointer is stored, if the section stores it (it is guarded by the dummy node and read without version), and the nodes that the section
  has allocated can be seen. The code fills a new node before it stores a pointer to it (node.go:256-287, 306-329, 446-491, 545-573),
  and nobody can see a new node before. When a lock is released, its node holds what the section made of it; a node that becomes
  obsolete may hold anything (node.go:426-432 write to the prefix of such a node).
  So `compressChild` may store the pointer to the child after it has unlocked the child (node.go:441-443).
* A racy read looks at the node any number of times (`readBegin`, `readLook`, `readEnd`). If each time the node was the same, the result
  is this node; otherwise it is anything of the same kind.
-/

namespace Art

open Surf Spec Props

/-- What a call is in the middle of. -/
inductive Phase where
  /-- nothing -/
  | calm
  /-- a critical section that began when memory was `h0` -/
  | opened (h0 : Heap)
  /-- the end of a critical section, which makes of memory `h1` -/
  | closing (h1 : Heap)
  /-- a racy read: the node was `n` at first, and `same` says whether it was so whenever looked at -/
  | reading (n : Node) (same : Bool)

/-- A call: not started, running, returned, or panicked. -/
inductive FProc where
  | idle
  | running (c : Call) (p : Prog (Option Bytes)) (w : Phase)
  | done (c : Call) (o : Option Bytes)
  | crashed (c : Call)

/-- The state of the system. -/
structure FConf where
  heap : Heap
  owner : Addr → Option Nat
  procs : Nat → FProc

/-- The state with another heap, and call `i` at `p`. -/
def FConf.to (φ : FConf) (i : Nat) (h : Heap) (p : FProc) : FConf := ⟨h, φ.owner, fun j => if j = i then p else φ.procs j⟩

/-- Record that the lock of `a` is taken or released. -/
def FConf.own (φ : FConf) (a : Addr) (o : Option Nat) : FConf := { φ with owner := upd φ.owner a o }

/-- The nodes of `base`, but at the addresses of `S` those of `top`. -/
def overlay (S : Addr → Bool) (base top : Heap) : Heap := base.mapIdx fun a n => if S a then top[a]?.getD n else n

/-- The nodes locked by `i`. -/
def FConf.mine (φ : FConf) (i : Nat) (a : Addr) : Bool := φ.owner a == some i

/-- Memory as the critical section of `i` sees it that began at `h0`: what it has scribbled is not read by it again. At the end of a
critical section: memory as it will be. -/
def FConf.seen (φ : FConf) (i : Nat) : Phase → Heap
  | .opened h0 => overlay (φ.mine i) φ.heap h0
  | .closing h1 => overlay (φ.mine i) φ.heap h1
  | _ => φ.heap

/-- Within a critical section, or at its end. -/
def Phase.inside : Phase → Bool
  | .opened _ => true
  | .closing _ => true
  | _ => false

/-- One step of the call `i`. -/
inductive FStep (i : Nat) (φ : FConf) : FConf → Prop
  /-- art.go:36, 46, 56: the call begins -/
  | call (c fuel) : φ.procs i = .idle → c.Fits → FStep i φ (φ.to i φ.heap (.running c (c.prog fuel) .calm))
  /-- the call returns -/
  | ret {c o w} : φ.procs i = .running c (.ret o) w → FStep i φ (φ.to i φ.heap (.done c o))
  /-- the call panics -/
  | crash {c p w} : φ.procs i = .running c p w → Faulty (φ.seen i w) p → FStep i φ (φ.to i φ.heap (.crashed c))
  /-- lock.go:65-77 -/
  | wait {c a k n} : φ.procs i = .running c (.wait a k) .calm → φ.heap[a]? = some n → locked n.version = false →
      FStep i φ (φ.to i φ.heap (.running c (k n.version) .calm))
  /-- lock.go:20, 24 -/
  | load {c a k n} : φ.procs i = .running c (.load a k) .calm → φ.heap[a]? = some n → FStep i φ (φ.to i φ.heap (.running c (k n.version) .calm))
  /-- lock.go:32, 36: the compare-and-swap succeeds -/
  | cas {c a v k n} : φ.procs i = .running c (.cas a v k) .calm → φ.heap[a]? = some n → n.version = v →
      FStep i φ ((φ.to i (setVer φ.heap a (v + 2)) (.running c (k true) .calm)).own a (some i))
  /-- lock.go:32, 36: the compare-and-swap fails -/
  | casFail {c a v k n} : φ.procs i = .running c (.cas a v k) .calm → φ.heap[a]? = some n → n.version ≠ v →
      FStep i φ (φ.to i φ.heap (.running c (k false) .calm))
  /-- lock.go:43-55: the node is obsolete -/
  | lockFail {c a k n} : φ.procs i = .running c (.lock a k) .calm → φ.heap[a]? = some n → locked n.version = false → obsolete n.version = true →
      FStep i φ (φ.to i φ.heap (.running c (k false) .calm))
  /-- lock.go:43-55 -/
  | lock {c a k n} : φ.procs i = .running c (.lock a k) .calm → φ.heap[a]? = some n → locked n.version = false → obsolete n.version = false →
      FStep i φ ((φ.to i (setVer φ.heap a (n.version + 2)) (.running c (k true) .calm)).own a (some i))
  /-- lock.go:57-59, without a critical section before it -/
  | unlock {c a k n} : φ.procs i = .running c (.unlock a k) .calm → φ.heap[a]? = some n →
      FStep i φ ((φ.to i (setVer φ.heap a (n.version + 2)) (.running c k .calm)).own a none)
  /-- lock.go:57-59, at the end of a critical section: the node is now what the section has made of it -/
  | unlockEnd {c a k n h1 r} : φ.procs i = .running c (.unlock a k) (.closing h1) → φ.heap[a]? = some n → h1[a]? = some r →
      FStep i φ ((φ.to i (φ.heap.set a { r with version := n.version + 2 }) (.running c k (.closing h1))).own a none)
  /-- lock.go:61-63; the node may hold anything -/
  | unlockObsolete {c a k n w} (r : Node) : φ.procs i = .running c (.unlockObsolete a k) w → φ.heap[a]? = some n → r.cap = n.cap →
      FStep i φ ((φ.to i (φ.heap.set a { r with version := n.version + 3 }) (.running c k w)).own a none)
  /-- a read that is not atomic: the first look at the node -/
  | readBegin {c a v k n} : φ.procs i = .running c (.read a v k) .calm → φ.heap[a]? = some n →
      FStep i φ (φ.to i φ.heap (.running c (.read a v k) (.reading n true)))
  /-- another look -/
  | readLook {c a v k n s m} : φ.procs i = .running c (.read a v k) (.reading n s) → φ.heap[a]? = some m →
      FStep i φ (φ.to i φ.heap (.running c (.read a v k) (.reading n (s && decide (m = n)))))
  /-- the last look -/
  | readEnd {c a v k n s m} (r : Node) : φ.procs i = .running c (.read a v k) (.reading n s) → φ.heap[a]? = some m → r.cap = m.cap → (s = true → m = n → r = n) →
      FStep i φ (φ.to i φ.heap (.running c (k r) .calm))
  /-- art.go:38, 48, 58: `t.root` -/
  | readRoot {c k n} : φ.procs i = .running c (.readRoot k) .calm → φ.heap[0]? = some n → FStep i φ (φ.to i φ.heap (.running c (k n.root) .calm))
  /-- an order of evaluation -/
  | choose {c k} (b : Bool) : φ.procs i = .running c (.choose k) .calm → FStep i φ (φ.to i φ.heap (.running c (k b) .calm))
  /-- a critical section begins -/
  | enter {c f k} : φ.procs i = .running c (.write f k) .calm → FStep i φ (φ.to i φ.heap (.running c (.write f k) (.opened φ.heap)))
  /-- a store to a locked node -/
  | scribble {c p w a n} (r : Node) : φ.procs i = .running c p w → w.inside = true → φ.owner a = some i → a ≠ 0 → φ.heap[a]? = some n → r.cap = n.cap → r.version = n.version →
      FStep i φ (φ.to i (φ.heap.set a r) (.running c p w))
  /-- the root pointer is stored, and the new nodes can be seen -/
  | commit {c f k h0 h1} : φ.procs i = .running c (.write f k) (.opened h0) → f (φ.seen i (.opened h0)) = some h1 →
      FStep i φ (φ.to i (overlay (fun a => φ.mine i a && a != 0) h1 φ.heap) (.running c k (.closing h1)))
  /-- all locked nodes are what the section has made of them, and the section is over -/
  | settle {c p h1} : φ.procs i = .running c p (.closing h1) → FStep i φ (φ.to i (overlay (φ.mine i) φ.heap h1) (.running c p .calm))

/-- art.go:27-32: a new tree, no call has begun -/
def FConf.init : FConf := ⟨new, fun _ => none, fun _ => .idle⟩

/-- The first `T` steps of a run: `φ t` is the state at the instant `t`, and step `t` is one of the call `who t`. -/
structure FRun (T : Nat) (φ : Nat → FConf) (who : Nat → Nat) : Prop where
  init : φ 0 = FConf.init
  step : ∀ t, t < T → FStep (who t) (φ t) (φ (t + 1))

end Art
