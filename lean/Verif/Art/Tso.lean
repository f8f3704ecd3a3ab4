import Verif.Art.TsoProg

/-!
# The calls on a machine with store buffers

The machine is the one of x86 (x86-TSO): the stores of a call go into a buffer of its processor, first in first out, and reach memory (`flush`) at any time later;
loads are done in the order of the program, and find the newest store of the own buffer to the same place, or else memory. The atomic instructions of lock.go
(`LOCK CMPXCHG`, `LOCK XADD`) wait until the own buffer is empty.

Critical sections are executed store by store (`Section.code`). The stores that fill a new node come before the store of the pointer to it and are in the same
buffer, so when this reaches memory, they have, and nobody could see the node before: they and the pointer are one item of the buffer (`link`). The node gets its
address when the item reaches memory; until then the section that made it does nothing more with it.

`compressChild` unlocks the child before it stores the pointer to it (node.go:441-443): `Sec.late`, and `Sec.release` at the unlock.

A racy read of a node is any number of looks at memory, as in `Verif.Art.Fine`. A load outside of a critical section goes to memory: the buffer of the call is empty then.
-/

namespace Art

open Surf Spec Props

/-- A store in a buffer. -/
inductive Item where
  /-- a store to a field of a node -/
  | store (a : Addr) (x : Field)
  /-- the stores that fill a new node, and the store of the pointer to it -/
  | link (n : Node) (loc : Loc)

/-- The store reaches memory. -/
def Item.apply : Item → Heap → Option Heap
  | .store a x, h => storeAt a x h
  | .link n loc, h => allocAt h loc n

/-- All stores of a buffer reach memory, the oldest first: what the call that made them sees. -/
def applyAll : List Item → Heap → Option Heap
  | [], h => some h
  | x :: xs, h => (x.apply h).bind (applyAll xs)

/-- What a call is in the middle of. -/
inductive Stage where
  /-- nothing -/
  | calm
  /-- a racy read: the node was `n` at first, and `same` says whether it was so whenever looked at -/
  | reading (n : Node) (same : Bool)
  /-- a critical section: what is left of it, and the stores that have not reached memory. Also after the section, until the call returns. -/
  | inside (s : Sec) (buf : List Item)

/-- A call: not started, running, returned, or panicked. -/
inductive TProc where
  | idle
  | running (c : Call) (p : MProg (Option Bytes)) (w : Stage)
  | done (c : Call) (o : Option Bytes)
  | crashed (c : Call)

/-- The state of the machine. `owner` (who has locked which node) is only for the proofs: no step depends on it. -/
structure TConf where
  heap : Heap
  owner : Addr → Option Nat
  procs : Nat → TProc

/-- The state with another memory, and call `i` at `p`. -/
def TConf.to (μ : TConf) (i : Nat) (h : Heap) (p : TProc) : TConf := ⟨h, μ.owner, fun j => if j = i then p else μ.procs j⟩

/-- Record that the lock of `a` is taken or released. -/
def TConf.own (μ : TConf) (a : Addr) (o : Option Nat) : TConf := { μ with owner := upd μ.owner a o }

/-- What is left of a section when a lock is released: nothing, or (node.go:441-443) the store of a pointer. -/
def Sec.release : Sec → Option Sec
  | .done => some .done
  | .late loc r => some (.store loc.1 (.child loc.2 (some r)) .done)
  | _ => none

/-- The section cannot go on: Go panics. -/
def Sec.Stuck (h : Heap) : Sec → Prop
  | .panic => True
  | .load a _ => h[a]? = none
  | .store a x _ => storeAt a x h = none
  | .link n loc => allocAt h loc n = none
  | _ => False

/-- No section, or one that is over and whose stores have reached memory. -/
def Stage.Over : Stage → Prop
  | .calm => True
  | .inside .done [] => True
  | _ => False

/-- One step of the call `i`. -/
inductive TStep (i : Nat) (μ : TConf) : TConf → Prop
  /-- art.go:36, 46, 56: the call begins -/
  | call (c fuel) : μ.procs i = .idle → c.Fits → TStep i μ (μ.to i μ.heap (.running c (c.mprog fuel) .calm))
  /-- the call returns -/
  | ret {c o w} : μ.procs i = .running c (.ret o) w → w.Over → TStep i μ (μ.to i μ.heap (.done c o))
  /-- the call panics outside of a section -/
  | crash {c p} : μ.procs i = .running c p .calm → (∀ t k, p ≠ .sect t k) → Faulty μ.heap p.erase → TStep i μ (μ.to i μ.heap (.crashed c))
  /-- lock.go:65-77 -/
  | wait {c a k n} : μ.procs i = .running c (.wait a k) .calm → μ.heap[a]? = some n → locked n.version = false →
      TStep i μ (μ.to i μ.heap (.running c (k n.version) .calm))
  /-- lock.go:20, 24 -/
  | load {c a k n} : μ.procs i = .running c (.load a k) .calm → μ.heap[a]? = some n → TStep i μ (μ.to i μ.heap (.running c (k n.version) .calm))
  /-- lock.go:32, 36: the compare-and-swap succeeds -/
  | cas {c a v k n} : μ.procs i = .running c (.cas a v k) .calm → μ.heap[a]? = some n → n.version = v →
      TStep i μ ((μ.to i (setVer μ.heap a (v + 2)) (.running c (k true) .calm)).own a (some i))
  /-- lock.go:32, 36: the compare-and-swap fails -/
  | casFail {c a v k n} : μ.procs i = .running c (.cas a v k) .calm → μ.heap[a]? = some n → n.version ≠ v →
      TStep i μ (μ.to i μ.heap (.running c (k false) .calm))
  /-- lock.go:43-55: the node is obsolete -/
  | lockFail {c a k n} : μ.procs i = .running c (.lock a k) .calm → μ.heap[a]? = some n → locked n.version = false → obsolete n.version = true →
      TStep i μ (μ.to i μ.heap (.running c (k false) .calm))
  /-- lock.go:43-55 -/
  | lock {c a k n} : μ.procs i = .running c (.lock a k) .calm → μ.heap[a]? = some n → locked n.version = false → obsolete n.version = false →
      TStep i μ ((μ.to i (setVer μ.heap a (n.version + 2)) (.running c (k true) .calm)).own a (some i))
  /-- lock.go:57-59, without a critical section before it -/
  | unlock {c a k n} : μ.procs i = .running c (.unlock a k) .calm → μ.heap[a]? = some n →
      TStep i μ ((μ.to i (setVer μ.heap a (n.version + 2)) (.running c k .calm)).own a none)
  /-- lock.go:57-59, after a critical section; the buffer is empty -/
  | unlockEnd {c a k n s s'} : μ.procs i = .running c (.unlock a k) (.inside s []) → s.release = some s' → μ.heap[a]? = some n →
      TStep i μ ((μ.to i (setVer μ.heap a (n.version + 2)) (.running c k (.inside s' []))).own a none)
  /-- lock.go:61-63; the buffer is empty -/
  | unlockObsolete {c a k n w} : μ.procs i = .running c (.unlockObsolete a k) w → w.Over → μ.heap[a]? = some n →
      TStep i μ ((μ.to i (setVer μ.heap a (n.version + 3)) (.running c k w)).own a none)
  /-- a read that is not atomic: the first look at the node -/
  | readBegin {c a v k n} : μ.procs i = .running c (.read a v k) .calm → μ.heap[a]? = some n →
      TStep i μ (μ.to i μ.heap (.running c (.read a v k) (.reading n true)))
  /-- another look -/
  | readLook {c a v k n s m} : μ.procs i = .running c (.read a v k) (.reading n s) → μ.heap[a]? = some m →
      TStep i μ (μ.to i μ.heap (.running c (.read a v k) (.reading n (s && decide (m = n)))))
  /-- the last look -/
  | readEnd {c a v k n s m} (r : Node) : μ.procs i = .running c (.read a v k) (.reading n s) → μ.heap[a]? = some m → r.cap = m.cap → (s = true → m = n → r = n) →
      TStep i μ (μ.to i μ.heap (.running c (k r) .calm))
  /-- art.go:38, 48, 58: `t.root` -/
  | readRoot {c k n} : μ.procs i = .running c (.readRoot k) .calm → μ.heap[0]? = some n → TStep i μ (μ.to i μ.heap (.running c (k n.root) .calm))
  /-- an order of evaluation -/
  | choose {c k} (b : Bool) : μ.procs i = .running c (.choose k) .calm → TStep i μ (μ.to i μ.heap (.running c (k b) .calm))
  /-- a critical section begins -/
  | enter {c t k} : μ.procs i = .running c (.sect t k) .calm → TStep i μ (μ.to i μ.heap (.running c k (.inside t.code [])))
  /-- a load within the section: the own stores are seen -/
  | secLoad {c p a k buf h n} : μ.procs i = .running c p (.inside (.load a k) buf) → applyAll buf μ.heap = some h → h[a]? = some n →
      TStep i μ (μ.to i μ.heap (.running c p (.inside (k n) buf)))
  /-- a store goes into the buffer -/
  | secStore {c p a x k buf h} : μ.procs i = .running c p (.inside (.store a x k) buf) → applyAll buf μ.heap = some h → storeAt a x h ≠ none →
      TStep i μ (μ.to i μ.heap (.running c p (.inside k (buf ++ [.store a x]))))
  /-- the stores to a new node and of the pointer to it go into the buffer -/
  | secLink {c p n loc buf h} : μ.procs i = .running c p (.inside (.link n loc) buf) → applyAll buf μ.heap = some h → allocAt h loc n ≠ none →
      TStep i μ (μ.to i μ.heap (.running c p (.inside .done (buf ++ [.link n loc]))))
  /-- the call panics in a section -/
  | secCrash {c p s buf h} : μ.procs i = .running c p (.inside s buf) → applyAll buf μ.heap = some h → s.Stuck h → TStep i μ (μ.to i μ.heap (.crashed c))
  /-- the oldest store of the buffer reaches memory -/
  | flush {c p s x buf h} : μ.procs i = .running c p (.inside s (x :: buf)) → x.apply μ.heap = some h → TStep i μ (μ.to i h (.running c p (.inside s buf)))

/-- art.go:27-32: a new tree, no call has begun -/
def TConf.init : TConf := ⟨new, fun _ => none, fun _ => .idle⟩

/-- The first `T` steps of a run: `μ t` is the state at the instant `t`, and step `t` is one of the call `who t`. -/
structure TRun (T : Nat) (μ : Nat → TConf) (who : Nat → Nat) : Prop where
  init : μ 0 = TConf.init
  step : ∀ t, t < T → TStep (who t) (μ t) (μ (t + 1))

end Art
