import Verif.Art.Fine
import Verif.Art.Wrap

/-!
# The calls in smaller steps, in the 32-bit arithmetic of the code

The steps of `Verif.Art.Fine`, with the programs of `Verif.Art.Wrap`, in which every `uint32` sum and difference is taken modulo 2^32.

`prefixLen` is one aligned word of 32 bits. What is read of it has been stored at some time, be it within a critical section that is not over. A critical section stores it at most once in a node that others can see
(node.go:439, 561, 566). So, unlike all else in a node that is being changed, it does not hold anything; see `Stored`.
-/

namespace Art.U32

open Surf (Word Bytes)
open Spec Props

/-- The prefix lengths that the node `a`, now `n`, may have after a store of the call `i` within a critical section: the one it has, or a smaller one (node.go:566 stores the shorter length, and node.go:567 may panic after that), or what the
section makes of it (node.go:439, 561, 566). -/
def Stored (φ : FConf) (i : Nat) (p : Prog (Option Bytes)) (w : Phase) (a : Addr) (n : Node) (l : Nat) : Prop :=
  l ≤ n.prefixLen ∨
  (∃ f k h0 h1 m, p = .write f k ∧ w = .opened h0 ∧ f (φ.seen i (.opened h0)) = some h1 ∧ h1[a]? = some m ∧ m.prefixLen = l) ∨
  ∃ h1 m, w = .closing h1 ∧ h1[a]? = some m ∧ m.prefixLen = l

/-- One step of the call `i`, if `B a l` says that the word with the prefix length of the node `a` has held `l`. -/
inductive FStep (B : Addr → Nat → Prop) (i : Nat) (φ : FConf) : FConf → Prop
  /-- art.go:36, 46, 56: the call begins -/
  | call (c fuel) : φ.procs i = .idle → Small c → FStep B i φ (φ.to i φ.heap (.running c (prog c fuel) .calm))
  /-- the call returns -/
  | ret {c o w} : φ.procs i = .running c (.ret o) w → FStep B i φ (φ.to i φ.heap (.done c o))
  /-- the call panics -/
  | crash {c p w} : φ.procs i = .running c p w → Faulty (φ.seen i w) p → FStep B i φ (φ.to i φ.heap (.crashed c))
  /-- lock.go:65-77 -/
  | wait {c a k n} : φ.procs i = .running c (.wait a k) .calm → φ.heap[a]? = some n → locked n.version = false →
      FStep B i φ (φ.to i φ.heap (.running c (k n.version) .calm))
  /-- lock.go:20, 24 -/
  | load {c a k n} : φ.procs i = .running c (.load a k) .calm → φ.heap[a]? = some n → FStep B i φ (φ.to i φ.heap (.running c (k n.version) .calm))
  /-- lock.go:32, 36: the compare-and-swap succeeds -/
  | cas {c a v k n} : φ.procs i = .running c (.cas a v k) .calm → φ.heap[a]? = some n → n.version = v →
      FStep B i φ ((φ.to i (setVer φ.heap a (v + 2)) (.running c (k true) .calm)).own a (some i))
  /-- lock.go:32, 36: the compare-and-swap fails -/
  | casFail {c a v k n} : φ.procs i = .running c (.cas a v k) .calm → φ.heap[a]? = some n → n.version ≠ v →
      FStep B i φ (φ.to i φ.heap (.running c (k false) .calm))
  /-- lock.go:43-55: the node is obsolete -/
  | lockFail {c a k n} : φ.procs i = .running c (.lock a k) .calm → φ.heap[a]? = some n → locked n.version = false → obsolete n.version = true →
      FStep B i φ (φ.to i φ.heap (.running c (k false) .calm))
  /-- lock.go:43-55 -/
  | lock {c a k n} : φ.procs i = .running c (.lock a k) .calm → φ.heap[a]? = some n → locked n.version = false → obsolete n.version = false →
      FStep B i φ ((φ.to i (setVer φ.heap a (n.version + 2)) (.running c (k true) .calm)).own a (some i))
  /-- lock.go:57-59, without a critical section before it -/
  | unlock {c a k n} : φ.procs i = .running c (.unlock a k) .calm → φ.heap[a]? = some n →
      FStep B i φ ((φ.to i (setVer φ.heap a (n.version + 2)) (.running c k .calm)).own a none)
  /-- lock.go:57-59, at the end of a critical section: the node is now what the section has made of it -/
  | unlockEnd {c a k n h1 r} : φ.procs i = .running c (.unlock a k) (.closing h1) → φ.heap[a]? = some n → h1[a]? = some r →
      FStep B i φ ((φ.to i (φ.heap.set a { r with version := n.version + 2 }) (.running c k (.closing h1))).own a none)
  /-- lock.go:61-63; the node may hold anything -/
  | unlockObsolete {c a k n w} (r : Node) : φ.procs i = .running c (.unlockObsolete a k) w → φ.heap[a]? = some n → r.cap = n.cap → Stored φ i (.unlockObsolete a k) w a n r.prefixLen →
      FStep B i φ ((φ.to i (φ.heap.set a { r with version := n.version + 3 }) (.running c k w)).own a none)
  /-- a read that is not atomic: the first look at the node -/
  | readBegin {c a v k n} : φ.procs i = .running c (.read a v k) .calm → φ.heap[a]? = some n →
      FStep B i φ (φ.to i φ.heap (.running c (.read a v k) (.reading n true)))
  /-- another look -/
  | readLook {c a v k n s m} : φ.procs i = .running c (.read a v k) (.reading n s) → φ.heap[a]? = some m →
      FStep B i φ (φ.to i φ.heap (.running c (.read a v k) (.reading n (s && decide (m = n)))))
  /-- the last look -/
  | readEnd {c a v k n s m} (r : Node) : φ.procs i = .running c (.read a v k) (.reading n s) → φ.heap[a]? = some m → r.cap = m.cap → (s = true → m = n → r = n) → B a r.prefixLen →
      FStep B i φ (φ.to i φ.heap (.running c (k r) .calm))
  /-- art.go:38, 48, 58: `t.root` -/
  | readRoot {c k n} : φ.procs i = .running c (.readRoot k) .calm → φ.heap[0]? = some n → FStep B i φ (φ.to i φ.heap (.running c (k n.root) .calm))
  /-- an order of evaluation -/
  | choose {c k} (b : Bool) : φ.procs i = .running c (.choose k) .calm → FStep B i φ (φ.to i φ.heap (.running c (k b) .calm))
  /-- a critical section begins -/
  | enter {c f k} : φ.procs i = .running c (.write f k) .calm → FStep B i φ (φ.to i φ.heap (.running c (.write f k) (.opened φ.heap)))
  /-- a store to a locked node -/
  | scribble {c p w a n} (r : Node) : φ.procs i = .running c p w → w.inside = true → φ.owner a = some i → a ≠ 0 → φ.heap[a]? = some n → r.cap = n.cap → r.version = n.version → Stored φ i p w a n r.prefixLen →
      FStep B i φ (φ.to i (φ.heap.set a r) (.running c p w))
  /-- the root pointer is stored, and the new nodes can be seen -/
  | commit {c f k h0 h1} : φ.procs i = .running c (.write f k) (.opened h0) → f (φ.seen i (.opened h0)) = some h1 →
      FStep B i φ (φ.to i (overlay (fun a => φ.mine i a && a != 0) h1 φ.heap) (.running c k (.closing h1)))
  /-- all locked nodes are what the section has made of them, and the section is over -/
  | settle {c p h1} : φ.procs i = .running c p (.closing h1) → FStep B i φ (φ.to i (overlay (φ.mine i) φ.heap h1) (.running c p .calm))

/-- The prefix lengths that the node `a` has had until the instant `t`, also in the middle of critical sections. -/
def FHad (φ : Nat → FConf) (t : Nat) (a : Addr) (l : Nat) : Prop := ∃ t' n, t' ≤ t ∧ (φ t').heap[a]? = some n ∧ n.prefixLen = l

/-- The first `T` steps of a run: `φ t` is the state at the instant `t`, and step `t` is one of the call `who t`. -/
structure FRun (T : Nat) (φ : Nat → FConf) (who : Nat → Nat) : Prop where
  init : φ 0 = FConf.init
  step : ∀ t, t < T → FStep (FHad φ t) (who t) (φ t) (φ (t + 1))

end Art.U32
