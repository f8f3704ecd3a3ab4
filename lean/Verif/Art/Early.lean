import Verif.Art.System

/-!
# Loads of versions ahead of reads

On x86 loads are not reordered, so the version that validates a read is loaded after the fields of the node. On arm64 `atomic.LoadUint64` (lock.go:20, 24) is a load-acquire (`LDAR`): it keeps later accesses behind it, and
itself behind earlier acquires, but plain loads before it in the program may be done after it. The Go memory model promises nothing else for plain accesses that race with writes.

This machine has only this one liberty: while a call reads a node, it may load the version of the node ahead of the read (`ahead`), and the load that comes after the read in the program takes this version (`load`). Everything
else is as in `Verif.Art.System`, apart from reads: a read looks at the node at two instants, and finds each field, and each element of each array, as it was at one of them (`Between`). These are by far not all
executions of arm64, but all of them are.
-/

namespace Art

open Surf Spec Props

/-- Each element is that of the first or of the second array. -/
def Pick {α : Type} (xs ys zs : List α) : Prop := ∀ j : Nat, zs[j]? = xs[j]? ∨ zs[j]? = ys[j]?

/-- The same for the arrays of a node. -/
inductive KidsBetween : Kids → Kids → Kids → Prop
  | n4 {k k' k'' : Bytes} {c c' c'' : List (Option Ref)} : Pick k k' k'' → Pick c c' c'' → KidsBetween (.n4 k c) (.n4 k' c') (.n4 k'' c'')
  | n16 {k k' k'' : Bytes} {c c' c'' : List (Option Ref)} : Pick k k' k'' → Pick c c' c'' → KidsBetween (.n16 k c) (.n16 k' c') (.n16 k'' c'')
  | n48 {k k' k'' : List Nat} {c c' c'' : List (Option Ref)} {s s' s'' : Word} : Pick k k' k'' → Pick c c' c'' → (s'' = s ∨ s'' = s') → KidsBetween (.n48 k c s) (.n48 k' c' s') (.n48 k'' c'' s'')
  | n256 {c c' c'' : List (Option Ref)} : Pick c c' c'' → KidsBetween (.n256 c) (.n256 c') (.n256 c'')
  | dummy {r r' r'' : Option Ref} : (r'' = r ∨ r'' = r') → KidsBetween (.dummy r) (.dummy r') (.dummy r'')

/-- What a read may find (`r`) that looks at a node when it is `n` and when it is `m`. -/
structure Between (n m r : Node) : Prop where
  version : r.version = n.version ∨ r.version = m.version
  numChildren : r.numChildren = n.numChildren ∨ r.numChildren = m.numChildren
  prefixLen : r.prefixLen = n.prefixLen ∨ r.prefixLen = m.prefixLen
  pre : Pick n.pre m.pre r.pre
  prefixLeaf : r.prefixLeaf = n.prefixLeaf ∨ r.prefixLeaf = m.prefixLeaf
  kids : KidsBetween n.kids m.kids r.kids

/-- The state: that of `Verif.Art.System`, what calls have found at the first look of a read, and the versions they have loaded ahead. -/
structure EConf where
  base : Conf
  first : Nat → Option Node
  early : Nat → Option (Addr × Nat)

/-- The function with another value at `i`. -/
def put1 {α : Type} (f : Nat → α) (i : Nat) (x : α) : Nat → α := fun j => if j = i then x else f j

/-- One step of the call `i`. With `weak = false` no version is loaded ahead. -/
inductive EStep (weak : Bool) (i : Nat) (σ : EConf) : EConf → Prop
  /-- all but reads, as before -/
  | plain {τ} : Step i σ.base τ → σ.first i = none → σ.early i = none → (∀ c a v k, σ.base.procs i ≠ .running c (.read a v k)) → EStep weak i σ ⟨τ, σ.first, σ.early⟩
  /-- a read: the first look -/
  | look {c a v k n} : σ.base.procs i = .running c (.read a v k) → σ.first i = none → σ.base.heap[a]? = some n → EStep weak i σ ⟨σ.base, put1 σ.first i (some n), σ.early⟩
  /-- a read: the second look -/
  | read {c a v k n m r} : σ.base.procs i = .running c (.read a v k) → σ.first i = some n → σ.base.heap[a]? = some m → Between n m r →
      EStep weak i σ ⟨σ.base.to i σ.base.heap (.running c (k r)), put1 σ.first i none, σ.early⟩
  /-- lock.go:20, 24, ahead of a read of the same node -/
  | ahead {c a v k n} : weak = true → σ.base.procs i = .running c (.read a v k) → σ.early i = none → σ.base.heap[a]? = some n → EStep weak i σ ⟨σ.base, σ.first, put1 σ.early i (some (a, n.version))⟩
  /-- lock.go:20, 24: the version that was loaded ahead -/
  | load {c a k v} : σ.base.procs i = .running c (.load a k) → σ.early i = some (a, v) →
      EStep weak i σ ⟨σ.base.to i σ.base.heap (.running c (k v)), σ.first, put1 σ.early i none⟩

def EConf.init : EConf := ⟨Conf.init, fun _ => none, fun _ => none⟩

/-- The first `T` steps of a run. -/
structure ERun (weak : Bool) (T : Nat) (σ : Nat → EConf) (who : Nat → Nat) : Prop where
  init : σ 0 = EConf.init
  step : ∀ t, t < T → EStep weak (who t) (σ t) (σ (t + 1))

end Art
