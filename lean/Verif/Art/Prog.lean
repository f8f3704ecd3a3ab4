import Verif.Art.Node

/-!
# Model of `art/art.go` and `art/lock.go`: the operations as programs over a shared heap

`Get`, `Put` and `Delete` are programs in a small language whose steps are the accesses to shared memory. The same programs are run
alone (`Prog.run`) and interleaved with others (`Step` in `Verif.Art.System`).

* Loops take fuel; a program that uses it up is at `diverge`. Every statement holds for all amounts of fuel.
* `read a v` is a read of fields of the node `a` that is not atomic. `v` is the version the reader got from `a` before. If the
  version is still `v`, nobody has changed the node meanwhile, and the read gives what is there; otherwise other writers may have
  been at work and the read gives any contents whatsoever (of the same node type, which never changes).
* `write f` is the body of a critical section: all changes between taking and releasing the locks, as one step. While the locks
  are held no other reader can see anything but "any contents" of the locked nodes.
-/

namespace Art

open Surf (Word Bytes usub)

/-- lock.go:12, 68: bit 0 says that the node is obsolete -/
def obsolete (v : Nat) : Bool := v % 2 == 1
/-- lock.go:68: bit 1 says that the node is locked -/
def locked (v : Nat) : Bool := v / 2 % 2 == 1

/-- Programs over the shared heap. -/
inductive Prog (α : Type) where
  /-- return -/
  | ret (a : α)
  /-- a Go panic -/
  | panic
  /-- the fuel of a loop is used up -/
  | diverge
  /-- lock.go:65-77 `waitUnlock`: spin until the node is not locked, then give its version -/
  | wait (a : Addr) (k : Nat → Prog α)
  /-- lock.go:20, 24: atomic load of the version -/
  | load (a : Addr) (k : Nat → Prog α)
  /-- lock.go:32, 36: compare-and-swap of the version from `v` to `v + 2` -/
  | cas (a : Addr) (v : Nat) (k : Bool → Prog α)
  /-- lock.go:43-55 `lock`: spin until the node is obsolete (false) or locked by the caller (true); the failing rounds only
  read the version -/
  | lock (a : Addr) (k : Bool → Prog α)
  /-- lock.go:57-59 -/
  | unlock (a : Addr) (k : Prog α)
  /-- lock.go:61-63 -/
  | unlockObsolete (a : Addr) (k : Prog α)
  /-- racy read of a node believed to be at version `v` -/
  | read (a : Addr) (v : Nat) (k : Node → Prog α)
  /-- read of the pointer `t.root` -/
  | readRoot (k : Option Ref → Prog α)
  /-- an order of evaluation Go leaves open -/
  | choose (k : Bool → Prog α)
  /-- the changes of a critical section -/
  | write (f : Heap → Option Heap) (k : Prog α)

namespace Prog

/-- Sequencing. -/
def bind {α β : Type} : Prog α → (α → Prog β) → Prog β
  | .ret a, f => f a
  | .panic, _ => .panic
  | .diverge, _ => .diverge
  | .wait a k, f => .wait a (fun x => (k x).bind f)
  | .load a k, f => .load a (fun x => (k x).bind f)
  | .cas a v k, f => .cas a v (fun x => (k x).bind f)
  | .lock a k, f => .lock a (fun x => (k x).bind f)
  | .unlock a k, f => .unlock a (k.bind f)
  | .unlockObsolete a k, f => .unlockObsolete a (k.bind f)
  | .read a v k, f => .read a v (fun x => (k x).bind f)
  | .readRoot k, f => .readRoot (fun x => (k x).bind f)
  | .choose k, f => .choose (fun x => (k x).bind f)
  | .write g k, f => .write g (k.bind f)

end Prog

/-! ## Get -/

/-- art.go:88-93: the pointer the search follows -/
def nextNode (n : Node) (key : Bytes) (depth : Nat) : Option Ref :=
  if depth = key.length then n.prefixLeaf.map .leaf
  else match key[depth]? with
    | some b => (n.findChild b).map (·.1)
    | none => none

/-- art.go:65-121 `search`; `none` means that the search has to be restarted -/
def search (key : Bytes) : Nat → Nat → Addr → Nat → Addr → Prog (Option (Option Bytes))
  | 0, _, _, _, _ => .diverge
  | fuel + 1, depth, parent, parentVersion, curr =>
    .wait curr fun version =>
    if obsolete version then .ret none else
    .load parent fun w =>
    if w ≠ parentVersion then .ret none else
    .read curr version fun n =>
    if (n.checkPrefix key depth).2 = false then
      .load curr fun w => .ret (if w = version then some none else none)
    else
    .read curr version fun n' =>
    .load curr fun w =>
    if w ≠ version then .ret none else
    match nextNode n' key (n.checkPrefix key depth).1 with
    | none => .ret (some none)
    | some (.leaf l) => .ret (some (if l.matchKey key then some l.value else none))
    | some (.node c) => search key fuel ((n.checkPrefix key depth).1 + 1) curr version c

/-- art.go:38, 48, 58: `t.root` is read and `t.dummy.waitUnlock()` is called, in an order Go does not fix -/
def start {α : Type} (k : Addr → Nat → Prog α) : Prog α :=
  .choose fun rootFirst =>
  if rootFirst then
    .readRoot fun r => .wait 0 fun v => match r with
      | some (.node a) => k a v
      | _ => .panic
  else
    .wait 0 fun v => .readRoot fun r => match r with
      | some (.node a) => k a v
      | _ => .panic

/-- art.go:36-42 `Get` -/
def get (key : Bytes) : Nat → Prog (Option Bytes)
  | 0 => .diverge
  | fuel + 1 => (start fun r v => search key fuel 0 0 v r).bind fun
    | some x => .ret x
    | none => get key fuel

/-! ## Put -/

/-- node.go:575-607 `fullKey` -/
def fullKey : Nat → Addr → Nat → Prog (Option Bytes)
  | 0, _, _ => .diverge
  | fuel + 1, curr, version =>
    .read curr version fun n =>
    match n.prefixLeaf with
    | some l => .load curr fun w => .ret (if w = version then some l.key else none)
    | none =>
      .read curr version fun n =>
      match n.firstChild with
      | none => .panic
      | some next =>
        .load curr fun w =>
        if w ≠ version then .ret none else
        match next with
        | none => .panic
        | some (.leaf l) => .load curr fun w => .ret (if w = version then some l.key else none)
        | some (.node c) =>
          .wait c fun v =>
          if obsolete v then .ret none else fullKey fuel c v

/-- node.go:614-618, 638-642: the number of leading positions (at most `len`) at which `a` has the bytes of `b`; a position
outside of `a` is a panic -/
def agree (a b : Bytes) : Nat → Option Nat
  | 0 => some 0
  | len + 1 =>
    match a, b with
    | x :: a, y :: b => if x ≠ y then some 0 else (agree a b len).map (· + 1)
    | _, _ => none

/-- node.go:612-619 -/
def mismatchShort (n : Node) (key : Bytes) (depth : Nat) : Option Nat := do
  let rest ← usub key.length depth
  agree n.pre (key.drop depth) (min rest n.prefixLen)

/-- node.go:637-643 -/
def mismatchLong (n : Node) (key full : Bytes) (depth : Nat) : Option Nat :=
  agree (full.drop depth) (key.drop depth) (min key.length (depth + n.prefixLen) - depth)

/-- node.go:627-643 -/
def mismatchLoop (key : Bytes) (depth : Nat) (curr : Addr) (version : Nat) (parent : Addr) (parentVersion : Nat) :
    Nat → Option Bytes → Prog (Option (Nat × Bytes))
  | 0, _ => .diverge
  | fuel + 1, got =>
    .load curr fun w =>
    if w ≠ version then .ret none else
    .load parent fun w =>
    if w ≠ parentVersion then .ret none else
    match got with
    | some full =>
      .read curr version fun n =>
      match mismatchLong n key full depth with
      | some p => .ret (some (p, full))
      | none => .panic
    | none => (fullKey fuel curr version).bind fun got => mismatchLoop key depth curr version parent parentVersion fuel got

/-- node.go:610-644 `prefixMismatch` -/
def prefixMismatch (fuel : Nat) (key : Bytes) (depth : Nat) (curr : Addr) (version : Nat) (parent : Addr) (parentVersion : Nat) :
    Prog (Option (Nat × Bytes)) :=
  .read curr version fun n =>
  if n.prefixLen ≤ maxPrefixLen then
    .read curr version fun n =>
    match mismatchShort n key depth with
    | some p => .ret (some (p, []))
    | none => .panic
  else mismatchLoop key depth curr version parent parentVersion fuel none

/-- art.go:189-212: no child under the next byte `b` -/
def insertHere (key value : Bytes) (b : UInt8) (parent : Addr) (parentVersion : Nat) (curr : Addr) (version : Nat)
    (loc : Loc) : Prog Bool :=
  .read curr version fun n =>
  match n.isFull with
  | none => .panic
  | some true =>
    .cas parent parentVersion fun ok => if !ok then .ret false else
    .cas curr version fun ok => if !ok then .unlock parent (.ret false) else
    .write (growAt · curr b (.leaf (newLeaf key value)) loc) <|
    .unlockObsolete curr <|
    .unlock parent <|
    .ret true
  | some false =>
    .cas curr version fun ok => if !ok then .ret false else
    .load parent fun w => if w ≠ parentVersion then .unlock curr (.ret false) else
    .write (insertChildAt · curr b (.leaf (newLeaf key value))) <|
    .unlock curr <|
    .ret true

/-- art.go:127-240 `insert` -/
def insert (key value : Bytes) : Nat → Nat → Addr → Nat → Addr → Loc → Prog Bool
  | 0, _, _, _, _, _ => .diverge
  | fuel + 1, depth, parent, parentVersion, curr, loc =>
    .wait curr fun version =>
    if obsolete version then .ret false else
    (prefixMismatch fuel key depth curr version parent parentVersion).bind fun
    | none => .ret false
    | some (p, full) =>
      .read curr version fun n =>
      if p ≠ n.prefixLen then
        .cas parent parentVersion fun ok => if !ok then .ret false else
        .cas curr version fun ok => if !ok then .unlock parent (.ret false) else
        .write (insertSplitPrefix · curr key full value depth p loc) <|
        .unlock curr <|
        .unlock parent <|
        .ret true
      else
      .read curr version fun n =>
      if depth + n.prefixLen = key.length then
        .cas curr version fun ok => if !ok then .ret false else
        .load parent fun w => if w ≠ parentVersion then .unlock curr (.ret false) else
        .write (updatePrefixLeaf · curr key value) <|
        .unlock curr <|
        .ret true
      else
      match key[depth + n.prefixLen]? with
      | none => .panic
      | some b =>
        .read curr version fun n' =>
        .load curr fun w => if w ≠ version then .ret false else
        match n'.findChild b with
        | none => insertHere key value b parent parentVersion curr version loc
        | some (next, slot, _) =>
          .load parent fun w => if w ≠ parentVersion then .ret false else
          match next with
          | .leaf l =>
            .cas curr version fun ok => if !ok then .ret false else
            .write (updateOrExpand · l key value (depth + n.prefixLen + 1) (curr, slot)) <|
            .unlock curr <|
            .ret true
          | .node c => insert key value fuel (depth + n.prefixLen + 1) curr version c (curr, slot)

/-- art.go:46-52 `Put` -/
def put (key value : Bytes) : Nat → Prog Unit
  | 0 => .diverge
  | fuel + 1 => (start fun r v => insert key value fuel 0 0 v r (0, 0)).bind fun
    | true => .ret ()
    | false => put key value fuel

/-! ## Delete -/

/-- node.go:419-444 `compressChild`, then art.go:284-290, 330-336. The node `curr` is locked at version `version + 2`. (In
the code the child is unlocked just before `*nodeLoc = child`; as the node holding `nodeLoc` is locked the whole time, no one can tell
the difference.) -/
def compressChild (idx : Nat) (parent curr : Addr) (version : Nat) (loc : Loc) : Prog Bool :=
  .read curr (version + 2) fun n =>
  match n.kids with
  | .n4 keys children =>
    match children[idx]?.join, keys[idx]? with
    | some (.leaf l), _ =>
      .write (storeLoc · loc (.leaf l)) <|
      .unlockObsolete curr <|
      .unlock parent <|
      .ret true
    | some (.node c), some b =>
      .lock c fun ok =>
      if !ok then .unlock curr (.unlock parent (.ret false)) else
      .write (compressAt · curr c b loc) <|
      .unlock c <|
      .unlockObsolete curr <|
      .unlock parent <|
      .ret true
    | _, _ => .panic
  | _ => .panic

/-- node.go:387-417 `removeChildAndShrink`, then art.go:330-336. The node `curr` is locked at version `version + 2`. -/
def removeChildAndShrink (b : UInt8) (parent curr : Addr) (version : Nat) (loc : Loc) : Prog Bool :=
  .read curr (version + 2) fun n =>
  match n.kids with
  | .n4 keys _ =>
    match n.prefixLeaf with
    | some l =>
      .write (storeLoc · loc (.leaf l)) <|
      .unlockObsolete curr <|
      .unlock parent <|
      .ret true
    | none =>
      if n.numChildren = 1 then
        .write (allocAt · loc newNode4) <|
        .unlockObsolete curr <|
        .unlock parent <|
        .ret true
      else if keys[0]? = some b then compressChild 1 parent curr version loc
      else compressChild 0 parent curr version loc
  | _ =>
    .write (shrinkAt · curr b loc) <|
    .unlockObsolete curr <|
    .unlock parent <|
    .ret true

/-- art.go:268: the node has a prefix leaf and this is the one of the key -/
def prefixMatch (n : Node) (key : Bytes) : Bool :=
  match n.prefixLeaf with
  | some l => l.matchKey key
  | none => false

/-- art.go:263-299: the key ends at this node -/
def removeHere (key : Bytes) (parent : Addr) (parentVersion : Nat) (curr : Addr) (version : Nat) (loc : Loc) : Prog Bool :=
  .read curr version fun n =>
  .load curr fun w => if w ≠ version then .ret false else
  if prefixMatch n key = false then
    .load curr fun w => .ret (w = version)
  else
  .read curr version fun n =>
  if n.shouldCompress (parent == 0) then
    .cas parent parentVersion fun ok => if !ok then .ret false else
    .cas curr version fun ok => if !ok then .unlock parent (.ret false) else
    compressChild 0 parent curr version loc
  else
    .cas curr version fun ok => if !ok then .ret false else
    .write (clearPrefixLeaf · curr) <|
    .unlock curr <|
    .ret true

/-- art.go:315-344: the next pointer is the leaf `l` under the byte `b` -/
def removeLeaf (key : Bytes) (b : UInt8) (l : Leaf) (pos : Nat) (parent : Addr) (parentVersion : Nat) (curr : Addr)
    (version : Nat) (loc : Loc) : Prog Bool :=
  if l.matchKey key = false then
    .load curr fun w => .ret (w ≠ version)
  else
  .read curr version fun n =>
  match n.shouldShrink (parent == 0) with
  | none => .panic
  | some true =>
    .cas parent parentVersion fun ok => if !ok then .ret false else
    .cas curr version fun ok => if !ok then .unlock parent (.ret false) else
    removeChildAndShrink b parent curr version loc
  | some false =>
    .cas curr version fun ok => if !ok then .ret false else
    .write (removeChildAt · curr pos) <|
    .unlock curr <|
    .ret true

/-- art.go:243-352 `remove`. (Line 301: `depth > len(key)` cannot be, as `checkPrefix` has failed then; it is kept.) -/
def remove (key : Bytes) : Nat → Nat → Addr → Nat → Addr → Loc → Prog Bool
  | 0, _, _, _, _, _ => .diverge
  | fuel + 1, depth, parent, parentVersion, curr, loc =>
    .wait curr fun version =>
    if obsolete version then .ret false else
    .load parent fun w =>
    if w ≠ parentVersion then .ret false else
    .read curr version fun n =>
    if (n.checkPrefix key depth).2 = false then
      .load curr fun w => .ret (w = version)
    else
    if (n.checkPrefix key depth).1 = key.length then removeHere key parent parentVersion curr version loc
    else
    match key[(n.checkPrefix key depth).1]? with
    | none => .load curr fun w => .ret (w = version)
    | some b =>
      .read curr version fun n' =>
      .load curr fun w => if w ≠ version then .ret false else
      match n'.findChild b with
      | none => .ret true
      | some (.leaf l, _, pos) => removeLeaf key b l pos parent parentVersion curr version loc
      | some (.node c, slot, _) => remove key fuel ((n.checkPrefix key depth).1 + 1) curr version c (curr, slot)

/-- art.go:56-62 `Delete` -/
def delete (key : Bytes) : Nat → Prog Unit
  | 0 => .diverge
  | fuel + 1 => (start fun r v => remove key fuel 0 0 v r (0, 0)).bind fun
    | true => .ret ()
    | false => delete key fuel

/-! ## A program running alone -/

/-- art.go:27-32 `New`: the heap of an empty tree -/
def new : Heap := [{ kids := .dummy (some (.node 1)) }, newNode4]

/-- The outcome of a program running alone: it returns with a value and a heap, panics, has used up its fuel, or waits for a lock
that nobody will release. -/
inductive Out (α : Type) where
  | done (a : α) (h : Heap)
  | panic
  | diverge
  | blocked
deriving Repr, DecidableEq

/-- The version of the node at `a`. -/
def ver (h : Heap) (a : Addr) : Option Nat := h[a]?.map (·.version)

/-- Change the version of the node at `a`. -/
def setVer (h : Heap) (a : Addr) (v : Nat) : Heap := h.modify a (fun n => { n with version := v })

namespace Prog

/-- Run a program alone. `rootFirst` is the order of evaluation taken at `choose`. An address outside of the heap counts as a panic,
and so does a read of a node that is not at the version the reader believes in; the theorems say that neither comes up. -/
def run {α : Type} (rootFirst : Bool) : Prog α → Heap → Out α
  | .ret a, h => .done a h
  | .panic, _ => .panic
  | .diverge, _ => .diverge
  | .wait a k, h => match ver h a with
    | none => .panic
    | some v => if locked v then .blocked else (k v).run rootFirst h
  | .load a k, h => match ver h a with
    | none => .panic
    | some v => (k v).run rootFirst h
  | .cas a v k, h => match ver h a with
    | none => .panic
    | some w => if w = v then (k true).run rootFirst (setVer h a (v + 2)) else (k false).run rootFirst h
  | .lock a k, h => match ver h a with
    | none => .panic
    | some v =>
      if locked v then .blocked
      else if obsolete v then (k false).run rootFirst h
      else (k true).run rootFirst (setVer h a (v + 2))
  | .unlock a k, h => match ver h a with
    | none => .panic
    | some v => k.run rootFirst (setVer h a (v + 2))
  | .unlockObsolete a k, h => match ver h a with
    | none => .panic
    | some v => k.run rootFirst (setVer h a (v + 3))
  | .read a v k, h => match h[a]? with
    | none => .panic
    | some n => if n.version = v then (k n).run rootFirst h else .panic
  | .readRoot k, h => match h[0]? with
    | none => .panic
    | some n => (k n.root).run rootFirst h
  | .choose k, h => (k rootFirst).run rootFirst h
  | .write f k, h => match f h with
    | none => .panic
    | some h => k.run rootFirst h

end Prog

end Art
