import Verif.Art.System
import Verif.Surf.Wrap

/-!
# The calls with the arithmetic of the code: `uint32`, wrapping

`Verif.Art.Node` and `Verif.Art.Prog` compute depths and prefix lengths with natural numbers. Here the functions of `art.go` and `node.go` that compute with them are modelled
a second time, with every sum and difference of `uint32` values taken modulo 2^32 (a difference below zero wraps instead of failing), every conversion `uint32(len(x))` cut to 32 bits,
and every slice expression checked. The functions that do no such arithmetic are those of `Verif.Art.Node`. `Verif.Art.WrapSim` relates the two.
-/

namespace Art.U32

open Surf (Word Bytes)
open Surf.U32
open Spec Props

/-! ## node.go -/

/-- node.go:500-515 `checkPrefix`; `key[depth:nextPos]` is a panic (`none`) if `nextPos < depth` -/
def checkPrefix (n : Node) (key : Bytes) (depth : Nat) : Option (Nat × Bool) :=
  if n.prefixLen = 0 then some (depth, true)
  else
    let nextPos := depth ⊞ n.prefixLen
    if u key.length < nextPos then some (0, false)
    else if nextPos < depth ∨ key.length < nextPos then none
    else some (nextPos, Node.pad8 ((key.take nextPos).drop depth) == n.pre)

/-- node.go:311-315: the loop of `updateOrExpand`; the first argument bounds the number of rounds -/
def missLoop (lkey key : Bytes) (prefixLen : Nat) : Nat → Nat → Option Nat
  | 0, missPos => some missPos
  | k + 1, missPos =>
    if missPos < prefixLen then
      match lkey[missPos]?, key[missPos]? with
      | some x, some y => if x ≠ y then some missPos else missLoop lkey key prefixLen k (missPos ⊞ 1)
      | _, _ => none
    else some missPos

/-- node.go:319-323, 324-328 -/
def placeLeaf (n : Node) (pos : Nat) (key : Bytes) (l : Leaf) : Option Node :=
  if pos = u key.length then some { n with prefixLeaf := some l }
  else do
    let b ← key[pos]?
    n.insertChild b (.leaf l)

/-- node.go:297-330 `updateOrExpand` -/
def updateOrExpand (h : Heap) (l : Leaf) (key value : Bytes) (depth : Nat) (loc : Loc) : Option Heap :=
  if l.matchKey key then storeLoc h loc (.leaf (newLeaf key value))
  else do
    let missPos ← missLoop l.key key (min (u key.length) (u l.key.length)) (2 ^ 32) depth
    let pre ← if missPos < depth ∨ key.length < missPos then none else some (Node.pad8 ((key.take missPos).drop depth))
    let new ← placeLeaf { newNode4 with prefixLen := missPos ⊟ depth, pre } missPos l.key l
    let new ← placeLeaf new missPos key (newLeaf key value)
    allocAt h loc new

/-- node.go:556-570: the byte under which the split node hangs, its new prefix length and prefix -/
def splitRest (n : Node) (fullKey : Bytes) (depth prefixLen : Nat) : Option (UInt8 × Nat × Bytes) :=
  if n.prefixLen ≤ maxPrefixLen then do
    let pos ← n.pre[prefixLen]?
    let newLen := n.prefixLen ⊟ (prefixLen ⊞ 1)
    if newLen ≤ maxPrefixLen ∧ prefixLen ⊞ 1 ≤ maxPrefixLen then
      return (pos, newLen, Node.pad8 ((n.pre.drop (prefixLen ⊞ 1)).take newLen))
    else none
  else do
    let pos ← fullKey[depth ⊞ prefixLen]?
    let off := depth ⊞ prefixLen ⊞ 1
    let newLen := n.prefixLen ⊟ (prefixLen ⊞ 1)
    if off ≤ off ⊞ newLen ∧ off ⊞ newLen ≤ fullKey.length then
      return (pos, newLen, Node.pad8 ((fullKey.take (off ⊞ newLen)).drop off))
    else none

/-- node.go:545-573 `insertSplitPrefix` -/
def insertSplitPrefix (h : Heap) (a : Addr) (key fullKey value : Bytes) (depth prefixLen : Nat) (loc : Loc) :
    Option Heap := do
  let n ← h[a]?
  let new ← placeLeaf newNode4 (depth ⊞ prefixLen) key (newLeaf key value)
  let new := { new with prefixLen, pre := Node.pad8 (n.pre.take (min maxPrefixLen prefixLen)) }
  let (pos, newLen, tmp) ← splitRest n fullKey depth prefixLen
  let new ← new.insertChild pos (.node a)
  allocAt (h.set a { n with prefixLen := newLen, pre := tmp }) loc new

/-- node.go:425-442: `compressChild` for a child that is an inner node. (`compressedPrefix` does no arithmetic that could wrap: it adds to lengths below 8 only.) -/
def compressAt (h : Heap) (a c : Addr) (b : UInt8) (loc : Loc) : Option Heap := do
  let n ← h[a]?
  let child ← h[c]?
  let child := { child with pre := compressedPrefix n child b, prefixLen := child.prefixLen ⊞ (n.prefixLen ⊞ 1) }
  storeLoc (h.set c child) loc (.node c)

/-- node.go:614-618: the loop of `prefixMismatch` over the inlined prefix; the first argument bounds the number of rounds -/
def shortLoop (pre key : Bytes) (depth l : Nat) : Nat → Nat → Option Nat
  | 0, idx => some idx
  | k + 1, idx =>
    if idx < l then
      match pre[idx]?, key[depth ⊞ idx]? with
      | some x, some y => if x ≠ y then some idx else shortLoop pre key depth l k (idx ⊞ 1)
      | _, _ => none
    else some idx

/-- node.go:612-619 -/
def mismatchShort (n : Node) (key : Bytes) (depth : Nat) : Option Nat :=
  shortLoop n.pre key depth (min (u key.length ⊟ depth) n.prefixLen) (2 ^ 32) 0

/-- node.go:638-642: the loop of `prefixMismatch` over the full key; the first argument bounds the number of rounds -/
def longLoop (key full : Bytes) (l : Nat) : Nat → Nat → Option Nat
  | 0, i => some i
  | k + 1, i =>
    if i < l then
      match key[i]?, full[i]? with
      | some x, some y => if x ≠ y then some i else longLoop key full l k (i ⊞ 1)
      | _, _ => none
    else some i

/-- node.go:637-643 -/
def mismatchLong (n : Node) (key full : Bytes) (depth : Nat) : Option Nat :=
  (longLoop key full (min (u key.length) (depth ⊞ n.prefixLen)) (2 ^ 32) depth).map (· ⊟ depth)

/-! ## Get -/

/-- art.go:88-93: the pointer the search follows; the outer `none` is a panic -/
def nextNode (n : Node) (key : Bytes) (depth : Nat) : Option (Option Ref) :=
  if depth = u key.length then some (n.prefixLeaf.map .leaf)
  else if depth < u key.length then match key[depth]? with
    | some b => some ((n.findChild b).map (·.1))
    | none => none
  else some none

/-- art.go:65-121 `search` -/
def search (key : Bytes) : Nat → Nat → Addr → Nat → Addr → Prog (Option (Option Bytes))
  | 0, _, _, _, _ => .diverge
  | fuel + 1, depth, parent, parentVersion, curr =>
    .wait curr fun version =>
    if obsolete version then .ret none else
    .load parent fun w =>
    if w ≠ parentVersion then .ret none else
    .read curr version fun n =>
    match checkPrefix n key depth with
    | none => .panic
    | some (_, false) => .load curr fun w => .ret (if w = version then some none else none)
    | some (depth, true) =>
      .read curr version fun n' =>
      match nextNode n' key depth with
      | none => .panic
      | some next =>
        .load curr fun w =>
        if w ≠ version then .ret none else
        match next with
        | none => .ret (some none)
        | some (.leaf l) => .ret (some (if l.matchKey key then some l.value else none))
        | some (.node c) => search key fuel (depth ⊞ 1) curr version c

/-- art.go:36-42 `Get` -/
def get (key : Bytes) : Nat → Prog (Option Bytes)
  | 0 => .diverge
  | fuel + 1 => (start fun r v => search key fuel 0 0 v r).bind fun
    | some x => .ret x
    | none => get key fuel

/-! ## Put -/

/-- node.go:627-643 -/
def mismatchLoop (key : Bytes) (depth : Nat) (curr : Addr) (version : Nat) (parent : Addr) (parentVersion : Nat) :
    Nat → Option Bytes → Prog (Option (Nat × Bytes))
  | 0, _ => .diverge
  | fuel + 1, got =>
    .load curr fun w =>
    if w ≠ version then .ret none else
    .load parent fun w =>
    if w ≠ parentVersion then .ret none else
    match got with
    | some full =>
      .read curr version fun n =>
      match mismatchLong n key full depth with
      | some p => .ret (some (p, full))
      | none => .panic
    | none => (fullKey fuel curr version).bind fun got => mismatchLoop key depth curr version parent parentVersion fuel got

/-- node.go:610-644 `prefixMismatch` -/
def prefixMismatch (fuel : Nat) (key : Bytes) (depth : Nat) (curr : Addr) (version : Nat) (parent : Addr) (parentVersion : Nat) :
    Prog (Option (Nat × Bytes)) :=
  .read curr version fun n =>
  if n.prefixLen ≤ maxPrefixLen then
    .read curr version fun n =>
    match mismatchShort n key depth with
    | some p => .ret (some (p, []))
    | none => .panic
  else mismatchLoop key depth curr version parent parentVersion fuel none

/-- art.go:127-240 `insert` -/
def insert (key value : Bytes) : Nat → Nat → Addr → Nat → Addr → Loc → Prog Bool
  | 0, _, _, _, _, _ => .diverge
  | fuel + 1, depth, parent, parentVersion, curr, loc =>
    .wait curr fun version =>
    if obsolete version then .ret false else
    (prefixMismatch fuel key depth curr version parent parentVersion).bind fun
    | none => .ret false
    | some (p, full) =>
      .read curr version fun n =>
      if p ≠ n.prefixLen then
        .cas parent parentVersion fun ok => if !ok then .ret false else
        .cas curr version fun ok => if !ok then .unlock parent (.ret false) else
        .write (insertSplitPrefix · curr key full value depth p loc) <|
        .unlock curr <|
        .unlock parent <|
        .ret true
      else
      .read curr version fun n =>
      if depth ⊞ n.prefixLen = u key.length then
        .cas curr version fun ok => if !ok then .ret false else
        .load parent fun w => if w ≠ parentVersion then .unlock curr (.ret false) else
        .write (updatePrefixLeaf · curr key value) <|
        .unlock curr <|
        .ret true
      else
      match key[depth ⊞ n.prefixLen]? with
      | none => .panic
      | some b =>
        .read curr version fun n' =>
        .load curr fun w => if w ≠ version then .ret false else
        match n'.findChild b with
        | none => insertHere key value b parent parentVersion curr version loc
        | some (next, slot, _) =>
          .load parent fun w => if w ≠ parentVersion then .ret false else
          match next with
          | .leaf l =>
            .cas curr version fun ok => if !ok then .ret false else
            .write (updateOrExpand · l key value (depth ⊞ n.prefixLen ⊞ 1) (curr, slot)) <|
            .unlock curr <|
            .ret true
          | .node c => insert key value fuel (depth ⊞ n.prefixLen ⊞ 1) curr version c (curr, slot)

/-- art.go:46-52 `Put` -/
def put (key value : Bytes) : Nat → Prog Unit
  | 0 => .diverge
  | fuel + 1 => (start fun r v => insert key value fuel 0 0 v r (0, 0)).bind fun
    | true => .ret ()
    | false => put key value fuel

/-! ## Delete -/

/-- node.go:419-444 `compressChild`, then art.go:284-290, 330-336 -/
def compressChild (idx : Nat) (parent curr : Addr) (version : Nat) (loc : Loc) : Prog Bool :=
  .read curr (version + 2) fun n =>
  match n.kids with
  | .n4 keys children =>
    match children[idx]?.join, keys[idx]? with
    | some (.leaf l), _ =>
      .write (storeLoc · loc (.leaf l)) <|
      .unlockObsolete curr <|
      .unlock parent <|
      .ret true
    | some (.node c), some b =>
      .lock c fun ok =>
      if !ok then .unlock curr (.unlock parent (.ret false)) else
      .write (compressAt · curr c b loc) <|
      .unlock c <|
      .unlockObsolete curr <|
      .unlock parent <|
      .ret true
    | _, _ => .panic
  | _ => .panic

/-- node.go:387-417 `removeChildAndShrink`, then art.go:330-336 -/
def removeChildAndShrink (b : UInt8) (parent curr : Addr) (version : Nat) (loc : Loc) : Prog Bool :=
  .read curr (version + 2) fun n =>
  match n.kids with
  | .n4 keys _ =>
    match n.prefixLeaf with
    | some l =>
      .write (storeLoc · loc (.leaf l)) <|
      .unlockObsolete curr <|
      .unlock parent <|
      .ret true
    | none =>
      if n.numChildren = 1 then
        .write (allocAt · loc newNode4) <|
        .unlockObsolete curr <|
        .unlock parent <|
        .ret true
      else if keys[0]? = some b then compressChild 1 parent curr version loc
      else compressChild 0 parent curr version loc
  | _ =>
    .write (shrinkAt · curr b loc) <|
    .unlockObsolete curr <|
    .unlock parent <|
    .ret true

/-- art.go:263-299: the key ends at this node -/
def removeHere (key : Bytes) (parent : Addr) (parentVersion : Nat) (curr : Addr) (version : Nat) (loc : Loc) : Prog Bool :=
  .read curr version fun n =>
  .load curr fun w => if w ≠ version then .ret false else
  if prefixMatch n key = false then
    .load curr fun w => .ret (w = version)
  else
  .read curr version fun n =>
  if n.shouldCompress (parent == 0) then
    .cas parent parentVersion fun ok => if !ok then .ret false else
    .cas curr version fun ok => if !ok then .unlock parent (.ret false) else
    compressChild 0 parent curr version loc
  else
    .cas curr version fun ok => if !ok then .ret false else
    .write (clearPrefixLeaf · curr) <|
    .unlock curr <|
    .ret true

/-- art.go:315-344: the next pointer is the leaf `l` under the byte `b` -/
def removeLeaf (key : Bytes) (b : UInt8) (l : Leaf) (pos : Nat) (parent : Addr) (parentVersion : Nat) (curr : Addr)
    (version : Nat) (loc : Loc) : Prog Bool :=
  if l.matchKey key = false then
    .load curr fun w => .ret (w ≠ version)
  else
  .read curr version fun n =>
  match n.shouldShrink (parent == 0) with
  | none => .panic
  | some true =>
    .cas parent parentVersion fun ok => if !ok then .ret false else
    .cas curr version fun ok => if !ok then .unlock parent (.ret false) else
    removeChildAndShrink b parent curr version loc
  | some false =>
    .cas curr version fun ok => if !ok then .ret false else
    .write (removeChildAt · curr pos) <|
    .unlock curr <|
    .ret true

/-- art.go:243-352 `remove` -/
def remove (key : Bytes) : Nat → Nat → Addr → Nat → Addr → Loc → Prog Bool
  | 0, _, _, _, _, _ => .diverge
  | fuel + 1, depth, parent, parentVersion, curr, loc =>
    .wait curr fun version =>
    if obsolete version then .ret false else
    .load parent fun w =>
    if w ≠ parentVersion then .ret false else
    .read curr version fun n =>
    match checkPrefix n key depth with
    | none => .panic
    | some (_, false) => .load curr fun w => .ret (w = version)
    | some (depth, true) =>
      if depth = u key.length then removeHere key parent parentVersion curr version loc
      else if u key.length < depth then .load curr fun w => .ret (w = version)
      else
      match key[depth]? with
      | none => .panic
      | some b =>
        .read curr version fun n' =>
        .load curr fun w => if w ≠ version then .ret false else
        match n'.findChild b with
        | none => .ret true
        | some (.leaf l, _, pos) => removeLeaf key b l pos parent parentVersion curr version loc
        | some (.node c, slot, _) => remove key fuel (depth ⊞ 1) curr version c (curr, slot)

/-- art.go:56-62 `Delete` -/
def delete (key : Bytes) : Nat → Prog Unit
  | 0 => .diverge
  | fuel + 1 => (start fun r v => remove key fuel 0 0 v r (0, 0)).bind fun
    | true => .ret ()
    | false => delete key fuel

/-! ## Any number of calls at the same time -/

/-- The program of a call. -/
def prog : Call → Nat → Prog (Option Bytes)
  | .get k, fuel => get k fuel
  | .put k v, fuel => (put k v fuel).bind fun _ => .ret none
  | .delete k, fuel => (delete k fuel).bind fun _ => .ret none

/-- Keys are shorter than 2^31 bytes, values are shorter than 2^32 bytes. -/
def Small : Call → Prop
  | .get k => k.length < 2 ^ 31
  | .put k v => k.length < 2 ^ 31 ∧ v.length < 2 ^ 32
  | .delete k => k.length < 2 ^ 31

/-- One step of the call `i`, as in `Art.Step`, with the programs of this file; a read of the node `a` that has changed gives a prefix length `l` with `B a l`. -/
inductive Step (B : Addr → Nat → Prop) (i : Nat) (σ : Conf) : Conf → Prop
  /-- art.go:36, 46, 56: the call begins -/
  | call (c fuel) : σ.procs i = .idle → Small c → Step B i σ (σ.to i σ.heap (.running c (prog c fuel)))
  /-- the call returns -/
  | ret {c o} : σ.procs i = .running c (.ret o) → Step B i σ (σ.to i σ.heap (.done c o))
  /-- the call panics -/
  | crash {c p} : σ.procs i = .running c p → Faulty σ.heap p → Step B i σ (σ.to i σ.heap (.crashed c))
  /-- lock.go:65-77 -/
  | wait {c a k n} : σ.procs i = .running c (.wait a k) → σ.heap[a]? = some n → locked n.version = false →
      Step B i σ (σ.to i σ.heap (.running c (k n.version)))
  /-- lock.go:20, 24 -/
  | load {c a k n} : σ.procs i = .running c (.load a k) → σ.heap[a]? = some n → Step B i σ (σ.to i σ.heap (.running c (k n.version)))
  /-- lock.go:32, 36: the compare-and-swap succeeds -/
  | cas {c a v k n} : σ.procs i = .running c (.cas a v k) → σ.heap[a]? = some n → n.version = v →
      Step B i σ ((σ.to i (setVer σ.heap a (v + 2)) (.running c (k true))).own a (some i))
  /-- lock.go:32, 36: the compare-and-swap fails -/
  | casFail {c a v k n} : σ.procs i = .running c (.cas a v k) → σ.heap[a]? = some n → n.version ≠ v →
      Step B i σ (σ.to i σ.heap (.running c (k false)))
  /-- lock.go:43-55: the node is obsolete -/
  | lockFail {c a k n} : σ.procs i = .running c (.lock a k) → σ.heap[a]? = some n → locked n.version = false → obsolete n.version = true →
      Step B i σ (σ.to i σ.heap (.running c (k false)))
  /-- lock.go:43-55 -/
  | lock {c a k n} : σ.procs i = .running c (.lock a k) → σ.heap[a]? = some n → locked n.version = false → obsolete n.version = false →
      Step B i σ ((σ.to i (setVer σ.heap a (n.version + 2)) (.running c (k true))).own a (some i))
  /-- lock.go:57-59 -/
  | unlock {c a k n} : σ.procs i = .running c (.unlock a k) → σ.heap[a]? = some n →
      Step B i σ ((σ.to i (setVer σ.heap a (n.version + 2)) (.running c k)).own a none)
  /-- lock.go:61-63 -/
  | unlockObsolete {c a k n} : σ.procs i = .running c (.unlockObsolete a k) → σ.heap[a]? = some n →
      Step B i σ ((σ.to i (setVer σ.heap a (n.version + 3)) (.running c k)).own a none)
  /-- a read that is not atomic -/
  | read {c a v k n} (r : Node) : σ.procs i = .running c (.read a v k) → σ.heap[a]? = some n → r.cap = n.cap → (n.version = v → r = n) → (n.version ≠ v → B a r.prefixLen) →
      Step B i σ (σ.to i σ.heap (.running c (k r)))
  /-- art.go:38, 48, 58: `t.root` -/
  | readRoot {c k n} : σ.procs i = .running c (.readRoot k) → σ.heap[0]? = some n → Step B i σ (σ.to i σ.heap (.running c (k n.root)))
  /-- an order of evaluation -/
  | choose {c k} (b : Bool) : σ.procs i = .running c (.choose k) → Step B i σ (σ.to i σ.heap (.running c (k b)))
  /-- the changes of a critical section -/
  | write {c f k h} : σ.procs i = .running c (.write f k) → f σ.heap = some h → Step B i σ (σ.to i h (.running c k))

/-- The prefix lengths that the node `a` has had until the instant `t`. (`prefixLen` is one aligned word of 32 bits, so what is read of it has been stored at some time. Everything else that is read of a node may be
garbage, if the version has changed.) -/
def Had (σ : Nat → Conf) (t : Nat) (a : Addr) (l : Nat) : Prop := ∃ t' n, t' ≤ t ∧ (σ t').heap[a]? = some n ∧ n.prefixLen = l

/-- The first `T` steps of a run: `σ t` is the state at the instant `t`, and step `t` is one of the call `who t`. -/
structure Run (T : Nat) (σ : Nat → Conf) (who : Nat → Nat) : Prop where
  init : σ 0 = Conf.init
  step : ∀ t, t < T → Step (Had σ t) (who t) (σ t) (σ (t + 1))

end Art.U32
