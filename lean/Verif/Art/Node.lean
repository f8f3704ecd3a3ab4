import Verif.Surf.Vec

/-!
# Model of `art/node.go` and `art/range.go`: leaves, the four node containers and the functions that change them

Go arrays are lists of their fixed length; an index out of range (a panic) is `none`. A pointer to an inner node is an address
(`Addr`), a nil child pointer is `none`. `nodeLoc **node` is a pair (address of the node that holds the pointer, slot number); the
root pointer `t.root` is kept as the only slot of the dummy node `t.dummy` that guards it.
-/

namespace Art

open Surf (Word Bytes putUint32 uint32 leadingZeros usub)

/-! ## Leaves -/

/-- node.go:146-162: a leaf is a packed block of memory. -/
structure Leaf where
  mem : Bytes
deriving Repr, DecidableEq

/-- node.go:10-19 `typeLeaf` -/
def typeLeaf : UInt8 := 5

/-- node.go:150-162 `newLeaf` (`uint32` stored in little-endian order) -/
def newLeaf (key value : Bytes) : Leaf :=
  { mem := [typeLeaf] ++ putUint32 key.length ++ key ++ putUint32 value.length ++ value }

namespace Leaf

/-- node.go:170, 182: the key length at offset 1 (memory outside the block, which is never read, counts as 0) -/
def keyLen (l : Leaf) : Nat := (uint32 (l.mem.drop 1)).getD 0

/-- node.go:168-178 `key` -/
def key (l : Leaf) : Bytes := (l.mem.drop 5).take l.keyLen

/-- node.go:183: the value length behind the key -/
def valueLen (l : Leaf) : Nat := (uint32 (l.mem.drop (l.keyLen + 5))).getD 0

/-- node.go:180-191 `value` -/
def value (l : Leaf) : Bytes := (l.mem.drop (l.keyLen + 9)).take l.valueLen

/-- node.go:193-195 `match` -/
def matchKey (l : Leaf) (key : Bytes) : Bool := l.key == key

end Leaf

/-! ## Nodes -/

/-- The address of an inner node. -/
abbrev Addr := Nat

/-- A non-nil `*node`: a leaf (immutable, so carried by value) or the address of an inner node. -/
inductive Ref where
  | leaf (l : Leaf)
  | node (a : Addr)
deriving Repr, DecidableEq

/-- node.go:66-70, 82-86, 103-108, 131-134: the part of a node that depends on its type. `index` holds values 0..48. The
dummy node (art.go:18) carries the root pointer it guards. -/
inductive Kids where
  | n4 (keys : Bytes) (children : List (Option Ref))
  | n16 (keys : Bytes) (children : List (Option Ref))
  | n48 (index : List Nat) (children : List (Option Ref)) (slots : Word)
  | n256 (children : List (Option Ref))
  | dummy (root : Option Ref)
deriving Repr, DecidableEq

/-- node.go:23 -/
def maxPrefixLen : Nat := 8
/-- node.go:26 -/
def node16MinSize : Nat := 4
/-- node.go:27 -/
def node48MinSize : Nat := 13
/-- node.go:28 -/
def node256MinSize : Nat := 38

/-- An array of `n` zero bytes. -/
def zeroBytes (n : Nat) : Bytes := List.replicate n 0
/-- An array of `n` nil pointers. -/
def nils (n : Nat) : List (Option Ref) := List.replicate n none

/-- node.go:32-49 `node` together with the container it is embedded in. `version` is a natural number (the 64-bit
counter is assumed not to wrap). -/
structure Node where
  version : Nat := 0
  numChildren : UInt8 := 0
  prefixLen : Nat := 0
  pre : Bytes := zeroBytes maxPrefixLen
  prefixLeaf : Option Leaf := none
  kids : Kids
deriving Repr, DecidableEq

/-- node.go:72-76 -/
def newNode4 : Node := { kids := .n4 (zeroBytes 4) (nils 4) }
/-- node.go:88-92 -/
def newNode16 : Node := { kids := .n16 (zeroBytes 16) (nils 16) }
/-- node.go:99 -/
def node48EmptySlots : Word := 0xffff000000000000#64
/-- node.go:100 -/
def node48GrowSlots : Word := 0xffffffff00000000#64
/-- node.go:110-115 -/
def newNode48 : Node := { kids := .n48 (List.replicate 256 0) (nils 48) node48EmptySlots }
/-- node.go:136-140 -/
def newNode256 : Node := { kids := .n256 (nils 256) }

/-- Go standard library `bits.Len64`: number of bits needed, 0 for 0 -/
def len64 (w : Word) : Nat := 64 - leadingZeros w

/-- node.go:121-125 `allocSlot`: the slot and the new `slots` -/
def allocSlot (slots : Word) : Option (Nat × Word) := do
  let idx ← usub 48 (len64 (~~~slots))
  return (idx, slots ||| (1#64 <<< (48 - idx - 1)))

/-- node.go:127-129 `freeSlot` -/
def freeSlot (slots : Word) (idx : Nat) : Word := slots &&& ~~~(1#64 <<< (48 - idx - 1))

/-- `arr[i] = x` -/
def setAt {α : Type} (l : List α) (i : Nat) (x : α) : Option (List α) :=
  if i < l.length then some (l.set i x) else none

/-- `copy(arr[i:], arr[i+1:])` -/
def shiftDown {α : Type} (l : List α) (i : Nat) : Option (List α) :=
  if i < l.length then some (l.take i ++ l.drop (i + 1) ++ l.drop (l.length - 1)) else none

/-- All bytes in ascending order (`for i := 0; i < 256; i++`). -/
def allBytes : List UInt8 := (List.range 256).map UInt8.ofNat

namespace Node

/-- node.go:51-64 `isFull` (panics on a dummy) -/
def isFull (n : Node) : Option Bool :=
  match n.kids with
  | .n4 .. => some (n.numChildren == 4)
  | .n16 .. => some (n.numChildren == 16)
  | .n48 .. => some (n.numChildren == 48)
  | .n256 .. => some false
  | .dummy _ => none

/-- `n.nodeType == typeDummy` -/
def isDummy (n : Node) : Bool :=
  match n.kids with
  | .dummy _ => true
  | _ => false

/-- node.go:197-234 `insertChild` -/
def insertChild (n : Node) (key : UInt8) (child : Ref) : Option Node :=
  match n.kids with
  | .n4 keys children => do
    let keys ← setAt keys n.numChildren.toNat key
    let children ← setAt children n.numChildren.toNat (some child)
    return { n with numChildren := n.numChildren + 1, kids := .n4 keys children }
  | .n16 keys children => do
    let keys ← setAt keys n.numChildren.toNat key
    let children ← setAt children n.numChildren.toNat (some child)
    return { n with numChildren := n.numChildren + 1, kids := .n16 keys children }
  | .n48 index children slots => do
    let (pos, slots) ← allocSlot slots
    let children ← setAt children pos (some child)
    let index ← setAt index key.toNat (pos + 1)
    return { n with numChildren := n.numChildren + 1, kids := .n48 index children slots }
  | .n256 children => do
    let children ← setAt children key.toNat (some child)
    return { n with numChildren := n.numChildren + 1, kids := .n256 children }
  | .dummy _ => none

/-- node.go:249-254 `copyNode` -/
def copyNode (newNode n : Node) : Node :=
  { newNode with numChildren := n.numChildren, prefixLen := n.prefixLen, pre := n.pre, prefixLeaf := n.prefixLeaf }

/-- node.go:269-271: `for idx, k := range n.keys { newNode.index[k] = int8(idx) + 1 }` -/
def indexKeys : Bytes → Nat → List Nat → Option (List Nat)
  | [], _, index => some index
  | k :: ks, idx, index => do
    let index ← setAt index k.toNat (idx + 1)
    indexKeys ks (idx + 1) index

/-- node.go:279-283: the children of the new node256 -/
def spreadChildren (index : List Nat) (children : List (Option Ref)) : Option (List (Option Ref)) :=
  index.mapM (fun idx => if idx > 0 then children[idx - 1]? else some none)

/-- node.go:236-247, 256-287 `growAndInsert`: the new node -/
def growAndInsert (n : Node) (key : UInt8) (child : Ref) : Option Node :=
  match n.kids with
  | .n4 keys children =>
    let new : Node := { kids := .n16 (keys ++ zeroBytes 12) (children ++ nils 12) }
    (copyNode new n).insertChild key child
  | .n16 keys children => do
    let index ← indexKeys keys 0 (List.replicate 256 0)
    let new : Node := { kids := .n48 index (children ++ nils 32) node48GrowSlots }
    (copyNode new n).insertChild key child
  | .n48 index children _ => do
    let children ← spreadChildren index children
    let new : Node := { kids := .n256 children }
    (copyNode new n).insertChild key child
  | _ => none

/-- node.go:336-362 `removeChild` -/
def removeChild (n : Node) (i : Nat) : Option Node :=
  match n.kids with
  | .n4 keys children => do
    let keys ← shiftDown keys i
    let children ← shiftDown children i
    let numChildren := n.numChildren - 1
    let children ← setAt children numChildren.toNat none
    return { n with numChildren, kids := .n4 keys children }
  | .n16 keys children => do
    let keys ← shiftDown keys i
    let children ← shiftDown children i
    let numChildren := n.numChildren - 1
    let children ← setAt children numChildren.toNat none
    return { n with numChildren, kids := .n16 keys children }
  | .n48 index children slots => do
    let v ← index[i]?
    let pos ← usub v 1
    let index ← setAt index i 0
    let children ← setAt children pos none
    return { n with numChildren := n.numChildren - 1, kids := .n48 index children (freeSlot slots pos) }
  | .n256 children => do
    let children ← setAt children i none
    return { n with numChildren := n.numChildren - 1, kids := .n256 children }
  | .dummy _ => some n

/-- node.go:364-385 `shouldShrink`; `parentDummy` says whether the parent is the dummy node -/
def shouldShrink (n : Node) (parentDummy : Bool) : Option Bool :=
  match n.kids with
  | .n4 .. =>
    if parentDummy then some false
    else if n.prefixLeaf = none then some (decide (n.numChildren.toNat ≤ 2))
    else some (decide (n.numChildren.toNat ≤ 1))
  | .n16 .. => some (decide (n.numChildren.toNat ≤ node16MinSize))
  | .n48 .. => some (decide (n.numChildren.toNat ≤ node48MinSize))
  | .n256 .. => some (decide (n.numChildren.toNat > 0) && decide (n.numChildren.toNat ≤ node256MinSize))
  | .dummy _ => none

/-- node.go:451-453, 467-469: write the items one after the other from position `idx` on -/
def writeItems : List (UInt8 × Option Ref) → Nat → Bytes → List (Option Ref) → Option (Bytes × List (Option Ref))
  | [], _, keys, children => some (keys, children)
  | (k, c) :: items, idx, keys, children => do
    let keys ← setAt keys idx k
    let children ← setAt children idx c
    writeItems items (idx + 1) keys children

/-- node.go:465-466, 468: the items of a node48 but the one under `key`, in byte order -/
def items48 (index : List Nat) (children : List (Option Ref)) (key : UInt8) : Option (List (UInt8 × Option Ref)) :=
  (allBytes.filter (fun b => b != key && index[b.toNat]?.getD 0 != 0)).mapM (fun b => do
    let i ← index[b.toNat]?
    let pos ← usub i 1
    let c ← children[pos]?
    return (b, c))

/-- node.go:480-486: the loop of `node256.removeChildAndShrink` over the remaining bytes -/
def shrink256Loop (old : List (Option Ref)) (key : UInt8) :
    List UInt8 → List Nat → List (Option Ref) → Word → Option (List Nat × List (Option Ref) × Word)
  | [], index, children, slots => some (index, children, slots)
  | b :: bs, index, children, slots =>
    match old[b.toNat]? with
    | none => none
    | some none => shrink256Loop old key bs index children slots
    | some (some c) =>
      if b = key then shrink256Loop old key bs index children slots
      else do
        let (pos, slots) ← allocSlot slots
        let index ← setAt index b.toNat (pos + 1)
        let children ← setAt children pos (some c)
        shrink256Loop old key bs index children slots

/-- node.go:446-491 `removeChildAndShrink` of node16, node48, node256: the new node -/
def shrink (n : Node) (key : UInt8) : Option Node :=
  match n.kids with
  | .n16 keys children => do
    let items := ((keys.zip children).take n.numChildren.toNat).filter (fun p => p.1 != key)
    let (keys, children) ← writeItems items 0 (zeroBytes 4) (nils 4)
    let new : Node := { kids := .n4 keys children }
    return { copyNode new n with numChildren := UInt8.ofNat (node16MinSize - 1) }
  | .n48 index children _ => do
    let items ← items48 index children key
    let (keys, children) ← writeItems items 0 (zeroBytes 16) (nils 16)
    let new : Node := { kids := .n16 keys children }
    return { copyNode new n with numChildren := UInt8.ofNat (node48MinSize - 1) }
  | .n256 old => do
    let (index, children, slots) ← shrink256Loop old key allBytes (List.replicate 256 0) (nils 48) node48EmptySlots
    let new : Node := { kids := .n48 index children slots }
    return { copyNode new n with numChildren := UInt8.ofNat (node256MinSize - 1) }
  | _ => none

/-- node.go:493-498 `shouldCompress` -/
def shouldCompress (n : Node) (parentDummy : Bool) : Bool :=
  match n.kids with
  | .n4 .. => n.numChildren == 1 && !parentDummy
  | _ => false

/-- `copy(dst[:], src)` into a zeroed 8-byte array -/
def pad8 (b : Bytes) : Bytes := b.take 8 ++ zeroBytes (8 - b.length)

/-- node.go:500-515 `checkPrefix`. (The two 8-byte arrays are compared as `uint64`, that is for equality.) `slice`-style bounds:
`nextPos ≤ len(key)` was checked, and `depth ≤ nextPos`. -/
def checkPrefix (n : Node) (key : Bytes) (depth : Nat) : Nat × Bool :=
  if n.prefixLen = 0 then (depth, true)
  else
    let nextPos := depth + n.prefixLen
    if key.length < nextPos then (0, false)
    else (nextPos, pad8 ((key.take nextPos).drop depth) == n.pre)

/-- node.go:517-543 `findChild`: the child (not nil), its slot number (for `nodeLoc`) and the position. A node that has no child
under the byte gives `none`. -/
def findChild (n : Node) (key : UInt8) : Option (Ref × Nat × Nat) :=
  match n.kids with
  | .n4 keys children =>
    match (keys.take n.numChildren.toNat).findIdx? (· == key) with
    | some i => (children[i]?.join).map (fun c => (c, i, i))
    | none => none
  | .n16 keys children =>
    match keys.findIdx? (· == key) with
    | some i => if i < n.numChildren.toNat then (children[i]?.join).map (fun c => (c, i, i)) else none
    | none => none
  | .n48 index children _ =>
    match index[key.toNat]? with
    | some (idx + 1) => (children[idx]?.join).map (fun c => (c, idx, key.toNat))
    | _ => none
  | .n256 children => (children[key.toNat]?.join).map (fun c => (c, key.toNat, key.toNat))
  | .dummy _ => none

/-- range.go:5-31 `firstChild`; `some none` is a nil pointer, `none` a panic -/
def firstChild (n : Node) : Option (Option Ref) :=
  match n.kids with
  | .n4 _ children => children[0]?
  | .n16 _ children => children[0]?
  | .n48 index children _ =>
    match index.find? (· != 0) with
    | some p => do
      let pos ← usub p 1
      children[pos]?
    | none => none
  | .n256 children => (children.findSome? id).map some
  | .dummy _ => none

/-- `*nodeLoc = r` for a slot of this node -/
def setSlot (n : Node) (i : Nat) (r : Ref) : Option Node :=
  match n.kids with
  | .n4 keys children => (setAt children i (some r)).map (fun c => { n with kids := .n4 keys c })
  | .n16 keys children => (setAt children i (some r)).map (fun c => { n with kids := .n16 keys c })
  | .n48 index children slots => (setAt children i (some r)).map (fun c => { n with kids := .n48 index c slots })
  | .n256 children => (setAt children i (some r)).map (fun c => { n with kids := .n256 c })
  | .dummy _ => some { n with kids := .dummy (some r) }

/-- The root pointer guarded by the dummy node. -/
def root (n : Node) : Option Ref :=
  match n.kids with
  | .dummy r => r
  | _ => none

end Node

/-! ## The heap and the functions that change it -/

/-- All inner nodes ever allocated, by address. Address 0 is `t.dummy`. (Nothing is freed: the garbage collector only
removes what is not referenced.) -/
abbrev Heap := List Node

/-- A `**node`: the node holding the pointer, and the slot. -/
abbrev Loc := Addr × Nat

/-- `*nodeLoc = r` -/
def storeLoc (h : Heap) (loc : Loc) (r : Ref) : Option Heap := do
  let n ← h[loc.1]?
  let n ← n.setSlot loc.2 r
  return h.set loc.1 n

/-- Allocate `n`, store a pointer to it into `loc`. -/
def allocAt (h : Heap) (loc : Loc) (n : Node) : Option Heap := storeLoc (h ++ [n]) loc (.node h.length)

/-- node.go:332-334 `updatePrefixLeaf` -/
def updatePrefixLeaf (h : Heap) (a : Addr) (key value : Bytes) : Option Heap := do
  let n ← h[a]?
  return h.set a { n with prefixLeaf := some (newLeaf key value) }

/-- art.go:296 -/
def clearPrefixLeaf (h : Heap) (a : Addr) : Option Heap := do
  let n ← h[a]?
  return h.set a { n with prefixLeaf := none }

/-- art.go:209 -/
def insertChildAt (h : Heap) (a : Addr) (key : UInt8) (child : Ref) : Option Heap := do
  let n ← h[a]?
  let n ← n.insertChild key child
  return h.set a n

/-- art.go:197, node.go:256-287 -/
def growAt (h : Heap) (a : Addr) (key : UInt8) (child : Ref) (loc : Loc) : Option Heap := do
  let n ← h[a]?
  let new ← n.growAndInsert key child
  allocAt h loc new

/-- art.go:341 -/
def removeChildAt (h : Heap) (a : Addr) (i : Nat) : Option Heap := do
  let n ← h[a]?
  let n ← n.removeChild i
  return h.set a n

/-- node.go:446-491 -/
def shrinkAt (h : Heap) (a : Addr) (key : UInt8) (loc : Loc) : Option Heap := do
  let n ← h[a]?
  let new ← n.shrink key
  allocAt h loc new

/-- node.go:311-315: the first position from `i` on at which the two keys differ, at most `min` of the lengths -/
def missLoop (a b : Bytes) : Nat → Nat → Nat
  | 0, i => i
  | fuel + 1, i =>
    match a[i]?, b[i]? with
    | some x, some y => if x ≠ y then i else missLoop a b fuel (i + 1)
    | _, _ => i

/-- node.go:319-323, 324-328: put a leaf where it belongs in a new node whose path ends at `pos` -/
def placeLeaf (n : Node) (pos : Nat) (key : Bytes) (l : Leaf) : Option Node :=
  if pos = key.length then some { n with prefixLeaf := some l }
  else do
    let b ← key[pos]?
    n.insertChild b (.leaf l)

/-- node.go:297-330 `updateOrExpand` -/
def updateOrExpand (h : Heap) (l : Leaf) (key value : Bytes) (depth : Nat) (loc : Loc) : Option Heap :=
  if l.matchKey key then storeLoc h loc (.leaf (newLeaf key value))
  else do
    let missPos := missLoop l.key key (min key.length l.key.length - depth) depth
    let new := { newNode4 with prefixLen := missPos - depth, pre := Node.pad8 ((key.take missPos).drop depth) }
    let new ← placeLeaf new missPos l.key l
    let new ← placeLeaf new missPos key (newLeaf key value)
    allocAt h loc new

/-- node.go:556-570: the byte under which the split node hangs, its new prefix length and prefix -/
def splitRest (n : Node) (fullKey : Bytes) (depth prefixLen : Nat) : Option (UInt8 × Nat × Bytes) := do
  let newLen ← usub n.prefixLen (prefixLen + 1)
  if n.prefixLen ≤ maxPrefixLen then do
    let pos ← n.pre[prefixLen]?
    return (pos, newLen, Node.pad8 ((n.pre.drop (prefixLen + 1)).take newLen))
  else do
    let pos ← fullKey[depth + prefixLen]?
    let off := depth + prefixLen + 1
    if off + newLen ≤ fullKey.length then
      return (pos, newLen, Node.pad8 ((fullKey.drop off).take newLen))
    else none

/-- node.go:545-573 `insertSplitPrefix` -/
def insertSplitPrefix (h : Heap) (a : Addr) (key fullKey value : Bytes) (depth prefixLen : Nat) (loc : Loc) :
    Option Heap := do
  let n ← h[a]?
  let new ← placeLeaf newNode4 (depth + prefixLen) key (newLeaf key value)
  let new := { new with prefixLen, pre := Node.pad8 (n.pre.take (min maxPrefixLen prefixLen)) }
  let (pos, newLen, tmp) ← splitRest n fullKey depth prefixLen
  let new ← new.insertChild pos (.node a)
  allocAt (h.set a { n with prefixLen := newLen, pre := tmp }) loc new

/-- node.go:425-439: the new prefix of the child of a compressed node -/
def compressedPrefix (n child : Node) (b : UInt8) : Bytes :=
  if n.prefixLen < maxPrefixLen then
    let p := n.pre.take n.prefixLen ++ [b]
    let sub := child.pre.take (min child.prefixLen (maxPrefixLen - p.length))
    Node.pad8 (p ++ sub)
  else n.pre

/-- node.go:425-442: `compressChild` for a child that is an inner node (`c`, locked by the caller) -/
def compressAt (h : Heap) (a c : Addr) (b : UInt8) (loc : Loc) : Option Heap := do
  let n ← h[a]?
  let child ← h[c]?
  let child := { child with pre := compressedPrefix n child b, prefixLen := child.prefixLen + n.prefixLen + 1 }
  storeLoc (h.set c child) loc (.node c)

end Art
