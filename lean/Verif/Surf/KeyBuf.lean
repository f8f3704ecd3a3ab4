import Verif.Surf.Iter

/-!
# The buffers behind the keys of an iterator

In `Verif.Surf.Iter` the key buffers are lists of bytes. In Go they are slices: a place in memory, a length and a capacity. `Key` returns such a slice, not a copy, so that later calls may write to a key the caller has kept, and what the caller
writes to a key is seen by later calls. Here the calls of the iterator are modelled once more, with memory.

The buffer of the sparse part (louds_sparse.go:214) is never handed out (`Iterator.Key` copies it), and stays a list.
-/

namespace Surf

/-! ## Memory -/

/-- The arrays allocated so far. The length of an array is its capacity. -/
abbrev Mem := List Bytes

/-- A slice that starts at the beginning of an array (no other slices of these buffers are made). -/
structure Sl where
  id : Nat
  len : Nat
deriving Repr, DecidableEq

/-- The array behind a slice. -/
def Mem.arr (m : Mem) (id : Nat) : Bytes := m[id]?.getD []

/-- The bytes of a slice. -/
def Mem.read (m : Mem) (s : Sl) : Bytes := (m.arr s.id).take s.len

/-- The bytes `w` stored at `off`. -/
def store (a : Bytes) (off : Nat) (w : Bytes) : Bytes := a.take off ++ w ++ a.drop (off + w.length)

/-- Go's built-in `append(s, w...)`: in place if the capacity allows, otherwise into a new array, whose capacity is for the run-time to choose (`g`). -/
def Mem.append (g : Nat → Nat → Nat) (m : Mem) (s : Sl) (w : Bytes) : Mem × Sl :=
  if s.len + w.length ≤ (m.arr s.id).length then (m.set s.id (store (m.arr s.id) s.len w), ⟨s.id, s.len + w.length⟩)
  else (m ++ [m.read s ++ w ++ List.replicate (g (m.arr s.id).length (s.len + w.length) - (s.len + w.length)) 0], ⟨m.length, s.len + w.length⟩)

/-- Go's `s[:n]`: panics beyond the capacity (not: beyond the length) -/
def Mem.cut (m : Mem) (s : Sl) (n : Nat) : Option Sl := if n ≤ (m.arr s.id).length then some ⟨s.id, n⟩ else none

/-- A store of the caller through a slice: `copy(s, w)`. -/
def Mem.poke (m : Mem) (s : Sl) (w : Bytes) : Mem := m.set s.id (store (m.arr s.id) 0 (w.take s.len))

/-! ## denseIter -/

/-- louds_dense.go:172-185, with `keyBuf` as a slice; the field `keyBuf` of `d` is not used. -/
structure DenseMem where
  mem : Mem
  d : DenseIter
  s : Sl

namespace DenseMem

/-- The iterator as in `Verif.Surf.Iter`. -/
def view (x : DenseMem) : DenseIter := { x.d with keyBuf := x.mem.read x.s }

/-- louds_dense.go:193-198 `Reset` -/
def reset (x : DenseMem) : DenseMem := { x with d := { x.d with valid := false, level := 0, atPrefixKey := false }, s := ⟨x.s.id, 0⟩ }

/-- the assignment `it.valid, it.searchComp, it.leftComp, it.rightComp = true, s, l, r` -/
def flags (x : DenseMem) (s l r : Bool) : DenseMem := { x with d := x.d.flags s l r }

/-- louds_dense.go:370-380 `append` -/
def append (g : Nat → Nat → Nat) (ld : LoudsDense) (x : DenseMem) (pos : Nat) : Option DenseMem := do
  let pre ← ld.prefixVec.getPrefix (pos / denseFanout)
  let a := x.mem.append g x.s pre
  let a := a.1.append g a.2 [UInt8.ofNat (pos % denseFanout)]
  let ps ← putAt x.d.posInTrie x.d.level pos
  let n ← x.d.upLen (pre.length + 1)
  let ls ← putAt x.d.prefixLen x.d.level n
  return ⟨a.1, { x.d with posInTrie := ps, prefixLen := ls }, a.2⟩

/-- louds_dense.go:455-458 `setAt`, with `level = it.level` -/
def setAt (g : Nat → Nat → Nat) (x : DenseMem) (pos : Nat) : Option DenseMem := do
  let n ← x.d.prefixLen[x.d.level]?
  let n ← usub n 1
  let s ← x.mem.cut x.s n
  let a := x.mem.append g s [UInt8.ofNat (pos % denseFanout)]
  let ps ← putAt x.d.posInTrie x.d.level pos
  return ⟨a.1, { x.d with posInTrie := ps }, a.2⟩

/-- louds_dense.go:460-462 `truncate`, with `level = it.level` -/
def truncate (x : DenseMem) : Option DenseMem := do
  let n ← x.d.prefixLen[x.d.level]?
  let s ← x.mem.cut x.s n
  return { x with s := s }

/-- louds_dense.go:389-410 -/
def leftLoop (g : Nat → Nat → Nat) (ld : LoudsDense) : Nat → DenseMem → Nat → Option DenseMem
  | 0, x, pos => do
    let c ← ld.childNodeID pos
    return { x with d := { x.d with sendOutNodeID := c, sendOutDepth := x.s.len } }.flags true false true
  | n + 1, x, pos => do
    let nodeID ← ld.childNodeID pos
    let p ← ld.isPrefixVec.bv.isSet nodeID
    let q ← usub (nodeID * denseFanout) 1
    let pos ← ld.nextPos q
    let x ← { x with d := { x.d with level := x.d.level + 1 } }.append g ld pos
    if p then return { x with d := { x.d with atPrefixKey := true } }.flags true true true
    else do
      let h ← ld.hasChildVec.bv.isSet pos
      if !h then return x.flags true true true else leftLoop g ld n x pos

/-- louds_dense.go:382-411 `MoveToLeftMostKey` -/
def moveLeft (g : Nat → Nat → Nat) (ld : LoudsDense) (x : DenseMem) : Option DenseMem := do
  let pos ← x.d.posInTrie[x.d.level]?
  let h ← ld.hasChildVec.bv.isSet pos
  if !h then return x.flags true true true else leftLoop g ld (ld.height - 1 - x.d.level) x pos

/-- louds_dense.go:421-439 -/
def rightLoop (g : Nat → Nat → Nat) (ld : LoudsDense) : Nat → DenseMem → Nat → Option DenseMem
  | 0, x, pos => do
    let c ← ld.childNodeID pos
    return { x with d := { x.d with sendOutNodeID := c, sendOutDepth := x.s.len } }.flags true true false
  | n + 1, x, pos => do
    let nodeID ← ld.childNodeID pos
    let (pos, out) ← ld.prevPos ((nodeID + 1) * denseFanout)
    if out then return { x with d := { x.d with level := x.d.level + 1, valid := false } }
    else do
      let x ← { x with d := { x.d with level := x.d.level + 1 } }.append g ld pos
      let h ← ld.hasChildVec.bv.isSet pos
      if !h then return x.flags true true true else rightLoop g ld n x pos

/-- louds_dense.go:413-440 `MoveToRightMostKey` -/
def moveRight (g : Nat → Nat → Nat) (ld : LoudsDense) (x : DenseMem) : Option DenseMem := do
  let pos ← x.d.posInTrie[x.d.level]?
  let h ← ld.hasChildVec.bv.isSet pos
  if !h then return x.flags true true true else rightLoop g ld (ld.height - 1 - x.d.level) x pos

/-- louds_dense.go:442-448 `SetToFirstInRoot` -/
def setToFirstInRoot (g : Nat → Nat → Nat) (ld : LoudsDense) (x : DenseMem) : Option DenseMem := do
  let b ← ld.labelVec.bv.isSet 0
  if b then x.append g ld 0
  else do
    let p ← ld.nextPos 0
    x.append g ld p

/-- louds_dense.go:450-453 `SetToLastInRoot` -/
def setToLastInRoot (g : Nat → Nat → Nat) (ld : LoudsDense) (x : DenseMem) : Option DenseMem := do
  let (p, _) ← ld.prevPos denseFanout
  x.append g ld p

/-- louds_dense.go:200-224 `Next` -/
def next (g : Nat → Nat → Nat) (ld : LoudsDense) (x : DenseMem) : Option DenseMem :=
  if ld.height = 0 then some x
  else if x.d.atPrefixKey then { x with d := { x.d with atPrefixKey := false } }.moveLeft g ld
  else do
    match ← DenseIter.nextLoop ld x.d.posInTrie x.d.level with
    | none => return { x with d := { x.d with level := 0, valid := false } }
    | some (lev, np) => do
      let x ← { x with d := { x.d with level := lev } }.setAt g np
      x.moveLeft g ld

/-- louds_dense.go:226-264 `Prev` -/
def prev (g : Nat → Nat → Nat) (ld : LoudsDense) (x : DenseMem) : Option DenseMem :=
  if ld.height = 0 then some x
  else do
    let x := if x.d.atPrefixKey then { x with d := { x.d with atPrefixKey := false, level := dec32 x.d.level } } else x
    match ← DenseIter.prevLoop ld x.d.posInTrie x.d.level with
    | .out lev => return { x with d := { x.d with level := lev, valid := false } }
    | .atPrefix lev => do
      let x ← { x with d := { x.d with level := lev } }.truncate
      return { x with d := { x.d with atPrefixKey := true } }.flags true true true
    | .found lev pp => do
      let x ← { x with d := { x.d with level := lev } }.setAt g pp
      x.moveRight g ld

/-- louds_dense.go:464-472 `compareSuffixGreaterThan` -/
def compareSuffixGreaterThan (g : Nat → Nat → Nat) (ld : LoudsDense) (x : DenseMem) (key : Bytes) (pos level : Nat) : Option (DenseMem × Bool) := do
  let sp ← ld.suffixPos pos false
  let cmp ← ld.suffixes.compare key sp level
  if cmp < 0 then do
    let x ← x.next g ld
    return (x, false)
  else return (x.flags true true true, cmp == couldBePositive)

/-- louds_dense.go:289-303 -/
def seekFirst (g : Nat → Nat → Nat) (ld : LoudsDense) (x : DenseMem) (nodeID : Nat) (eq : Bool) : Option (DenseMem × Bool) := do
  let pos := nodeID * denseFanout
  let x ←
    if pos > 0 then do
      let p ← ld.nextPos (pos - 1)
      x.append g ld p
    else x.setToFirstInRoot g ld
  let p ← ld.isPrefixVec.bv.isSet nodeID
  let x ← if p then some ({ x with d := { x.d with atPrefixKey := true } }.flags true true true) else x.moveLeft g ld
  return (x, eq)

/-- louds_dense.go:305-317 -/
def seekLabel (g : Nat → Nat → Nat) (ld : LoudsDense) (x : DenseMem) (key : Bytes) (depth nodeID : Nat) : Option ((DenseMem × Bool) ⊕ (DenseMem × Nat)) := do
  let c ← key[depth]?
  let pos := nodeID * denseFanout + c.toNat
  let x ← x.append g ld pos
  let l ← ld.labelVec.bv.isSet pos
  if !l then do
    let x ← x.next g ld
    return .inl (x, false)
  else do
    let h ← ld.hasChildVec.bv.isSet pos
    if !h then do
      let r ← x.compareSuffixGreaterThan g ld key pos (depth + 1)
      return .inl r
    else return .inr (x, pos)

/-- louds_dense.go:268-327 -/
def seekLoop (g : Nat → Nat → Nat) (ld : LoudsDense) (key : Bytes) : Nat → DenseMem → Nat → Nat → Option (DenseMem × Bool)
  | 0, x, depth, nodeID =>
    return ({ x with d := { x.d with level := dec32 x.d.level, sendOutNodeID := nodeID, sendOutDepth := depth } }.flags false true true, true)
  | n + 1, x, depth, nodeID => do
    let pre ← ld.prefixVec.getPrefix nodeID
    let cmp ← prefixCmp pre key depth
    if cmp < 0 then
      if nodeID = 0 then return ({ x with d := { x.d with valid := false } }, false)
      else do
        let x ← { x with d := { x.d with level := dec32 x.d.level } }.next g ld
        return (x, false)
    else do
      let depth := depth + pre.length
      if depth ≥ key.length ∨ cmp > 0 then x.seekFirst g ld nodeID (cmp == 0)
      else do
        match ← x.seekLabel g ld key depth nodeID with
        | .inl r => return r
        | .inr (x, pos) => do
          let c ← ld.childNodeID pos
          seekLoop g ld key n { x with d := { x.d with level := x.d.level + 1 } } (depth + 1) c

/-- louds_dense.go:266-327 `Seek` -/
def seek (g : Nat → Nat → Nat) (ld : LoudsDense) (x : DenseMem) (key : Bytes) : Option (DenseMem × Bool) :=
  seekLoop g ld key ld.height { x with d := { x.d with level := 0 } } 0 0

/-- louds_dense.go:329-334 `Key` -/
def key (x : DenseMem) : Option Sl :=
  if x.d.atPrefixKey then (usub x.s.len 1).bind (x.mem.cut x.s) else some x.s

end DenseMem

/-! ## Iterator -/

/-- surf.go:86-91, with the memory; `s` is the slice `denseIter.keyBuf`, `k` the slice `keyBuf`, the buffer of `Key` -/
structure IterMem where
  mem : Mem
  it : Iterator
  s : Sl
  k : Sl

/-- surf.go:93-99 `NewIterator`: both slices are nil -/
def SuRF.newIterMem (f : SuRF) : IterMem := ⟨[[], []], f.newIterator, ⟨0, 0⟩, ⟨1, 0⟩⟩

namespace IterMem

/-- The dense part. -/
def dense (x : IterMem) : DenseMem := ⟨x.mem, x.it.d, x.s⟩

/-- The iterator as in `Verif.Surf.Iter`. -/
def view (x : IterMem) : Iterator := { x.it with d := x.dense.view }

/-- After a call of the dense part. -/
def withDense (x : IterMem) (d : DenseMem) : IterMem := { x with mem := d.mem, it := { x.it with d := d.d }, s := d.s }

/-- surf.go:203-207 `Reset` -/
def reset (x : IterMem) : IterMem := { x.withDense x.dense.reset with it := ⟨x.dense.reset.d, x.it.s.reset⟩ }

/-- `it.passToSparse(); it.sparseIter.MoveToLeftMostKey()` (`first = true`) or `MoveToRightMostKey` -/
def intoSparse (bmi : Bool) (f : SuRF) (first : Bool) (x : IterMem) : Option IterMem := do
  let s ← x.it.passToSparse.s.move bmi f.ls first
  return { x with it := { x.it with s := s } }

/-- surf.go:214-230 `incrDenseIter` -/
def incrDense (g : Nat → Nat → Nat) (bmi : Bool) (f : SuRF) (x : IterMem) : Option IterMem :=
  if !x.it.d.valid then some x
  else do
    let d ← x.dense.next g f.ld
    let x := x.withDense d
    if !d.d.valid then return x
    else if d.d.leftComp then return x
    else x.intoSparse bmi f true

/-- surf.go:107-112 `Next`, with `incrSparseIter` (232-238) -/
def next (g : Nat → Nat → Nat) (bmi : Bool) (f : SuRF) (x : IterMem) : Option IterMem :=
  if x.it.s.valid then do
    let s ← x.it.s.next bmi f.ls
    let x := { x with it := { x.it with s := s } }
    if s.valid then return x else x.incrDense g bmi f
  else x.incrDense g bmi f

/-- surf.go:240-256 `decrDenseIter` -/
def decrDense (g : Nat → Nat → Nat) (bmi : Bool) (f : SuRF) (x : IterMem) : Option IterMem :=
  if !x.it.d.valid then some x
  else do
    let d ← x.dense.prev g f.ld
    let x := x.withDense d
    if !d.d.valid then return x
    else if d.d.rightComp then return x
    else x.intoSparse bmi f false

/-- surf.go:115-120 `Prev`, with `decrSparseIter` (258-264) -/
def prev (g : Nat → Nat → Nat) (bmi : Bool) (f : SuRF) (x : IterMem) : Option IterMem :=
  if x.it.s.valid then do
    let s ← x.it.s.prev bmi f.ls
    let x := { x with it := { x.it with s := s } }
    if s.valid then return x else x.decrDense g bmi f
  else x.decrDense g bmi f

/-- surf.go:123-150 `Seek` -/
def seek (g : Nat → Nat → Nat) (bmi : Bool) (f : SuRF) (x : IterMem) (key : Bytes) : Option (IterMem × Bool) :=
  let x := x.reset
  if f.ls.height = 0 ∧ f.ld.height = 0 then some (x, false)
  else do
    let (d, fp) ← x.dense.seek g f.ld key
    let x := x.withDense d
    if !d.d.valid || d.d.isComplete then return (x, fp)
    else if !d.d.searchComp then do
      let x := { x with it := x.it.passToSparse }
      let (s, fp) ← x.it.s.seek bmi f.ls key
      let x := { x with it := { x.it with s := s } }
      if !s.valid then do
        let x ← x.incrDense g bmi f
        return (x, fp)
      else return (x, fp)
    else if !d.d.leftComp then do
      let x ← x.intoSparse bmi f true
      return (x, fp)
    else none

/-- surf.go:152-167 `SeekToFirst` -/
def seekToFirst (g : Nat → Nat → Nat) (bmi : Bool) (f : SuRF) (x : IterMem) : Option IterMem :=
  let x := x.reset
  if f.ld.height > 0 then do
    let d ← x.dense.setToFirstInRoot g f.ld
    let d ← d.moveLeft g f.ld
    let x := x.withDense d
    if d.d.leftComp then return x else x.intoSparse bmi f true
  else if f.ls.height > 0 then do
    let s ← x.it.s.setToFirstInRoot f.ls
    let s ← s.move bmi f.ls true
    return { x with it := { x.it with s := s } }
  else some x

/-- surf.go:169-184 `SeekToLast` -/
def seekToLast (g : Nat → Nat → Nat) (bmi : Bool) (f : SuRF) (x : IterMem) : Option IterMem :=
  let x := x.reset
  if f.ld.height > 0 then do
    let d ← x.dense.setToLastInRoot g f.ld
    let d ← d.moveRight g f.ld
    let x := x.withDense d
    if d.d.rightComp then return x else x.intoSparse bmi f false
  else if f.ls.height > 0 then do
    let s ← x.it.s.setToLastInRoot bmi f.ls
    let s ← s.move bmi f.ls false
    return { x with it := { x.it with s := s } }
  else some x

/-- surf.go:186-193 `Key`: the slice returned, and the iterator afterwards -/
def key (g : Nat → Nat → Nat) (x : IterMem) : Option (IterMem × Sl) := do
  let dk ← x.dense.key
  if x.it.d.isComplete then return (x, dk)
  else do
    let sk ← x.it.s.key
    let a := x.mem.append g ⟨x.k.id, 0⟩ (x.mem.read dk)
    let b := a.1.append g a.2 sk
    return ({ x with mem := b.1, k := a.2 }, b.2)

/-- The caller writes `w` through a slice it has kept. -/
def poke (x : IterMem) (s : Sl) (w : Bytes) : IterMem := { x with mem := x.mem.poke s w }

end IterMem

end Surf
