import Verif.Surf.Wrap
import Verif.Surf.Layout

/-!
# `Get` on a filter restored from any bytes

`Unmarshal` checks nothing, so a filter restored from a damaged slice may hold any numbers. Here `Get` is modelled for such filters, in the 32-bit arithmetic of the code (`Verif.Surf.Wrap`), and with

* the two ways a loop can fail told apart: a panic, and a loop that goes on (`Stop`);
* slice expressions with an upper bound checked against the capacity: `v.prefixData[start:end]` (bits_vec.go:565) and `v.bytes[off : off+v.valueSize]` (bits_vec.go:157) of a restored filter reach as far as
  the caller's slice does;
* suffix types that are none of the four (bits_vec.go:721), for which `constructSuffix` gives 0.

Everything else is the model of C72. A value is returned as its place.
-/

set_option linter.unusedSimpArgs false

namespace Surf.Dmg

open U32

/-- Why there is no result: a panic, or a loop has not ended within the rounds granted to it. -/
inductive Stop where
  | panic
  | more
deriving Repr, DecidableEq

/-- What a call comes to. -/
abbrev Go (α : Type) := Except Stop α

/-- A computation without loops of unknown length: it fails with a panic. -/
def run {α : Type} : Option α → Go α
  | some x => .ok x
  | none => .error .panic

/-- A filter, and its byte arrays up to their capacities. `odd`: the suffix type is none of the four. -/
structure Wide where
  s : SuRF
  densePre : Bytes
  sparsePre : Bytes
  denseVals : Bytes
  sparseVals : Bytes
  denseOdd : Bool := false
  sparseOdd : Bool := false

/-! ## bits_vec.go -/

/-- bits_vec.go:267-274: the loop of `Select` -/
def selectLoop (bmi : Bool) (bits : List Word) : Nat → Nat → Word → Nat → Go Nat
  | 0, _, _, _ => .error .more
  | fuel + 1, wordOff, w, rankLeft =>
    let ones := onesCount w
    if ones < rankLeft then do
      let w' ← run bits[wordOff ⊞ 1]?
      selectLoop bmi bits fuel (wordOff ⊞ 1) w' (rankLeft ⊟ ones)
    else do
      let s ← run (select64 bmi w rankLeft)
      return wordOff ⊠ 64 ⊞ s

/-- bits_vec.go:244-275 `Select` -/
def select (bmi : Bool) (fuel : Nat) (v : SelectVector) (rank : Nat) : Go Nat := do
  let rankLeft := if rank / selectSampleInterval = 0 then rank % selectSampleInterval ⊟ 1 else rank % selectSampleInterval
  let pos ← run v.selectLut[rank / selectSampleInterval]?
  if rankLeft = 0 then return pos
  let wordOff := if pos % 64 = 64 ⊟ 1 then pos / 64 ⊞ 1 else pos / 64
  let bitsOff := if pos % 64 = 64 ⊟ 1 then 0 else pos % 64 ⊞ 1
  let w0 ← run v.bv.bits[wordOff]?
  selectLoop bmi v.bv.bits fuel wordOff ((w0 >>> bitsOff) <<< bitsOff) rankLeft

/-- bits_vec.go:554-566 `GetPrefix`; `cap` is `prefixData` up to its capacity -/
def getPrefix (v : PrefixVec) (cap : Bytes) (nodeID : Nat) : Option Bytes := do
  let b ← v.hasPrefixVec.bv.isSet nodeID
  if !b then return []
  let r ← rankSparse v.hasPrefixVec nodeID
  let start ← offsetAt v (r ⊟ 1)
  let stop ← prefixEnd v (r ⊟ 1)
  slice cap start stop

/-- bits_vec.go:539-552 `CheckPrefix` -/
def checkPrefix (v : PrefixVec) (cap key : Bytes) (depth nodeID : Nat) : Option (Nat × Bool) := do
  let pre ← getPrefix v cap nodeID
  if pre.length = 0 then return (0, true)
  if depth + pre.length > key.length then return (0, false)
  let sub ← slice key depth (depth ⊞ u pre.length)
  if sub ≠ pre then return (0, false)
  return (u pre.length, true)

/-- bits_vec.go:637-656 `CheckEquality` -/
def checkEquality (fp : Bytes → Word) (odd : Bool) (v : SuffixVector) (idx : Nat) (key : Bytes) (level : Nat) : Option Bool :=
  if odd then
    if idx ⊠ suffixLen v ≥ v.bv.numBits then some false else (read v idx).map (· == 0#64)
  else U32.checkEquality fp v idx key level

/-- bits_vec.go:155-158 `valueVector.Get`; `cap` is the length of `bytes` up to the capacity -/
def valueGet (v : ValueVector) (cap : Nat) (pos : Nat) : Option Place :=
  if pos ⊠ v.valueSize ≤ pos ⊠ v.valueSize ⊞ v.valueSize ∧ pos ⊠ v.valueSize ⊞ v.valueSize ≤ cap then
    some ⟨pos ⊠ v.valueSize, (pos ⊠ v.valueSize ⊞ v.valueSize) - pos ⊠ v.valueSize⟩
  else none

/-! ## `Get` -/

/-- What `Get` returns: nothing, or a part of the dense (`true`) or of the sparse values. -/
abbrev Found := Option (Bool × Place)

/-- louds_dense.go:66-69, 80-83 -/
def dFinish (fp : Bytes → Word) (w : Wide) (key : Bytes) (depth valPos : Nat) : Option Found := do
  let ok ← checkEquality fp w.denseOdd w.s.ld.suffixes valPos key (depth ⊞ 1)
  if ok then do
    let p ← valueGet w.s.ld.values w.denseVals.length valPos
    return some (true, p)
  else return none

/-- louds_dense.go:64-85; `inl`: return, `inr`: go on to the child at this position -/
def dGetAt (fp : Bytes → Word) (w : Wide) (key : Bytes) (depth nodeID : Nat) : Option (Found ⊕ Nat) :=
  let pos := nodeID ⊠ denseFanout
  if depth ≥ u key.length then do
    let p ← w.s.ld.isPrefixVec.bv.isSet nodeID
    if p then do
      let valPos ← dSuffixPos w.s.ld pos true
      let r ← dFinish fp w key depth valPos
      return .inl r
    else return .inl none
  else do
    let c ← key[depth]?
    let pos := pos ⊞ c.toNat
    let l ← w.s.ld.labelVec.bv.isSet pos
    if !l then return .inl none
    else do
      let h ← w.s.ld.hasChildVec.bv.isSet pos
      if !h then do
        let valPos ← dSuffixPos w.s.ld pos false
        let r ← dFinish fp w key depth valPos
        return .inl r
      else return .inr pos

/-- louds_dense.go:56-91; the first argument is the number of levels left. `inr (nodeID, depth)`: the sparse part goes on. -/
def dGetLoop (fp : Bytes → Word) (w : Wide) (key : Bytes) : Nat → Nat → Nat → Option (Found ⊕ (Nat × Nat))
  | 0, depth, nodeID => some (.inr (nodeID, depth))
  | n + 1, depth, nodeID => do
    let (prefixLen, ok) ← checkPrefix w.s.ld.prefixVec w.densePre key depth nodeID
    if !ok then return .inl none
    else do
      match ← dGetAt fp w key (depth ⊞ prefixLen) nodeID with
      | .inl r => return .inl r
      | .inr pos => do
        let child ← dChildNodeID w.s.ld pos
        dGetLoop fp w key n (depth ⊞ prefixLen ⊞ 1) child

/-- louds_sparse.go:82-86, 94-98 -/
def sFinish (fp : Bytes → Word) (w : Wide) (key : Bytes) (depth pos : Nat) : Option Found := do
  let valPos ← sSuffixPos w.s.ls pos
  let ok ← checkEquality fp w.sparseOdd w.s.ls.suffixes valPos key (depth ⊞ 1)
  if ok then do
    let p ← valueGet w.s.ls.values w.sparseVals.length valPos
    return some (false, p)
  else return none

/-- louds_sparse.go:93-101 -/
def sGetTail (fp : Bytes → Word) (w : Wide) (key : Bytes) (depth pos : Nat) : Option Found := do
  let l ← w.s.ls.labelVec.getLabel pos
  if l = labelTerminator then do
    let h ← w.s.ls.hasChildVec.bv.isSet pos
    if !h then sFinish fp w key depth pos else return none
  else return none

/-- louds_sparse.go:74-86: the label at `depth`; `inl`: return, `inr`: go on to the child at this position -/
def sGetAt (fp : Bytes → Word) (w : Wide) (key : Bytes) (depth pos : Nat) : Option (Found ⊕ Nat) := do
  let c ← key[depth]?
  let sz ← nodeSize w.s.ls pos
  let (pos, ok) ← search w.s.ls.labelVec c pos sz
  if !ok then return .inl none
  else do
    let h ← w.s.ls.hasChildVec.bv.isSet pos
    if !h then do
      let r ← sFinish fp w key depth pos
      return .inl r
    else return .inr pos

/-- louds_sparse.go:66-101: the loop and what follows it -/
def sGetLoop (fp : Bytes → Word) (bmi : Bool) (sel : Nat) (w : Wide) (key : Bytes) : Nat → Nat → Nat → Nat → Go Found
  | 0, _, _, _ => .error .more
  | fuel + 1, depth, nodeID, pos =>
    if depth < u key.length then do
      let (prefixLen, ok) ← run (checkPrefix w.s.ls.prefixVec w.sparsePre key depth (prefixID w.s.ls nodeID))
      if !ok then return none
      else if depth ⊞ prefixLen ≥ u key.length then run (sGetTail fp w key (depth ⊞ prefixLen) pos)
      else do
        match ← run (sGetAt fp w key (depth ⊞ prefixLen) pos) with
        | .inl r => return r
        | .inr pos => do
          let nodeID ← run (sChildNodeID w.s.ls pos)
          let pos ← select bmi sel w.s.ls.loudsVec (nodeID ⊞ 1 ⊟ w.s.ls.denseNodeCount)
          sGetLoop fp bmi sel w key fuel (depth ⊞ prefixLen ⊞ 1) nodeID pos
    else run (sGetTail fp w key depth pos)

/-- surf.go:14-21 `Get`, with so many rounds granted to the loop of `Select` (`sel`) and to that of the sparse part (`fuel`) -/
def get (fp : Bytes → Word) (bmi : Bool) (sel fuel : Nat) (w : Wide) (key : Bytes) : Go Found := do
  match ← run (dGetLoop fp w key w.s.ld.height 0 0) with
  | .inl r => return r
  | .inr (nodeID, depth) => do
    let pos ← select bmi sel w.s.ls.loudsVec (u nodeID ⊞ 1 ⊟ w.s.ls.denseNodeCount)
    sGetLoop fp bmi sel w key fuel depth (u nodeID) pos

/-- The value at the place. -/
def Wide.value (w : Wide) (p : Bool × Place) : Bytes := p.2.bytes (if p.1 then w.denseVals else w.sparseVals)

/-! ## The filter in memory -/

/-- bits_vec.go:721: the type of the suffixes, nine bytes before their bits, is none of the four. (It is not 0 if there are bits.) -/
def oddType (mem : Bytes) (x : SuffixAt) : Bool := x.suffixType ≠ .none && ((mem[x.bits.off - 9]?).bind SuffixType.ofByte).isNone

/-- The filter restored from `mem`: the arrays go on to the end of `mem`. -/
def _root_.Surf.FilterAt.wide (mem : Bytes) (v : FilterAt) : Wide where
  s := v.view mem
  densePre := mem.drop v.dense.prefixVec.data.off
  sparsePre := mem.drop v.sparse.prefixVec.data.off
  denseVals := mem.drop v.denseValues.bytes.off
  sparseVals := mem.drop v.sparseValues.bytes.off
  denseOdd := oddType mem v.dense.suffixes
  sparseOdd := oddType mem v.sparse.suffixes

/-- Where in memory the value is that `Get` has found. -/
def _root_.Surf.FilterAt.at (v : FilterAt) (p : Bool × Place) : Place := ⟨(if p.1 then v.denseValues else v.sparseValues).bytes.off + p.2.off, p.2.len⟩

/-- louds_dense.go:187-191, louds_sparse.go:222-228: how many `uint32` `NewIterator` allocates -/
def _root_.Surf.FilterAt.iterWords (v : FilterAt) : Nat := 2 * v.dense.height + 3 * (v.sparse.height ⊟ v.sparse.startLevel)

end Surf.Dmg
