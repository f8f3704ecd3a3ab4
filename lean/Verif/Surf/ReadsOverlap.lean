import Verif.Surf.ReadsSeek

/-! `HasOverlap`, and `Compare` and `Value` of an iterator, once more, counting what they read of the filter, as in `Surf/ReadsIter.lean`. -/

set_option linter.unusedSimpArgs false

namespace Surf
namespace Cnt

/-- louds_dense.go:336-339 `Value` -/
def dValue (ld : LoudsDense) (it : DenseIter) : Cnt Bytes := do
  let pos ← free it.posInTrie[it.level]?
  let valPos ← dSuffixPos ld pos it.atPrefixKey
  free (ld.values.get valPos)

/-- louds_dense.go:341-364 `Compare` -/
def dCompare (ld : LoudsDense) (it : DenseIter) (key : Bytes) : Cnt Int := do
  let itKey ← free it.key
  let cmpLen := min itKey.length key.length
  let cmp := bytesCompare (itKey.take cmpLen) (key.take cmpLen)
  if cmp ≠ 0 then return cmp
  else if itKey.length > key.length then return 1
  else if itKey.length = key.length ∧ it.atPrefixKey then return 0
  else if it.isComplete then do
    let pos ← free it.posInTrie[it.level]?
    let sp ← dSuffixPos ld pos it.atPrefixKey
    sufCompare ld.suffixes key sp itKey.length
  else return cmp

/-- louds_sparse.go:347-350 `Value` -/
def sValue (ls : LoudsSparse) (it : SparseIter) : Cnt Bytes := do
  let pos ← free it.posInTrie[it.level]?
  let valPos ← sSuffixPos ls pos
  free (ls.values.get valPos)

/-- louds_sparse.go:352-382 `Compare` -/
def sCompare (ls : LoudsSparse) (it : SparseIter) (key : Bytes) : Cnt Int := do
  let itKey ← free it.key
  if it.startDepth > key.length then free none
  else if it.startDepth = key.length then return if it.atTerminator then 0 else 1
  else do
    let key := key.drop it.startDepth
    let cmpLen := min itKey.length key.length
    let cmp := bytesCompare (itKey.take cmpLen) (key.take cmpLen)
    if cmp ≠ 0 then return cmp
    else if itKey.length > key.length then return 1
    else if itKey.length = key.length ∧ it.atTerminator then return 0
    else do
      let pos ← free it.posInTrie[it.level]?
      let sp ← sSuffixPos ls pos
      sufCompare ls.suffixes key sp itKey.length

/-- surf.go:195-201 `Value` -/
def value (f : SuRF) (it : Iterator) : Cnt Bytes := if it.d.isComplete then dValue f.ld it.d else sValue f.ls it.s

/-- surf.go:266-272 `compare` -/
def compare (f : SuRF) (it : Iterator) (key : Bytes) : Cnt Int := do
  let cmp ← dCompare f.ld it.d key
  if it.d.isComplete ∨ cmp ≠ 0 then return cmp else sCompare f.ls it.s key

/-- surf.go:23-42 `HasOverlap` -/
def hasOverlap (bmi : Bool) (f : SuRF) (start stop : Bytes) (includeEnd : Bool) : Cnt Bool :=
  if f.ld.height = 0 ∧ f.ls.height = 0 then pure false
  else do
    let (it, _) ← seek bmi f f.newIterator start
    if !it.valid then return false
    else do
      let cmp ← compare f it stop
      let cmp := if cmp = couldBePositive then -1 else cmp
      return if includeEnd then decide (cmp ≤ 0) else decide (cmp < 0)

theorem tally_dValue (ld : LoudsDense) (it : DenseIter) : Tally (dValue ld it) (it.value ld) 8 :=
  (tally_free _).bind (M := 8) (fun _ _ => (tally_dSuffixPos _ _ _).bind (M := 0) (fun _ _ => tally_free _) (by omega)) (by omega)

theorem tally_sValue (ls : LoudsSparse) (it : SparseIter) : Tally (sValue ls it) (it.value ls) 9 :=
  (tally_free _).bind (M := 9) (fun _ _ => (tally_sSuffixPos _ _).bind (M := 0) (fun _ _ => tally_free _) (by omega)) (by omega)

theorem tally_value (f : SuRF) (it : Iterator) : Tally (value f it) (it.value f) 9 :=
  tally_ite (fun _ => (tally_dValue _ _).less (by omega)) (fun _ => tally_sValue _ _)

theorem tally_dCompare (ld : LoudsDense) (it : DenseIter) (key : Bytes) : Tally (dCompare ld it key) (it.compare ld key) 10 :=
  (tally_free _).bind (M := 10) (fun _ _ => tally_ite (fun _ => tally_pure _ _) (fun _ => tally_ite (fun _ => tally_pure _ _) (fun _ => tally_ite (fun _ => tally_pure _ _) (fun _ => tally_ite
    (fun _ => (tally_free _).bind (M := 10) (fun _ _ => (tally_dSuffixPos _ _ _).bind (M := 2) (fun _ _ => tally_sufCompare _ _ _ _) (by omega)) (by omega)) (fun _ => tally_pure _ _))))) (by omega)

theorem tally_sCompare (ls : LoudsSparse) (it : SparseIter) (key : Bytes) : Tally (sCompare ls it key) (it.compare ls key) 11 :=
  (tally_free _).bind (M := 11) (fun _ _ => tally_ite (fun _ => tally_none _) (fun _ => tally_ite (fun _ => tally_pure _ _) (fun _ => tally_ite (fun _ => tally_pure _ _) (fun _ => tally_ite (fun _ => tally_pure _ _)
    (fun _ => tally_ite (fun _ => tally_pure _ _) (fun _ => (tally_free _).bind (M := 11) (fun _ _ => (tally_sSuffixPos _ _).bind (M := 2) (fun _ _ => tally_sufCompare _ _ _ _) (by omega)) (by omega))))))) (by omega)

theorem tally_compare (f : SuRF) (it : Iterator) (key : Bytes) : Tally (compare f it key) (it.compare f key) 21 :=
  (tally_dCompare _ _ _).bind (M := 11) (fun _ _ => tally_ite (fun _ => tally_pure _ _) (fun _ => tally_sCompare _ _ _)) (by omega)

end Cnt
end Surf
