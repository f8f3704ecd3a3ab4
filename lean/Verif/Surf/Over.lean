import Verif.Surf.Receive
import Verif.Surf.Iter

/-!
No query looks at the suffix bits of a filter without suffixes: two filters that differ only in suffix vectors which compare
alike answer alike.
-/

set_option linter.unusedSimpArgs false

namespace Surf

/-- The two suffix vectors give the same answers. -/
structure SuffixVector.Same (x y : SuffixVector) : Prop where
  eq : ∀ fp i k l, x.checkEquality fp i k l = y.checkEquality fp i k l
  cmp : ∀ k i l, x.compare k i l = y.compare k i l

theorem SuffixVector.over_same (v old : SuffixVector) : (v.over old).Same v := by
  unfold over
  split
  · next h =>
    refine ⟨fun fp i k l => ?_, fun k i l => ?_⟩
    · unfold checkEquality
      rw [if_pos h, if_pos h]
    · unfold compare
      rw [if_pos (Or.inr (Or.inl h)), if_pos (Or.inr (Or.inl h))]
  · exact ⟨fun _ _ _ _ => rfl, fun _ _ _ => rfl⟩

/-- `ld` with another suffix vector -/
def LoudsDense.swap (ld : LoudsDense) (x : SuffixVector) : LoudsDense := { ld with suffixes := x }
/-- `ls` with another suffix vector -/
def LoudsSparse.swap (ls : LoudsSparse) (x : SuffixVector) : LoudsSparse := { ls with suffixes := x }

namespace LoudsDense

variable (ld : LoudsDense) (x : SuffixVector)

theorem swap_height : (ld.swap x).height = ld.height := rfl
theorem swap_labelVec : (ld.swap x).labelVec = ld.labelVec := rfl
theorem swap_hasChildVec : (ld.swap x).hasChildVec = ld.hasChildVec := rfl
theorem swap_isPrefixVec : (ld.swap x).isPrefixVec = ld.isPrefixVec := rfl
theorem swap_prefixVec : (ld.swap x).prefixVec = ld.prefixVec := rfl
theorem swap_values : (ld.swap x).values = ld.values := rfl
theorem swap_suffixes : (ld.swap x).suffixes = x := rfl
theorem swap_childNodeID (p : Nat) : (ld.swap x).childNodeID p = ld.childNodeID p := rfl
theorem swap_suffixPos (p : Nat) (b : Bool) : (ld.swap x).suffixPos p b = ld.suffixPos p b := rfl
theorem swap_nextPos (p : Nat) : (ld.swap x).nextPos p = ld.nextPos p := rfl
theorem swap_prevPos (p : Nat) : (ld.swap x).prevPos p = ld.prevPos p := rfl

variable {ld x} (h : x.Same ld.suffixes)
include h

theorem swap_finish (fp : Bytes → Word) (k : Bytes) (d p : Nat) : (ld.swap x).finish fp k d p = ld.finish fp k d p := by
  unfold finish
  simp only [swap_suffixes, swap_values, h.eq]

theorem swap_getAt (fp : Bytes → Word) (k : Bytes) (d n : Nat) : (ld.swap x).getAt fp k d n = ld.getAt fp k d n := by
  unfold getAt
  simp only [swap_isPrefixVec, swap_labelVec, swap_hasChildVec, swap_suffixPos, swap_finish h]

theorem swap_getLoop (fp : Bytes → Word) (k : Bytes) : ∀ n d i, (ld.swap x).getLoop fp k n d i = ld.getLoop fp k n d i := by
  intro n
  induction n with
  | zero => intro d i; rfl
  | succ n ih =>
    intro d i
    unfold getLoop
    simp only [swap_prefixVec, swap_getAt h, swap_childNodeID, ih]

theorem swap_get (fp : Bytes → Word) (k : Bytes) : (ld.swap x).get fp k = ld.get fp k := by
  unfold get
  rw [swap_getLoop h, swap_height]

end LoudsDense

namespace LoudsSparse

variable (ls : LoudsSparse) (x : SuffixVector)

theorem swap_height : (ls.swap x).height = ls.height := rfl
theorem swap_labelVec : (ls.swap x).labelVec = ls.labelVec := rfl
theorem swap_hasChildVec : (ls.swap x).hasChildVec = ls.hasChildVec := rfl
theorem swap_loudsVec : (ls.swap x).loudsVec = ls.loudsVec := rfl
theorem swap_prefixVec : (ls.swap x).prefixVec = ls.prefixVec := rfl
theorem swap_values : (ls.swap x).values = ls.values := rfl
theorem swap_suffixes : (ls.swap x).suffixes = x := rfl
theorem swap_childNodeID (p : Nat) : (ls.swap x).childNodeID p = ls.childNodeID p := rfl
theorem swap_suffixPos (p : Nat) : (ls.swap x).suffixPos p = ls.suffixPos p := rfl
theorem swap_prefixID (p : Nat) : (ls.swap x).prefixID p = ls.prefixID p := rfl
theorem swap_nodeSize (p : Nat) : (ls.swap x).nodeSize p = ls.nodeSize p := rfl
theorem swap_isEndOfNode (p : Nat) : (ls.swap x).isEndOfNode p = ls.isEndOfNode p := rfl
theorem swap_sparseLevels : (ls.swap x).sparseLevels = ls.sparseLevels := rfl
theorem swap_firstLabelPos (b : Bool) (p : Nat) : (ls.swap x).firstLabelPos b p = ls.firstLabelPos b p := rfl
theorem swap_lastLabelPos (b : Bool) (p : Nat) : (ls.swap x).lastLabelPos b p = ls.lastLabelPos b p := rfl

variable {ls x} (h : x.Same ls.suffixes)
include h

theorem swap_finish (fp : Bytes → Word) (k : Bytes) (d p : Nat) : (ls.swap x).finish fp k d p = ls.finish fp k d p := by
  unfold finish
  simp only [swap_suffixes, swap_values, swap_suffixPos, h.eq]

theorem swap_getTail (fp : Bytes → Word) (k : Bytes) (d n : Nat) : (ls.swap x).getTail fp k d n = ls.getTail fp k d n := by
  unfold getTail
  simp only [swap_labelVec, swap_hasChildVec, swap_finish h]

theorem swap_getLoop (fp : Bytes → Word) (b : Bool) (k : Bytes) : ∀ n d i p, (ls.swap x).getLoop fp b k n d i p = ls.getLoop fp b k n d i p := by
  intro n
  induction n with
  | zero => intro d i p; rfl
  | succ n ih =>
    intro d i p
    unfold getLoop
    simp only [swap_prefixID, swap_prefixVec, swap_getTail h, swap_nodeSize, swap_labelVec, swap_hasChildVec, swap_finish h, swap_childNodeID, swap_firstLabelPos, ih]

theorem swap_get (fp : Bytes → Word) (b : Bool) (k : Bytes) (d n : Nat) : (ls.swap x).get fp b k d n = ls.get fp b k d n := by
  unfold get
  simp only [swap_getLoop h, swap_firstLabelPos]

end LoudsSparse

namespace DenseIter

open LoudsDense

theorem swap_append (ld : LoudsDense) (x : SuffixVector) (it : DenseIter) (p : Nat) : it.append (ld.swap x) p = it.append ld p := rfl

theorem swap_leftLoop (ld : LoudsDense) (x : SuffixVector) : ∀ n it p, leftLoop (ld.swap x) n it p = leftLoop ld n it p := by
  intro n
  induction n with
  | zero => intro it p; rfl
  | succ n ih =>
    intro it p
    unfold leftLoop
    simp only [swap_childNodeID, swap_isPrefixVec, swap_nextPos, swap_append, swap_hasChildVec, ih]

theorem swap_moveLeft (ld : LoudsDense) (x : SuffixVector) (it : DenseIter) : it.moveLeft (ld.swap x) = it.moveLeft ld := by
  unfold moveLeft
  simp only [swap_hasChildVec, swap_leftLoop, swap_height]

theorem swap_rightLoop (ld : LoudsDense) (x : SuffixVector) : ∀ n it p, rightLoop (ld.swap x) n it p = rightLoop ld n it p := by
  intro n
  induction n with
  | zero => intro it p; rfl
  | succ n ih =>
    intro it p
    unfold rightLoop
    simp only [swap_childNodeID, swap_prevPos, swap_append, swap_hasChildVec, ih]

theorem swap_moveRight (ld : LoudsDense) (x : SuffixVector) (it : DenseIter) : it.moveRight (ld.swap x) = it.moveRight ld := by
  unfold moveRight
  simp only [swap_hasChildVec, swap_rightLoop, swap_height]

theorem swap_nextHere (ld : LoudsDense) (x : SuffixVector) (ps : List Nat) (l : Nat) : nextHere (ld.swap x) ps l = nextHere ld ps l := rfl

theorem swap_nextLoop (ld : LoudsDense) (x : SuffixVector) (ps : List Nat) : ∀ l, nextLoop (ld.swap x) ps l = nextLoop ld ps l := by
  intro l
  induction l with
  | zero => rfl
  | succ l ih =>
    unfold nextLoop
    rw [swap_nextHere, ih]

theorem swap_next (ld : LoudsDense) (x : SuffixVector) (it : DenseIter) : it.next (ld.swap x) = it.next ld := by
  unfold next
  simp only [swap_height, swap_moveLeft, swap_nextLoop]

theorem swap_prevHere (ld : LoudsDense) (x : SuffixVector) (ps : List Nat) (l : Nat) : prevHere (ld.swap x) ps l = prevHere ld ps l := rfl

theorem swap_prevLoop (ld : LoudsDense) (x : SuffixVector) (ps : List Nat) : ∀ l, prevLoop (ld.swap x) ps l = prevLoop ld ps l := by
  intro l
  induction l with
  | zero => rfl
  | succ l ih =>
    unfold prevLoop
    rw [swap_prevHere, ih]

theorem swap_prev (ld : LoudsDense) (x : SuffixVector) (it : DenseIter) : it.prev (ld.swap x) = it.prev ld := by
  unfold prev
  simp only [swap_height, swap_moveRight, swap_prevLoop]

theorem swap_setToFirstInRoot (ld : LoudsDense) (x : SuffixVector) (it : DenseIter) : it.setToFirstInRoot (ld.swap x) = it.setToFirstInRoot ld := rfl
theorem swap_setToLastInRoot (ld : LoudsDense) (x : SuffixVector) (it : DenseIter) : it.setToLastInRoot (ld.swap x) = it.setToLastInRoot ld := rfl

theorem swap_seekFirst (ld : LoudsDense) (x : SuffixVector) (it : DenseIter) (n : Nat) (e : Bool) : it.seekFirst (ld.swap x) n e = it.seekFirst ld n e := by
  unfold seekFirst
  simp only [swap_nextPos, swap_append, swap_setToFirstInRoot, swap_isPrefixVec, swap_moveLeft]

variable {ld : LoudsDense} {x : SuffixVector} (h : x.Same ld.suffixes)
include h

theorem swap_compareSuffixGreaterThan (it : DenseIter) (k : Bytes) (p l : Nat) : it.compareSuffixGreaterThan (ld.swap x) k p l = it.compareSuffixGreaterThan ld k p l := by
  unfold compareSuffixGreaterThan
  simp only [swap_suffixPos, swap_suffixes, h.cmp, swap_next]

theorem swap_seekLabel (it : DenseIter) (k : Bytes) (d n : Nat) : it.seekLabel (ld.swap x) k d n = it.seekLabel ld k d n := by
  unfold seekLabel
  simp only [swap_append, swap_labelVec, swap_hasChildVec, swap_next, swap_compareSuffixGreaterThan h]

theorem swap_seekLoop (k : Bytes) : ∀ n it d i, seekLoop (ld.swap x) k n it d i = seekLoop ld k n it d i := by
  intro n
  induction n with
  | zero => intro it d i; rfl
  | succ n ih =>
    intro it d i
    unfold seekLoop
    simp only [swap_prefixVec, swap_next, swap_seekFirst, swap_seekLabel h, swap_childNodeID, ih]

theorem swap_seek (it : DenseIter) (k : Bytes) : it.seek (ld.swap x) k = it.seek ld k := by
  unfold seek
  rw [swap_seekLoop h, swap_height]

theorem swap_compare (it : DenseIter) (k : Bytes) : it.compare (ld.swap x) k = it.compare ld k := by
  unfold compare
  simp only [swap_suffixPos, swap_suffixes, h.cmp]

end DenseIter

namespace SparseIter

open LoudsSparse

theorem swap_append (ls : LoudsSparse) (x : SuffixVector) (it : SparseIter) (c : UInt8) (p n : Nat) : it.append (ls.swap x) c p n = it.append ls c p n := rfl
theorem swap_setAt (ls : LoudsSparse) (x : SuffixVector) (it : SparseIter) (p : Nat) : it.setAt (ls.swap x) p = it.setAt ls p := rfl
theorem swap_atLeaf (ls : LoudsSparse) (x : SuffixVector) (it : SparseIter) (p : Nat) (c : UInt8) : it.atLeaf (ls.swap x) p c = it.atLeaf ls p c := rfl

theorem swap_downLoop (b : Bool) (ls : LoudsSparse) (x : SuffixVector) (f : Bool) : ∀ n it p, downLoop b (ls.swap x) f n it p = downLoop b ls f n it p := by
  intro n
  induction n with
  | zero => intro it p; rfl
  | succ n ih =>
    intro it p
    unfold downLoop
    simp only [swap_childNodeID, swap_firstLabelPos, swap_lastLabelPos, swap_labelVec, swap_hasChildVec, swap_append, swap_atLeaf, ih]

theorem swap_enter (b : Bool) (ls : LoudsSparse) (x : SuffixVector) (f : Bool) (it : SparseIter) : it.enter b (ls.swap x) f = it.enter b ls f := rfl

theorem swap_move (b : Bool) (ls : LoudsSparse) (x : SuffixVector) (f : Bool) (it : SparseIter) : it.move b (ls.swap x) f = it.move b ls f := by
  unfold move
  simp only [swap_enter, swap_labelVec, swap_hasChildVec, swap_atLeaf, swap_downLoop, swap_sparseLevels]

theorem swap_setToFirstInRoot (ls : LoudsSparse) (x : SuffixVector) (it : SparseIter) : it.setToFirstInRoot (ls.swap x) = it.setToFirstInRoot ls := rfl
theorem swap_setToLastInRoot (b : Bool) (ls : LoudsSparse) (x : SuffixVector) (it : SparseIter) : it.setToLastInRoot b (ls.swap x) = it.setToLastInRoot b ls := rfl
theorem swap_nextHere (ls : LoudsSparse) (x : SuffixVector) (ps : List Nat) (l : Nat) : nextHere (ls.swap x) ps l = nextHere ls ps l := rfl
theorem swap_prevHere (ls : LoudsSparse) (x : SuffixVector) (ps : List Nat) (l : Nat) : prevHere (ls.swap x) ps l = prevHere ls ps l := rfl

theorem swap_nextLoop (ls : LoudsSparse) (x : SuffixVector) (ps : List Nat) : ∀ l, nextLoop (ls.swap x) ps l = nextLoop ls ps l := by
  intro l
  induction l with
  | zero => rfl
  | succ l ih =>
    unfold nextLoop
    rw [swap_nextHere, ih]

theorem swap_prevLoop (ls : LoudsSparse) (x : SuffixVector) (ps : List Nat) : ∀ l, prevLoop (ls.swap x) ps l = prevLoop ls ps l := by
  intro l
  induction l with
  | zero => rfl
  | succ l ih =>
    unfold prevLoop
    rw [swap_prevHere, ih]

theorem swap_next (b : Bool) (ls : LoudsSparse) (x : SuffixVector) (it : SparseIter) : it.next b (ls.swap x) = it.next b ls := by
  unfold next
  simp only [swap_nextLoop, swap_setAt, swap_move]

theorem swap_prev (b : Bool) (ls : LoudsSparse) (x : SuffixVector) (it : SparseIter) : it.prev b (ls.swap x) = it.prev b ls := by
  unfold prev
  simp only [swap_prevLoop, swap_setAt, swap_move]

theorem swap_moveToLeftInNextSubTrie (b : Bool) (ls : LoudsSparse) (x : SuffixVector) (it : SparseIter) (p n s : Nat) (c : UInt8) :
    it.moveToLeftInNextSubTrie b (ls.swap x) p n s c = it.moveToLeftInNextSubTrie b ls p n s c := by
  unfold moveToLeftInNextSubTrie
  simp only [swap_labelVec, swap_append, swap_move, swap_next]

theorem swap_seekTail (b : Bool) (ls : LoudsSparse) (x : SuffixVector) (k : Bytes) (it : SparseIter) (d n p : Nat) :
    seekTail b (ls.swap x) k it d n p = seekTail b ls k it d n p := by
  unfold seekTail
  simp only [swap_labelVec, swap_hasChildVec, swap_isEndOfNode, swap_append, swap_move]

variable {ls : LoudsSparse} {x : SuffixVector} (h : x.Same ls.suffixes)
include h

theorem swap_compareSuffixGreaterThan (b : Bool) (it : SparseIter) (k : Bytes) (p l : Nat) :
    it.compareSuffixGreaterThan b (ls.swap x) k p l = it.compareSuffixGreaterThan b ls k p l := by
  unfold compareSuffixGreaterThan
  simp only [swap_suffixPos, swap_suffixes, h.cmp, swap_next]

theorem swap_seekLabel (b : Bool) (k : Bytes) (it : SparseIter) (d n p : Nat) : seekLabel b (ls.swap x) k it d n p = seekLabel b ls k it d n p := by
  unfold seekLabel
  simp only [swap_nodeSize, swap_labelVec, swap_moveToLeftInNextSubTrie, swap_append, swap_hasChildVec, swap_compareSuffixGreaterThan h]

theorem swap_seekLoop (b : Bool) (k : Bytes) : ∀ n it d i p, seekLoop b (ls.swap x) k n it d i p = seekLoop b ls k n it d i p := by
  intro n
  induction n with
  | zero =>
    intro it d i p
    unfold seekLoop
    rw [swap_seekTail]
  | succ n ih =>
    intro it d i p
    unfold seekLoop
    simp only [swap_prefixID, swap_prefixVec, swap_next, swap_labelVec, swap_append, swap_move, swap_seekLabel h, swap_childNodeID, swap_firstLabelPos, ih]

theorem swap_seek (b : Bool) (it : SparseIter) (k : Bytes) : it.seek b (ls.swap x) k = it.seek b ls k := by
  unfold seek
  simp only [swap_seekLoop h, swap_firstLabelPos, swap_sparseLevels]

theorem swap_compare (it : SparseIter) (k : Bytes) : it.compare (ls.swap x) k = it.compare ls k := by
  unfold compare
  simp only [swap_suffixPos, swap_suffixes, h.cmp]

end SparseIter

/-! ## The filter and its iterator -/

variable (s old : SuRF)

theorem SuRF.over_ld : (s.over old).ld = s.ld.swap (s.ld.suffixes.over old.ld.suffixes) := rfl
theorem SuRF.over_ls : (s.over old).ls = s.ls.swap (s.ls.suffixes.over old.ls.suffixes) := rfl

theorem SuRF.over_get (fp : Bytes → Word) (b : Bool) (k : Bytes) : (s.over old).get fp b k = s.get fp b k := by
  unfold get
  simp only [over_ld, over_ls, LoudsDense.swap_get (SuffixVector.over_same _ _), LoudsSparse.swap_get (SuffixVector.over_same _ _)]

theorem SuRF.over_newIterator : (s.over old).newIterator = s.newIterator := rfl

namespace Iterator

theorem over_intoSparse (b f : Bool) (it : Iterator) : it.intoSparse b (s.over old) f = it.intoSparse b s f := by
  unfold intoSparse
  simp only [SuRF.over_ls, SparseIter.swap_move]

theorem over_incrDense (b : Bool) (it : Iterator) : it.incrDense b (s.over old) = it.incrDense b s := by
  unfold incrDense
  simp only [SuRF.over_ld, DenseIter.swap_next, over_intoSparse]

theorem over_next (b : Bool) (it : Iterator) : it.next b (s.over old) = it.next b s := by
  unfold next
  simp only [SuRF.over_ls, SparseIter.swap_next, over_incrDense]

theorem over_prev (b : Bool) (it : Iterator) : it.prev b (s.over old) = it.prev b s := by
  unfold prev decrDense
  simp only [SuRF.over_ls, SuRF.over_ld, SparseIter.swap_prev, DenseIter.swap_prev, over_intoSparse]

theorem over_seek (b : Bool) (it : Iterator) (k : Bytes) : it.seek b (s.over old) k = it.seek b s k := by
  unfold seek
  simp only [over_incrDense, over_intoSparse, SuRF.over_ls, SuRF.over_ld, LoudsDense.swap_height, LoudsSparse.swap_height, DenseIter.swap_seek (SuffixVector.over_same _ _), SparseIter.swap_seek (SuffixVector.over_same _ _)]

theorem over_seekToFirst (b : Bool) (it : Iterator) : it.seekToFirst b (s.over old) = it.seekToFirst b s := by
  unfold seekToFirst
  simp only [over_intoSparse, SuRF.over_ls, SuRF.over_ld, LoudsDense.swap_height, LoudsSparse.swap_height, DenseIter.swap_setToFirstInRoot, DenseIter.swap_moveLeft, SparseIter.swap_setToFirstInRoot, SparseIter.swap_move]

theorem over_seekToLast (b : Bool) (it : Iterator) : it.seekToLast b (s.over old) = it.seekToLast b s := by
  unfold seekToLast
  simp only [over_intoSparse, SuRF.over_ls, SuRF.over_ld, LoudsDense.swap_height, LoudsSparse.swap_height, DenseIter.swap_setToLastInRoot, DenseIter.swap_moveRight, SparseIter.swap_setToLastInRoot, SparseIter.swap_move]

theorem over_value (it : Iterator) : it.value (s.over old) = it.value s := rfl

theorem over_compare (it : Iterator) (k : Bytes) : it.compare (s.over old) k = it.compare s k := by
  unfold compare
  simp only [SuRF.over_ls, SuRF.over_ld, DenseIter.swap_compare (SuffixVector.over_same _ _), SparseIter.swap_compare (SuffixVector.over_same _ _)]

end Iterator

theorem SuRF.over_hasOverlap (b : Bool) (x y : Bytes) (incl : Bool) : (s.over old).hasOverlap b x y incl = s.hasOverlap b x y incl := by
  unfold hasOverlap
  simp only [over_newIterator, Iterator.over_seek, Iterator.over_compare]
  rfl

end Surf
