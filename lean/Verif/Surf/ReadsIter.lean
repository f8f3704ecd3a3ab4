import Verif.Surf.ReadsBuilt
import Verif.Surf.Iter

/-! `Next` and `SeekToFirst` of an iterator once more, counting what they read of the filter, as in `Surf/Reads.lean`. The arrays of the iterator itself do not count. A prefix that is appended to the key counts one for every byte. -/

set_option linter.unusedSimpArgs false

namespace Surf
namespace Cnt

/-! ## denseIter -/

/-- louds_dense.go:160-162 `nextPos` -/
def nextPos (ld : LoudsDense) (pos : Nat) : Cnt Nat := do
  let d ← distanceToNextSetBit ld.labelVec.bv pos
  return pos + d

/-- louds_dense.go:370-380 `append`; line 374 copies the prefix -/
def dAppend (ld : LoudsDense) (it : DenseIter) (pos : Nat) : Cnt DenseIter := do
  let pre ← getPrefix ld.prefixVec (pos / denseFanout)
  let ps ← rd pre.length (putAt it.posInTrie it.level pos)
  let n ← free (it.upLen (pre.length + 1))
  let ls ← free (putAt it.prefixLen it.level n)
  return { it with keyBuf := it.keyBuf ++ pre ++ [UInt8.ofNat (pos % denseFanout)], posInTrie := ps, prefixLen := ls }

/-- louds_dense.go:389-410 -/
def dLeftLoop (ld : LoudsDense) : Nat → DenseIter → Nat → Cnt DenseIter
  | 0, it, pos => do
    let c ← rankDense ld.hasChildVec pos
    return { it with sendOutNodeID := c, sendOutDepth := it.keyBuf.length }.flags true false true
  | n + 1, it, pos => do
    let nodeID ← rankDense ld.hasChildVec pos
    let p ← isSet ld.isPrefixVec.bv nodeID
    let q ← free (usub (nodeID * denseFanout) 1)
    let pos ← nextPos ld q
    let it ← dAppend ld { it with level := it.level + 1 } pos
    if p then return { it with atPrefixKey := true }.flags true true true
    else do
      let h ← isSet ld.hasChildVec.bv pos
      if !h then return it.flags true true true else dLeftLoop ld n it pos

/-- louds_dense.go:382-411 `MoveToLeftMostKey` -/
def dMoveLeft (ld : LoudsDense) (it : DenseIter) : Cnt DenseIter := do
  let pos ← free it.posInTrie[it.level]?
  let h ← isSet ld.hasChildVec.bv pos
  if !h then return it.flags true true true else dLeftLoop ld (ld.height - 1 - it.level) it pos

/-- louds_dense.go:442-448 `SetToFirstInRoot` -/
def dFirst (ld : LoudsDense) (it : DenseIter) : Cnt DenseIter := do
  let b ← isSet ld.labelVec.bv 0
  if b then dAppend ld it 0
  else do
    let p ← nextPos ld 0
    dAppend ld it p

/-- louds_dense.go:210-213, 219-220 -/
def dNextHere (ld : LoudsDense) (ps : List Nat) (lev : Nat) : Cnt (Option Nat) := do
  let pos ← free ps[lev]?
  let np ← nextPos ld pos
  if pos = np ∨ np / denseFanout > pos / denseFanout then return none else return some np

/-- louds_dense.go:213-221 -/
def dNextLoop (ld : LoudsDense) (ps : List Nat) : Nat → Cnt (Option (Nat × Nat))
  | 0 => do
    match ← dNextHere ld ps 0 with
    | none => return none
    | some np => return some (0, np)
  | lev + 1 => do
    match ← dNextHere ld ps (lev + 1) with
    | none => dNextLoop ld ps lev
    | some np => return some (lev + 1, np)

/-- louds_dense.go:200-224 `Next` -/
def dNext (ld : LoudsDense) (it : DenseIter) : Cnt DenseIter :=
  if ld.height = 0 then pure it
  else if it.atPrefixKey then dMoveLeft ld { it with atPrefixKey := false }
  else do
    match ← dNextLoop ld it.posInTrie it.level with
    | none => return { it with level := 0, valid := false }
    | some (lev, np) => do
      let it ← free ({ it with level := lev }.setAt np)
      dMoveLeft ld it

/-! ## sparseIter -/

/-- louds_sparse.go:475-485 `append` -/
def sAppend (ls : LoudsSparse) (it : SparseIter) (label : UInt8) (pos nodeID : Nat) : Cnt SparseIter := do
  let pid ← free (ls.prefixID nodeID)
  let pre ← getPrefix ls.prefixVec pid
  let ps ← rd pre.length (putAt it.posInTrie it.level pos)
  let n ← free (it.upLen (pre.length + 1))
  let pl ← free (putAt it.prefixLen it.level n)
  let ns ← free (putAt it.nodeID it.level nodeID)
  return { it with keyBuf := it.keyBuf ++ pre ++ [label], posInTrie := ps, prefixLen := pl, nodeID := ns }

/-- louds_sparse.go:487-490 `setAt` -/
def sSetAt (ls : LoudsSparse) (it : SparseIter) (pos : Nat) : Cnt SparseIter := do
  let n ← free it.prefixLen[it.level]?
  let n ← free (usub n 1)
  let b ← free (cutTo it.keyBuf n)
  let label ← rd 1 (ls.labelVec.getLabel pos)
  let ps ← free (putAt it.posInTrie it.level pos)
  return { it with keyBuf := b ++ [label], posInTrie := ps }

/-- louds_sparse.go:204-206 `isEndOfNode` -/
def isEndOfNode (ls : LoudsSparse) (pos : Nat) : Cnt Bool := do
  let last ← free (usub ls.loudsVec.bv.numBits 1)
  if pos = last then return true else isSet ls.loudsVec.bv (pos + 1)

/-- louds_sparse.go:402-405, 417-420 -/
def atLeaf (ls : LoudsSparse) (it : SparseIter) (pos : Nat) (label : UInt8) : Cnt SparseIter := do
  let t ← if label = labelTerminator then (do let b ← isEndOfNode ls pos; return !b) else pure false
  return { it with valid := true, atTerminator := it.atTerminator || t }

/-- louds_sparse.go:409-425 -/
def sDownLoop (bmi : Bool) (ls : LoudsSparse) : Nat → SparseIter → Nat → Cnt SparseIter
  | 0, _, _ => free none
  | n + 1, it, pos => do
    let nodeID ← sChildNodeID ls pos
    let pos ← firstLabelPos bmi ls nodeID
    let label ← rd 1 (ls.labelVec.getLabel pos)
    let h ← isSet ls.hasChildVec.bv pos
    let it ← sAppend ls { it with level := it.level + 1 } label pos nodeID
    if !h then atLeaf ls it pos label else sDownLoop bmi ls n it pos

/-- louds_sparse.go:392-396 -/
def sEnter (bmi : Bool) (ls : LoudsSparse) (it : SparseIter) : Cnt SparseIter :=
  if it.keyBuf.length = 0 then do
    let pos ← firstLabelPos bmi ls it.startNodeID
    let label ← rd 1 (ls.labelVec.getLabel pos)
    sAppend ls it label pos it.startNodeID
  else pure it

/-- louds_sparse.go:391-426 `MoveToLeftMostKey` -/
def sMoveLeft (bmi : Bool) (ls : LoudsSparse) (it : SparseIter) : Cnt SparseIter := do
  let it ← sEnter bmi ls it
  let pos ← free it.posInTrie[it.level]?
  let label ← rd 1 (ls.labelVec.getLabel pos)
  let h ← isSet ls.hasChildVec.bv pos
  if !h then atLeaf ls it pos label else sDownLoop bmi ls (ls.sparseLevels - it.level) it pos

/-- louds_sparse.go:465-468 `SetToFirstInRoot` -/
def sFirst (ls : LoudsSparse) (it : SparseIter) : Cnt SparseIter := do
  let ps ← free (putAt it.posInTrie 0 0)
  let l ← rd 1 (ls.labelVec.getLabel 0)
  return { it with posInTrie := ps, keyBuf := [l] }

/-- louds_sparse.go:232-235, 242-243 -/
def sNextHere (ls : LoudsSparse) (ps : List Nat) (lev : Nat) : Cnt (Option Nat) := do
  let pos ← free ps[lev]?
  let b ← if pos + 1 ≥ ls.loudsVec.bv.numBits then pure true else isSet ls.loudsVec.bv (pos + 1)
  return if b then none else some (pos + 1)

/-- louds_sparse.go:235-244 -/
def sNextLoop (ls : LoudsSparse) (ps : List Nat) : Nat → Cnt (Option (Nat × Nat))
  | 0 => do
    match ← sNextHere ls ps 0 with
    | none => return none
    | some np => return some (0, np)
  | lev + 1 => do
    match ← sNextHere ls ps (lev + 1) with
    | none => sNextLoop ls ps lev
    | some np => return some (lev + 1, np)

/-- louds_sparse.go:230-247 `Next` -/
def sNext (bmi : Bool) (ls : LoudsSparse) (it : SparseIter) : Cnt SparseIter := do
  let it := { it with atTerminator := false }
  match ← sNextLoop ls it.posInTrie it.level with
  | none => return { it with level := 0, valid := false, keyBuf := [] }
  | some (lev, np) => do
    let it ← sSetAt ls { it with level := lev } np
    sMoveLeft bmi ls it

/-! ## Iterator -/

/-- surf.go:209-212 and `MoveToLeftMostKey` -/
def intoSparse (bmi : Bool) (f : SuRF) (it : Iterator) : Cnt Iterator := do
  let s ← sMoveLeft bmi f.ls it.passToSparse.s
  return { it with s := s }

/-- surf.go:214-230 `incrDenseIter` -/
def incrDense (bmi : Bool) (f : SuRF) (it : Iterator) : Cnt Iterator :=
  if !it.d.valid then pure it
  else do
    let d ← dNext f.ld it.d
    let it := { it with d := d }
    if !d.valid then return it
    else if d.leftComp then return it
    else intoSparse bmi f it

/-- surf.go:107-112 `Next`, with `incrSparseIter` (232-238) -/
def next (bmi : Bool) (f : SuRF) (it : Iterator) : Cnt Iterator :=
  if it.s.valid then do
    let s ← sNext bmi f.ls it.s
    let it := { it with s := s }
    if s.valid then return it else incrDense bmi f it
  else incrDense bmi f it

/-- surf.go:152-167 `SeekToFirst` -/
def seekToFirst (bmi : Bool) (f : SuRF) (it : Iterator) : Cnt Iterator :=
  let it := it.reset
  if f.ld.height > 0 then do
    let d ← dFirst f.ld it.d
    let d ← dMoveLeft f.ld d
    let it := { it with d := d }
    if d.leftComp then return it else intoSparse bmi f it
  else if f.ls.height > 0 then do
    let s ← sFirst f.ls it.s
    let s ← sMoveLeft bmi f.ls s
    return { it with s := s }
  else pure it

/-! ## Counting -/

/-- The computation gives `o`; if it gives anything, the reads and `g` together are at most `N` and the measure of what it gives. -/
def Grow {α : Type} (len : α → Nat) (g : Nat) (m : Cnt α) (o : Option α) (N : Nat) : Prop :=
  ∀ c, (o = none → m c = none) ∧ ∀ a, o = some a → ∃ k, k + g ≤ N + len a ∧ m c = some (a, c + k)

section
variable {α β : Type} {len : β → Nat} {g : Nat}

theorem Grow.less {m : Cnt β} {o : Option β} {N M : Nat} (h : Grow len g m o N) (hN : N ≤ M) : Grow len g m o M := by
  intro c
  refine ⟨(h c).1, fun a ha => ?_⟩
  obtain ⟨k, h1, h2⟩ := (h c).2 a ha
  exact ⟨k, by omega, h2⟩

theorem Grow.weak {m : Cnt β} {o : Option β} {N g' : Nat} (h : Grow len g m o N) (hg : g' ≤ g) : Grow len g' m o N := by
  intro c
  refine ⟨(h c).1, fun a ha => ?_⟩
  obtain ⟨k, h1, h2⟩ := (h c).2 a ha
  exact ⟨k, by omega, h2⟩

theorem Grow.tally {m : Cnt β} {o : Option β} {N M : Nat} (h : Tally m o N) (hl : ∀ a, o = some a → N + g ≤ M + len a) : Grow len g m o M := by
  intro c
  refine ⟨(h c).1, fun a ha => ?_⟩
  obtain ⟨k, h1, h2⟩ := (h c).2 a ha
  exact ⟨k, by have := hl a ha; omega, h2⟩

theorem grow_pure {a : β} {N : Nat} (h : g ≤ N + len a) : Grow len g (pure a : Cnt β) (some a) N :=
  fun c => ⟨fun h => (by cases h), fun b hb => by cases hb; exact ⟨0, by omega, rfl⟩⟩

theorem grow_none {N : Nat} : Grow len g (free none : Cnt β) none N := fun _ => ⟨fun _ => rfl, fun a ha => by cases ha⟩

theorem grow_ite {p : Prop} [Decidable p] {m m' : Cnt β} {o o' : Option β} {N : Nat} (h : p → Grow len g m o N) (h' : ¬ p → Grow len g m' o' N) : Grow len g (if p then m else m') (if p then o else o') N := by
  split
  · next x => exact h x
  · next x => exact h' x

/-- A part that adds nothing to the measure comes first. -/
theorem Tally.grow {m : Cnt α} {o : Option α} {N M K : Nat} {f : α → Cnt β} {f' : α → Option β} (h : Tally m o N) (hf : ∀ a, o = some a → Grow len g (f a) (f' a) M) (hK : N + M ≤ K) :
    Grow len g (m >>= f) (o >>= f') K := by
  intro c
  cases o with
  | none =>
    have e : (m >>= f) c = none := by
      show (StateT.bind m f) c = none
      unfold StateT.bind
      rw [(h c).1 rfl]
      rfl
    exact ⟨fun _ => e, fun a ha => by cases ha⟩
  | some a =>
    obtain ⟨k, h1, h2⟩ := (h c).2 a rfl
    have hb := hf a rfl (c + k)
    have e : (m >>= f) c = f a (c + k) := by
      show (StateT.bind m f) c = _
      unfold StateT.bind
      rw [h2]
      rfl
    rw [e]
    refine ⟨hb.1, fun b hbb => ?_⟩
    obtain ⟨k', h3, h4⟩ := hb.2 b hbb
    exact ⟨k + k', by omega, by rw [h4, Nat.add_assoc]⟩

/-- A part that adds to the measure comes first. -/
theorem Grow.bind {l : α → Nat} {m : Cnt α} {o : Option α} {N M K : Nat} {f : α → Cnt β} {f' : α → Option β} (h : Grow l g m o N) (hf : ∀ a, o = some a → Grow len (l a) (f a) (f' a) M) (hK : N + M ≤ K) :
    Grow len g (m >>= f) (o >>= f') K := by
  intro c
  cases o with
  | none =>
    have e : (m >>= f) c = none := by
      show (StateT.bind m f) c = none
      unfold StateT.bind
      rw [(h c).1 rfl]
      rfl
    exact ⟨fun _ => e, fun a ha => by cases ha⟩
  | some a =>
    obtain ⟨k, h1, h2⟩ := (h c).2 a rfl
    have hb := hf a rfl (c + k)
    have e : (m >>= f) c = f a (c + k) := by
      show (StateT.bind m f) c = _
      unfold StateT.bind
      rw [h2]
      rfl
    rw [e]
    refine ⟨hb.1, fun b hbb => ?_⟩
    obtain ⟨k', h3, h4⟩ := hb.2 b hbb
    exact ⟨k + k', by omega, by rw [h4, Nat.add_assoc]⟩

end

/-- The length of the key -/
abbrev dLen (it : DenseIter) : Nat := it.keyBuf.length

/-- The length of the key -/
abbrev sLen (it : SparseIter) : Nat := it.keyBuf.length

/-! ### The sparse part -/

theorem grow_sAppend (ls : LoudsSparse) (it : SparseIter) (label : UInt8) (pos nodeID : Nat) : Grow sLen it.keyBuf.length (sAppend ls it label pos nodeID) (it.append ls label pos nodeID) 12 := by
  refine (tally_free _).grow (M := 12) (fun pid _ => (tally_getPrefix _ _).grow (M := 0) (fun pre _ => ?_) (by omega)) (by omega)
  refine Grow.tally (N := pre.length) ?_ (fun a ha => ?_)
  · exact (tally_rd _ _).bind (M := 0) (fun ps _ => (tally_free _).bind (M := 0) (fun n _ => (tally_free _).bind (M := 0) (fun pl _ => (tally_free _).bind (M := 0) (fun ns _ => tally_pure _ 0) (by omega)) (by omega)) (by omega)) (by omega)
  · obtain ⟨ps, -, ha⟩ := Option.bind_eq_some_iff.mp ha
    obtain ⟨n, -, ha⟩ := Option.bind_eq_some_iff.mp ha
    obtain ⟨pl, -, ha⟩ := Option.bind_eq_some_iff.mp ha
    obtain ⟨ns, -, ha⟩ := Option.bind_eq_some_iff.mp ha
    cases ha
    show _ ≤ 0 + (it.keyBuf ++ pre ++ [label]).length
    simp only [List.length_append, List.length_singleton]
    omega

theorem tally_end (ls : LoudsSparse) (pos : Nat) : Tally (isEndOfNode ls pos) (ls.isEndOfNode pos) 1 :=
  (tally_free _).bind (fun _ _ => tally_ite (fun _ => tally_pure _ _) (fun _ => tally_isSet _ _)) (by omega)

theorem tally_atLeaf (ls : LoudsSparse) (it : SparseIter) (pos : Nat) (label : UInt8) : Tally (atLeaf ls it pos label) (it.atLeaf ls pos label) 1 := by
  unfold atLeaf SparseIter.atLeaf
  refine tally_ite (fun _ => Tally.bind (N := 1) (M := 0) ?_ (fun t _ => tally_pure _ _) (Nat.le_refl _)) (fun _ => Tally.bind (N := 1) (M := 0) (tally_pure _ _) (fun t _ => tally_pure _ _) (Nat.le_refl _))
  have := (tally_end ls pos).bind (M := 0) (K := 1) (f := fun b => (pure (!b) : Cnt Bool)) (g := fun b => some (!b)) (fun b _ => tally_pure _ _) (by omega)
  cases e : ls.isEndOfNode pos with
  | none => rw [e] at this; exact this
  | some b => rw [e] at this; exact this

theorem atLeaf_buf {ls : LoudsSparse} {it it' : SparseIter} {pos : Nat} {label : UInt8} (h : it.atLeaf ls pos label = some it') : it'.keyBuf = it.keyBuf ∧ it'.valid = true ∧ it'.posInTrie = it.posInTrie := by
  unfold SparseIter.atLeaf at h
  dsimp only at h
  split at h <;>
    (obtain ⟨t, -, h⟩ := Option.bind_eq_some_iff.mp h
     cases h
     exact ⟨rfl, rfl, rfl⟩)

theorem grow_atLeaf (ls : LoudsSparse) (it : SparseIter) (pos : Nat) (label : UInt8) : Grow sLen it.keyBuf.length (atLeaf ls it pos label) (it.atLeaf ls pos label) 1 :=
  Grow.tally (tally_atLeaf _ _ _ _) (fun a ha => by rw [sLen, (atLeaf_buf ha).1])

theorem tally_sChild (ls : LoudsSparse) (pos : Nat) : Tally (sChildNodeID ls pos) (ls.childNodeID pos) 9 := (tally_rankSparse _ _).bind (M := 0) (fun _ _ => tally_pure _ _) (by omega)

theorem Close.grow_down {ls : LoudsSparse} (hc : Close ls) (bmi : Bool) : ∀ (n : Nat) (it : SparseIter) (pos : Nat), Grow sLen it.keyBuf.length (sDownLoop bmi ls n it pos) (it.downLoop bmi ls true n pos) (278 * n + 1) := by
  intro n
  induction n with
  | zero => intro it pos; exact grow_none
  | succ n ih =>
    intro it pos
    refine (tally_sChild _ _).grow (M := 278 * n + 270) (fun nodeID _ => ?_) (by omega)
    refine (hc.tally_first _ _).grow (M := 278 * n + 15) (fun pos _ => ?_) (by omega)
    refine (tally_rd 1 _).grow (M := 278 * n + 14) (fun label _ => (tally_isSet _ _).grow (M := 278 * n + 13) (fun h _ => ?_) (by omega)) (by omega)
    refine Grow.bind (l := sLen) (N := 12) (M := 278 * n + 1) (g := it.keyBuf.length) (grow_sAppend ls { it with level := it.level + 1 } label pos nodeID) (fun it' _ => grow_ite (fun _ => (grow_atLeaf _ _ _ _).less (by omega)) (fun _ => ih _ _)) (by omega)

theorem Close.grow_enter {ls : LoudsSparse} (hc : Close ls) (bmi : Bool) (it : SparseIter) : Grow sLen it.keyBuf.length (sEnter bmi ls it) (it.enter bmi ls true) 268 :=
  grow_ite (fun _ => (hc.tally_first _ _).grow (M := 13) (fun pos _ => (tally_rd 1 _).grow (M := 12) (fun label _ => grow_sAppend _ _ _ _ _) (by omega)) (by omega)) (fun _ => grow_pure (by simp))

theorem Close.grow_move {ls : LoudsSparse} (hc : Close ls) (bmi : Bool) (it : SparseIter) : Grow sLen it.keyBuf.length (sMoveLeft bmi ls it) (it.move bmi ls true) (278 * ls.sparseLevels + 271) := by
  refine (hc.grow_enter bmi it).bind (M := 278 * ls.sparseLevels + 3) (fun it' _ => ?_) (by omega)
  refine (tally_free _).grow (M := 278 * ls.sparseLevels + 3) (fun pos _ => (tally_rd 1 _).grow (M := 278 * ls.sparseLevels + 2) (fun label _ => (tally_isSet _ _).grow (M := 278 * ls.sparseLevels + 1) (fun h _ => ?_) (by omega)) (by omega)) (by omega)
  exact grow_ite (fun _ => (grow_atLeaf _ _ _ _).less (by omega)) (fun _ => (hc.grow_down bmi _ _ _).less (by omega))

theorem down_valid {bmi : Bool} {ls : LoudsSparse} {first : Bool} : ∀ {n : Nat} {it it' : SparseIter} {pos : Nat}, it.downLoop bmi ls first n pos = some it' → it'.valid = true := by
  intro n
  induction n with
  | zero => intro it it' pos h; cases h
  | succ n ih =>
    intro it it' pos h
    unfold SparseIter.downLoop at h
    obtain ⟨id, -, h⟩ := Option.bind_eq_some_iff.mp h
    dsimp only at h
    have key : ∀ p, (do
        let label ← ls.labelVec.getLabel p
        let hh ← ls.hasChildVec.bv.isSet p
        let it ← { it with level := it.level + 1 }.append ls label p id
        if (!hh) = true then it.atLeaf ls p label else it.downLoop bmi ls first n p) = some it' → it'.valid = true := by
      intro p h
      obtain ⟨label, -, h⟩ := Option.bind_eq_some_iff.mp h
      obtain ⟨hh, -, h⟩ := Option.bind_eq_some_iff.mp h
      obtain ⟨it1, -, h⟩ := Option.bind_eq_some_iff.mp h
      split at h
      · exact (atLeaf_buf h).2.1
      · exact ih h
    split at h <;>
      (obtain ⟨p, -, h⟩ := Option.bind_eq_some_iff.mp h
       exact key p h)

theorem move_valid {bmi : Bool} {ls : LoudsSparse} {first : Bool} {it it' : SparseIter} (h : it.move bmi ls first = some it') : it'.valid = true := by
  unfold SparseIter.move at h
  obtain ⟨it1, -, h⟩ := Option.bind_eq_some_iff.mp h
  obtain ⟨pos, -, h⟩ := Option.bind_eq_some_iff.mp h
  obtain ⟨label, -, h⟩ := Option.bind_eq_some_iff.mp h
  obtain ⟨hh, -, h⟩ := Option.bind_eq_some_iff.mp h
  split at h
  · exact (atLeaf_buf h).2.1
  · exact down_valid h

/-- The length of the key, if the sparse part has one -/
def sVis (it : SparseIter) : Nat := if it.valid then it.keyBuf.length else 0

theorem Grow.len {β : Type} {len len' : β → Nat} {g N : Nat} {m : Cnt β} {o : Option β} (h : Grow len g m o N) (hl : ∀ a, o = some a → len a ≤ len' a) : Grow len' g m o N := by
  intro c
  refine ⟨(h c).1, fun a ha => ?_⟩
  obtain ⟨k, h1, h2⟩ := (h c).2 a ha
  exact ⟨k, by have := hl a ha; omega, h2⟩

theorem tally_sNextHere (ls : LoudsSparse) (ps : List Nat) (lev : Nat) : Tally (sNextHere ls ps lev) (SparseIter.nextHere ls ps lev) 1 := by
  refine (tally_free _).bind (M := 1) (fun pos _ => ?_) (by omega)
  exact tally_ite (fun _ => Tally.bind (N := 1) (M := 0) (tally_pure _ _) (fun t _ => tally_pure _ _) (Nat.le_refl _)) (fun _ => Tally.bind (N := 1) (M := 0) (tally_isSet _ _) (fun t _ => tally_pure _ _) (Nat.le_refl _))

theorem tally_sNextLoop (ls : LoudsSparse) (ps : List Nat) : ∀ lev, Tally (sNextLoop ls ps lev) (SparseIter.nextLoop ls ps lev) (lev + 1) := by
  intro lev
  induction lev with
  | zero => exact (tally_sNextHere _ _ _).bind (M := 0) (fun r _ => by cases r <;> exact tally_pure _ _) (by omega)
  | succ lev ih => exact (tally_sNextHere _ _ _).bind (M := lev + 1) (fun r _ => by cases r; exact ih; exact tally_pure _ _) (by omega)

theorem sNextLoop_lt {ls : LoudsSparse} {ps : List Nat} {lev : Nat} {r : Option (Nat × Nat)} (h : SparseIter.nextLoop ls ps lev = some r) : lev < ps.length := by
  have key : ∀ {l : Nat} {r : Option Nat}, SparseIter.nextHere ls ps l = some r → l < ps.length := by
    intro l r h
    unfold SparseIter.nextHere at h
    obtain ⟨pos, hp, -⟩ := Option.bind_eq_some_iff.mp h
    exact (List.getElem?_eq_some_iff.mp hp).1
  cases lev with
  | zero =>
    obtain ⟨x, hx, -⟩ := Option.bind_eq_some_iff.mp h
    exact key hx
  | succ lev =>
    obtain ⟨x, hx, -⟩ := Option.bind_eq_some_iff.mp h
    exact key hx

theorem tally_sSetAt (ls : LoudsSparse) (it : SparseIter) (pos : Nat) : Tally (sSetAt ls it pos) (it.setAt ls pos) 1 :=
  (tally_free _).bind (M := 1) (fun _ _ => (tally_free _).bind (M := 1) (fun _ _ => (tally_free _).bind (M := 1) (fun _ _ => (tally_rd 1 _).bind (M := 0) (fun _ _ => (tally_free _).bind (M := 0) (fun _ _ => tally_pure _ _)
    (by omega)) (by omega)) (by omega)) (by omega)) (by omega)

theorem Close.grow_move0 {ls : LoudsSparse} (hc : Close ls) (bmi : Bool) (it : SparseIter) : Grow sVis (sVis it) (sMoveLeft bmi ls it) (it.move bmi ls true) (278 * ls.sparseLevels + 271) :=
  ((hc.grow_move bmi it).len (fun a ha => by unfold sVis; rw [move_valid ha]; simp)).weak (by unfold sVis; split <;> omega)

theorem Close.grow_sNext {ls : LoudsSparse} (hc : Close ls) (bmi : Bool) (it : SparseIter) (hl : it.posInTrie.length = ls.sparseLevels) : Grow sVis 0 (sNext bmi ls it) (it.next bmi ls) (279 * ls.sparseLevels + 272) := by
  unfold sNext SparseIter.next
  refine Tally.grow (N := ls.sparseLevels) (M := 278 * ls.sparseLevels + 272) ((tally_sNextLoop ls it.posInTrie it.level).of (fun a ha => ?_)) (fun r _ => ?_) (by omega)
  · have := sNextLoop_lt ha
    omega
  · cases r with
    | none => exact grow_pure (by omega)
    | some r => exact (tally_sSetAt _ _ _).grow (M := 278 * ls.sparseLevels + 271) (fun it' _ => (hc.grow_move0 bmi it').weak (Nat.zero_le _)) (by omega)

/-! ### The dense part -/

/-- The labels of the dense part lie close together. -/
def Near (ld : LoudsDense) : Prop := ∀ pos d, ld.labelVec.bv.distanceToNextSetBit pos = some d → d ≤ 512

theorem Near.tally_next {ld : LoudsDense} (hn : Near ld) (pos : Nat) : Tally (nextPos ld pos) (ld.nextPos pos) 9 :=
  (tally_dist _ _ 8 (fun d hd => by have := hn pos d hd; omega)).bind (M := 0) (fun _ _ => tally_pure _ _) (by omega)

theorem grow_dAppend (ld : LoudsDense) (it : DenseIter) (pos : Nat) : Grow dLen it.keyBuf.length (dAppend ld it pos) (it.append ld pos) 12 := by
  refine (tally_getPrefix _ _).grow (M := 0) (fun pre _ => ?_) (by omega)
  refine Grow.tally (N := pre.length) ?_ (fun a ha => ?_)
  · exact (tally_rd _ _).bind (M := 0) (fun ps _ => (tally_free _).bind (M := 0) (fun n _ => (tally_free _).bind (M := 0) (fun pl _ => tally_pure _ 0) (by omega)) (by omega)) (by omega)
  · obtain ⟨ps, -, ha⟩ := Option.bind_eq_some_iff.mp ha
    obtain ⟨n, -, ha⟩ := Option.bind_eq_some_iff.mp ha
    obtain ⟨pl, -, ha⟩ := Option.bind_eq_some_iff.mp ha
    cases ha
    show _ ≤ 0 + (it.keyBuf ++ pre ++ [UInt8.ofNat (pos % denseFanout)]).length
    simp only [List.length_append, List.length_singleton]
    omega

theorem Near.grow_left {ld : LoudsDense} (hn : Near ld) : ∀ (n : Nat) (it : DenseIter) (pos : Nat), Grow dLen it.keyBuf.length (dLeftLoop ld n it pos) (it.leftLoop ld n pos) (25 * n + 2) := by
  intro n
  induction n with
  | zero => intro it pos; exact (tally_rankDense _ _).grow (M := 0) (fun c _ => grow_pure (by simp [dLen, DenseIter.flags])) (by omega)
  | succ n ih =>
    intro it pos
    refine (tally_rankDense _ _).grow (M := 25 * n + 25) (fun nodeID _ => (tally_isSet _ _).grow (M := 25 * n + 24) (fun p _ => (tally_free _).grow (M := 25 * n + 24) (fun q _ => (hn.tally_next q).grow (M := 25 * n + 15) (fun pos _ => ?_)
      (by omega)) (by omega)) (by omega)) (by omega)
    refine Grow.bind (l := dLen) (N := 12) (M := 25 * n + 3) (g := it.keyBuf.length) (grow_dAppend ld { it with level := it.level + 1 } pos) (fun it' _ => grow_ite (fun _ => grow_pure (by simp [dLen, DenseIter.flags])) (fun _ => ?_)) (by omega)
    exact (tally_isSet _ _).grow (M := 25 * n + 2) (fun h _ => grow_ite (fun _ => grow_pure (by simp [dLen, DenseIter.flags])) (fun _ => ih _ _)) (by omega)

theorem Near.grow_move {ld : LoudsDense} (hn : Near ld) (it : DenseIter) : Grow dLen it.keyBuf.length (dMoveLeft ld it) (it.moveLeft ld) (25 * ld.height + 3) :=
  (tally_free _).grow (M := 25 * ld.height + 3) (fun pos _ => (tally_isSet _ _).grow (M := 25 * ld.height + 2) (fun h _ => grow_ite (fun _ => grow_pure (by simp [dLen, DenseIter.flags])) (fun _ => (hn.grow_left _ _ _).less (by omega)))
    (by omega)) (by omega)

theorem Near.tally_here {ld : LoudsDense} (hn : Near ld) (ps : List Nat) (lev : Nat) : Tally (dNextHere ld ps lev) (DenseIter.nextHere ld ps lev) 9 :=
  (tally_free _).bind (M := 9) (fun pos _ => (hn.tally_next pos).bind (M := 0) (fun np _ => tally_ite (fun _ => tally_pure _ _) (fun _ => tally_pure _ _)) (by omega)) (by omega)

theorem Near.tally_loop {ld : LoudsDense} (hn : Near ld) (ps : List Nat) : ∀ lev, Tally (dNextLoop ld ps lev) (DenseIter.nextLoop ld ps lev) (9 * (lev + 1)) := by
  intro lev
  induction lev with
  | zero => exact (hn.tally_here _ _).bind (M := 0) (fun r _ => by cases r <;> exact tally_pure _ _) (by omega)
  | succ lev ih => exact (hn.tally_here _ _).bind (M := 9 * (lev + 1)) (fun r _ => by cases r; exact ih; exact tally_pure _ _) (by omega)

theorem dNextLoop_lt {ld : LoudsDense} {ps : List Nat} {lev : Nat} {r : Option (Nat × Nat)} (h : DenseIter.nextLoop ld ps lev = some r) : lev < ps.length := by
  have key : ∀ {l : Nat} {r : Option Nat}, DenseIter.nextHere ld ps l = some r → l < ps.length := by
    intro l r h
    unfold DenseIter.nextHere at h
    obtain ⟨pos, hp, -⟩ := Option.bind_eq_some_iff.mp h
    exact (List.getElem?_eq_some_iff.mp hp).1
  cases lev with
  | zero =>
    obtain ⟨x, hx, -⟩ := Option.bind_eq_some_iff.mp h
    exact key hx
  | succ lev =>
    obtain ⟨x, hx, -⟩ := Option.bind_eq_some_iff.mp h
    exact key hx

/-! ### The sizes of the arrays -/

theorem putAt_sz {l l' : List Nat} {i x : Nat} (h : putAt l i x = some l') : l'.length = l.length := by
  unfold putAt at h
  split at h
  · cases h; simp
  · cases h

theorem dAppend_sz {ld : LoudsDense} {it it' : DenseIter} {pos : Nat} (h : it.append ld pos = some it') : it'.posInTrie.length = it.posInTrie.length := by
  unfold DenseIter.append at h
  obtain ⟨_, -, h⟩ := Option.bind_eq_some_iff.mp h
  obtain ⟨_, h1, h⟩ := Option.bind_eq_some_iff.mp h
  obtain ⟨_, -, h⟩ := Option.bind_eq_some_iff.mp h
  obtain ⟨_, -, h⟩ := Option.bind_eq_some_iff.mp h
  cases h
  exact putAt_sz h1

theorem dSetAt_sz {it it' : DenseIter} {pos : Nat} (h : it.setAt pos = some it') : it'.posInTrie.length = it.posInTrie.length := by
  unfold DenseIter.setAt at h
  obtain ⟨_, -, h⟩ := Option.bind_eq_some_iff.mp h
  obtain ⟨_, -, h⟩ := Option.bind_eq_some_iff.mp h
  obtain ⟨_, -, h⟩ := Option.bind_eq_some_iff.mp h
  obtain ⟨_, h1, h⟩ := Option.bind_eq_some_iff.mp h
  cases h
  exact putAt_sz h1

theorem leftLoop_sz {ld : LoudsDense} : ∀ {n : Nat} {it it' : DenseIter} {pos : Nat}, DenseIter.leftLoop ld n it pos = some it' → (it'.valid = true ∧ it'.searchComp = true) ∧ it'.posInTrie.length = it.posInTrie.length := by
  intro n
  induction n with
  | zero =>
    intro it it' pos h
    obtain ⟨c, -, h⟩ := Option.bind_eq_some_iff.mp h
    cases h
    exact ⟨⟨rfl, rfl⟩, rfl⟩
  | succ n ih =>
    intro it it' pos h
    unfold DenseIter.leftLoop at h
    obtain ⟨_, -, h⟩ := Option.bind_eq_some_iff.mp h
    obtain ⟨_, -, h⟩ := Option.bind_eq_some_iff.mp h
    obtain ⟨_, -, h⟩ := Option.bind_eq_some_iff.mp h
    obtain ⟨_, -, h⟩ := Option.bind_eq_some_iff.mp h
    obtain ⟨it1, h1, h⟩ := Option.bind_eq_some_iff.mp h
    have h1 := dAppend_sz h1
    dsimp only at h1
    split at h
    · cases h; exact ⟨⟨rfl, rfl⟩, h1⟩
    · obtain ⟨_, -, h⟩ := Option.bind_eq_some_iff.mp h
      split at h
      · cases h; exact ⟨⟨rfl, rfl⟩, h1⟩
      · obtain ⟨h2, h3⟩ := ih h
        exact ⟨h2, h3.trans h1⟩

theorem moveLeft_sz {ld : LoudsDense} {it it' : DenseIter} (h : it.moveLeft ld = some it') : (it'.valid = true ∧ it'.searchComp = true) ∧ it'.posInTrie.length = it.posInTrie.length ∧ 0 < it.posInTrie.length := by
  unfold DenseIter.moveLeft at h
  obtain ⟨_, h1, h⟩ := Option.bind_eq_some_iff.mp h
  have h1 := (List.getElem?_eq_some_iff.mp h1).1
  obtain ⟨_, -, h⟩ := Option.bind_eq_some_iff.mp h
  split at h
  · cases h; exact ⟨⟨rfl, rfl⟩, rfl, by omega⟩
  · obtain ⟨h2, h3⟩ := leftLoop_sz h
    exact ⟨h2, h3, by omega⟩

theorem dNext_sz {ld : LoudsDense} {it it' : DenseIter} (h : it.next ld = some it') : it'.posInTrie.length = it.posInTrie.length := by
  unfold DenseIter.next at h
  split at h
  · cases h; rfl
  · split at h
    · exact (moveLeft_sz h).2.1
    · obtain ⟨x, -, h⟩ := Option.bind_eq_some_iff.mp h
      cases x with
      | none => cases h; rfl
      | some x =>
        obtain ⟨y, h1, h⟩ := Option.bind_eq_some_iff.mp h
        have h1 := dSetAt_sz h1
        exact (moveLeft_sz h).2.1.trans h1

/-- The length of the key, if the dense part has one -/
def dVis (it : DenseIter) : Nat := if it.valid = true ∧ 0 < it.posInTrie.length then it.keyBuf.length else 0

theorem moveLeft_vis {ld : LoudsDense} {it it' : DenseIter} (h : it.moveLeft ld = some it') : dVis it' = it'.keyBuf.length := by
  obtain ⟨h1, h2, h3⟩ := moveLeft_sz h
  unfold dVis
  rw [if_pos ⟨h1.1, by omega⟩]

theorem Near.grow_moveV {ld : LoudsDense} (hn : Near ld) (it : DenseIter) : Grow dVis it.keyBuf.length (dMoveLeft ld it) (it.moveLeft ld) (25 * ld.height + 3) :=
  (hn.grow_move it).len (fun a ha => by rw [moveLeft_vis ha])

theorem Near.grow_next {ld : LoudsDense} (hn : Near ld) (it : DenseIter) (hl : it.posInTrie.length = ld.height) : Grow dVis 0 (dNext ld it) (it.next ld) (34 * ld.height + 3) := by
  refine grow_ite (fun _ => grow_pure (Nat.zero_le _)) (fun _ => grow_ite (fun _ => ((hn.grow_moveV _).weak (Nat.zero_le _)).less (by omega)) (fun _ => ?_))
  refine Tally.grow (N := 9 * ld.height) (M := 25 * ld.height + 3) ((hn.tally_loop it.posInTrie it.level).of (fun a ha => ?_)) (fun r _ => ?_) (by omega)
  · have := dNextLoop_lt ha
    omega
  · cases r with
    | none => exact grow_pure (Nat.zero_le _)
    | some r => exact (tally_free _).grow (M := 25 * ld.height + 3) (fun it' _ => (hn.grow_moveV it').weak (Nat.zero_le _)) (by omega)

/-! ### The whole -/

/-- The length of the key in the buffers in use -/
def itLen (it : Iterator) : Nat := dVis it.d + sVis it.s

theorem grow_into {f : SuRF} (hc : Close f.ls) (bmi : Bool) (it : Iterator) : Grow itLen (itLen it) (intoSparse bmi f it) (it.intoSparse bmi f true) (278 * f.ls.sparseLevels + 271) := by
  refine Grow.bind (l := fun s => dVis it.d + sVis s) (N := 278 * f.ls.sparseLevels + 271) (M := 0) ?_ (fun s _ => grow_pure (by simp [itLen])) (by omega)
  intro c
  obtain ⟨h1, h2⟩ := hc.grow_move0 bmi it.passToSparse.s c
  refine ⟨h1, fun a ha => ?_⟩
  obtain ⟨k, h3, h4⟩ := h2 a ha
  have e : sVis it.passToSparse.s = sVis it.s := rfl
  exact ⟨k, by unfold itLen; show _ ≤ _ + (dVis it.d + sVis a); omega, h4⟩

theorem grow_incr {f : SuRF} (hc : Close f.ls) (hn : Near f.ld) (bmi : Bool) (it : Iterator) (hd : it.d.posInTrie.length = f.ld.height) :
    Grow itLen (sVis it.s) (incrDense bmi f it) (it.incrDense bmi f) (34 * f.ld.height + 278 * f.ls.sparseLevels + 274) := by
  refine grow_ite (fun _ => grow_pure (by unfold itLen; omega)) (fun _ => ?_)
  refine Grow.bind (l := fun d => dVis d + sVis it.s) (N := 34 * f.ld.height + 3) (M := 278 * f.ls.sparseLevels + 271) ?_ (fun d _ => ?_) (by omega)
  · intro c
    obtain ⟨h1, h2⟩ := hn.grow_next it.d hd c
    refine ⟨h1, fun a ha => ?_⟩
    obtain ⟨k, h3, h4⟩ := h2 a ha
    exact ⟨k, by show _ ≤ _ + (dVis a + sVis it.s); omega, h4⟩
  · refine grow_ite (fun _ => grow_pure (by unfold itLen; simp)) (fun _ => grow_ite (fun _ => grow_pure (by unfold itLen; simp)) (fun _ => ?_))
    exact grow_into hc bmi { it with d := d }

theorem grow_next {f : SuRF} (hc : Close f.ls) (hn : Near f.ld) (bmi : Bool) (it : Iterator) (hd : it.d.posInTrie.length = f.ld.height) (hs : it.s.posInTrie.length = f.ls.sparseLevels) :
    Grow itLen 0 (next bmi f it) (it.next bmi f) (34 * f.ld.height + 557 * f.ls.sparseLevels + 546) := by
  refine grow_ite (fun _ => ?_) (fun _ => ((grow_incr hc hn bmi it hd).weak (Nat.zero_le _)).less (by omega))
  refine Grow.bind (l := sVis) (N := 279 * f.ls.sparseLevels + 272) (M := 34 * f.ld.height + 278 * f.ls.sparseLevels + 274) (hc.grow_sNext bmi it.s hs) (fun s _ => ?_) (by omega)
  exact grow_ite (fun _ => grow_pure (by unfold itLen; simp; omega)) (fun _ => grow_incr hc hn bmi { it with s := s } hd)

theorem Near.grow_first {ld : LoudsDense} (hn : Near ld) (it : DenseIter) : Grow dLen it.keyBuf.length (dFirst ld it) (it.setToFirstInRoot ld) 22 := by
  unfold dFirst DenseIter.setToFirstInRoot
  refine Tally.grow (tally_isSet _ _) (fun b _ => ?_) (M := 21) (by omega)
  exact grow_ite (fun _ => (grow_dAppend ld it 0).less (by omega)) (fun _ => Tally.grow (hn.tally_next 0) (fun p _ => grow_dAppend ld it p) (by omega))

theorem grow_seekToFirst {f : SuRF} (hc : Close f.ls) (hn : Near f.ld) (bmi : Bool) (it : Iterator) (hd : 0 < f.ld.height) :
    Grow itLen 0 (seekToFirst bmi f it) (it.seekToFirst bmi f) (25 * f.ld.height + 278 * f.ls.sparseLevels + 296) := by
  unfold seekToFirst Iterator.seekToFirst
  dsimp only
  rw [if_pos hd, if_pos hd]
  refine Grow.bind (l := dLen) (N := 22) (M := 25 * f.ld.height + 278 * f.ls.sparseLevels + 274) (hn.grow_first it.reset.d) (fun d _ => ?_) (by omega)
  refine Grow.bind (l := dVis) (N := 25 * f.ld.height + 3) (M := 278 * f.ls.sparseLevels + 271) (hn.grow_moveV d) (fun d _ => ?_) (by omega)
  refine grow_ite (fun _ => grow_pure (by unfold itLen; simp [dLen]; omega)) (fun _ => ?_)
  exact (grow_into hc bmi { it.reset with d := d }).weak (by unfold itLen; simp [dLen])

end Cnt
end Surf
