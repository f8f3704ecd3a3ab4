import Verif.Surf.ReadsIter

/-! `Seek` of an iterator once more, counting what it reads of the filter, as in `Surf/ReadsIter.lean`. -/

set_option linter.unusedSimpArgs false

namespace Surf
namespace Cnt

/-! ## Parts -/

/-- louds_dense.go:270-277 and louds_sparse.go:280-287. `bytes.Compare` is counted as if it read all bytes. -/
def prefixCmp (pre key : Bytes) (depth : Nat) : Cnt Int := rd (min pre.length (key.length - depth)) (Surf.prefixCmp pre key depth)

/-- `sort.Search`: every call of the predicate reads a label -/
def searchLoop (f : Nat → Option Bool) (i j : Nat) : Cnt Nat :=
  if i < j then do
    let h := (i + j) / 2
    let b ← rd 1 (f h)
    if !b then searchLoop f (h + 1) j else searchLoop f i h
  else pure i
termination_by j - i

/-- bits_vec.go:475-486 `SearchGreaterThan` -/
def searchGreaterThan (v : LabelVector) (label : UInt8) (pos size : Nat) : Cnt (Nat × Bool) := do
  let (pos, size) ← skipTerminator v pos size
  let result ← searchLoop (fun i => (v.labels[pos + i]?).map (fun l => decide (label < l))) 0 size
  if result = size then do
    let p ← free (usub (pos + result) 1)
    return (p, false)
  else return (pos + result, true)

/-- bits_vec.go:660-680 `suffixVector.Compare` -/
def sufCompare (v : SuffixVector) (key : Bytes) (idx level : Nat) : Cnt Int := do
  if idx * v.suffixLen ≥ v.bv.numBits ∨ v.suffixType = .none ∨ v.suffixType = .hash then return couldBePositive
  let suffix ← sufRead v idx
  let suffix := if v.suffixType = .mixed then extractRealSuffix suffix v.realSuffixLen else suffix
  let expected ← free (constructRealSuffix key level v.realSuffixLen)
  if suffix = 0#64 ∧ expected = 0#64 then return couldBePositive
  else if suffix = 0#64 ∨ suffix < expected then return -1
  else if suffix = expected then return couldBePositive
  else return 1

/-! ## denseIter -/

/-- louds_dense.go:464-472 `compareSuffixGreaterThan` -/
def dSufGreater (ld : LoudsDense) (it : DenseIter) (key : Bytes) (pos level : Nat) : Cnt (DenseIter × Bool) := do
  let sp ← dSuffixPos ld pos false
  let cmp ← sufCompare ld.suffixes key sp level
  if cmp < 0 then do
    let it ← dNext ld it
    return (it, false)
  else return (it.flags true true true, cmp == couldBePositive)

/-- louds_dense.go:289-303 -/
def dSeekFirst (ld : LoudsDense) (it : DenseIter) (nodeID : Nat) (eq : Bool) : Cnt (DenseIter × Bool) := do
  let pos := nodeID * denseFanout
  let it ←
    if pos > 0 then do
      let p ← nextPos ld (pos - 1)
      dAppend ld it p
    else dFirst ld it
  let p ← isSet ld.isPrefixVec.bv nodeID
  let it ← if p then pure ({ it with atPrefixKey := true }.flags true true true) else dMoveLeft ld it
  return (it, eq)

/-- louds_dense.go:305-317 -/
def dSeekLabel (ld : LoudsDense) (it : DenseIter) (key : Bytes) (depth nodeID : Nat) : Cnt ((DenseIter × Bool) ⊕ (DenseIter × Nat)) := do
  let c ← free key[depth]?
  let pos := nodeID * denseFanout + c.toNat
  let it ← dAppend ld it pos
  let l ← isSet ld.labelVec.bv pos
  if !l then do
    let it ← dNext ld it
    return .inl (it, false)
  else do
    let h ← isSet ld.hasChildVec.bv pos
    if !h then do
      let r ← dSufGreater ld it key pos (depth + 1)
      return .inl r
    else return .inr (it, pos)

/-- louds_dense.go:268-327 -/
def dSeekLoop (ld : LoudsDense) (key : Bytes) : Nat → DenseIter → Nat → Nat → Cnt (DenseIter × Bool)
  | 0, it, depth, nodeID =>
    return ({ it with level := dec32 it.level, sendOutNodeID := nodeID, sendOutDepth := depth }.flags false true true, true)
  | n + 1, it, depth, nodeID => do
    let pre ← getPrefix ld.prefixVec nodeID
    let cmp ← prefixCmp pre key depth
    if cmp < 0 then
      if nodeID = 0 then return ({ it with valid := false }, false)
      else do
        let it ← dNext ld { it with level := dec32 it.level }
        return (it, false)
    else do
      let depth := depth + pre.length
      if depth ≥ key.length ∨ cmp > 0 then dSeekFirst ld it nodeID (cmp == 0)
      else do
        match ← dSeekLabel ld it key depth nodeID with
        | .inl r => return r
        | .inr (it, pos) => do
          let c ← rankDense ld.hasChildVec pos
          dSeekLoop ld key n { it with level := it.level + 1 } (depth + 1) c

/-- louds_dense.go:266-327 `Seek` -/
def dSeek (ld : LoudsDense) (it : DenseIter) (key : Bytes) : Cnt (DenseIter × Bool) :=
  dSeekLoop ld key ld.height { it with level := 0 } 0 0

/-! ## sparseIter -/

/-- louds_sparse.go:506-514 `compareSuffixGreaterThan` -/
def sSufGreater (bmi : Bool) (ls : LoudsSparse) (it : SparseIter) (key : Bytes) (pos level : Nat) : Cnt (SparseIter × Bool) := do
  let sp ← sSuffixPos ls pos
  let cmp ← sufCompare ls.suffixes key sp level
  if cmp < 0 then do
    let it ← sNext bmi ls it
    return (it, false)
  else return ({ it with valid := true }, cmp == couldBePositive)

/-- louds_sparse.go:496-504 `moveToLeftInNextSubTrie` -/
def sNextSub (bmi : Bool) (ls : LoudsSparse) (it : SparseIter) (pos nodeID nodeSize : Nat) (label : UInt8) : Cnt SparseIter := do
  let (pos, ok) ← searchGreaterThan ls.labelVec label pos nodeSize
  let l ← rd 1 (ls.labelVec.getLabel pos)
  let it ← sAppend ls it l pos nodeID
  if ok then sMoveLeft bmi ls it else sNext bmi ls it

/-- louds_sparse.go:324-337 -/
def sSeekTail (bmi : Bool) (ls : LoudsSparse) (key : Bytes) (it : SparseIter) (depth nodeID pos : Nat) : Cnt (SparseIter × Bool) := do
  let l ← rd 1 (ls.labelVec.getLabel pos)
  let t ←
    if l = labelTerminator then do
      let h ← isSet ls.hasChildVec.bv pos
      if !h then (do let b ← isEndOfNode ls pos; return !b) else pure false
    else pure false
  if t then do
    let it ← sAppend ls it labelTerminator pos nodeID
    return ({ it with atTerminator := true, valid := true }, false)
  else if key.length ≤ depth then do
    let it ← sMoveLeft bmi ls it
    return (it, false)
  else return ({ it with valid := true }, true)

/-- louds_sparse.go:302-316 -/
def sSeekLabel (bmi : Bool) (ls : LoudsSparse) (key : Bytes) (it : SparseIter) (depth nodeID pos : Nat) : Cnt ((SparseIter × Bool) ⊕ (SparseIter × Nat)) := do
  let size ← distanceToNextSetBit ls.loudsVec.bv pos
  let c ← free key[depth]?
  let (pos, ok) ← search ls.labelVec c pos size
  if !ok then do
    let it ← sNextSub bmi ls it pos nodeID size c
    return .inl (it, false)
  else do
    let it ← sAppend ls it c pos nodeID
    let h ← isSet ls.hasChildVec.bv pos
    if !h then do
      let r ← sSufGreater bmi ls it key pos (depth + 1)
      return .inl r
    else return .inr (it, pos)

/-- louds_sparse.go:278-338 -/
def sSeekLoop (bmi : Bool) (ls : LoudsSparse) (key : Bytes) : Nat → SparseIter → Nat → Nat → Nat → Cnt (SparseIter × Bool)
  | 0, it, depth, nodeID, pos => sSeekTail bmi ls key it depth nodeID pos
  | n + 1, it, depth, nodeID, pos => do
    let pid ← free (ls.prefixID nodeID)
    let pre ← getPrefix ls.prefixVec pid
    let cmp ← prefixCmp pre key depth
    if cmp < 0 then
      if it.level = 0 then return ({ it with valid := false }, false)
      else do
        let it ← sNext bmi ls { it with level := dec32 it.level }
        return (it, false)
    else do
      let depth := depth + pre.length
      if depth ≥ key.length ∨ cmp > 0 then do
        let l ← rd 1 (ls.labelVec.getLabel pos)
        let it ← sAppend ls it l pos nodeID
        let it ← sMoveLeft bmi ls it
        return (it, false)
      else do
        match ← sSeekLabel bmi ls key it depth nodeID pos with
        | .inl r => return r
        | .inr (it, pos) => do
          let nodeID ← sChildNodeID ls pos
          let pos ← firstLabelPos bmi ls nodeID
          sSeekLoop bmi ls key n { it with level := it.level + 1 } (depth + 1) nodeID pos

/-- louds_sparse.go:272-338 `Seek` -/
def sSeek (bmi : Bool) (ls : LoudsSparse) (it : SparseIter) (key : Bytes) : Cnt (SparseIter × Bool) := do
  let pos ← firstLabelPos bmi ls it.startNodeID
  sSeekLoop bmi ls key ls.sparseLevels { it with level := 0 } it.startDepth it.startNodeID pos

/-! ## Iterator -/

/-- surf.go:123-150 `Seek` -/
def seek (bmi : Bool) (f : SuRF) (it : Iterator) (key : Bytes) : Cnt (Iterator × Bool) :=
  let it := it.reset
  if f.ls.height = 0 ∧ f.ld.height = 0 then pure (it, false)
  else do
    let (d, fp) ← dSeek f.ld it.d key
    let it := { it with d := d }
    if !d.valid || d.isComplete then return (it, fp)
    else if !d.searchComp then do
      let it := it.passToSparse
      let (s, fp) ← sSeek bmi f.ls it.s key
      let it := { it with s := s }
      if !s.valid then do
        let it ← incrDense bmi f it
        return (it, fp)
      else return (it, fp)
    else if !d.leftComp then do
      let it ← intoSparse bmi f it
      return (it, fp)
    else free none

/-! ## Counting -/

theorem tally_prefixCmp (pre key : Bytes) (depth : Nat) : Tally (prefixCmp pre key depth) (Surf.prefixCmp pre key depth) (min pre.length (key.length - depth)) := tally_rd _ _

theorem tally_searchLoop (f : Nat → Option Bool) : ∀ (k i j : Nat), j - i < 2 ^ k → Tally (searchLoop f i j) (sortSearchLoop f i j) k := by
  intro k
  induction k with
  | zero =>
    intro i j h
    unfold searchLoop sortSearchLoop
    rw [if_neg (by omega), if_neg (by omega)]
    exact tally_pure _ _
  | succ k ih =>
    intro i j h
    unfold searchLoop sortSearchLoop
    rw [Nat.pow_succ] at h
    refine tally_ite (fun hlt => ?_) (fun _ => tally_pure _ _)
    refine (tally_rd 1 _).bind (M := k) (fun b _ => ?_) (by omega)
    exact tally_ite (fun _ => ih _ _ (by omega)) (fun _ => ih _ _ (by omega))

theorem tally_searchGreater (v : LabelVector) (label : UInt8) (pos size : Nat) (hs : size < 512) : Tally (searchGreaterThan v label pos size) (v.searchGreaterThan label pos size) 10 := by
  refine (tally_skip v pos size).bind (M := 9) (fun r hr => ?_) (by omega)
  have hsz : r.2 ≤ size := by
    unfold LabelVector.skipTerminator at hr
    split at hr
    · obtain ⟨l, -, hr⟩ := Option.bind_eq_some_iff.mp hr
      split at hr <;> cases hr <;> simp
    · cases hr; simp
  obtain ⟨st, sz⟩ := r
  refine (tally_searchLoop _ 9 0 sz (by simp only at hsz; omega)).bind (M := 0) (fun x _ => ?_) (by omega)
  exact tally_ite (fun _ => (tally_free _).bind (M := 0) (fun _ _ => tally_pure _ _) (by omega)) (fun _ => tally_pure _ _)

theorem tally_sufRead (v : SuffixVector) (idx : Nat) : Tally (sufRead v idx) (v.read idx) 2 := (tally_rd _ _).less (by split <;> omega)

theorem tally_sufCompare (v : SuffixVector) (key : Bytes) (idx level : Nat) : Tally (sufCompare v key idx level) (v.compare key idx level) 2 := by
  unfold sufCompare SuffixVector.compare
  refine tally_ite (fun _ => tally_pure _ _) (fun _ => ?_)
  refine (tally_sufRead _ _).bind (M := 0) (fun _ _ => (tally_free _).bind (M := 0) (fun _ _ => ?_) (by omega)) (by omega)
  exact tally_ite (fun _ => tally_pure _ _) (fun _ => tally_ite (fun _ => tally_pure _ _) (fun _ => tally_ite (fun _ => tally_pure _ _) (fun _ => tally_pure _ _)))

/-! ### The dense part -/

theorem tally_dAppend {ld : LoudsDense} (it : DenseIter) {pos : Nat} {pre : Bytes} (hp : ld.prefixVec.getPrefix (pos / denseFanout) = some pre) : Tally (dAppend ld it pos) (it.append ld pos) (12 + pre.length) := by
  refine (tally_getPrefix _ _).bind (M := pre.length) (fun pre' hp' => ?_) (Nat.le_refl _)
  rw [hp] at hp'
  cases hp'
  exact (tally_rd _ _).bind (M := 0) (fun ps _ => (tally_free _).bind (M := 0) (fun n _ => (tally_free _).bind (M := 0) (fun pl _ => tally_pure _ 0) (by omega)) (by omega)) (by omega)

/-- The length of the key, if the search has ended in the dense part -/
def dComp (it : DenseIter) : Nat := if it.searchComp then dVis it else 0

theorem moveLeft_comp {ld : LoudsDense} {it it' : DenseIter} (h : it.moveLeft ld = some it') : dComp it' = it'.keyBuf.length := by
  unfold dComp
  rw [(moveLeft_sz h).1.2, moveLeft_vis h]
  rfl

theorem Near.grow_moveC {ld : LoudsDense} (hn : Near ld) (it : DenseIter) : Grow dComp it.keyBuf.length (dMoveLeft ld it) (it.moveLeft ld) (25 * ld.height + 3) :=
  (hn.grow_move it).len (fun a ha => by rw [moveLeft_comp ha])

theorem Near.grow_nextC {ld : LoudsDense} (hn : Near ld) (it : DenseIter) (hl : it.posInTrie.length = ld.height) : Grow dComp 0 (dNext ld it) (it.next ld) (34 * ld.height + 3) := by
  refine grow_ite (fun _ => grow_pure (Nat.zero_le _)) (fun _ => grow_ite (fun _ => ((hn.grow_moveC _).weak (Nat.zero_le _)).less (by omega)) (fun _ => ?_))
  refine Tally.grow (N := 9 * ld.height) (M := 25 * ld.height + 3) ((hn.tally_loop it.posInTrie it.level).of (fun a ha => ?_)) (fun r _ => ?_) (by omega)
  · have := dNextLoop_lt ha
    omega
  · cases r with
    | none => exact grow_pure (Nat.zero_le _)
    | some r => exact (tally_free _).grow (M := 25 * ld.height + 3) (fun it' _ => (hn.grow_moveC it').weak (Nat.zero_le _)) (by omega)

/-- What a search in the dense part has got -/
abbrev dGot (r : DenseIter × Bool) : Nat := dComp r.1

theorem Near.grow_sufD {ld : LoudsDense} (hn : Near ld) (it : DenseIter) (hl : it.posInTrie.length = ld.height) (key : Bytes) (pos level : Nat) :
    Grow dGot 0 (dSufGreater ld it key pos level) (it.compareSuffixGreaterThan ld key pos level) (34 * ld.height + 13) := by
  refine (tally_dSuffixPos _ _ _).grow (M := 34 * ld.height + 5) (fun sp _ => (tally_sufCompare _ _ _ _).grow (M := 34 * ld.height + 3) (fun cmp _ => grow_ite (fun _ => ?_) (fun _ => grow_pure (Nat.zero_le _))) (by omega)) (by omega)
  exact Grow.bind (l := dComp) (N := 34 * ld.height + 3) (M := 0) (hn.grow_nextC it hl) (fun a _ => grow_pure (by simp [dGot])) (by omega)

theorem Near.grow_seekFirst {ld : LoudsDense} (hn : Near ld) (it : DenseIter) (hl : 0 < it.posInTrie.length) (nodeID : Nat) (eq : Bool) :
    Grow dGot 0 (dSeekFirst ld it nodeID eq) (it.seekFirst ld nodeID eq) (25 * ld.height + 26) := by
  have tail : ∀ it' : DenseIter, 0 < it'.posInTrie.length → Grow dGot it'.keyBuf.length
      (do
        let p ← isSet ld.isPrefixVec.bv nodeID
        let it ← if p then pure ({ it' with atPrefixKey := true }.flags true true true) else dMoveLeft ld it'
        return (it, eq))
      (do
        let p ← ld.isPrefixVec.bv.isSet nodeID
        let it ← if p then some ({ it' with atPrefixKey := true }.flags true true true) else it'.moveLeft ld
        return (it, eq)) (25 * ld.height + 4) := by
    intro it' h'
    refine (tally_isSet _ _).grow (M := 25 * ld.height + 3) (fun p _ => ?_) (by omega)
    refine grow_ite (fun _ => ?_) (fun _ => ?_)
    · refine Grow.bind (l := dComp) (N := 25 * ld.height + 3) (M := 0) (grow_pure ?_) (fun a _ => grow_pure (by simp [dGot])) (by omega)
      unfold dComp dVis DenseIter.flags
      simp [h']
    · exact Grow.bind (l := dComp) (N := 25 * ld.height + 3) (M := 0) (hn.grow_moveC it') (fun a _ => grow_pure (by simp [dGot])) (by omega)
  unfold dSeekFirst DenseIter.seekFirst
  dsimp only
  refine grow_ite (fun _ => ?_) (fun _ => ?_)
  · refine Tally.grow (N := 9) (M := 25 * ld.height + 16) (hn.tally_next _) (fun p _ => ?_) (by omega)
    exact Grow.bind (l := dLen) (N := 12) (M := 25 * ld.height + 4) ((grow_dAppend ld it p).weak (Nat.zero_le _)) (fun a ha => tail a (by rw [dAppend_sz ha]; exact hl)) (by omega)
  · refine Grow.bind (l := dLen) (N := 22) (M := 25 * ld.height + 4) ((hn.grow_first it).weak (Nat.zero_le _)) (fun a ha => tail a ?_) (by omega)
    unfold DenseIter.setToFirstInRoot at ha
    obtain ⟨b, -, ha⟩ := Option.bind_eq_some_iff.mp ha
    split at ha
    · rw [dAppend_sz ha]; exact hl
    · obtain ⟨p, -, ha⟩ := Option.bind_eq_some_iff.mp ha
      rw [dAppend_sz ha]; exact hl

/-- What a step of the search may cost beside its first reads -/
def dStep (ld : LoudsDense) : (DenseIter × Bool) ⊕ (DenseIter × Nat) → Nat
  | .inl r => 34 * ld.height + 13 + dGot r
  | .inr _ => 0

theorem Near.grow_seekLabel {ld : LoudsDense} (hn : Near ld) (it : DenseIter) (hl : it.posInTrie.length = ld.height) (key : Bytes) (depth nodeID : Nat) {pre : Bytes} (hp : ld.prefixVec.getPrefix nodeID = some pre) :
    Grow (dStep ld) 0 (dSeekLabel ld it key depth nodeID) (it.seekLabel ld key depth nodeID) (pre.length + 14) := by
  refine (tally_free _).grow (M := pre.length + 14) (fun c _ => ?_) (by omega)
  have hp' : ld.prefixVec.getPrefix ((nodeID * denseFanout + c.toNat) / denseFanout) = some pre := by
    have := c.toNat_lt
    rw [show (nodeID * denseFanout + c.toNat) / denseFanout = nodeID by unfold denseFanout; omega]
    exact hp
  refine (tally_dAppend it hp').grow (M := 2) (fun it' hit => (tally_isSet _ _).grow (M := 1) (fun l _ => grow_ite (fun _ => ?_) (fun _ => ?_)) (by omega)) (by omega)
  · refine Grow.bind (l := fun a => 34 * ld.height + 13 + dComp a) (N := 0) (M := 1) ?_ (fun a _ => grow_pure (by simp [dStep, dGot])) (by omega)
    intro c
    obtain ⟨h1, h2⟩ := hn.grow_nextC it' (by rw [dAppend_sz hit]; exact hl) c
    refine ⟨h1, fun a ha => ?_⟩
    obtain ⟨k, h3, h4⟩ := h2 a ha
    exact ⟨k, by show _ ≤ _ + (34 * ld.height + 13 + dComp a); omega, h4⟩
  · refine (tally_isSet _ _).grow (M := 0) (fun h _ => grow_ite (fun _ => ?_) (fun _ => grow_pure (Nat.zero_le _))) (by omega)
    refine Grow.bind (l := fun a => 34 * ld.height + 13 + dGot a) (N := 0) (M := 0) ?_ (fun a _ => grow_pure (by simp [dStep])) (by omega)
    intro c
    obtain ⟨h1, h2⟩ := hn.grow_sufD it' (by rw [dAppend_sz hit]; exact hl) key (nodeID * denseFanout + UInt8.toNat _) (depth + 1) c
    refine ⟨h1, fun a ha => ?_⟩
    obtain ⟨k, h3, h4⟩ := h2 a ha
    exact ⟨k, by show _ ≤ _ + (34 * ld.height + 13 + dGot a); omega, h4⟩

theorem seekLabel_sz {ld : LoudsDense} {it it' : DenseIter} {key : Bytes} {depth nodeID pos : Nat} (h : it.seekLabel ld key depth nodeID = some (.inr (it', pos))) : it'.posInTrie.length = it.posInTrie.length := by
  unfold DenseIter.seekLabel at h
  obtain ⟨c, -, h⟩ := Option.bind_eq_some_iff.mp h
  obtain ⟨it1, h1, h⟩ := Option.bind_eq_some_iff.mp h
  obtain ⟨l, -, h⟩ := Option.bind_eq_some_iff.mp h
  split at h
  · obtain ⟨_, -, h⟩ := Option.bind_eq_some_iff.mp h
    cases h
  · obtain ⟨_, -, h⟩ := Option.bind_eq_some_iff.mp h
    split at h
    · obtain ⟨_, -, h⟩ := Option.bind_eq_some_iff.mp h
      cases h
    · cases h
      exact dAppend_sz h1

theorem Near.grow_seekLoop {ld : LoudsDense} (hn : Near ld) (hh : 0 < ld.height) (key : Bytes) : ∀ (n : Nat) (it : DenseIter) (depth nodeID : Nat), it.posInTrie.length = ld.height →
    Grow dGot 0 (dSeekLoop ld key n it depth nodeID) (it.seekLoop ld key n depth nodeID) (28 * n + 2 * (key.length - depth) + 34 * ld.height + 11) := by
  intro n
  induction n with
  | zero => intro it depth nodeID _; exact grow_pure (Nat.zero_le _)
  | succ n ih =>
    intro it depth nodeID hl
    refine (tally_getPrefix _ _).grow (M := 28 * n + 2 * (key.length - depth) + 34 * ld.height + 27) (fun pre hp => ?_) (by omega)
    refine (tally_prefixCmp pre key depth).grow (M := 28 * n + 2 * (key.length - depth) + 34 * ld.height + 27 - min pre.length (key.length - depth)) (fun cmp _ => ?_) (by omega)
    refine grow_ite (fun _ => grow_ite (fun _ => grow_pure (Nat.zero_le _)) (fun _ => ?_)) (fun _ => grow_ite (fun _ => ?_) (fun hd => ?_))
    · exact Grow.bind (l := dComp) (N := 34 * ld.height + 3) (M := 0) (hn.grow_nextC { it with level := dec32 it.level } hl) (fun a _ => grow_pure (by simp [dGot])) (by omega)
    · exact (hn.grow_seekFirst it (by omega) nodeID _).less (by omega)
    · have hd : depth + pre.length < key.length := by
        by_contra hc
        exact hd (.inl (by omega))
      refine Grow.bind (l := dStep ld) (N := pre.length + 14) (M := 28 * n + 2 * (key.length - (depth + pre.length + 1)) + 34 * ld.height + 13) (hn.grow_seekLabel it hl key _ _ hp) (fun r hr => ?_) (by omega)
      cases r with
      | inl r => exact grow_pure (by show 34 * ld.height + 13 + dGot r ≤ _; omega)
      | inr r =>
        obtain ⟨it', pos⟩ := r
        refine (tally_rankDense _ _).grow (M := 28 * n + 2 * (key.length - (depth + pre.length + 1)) + 34 * ld.height + 11) (fun c _ => ?_) (by omega)
        exact ih { it' with level := it'.level + 1 } (depth + pre.length + 1) c (by show it'.posInTrie.length = _; rw [seekLabel_sz hr]; exact hl)

theorem seekLoop_sz {ld : LoudsDense} {key : Bytes} : ∀ {n : Nat} {it : DenseIter} {depth nodeID : Nat} {r : DenseIter × Bool}, it.seekLoop ld key n depth nodeID = some r → r.1.posInTrie.length = it.posInTrie.length := by
  intro n
  induction n with
  | zero => intro it depth nodeID r h; cases h; rfl
  | succ n ih =>
    intro it depth nodeID r h
    unfold DenseIter.seekLoop at h
    obtain ⟨pre, -, h⟩ := Option.bind_eq_some_iff.mp h
    obtain ⟨cmp, -, h⟩ := Option.bind_eq_some_iff.mp h
    split at h
    · split at h
      · cases h; rfl
      · obtain ⟨a, h1, h⟩ := Option.bind_eq_some_iff.mp h
        cases h
        have := dNext_sz h1
        exact this
    · dsimp only at h
      split at h
      · unfold DenseIter.seekFirst at h
        dsimp only at h
        have tail : ∀ {it' : DenseIter}, (do
            let p ← ld.isPrefixVec.bv.isSet nodeID
            let it ← if p then some ({ it' with atPrefixKey := true }.flags true true true) else it'.moveLeft ld
            return (it, (cmp == 0))) = some r → r.1.posInTrie.length = it'.posInTrie.length := by
          intro it' h
          obtain ⟨p, -, h⟩ := Option.bind_eq_some_iff.mp h
          dsimp only at h
          split at h
          · obtain ⟨a, h1, h⟩ := Option.bind_eq_some_iff.mp h
            cases h1
            cases h
            rfl
          · obtain ⟨a, h1, h⟩ := Option.bind_eq_some_iff.mp h
            cases h
            exact (moveLeft_sz h1).2.1
        split at h
        · obtain ⟨p, -, h⟩ := Option.bind_eq_some_iff.mp h
          obtain ⟨a, h1, h⟩ := Option.bind_eq_some_iff.mp h
          rw [tail h, dAppend_sz h1]
        · obtain ⟨a, h1, h⟩ := Option.bind_eq_some_iff.mp h
          rw [tail h]
          unfold DenseIter.setToFirstInRoot at h1
          obtain ⟨b, -, h1⟩ := Option.bind_eq_some_iff.mp h1
          split at h1
          · exact dAppend_sz h1
          · obtain ⟨p, -, h1⟩ := Option.bind_eq_some_iff.mp h1
            exact dAppend_sz h1
      · obtain ⟨x, h1, h⟩ := Option.bind_eq_some_iff.mp h
        cases x with
        | inl x =>
          cases h
          unfold DenseIter.seekLabel at h1
          obtain ⟨c, -, h1⟩ := Option.bind_eq_some_iff.mp h1
          obtain ⟨it1, h2, h1⟩ := Option.bind_eq_some_iff.mp h1
          obtain ⟨l, -, h1⟩ := Option.bind_eq_some_iff.mp h1
          split at h1
          · obtain ⟨a, h3, h1⟩ := Option.bind_eq_some_iff.mp h1
            cases h1
            exact (dNext_sz h3).trans (dAppend_sz h2)
          · obtain ⟨_, -, h1⟩ := Option.bind_eq_some_iff.mp h1
            split at h1
            · obtain ⟨a, h3, h1⟩ := Option.bind_eq_some_iff.mp h1
              cases h1
              unfold DenseIter.compareSuffixGreaterThan at h3
              obtain ⟨_, -, h3⟩ := Option.bind_eq_some_iff.mp h3
              obtain ⟨_, -, h3⟩ := Option.bind_eq_some_iff.mp h3
              split at h3
              · obtain ⟨b, h4, h3⟩ := Option.bind_eq_some_iff.mp h3
                cases h3
                exact (dNext_sz h4).trans (dAppend_sz h2)
              · cases h3
                have := dAppend_sz h2
                exact this
            · cases h1
        | inr x =>
          obtain ⟨it', pos⟩ := x
          obtain ⟨c, -, h⟩ := Option.bind_eq_some_iff.mp h
          have := ih h
          have h5 := seekLabel_sz h1
          exact this.trans h5

theorem Near.grow_dSeek {ld : LoudsDense} (hn : Near ld) (key : Bytes) (it : DenseIter) (hl : it.posInTrie.length = ld.height) :
    Grow dGot 0 (dSeek ld it key) (it.seek ld key) (62 * ld.height + 2 * key.length + 11) := by
  unfold dSeek DenseIter.seek
  rcases Nat.eq_zero_or_pos ld.height with h0 | h0
  · rw [h0]
    exact grow_pure (Nat.zero_le _)
  · exact (hn.grow_seekLoop h0 key ld.height { it with level := 0 } 0 0 hl).less (by omega)

/-! ### The sparse part -/

theorem tally_sAppend {ls : LoudsSparse} (it : SparseIter) (label : UInt8) (pos : Nat) {nodeID pid : Nat} {pre : Bytes} (hi : ls.prefixID nodeID = some pid) (hp : ls.prefixVec.getPrefix pid = some pre) :
    Tally (sAppend ls it label pos nodeID) (it.append ls label pos nodeID) (12 + pre.length) := by
  refine (tally_free _).bind (M := 12 + pre.length) (fun pid' hi' => ?_) (by omega)
  rw [hi] at hi'
  cases hi'
  refine (tally_getPrefix _ _).bind (M := pre.length) (fun pre' hp' => ?_) (Nat.le_refl _)
  rw [hp] at hp'
  cases hp'
  exact (tally_rd _ _).bind (M := 0) (fun ps _ => (tally_free _).bind (M := 0) (fun n _ => (tally_free _).bind (M := 0) (fun pl _ => (tally_free _).bind (M := 0) (fun ns _ => tally_pure _ 0) (by omega)) (by omega)) (by omega)) (by omega)

theorem sAppend_sz {ls : LoudsSparse} {it it' : SparseIter} {label : UInt8} {pos nodeID : Nat} (h : it.append ls label pos nodeID = some it') : it'.posInTrie.length = it.posInTrie.length := by
  unfold SparseIter.append at h
  obtain ⟨_, -, h⟩ := Option.bind_eq_some_iff.mp h
  obtain ⟨_, -, h⟩ := Option.bind_eq_some_iff.mp h
  obtain ⟨_, h1, h⟩ := Option.bind_eq_some_iff.mp h
  obtain ⟨_, -, h⟩ := Option.bind_eq_some_iff.mp h
  obtain ⟨_, -, h⟩ := Option.bind_eq_some_iff.mp h
  obtain ⟨_, -, h⟩ := Option.bind_eq_some_iff.mp h
  cases h
  exact putAt_sz h1

/-- What a search in the sparse part has got -/
abbrev sGot (r : SparseIter × Bool) : Nat := sVis r.1

theorem tally_sSuffixPos (ls : LoudsSparse) (pos : Nat) : Tally (sSuffixPos ls pos) (ls.suffixPos pos) 9 := (tally_rankSparse _ _).bind (fun _ _ => tally_free _) (Nat.le_refl _)

theorem Close.grow_sufS {ls : LoudsSparse} (hc : Close ls) (bmi : Bool) (it : SparseIter) (hl : it.posInTrie.length = ls.sparseLevels) (key : Bytes) (pos level : Nat) :
    Grow sGot 0 (sSufGreater bmi ls it key pos level) (it.compareSuffixGreaterThan bmi ls key pos level) (279 * ls.sparseLevels + 283) := by
  refine (tally_sSuffixPos _ _).grow (M := 279 * ls.sparseLevels + 274) (fun sp _ => (tally_sufCompare _ _ _ _).grow (M := 279 * ls.sparseLevels + 272) (fun cmp _ => grow_ite (fun _ => ?_) (fun _ => grow_pure (Nat.zero_le _))) (by omega)) (by omega)
  exact Grow.bind (l := sVis) (N := 279 * ls.sparseLevels + 272) (M := 0) (hc.grow_sNext bmi it hl) (fun a _ => grow_pure (by simp [sGot])) (by omega)

theorem Close.grow_sub {ls : LoudsSparse} (hc : Close ls) (bmi : Bool) (it : SparseIter) (hl : it.posInTrie.length = ls.sparseLevels) (pos size : Nat) (label : UInt8) (hs : size < 512) {nodeID pid : Nat} {pre : Bytes} (hi : ls.prefixID nodeID = some pid)
    (hp : ls.prefixVec.getPrefix pid = some pre) : Grow sVis 0 (sNextSub bmi ls it pos nodeID size label) (it.moveToLeftInNextSubTrie bmi ls pos nodeID size label) (pre.length + 279 * ls.sparseLevels + 295) := by
  refine (tally_searchGreater _ _ _ _ hs).grow (M := pre.length + 279 * ls.sparseLevels + 285) (fun r _ => ?_) (by omega)
  obtain ⟨p, ok⟩ := r
  refine (tally_rd 1 _).grow (M := pre.length + 279 * ls.sparseLevels + 284) (fun l _ => (tally_sAppend it l p hi hp).grow (M := 279 * ls.sparseLevels + 272) (fun it' hit => ?_) (by omega)) (by omega)
  exact grow_ite (fun _ => ((hc.grow_move0 bmi it').weak (Nat.zero_le _)).less (by omega)) (fun _ => hc.grow_sNext bmi it' (by rw [sAppend_sz hit]; exact hl))

theorem Close.grow_tail {ls : LoudsSparse} (hc : Close ls) (bmi : Bool) (key : Bytes) (it : SparseIter) (depth nodeID pos : Nat) :
    Grow sGot 0 (sSeekTail bmi ls key it depth nodeID pos) (it.seekTail bmi ls key depth nodeID pos) (278 * ls.sparseLevels + 274) := by
  have tail : ∀ t : Bool, Grow sGot 0
      (if t then do
        let it ← sAppend ls it labelTerminator pos nodeID
        return ({ it with atTerminator := true, valid := true }, false)
      else if key.length ≤ depth then do
        let it ← sMoveLeft bmi ls it
        return (it, false)
      else return ({ it with valid := true }, true))
      (if t then do
        let it ← it.append ls labelTerminator pos nodeID
        return ({ it with atTerminator := true, valid := true }, false)
      else if key.length ≤ depth then do
        let it ← it.move bmi ls true
        return (it, false)
      else return ({ it with valid := true }, true)) (278 * ls.sparseLevels + 271) := by
    intro t
    refine grow_ite (fun _ => ?_) (fun _ => grow_ite (fun _ => ?_) (fun _ => grow_pure (Nat.zero_le _)))
    · exact Grow.bind (l := sLen) (N := 12) (M := 0) ((grow_sAppend ls it labelTerminator pos nodeID).weak (Nat.zero_le _)) (fun a _ => grow_pure (by simp [sGot, sVis])) (by omega)
    · exact Grow.bind (l := sVis) (N := 278 * ls.sparseLevels + 271) (M := 0) ((hc.grow_move0 bmi it).weak (Nat.zero_le _)) (fun a _ => grow_pure (by simp [sGot])) (by omega)
  unfold sSeekTail SparseIter.seekTail
  refine (tally_rd 1 _).grow (M := 278 * ls.sparseLevels + 273) (fun l _ => ?_) (by omega)
  refine grow_ite (fun _ => ?_) (fun _ => ?_)
  · refine (tally_isSet _ _).grow (M := 278 * ls.sparseLevels + 272) (fun h _ => ?_) (by omega)
    refine grow_ite (fun _ => ?_) (fun _ => ?_)
    · have he : Tally (do
          let b ← isEndOfNode ls pos
          return !b) ((ls.isEndOfNode pos).map (!·)) 1 := by
        have := (tally_end ls pos).bind (M := 0) (K := 1) (f := fun b => (pure (!b) : Cnt Bool)) (g := fun b => some (!b)) (fun b _ => tally_pure _ _) (by omega)
        cases e : ls.isEndOfNode pos with
        | none => rw [e] at this; exact this
        | some b => rw [e] at this; exact this
      exact he.grow (fun t _ => tail t) (by omega)
    · exact (tail false).less (by omega)
  · exact (tail false).less (by omega)

theorem Close.grow_moveB {ls : LoudsSparse} (hc : Close ls) (bmi : Bool) (it : SparseIter) : Grow sVis it.keyBuf.length (sMoveLeft bmi ls it) (it.move bmi ls true) (278 * ls.sparseLevels + 271) :=
  (hc.grow_move bmi it).len (fun a ha => by unfold sVis sLen; rw [move_valid ha, if_pos rfl])

/-- What one step of a search in the sparse part has got: the rest of the reads has been made where it returns. -/
def sStep (ls : LoudsSparse) : (SparseIter × Bool) ⊕ (SparseIter × Nat) → Nat
  | .inl r => 279 * ls.sparseLevels + 283 + sGot r
  | .inr _ => 0

theorem Close.grow_label {ls : LoudsSparse} (hc : Close ls) (bmi : Bool) (it : SparseIter) (hl : it.posInTrie.length = ls.sparseLevels) (key : Bytes) (depth pos : Nat) {nodeID pid : Nat} {pre : Bytes} (hi : ls.prefixID nodeID = some pid)
    (hp : ls.prefixVec.getPrefix pid = some pre) : Grow (sStep ls) 0 (sSeekLabel bmi ls key it depth nodeID pos) (it.seekLabel bmi ls key depth nodeID pos) (pre.length + 276) := by
  refine (hc.tally_size pos).grow (M := pre.length + 271) (fun size hs => ?_) (by omega)
  have hs := hc.dist _ _ hs
  refine (tally_free _).grow (M := pre.length + 271) (fun c _ => ?_) (by omega)
  refine ((tally_search _ _ _ _).less (show _ ≤ 258 by omega)).grow (M := pre.length + 13) (fun r _ => ?_) (by omega)
  obtain ⟨p, ok⟩ := r
  refine grow_ite (fun _ => ?_) (fun _ => ?_)
  · refine Grow.bind (l := fun a => 279 * ls.sparseLevels + 283 + sVis a) (N := pre.length + 13) (M := 0) ?_ (fun a _ => grow_pure (by simp [sStep, sGot])) (by omega)
    intro c'
    obtain ⟨h1, h2⟩ := hc.grow_sub bmi it hl p size c (by omega) hi hp c'
    refine ⟨h1, fun a ha => ?_⟩
    obtain ⟨k, h3, h4⟩ := h2 a ha
    exact ⟨k, by show _ ≤ _ + (279 * ls.sparseLevels + 283 + sVis a); omega, h4⟩
  · refine (tally_sAppend it c p hi hp).grow (M := 1) (fun it' hit => ?_) (by omega)
    refine (tally_isSet _ _).grow (M := 0) (fun h _ => ?_) (by omega)
    refine grow_ite (fun _ => ?_) (fun _ => grow_pure (Nat.zero_le _))
    refine Grow.bind (l := fun a => 279 * ls.sparseLevels + 283 + sGot a) (N := 0) (M := 0) ?_ (fun a _ => grow_pure (by simp [sStep])) (by omega)
    intro c'
    obtain ⟨h1, h2⟩ := hc.grow_sufS bmi it' (by rw [sAppend_sz hit]; exact hl) key p (depth + 1) c'
    refine ⟨h1, fun a ha => ?_⟩
    obtain ⟨k, h3, h4⟩ := h2 a ha
    exact ⟨k, by show _ ≤ _ + (279 * ls.sparseLevels + 283 + sGot a); omega, h4⟩

theorem sLabel_sz {ls : LoudsSparse} {bmi : Bool} {it it' : SparseIter} {key : Bytes} {depth nodeID pos pos' : Nat} (h : it.seekLabel bmi ls key depth nodeID pos = some (.inr (it', pos'))) : it'.posInTrie.length = it.posInTrie.length := by
  unfold SparseIter.seekLabel at h
  obtain ⟨_, -, h⟩ := Option.bind_eq_some_iff.mp h
  obtain ⟨_, -, h⟩ := Option.bind_eq_some_iff.mp h
  obtain ⟨⟨p, ok⟩, -, h⟩ := Option.bind_eq_some_iff.mp h
  dsimp only at h
  split at h
  · obtain ⟨_, -, h⟩ := Option.bind_eq_some_iff.mp h
    cases h
  · obtain ⟨a, h1, h⟩ := Option.bind_eq_some_iff.mp h
    obtain ⟨_, -, h⟩ := Option.bind_eq_some_iff.mp h
    split at h
    · obtain ⟨_, -, h⟩ := Option.bind_eq_some_iff.mp h
      cases h
    · cases h
      exact sAppend_sz h1

theorem Close.grow_seekLoop {ls : LoudsSparse} (hc : Close ls) (bmi : Bool) (key : Bytes) : ∀ (n : Nat) (it : SparseIter) (depth nodeID pos : Nat), it.posInTrie.length = ls.sparseLevels →
    Grow sGot 0 (sSeekLoop bmi ls key n it depth nodeID pos) (it.seekLoop bmi ls key n depth nodeID pos) (552 * n + 2 * (key.length - depth) + 279 * ls.sparseLevels + 274) := by
  intro n
  induction n with
  | zero => intro it depth nodeID pos _; exact (hc.grow_tail bmi key it depth nodeID pos).less (by omega)
  | succ n ih =>
    intro it depth nodeID pos hl
    refine (tally_free _).grow (M := 552 * (n + 1) + 2 * (key.length - depth) + 279 * ls.sparseLevels + 274) (fun pid hi => ?_) (by omega)
    refine (tally_getPrefix _ _).grow (M := 552 * n + 2 * (key.length - depth) + 279 * ls.sparseLevels + 814) (fun pre hp => ?_) (by omega)
    refine (tally_prefixCmp pre key depth).grow (M := 552 * n + 2 * (key.length - depth) + 279 * ls.sparseLevels + 814 - min pre.length (key.length - depth)) (fun cmp _ => ?_) (by omega)
    refine grow_ite (fun _ => grow_ite (fun _ => grow_pure (Nat.zero_le _)) (fun _ => ?_)) (fun _ => grow_ite (fun _ => ?_) (fun hd => ?_))
    · exact Grow.bind (l := sVis) (N := 279 * ls.sparseLevels + 272) (M := 0) (hc.grow_sNext bmi { it with level := dec32 it.level } hl) (fun a _ => grow_pure (by simp [sGot])) (by omega)
    · refine (tally_rd 1 _).grow (M := 278 * ls.sparseLevels + 283) (fun l _ => ?_) (by omega)
      refine Grow.bind (l := sLen) (N := 12) (M := 278 * ls.sparseLevels + 271) ((grow_sAppend ls it l pos nodeID).weak (Nat.zero_le _)) (fun a _ => ?_) (by omega)
      exact Grow.bind (l := sVis) (N := 278 * ls.sparseLevels + 271) (M := 0) (hc.grow_moveB bmi a) (fun b _ => grow_pure (by simp [sGot])) (by omega)
    · have hd : depth + pre.length < key.length := by
        by_contra hc
        exact hd (.inl (by omega))
      refine Grow.bind (l := sStep ls) (N := pre.length + 276) (M := 552 * n + 2 * (key.length - (depth + pre.length + 1)) + 279 * ls.sparseLevels + 538) (hc.grow_label bmi it hl key _ pos hi hp) (fun r hr => ?_) (by omega)
      cases r with
      | inl r => exact grow_pure (by show 279 * ls.sparseLevels + 283 + sGot r ≤ _; omega)
      | inr r =>
        obtain ⟨it', pos'⟩ := r
        refine (tally_sChild _ _).grow (M := 552 * n + 2 * (key.length - (depth + pre.length + 1)) + 279 * ls.sparseLevels + 529) (fun c _ => ?_) (by omega)
        refine (hc.tally_first _ _).grow (M := 552 * n + 2 * (key.length - (depth + pre.length + 1)) + 279 * ls.sparseLevels + 274) (fun p _ => ?_) (by omega)
        exact ih { it' with level := it'.level + 1 } (depth + pre.length + 1) c p (by show it'.posInTrie.length = _; rw [sLabel_sz hr]; exact hl)

theorem Close.grow_sSeek {ls : LoudsSparse} (hc : Close ls) (bmi : Bool) (key : Bytes) (it : SparseIter) (hl : it.posInTrie.length = ls.sparseLevels) :
    Grow sGot 0 (sSeek bmi ls it key) (it.seek bmi ls key) (831 * ls.sparseLevels + 2 * key.length + 529) :=
  (hc.tally_first _ _).grow (M := 831 * ls.sparseLevels + 2 * key.length + 274) (fun pos _ => (hc.grow_seekLoop bmi key ls.sparseLevels { it with level := 0 } it.startDepth it.startNodeID pos hl).less (by omega)) (by omega)

/-! ### The iterator -/

theorem grow_seek {f : SuRF} (hc : Close f.ls) (hn : Near f.ld) (bmi : Bool) (it : Iterator) (hd : it.d.posInTrie.length = f.ld.height) (hs : it.s.posInTrie.length = f.ls.sparseLevels) (key : Bytes) :
    Grow (fun r : Iterator × Bool => itLen r.1) 0 (seek bmi f it key) (it.seek bmi f key) (96 * f.ld.height + 1109 * f.ls.sparseLevels + 4 * key.length + 814) := by
  unfold seek Iterator.seek
  dsimp only
  refine grow_ite (fun _ => grow_pure (Nat.zero_le _)) (fun _ => ?_)
  refine Grow.bind (l := dGot) (N := 62 * f.ld.height + 2 * key.length + 11) (M := 34 * f.ld.height + 1109 * f.ls.sparseLevels + 2 * key.length + 803) (hn.grow_dSeek key it.reset.d hd) (fun r hr => ?_) (by omega)
  obtain ⟨d, fp⟩ := r
  have hd' : d.posInTrie.length = f.ld.height := (seekLoop_sz hr).trans hd
  have hv : dGot (d, fp) ≤ dVis d := by unfold dGot dComp; dsimp only; split <;> omega
  refine grow_ite (fun _ => grow_pure (by show _ ≤ _ + (dVis d + _); omega)) (fun _ => grow_ite (fun hsc => ?_) (fun _ => grow_ite (fun _ => ?_) (fun _ => grow_none)))
  · have h0 : dGot (d, fp) = 0 := by unfold dGot dComp; simp at hsc; simp [hsc]
    rw [h0]
    refine Grow.bind (l := sGot) (N := 831 * f.ls.sparseLevels + 2 * key.length + 529) (M := 34 * f.ld.height + 278 * f.ls.sparseLevels + 274) (hc.grow_sSeek bmi key _ hs) (fun r _ => ?_) (by omega)
    obtain ⟨s, fp'⟩ := r
    refine grow_ite (fun _ => ?_) (fun _ => grow_pure (by show sVis s ≤ _ + (_ + sVis s); omega))
    exact Grow.bind (l := itLen) (N := 34 * f.ld.height + 278 * f.ls.sparseLevels + 274) (M := 0) (grow_incr hc hn bmi _ hd') (fun a _ => grow_pure (by simp)) (by omega)
  · exact Grow.bind (l := itLen) (N := 278 * f.ls.sparseLevels + 271) (M := 0) ((grow_into hc bmi _).weak (by unfold itLen; show _ ≤ dVis d + _; omega)) (fun a _ => grow_pure (by simp)) (by omega)

end Cnt
end Surf
