import Verif.Surf.Louds

/-! `Get` of a filter once more, counting what it reads: every element of an array of the filter (a word of a bit vector, an entry of a table, a label, a byte of a prefix, an offset of a prefix) counts one each time it
is read. A slice expression reads nothing, so `values.Get` (bits_vec.go:155-158) counts nothing; nor does work on the key alone. -/

set_option linter.unusedSimpArgs false

namespace Surf

/-- A computation that counts reads; `none` is a panic. -/
abbrev Cnt (α : Type) := StateT Nat Option α

namespace Cnt

/-- `n` reads that give `o` -/
def rd {α : Type} (n : Nat) (o : Option α) : Cnt α := fun c => o.map fun a => (a, c + n)

/-- no read -/
def free {α : Type} (o : Option α) : Cnt α := rd 0 o

/-- bits.go:71-73, `i` iterations -/
def popcountLoop (bs : List Word) (off : Nat) : Nat → Cnt Nat
  | 0 => pure 0
  | i + 1 => do
    let p ← popcountLoop bs off i
    let w ← rd 1 bs[off + i]?
    return p + onesCount w

/-- bits.go:62-76 `popcountBlock` -/
def popcountBlock (bs : List Word) (off nbits : Nat) : Cnt Nat :=
  if nbits = 0 then pure 0 else do
    let lastWord := (nbits - 1) / 64
    let lastBits := (nbits - 1) % 64
    let p ← popcountLoop bs off lastWord
    let w ← rd 1 bs[off + lastWord]?
    let last := w <<< (64 - 1 - lastBits)
    return p + onesCount last

/-- bits_vec.go:70-72 `IsSet`: one word -/
def isSet (v : BitVector) (pos : Nat) : Cnt Bool := rd 1 (v.isSet pos)

/-- bits_vec.go:412-418 `rankVectorDense.Rank` -/
def rankDense (v : RankVector) (pos : Nat) : Cnt Nat := do
  let wordPreBlk := rankDenseBlockSize / 64
  let blockOff := pos / rankDenseBlockSize
  let bitsOff := pos % rankDenseBlockSize
  let r ← rd 1 v.rankLut[blockOff]?
  let p ← popcountBlock v.bv.bits (blockOff * wordPreBlk) (bitsOff + 1)
  return r + p

/-- bits_vec.go:428-434 `rankVectorSparse.Rank` -/
def rankSparse (v : RankVector) (pos : Nat) : Cnt Nat := do
  let wordPreBlk := rankSparseBlockSize / 64
  let blockOff := pos / rankSparseBlockSize
  let bitsOff := pos % rankSparseBlockSize
  let r ← rd 1 v.rankLut[blockOff]?
  let p ← popcountBlock v.bv.bits (blockOff * wordPreBlk) (bitsOff + 1)
  return r + p

/-- bits_vec.go:267-274: the loop of `Select` -/
def selectLoop (bmi : Bool) (bits : List Word) : Nat → Nat → Word → Nat → Cnt Nat
  | 0, _, _, _ => free none
  | fuel + 1, wordOff, w, rankLeft =>
    let ones := onesCount w
    if ones < rankLeft then do
      let w' ← rd 1 bits[wordOff + 1]?
      selectLoop bmi bits fuel (wordOff + 1) w' (rankLeft - ones)
    else do
      let s ← free (select64 bmi w rankLeft)
      return wordOff * 64 + s

/-- bits_vec.go:252-274 -/
def selectFrom (bmi : Bool) (v : SelectVector) (pos rankLeft : Nat) : Cnt Nat :=
  if rankLeft = 0 then pure pos else do
    let wordOff := if pos % 64 = 64 - 1 then pos / 64 + 1 else pos / 64
    let bitsOff := if pos % 64 = 64 - 1 then 0 else pos % 64 + 1
    let w0 ← rd 1 v.bv.bits[wordOff]?
    let w := (w0 >>> bitsOff) <<< bitsOff
    selectLoop bmi v.bv.bits (v.bv.bits.length + 1) wordOff w rankLeft

/-- bits_vec.go:244-275 `Select` -/
def select (bmi : Bool) (v : SelectVector) (rank : Nat) : Cnt Nat := do
  let rankLeft ← free (SelectVector.selectRankLeft rank)
  let pos ← rd 1 v.selectLut[rank / selectSampleInterval]?
  selectFrom bmi v pos rankLeft

/-- bits_vec.go:94-107: the loop of `DistanceToNextSetBit` -/
def distNextLoop (v : BitVector) : Nat → Nat → Nat → Cnt Nat
  | 0, wordOff, distance =>
    if wordOff + 1 = v.numWords ∧ v.numBits % 64 ≠ 0 then free (usub distance (64 - v.numBits % 64)) else pure distance
  | k + 1, wordOff, distance => do
    let wordOff := wordOff + 1
    let testBits ← rd 1 v.bits[wordOff]?
    if testBits ≠ 0#64 then return distance + trailingZeros testBits
    else distNextLoop v k wordOff (distance + 64)

/-- bits_vec.go:74-108 `DistanceToNextSetBit` -/
def distanceToNextSetBit (v : BitVector) (pos : Nat) : Cnt Nat := do
  let distance := 1
  let wordOff := (pos + 1) / 64
  let bitsOff := (pos + 1) % 64
  if wordOff ≥ v.bits.length then return 0
  let w ← rd 1 v.bits[wordOff]?
  let testBits := w >>> bitsOff
  if testBits ≠ 0#64 then return distance + trailingZeros testBits
  let last ← free (usub v.numWords 1)
  if wordOff = last then free (usub v.numBits pos)
  else distNextLoop v (last - wordOff) wordOff (distance + (64 - bitsOff))

/-- bits_vec.go:459-462 -/
def skipTerminator (v : LabelVector) (start size : Nat) : Cnt (Nat × Nat) :=
  if size > 1 then do
    let l ← rd 1 v.labels[start]?
    if l = labelTerminator then return (start + 1, size - 1) else return (start, size)
  else pure (start, size)

/-- bits_vec.go:458-473 `Search`. `bytes.IndexByte` is counted as if it read the whole slice. -/
def search (v : LabelVector) (k : UInt8) (start size : Nat) : Cnt (Nat × Bool) := do
  let (start, size) ← skipTerminator v start size
  let stop := min (start + size) v.labels.length
  let sub ← free (slice v.labels start stop)
  let r ← rd sub.length (some (indexByte sub k))
  match r with
  | none => return (start, false)
  | some r => return (start + r, true)

/-- bits_vec.go:561-564 -/
def prefixEnd (v : PrefixVec) (prefixID : Nat) : Cnt Nat :=
  if (prefixID + 1) * 4 < v.prefixOffsets.length then rd 1 (v.offsetAt (prefixID + 1)) else pure v.prefixData.length

/-- bits_vec.go:554-566 `GetPrefix` -/
def getPrefix (v : PrefixVec) (nodeID : Nat) : Cnt Bytes := do
  let b ← isSet v.hasPrefixVec.bv nodeID
  if !b then return []
  let r ← rankSparse v.hasPrefixVec nodeID
  let prefixID ← free (usub r 1)
  let start ← rd 1 (v.offsetAt prefixID)
  let stop ← prefixEnd v prefixID
  free (slice v.prefixData start stop)

/-- bits_vec.go:539-552 `CheckPrefix`. `bytes.Equal` is counted as if it read all bytes. -/
def checkPrefix (v : PrefixVec) (key : Bytes) (depth nodeID : Nat) : Cnt (Nat × Bool) := do
  let pre ← getPrefix v nodeID
  if pre.length = 0 then return (0, true)
  if depth + pre.length > key.length then return (0, false)
  let sub ← rd pre.length (slice key depth (depth + pre.length))
  if sub ≠ pre then return (0, false)
  return (pre.length, true)

/-- bits_vec.go:736-748 `read`: one word or two -/
def sufRead (v : SuffixVector) (idx : Nat) : Cnt Word := rd (if idx * v.suffixLen % 64 + v.suffixLen > 64 then 2 else 1) (v.read idx)

/-- bits_vec.go:637-656 `CheckEquality` -/
def checkEquality (fp : Bytes → Word) (v : SuffixVector) (idx : Nat) (key : Bytes) (level : Nat) : Cnt Bool := do
  if v.suffixType = .none then return true
  if idx * v.suffixLen ≥ v.bv.numBits then return false
  let suffix ← sufRead v idx
  if v.suffixType = .real ∧ suffix = 0#64 then return true
  if v.suffixType = .real ∧ (key.length < level ∨ (key.length - level) * 8 < v.realSuffixLen) then return false
  let expected ← free (constructSuffix fp key level v.suffixType v.realSuffixLen v.hashSuffixLen)
  return suffix == expected

/-- louds_dense.go:154 -/
def leafAt (ld : LoudsDense) (pos : Nat) : Cnt Bool := do
  let a ← isSet ld.labelVec.bv pos
  if a then do
    let b ← isSet ld.hasChildVec.bv pos
    return !b
  else return false

/-- louds_dense.go:148-158 `suffixPos` -/
def dSuffixPos (ld : LoudsDense) (pos : Nat) (isPrefix : Bool) : Cnt Nat := do
  let nodeID := pos / denseFanout
  let a ← rankDense ld.labelVec pos
  let b ← rankDense ld.hasChildVec pos
  let c ← rankDense ld.isPrefixVec nodeID
  let d ← free (usub a b)
  let s ← free (usub (d + c) 1)
  if isPrefix then do
    let leaf ← leafAt ld pos
    if leaf then free (usub s 1) else return s
  else return s

/-- louds_dense.go:66-69, 80-83 -/
def dFinish (fp : Bytes → Word) (ld : LoudsDense) (key : Bytes) (depth valPos : Nat) : Cnt (Bytes × Bool) := do
  let ok ← checkEquality fp ld.suffixes valPos key (depth + 1)
  if ok then do
    let v ← free (ld.values.get valPos)
    return (v, true)
  else return ([], false)

/-- louds_dense.go:64-85 -/
def dGetAt (fp : Bytes → Word) (ld : LoudsDense) (key : Bytes) (depth nodeID : Nat) : Cnt (LoudsDense.GetRes ⊕ Nat) :=
  let pos := nodeID * denseFanout
  if depth ≥ key.length then do
    let p ← isSet ld.isPrefixVec.bv nodeID
    if p then do
      let valPos ← dSuffixPos ld pos true
      let (v, ok) ← dFinish fp ld key depth valPos
      return .inl ⟨-1, depth, v, ok⟩
    else return .inl ⟨-1, depth, [], false⟩
  else do
    let c ← free key[depth]?
    let pos := pos + c.toNat
    let l ← isSet ld.labelVec.bv pos
    if !l then return .inl ⟨-1, depth, [], false⟩
    else do
      let h ← isSet ld.hasChildVec.bv pos
      if !h then do
        let valPos ← dSuffixPos ld pos false
        let (v, ok) ← dFinish fp ld key depth valPos
        return .inl ⟨-1, depth, v, ok⟩
      else return .inr pos

/-- louds_dense.go:56-91 -/
def dGetLoop (fp : Bytes → Word) (ld : LoudsDense) (key : Bytes) : Nat → Nat → Nat → Cnt LoudsDense.GetRes
  | 0, depth, nodeID => pure ⟨nodeID, depth, [], true⟩
  | n + 1, depth, nodeID => do
    let (prefixLen, ok) ← checkPrefix ld.prefixVec key depth nodeID
    if !ok then return ⟨-1, depth, [], false⟩
    else do
      let depth := depth + prefixLen
      match ← dGetAt fp ld key depth nodeID with
      | .inl r => return r
      | .inr pos => do
        let child ← rankDense ld.hasChildVec pos
        dGetLoop fp ld key n (depth + 1) child

/-- louds_sparse.go:173-175 `suffixPos` -/
def sSuffixPos (ls : LoudsSparse) (pos : Nat) : Cnt Nat := do
  let r ← rankSparse ls.hasChildVec pos
  free (usub pos r)

/-- louds_sparse.go:177-179 `firstLabelPos` -/
def firstLabelPos (bmi : Bool) (ls : LoudsSparse) (nodeID : Nat) : Cnt Nat := do
  let r ← free (usub (nodeID + 1) ls.denseNodeCount)
  select bmi ls.loudsVec r

/-- louds_sparse.go:196-198 `childNodeID` -/
def sChildNodeID (ls : LoudsSparse) (pos : Nat) : Cnt Nat := do
  let r ← rankSparse ls.hasChildVec pos
  return r + ls.denseChildCount

/-- louds_sparse.go:82-86, 94-98 -/
def sFinish (fp : Bytes → Word) (ls : LoudsSparse) (key : Bytes) (depth pos : Nat) : Cnt (Bytes × Bool) := do
  let valPos ← sSuffixPos ls pos
  let ok ← checkEquality fp ls.suffixes valPos key (depth + 1)
  if ok then do
    let v ← free (ls.values.get valPos)
    return (v, true)
  else return ([], false)

/-- louds_sparse.go:93-101 -/
def sGetTail (fp : Bytes → Word) (ls : LoudsSparse) (key : Bytes) (depth pos : Nat) : Cnt (Bytes × Bool) := do
  let l ← rd 1 (ls.labelVec.getLabel pos)
  if l = labelTerminator then do
    let h ← isSet ls.hasChildVec.bv pos
    if !h then sFinish fp ls key depth pos else return ([], false)
  else return ([], false)

/-- louds_sparse.go:66-91 -/
def sGetLoop (fp : Bytes → Word) (bmi : Bool) (ls : LoudsSparse) (key : Bytes) : Nat → Nat → Nat → Nat → Cnt (Bytes × Bool)
  | 0, _, _, _ => free none
  | fuel + 1, depth, nodeID, pos =>
    if depth < key.length then do
      let pid ← free (ls.prefixID nodeID)
      let (prefixLen, ok) ← checkPrefix ls.prefixVec key depth pid
      if !ok then return ([], false)
      else do
        let depth := depth + prefixLen
        if depth ≥ key.length then sGetTail fp ls key depth pos
        else do
          let c ← free key[depth]?
          let sz ← distanceToNextSetBit ls.loudsVec.bv pos
          let (pos, ok) ← search ls.labelVec c pos sz
          if !ok then return ([], false)
          else do
            let h ← isSet ls.hasChildVec.bv pos
            if !h then sFinish fp ls key depth pos
            else do
              let nodeID ← sChildNodeID ls pos
              let pos ← firstLabelPos bmi ls nodeID
              sGetLoop fp bmi ls key fuel (depth + 1) nodeID pos
    else sGetTail fp ls key depth pos

/-- louds_sparse.go:60-102 `Get` -/
def sGet (fp : Bytes → Word) (bmi : Bool) (ls : LoudsSparse) (key : Bytes) (startDepth nodeID : Nat) : Cnt (Bytes × Bool) := do
  let pos ← firstLabelPos bmi ls nodeID
  sGetLoop fp bmi ls key (key.length + 1) startDepth nodeID pos

/-- surf.go:14-21 `Get` -/
def get (fp : Bytes → Word) (bmi : Bool) (s : SuRF) (key : Bytes) : Cnt (Bytes × Bool) := do
  let r ← dGetLoop fp s.ld key s.ld.height 0 0
  if !r.ok ∨ r.sparseNode < 0 then return (r.value, r.ok)
  else sGet fp bmi s.ls key r.depth r.sparseNode.toNat

/-! ## Counting -/

/-- The computation gives `o`, and after at most `N` reads if it gives anything. -/
def Tally {α : Type} (m : Cnt α) (o : Option α) (N : Nat) : Prop :=
  ∀ c, (o = none → m c = none) ∧ ∀ a, o = some a → ∃ k, k ≤ N ∧ m c = some (a, c + k)

variable {α β : Type}

theorem Tally.less {m : Cnt α} {o : Option α} {N M : Nat} (h : Tally m o N) (hN : N ≤ M) : Tally m o M := by
  intro c
  refine ⟨(h c).1, fun a ha => ?_⟩
  obtain ⟨k, h1, h2⟩ := (h c).2 a ha
  exact ⟨k, by omega, h2⟩

theorem tally_rd (n : Nat) (o : Option α) : Tally (rd n o) o n := by
  intro c
  cases o with
  | none => exact ⟨fun _ => rfl, fun a ha => by cases ha⟩
  | some a => exact ⟨fun h => (by cases h), fun b hb => by cases hb; exact ⟨n, Nat.le_refl _, rfl⟩⟩

theorem tally_free (o : Option α) : Tally (free o) o 0 := tally_rd 0 o

theorem tally_pure (a : α) (N : Nat) : Tally (pure a : Cnt α) (some a) N := fun c => ⟨fun h => (by cases h), fun b hb => by cases hb; exact ⟨0, Nat.zero_le _, rfl⟩⟩

theorem tally_none (N : Nat) : Tally (free none : Cnt α) none N := fun _ => ⟨fun _ => rfl, fun a ha => by cases ha⟩

/-- A bound that is needed only if the computation gives something. -/
theorem Tally.of {m : Cnt α} {o : Option α} {N M : Nat} (h : Tally m o M) (hN : ∀ a, o = some a → M ≤ N) : Tally m o N := by
  cases o with
  | none => exact fun c => ⟨(h c).1, fun a ha => by cases ha⟩
  | some a => exact h.less (hN a rfl)

theorem Tally.bind {m : Cnt α} {o : Option α} {N M K : Nat} {f : α → Cnt β} {g : α → Option β} (h : Tally m o N) (hf : ∀ a, o = some a → Tally (f a) (g a) M) (hK : N + M ≤ K) :
    Tally (m >>= f) (o >>= g) K := by
  intro c
  cases o with
  | none =>
    have e : (m >>= f) c = none := by
      show (StateT.bind m f) c = none
      unfold StateT.bind
      rw [(h c).1 rfl]
      rfl
    exact ⟨fun _ => e, fun a ha => by cases ha⟩
  | some a =>
    obtain ⟨k, h1, h2⟩ := (h c).2 a rfl
    have hb := hf a rfl (c + k)
    have e : (m >>= f) c = f a (c + k) := by
      show (StateT.bind m f) c = _
      unfold StateT.bind
      rw [h2]
      rfl
    rw [e]
    refine ⟨hb.1, fun b hbb => ?_⟩
    obtain ⟨k', h3, h4⟩ := hb.2 b hbb
    exact ⟨k + k', by omega, by rw [h4, Nat.add_assoc]⟩

theorem tally_ite {p : Prop} [Decidable p] {m m' : Cnt α} {o o' : Option α} {N : Nat} (h : p → Tally m o N) (h' : ¬ p → Tally m' o' N) : Tally (if p then m else m') (if p then o else o') N := by
  split
  · next x => exact h x
  · next x => exact h' x

/-! ### Rank: at most nine reads -/

theorem tally_popLoop (bs : List Word) (off i : Nat) : Tally (popcountLoop bs off i) (Surf.popcountLoop bs off i) i := by
  induction i with
  | zero => exact tally_pure _ _
  | succ i ih => exact ih.bind (fun p _ => (tally_rd 1 _).bind (fun w _ => tally_pure _ 0) (Nat.le_refl _)) (Nat.le_refl _)

theorem tally_popcount (bs : List Word) (off nbits : Nat) : Tally (popcountBlock bs off nbits) (Surf.popcountBlock bs off nbits) ((nbits - 1) / 64 + 1) :=
  tally_ite (fun _ => tally_pure _ _) fun _ => (tally_popLoop _ _ _).bind (fun p _ => (tally_rd 1 _).bind (fun w _ => tally_pure _ 0) (Nat.le_refl _)) (Nat.le_refl _)

theorem tally_isSet (v : BitVector) (pos : Nat) : Tally (isSet v pos) (v.isSet pos) 1 := tally_rd _ _

theorem tally_rankDense (v : RankVector) (pos : Nat) : Tally (rankDense v pos) (v.rankDense pos) 2 :=
  (tally_rd 1 _).bind (fun r _ => ((tally_popcount _ _ _).less (show _ ≤ 1 by simp only [rankDenseBlockSize]; omega)).bind (fun p _ => tally_pure _ 0) (Nat.le_refl _)) (Nat.le_refl _)

theorem tally_rankSparse (v : RankVector) (pos : Nat) : Tally (rankSparse v pos) (v.rankSparse pos) 9 :=
  (tally_rd 1 _).bind (fun r _ => ((tally_popcount _ _ _).less (show _ ≤ 8 by simp only [rankSparseBlockSize]; omega)).bind (fun p _ => tally_pure _ 0) (Nat.le_refl _)) (Nat.le_refl _)

/-! ### Select and the distance to the next bit: as many words as lie between the two positions -/

theorem selectLoop_ge (bmi : Bool) (bits : List Word) : ∀ (fuel wordOff : Nat) (w : Word) (r p : Nat), SelectVector.selectLoop bmi bits fuel wordOff w r = some p → wordOff ≤ p / 64 := by
  intro fuel
  induction fuel with
  | zero => intro wordOff w r p h; cases h
  | succ fuel ih =>
    intro wordOff w r p h
    unfold SelectVector.selectLoop at h
    dsimp only at h
    split at h
    · obtain ⟨w', -, h⟩ := Option.bind_eq_some_iff.mp h
      have := ih _ _ _ _ h
      omega
    · obtain ⟨s, -, h⟩ := Option.bind_eq_some_iff.mp h
      cases h
      omega

theorem tally_selectLoop (bmi : Bool) (bits : List Word) : ∀ (fuel wordOff : Nat) (w : Word) (r N : Nat), (∀ p, SelectVector.selectLoop bmi bits fuel wordOff w r = some p → p / 64 ≤ wordOff + N) →
    Tally (selectLoop bmi bits fuel wordOff w r) (SelectVector.selectLoop bmi bits fuel wordOff w r) N := by
  intro fuel
  induction fuel with
  | zero => intro wordOff w r N _; exact tally_none _
  | succ fuel ih =>
    intro wordOff w r N h
    unfold selectLoop SelectVector.selectLoop
    unfold SelectVector.selectLoop at h
    dsimp only at h ⊢
    refine tally_ite (fun hlt => ?_) (fun _ => (tally_free _).bind (fun s _ => tally_pure _ N) (by omega))
    rw [if_pos hlt] at h
    cases hb : bits[wordOff + 1]? with
    | none => exact (tally_rd 1 none).bind (fun a ha => by cases ha) (Nat.le_refl (1 + N)) |>.of (fun a ha => by cases ha)
    | some w' =>
      rw [hb] at h
      have h : ∀ p, SelectVector.selectLoop bmi bits fuel (wordOff + 1) w' (r - onesCount w) = some p → p / 64 ≤ wordOff + N := h
      cases hs : SelectVector.selectLoop bmi bits fuel (wordOff + 1) w' (r - onesCount w) with
      | none =>
        refine ((tally_rd 1 (some w')).bind (M := N) (K := N + 1) (fun a ha => ?_) (by omega)).of (fun a ha => ?_)
        · cases ha
          exact ih _ _ _ _ (fun p hp => by rw [hs] at hp; cases hp)
        · rw [show (some w' >>= fun w' => SelectVector.selectLoop bmi bits fuel (wordOff + 1) w' (r - onesCount w)) = SelectVector.selectLoop bmi bits fuel (wordOff + 1) w' (r - onesCount w) from rfl, hs] at ha
          cases ha
      | some p =>
        have hp := h p hs
        have hge : wordOff + 1 ≤ p / 64 := selectLoop_ge _ _ _ _ _ _ _ hs
        refine (tally_rd 1 (some w')).bind (M := N - 1) (fun a ha => ?_) (by omega)
        cases ha
        exact ih _ _ _ _ (fun q hq => by rw [hs] at hq; cases hq; omega)

theorem tally_selectFrom (bmi : Bool) (v : SelectVector) (pos r D : Nat) (h : ∀ p, v.selectFrom bmi pos r = some p → p ≤ pos + D) : Tally (selectFrom bmi v pos r) (v.selectFrom bmi pos r) (D / 64 + 2) := by
  unfold selectFrom SelectVector.selectFrom
  unfold SelectVector.selectFrom at h
  refine tally_ite (fun _ => tally_pure _ _) (fun hr => ?_)
  rw [if_neg hr] at h
  dsimp only at h ⊢
  cases hw : v.bv.bits[if pos % 64 = 64 - 1 then pos / 64 + 1 else pos / 64]? with
  | none => exact ((tally_rd 1 none).bind (g := fun _ => none) (fun a ha => by cases ha) (Nat.le_refl (1 + 0))).of (fun a ha => by cases ha)
  | some w0 =>
    rw [hw] at h
    dsimp only at h
    have key : Tally (selectLoop bmi v.bv.bits (v.bv.bits.length + 1) (if pos % 64 = 64 - 1 then pos / 64 + 1 else pos / 64)
        (w0 >>> (if pos % 64 = 64 - 1 then 0 else pos % 64 + 1) <<< (if pos % 64 = 64 - 1 then 0 else pos % 64 + 1)) r)
        (SelectVector.selectLoop bmi v.bv.bits (v.bv.bits.length + 1) (if pos % 64 = 64 - 1 then pos / 64 + 1 else pos / 64)
        (w0 >>> (if pos % 64 = 64 - 1 then 0 else pos % 64 + 1) <<< (if pos % 64 = 64 - 1 then 0 else pos % 64 + 1)) r) (D / 64 + 1) := by
      refine tally_selectLoop _ _ _ _ _ _ _ (fun p hp => ?_)
      have := h p hp
      split <;> omega
    have hb := Tally.bind (α := Word) (m := rd 1 (some w0)) (o := some w0) (N := 1) (K := D / 64 + 2) (tally_rd 1 (some w0)) (M := D / 64 + 1) (f := fun w0 => selectLoop bmi v.bv.bits (v.bv.bits.length + 1) (if pos % 64 = 64 - 1 then pos / 64 + 1 else pos / 64)
        (w0 >>> (if pos % 64 = 64 - 1 then 0 else pos % 64 + 1) <<< (if pos % 64 = 64 - 1 then 0 else pos % 64 + 1)) r)
      (g := fun w0 => SelectVector.selectLoop bmi v.bv.bits (v.bv.bits.length + 1) (if pos % 64 = 64 - 1 then pos / 64 + 1 else pos / 64)
        (w0 >>> (if pos % 64 = 64 - 1 then 0 else pos % 64 + 1) <<< (if pos % 64 = 64 - 1 then 0 else pos % 64 + 1)) r) (fun a ha => by cases ha; exact key) (by omega)
    exact hb

/-- `Select` reads an entry of the table and the words between the sampled bit and the one sought. -/
theorem tally_select (bmi : Bool) (v : SelectVector) (rank D : Nat) (h : ∀ pos p, v.selectLut[rank / 64]? = some pos → v.select bmi rank = some p → p ≤ pos + D) :
    Tally (select bmi v rank) (v.select bmi rank) (D / 64 + 3) := by
  refine (tally_free _).bind (M := D / 64 + 3) (fun r hr => (tally_rd 1 _).bind (M := D / 64 + 2) (fun pos hpos => tally_selectFrom _ _ _ _ _ (fun p hp => h pos p hpos ?_)) (by omega)) (by omega)
  unfold SelectVector.select
  rw [hr, hpos]
  exact hp

theorem distLoop_ge (v : BitVector) : ∀ (k wordOff distance d : Nat), v.distNextLoop k wordOff distance = some d → distance ≤ d + 63 := by
  intro k
  induction k with
  | zero =>
    intro wordOff distance d h
    unfold BitVector.distNextLoop at h
    split at h
    · unfold usub at h
      split at h
      · cases h; omega
      · cases h
    · cases h; omega
  | succ k ih =>
    intro wordOff distance d h
    unfold BitVector.distNextLoop at h
    obtain ⟨w, -, h⟩ := Option.bind_eq_some_iff.mp h
    split at h
    · cases h; omega
    · have := ih _ _ _ h
      omega

theorem tally_distLoop (v : BitVector) : ∀ (k wordOff distance N : Nat), (∀ d, v.distNextLoop k wordOff distance = some d → d < distance + 64 * N) →
    Tally (distNextLoop v k wordOff distance) (v.distNextLoop k wordOff distance) N := by
  intro k
  induction k with
  | zero =>
    intro wordOff distance N h
    unfold distNextLoop BitVector.distNextLoop
    exact tally_ite (fun _ => (tally_free _).less (Nat.zero_le _)) (fun _ => tally_pure _ _)
  | succ k ih =>
    intro wordOff distance N h
    by_cases hN : N = 0
    · subst hN
      have hnone : v.distNextLoop (k + 1) wordOff distance = none := by
        cases e : v.distNextLoop (k + 1) wordOff distance with
        | none => rfl
        | some d =>
          exfalso
          have h1 := h d e
          unfold BitVector.distNextLoop at e
          obtain ⟨w, -, e⟩ := Option.bind_eq_some_iff.mp e
          split at e
          · cases e; omega
          · have := distLoop_ge _ _ _ _ _ e
            omega
      refine Tally.of (M := k + 1) ?_ (fun a ha => by rw [hnone] at ha; cases ha)
      clear h hnone ih
      induction k generalizing wordOff distance with
      | zero =>
        exact (tally_rd 1 _).bind (fun w _ => tally_ite (fun _ => tally_pure _ 0) (fun _ => tally_ite (fun _ => tally_free _) (fun _ => tally_pure _ _))) (Nat.le_refl _)
      | succ k ih => exact (tally_rd 1 _).bind (fun w _ => tally_ite (fun _ => tally_pure _ (k + 1)) (fun _ => ih _ _)) (by omega)
    · unfold distNextLoop BitVector.distNextLoop
      unfold BitVector.distNextLoop at h
      refine (tally_rd 1 _).bind (M := N - 1) (fun w hw => tally_ite (fun _ => tally_pure _ _) (fun hz => ih _ _ _ (fun d hd => ?_))) (by omega)
      have := h d (by
        dsimp only
        rw [hw]
        show (if w ≠ 0#64 then _ else _) = _
        rw [if_neg hz]
        exact hd)
      omega

/-- `DistanceToNextSetBit` reads the words between the two positions. -/
theorem tally_dist (v : BitVector) (pos N : Nat) (h : ∀ d, v.distanceToNextSetBit pos = some d → d < 2 + 64 * N) : Tally (distanceToNextSetBit v pos) (v.distanceToNextSetBit pos) (N + 1) := by
  unfold distanceToNextSetBit BitVector.distanceToNextSetBit
  unfold BitVector.distanceToNextSetBit at h
  dsimp only at h ⊢
  refine tally_ite (fun _ => tally_pure _ _) (fun h1 => ?_)
  refine (tally_rd 1 _).bind (M := N) (fun w hw => tally_ite (fun _ => tally_pure _ _) (fun h2 => ?_)) (by omega)
  refine (tally_free _).bind (M := N) (fun last hl => tally_ite (fun _ => (tally_free _).less (Nat.zero_le _)) (fun h3 => ?_)) (by omega)
  refine tally_distLoop _ _ _ _ _ (fun d hd => ?_)
  have := h d (by
    rw [if_neg h1, hw]
    show (if _ then _ else _) = _
    rw [if_neg h2, hl]
    show (if _ then _ else _) = _
    rw [if_neg h3]
    exact hd)
  omega

/-! ### Labels, prefixes and suffixes -/

theorem tally_skip (v : LabelVector) (start size : Nat) : Tally (skipTerminator v start size) (v.skipTerminator start size) 1 :=
  tally_ite (fun _ => (tally_rd 1 _).bind (fun _ _ => tally_ite (fun _ => tally_pure _ 0) (fun _ => tally_pure _ 0)) (Nat.le_refl _)) (fun _ => tally_pure _ _)

theorem tally_search (v : LabelVector) (k : UInt8) (start size : Nat) : Tally (search v k start size) (v.search k start size) (size + 1) := by
  refine (tally_skip v start size).bind (M := size) (fun r hr => ?_) (by omega)
  have hsz : r.2 ≤ size := by
    unfold LabelVector.skipTerminator at hr
    split at hr
    · obtain ⟨l, -, hr⟩ := Option.bind_eq_some_iff.mp hr
      split at hr <;> cases hr <;> simp
    · cases hr; simp
  obtain ⟨st, sz⟩ := r
  refine (tally_free _).bind (M := size) (fun sub hsub => ?_) (by omega)
  have hlen : sub.length ≤ sz := by
    unfold slice at hsub
    split at hsub
    · cases hsub
      simp only [List.length_drop, List.length_take]
      omega
    · cases hsub
  refine Tally.less (N := sub.length + 0) ?_ (by simp only at hsz; omega)
  have := (tally_rd sub.length (some (indexByte sub k))).bind (M := 0) (K := sub.length + 0) (β := Nat × Bool) (f := fun r => match r with | none => return (st, false) | some r => return (st + r, true))
    (g := fun r => match r with | none => some (st, false) | some r => some (st + r, true)) (fun a _ => by cases a <;> exact tally_pure _ _) (Nat.le_refl _)
  exact this

theorem tally_prefixEnd (v : PrefixVec) (id : Nat) : Tally (prefixEnd v id) (v.prefixEnd id) 1 := tally_ite (fun _ => tally_rd _ _) (fun _ => tally_pure _ _)

theorem tally_getPrefix (v : PrefixVec) (id : Nat) : Tally (getPrefix v id) (v.getPrefix id) 12 :=
  (tally_isSet _ _).bind (M := 11) (fun b _ => tally_ite (fun _ => tally_pure _ _) (fun _ => (tally_rankSparse _ _).bind (M := 2) (fun r _ => (tally_free _).bind (M := 2) (fun i _ =>
    (tally_rd 1 _).bind (M := 1) (fun st _ => (tally_prefixEnd _ _).bind (fun e _ => tally_free _) (Nat.le_refl _)) (by omega)) (by omega)) (by omega))) (by omega)

theorem tally_checkPrefix (v : PrefixVec) (key : Bytes) (depth id N : Nat) (h : ∀ l b, v.checkPrefix key depth id = some (l, b) → 12 + (if b then l else key.length - depth) ≤ N) :
    Tally (checkPrefix v key depth id) (v.checkPrefix key depth id) N := by
  cases hp : v.checkPrefix key depth id with
  | none =>
    refine Tally.of (M := 12 + key.length) ?_ (fun a ha => by cases ha)
    rw [← hp]
    refine (tally_getPrefix _ _).bind (M := key.length) (fun pre _ => tally_ite (fun _ => tally_pure _ _) (fun _ => tally_ite (fun _ => tally_pure _ _) (fun h2 => ?_))) (Nat.le_refl _)
    exact ((tally_rd _ _).bind (M := 0) (fun sub _ => tally_ite (fun _ => tally_pure _ 0) (fun _ => tally_pure _ 0)) (Nat.le_refl _)).less (by omega)
  | some r =>
    obtain ⟨l, b⟩ := r
    have hN := h l b hp
    rw [← hp]
    refine (tally_getPrefix _ _).bind (M := N - 12) (fun pre hpre => tally_ite (fun _ => tally_pure _ _) (fun h1 => tally_ite (fun _ => tally_pure _ _) (fun h2 => ?_))) (by omega)
    refine ((tally_rd _ _).bind (M := 0) (fun sub _ => tally_ite (fun _ => tally_pure _ 0) (fun _ => tally_pure _ 0)) (Nat.le_refl _)).less ?_
    unfold PrefixVec.checkPrefix at hp
    rw [hpre] at hp
    have hp : (if pre.length = 0 then some (0, true) else if depth + pre.length > key.length then some (0, false) else do
        let sub ← slice key depth (depth + pre.length)
        if sub ≠ pre then some (0, false) else some (pre.length, true)) = some (l, b) := hp
    rw [if_neg h1, if_neg h2] at hp
    obtain ⟨sub, -, hp⟩ := Option.bind_eq_some_iff.mp hp
    split at hp
    · cases hp
      simp only [Bool.false_eq_true, if_false] at hN
      omega
    · cases hp
      simp only [if_true] at hN
      omega

theorem tally_checkEquality (fp : Bytes → Word) (v : SuffixVector) (idx : Nat) (key : Bytes) (level : Nat) : Tally (checkEquality fp v idx key level) (v.checkEquality fp idx key level) 2 := by
  refine tally_ite (fun _ => tally_pure _ _) (fun _ => tally_ite (fun _ => tally_pure _ _) (fun _ => ?_))
  refine ((tally_rd (if idx * v.suffixLen % 64 + v.suffixLen > 64 then 2 else 1) (v.read idx)).less (by split <;> omega)).bind (M := 0) (N := 2) (fun w _ => ?_) (Nat.le_refl _)
  exact tally_ite (fun _ => tally_pure _ _) (fun _ => tally_ite (fun _ => tally_pure _ _) (fun _ => (tally_free _).bind (fun _ _ => tally_pure _ 0) (Nat.le_refl _)))

/-! ### The dense part -/

theorem tally_leafAt (ld : LoudsDense) (pos : Nat) : Tally (leafAt ld pos) (ld.leafAt pos) 2 :=
  (tally_isSet _ _).bind (M := 1) (fun a _ => tally_ite (fun _ => (tally_isSet _ _).bind (fun b _ => tally_pure _ 0) (Nat.le_refl _)) (fun _ => tally_pure _ _)) (Nat.le_refl _)

theorem tally_dSuffixPos (ld : LoudsDense) (pos : Nat) (b : Bool) : Tally (dSuffixPos ld pos b) (ld.suffixPos pos b) 8 :=
  (tally_rankDense _ _).bind (M := 6) (fun _ _ => (tally_rankDense _ _).bind (M := 4) (fun _ _ => (tally_rankDense _ _).bind (M := 2) (fun _ _ => (tally_free _).bind (M := 2) (fun _ _ =>
    (tally_free _).bind (M := 2) (fun _ _ => tally_ite (fun _ => (tally_leafAt _ _).bind (M := 0) (fun _ _ => tally_ite (fun _ => tally_free _) (fun _ => tally_pure _ _)) (Nat.le_refl _)) (fun _ => tally_pure _ _))
      (by omega)) (by omega)) (by omega)) (by omega)) (by omega)

theorem tally_dFinish (fp : Bytes → Word) (ld : LoudsDense) (key : Bytes) (depth pos : Nat) : Tally (dFinish fp ld key depth pos) (ld.finish fp key depth pos) 2 :=
  (tally_checkEquality _ _ _ _ _).bind (M := 0) (fun _ _ => tally_ite (fun _ => (tally_free _).bind (fun _ _ => tally_pure _ 0) (Nat.le_refl _)) (fun _ => tally_pure _ _)) (Nat.le_refl _)

theorem tally_dGetAt (fp : Bytes → Word) (ld : LoudsDense) (key : Bytes) (depth id : Nat) : Tally (dGetAt fp ld key depth id) (ld.getAt fp key depth id) 12 := by
  refine tally_ite (fun _ => ?_) (fun _ => ?_)
  · refine (tally_isSet _ _).bind (M := 11) (fun p _ => tally_ite (fun _ => ?_) (fun _ => tally_pure _ _)) (by omega)
    refine (tally_dSuffixPos _ _ _).bind (M := 3) (fun _ _ => ?_) (by omega)
    exact (tally_dFinish _ _ _ _ _).bind (M := 1) (fun r _ => tally_pure _ _) (by omega)
  · refine (tally_free _).bind (M := 12) (fun c _ => ?_) (by omega)
    refine (tally_isSet _ _).bind (M := 11) (fun l _ => tally_ite (fun _ => tally_pure _ _) (fun _ => ?_)) (by omega)
    refine (tally_isSet _ _).bind (M := 10) (fun h _ => tally_ite (fun _ => ?_) (fun _ => tally_pure _ _)) (by omega)
    refine (tally_dSuffixPos _ _ _).bind (M := 2) (fun _ _ => ?_) (by omega)
    exact (tally_dFinish _ _ _ _ _).bind (M := 0) (fun r _ => tally_pure _ _) (by omega)

end Cnt
end Surf
