import Verif.Surf.WrapBuild
import Verif.Surf.WrapLemmas
import Verif.Surf.BuiltOk

/-!
# The two models of `Build` agree where the sizes are small enough

First the levels: the counts in a level only grow, so if they are small at the end they are small on the way, and no `uint32` computation of `buildNodes` wraps.
-/

set_option linter.unusedSimpArgs false

namespace Surf

open Surf.U32

/-! ## One level -/

/-- The counts of one level of the builder are small enough. -/
structure Level.Small (l : Level) : Prop where
  items : l.labels.length < 2 ^ 24
  nodes : l.nodeCount < 2 ^ 23
  sufs : l.suffixCount ≤ 2 ^ 23
  words : l.suffixes.length ≤ 2 ^ 23
  vals : l.valueCount ≤ 2 ^ 23

/-- If the result of the step `f` is small, then so is the level before, and the step in 32-bit arithmetic does the same. -/
def Agree (f g : Level → Option Level) : Prop := ∀ l l', f l = some l' → l'.Small → g l = some l' ∧ l.Small

theorem Agree.comp {f g f' g' : Level → Option Level} (h1 : Agree f g) (h2 : Agree f' g') : Agree (fun l => (f l).bind f') (fun l => (g l).bind g') := by
  intro l l' h hs
  obtain ⟨m, e1, e2⟩ := Option.bind_eq_some_iff.mp h
  obtain ⟨a1, a2⟩ := h2 m l' e2 hs
  obtain ⟨b1, b2⟩ := h1 l m e1 a2
  exact ⟨Option.bind_eq_some_iff.mpr ⟨m, b1, a1⟩, b2⟩

theorem move_small {l : Level} (h : l.moveToNextItemSlot.Small) : l.Small := by
  unfold Level.moveToNextItemSlot at h
  split at h
  · exact ⟨h.1, h.2, h.3, h.4, h.5⟩
  · exact h

theorem moveSlot_u {l : Level} (h : l.Small) : U32.moveToNextItemSlot l = l.moveToNextItemSlot := by
  have := h.items
  unfold U32.moveToNextItemSlot Level.moveToNextItemSlot U32.numItems Level.numItems
  rw [u_eq (by omega)]

theorem append_small {l : Level} {c : UInt8} (h : (l.appendLabel c).Small) : l.Small := by
  have := h.items
  simp only [Level.appendLabel, List.length_append, List.length_singleton] at this
  exact ⟨by omega, h.2, h.3, h.4, h.5⟩

theorem appendMove_agree (c : UInt8) : Agree (fun l => some (l.appendLabel c).moveToNextItemSlot) (fun l => some (U32.moveToNextItemSlot (l.appendLabel c))) := by
  intro l l' h hs
  cases h
  have h1 := move_small hs
  exact ⟨congrArg some (moveSlot_u h1), append_small h1⟩

theorem insertSuffixBits_agree {len : Nat} (hl : len ≤ 64) (s : Word) : Agree (Level.insertSuffixBits len s) (U32.insertSuffixBits len s) := by
  intro l l' h hs
  obtain ⟨ss, h1, h⟩ := Option.bind_eq_some_iff.mp h
  cases h
  have hc : l.suffixCount + 1 ≤ 2 ^ 23 := hs.sufs
  have hw : l.suffixes.length ≤ 2 ^ 23 := by
    have a1 := hs.words
    have a2 := orAt_length h1
    have a3 : l.suffixes.length ≤ ss.length := by rw [a2]; split <;> simp
    dsimp only at a1
    split at a1
    · simp only [List.length_append] at a1; omega
    · omega
  have hm : l.suffixCount * len ≤ 2 ^ 23 * 64 := Nat.mul_le_mul (by omega) hl
  refine ⟨?_, ⟨hs.1, hs.2, by omega, hw, hs.5⟩⟩
  unfold U32.insertSuffixBits
  rw [mul_eq (by omega), u_eq (by omega)]
  have e3 : 64 ⊟ l.suffixCount * len % 64 = 64 - l.suffixCount * len % 64 := sub_eq (by omega) (by omega)
  have e4 : l.suffixCount ⊞ 1 = l.suffixCount + 1 := add_eq (by omega)
  simp only [e3, e4]
  exact Option.bind_eq_some_iff.mpr ⟨ss, h1, rfl⟩

variable {cfg : Config} {fp : Bytes → Word}

theorem cfgSuffixLen_u (hl : cfg.suffixLen ≤ 64) : cfgSuffixLen cfg = cfg.suffixLen := by
  unfold Config.suffixLen at hl
  exact add_eq (by omega)

theorem insertSuffix_agree (hl : cfg.suffixLen ≤ 64) {key : Bytes} (hk : key.length < 2 ^ 29) {depth : Nat} (hd : depth ≤ 2 ^ 31) :
    Agree (Level.insertSuffix cfg fp key depth) (U32.insertSuffix cfg fp key depth) := by
  intro l l' h hs
  obtain ⟨w, h1, h2⟩ := Option.bind_eq_some_iff.mp h
  obtain ⟨a1, a2⟩ := insertSuffixBits_agree hl w l l' h2 hs
  refine ⟨Option.bind_eq_some_iff.mpr ⟨w, ?_, ?_⟩, a2⟩
  · rw [u_eq (by omega), add_eq (by omega), constructSuffix_u hk]; exact h1
  · rw [cfgSuffixLen_u hl]; exact a1

theorem insertValue_agree (v : Bytes) : Agree (Level.insertValue cfg v) (U32.insertValue cfg v) := by
  intro l l' h hs
  obtain ⟨w, h1, h⟩ := Option.bind_eq_some_iff.mp h
  cases h
  have hc : l.valueCount + 1 ≤ 2 ^ 23 := hs.vals
  refine ⟨Option.bind_eq_some_iff.mpr ⟨w, h1, ?_⟩, ⟨hs.1, hs.2, hs.3, hs.4, by omega⟩⟩
  rw [add_eq (by omega)]; rfl

theorem insertLeaf_agree (hl : cfg.suffixLen ≤ 64) {key : Bytes} (hk : key.length < 2 ^ 29) {depth : Nat} (hd : depth ≤ 2 ^ 31) (v : Bytes) :
    Agree (Level.insertLeaf cfg fp key depth v) (U32.insertLeaf cfg fp key depth v) :=
  (insertSuffix_agree hl hk hd).comp (insertValue_agree v)

theorem setHasChild_agree : Agree Level.setHasChild U32.setHasChild := by
  intro l l' h hs
  obtain ⟨p, h0, h⟩ := Option.bind_eq_some_iff.mp h
  obtain ⟨hc, h1, h⟩ := Option.bind_eq_some_iff.mp h
  cases h
  have hi : l.labels.length < 2 ^ 24 := hs.items
  refine ⟨Option.bind_eq_some_iff.mpr ⟨hc, ?_, rfl⟩, ⟨hs.1, hs.2, hs.3, hs.4, hs.5⟩⟩
  unfold U32.numItems
  rw [u_eq (by omega)]
  unfold Level.numItems at h0
  rw [usub_u h0 (by omega)]
  exact h1

theorem storePrefix_small {pd d : Nat} {key : Bytes} {l l' : Level} (h : l.storePrefix pd d key = some l') (hs : l'.Small) : l.Small ∧ l'.nodeCount = l.nodeCount := by
  unfold Level.storePrefix at h
  split at h
  · obtain ⟨p, h0, h⟩ := Option.bind_eq_some_iff.mp h
    obtain ⟨hc, h1, h⟩ := Option.bind_eq_some_iff.mp h
    cases h
    exact ⟨⟨hs.1, hs.2, hs.3, hs.4, hs.5⟩, rfl⟩
  · cases h; exact ⟨hs, rfl⟩

theorem finishNode_agree (pd d pos : Nat) (key : Bytes) : Agree (Level.finishNode pd d pos key) (U32.finishNode pd d pos key) := by
  intro l l' h hs
  obtain ⟨l1, h0, h⟩ := Option.bind_eq_some_iff.mp h
  obtain ⟨lo, h1, h⟩ := Option.bind_eq_some_iff.mp h
  cases h
  have hc : l1.nodeCount + 1 < 2 ^ 23 := hs.nodes
  have hl1 : l1.Small := ⟨hs.1, by omega, hs.3, hs.4, hs.5⟩
  refine ⟨Option.bind_eq_some_iff.mpr ⟨l1, h0, Option.bind_eq_some_iff.mpr ⟨lo, h1, ?_⟩⟩, (storePrefix_small h0 hl1).1⟩
  rw [add_eq (by omega)]; rfl

theorem insertTerminator_agree (hl : cfg.suffixLen ≤ 64) {key : Bytes} (hk : key.length < 2 ^ 29) {depth : Nat} (hd : depth ≤ 2 ^ 31) (v : Bytes) :
    Agree (Level.insertTerminator cfg fp key depth v) (U32.insertTerminator cfg fp key depth v) := by
  intro l l' h hs
  obtain ⟨l1, h0, h⟩ := Option.bind_eq_some_iff.mp h
  cases h
  have h1 := move_small hs
  obtain ⟨a1, a2⟩ := insertLeaf_agree hl hk hd v _ _ h0 h1
  have a3 : (l.appendLabel labelTerminator).Small := ⟨a2.1, a2.2, a2.3, a2.4, a2.5⟩
  refine ⟨Option.bind_eq_some_iff.mpr ⟨l1, a1, ?_⟩, append_small a3⟩
  rw [moveSlot_u h1]; rfl

/-! ## All levels -/

def AllSmall (ls : List Level) : Prop := ∀ l ∈ ls, l.Small

theorem modifyLevel_u {f g : Level → Option Level} (h : Agree f g) {ls ls' : List Level} {i : Nat} (e : modifyLevel ls i f = some ls') (hs : AllSmall ls') :
    modifyLevel ls i g = some ls' ∧ AllSmall ls := by
  obtain ⟨l, h0, e⟩ := Option.bind_eq_some_iff.mp e
  obtain ⟨l', h1, e⟩ := Option.bind_eq_some_iff.mp e
  cases e
  have hi := getElem?_lt h0
  obtain ⟨a1, a2⟩ := h l l' h1 (hs l' (List.mem_set hi l'))
  refine ⟨Option.bind_eq_some_iff.mpr ⟨l, h0, Option.bind_eq_some_iff.mpr ⟨l', a1, rfl⟩⟩, ?_⟩
  intro m hm
  obtain ⟨j, hj, e⟩ := List.getElem_of_mem hm
  by_cases hij : i = j
  · subst hij
    rw [List.getElem?_eq_getElem hj, e, Option.some.injEq] at h0
    rw [h0]; exact a2
  · refine hs m ?_
    have : (ls.set i l')[j]'(by simpa using hj) = m := by rw [List.getElem_set_ne hij]; exact e
    rw [← this]
    exact List.getElem_mem _

theorem ensureLevel_small {ls : List Level} {level : Nat} (h : AllSmall (ensureLevel ls level)) : AllSmall ls := by
  unfold ensureLevel at h
  split at h
  · exact fun l hl => h l (List.mem_append_left _ hl)
  · exact h

/-- As `Agree`, for `buildNodes` from a depth of at most `2^31 - n`. -/
def RAgree (n : Nat) (f g : BuildFn) : Prop :=
  ∀ ls keys vals pd d lv ls', d + n ≤ 2 ^ 31 → (∀ k ∈ keys, k.length < 2 ^ 29) → f ls keys vals pd d lv = some ls' → AllSmall ls' →
    g ls keys vals pd d lv = some ls' ∧ AllSmall ls

theorem emitGroup_u (hl : cfg.suffixLen ≤ 64) {n : Nat} {f g : BuildFn} (hr : RAgree n f g) {keys vals : List Bytes} (hk : ∀ k ∈ keys, k.length < 2 ^ 29) {d lv gs ge : Nat}
    (hd : d + (n + 1) ≤ 2 ^ 31) {ls ls' : List Level} (h : Surf.emitGroup cfg fp f keys vals d lv gs ge ls = some ls') (hs : AllSmall ls') :
    U32.emitGroup cfg fp g keys vals d lv gs ge ls = some ls' ∧ AllSmall ls := by
  obtain ⟨k, h1, h⟩ := Option.bind_eq_some_iff.mp h
  obtain ⟨c, h2, h⟩ := Option.bind_eq_some_iff.mp h
  obtain ⟨l1, h3, h⟩ := Option.bind_eq_some_iff.mp h
  have hkk := hk k (List.mem_of_getElem? h1)
  suffices H : (∃ x, x = (if ge - gs = 1 then (vals[gs]?).bind (fun v => modifyLevel l1 lv (U32.insertLeaf cfg fp k d v)) else
      (modifyLevel l1 lv U32.setHasChild).bind (fun ls => (slice keys gs ge).bind (fun ks => (slice vals gs ge).bind (fun vs => g ls ks vs (d + 1) (d + 1) (lv + 1))))) ∧
      x = some ls' ∧ AllSmall l1) by
    obtain ⟨x, e1, e2, e3⟩ := H
    obtain ⟨b1, b2⟩ := modifyLevel_u (appendMove_agree c) h3 e3
    refine ⟨?_, b2⟩
    unfold U32.emitGroup
    refine Option.bind_eq_some_iff.mpr ⟨k, h1, Option.bind_eq_some_iff.mpr ⟨c, h2, Option.bind_eq_some_iff.mpr ⟨l1, b1, ?_⟩⟩⟩
    rw [← e2, e1]
    rfl
  refine ⟨_, rfl, ?_⟩
  by_cases hg : ge - gs = 1
  · rw [if_pos hg] at h ⊢
    obtain ⟨v, h4, h⟩ := Option.bind_eq_some_iff.mp h
    obtain ⟨a1, a2⟩ := modifyLevel_u (insertLeaf_agree hl hkk (by omega) v) h hs
    exact ⟨Option.bind_eq_some_iff.mpr ⟨v, h4, a1⟩, a2⟩
  · rw [if_neg hg] at h ⊢
    obtain ⟨l2, h4, h⟩ := Option.bind_eq_some_iff.mp h
    obtain ⟨ks, h5, h⟩ := Option.bind_eq_some_iff.mp h
    obtain ⟨vs, h6, h⟩ := Option.bind_eq_some_iff.mp h
    have hks : ∀ k ∈ ks, k.length < 2 ^ 29 := by
      intro k hk'
      obtain ⟨-, -, e⟩ := slice_lt h5
      rw [e] at hk'
      exact hk k (List.mem_of_mem_take (List.mem_of_mem_drop hk'))
    obtain ⟨a1, a2⟩ := hr l2 ks vs _ _ _ ls' (by omega) hks h hs
    obtain ⟨b1, b2⟩ := modifyLevel_u setHasChild_agree h4 a2
    exact ⟨Option.bind_eq_some_iff.mpr ⟨l2, b1, Option.bind_eq_some_iff.mpr ⟨ks, h5, Option.bind_eq_some_iff.mpr ⟨vs, h6, a1⟩⟩⟩, b2⟩

theorem groupLoop_u (hl : cfg.suffixLen ≤ 64) {n : Nat} {f g : BuildFn} (hr : RAgree n f g) {keys vals : List Bytes} (hk : ∀ k ∈ keys, k.length < 2 ^ 29) {pd d lv : Nat}
    (hd : d + (n + 1) ≤ 2 ^ 31) : ∀ (m gs ge : Nat) (ls ls' : List Level) (b : Bool), Surf.groupLoop cfg fp f keys vals pd d lv m gs ge ls = some (ls', b) → AllSmall ls' →
    U32.groupLoop cfg fp g keys vals pd d lv m gs ge ls = some (ls', b) ∧ AllSmall ls := by
  intro m
  induction m with
  | zero => intro gs ge ls ls' b h hs; cases h; exact ⟨rfl, hs⟩
  | succ m ih =>
    intro gs ge ls ls' b h hs
    rw [Surf.groupLoop] at h
    rw [U32.groupLoop]
    obtain ⟨same, h1, h⟩ := Option.bind_eq_some_iff.mp h
    rw [h1]
    show (if same then _ else _) = _ ∧ _
    cases same with
    | true =>
      rw [if_pos rfl] at h ⊢
      exact ih _ _ _ _ _ h hs
    | false =>
      rw [if_neg (by decide)] at h ⊢
      split at h
      · rename_i hc
        rw [if_pos hc]
        obtain ⟨l1, h2, h⟩ := Option.bind_eq_some_iff.mp h
        cases h
        obtain ⟨a1, a2⟩ := hr ls keys vals _ _ _ _ (by omega) hk h2 hs
        exact ⟨Option.bind_eq_some_iff.mpr ⟨_, a1, rfl⟩, a2⟩
      · rename_i hc
        rw [if_neg hc]
        obtain ⟨l1, h2, h⟩ := Option.bind_eq_some_iff.mp h
        obtain ⟨a1, a2⟩ := ih _ _ _ _ _ h hs
        obtain ⟨b1, b2⟩ := emitGroup_u hl hr hk hd h2 a2
        exact ⟨Option.bind_eq_some_iff.mpr ⟨_, b1, a1⟩, b2⟩

theorem terminatorItem_u (hl : cfg.suffixLen ≤ 64) {keys vals : List Bytes} (hk : ∀ k ∈ keys, k.length < 2 ^ 29) {d lv gs : Nat}
    (hd : d ≤ 2 ^ 31) {ls ls' : List Level} (h : Surf.terminatorItem cfg fp keys vals d lv ls = some (ls', gs)) (hs : AllSmall ls') :
    U32.terminatorItem cfg fp keys vals d lv ls = some (ls', gs) ∧ AllSmall ls := by
  obtain ⟨k, h1, h⟩ := Option.bind_eq_some_iff.mp h
  have hkk := hk k (List.mem_of_getElem? h1)
  unfold U32.terminatorItem
  rw [h1]
  show (if d ≥ k.length then _ else _) = _ ∧ _
  split at h
  · rename_i hc
    rw [if_pos hc]
    obtain ⟨v, h2, h⟩ := Option.bind_eq_some_iff.mp h
    obtain ⟨l1, h3, h⟩ := Option.bind_eq_some_iff.mp h
    cases h
    obtain ⟨a1, a2⟩ := modifyLevel_u (insertTerminator_agree hl hkk hd v) h3 hs
    exact ⟨Option.bind_eq_some_iff.mpr ⟨v, h2, Option.bind_eq_some_iff.mpr ⟨_, a1, rfl⟩⟩, a2⟩
  · rename_i hc
    rw [if_neg hc]
    cases h
    exact ⟨rfl, hs⟩

theorem buildNodes_u (hl : cfg.suffixLen ≤ 64) : ∀ n, RAgree n (Surf.buildNodes cfg fp n) (U32.buildNodes cfg fp n) := by
  intro n
  induction n with
  | zero => intro ls keys vals pd d lv ls' _ _ h; cases h
  | succ n ih =>
    intro ls keys vals pd d lv ls' hd hk h hs
    rw [Surf.buildNodes] at h
    rw [U32.buildNodes]
    obtain ⟨l, h1, h⟩ := Option.bind_eq_some_iff.mp h
    obtain ⟨⟨l1, gs⟩, h2, h⟩ := Option.bind_eq_some_iff.mp h
    obtain ⟨⟨l2, b⟩, h3, h⟩ := Option.bind_eq_some_iff.mp h
    dsimp only at h3 h
    suffices H : AllSmall l2 ∧ (l.Small → (if b then some l2 else (keys[0]?).bind (fun k => modifyLevel l2 lv (U32.finishNode pd d (U32.numItems l) k))) = some ls') by
      obtain ⟨s2, H⟩ := H
      obtain ⟨a1, a2⟩ := groupLoop_u hl ih hk hd _ _ _ _ _ _ h3 s2
      obtain ⟨b1, b2⟩ := terminatorItem_u hl hk (by omega) h2 a2
      refine ⟨?_, ensureLevel_small b2⟩
      refine Option.bind_eq_some_iff.mpr ⟨l, h1, Option.bind_eq_some_iff.mpr ⟨(l1, gs), b1, Option.bind_eq_some_iff.mpr ⟨(l2, b), a1, ?_⟩⟩⟩
      exact H (b2 l (List.mem_of_getElem? h1))
    cases b with
    | true =>
      rw [if_pos rfl] at h
      cases h
      exact ⟨hs, fun _ => if_pos rfl⟩
    | false =>
      rw [if_neg (by decide)] at h
      obtain ⟨k, h4, h⟩ := Option.bind_eq_some_iff.mp h
      obtain ⟨a1, a2⟩ := modifyLevel_u (finishNode_agree pd d l.numItems k) h hs
      refine ⟨a2, fun hsm => ?_⟩
      rw [if_neg (by decide)]
      have hi := hsm.items
      refine Option.bind_eq_some_iff.mpr ⟨k, h4, ?_⟩
      have : U32.numItems l = l.numItems := u_eq (by omega)
      rw [this]
      exact a1

/-! ## Dense levels -/

theorem setLabel_u (l : Level) {nodeID : Nat} (hn : nodeID < 2 ^ 24) (pos : Nat) (d : DenseLevel) : U32.setLabelAndHasChildVec l nodeID pos d = Surf.setLabelAndHasChildVec l nodeID pos d := by
  unfold U32.setLabelAndHasChildVec Surf.setLabelAndHasChildVec
  have e : ∀ c : UInt8, nodeID ⊠ denseFanout ⊞ c.toNat = nodeID * denseFanout + c.toNat := by
    intro c
    have := c.toNat_lt
    have e1 : nodeID * denseFanout = nodeID * 256 := rfl
    rw [mul_eq (by omega), add_eq (by omega)]
  simp only [e]

theorem denseFirst_u (l : Level) {nodeID : Nat} (hn : nodeID < 2 ^ 24) (pos : Nat) (d : DenseLevel) : U32.denseFirstItem l nodeID pos d = Surf.denseFirstItem l nodeID pos d := by
  unfold U32.denseFirstItem Surf.denseFirstItem
  simp only [setLabel_u l hn]

theorem denseLoop_u (l : Level) : ∀ (n pos nodeID : Nat) (d : DenseLevel), pos + n < 2 ^ 24 → nodeID < pos → U32.denseLoop l n pos nodeID d = Surf.denseLoop l n pos nodeID d := by
  intro n
  induction n with
  | zero => intros; rfl
  | succ n ih =>
    intro pos nodeID d hp hn
    rw [U32.denseLoop, Surf.denseLoop]
    rw [add_eq (a := pos) (by omega), add_eq (a := nodeID) (by omega)]
    have e1 : ∀ d, U32.denseLoop l n (pos + 1) (nodeID + 1) d = Surf.denseLoop l n (pos + 1) (nodeID + 1) d := fun d => ih _ _ d (by omega) (by omega)
    have e2 : ∀ d, U32.denseLoop l n (pos + 1) nodeID d = Surf.denseLoop l n (pos + 1) nodeID d := fun d => ih _ _ d (by omega) (by omega)
    simp only [e1, e2, denseFirst_u l (show nodeID + 1 < 2 ^ 24 by omega), setLabel_u l (show nodeID < 2 ^ 24 by omega)]

theorem buildDenseLevel_u {l : Level} (h : l.Small) : U32.buildDenseLevel l = Surf.buildDenseLevel l := by
  have h1 := h.items
  have h2 := h.nodes
  unfold U32.buildDenseLevel Surf.buildDenseLevel
  have e0 : U32.initDenseVectors l = Surf.initDenseVectors l := by
    unfold U32.initDenseVectors Surf.initDenseVectors
    rw [mul_eq (by omega), add_eq (by omega)]
  have e1 : U32.numItems l = l.numItems := u_eq (by omega)
  rw [e0, e1]
  by_cases h0 : l.numItems = 0
  · rw [if_pos h0, if_pos h0]
  · rw [if_neg h0, if_neg h0]
    unfold Level.numItems at h0 ⊢
    have e2 : ∀ d, U32.denseLoop l (l.labels.length - 1) 1 0 d = Surf.denseLoop l (l.labels.length - 1) 1 0 d := fun d => denseLoop_u l _ _ _ d (by omega) (by omega)
    simp only [e2, denseFirst_u l (show 0 < 2 ^ 24 by omega)]

theorem buildDense_u {ls : List Level} (h : AllSmall ls) : U32.buildDense ls = Surf.buildDense ls := by
  induction ls with
  | nil => rfl
  | cons l ls ih =>
    rw [U32.buildDense, Surf.buildDense, buildDenseLevel_u (h l (List.mem_cons_self ..)), ih (fun m hm => h m (List.mem_cons_of_mem _ hm))]

/-! ## Sums -/

theorem foldl_add32 {α : Type} (f g : α → Nat) : ∀ (l : List α) (acc : Nat), (∀ x ∈ l, f x = g x) → acc + (l.map g).sum < 2 ^ 32 →
    l.foldl (fun t x => t ⊞ f x) acc = acc + (l.map g).sum := by
  intro l
  induction l with
  | nil => intro acc _ _; rfl
  | cons a l ih =>
    intro acc hf h
    rw [List.map_cons, List.sum_cons] at h ⊢
    rw [List.foldl_cons, hf a (List.mem_cons_self ..), add_eq (by omega), ih _ (fun x hx => hf x (List.mem_cons_of_mem _ hx)) (by omega)]
    omega

theorem sum32_eq {ns : List Nat} (h : ns.sum < 2 ^ 32) : sum32 ns = ns.sum := by
  have := foldl_add32 (fun x => x) (fun x => x) ns 0 (fun _ _ => rfl) (by simpa using h)
  simpa [sum32] using this

theorem add64_eq {a b : Nat} (h : a + b < 2 ^ 64) : add64 a b = a + b := Nat.mod_eq_of_lt h
theorem mul64_eq {a b : Nat} (h : a * b < 2 ^ 64) : mul64 a b = a * b := Nat.mod_eq_of_lt h

theorem foldl_add64 {α : Type} (f g : α → Nat) : ∀ (l : List α) (acc : Nat), (∀ x ∈ l, g x < 2 ^ 64 → f x = g x) → acc + (l.map g).sum < 2 ^ 64 →
    l.foldl (fun t x => add64 t (f x)) acc = acc + (l.map g).sum := by
  intro l
  induction l with
  | nil => intro acc _ _; rfl
  | cons a l ih =>
    intro acc hf h
    rw [List.map_cons, List.sum_cons] at h ⊢
    rw [List.foldl_cons, hf a (List.mem_cons_self ..) (by omega), add64_eq (by omega), ih _ (fun x hx => hf x (List.mem_cons_of_mem _ hx)) (by omega)]
    omega

theorem sum_take_le {α : Type} (f : α → Nat) (l : List α) (n : Nat) : ((l.take n).map f).sum ≤ (l.map f).sum := by
  conv_rhs => rw [← List.take_append_drop n l, List.map_append, List.sum_append]
  omega

theorem sum_drop_le {α : Type} (f : α → Nat) (l : List α) (n : Nat) : ((l.drop n).map f).sum ≤ (l.map f).sum := by
  conv_rhs => rw [← List.take_append_drop n l, List.map_append, List.sum_append]
  omega

theorem mem_le_sum {ns : List Nat} {n : Nat} (h : n ∈ ns) : n ≤ ns.sum := by
  induction ns with
  | nil => cases h
  | cons a ns ih =>
    rw [List.sum_cons]
    rcases List.mem_cons.mp h with rfl | h
    · omega
    · have := ih h; omega

/-! ## `bitVector.Init` -/

theorem orAt_lt {bs bs' : List Word} {i : Nat} {x : Word} (h : orAt bs i x = some bs') : i < bs.length := by
  obtain ⟨w, h, -⟩ := Option.bind_eq_some_iff.mp h
  exact getElem?_lt h

open BitVector (InitSt)

theorem initWords_u {src : List Word} {st : InitSt} (hb : st.bits.length < 2 ^ 31) (hs : st.bitShift < 64) : ∀ (n : Nat) (st' : InitSt), BitVector.initWords src st n = some st' →
    U32.initWords src st n = some st' ∧ st'.bitShift = st.bitShift := by
  intro n
  induction n with
  | zero => intro st' h; cases h; exact ⟨rfl, rfl⟩
  | succ n ih =>
    intro st' h
    rw [BitVector.initWords] at h
    rw [U32.initWords]
    obtain ⟨s1, h1, h⟩ := Option.bind_eq_some_iff.mp h
    obtain ⟨w, h2, h⟩ := Option.bind_eq_some_iff.mp h
    obtain ⟨bits, h3, h⟩ := Option.bind_eq_some_iff.mp h
    obtain ⟨a1, a2⟩ := ih s1 h1
    have a3 := BitVector.initWords_length _ h1
    have a4 := orAt_lt h3
    have e1 : s1.wordID ⊞ 1 = s1.wordID + 1 := add_eq (by omega)
    have e2 : 64 ⊟ s1.bitShift = 64 - s1.bitShift := sub_eq (by omega) (by omega)
    rw [a1]
    show (do let w ← src[n]?; _) = _ ∧ _
    rw [h2]
    show (do let bits ← orAt s1.bits s1.wordID (w <<< s1.bitShift); _) = _ ∧ _
    rw [h3]
    simp only [Option.bind_eq_bind, Option.bind_some, e1, e2]
    by_cases hc : s1.bitShift > 0
    · rw [if_pos hc] at h ⊢
      refine ⟨h, ?_⟩
      obtain ⟨b2, h4, h⟩ := Option.bind_eq_some_iff.mp h
      cases h; exact a2
    · rw [if_neg hc] at h ⊢
      refine ⟨h, ?_⟩
      cases h; exact a2

theorem initRemain_u {src : List Word} {n : Nat} {st st' : InitSt} (hb : st.bits.length < 2 ^ 31) (hs : st.bitShift < 64) (h : BitVector.initRemain src n st = some st') :
    U32.initRemain src n st = some st' ∧ st'.bitShift < 64 := by
  unfold BitVector.initRemain at h
  unfold U32.initRemain
  dsimp only at h ⊢
  by_cases h0 : n % 64 > 0
  · rw [if_pos h0] at h ⊢
    obtain ⟨w, h2, h⟩ := Option.bind_eq_some_iff.mp h
    obtain ⟨bits, h3, h⟩ := Option.bind_eq_some_iff.mp h
    have a4 := orAt_lt h3
    have e1 : st.wordID ⊞ 1 = st.wordID + 1 := add_eq (by omega)
    have e2 : 64 ⊟ st.bitShift = 64 - st.bitShift := sub_eq (by omega) (by omega)
    have e3 : st.bitShift ⊞ n % 64 = st.bitShift + n % 64 := add_eq (by omega)
    rw [h2]
    show (do let bits ← orAt st.bits st.wordID (w <<< st.bitShift); _) = _ ∧ _
    rw [h3]
    simp only [Option.bind_eq_bind, Option.bind_some, e1, e2, e3]
    by_cases hc : st.bitShift + n % 64 ≤ 64
    · rw [if_pos hc] at h ⊢
      refine ⟨h, ?_⟩
      split at h <;> (cases h; dsimp only; omega)
    · have e4 : st.bitShift + n % 64 ⊟ 64 = st.bitShift + n % 64 - 64 := sub_eq (by omega) (by omega)
      rw [if_neg hc] at h ⊢
      rw [e4]
      refine ⟨h, ?_⟩
      obtain ⟨b2, h4, h⟩ := Option.bind_eq_some_iff.mp h
      cases h; dsimp only; omega
  · rw [if_neg h0] at h ⊢
    refine ⟨h, ?_⟩
    cases h; exact hs

theorem initLevels_u : ∀ (srcs : List (List Word)) (ns : List Nat) (st st' : InitSt), st.bits.length < 2 ^ 31 → st.bitShift < 64 → BitVector.initLevels srcs ns st = some st' →
    U32.initLevels srcs ns st = some st' := by
  intro srcs
  induction srcs with
  | nil => intro ns st st' _ _ h; cases h; cases ns <;> rfl
  | cons s srcs ih =>
    intro ns st st' hb hs h
    cases ns with
    | nil => cases h
    | cons n ns =>
      rw [BitVector.initLevels] at h
      rw [U32.initLevels]
      by_cases h0 : n = 0
      · rw [if_pos h0] at h ⊢
        exact ih _ _ _ hb hs h
      · rw [if_neg h0] at h ⊢
        obtain ⟨s1, h1, h⟩ := Option.bind_eq_some_iff.mp h
        obtain ⟨s2, h2, h⟩ := Option.bind_eq_some_iff.mp h
        have l1 := BitVector.initWords_length _ h1
        have l2 := BitVector.initRemain_length h2
        obtain ⟨a1, a2⟩ := initWords_u hb hs _ _ h1
        obtain ⟨b1, b2⟩ := initRemain_u (by omega) (by omega) h2
        exact Option.bind_eq_some_iff.mpr ⟨s1, a1, Option.bind_eq_some_iff.mpr ⟨s2, b1, ih _ _ _ (by omega) b2 h⟩⟩

theorem init_numBits {a : List (List Word)} {ns : List Nat} {v : BitVector} (h : BitVector.init a ns = some v) : v.numBits = ns.sum := by
  obtain ⟨st, -, h⟩ := Option.bind_eq_some_iff.mp h
  cases h; rfl

theorem bvInit_u {a : List (List Word)} {ns : List Nat} {v : BitVector} (h : BitVector.init a ns = some v) (hn : v.numBits + 2 ^ 10 ≤ 2 ^ 32) : bvInit a ns = some v := by
  have e := init_numBits h
  obtain ⟨st, h1, h⟩ := Option.bind_eq_some_iff.mp h
  cases h
  dsimp only at hn e
  unfold bvInit
  rw [sum32_eq (by omega)]
  have e1 : U32.numWords { numBits := ns.sum } = numWordsOf ns.sum := by
    unfold U32.numWords numWordsOf
    dsimp only
    split
    · exact add_eq (by omega)
    · rfl
  dsimp only
  rw [e1]
  refine Option.bind_eq_some_iff.mpr ⟨st, initLevels_u _ _ _ _ ?_ (by dsimp only; omega) h1, rfl⟩
  dsimp only
  rw [List.length_replicate]
  unfold numWordsOf
  split <;> omega

/-! ## The other `Init`s -/

theorem rankLutLoop_u {bits : List Word} (hb : bits.length ≤ 2 ^ 26) {bs m : Nat} (hbs : bs = 64 ∨ bs = 512) (hm : m < 2 ^ 32) : ∀ (n : Nat) (r : List Nat × Nat),
    RankVector.lutLoop bits bs (bs / 64) n = some r → (∀ x ∈ r.1, x ≤ m) → r.2 ≤ m → rankLutLoop bits bs (bs / 64) n = some r := by
  intro n
  induction n with
  | zero => intro r h _ _; cases h; rfl
  | succ n ih =>
    intro r h hx hr
    rw [RankVector.lutLoop] at h
    rw [rankLutLoop]
    obtain ⟨⟨lut, tot⟩, h1, h⟩ := Option.bind_eq_some_iff.mp h
    dsimp only at h
    obtain ⟨p, h2, h⟩ := Option.bind_eq_some_iff.mp h
    cases h
    dsimp only at hx hr
    have h3 := ih (lut, tot) h1 (fun x h => hx x (List.mem_append_left _ h)) (hx tot (List.mem_append_right _ (List.mem_singleton_self _)))
    obtain ⟨p1, -, p3⟩ := popcountBlock_u hb (n := bs) (by omega) h2
    have p4 := p3 (by omega)
    refine Option.bind_eq_some_iff.mpr ⟨(lut, tot), h3, Option.bind_eq_some_iff.mpr ⟨p, ?_, ?_⟩⟩
    · rw [mul_eq (by omega)]; exact p1
    · rw [add_eq (by omega)]; rfl

theorem rankInit_u {bs : Nat} (hbs : bs = 64 ∨ bs = 512) {a : List (List Word)} {ns : List Nat} {v : RankVector} {m : Nat} (h : RankVector.init bs a ns = some v) (hs : v.Small m)
    (hm : m < 2 ^ 32) : rankInit bs a ns = some v := by
  obtain ⟨bv, h1, h⟩ := Option.bind_eq_some_iff.mp h
  obtain ⟨⟨lut, tot⟩, h2, h⟩ := Option.bind_eq_some_iff.mp h
  cases h
  have hl := hs.lut
  have hn := hs.bv.num
  have hle := hs.bv.le
  dsimp only at hl hn hle
  have hd : bv.numBits / bs ≤ bv.numBits := Nat.div_le_self _ _
  have e1 : ∀ q, q ≤ bv.numBits → q ⊞ 1 ⊟ 1 = q := by
    intro q hq
    rw [add_eq (by omega), sub_eq (by omega) (by omega)]
    omega
  unfold rankInit
  refine Option.bind_eq_some_iff.mpr ⟨bv, bvInit_u h1 hn, ?_⟩
  dsimp only
  rw [e1 _ hd]
  refine Option.bind_eq_some_iff.mpr ⟨(lut, tot), ?_, rfl⟩
  exact rankLutLoop_u hle hbs hm _ _ h2 (fun x hx => hl x (List.mem_append_left _ hx)) (hl tot (List.mem_append_right _ (List.mem_singleton_self _)))

theorem selectInit_u {bmi : Bool} {a : List (List Word)} {ns : List Nat} {v : SelectVector} (h : SelectVector.init bmi a ns = some v) (hn : v.bv.numBits + 2 ^ 10 ≤ 2 ^ 32)
    (h1 : v.numOnes < 2 ^ 32) (h2 : ∀ x ∈ v.selectLut, x < 2 ^ 32) : selectInit bmi a ns = some v := by
  obtain ⟨bv, e1, h⟩ := Option.bind_eq_some_iff.mp h
  obtain ⟨⟨lut, ones⟩, e2, h⟩ := Option.bind_eq_some_iff.mp h
  cases h
  dsimp only at hn h1 h2
  unfold selectInit
  refine Option.bind_eq_some_iff.mpr ⟨bv, bvInit_u e1 hn, Option.bind_eq_some_iff.mpr ⟨(lut, ones), e2, ?_⟩⟩
  have : lut.map u = lut := by
    conv_rhs => rw [← List.map_id lut]
    exact List.map_congr_left (fun x hx => u_eq (h2 x hx))
  simp only [u_eq h1, this]
  rfl

theorem copyAll_u : ∀ (vals : List Bytes) (bs : Bytes) (pos : Nat), pos + vals.flatten.length < 2 ^ 32 → pos + vals.flatten.length ≤ bs.length →
    copyAll vals bs pos = some (bs.take pos ++ vals.flatten ++ bs.drop (pos + vals.flatten.length)) := by
  intro vals
  induction vals with
  | nil => intro bs pos _ _; simp [copyAll]
  | cons v vals ih =>
    intro bs pos h1 h2
    rw [List.flatten_cons, List.length_append] at h1 h2
    rw [copyAll]
    have e0 : copyAt bs pos v = some (bs.take pos ++ (v ++ bs.drop (pos + v.length))) := by
      unfold copyAt sliceFrom
      rw [if_pos (by omega)]
      show some _ = _
      rw [List.take_of_length_le (l := v) (by rw [List.length_drop]; omega), List.drop_drop]
    rw [e0]
    show copyAll vals _ _ = _
    rw [u_eq (by omega), add_eq (by omega), ih _ _ (by omega) (by rw [List.length_append, List.length_append, List.length_take, List.length_drop]; omega)]
    have e1 : (bs.take pos).length = pos := by rw [List.length_take]; omega
    have e2 : (bs.take pos ++ (v ++ bs.drop (pos + v.length))).take (pos + v.length) = bs.take pos ++ v := by
      rw [← List.append_assoc, List.take_left' (by rw [List.length_append, e1])]
    have e3 : (bs.take pos ++ (v ++ bs.drop (pos + v.length))).drop (pos + v.length + vals.flatten.length) = bs.drop (pos + (v.length + vals.flatten.length)) := by
      rw [← List.append_assoc, List.drop_append, List.drop_of_length_le (by rw [List.length_append, e1]; omega), List.nil_append, List.length_append, e1, List.drop_drop]
      congr 1; omega
    rw [e2, e3, List.flatten_cons, List.length_append]
    simp only [List.append_assoc]

theorem flatten_len (l : List Bytes) : (l.map List.length).sum = l.flatten.length := by rw [List.length_flatten]

theorem valueInit_u {vs : List Bytes} {size : Nat} (h : vs.flatten.length < 2 ^ 32) : valueInit vs size = some (ValueVector.init vs size) := by
  unfold valueInit
  rw [copyAll_u _ _ _ (by omega) (by rw [List.length_replicate, flatten_len]; omega), flatten_len]
  show some _ = some _
  unfold ValueVector.init
  simp

theorem labelInit_u {ls : List Bytes} {a b : Nat} (h : ((ls.take b).drop a).flatten.length < 2 ^ 32) : labelInit ls a b = some (LabelVector.init ls a b) := by
  unfold labelInit
  dsimp only
  rw [copyAll_u _ _ _ (by omega) (by rw [List.length_replicate, flatten_len]; omega), flatten_len]
  show some _ = some _
  unfold LabelVector.init
  generalize (List.drop a (List.take b ls)).flatten = x
  simp [List.replicate_succ]

theorem prefixLoop_u : ∀ (ps : List Bytes) (off : Nat) (offs data : Bytes), off + ps.flatten.length < 2 ^ 32 → U32.prefixLoop ps off offs data = PrefixVec.initLoop ps off offs data := by
  intro ps
  induction ps with
  | nil => intros; rfl
  | cons p ps ih =>
    intro off offs data h
    rw [List.flatten_cons, List.length_append] at h
    rw [prefixLoop, PrefixVec.initLoop, u_eq (by omega), add_eq (by omega), ih _ _ _ (by omega)]

theorem prefixInit_u {a : List (List Word)} {ns : List Nat} {ps : List (List Bytes)} {v : PrefixVec} (h : PrefixVec.init a ns ps = some v) (hs : v.Small)
    (hp : ps.flatten.flatten.length < 2 ^ 32) : prefixInit a ns ps = some v := by
  obtain ⟨rv, h1, h⟩ := Option.bind_eq_some_iff.mp h
  cases h
  unfold prefixInit
  refine Option.bind_eq_some_iff.mpr ⟨rv, rankInit_u (Or.inr rfl) h1 hs.has (by omega), ?_⟩
  rw [prefixLoop_u _ _ _ _ (by omega)]
  rfl

end Surf
