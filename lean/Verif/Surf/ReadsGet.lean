import Verif.Surf.Reads
import Verif.Surf.Whole
import Verif.Surf.DistLemmas

/-! How much `Get` reads. -/

set_option linter.unusedSimpArgs false

namespace Surf
namespace Cnt

variable {α β : Type}

/-- As `Tally`, with a bound that depends on the result. -/
def TallyB (m : Cnt α) (o : Option α) (B : α → Nat) : Prop :=
  ∀ c, (o = none → m c = none) ∧ ∀ a, o = some a → ∃ k, k ≤ B a ∧ m c = some (a, c + k)

theorem Tally.all {m : Cnt α} {o : Option α} {B : α → Nat} (h : ∀ N, (∀ a, o = some a → B a ≤ N) → Tally m o N) : TallyB m o B := by
  intro c
  cases o with
  | none => exact ⟨(h 0 (fun a ha => by cases ha) c).1, fun a ha => by cases ha⟩
  | some a =>
    refine ⟨fun h => (by cases h), fun b hb => ?_⟩
    cases hb
    exact (h (B a) (fun b hb => by cases hb; exact Nat.le_refl _) c).2 a rfl

theorem TallyB.const {m : Cnt α} {o : Option α} {N : Nat} (h : TallyB m o (fun _ => N)) : Tally m o N := h

theorem Tally.fn {m : Cnt α} {o : Option α} {N : Nat} {B : α → Nat} (h : Tally m o N) (hB : ∀ a, o = some a → N ≤ B a) : TallyB m o B := by
  intro c
  refine ⟨(h c).1, fun a ha => ?_⟩
  obtain ⟨k, h1, h2⟩ := (h c).2 a ha
  have := hB a ha
  exact ⟨k, by omega, h2⟩

theorem TallyB.bind {m : Cnt α} {o : Option α} {B1 : α → Nat} {B2 : α → β → Nat} {B : β → Nat} {f : α → Cnt β} {g : α → Option β} (h : TallyB m o B1)
    (hf : ∀ a, o = some a → TallyB (f a) (g a) (B2 a)) (hK : ∀ a b, o = some a → g a = some b → B1 a + B2 a b ≤ B b) : TallyB (m >>= f) (o >>= g) B := by
  intro c
  cases o with
  | none =>
    have e : (m >>= f) c = none := by
      show (StateT.bind m f) c = none
      unfold StateT.bind
      rw [(h c).1 rfl]
      rfl
    exact ⟨fun _ => e, fun a ha => by cases ha⟩
  | some a =>
    obtain ⟨k, h1, h2⟩ := (h c).2 a rfl
    have hb := hf a rfl (c + k)
    have e : (m >>= f) c = f a (c + k) := by
      show (StateT.bind m f) c = _
      unfold StateT.bind
      rw [h2]
      rfl
    rw [e]
    refine ⟨hb.1, fun b hbb => ?_⟩
    obtain ⟨k', h3, h4⟩ := hb.2 b hbb
    have := hK a b rfl hbb
    exact ⟨k + k', by omega, by rw [h4, Nat.add_assoc]⟩

theorem tallyB_ite {p : Prop} [Decidable p] {m m' : Cnt α} {o o' : Option α} {B : α → Nat} (h : p → TallyB m o B) (h' : ¬ p → TallyB m' o' B) : TallyB (if p then m else m') (if p then o else o') B := by
  split
  · next x => exact h x
  · next x => exact h' x

theorem tallyB_pure (a : α) (B : α → Nat) : TallyB (pure a : Cnt α) (some a) B := fun c => ⟨fun h => (by cases h), fun b hb => by cases hb; exact ⟨0, Nat.zero_le _, rfl⟩⟩

theorem checkPrefix_le {v : PrefixVec} {key : Bytes} {depth id l : Nat} {b : Bool} (hd : depth ≤ key.length) (h : v.checkPrefix key depth id = some (l, b)) : depth + l ≤ key.length := by
  unfold PrefixVec.checkPrefix at h
  obtain ⟨pre, -, h⟩ := Option.bind_eq_some_iff.mp h
  have h : (if pre.length = 0 then some (0, true) else if depth + pre.length > key.length then some (0, false) else do
      let sub ← slice key depth (depth + pre.length)
      if sub ≠ pre then some (0, false) else some (pre.length, true)) = some (l, b) := h
  split at h
  · cases h; omega
  · split at h
    · cases h; omega
    · obtain ⟨sub, -, h⟩ := Option.bind_eq_some_iff.mp h
      split at h <;> cases h <;> omega

/-- The reads of `CheckPrefix`, by its result. -/
def prefixReads (key : Bytes) (depth : Nat) (r : Nat × Bool) : Nat := 12 + (if r.2 then r.1 else key.length - depth)

theorem tallyB_checkPrefix (v : PrefixVec) (key : Bytes) (depth id : Nat) : TallyB (checkPrefix v key depth id) (v.checkPrefix key depth id) (prefixReads key depth) :=
  Tally.all (fun N hN => tally_checkPrefix _ _ _ _ _ (fun l b h => hN (l, b) h))

/-! ### The dense levels -/

/-- Does `Get` go on in the sparse levels? -/
def goesOn (r : LoudsDense.GetRes) : Bool := r.ok && decide (0 ≤ r.sparseNode)

def denseReads (key : Bytes) (depth : Nat) (r : LoudsDense.GetRes) : Nat := if goesOn r then 26 * (r.depth - depth) else 26 * (key.length - depth) + 26

theorem getAt_inl {fp : Bytes → Word} {ld : LoudsDense} {key : Bytes} {depth id : Nat} {r : LoudsDense.GetRes} (h : ld.getAt fp key depth id = some (.inl r)) : goesOn r = false := by
  unfold LoudsDense.getAt at h
  dsimp only at h
  split at h
  · obtain ⟨p, -, h⟩ := Option.bind_eq_some_iff.mp h
    split at h
    · obtain ⟨vp, -, h⟩ := Option.bind_eq_some_iff.mp h
      obtain ⟨x, -, h⟩ := Option.bind_eq_some_iff.mp h
      cases h
      simp [goesOn]
    · cases h; simp [goesOn]
  · obtain ⟨c, -, h⟩ := Option.bind_eq_some_iff.mp h
    obtain ⟨l, -, h⟩ := Option.bind_eq_some_iff.mp h
    split at h
    · cases h; simp [goesOn]
    · obtain ⟨b, -, h⟩ := Option.bind_eq_some_iff.mp h
      split at h
      · obtain ⟨vp, -, h⟩ := Option.bind_eq_some_iff.mp h
        obtain ⟨x, -, h⟩ := Option.bind_eq_some_iff.mp h
        cases h
        simp [goesOn]
      · cases h

theorem getAt_inr {fp : Bytes → Word} {ld : LoudsDense} {key : Bytes} {depth id pos : Nat} (h : ld.getAt fp key depth id = some (.inr pos)) : depth < key.length := by
  unfold LoudsDense.getAt at h
  dsimp only at h
  split at h
  · obtain ⟨p, -, h⟩ := Option.bind_eq_some_iff.mp h
    split at h
    · obtain ⟨vp, -, h⟩ := Option.bind_eq_some_iff.mp h
      obtain ⟨x, -, h⟩ := Option.bind_eq_some_iff.mp h
      cases h
    · cases h
  · omega

theorem getLoop_depth {fp : Bytes → Word} {ld : LoudsDense} {key : Bytes} : ∀ {n depth id : Nat} {r : LoudsDense.GetRes}, depth ≤ key.length → ld.getLoop fp key n depth id = some r → goesOn r = true →
    depth ≤ r.depth ∧ r.depth ≤ key.length := by
  intro n
  induction n with
  | zero => intro depth id r hd h _; cases h; exact ⟨Nat.le_refl _, hd⟩
  | succ n ih =>
    intro depth id r hd h hr
    unfold LoudsDense.getLoop at h
    obtain ⟨⟨l, ok⟩, hp, h⟩ := Option.bind_eq_some_iff.mp h
    have hl := checkPrefix_le hd hp
    dsimp only at h
    split at h
    · cases h; simp [goesOn] at hr
    · obtain ⟨x, hx, h⟩ := Option.bind_eq_some_iff.mp h
      cases x with
      | inl r' =>
        cases h
        rw [getAt_inl hx] at hr
        cases hr
      | inr pos =>
        obtain ⟨ch, -, h⟩ := Option.bind_eq_some_iff.mp h
        have hlt := getAt_inr hx
        have := ih (by omega) h hr
        omega

theorem tally_dGetLoop (fp : Bytes → Word) (ld : LoudsDense) (key : Bytes) : ∀ (n depth id : Nat), depth ≤ key.length → TallyB (dGetLoop fp ld key n depth id) (ld.getLoop fp key n depth id) (denseReads key depth) := by
  intro n
  induction n with
  | zero => intro depth id _; exact tallyB_pure _ _
  | succ n ih =>
    intro depth id hd
    unfold dGetLoop LoudsDense.getLoop
    refine TallyB.bind (B2 := fun a b => denseReads key depth b - prefixReads key depth a) (tallyB_checkPrefix _ _ _ _) (fun a ha => ?_) (fun a b ha hb => ?_)
    · obtain ⟨l, ok⟩ := a
      dsimp only
      refine tallyB_ite (fun _ => tallyB_pure _ _) (fun hok => ?_)
      have hl := checkPrefix_le hd ha
      have hok : ok = true := by simpa using hok
      refine TallyB.bind (B1 := fun _ => 12) (B2 := fun x b => denseReads key depth b - prefixReads key depth (l, ok) - 12) (tally_dGetAt _ _ _ _ _) (fun x hx => ?_) (fun x b hx hb => ?_)
      · cases x with
        | inl r => exact tallyB_pure _ _
        | inr pos =>
          have hlt := getAt_inr hx
          refine TallyB.bind (B1 := fun _ => 2) (tally_rankDense _ _) (fun ch _ => ih _ _ (by omega)) (fun ch b _ hb => ?_)
          have hdep := getLoop_depth (fp := fp) (ld := ld) (key := key) (n := n) (depth := depth + l + 1) (id := ch) (r := b) (by omega) hb
          unfold denseReads prefixReads
          rw [hok]
          simp only [if_true]
          cases hg : goesOn b with
          | true => have := hdep hg; simp only [if_true]; omega
          | false => simp only [Bool.false_eq_true, if_false]; omega
      · suffices prefixReads key depth (l, ok) + 12 ≤ denseReads key depth b by omega
        unfold denseReads prefixReads
        rw [hok]
        simp only [if_true]
        cases x with
        | inl r =>
          cases hb
          rw [getAt_inl hx]
          simp only [Bool.false_eq_true, if_false]
          omega
        | inr pos =>
          have hlt := getAt_inr hx
          obtain ⟨ch, -, hb⟩ := Option.bind_eq_some_iff.mp hb
          have hdep := getLoop_depth (fp := fp) (ld := ld) (key := key) (n := n) (depth := depth + l + 1) (id := ch) (r := b) (by omega) hb
          cases hg : goesOn b with
          | true => have := hdep hg; simp only [if_true]; omega
          | false => simp only [Bool.false_eq_true, if_false]; omega
    · suffices prefixReads key depth a ≤ denseReads key depth b by omega
      obtain ⟨l, ok⟩ := a
      have hl := checkPrefix_le hd ha
      dsimp only at hb
      split at hb
      · next hok =>
        cases hb
        unfold denseReads prefixReads
        have hok : ok = false := by simpa using hok
        simp only [hok, goesOn, Bool.false_and, Bool.false_eq_true, if_false]
        omega
      · next hok =>
        have hok : ok = true := by simpa using hok
        obtain ⟨x, hx, hb⟩ := Option.bind_eq_some_iff.mp hb
        unfold denseReads prefixReads
        rw [hok]
        simp only [if_true]
        cases x with
        | inl r =>
          cases hb
          rw [getAt_inl hx]
          simp only [Bool.false_eq_true, if_false]
          omega
        | inr pos =>
          have hlt := getAt_inr hx
          obtain ⟨ch, -, hb⟩ := Option.bind_eq_some_iff.mp hb
          have hdep := getLoop_depth (fp := fp) (ld := ld) (key := key) (n := n) (depth := depth + l + 1) (id := ch) (r := b) (by omega) hb
          cases hg : goesOn b with
          | true => have := hdep hg; simp only [if_true]; omega
          | false => simp only [Bool.false_eq_true, if_false]; omega

/-! ### The sparse levels -/

/-- The set bits of the LOUDS vector lie close together. -/
structure Close (ls : LoudsSparse) : Prop where
  sel : ∀ bmi rank pos p, ls.loudsVec.selectLut[rank / 64]? = some pos → ls.loudsVec.select bmi rank = some p → p ≤ pos + 63 * 257
  dist : ∀ pos d, ls.nodeSize pos = some d → d ≤ 257

theorem Close.tally_select {ls : LoudsSparse} (h : Close ls) (bmi : Bool) (rank : Nat) : Tally (select bmi ls.loudsVec rank) (ls.loudsVec.select bmi rank) 255 :=
  (Cnt.tally_select bmi ls.loudsVec rank (63 * 257) (fun pos p h1 h2 => h.sel bmi rank pos p h1 h2)).less (by omega)

theorem Close.tally_first {ls : LoudsSparse} (h : Close ls) (bmi : Bool) (id : Nat) : Tally (firstLabelPos bmi ls id) (ls.firstLabelPos bmi id) 255 :=
  (tally_free _).bind (fun _ _ => h.tally_select _ _) (by omega)

theorem Close.tally_size {ls : LoudsSparse} (h : Close ls) (pos : Nat) : Tally (distanceToNextSetBit ls.loudsVec.bv pos) (ls.nodeSize pos) 5 :=
  tally_dist _ _ 4 (fun d hd => by have := h.dist pos d hd; omega)

theorem tally_sFinish (fp : Bytes → Word) (ls : LoudsSparse) (key : Bytes) (depth pos : Nat) : Tally (sFinish fp ls key depth pos) (ls.finish fp key depth pos) 11 :=
  Tally.bind (N := 9) ((tally_rankSparse _ _).bind (fun _ _ => tally_free _) (Nat.le_refl _)) (M := 2) (fun _ _ => (tally_checkEquality _ _ _ _ _).bind (M := 0) (fun _ _ =>
    tally_ite (fun _ => (tally_free _).bind (fun _ _ => tally_pure _ 0) (Nat.le_refl _)) (fun _ => tally_pure _ _)) (Nat.le_refl _)) (Nat.le_refl _)

theorem tally_sGetTail (fp : Bytes → Word) (ls : LoudsSparse) (key : Bytes) (depth pos : Nat) : Tally (sGetTail fp ls key depth pos) (ls.getTail fp key depth pos) 13 :=
  (tally_rd 1 _).bind (M := 12) (fun _ _ => tally_ite (fun _ => (tally_isSet _ _).bind (M := 11) (fun _ _ => tally_ite (fun _ => tally_sFinish _ _ _ _ _) (fun _ => tally_pure _ _)) (by omega))
    (fun _ => tally_pure _ _)) (by omega)

theorem Close.tally_loop {ls : LoudsSparse} (hc : Close ls) (fp : Bytes → Word) (bmi : Bool) (key : Bytes) : ∀ (fuel depth id pos : Nat), depth ≤ key.length →
    Tally (sGetLoop fp bmi ls key fuel depth id pos) (ls.getLoop fp bmi key fuel depth id pos) (541 * (key.length - depth) + 13) := by
  intro fuel
  induction fuel with
  | zero => intro depth id pos _; exact tally_none _
  | succ fuel ih =>
    intro depth id pos hd
    unfold sGetLoop LoudsSparse.getLoop
    refine tally_ite (fun hlt => ?_) (fun _ => (tally_sGetTail _ _ _ _ _).less (by omega))
    refine (tally_free _).bind (M := 541 * (key.length - depth) + 13) (fun pid _ => ?_) (by omega)
    refine TallyB.bind (B2 := fun a _ => 541 * (key.length - depth) + 13 - prefixReads key depth a) (tallyB_checkPrefix _ _ _ _) (fun a ha => ?_) (fun a b ha _ => ?_)
    · obtain ⟨l, ok⟩ := a
      dsimp only
      have hl := checkPrefix_le hd ha
      refine tallyB_ite (fun _ => tallyB_pure _ _) (fun hok => ?_)
      have hok : ok = true := by simpa using hok
      have hr : prefixReads key depth (l, ok) = 12 + l := by simp [prefixReads, hok]
      rw [hr]
      refine tallyB_ite (fun hge => ?_) (fun hge => ?_)
      · exact (tally_sGetTail _ _ _ _ _).less (by omega)
      · refine Tally.less (N := 541 * (key.length - (depth + l)) + 13 - 12) ?_ (by omega)
        refine (tally_free _).bind (M := 541 * (key.length - (depth + l)) + 1) (fun c _ => ?_) (by omega)
        refine (hc.tally_size _).bind (M := 541 * (key.length - (depth + l)) + 1 - 5) (fun sz hsz => ?_) (by omega)
        have hsz := hc.dist _ _ hsz
        refine ((tally_search _ _ _ _).less (show _ ≤ 258 by omega)).bind (M := 541 * (key.length - (depth + l)) + 1 - 5 - 258) (fun r _ => ?_) (by omega)
        obtain ⟨p, ok'⟩ := r
        refine tally_ite (fun _ => tally_pure _ _) (fun _ => ?_)
        refine (tally_isSet _ _).bind (M := 541 * (key.length - (depth + l)) + 1 - 5 - 258 - 1) (fun b _ => tally_ite (fun _ => (tally_sFinish _ _ _ _ _).less (by omega)) (fun _ => ?_)) (by omega)
        refine Tally.bind (N := 9) ((tally_rankSparse _ _).bind (fun _ _ => tally_pure _ 0) (Nat.le_refl _)) (M := 541 * (key.length - (depth + l)) + 1 - 5 - 258 - 1 - 9) (fun id' _ => ?_) (by omega)
        refine (hc.tally_first _ _).bind (fun pos' _ => ih _ _ _ (by omega)) (by omega)
    · suffices prefixReads key depth a ≤ 541 * (key.length - depth) + 13 by omega
      obtain ⟨l, ok⟩ := a
      have hl := checkPrefix_le hd ha
      unfold prefixReads
      dsimp only
      split <;> omega

theorem Close.tally_get {s : SuRF} (hc : Close s.ls) (fp : Bytes → Word) (bmi : Bool) (key : Bytes) : Tally (get fp bmi s key) (s.get fp bmi key) (541 * key.length + 268) := by
  unfold get SuRF.get
  refine TallyB.bind (B2 := fun a _ => 541 * key.length + 268 - denseReads key 0 a) (tally_dGetLoop fp s.ld key _ 0 0 (Nat.zero_le _)) (fun r hr => ?_) (fun r b hr _ => ?_)
  · refine tallyB_ite (fun _ => tallyB_pure _ _) (fun hgo => ?_)
    have hg : goesOn r = true := by
      unfold goesOn
      cases hok : r.ok <;> simp_all
    have hdep := getLoop_depth (Nat.zero_le _) hr hg
    refine Tally.less (N := 255 + (541 * (key.length - r.depth) + 13)) ((hc.tally_first _ _).bind (fun pos _ => hc.tally_loop fp bmi key _ _ _ _ hdep.2) (Nat.le_refl _)) ?_
    unfold denseReads
    rw [hg]
    simp only [if_true]
    omega
  · suffices denseReads key 0 r ≤ 541 * key.length + 268 by omega
    unfold denseReads
    split
    · next hg => have hdep := getLoop_depth (Nat.zero_le _) hr hg; omega
    · omega

end Cnt
end Surf
