import Verif.Surf.MarshalLemmas
import Verif.Surf.RankLemmas

/-! Every filter that `Build` returns has the structure the round trip of `Marshal` needs (word counts, table lengths). -/

set_option linter.unusedSimpArgs false

namespace Surf

/-! ### Lengths -/

theorem orAt_length {bs bs' : List Word} {i : Nat} {x : Word} (h : orAt bs i x = some bs') : bs'.length = bs.length := by
  simp only [orAt, Option.bind_eq_bind, Option.bind_eq_some_iff, Option.pure_def, Option.some.injEq] at h
  obtain ⟨w, _, rfl⟩ := h
  simp

namespace BitVector

theorem initWords_length {src : List Word} {st : InitSt} (n : Nat) : ∀ {st' : InitSt},
    initWords src st n = some st' → st'.bits.length = st.bits.length := by
  induction n with
  | zero => intro st' h; simp only [initWords, Option.some.injEq] at h; rw [h]
  | succ n ih =>
    intro st' h
    simp only [initWords, Option.bind_eq_bind, Option.bind_eq_some_iff] at h
    obtain ⟨st1, h1, w, _, bits, h2, h3⟩ := h
    have e1 := ih h1
    have e2 := orAt_length h2
    split at h3
    · simp only [Option.bind_eq_some_iff, Option.pure_def, Option.some.injEq] at h3
      obtain ⟨b2, h4, rfl⟩ := h3
      have e3 := orAt_length h4
      simp only; omega
    · simp only [Option.pure_def, Option.some.injEq] at h3
      subst h3; simp only; omega

theorem initRemain_length {src : List Word} {n : Nat} {st st' : InitSt} (h : initRemain src n st = some st') :
    st'.bits.length = st.bits.length := by
  unfold initRemain at h
  dsimp only at h
  split at h
  · simp only [Option.bind_eq_bind, Option.bind_eq_some_iff] at h
    obtain ⟨w, _, bits, h2, h3⟩ := h
    have e2 := orAt_length h2
    split at h3
    · split at h3 <;> (simp only [Option.pure_def, Option.some.injEq] at h3; subst h3; exact e2)
    · simp only [Option.bind_eq_some_iff, Option.pure_def, Option.some.injEq] at h3
      obtain ⟨b2, h4, rfl⟩ := h3
      have e3 := orAt_length h4
      simp only; omega
  · simp only [Option.some.injEq] at h; rw [h]

theorem initLevels_length (srcs : List (List Word)) : ∀ {ns : List Nat} {st st' : InitSt},
    initLevels srcs ns st = some st' → st'.bits.length = st.bits.length := by
  induction srcs with
  | nil => intro ns st st' h; simp only [initLevels, Option.some.injEq] at h; rw [h]
  | cons s srcs ih =>
    intro ns st st' h
    cases ns with
    | nil => simp [initLevels] at h
    | cons n ns =>
      simp only [initLevels] at h
      split at h
      · exact ih h
      · simp only [Option.bind_eq_bind, Option.bind_eq_some_iff] at h
        obtain ⟨s1, h1, s2, h2, h3⟩ := h
        rw [ih h3, initRemain_length h2, initWords_length _ h1]

theorem init_length {srcs : List (List Word)} {ns : List Nat} {v : BitVector} (h : init srcs ns = some v) :
    v.bits.length = numWordsOf v.numBits := by
  simp only [init, Option.bind_eq_bind, Option.bind_eq_some_iff, Option.pure_def, Option.some.injEq] at h
  obtain ⟨st, h1, rfl⟩ := h
  have := initLevels_length _ h1
  simpa using this

end BitVector

theorem RankVector.lutLoop_length {bits : List Word} {bs wpb : Nat} (n : Nat) : ∀ {r : List Nat × Nat},
    RankVector.lutLoop bits bs wpb n = some r → r.1.length = n := by
  induction n with
  | zero => intro r h; simp only [lutLoop, Option.some.injEq] at h; subst h; rfl
  | succ n ih =>
    intro r h
    simp only [lutLoop, Option.bind_eq_bind, Option.bind_eq_some_iff, Option.pure_def, Option.some.injEq] at h
    obtain ⟨r1, h1, p, _, rfl⟩ := h
    have := ih h1
    simp [this]

theorem RankVector.init_struct {bs : Nat} {srcs : List (List Word)} {ns : List Nat} {v : RankVector}
    (h : RankVector.init bs srcs ns = some v) :
    v.bv.bits.length = numWordsOf v.bv.numBits ∧ v.blockSize = bs ∧
      v.rankLut.length = v.bv.numBits / v.blockSize + 1 := by
  simp only [init, Option.bind_eq_bind, Option.bind_eq_some_iff, Option.pure_def, Option.some.injEq] at h
  obtain ⟨bv, h1, r, h2, rfl⟩ := h
  have := lutLoop_length _ h2
  exact ⟨BitVector.init_length h1, rfl, by simp [this]⟩

theorem SelectVector.sampleLoop_struct (bmi : Bool) (w : Word) (i u o : Nat) (lut : List Nat) (s : Nat)
    (hs : s = 64 * lut.length) (hu : s ≤ u + o + 64) : ∀ {r : List Nat × Nat},
    SelectVector.sampleLoop bmi w i u o lut s = some r → r.2 = 64 * r.1.length ∧ u + o < r.2 ∧ r.2 ≤ u + o + 64 := by
  fun_induction SelectVector.sampleLoop bmi w i u o lut s with
  | case1 lut s hle ih =>
    intro r h
    simp only [Option.bind_eq_bind, Option.bind_eq_some_iff] at h
    obtain ⟨d, _, x, _, h3⟩ := h
    exact ih _ (by simp only [selectSampleInterval, List.length_append, List.length_singleton]; omega)
      (by simp only [selectSampleInterval]; omega) h3
  | case2 lut s hle =>
    intro r h
    simp only [Option.some.injEq] at h
    subst h
    exact ⟨hs, by simp only; omega, hu⟩

theorem SelectVector.lutLoop_struct (bmi : Bool) (ws : List Word) : ∀ (i u : Nat) (lut : List Nat) (s : Nat)
    (_ : s = 64 * lut.length) (_ : u < s) (_ : s ≤ u + 64) {r : List Nat × Nat},
    SelectVector.lutLoop bmi ws i u lut s = some r → r.1.length = r.2 / 64 + 1 := by
  induction ws with
  | nil =>
    intro i u lut s hs h1 h2 r h
    simp only [lutLoop, Option.some.injEq] at h
    subst h
    simp only; omega
  | cons w ws ih =>
    intro i u lut s hs h1 h2 r h
    simp only [lutLoop, Option.bind_eq_bind, Option.bind_eq_some_iff] at h
    obtain ⟨r1, h3, h4⟩ := h
    have := sampleLoop_struct bmi w i u (onesCount w) lut s hs (by omega) h3
    exact ih _ _ _ _ this.1 this.2.1 this.2.2 h4

theorem SelectVector.init_struct {bmi : Bool} {srcs : List (List Word)} {ns : List Nat} {v : SelectVector}
    (h : SelectVector.init bmi srcs ns = some v) :
    v.bv.bits.length = numWordsOf v.bv.numBits ∧ v.selectLut.length = v.numOnes / 64 + 1 := by
  simp only [init, Option.bind_eq_bind, Option.bind_eq_some_iff, Option.pure_def, Option.some.injEq] at h
  obtain ⟨bv, h1, r, h2, rfl⟩ := h
  exact ⟨BitVector.init_length h1, lutLoop_struct bmi _ 0 0 [0] selectSampleInterval rfl (by decide) (by decide) h2⟩

theorem PrefixVec.init_struct {a : List (List Word)} {b : List Nat} {c : List (List Bytes)} {v : PrefixVec}
    (h : PrefixVec.init a b c = some v) :
    v.hasPrefixVec.bv.bits.length = numWordsOf v.hasPrefixVec.bv.numBits ∧ v.hasPrefixVec.blockSize = 512 ∧
      v.hasPrefixVec.rankLut.length = v.hasPrefixVec.bv.numBits / v.hasPrefixVec.blockSize + 1 := by
  simp only [init, Option.bind_eq_bind, Option.bind_eq_some_iff, Option.pure_def, Option.some.injEq] at h
  obtain ⟨r, h1, rfl⟩ := h
  exact RankVector.init_struct h1

theorem initSuffixes_struct {cfg : Config} {ls : List Level} {v : SuffixVector} (h : initSuffixes cfg ls = some v) :
    v.bv.bits.length = numWordsOf v.bv.numBits ∧ (v.suffixType = .none → v.bv.bits = []) := by
  unfold initSuffixes at h
  split at h
  · rename_i hne
    simp only [SuffixVector.init, Option.bind_eq_bind, Option.bind_eq_some_iff, Option.pure_def, Option.some.injEq] at h
    obtain ⟨bv, h1, rfl⟩ := h
    exact ⟨BitVector.init_length h1, fun h => absurd h hne⟩
  · simp only [Option.some.injEq] at h
    subst h
    exact ⟨rfl, fun _ => rfl⟩

/-! ### Numbers fit 32 bits -/

/-- All numbers of the vector fit 32 bits. -/
def RankVector.Fits (v : RankVector) : Prop :=
  v.bv.numBits < 2 ^ 32 ∧ v.blockSize < 2 ^ 32 ∧ ∀ n ∈ v.rankLut, n < 2 ^ 32
/-- All numbers of the vector fit 32 bits. -/
def SelectVector.Fits (v : SelectVector) : Prop :=
  v.bv.numBits < 2 ^ 32 ∧ v.numOnes < 2 ^ 32 ∧ ∀ n ∈ v.selectLut, n < 2 ^ 32
/-- All numbers of the vector fit 32 bits. -/
def PrefixVec.Fits (v : PrefixVec) : Prop :=
  v.hasPrefixVec.Fits ∧ v.prefixOffsets.length < 2 ^ 32 ∧ v.prefixData.length < 2 ^ 32
/-- All numbers of the vector fit 32 bits. -/
def SuffixVector.Fits (v : SuffixVector) : Prop :=
  v.bv.numBits < 2 ^ 32 ∧ v.hashSuffixLen < 2 ^ 32 ∧ v.realSuffixLen < 2 ^ 32
/-- All numbers of the filter fit 32 bits: every `uint32` field of the Go structs can hold its value. -/
structure SuRF.Fits (s : SuRF) : Prop where
  dh : s.ld.height < 2 ^ 32
  dl : s.ld.labelVec.Fits
  dhc : s.ld.hasChildVec.Fits
  dip : s.ld.isPrefixVec.Fits
  dsuf : s.ld.suffixes.Fits
  dpre : s.ld.prefixVec.Fits
  dval : s.ld.values.Ok
  sh : s.ls.height < 2 ^ 32
  ssl : s.ls.startLevel < 2 ^ 32
  sdn : s.ls.denseNodeCount < 2 ^ 32
  sdc : s.ls.denseChildCount < 2 ^ 32
  sl : s.ls.labelVec.Ok
  shc : s.ls.hasChildVec.Fits
  slo : s.ls.loudsVec.Fits
  ssuf : s.ls.suffixes.Fits
  spre : s.ls.prefixVec.Fits
  sval : s.ls.values.Ok

theorem RankVector.ok_of {v : RankVector} {bs : Nat} (hbs : 0 < bs) (h : v.bv.bits.length = numWordsOf v.bv.numBits ∧
    v.blockSize = bs ∧ v.rankLut.length = v.bv.numBits / v.blockSize + 1) (hf : v.Fits) : v.Ok :=
  ⟨h.1, hf.1, by have := h.2.1; omega, hf.2.1, h.2.2, hf.2.2⟩

theorem LoudsDense.init_ok {cfg : Config} {all : List Level} {ds : List DenseLevel} {h : Nat} {v : LoudsDense}
    (e : LoudsDense.init cfg all ds h = some v) (f1 : v.height < 2 ^ 32) (f2 : v.labelVec.Fits) (f3 : v.hasChildVec.Fits)
    (f4 : v.isPrefixVec.Fits) (f5 : v.suffixes.Fits) (f6 : v.prefixVec.Fits) (f7 : v.values.Ok) : v.Ok := by
  simp only [LoudsDense.init, Option.bind_eq_bind, Option.bind_eq_some_iff, Option.pure_def, Option.some.injEq] at e
  obtain ⟨lv, h1, hc, h2, ip, h3, su, h4, pv, h5, rfl⟩ := e
  have hs := initSuffixes_struct h4
  exact ⟨f1, RankVector.ok_of (by decide) (RankVector.init_struct h1) f2,
    RankVector.ok_of (by decide) (RankVector.init_struct h2) f3, RankVector.ok_of (by decide) (RankVector.init_struct h3) f4,
    ⟨hs.1, f5.1, f5.2.1, f5.2.2, hs.2⟩, ⟨RankVector.ok_of (by decide) (PrefixVec.init_struct h5) f6.1, f6.2.1, f6.2.2⟩, f7⟩

theorem LoudsSparse.init_ok {bmi : Bool} {cfg : Config} {all : List Level} {st : Nat} {v : LoudsSparse}
    (e : LoudsSparse.init bmi cfg all st = some v) (f1 : v.height < 2 ^ 32) (g1 : v.startLevel < 2 ^ 32)
    (g2 : v.denseNodeCount < 2 ^ 32) (g3 : v.denseChildCount < 2 ^ 32) (f2 : v.labelVec.Ok) (f3 : v.hasChildVec.Fits)
    (f4 : v.loudsVec.Fits) (f5 : v.suffixes.Fits) (f6 : v.prefixVec.Fits) (f7 : v.values.Ok) : v.Ok := by
  simp only [LoudsSparse.init, Option.bind_eq_bind, Option.bind_eq_some_iff, Option.pure_def, Option.some.injEq] at e
  obtain ⟨dc, h0, hc, h2, lo, h3, su, h4, pv, h5, rfl⟩ := e
  have hs := initSuffixes_struct h4
  have hl := SelectVector.init_struct h3
  exact ⟨f1, g1, g2, g3, f2, RankVector.ok_of (by decide) (RankVector.init_struct h2) f3,
    ⟨hl.1, f4.1, f4.2.1, hl.2, f4.2.2⟩,
    ⟨hs.1, f5.1, f5.2.1, f5.2.2, hs.2⟩, ⟨RankVector.ok_of (by decide) (PrefixVec.init_struct h5) f6.1, f6.2.1, f6.2.2⟩, f7⟩

/-- Every filter returned by `Build` whose numbers fit 32 bits can be marshalled and restored. -/
theorem build_ok {fp : Bytes → Word} {bmi : Bool} {cfg : Config} {keys vals : List Bytes} {hint : Int} {s : SuRF}
    (h : build fp bmi cfg keys vals hint = some s) (hf : s.Fits) : s.Ok := by
  simp only [build, assemble, Option.bind_eq_bind, Option.bind_eq_some_iff, Option.pure_def, Option.some.injEq] at h
  obtain ⟨lv, h1, ds, h2, _, _, ld, h4, ls, h5, rfl⟩ := h
  exact ⟨LoudsDense.init_ok h4 hf.dh hf.dl hf.dhc hf.dip hf.dsuf hf.dpre hf.dval,
    LoudsSparse.init_ok h5 hf.sh hf.ssl hf.sdn hf.sdc hf.sl hf.shc hf.slo hf.ssuf hf.spre hf.sval⟩

end Surf
