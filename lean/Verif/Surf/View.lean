import Verif.Surf.LevelRep
import Verif.Surf.Louds

/-! What the vectors of a filter hold, and what the operations on them return. -/

set_option linter.unusedSimpArgs false

namespace Surf

/-! ### Rank vectors -/

/-- A rank vector with the bits `A` (and zeros behind). -/
structure RV (v : RankVector) (bs : Nat) (A : List Bool) (extra : Nat) : Prop where
  wf : v.WF
  block : v.blockSize = bs
  holds : Holds v.bv.bits A
  num : v.bv.numBits = A.length + extra

theorem rv_init {α : Type} (bs : Nat) (hbs : bs = 64 ∨ bs = 512) (L : List α) (f : α → List Word) (g : α → List Bool)
    (h : ∀ l ∈ L, Holds (f l) (g l)) (extra : List Nat) :
    ∃ v, RankVector.init bs (L.map f) (L.map (fun l => (g l).length) ++ extra) = some v ∧ RV v bs (L.flatMap g) extra.sum := by
  obtain ⟨bv, h1, h2, h3, h4⟩ := BitVector.init_holds L f g h extra
  obtain ⟨v, hv⟩ := RankVector.init_total bs _ _ bv h1 h3 (by rcases hbs with rfl | rfl <;> rfl)
  obtain ⟨w1, w2, w3⟩ := RankVector.init_wf bs _ _ v bv h1 h3 (by rcases hbs with rfl | rfl <;> rfl) (by omega) hv
  refine ⟨v, hv, w1, w3, by rw [w2]; exact h4, by rw [w2]; exact h2⟩

theorem Holds.take_le {ws : List Word} {A : List Bool} (h : Holds ws A) {n : Nat} (hn : n ≤ A.length) : (bitsOf ws).take n = A.take n := by
  have := h.take
  rw [← this, List.take_take, Nat.min_eq_left hn]

theorem Holds.ones {ws : List Word} {A : List Bool} (h : Holds ws A) : Surf.ones (bitsOf ws) = Surf.ones A := by
  rw [h.bitsOf_eq]
  unfold Surf.ones
  rw [List.count_append, List.count_replicate]
  simp

theorem RV.isSet {v : RankVector} {bs : Nat} {A : List Bool} {e : Nat} (h : RV v bs A e) {p : Nat} (hp : p < A.length) : v.bv.isSet p = some A[p] := by
  unfold BitVector.isSet
  exact h.holds.readBit p hp

theorem RV.rankDense {v : RankVector} {A : List Bool} {e : Nat} (h : RV v 64 A e) {p : Nat} (hp : p < A.length) :
    v.rankDense p = some (ones (A.take (p + 1))) := by
  rw [RankVector.rankDense_spec v h.wf h.block p (by rw [h.num]; omega), h.holds.take_le (by omega)]

theorem RV.rankSparse {v : RankVector} {A : List Bool} {e : Nat} (h : RV v 512 A e) {p : Nat} (hp : p < A.length) :
    v.rankSparse p = some (ones (A.take (p + 1))) := by
  rw [RankVector.rankSparse_spec v h.wf h.block p (by rw [h.num]; omega), h.holds.take_le (by omega)]

/-! ### Prefixes -/

/-- A prefix vector of the nodes `ns`. -/
structure PV (v : PrefixVec) (ns : List Grp) : Prop where
  rv : RV v.hasPrefixVec 512 (ns.map (fun t => !t.pre.isEmpty)) 0
  wf : v.WF ((ns.map Grp.pre).filter (fun p => !p.isEmpty))

theorem filter_nth (p : α → Bool) (xs ys : List α) (x : α) (h : p x = true) : ((xs ++ x :: ys).filter p)[(xs.map p).count true]? = some x := by
  rw [List.filter_append, List.filter_cons_of_pos h]
  have : (xs.map p).count true = (xs.filter p).length := by
    induction xs with
    | nil => rfl
    | cons a xs ih =>
      cases e : p a <;> simp [e, ih]
  rw [this, List.getElem?_append_right (Nat.le_refl _)]
  simp

theorem PV.getPrefix {v : PrefixVec} {pre post : List Grp} {t : Grp} (h : PV v (pre ++ t :: post)) : v.getPrefix pre.length = some t.pre := by
  obtain ⟨b, h1, h2⟩ := PrefixVec.getPrefix_spec v _ h.wf pre.length (by rw [h.rv.num]; simp)
  rw [h2]
  have hb : b = !t.pre.isEmpty := by
    have h3 := h.rv.holds.bitsOf_eq
    rw [h3, List.getElem?_append_left (by simp), List.getElem?_map, List.getElem?_append_right (Nat.le_refl _)] at h1
    simp at h1
    rw [h1]; simp
  cases e : b with
  | false =>
    rw [e] at hb
    have : t.pre = [] := by simpa using hb
    simp [this]
  | true =>
    rw [e] at hb
    have hne : (!t.pre.isEmpty) = true := hb.symm
    simp only [if_true, Option.some.injEq]
    rw [h.rv.holds.take_le (by simp), ← List.map_take, List.take_left' rfl]
    have := filter_nth (fun p : Bytes => !p.isEmpty) (pre.map Grp.pre) (post.map Grp.pre) t.pre hne
    rw [List.map_map] at this
    rw [List.map_append, List.map_cons]
    unfold ones
    rw [show (fun t : Grp => !List.isEmpty t.pre) = ((fun p : Bytes => !p.isEmpty) ∘ Grp.pre) from rfl, this]
    rfl

/-- What `CheckPrefix` does: it succeeds if the node's prefix is the next part of the key. -/
theorem PV.checkPrefix {v : PrefixVec} {pre post : List Grp} {t : Grp} (h : PV v (pre ++ t :: post)) (q : Bytes) (d : Nat) (hd : d ≤ q.length) :
    v.checkPrefix q d pre.length = some (if t.pre <+: q.drop d then (t.pre.length, true) else (0, false)) := by
  unfold PrefixVec.checkPrefix
  rw [h.getPrefix]
  simp only [Option.bind_eq_bind, Option.bind_some]
  by_cases h0 : t.pre.length = 0
  · rw [if_pos h0]
    have : t.pre = [] := List.eq_nil_of_length_eq_zero h0
    simp [this]
  · rw [if_neg h0]
    by_cases h1 : d + t.pre.length > q.length
    · rw [if_pos h1, if_neg]
      · rfl
      · intro hc
        have := hc.length_le
        rw [List.length_drop] at this
        omega
    · rw [if_neg h1, slice, if_pos ⟨by omega, by omega⟩]
      simp only [Option.bind_some]
      have e : (q.take (d + t.pre.length)).drop d = (q.drop d).take t.pre.length := by
        rw [List.drop_take, Nat.add_sub_cancel_left]
      rw [e]
      by_cases h2 : (q.drop d).take t.pre.length = t.pre
      · rw [if_neg (by simpa using h2), if_pos]
        · rfl
        · rw [List.prefix_iff_eq_take]; exact h2.symm
      · rw [if_pos h2, if_neg]
        · rfl
        · intro hc
          rw [List.prefix_iff_eq_take] at hc
          exact h2 hc.symm

/-! ### Values -/

theorem values_get (vs : List Bytes) (size : Nat) (hs : ∀ v ∈ vs, v.length = size) (xs ys : List Bytes) (x : Bytes) (e : vs = xs ++ x :: ys) :
    (ValueVector.get ⟨vs.flatten, size⟩ xs.length) = some x := by
  have hl : ∀ l : List Bytes, (∀ v ∈ l, v.length = size) → l.flatten.length = l.length * size := by
    intro l
    induction l with
    | nil => simp
    | cons a l ih =>
      intro h
      rw [List.flatten_cons, List.length_append, ih (fun v hv => h v (List.mem_cons_of_mem _ hv)), h a (by simp), List.length_cons, Nat.succ_mul]
      omega
  have h1 := hl xs (fun v hv => hs v (by rw [e]; simp [hv]))
  have h2 := hs x (by rw [e]; simp)
  unfold ValueVector.get
  simp only
  rw [slice, if_pos]
  · rw [e, List.flatten_append, List.flatten_cons, ← List.append_assoc]
    rw [List.take_left' (by rw [List.length_append, h1, h2]), List.drop_left' h1]
  · refine ⟨by omega, ?_⟩
    rw [e, List.flatten_append, List.flatten_cons, List.length_append, List.length_append, h1, h2]
    omega

/-! ### Suffixes -/

/-- A suffix vector with the suffixes `ws`. -/
structure SV (cfg : Config) (v : SuffixVector) (ws : List Word) : Prop where
  none : cfg.suffixType = .none → v = {}
  some_ : cfg.suffixType ≠ .none → v.suffixType = cfg.suffixType ∧ v.hashSuffixLen = cfg.hashSuffixLen ∧ v.realSuffixLen = cfg.realSuffixLen ∧
    Holds v.bv.bits (ws.flatMap (lowBits cfg.suffixLen)) ∧ v.bv.numBits = ws.length * cfg.suffixLen

/-- Does a stored suffix agree with the key? -/
def sufOK (cfg : Config) (fp : Bytes → Word) (w : Word) (key : Bytes) (level : Nat) : Bool :=
  match cfg.suffixType with
  | .none => true
  | .real => w == 0#64 || (!(decide (key.length < level ∨ (key.length - level) * 8 < cfg.realSuffixLen)) && w == cfg.suffix fp key level)
  | _ => w == cfg.suffix fp key level

theorem SV.checkEquality {cfg : Config} (hcfg : cfg.Fine) {fp : Bytes → Word} {v : SuffixVector} {xs ys : List Word} {x : Word} (h : SV cfg v (xs ++ x :: ys))
    (hx : ∀ i, cfg.suffixLen ≤ i → x.getLsbD i = false) (key : Bytes) (level : Nat) :
    v.checkEquality fp xs.length key level = some (sufOK cfg fp x key level) := by
  unfold SuffixVector.checkEquality sufOK
  by_cases h0 : cfg.suffixType = .none
  · rw [if_pos (by rw [h.none h0]), h0]; rfl
  · obtain ⟨h1, h2, h3, h4, h5⟩ := h.some_ h0
    have hlen : v.suffixLen = cfg.suffixLen := by unfold SuffixVector.suffixLen Config.suffixLen; rw [h2, h3]
    have hpos : 0 < cfg.suffixLen := by
      have := hcfg.none_iff
      rw [Nat.pos_iff_ne_zero]
      exact fun h => h0 (this.2 h)
    have hfit := hcfg.fits
    rw [if_neg (by rw [h1]; exact h0), hlen, h5]
    have hlt : xs.length * cfg.suffixLen < (xs ++ x :: ys).length * cfg.suffixLen :=
      Nat.mul_lt_mul_of_pos_right (by simp) hpos
    rw [if_neg (by omega)]
    have hle : (xs.length + 1) * cfg.suffixLen ≤ 64 * v.bv.bits.length := by
      have := h4.len
      rw [flatMap_lowBits_length _ hfit] at this
      refine Nat.le_trans (Nat.mul_le_mul_right _ ?_) this
      simp
    obtain ⟨w, e1, e2⟩ := SuffixVector.read_spec v xs.length (by rw [hlen]; exact hpos) (by rw [hlen]; exact hfit) (by rw [hlen]; exact hle)
    have hw : w = x := by
      apply wbits_ext
      rw [e2, hlen, h4.bitsOf_eq, List.flatMap_append, List.flatMap_cons, List.append_assoc, List.append_assoc]
      rw [List.drop_left' (by rw [flatMap_lowBits_length _ hfit])]
      rw [List.take_left' (by simp [lowBits]; omega)]
      unfold lowBits
      apply List.ext_getElem?
      intro i
      by_cases hi : i < cfg.suffixLen
      · rw [List.getElem?_append_left (by simp; omega), List.getElem?_take_of_lt hi]
      · rw [List.getElem?_append_right (by simp; omega)]
        simp only [List.length_take, wbits_length, List.getElem?_replicate]
        by_cases hi2 : i < 64
        · rw [if_pos (by omega)]
          have : (wbits x)[i]? = some (x.getLsbD i) := by simp [wbits, hi2]
          rw [this, hx i (by omega)]
        · rw [if_neg (by omega), List.getElem?_eq_none (by simp; omega)]
    rw [e1, hw]
    simp only [Option.bind_eq_bind, Option.bind_some]
    obtain ⟨hc, -⟩ := hcfg.suffix_spec fp key level
    rw [h1, h2, h3, hc]
    cases ht : cfg.suffixType with
    | none => exact absurd ht h0
    | hash => simp
    | mixed => simp
    | real =>
      simp only [true_and, Option.bind_some]
      by_cases hx0 : x = 0#64
      · rw [if_pos hx0]; simp [hx0]
      · rw [if_neg hx0]
        by_cases hk : key.length < level ∨ (key.length - level) * 8 < cfg.realSuffixLen
        · rw [if_pos hk]; simp [hx0, hk]
        · rw [if_neg hk]; simp [hx0, hk]

/-- The suffixes of some levels. -/
theorem sv_init {cfg : Config} (hcfg : cfg.Fine) (L : List (Level × List Word)) (h : ∀ p ∈ L, SufInv cfg.suffixLen p.2 p.1) :
    ∃ v, initSuffixes cfg (L.map (·.1)) = some v ∧ SV cfg v (L.flatMap (·.2)) := by
  unfold initSuffixes
  by_cases h0 : cfg.suffixType = .none
  · rw [if_neg (by simpa using h0)]
    exact ⟨{}, rfl, ⟨fun _ => rfl, fun h => absurd h0 h⟩⟩
  · rw [if_pos h0]
    obtain ⟨bv, e1, e2, e3, e4⟩ := BitVector.init_holds L (fun p => p.1.suffixes) (fun p => p.2.flatMap (lowBits cfg.suffixLen)) (fun p hp => (h p hp).holds) []
    have hn : (L.map (·.1)).map (fun l => l.suffixCount * cfg.suffixLen) = L.map (fun p => (p.2.flatMap (lowBits cfg.suffixLen)).length) ++ [] := by
      rw [List.append_nil, List.map_map]
      apply List.map_congr_left
      intro p hp
      rw [flatMap_lowBits_length _ hcfg.fits]
      simp [(h p hp).count]
    unfold SuffixVector.init
    rw [List.map_map, hn, show ((fun x : Level => x.suffixes) ∘ fun x : Level × List Word => x.1) = (fun p => p.1.suffixes) from rfl, e1]
    refine ⟨_, rfl, ⟨fun h => absurd h h0, fun _ => ⟨rfl, rfl, rfl, ?_, ?_⟩⟩⟩
    · rw [List.flatMap_assoc]; exact e4
    · show bv.numBits = _
      rw [e2, ← List.flatMap_assoc, flatMap_lowBits_length _ hcfg.fits]
      simp

end Surf
