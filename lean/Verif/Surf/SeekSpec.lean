import Verif.Surf.IterRead

/-!
# What a search passes over

The order of byte strings, the leaves of the trie, and the comparison of suffixes.
-/

set_option linter.unusedSimpArgs false

namespace Surf

/-! ### Byte strings -/

/-- `a` is below `b` by a byte that both have. -/
def Div (a b : Bytes) : Prop := ∃ p c d u v, a = p ++ c :: u ∧ b = p ++ d :: v ∧ c < d

theorem append_lt_append (p : Bytes) {a b : Bytes} (h : a < b) : p ++ a < p ++ b := by
  induction p with
  | nil => exact h
  | cons c p ih =>
    rw [List.cons_append, List.cons_append, List.cons_lt_cons_iff]
    exact .inr ⟨rfl, ih⟩

theorem Div.lt {a b : Bytes} (h : Div a b) : a < b := by
  obtain ⟨p, c, d, u, v, rfl, rfl, h⟩ := h
  apply append_lt_append
  rw [List.cons_lt_cons_iff]
  exact .inl h

theorem Div.ext_left {a a' b : Bytes} (h : Div a b) (ha : a <+: a') : Div a' b := by
  obtain ⟨p, c, d, u, v, rfl, rfl, h⟩ := h
  obtain ⟨w, rfl⟩ := ha
  exact ⟨p, c, d, u ++ w, v, by simp, rfl, h⟩

theorem Div.ext_right {a b b' : Bytes} (h : Div a b) (hb : b <+: b') : Div a b' := by
  obtain ⟨p, c, d, u, v, rfl, rfl, h⟩ := h
  obtain ⟨w, rfl⟩ := hb
  exact ⟨p, c, d, u, v ++ w, rfl, by simp, h⟩

theorem Div.prepend {a b : Bytes} (q : Bytes) (h : Div a b) : Div (q ++ a) (q ++ b) := by
  obtain ⟨p, c, d, u, v, rfl, rfl, h⟩ := h
  exact ⟨q ++ p, c, d, u, v, by simp, by simp, h⟩

theorem prefix_lt {a b : Bytes} (h : a <+: b) (hne : a ≠ b) : a < b := by
  obtain ⟨w, rfl⟩ := h
  cases w with
  | nil => simp at hne
  | cons c w =>
    have := append_lt_append a (List.nil_lt_cons c w)
    rwa [List.append_nil] at this

theorem prefix_le {a b : Bytes} (h : a <+: b) : a ≤ b := by
  by_cases hne : a = b
  · rw [hne]
    exact List.le_refl _
  · exact List.le_of_lt (prefix_lt h hne)

theorem bytesCompare_spec : ∀ (a b : Bytes), (bytesCompare a b < 0 → Div a b ∨ (a <+: b ∧ a ≠ b)) ∧ (bytesCompare a b = 0 → a = b) ∧ (0 < bytesCompare a b → Div b a ∨ (b <+: a ∧ b ≠ a)) := by
  intro a
  induction a with
  | nil =>
    intro b
    cases b with
    | nil => simp [bytesCompare]
    | cons d b => simp [bytesCompare]
  | cons c a ih =>
    intro b
    cases b with
    | nil => simp [bytesCompare]
    | cons d b =>
      unfold bytesCompare
      by_cases h1 : c < d
      · rw [if_pos h1]
        exact ⟨fun _ => .inl ⟨[], c, d, a, b, rfl, rfl, h1⟩, by simp, by simp⟩
      · rw [if_neg h1]
        by_cases h2 : d < c
        · rw [if_pos h2]
          exact ⟨by simp, by simp, fun _ => .inl ⟨[], d, c, b, a, rfl, rfl, h2⟩⟩
        · rw [if_neg h2]
          have e : c = d := by
            rw [UInt8.lt_iff_toNat_lt] at h1 h2
            exact UInt8.toNat_inj.mp (by omega)
          subst e
          obtain ⟨i1, i2, i3⟩ := ih b
          refine ⟨fun h => ?_, fun h => by rw [i2 h], fun h => ?_⟩
          · rcases i1 h with h | ⟨h, hne⟩
            · exact .inl (h.prepend [c])
            · exact .inr ⟨by simpa using h, by simpa using hne⟩
          · rcases i3 h with h | ⟨h, hne⟩
            · exact .inl (h.prepend [c])
            · exact .inr ⟨by simpa using h, by simpa using hne⟩

/-- The comparison of a node's prefix with the key. -/
theorem prefixCmp_spec (a pre q' : Bytes) : ∃ cmp, prefixCmp pre (a ++ q') a.length = some cmp ∧
    ((cmp < 0 ∧ Div (a ++ pre) (a ++ q')) ∨ (cmp = 0 ∧ a ++ pre <+: a ++ q') ∨ (0 < cmp ∧ (Div (a ++ q') (a ++ pre) ∨ a ++ q' <+: a ++ pre))) := by
  unfold prefixCmp
  by_cases hp : pre.length ≠ 0
  · rw [if_pos hp, slice, if_pos ⟨by simp, by omega⟩]
    have hsl : ((a ++ q').take (min (a.length + pre.length) (a ++ q').length)).drop a.length = q'.take pre.length := by
      rw [List.take_append, List.take_of_length_le (by simp), List.drop_left' rfl]
      rw [List.length_append]
      rcases Nat.le_total pre.length q'.length with h | h
      · rw [Nat.min_eq_left (by omega), Nat.add_sub_cancel_left]
      · rw [Nat.min_eq_right (by omega), Nat.add_sub_cancel_left, List.take_length, List.take_of_length_le h]
    rw [hsl]
    refine ⟨_, rfl, ?_⟩
    obtain ⟨h1, h2, h3⟩ := bytesCompare_spec pre (q'.take pre.length)
    have htp : q'.take pre.length <+: q' := List.take_prefix _ _
    rcases Int.lt_trichotomy (bytesCompare pre (q'.take pre.length)) 0 with h | h | h
    · refine .inl ⟨h, ?_⟩
      rcases h1 h with h1 | ⟨h1, hne⟩
      · exact (h1.ext_right htp).prepend a
      · exfalso
        have := h1.length_le
        rw [List.length_take] at this
        exact hne (h1.eq_of_length (by rw [List.length_take]; omega))
    · refine .inr (.inl ⟨h, ?_⟩)
      rw [List.prefix_append_right_inj, h2 h]
      exact htp
    · refine .inr (.inr ⟨h, ?_⟩)
      rcases h3 h with h3 | ⟨h3, hne⟩
      · exact .inl ((h3.ext_left htp).prepend a)
      · right
        rw [List.prefix_append_right_inj]
        have hlt : q'.length < pre.length := by
          by_contra hc
          apply hne
          apply h3.eq_of_length
          rw [List.length_take]
          omega
        rwa [List.take_of_length_le (by omega)] at h3
  · rw [if_neg hp]
    have : pre = [] := List.eq_nil_of_length_eq_zero (by omega)
    subst this
    exact ⟨0, rfl, .inr (.inl ⟨rfl, by simp⟩)⟩

theorem prefixCmp_of {a q : Bytes} (ha : a <+: q) (pre : Bytes) : ∃ cmp, prefixCmp pre q a.length = some cmp ∧
    ((cmp < 0 ∧ Div (a ++ pre) q) ∨ (cmp = 0 ∧ a ++ pre <+: q) ∨ (0 < cmp ∧ (Div q (a ++ pre) ∨ q <+: a ++ pre))) := by
  obtain ⟨q', rfl⟩ := ha
  exact prefixCmp_spec a pre q'

/-! ### Leaves -/

section
variable {cfg : Config} {fp : Bytes → Word} {s : SuRF} {t0 t : Grp} {cut h : Nat} {R r W : List Frame} {ip iq : List Item} {i : Item}

/-- The pair `x` is held by a leaf of a node that branches at byte `m`; `tm`: by its end item. -/
def Leaf (t0 : Grp) (x : KV) (m : Nat) (tm : Bool) : Prop := ∃ W t ip i iq, Way t0 W t ∧ t.items = ip ++ i :: iq ∧ i.kvs = [x] ∧ t.bd = m ∧ i.term = tm

/-- Every pair below a node is held by a leaf below it. -/
theorem Built.leaf_below (B : Built cfg fp s t0 cut h) : ∀ (n : Nat) (W : List Frame) (t : Grp), Way t0 W t → h ≤ W.length + n → ∀ x ∈ t.kvs, ∃ m tm, Leaf t0 x m tm ∧ t.bd ≤ m := by
  intro n
  induction n with
  | zero =>
    intro W t w hn
    have := B.way_lt w
    omega
  | succ n ih =>
    intro W t w hn x hx
    rw [← t.items_flat, List.mem_flatMap] at hx
    obtain ⟨i, hi, hx⟩ := hx
    obtain ⟨ip, iq, e⟩ := List.append_of_mem hi
    have hg := w.good B.root
    cases hc : i.child with
    | false =>
      obtain ⟨h1, -⟩ := hg.toOK.leafKV hi hc
      rw [h1, List.mem_singleton] at hx
      exact ⟨t.bd, i.term, ⟨W, t, ip, i, iq, w, e, by rw [h1, hx], rfl, rfl⟩, Nat.le_refl _⟩
    | true =>
      obtain ⟨m, tm, h1, h2⟩ := ih _ _ (w.down e hc) (by simp; omega) x hx
      refine ⟨m, tm, h1, ?_⟩
      have := ((w.down e hc).good B.root).toOK.pre_length.2
      simp only at this
      omega

theorem Built.leaf (B : Built cfg fp s t0 cut h) (w : Way t0 W t) {x : KV} (hx : x ∈ t.kvs) : ∃ m tm, Leaf t0 x m tm ∧ t.bd ≤ m :=
  B.leaf_below h W t w (by omega) x hx

/-- The way to a leaf is the beginning of its key. -/
theorem Way.form (B : Built cfg fp s t0 cut h) (hd : t0.d = 0) (w : Way t0 W t) {x : KV} (hx : x ∈ t.kvs) {m : Nat} (hm : t.bd ≤ m) : str W ++ t.pre <+: x.1.take (m + 1) := by
  rw [← w.str_bd B.root hd hx]
  exact List.take_prefix_take_left (by omega)

theorem Way.form_item (B : Built cfg fp s t0 cut h) (hd : t0.d = 0) (w : Way t0 W t) (hi : i ∈ t.items) (ht : i.term = false) {x : KV} (hx : x ∈ i.kvs) {m : Nat} (hm : t.bd ≤ m) :
    str W ++ t.pre ++ [i.label] <+: x.1.take (m + 1) := by
  obtain ⟨h1, h2, h3⟩ := item_label (w.good B.root).toOK hi ht hx
  have : x.1.take (t.bd + 1) = str W ++ t.pre ++ [i.label] := by
    rw [List.take_add_one, w.str_bd B.root hd h1, h3]
    rfl
  rw [← this]
  exact List.take_prefix_take_left (by omega)

/-! ### Suffixes -/

/-- The comparison of a stored suffix with a key. -/
def sufCmp (cfg : Config) (w : Word) (key : Bytes) (level : Nat) : Int :=
  if cfg.suffixType = .none ∨ cfg.suffixType = .hash then couldBePositive
  else
    let suffix := if cfg.suffixType = .mixed then extractRealSuffix w cfg.realSuffixLen else w
    let expected := (constructRealSuffix key level cfg.realSuffixLen).getD 0
    if suffix = 0#64 ∧ expected = 0#64 then couldBePositive
    else if suffix = 0#64 ∨ suffix < expected then -1
    else if suffix = expected then couldBePositive
    else 1

theorem SV.read (hcfg : cfg.Fine) {v : SuffixVector} {xs ys : List Word} {x : Word} (h : SV cfg v (xs ++ x :: ys))
    (hx : ∀ i, cfg.suffixLen ≤ i → x.getLsbD i = false) (h0 : cfg.suffixType ≠ .none) : ¬ xs.length * v.suffixLen ≥ v.bv.numBits ∧ v.read xs.length = some x := by
  obtain ⟨h1, h2, h3, h4, h5⟩ := h.some_ h0
  have hlen : v.suffixLen = cfg.suffixLen := by unfold SuffixVector.suffixLen Config.suffixLen; rw [h2, h3]
  have hpos : 0 < cfg.suffixLen := by
    have := hcfg.none_iff
    rw [Nat.pos_iff_ne_zero]
    exact fun h => h0 (this.2 h)
  have hfit := hcfg.fits
  rw [hlen, h5]
  have hlt : xs.length * cfg.suffixLen < (xs ++ x :: ys).length * cfg.suffixLen :=
    Nat.mul_lt_mul_of_pos_right (by simp) hpos
  refine ⟨by omega, ?_⟩
  have hle : (xs.length + 1) * cfg.suffixLen ≤ 64 * v.bv.bits.length := by
    have := h4.len
    rw [flatMap_lowBits_length _ hfit] at this
    refine Nat.le_trans (Nat.mul_le_mul_right _ ?_) this
    simp
  obtain ⟨w, e1, e2⟩ := SuffixVector.read_spec v xs.length (by rw [hlen]; exact hpos) (by rw [hlen]; exact hfit) (by rw [hlen]; exact hle)
  have hw : w = x := by
    apply wbits_ext
    rw [e2, hlen, h4.bitsOf_eq, List.flatMap_append, List.flatMap_cons, List.append_assoc, List.append_assoc]
    rw [List.drop_left' (by rw [flatMap_lowBits_length _ hfit])]
    rw [List.take_left' (by simp [lowBits]; omega)]
    unfold lowBits
    apply List.ext_getElem?
    intro i
    by_cases hi : i < cfg.suffixLen
    · rw [List.getElem?_append_left (by simp; omega), List.getElem?_take_of_lt hi]
    · rw [List.getElem?_append_right (by simp; omega)]
      simp only [List.length_take, wbits_length, List.getElem?_replicate]
      by_cases hi2 : i < 64
      · rw [if_pos (by omega)]
        have : (wbits x)[i]? = some (x.getLsbD i) := by simp [wbits, hi2]
        rw [this, hx i (by omega)]
      · rw [if_neg (by omega), List.getElem?_eq_none (by simp; omega)]
  rw [e1, hw]

theorem SV.compare (hcfg : cfg.Fine) {v : SuffixVector} {xs ys : List Word} {x : Word} (h : SV cfg v (xs ++ x :: ys))
    (hx : ∀ i, cfg.suffixLen ≤ i → x.getLsbD i = false) (key : Bytes) (level : Nat) :
    v.compare key xs.length level = some (sufCmp cfg x key level) := by
  unfold SuffixVector.compare sufCmp
  by_cases h0 : cfg.suffixType = .none
  · rw [if_pos (.inr (.inl (by rw [h.none h0]))), if_pos (.inl h0)]
    rfl
  · obtain ⟨h1, h2, h3, h4, h5⟩ := h.some_ h0
    by_cases hh : cfg.suffixType = .hash
    · rw [if_pos (.inr (.inr (h1.trans hh))), if_pos (.inr hh)]
      rfl
    · obtain ⟨r1, r2⟩ := h.read hcfg hx h0
      rw [h1, if_neg (by simp only [not_or]; exact ⟨r1, h0, hh⟩), if_neg (by simp only [not_or]; exact ⟨h0, hh⟩), r2, h3]
      obtain ⟨w, e, -⟩ := realSuffix_lt key level (r := cfg.realSuffixLen) (by have := hcfg.fits; unfold Config.suffixLen at this; omega)
      rw [e]
      simp only [Option.bind_eq_bind, Option.bind_some, Option.getD_some, pure_bind]
      split
      · split
        · rfl
        · split
          · rfl
          · split <;> rfl
      · split
        · rfl
        · split
          · rfl
          · split <;> rfl

/-- The pair is passed over by a search for `q`. -/
def Passed (cfg : Config) (fp : Bytes → Word) (t0 : Grp) (q : Bytes) (x : KV) : Prop :=
  ∃ m tm, Leaf t0 x m tm ∧ (Div (x.1.take (m + 1)) q ∨ (tm = true ∧ x.1 <+: q ∧ x.1 ≠ q) ∨
    (tm = false ∧ x.1.take (m + 1) <+: q ∧ sufCmp cfg (cfg.suffix fp x.1 (m + 1)) q (m + 1) < 0))

/-- The pair is not passed over. -/
def Stays (cfg : Config) (fp : Bytes → Word) (t0 : Grp) (q : Bytes) (x : KV) : Prop :=
  ∃ m tm, Leaf t0 x m tm ∧ (Div q (x.1.take (m + 1)) ∨ q <+: x.1.take (m + 1) ∨
    (tm = false ∧ x.1.take (m + 1) <+: q ∧ 0 ≤ sufCmp cfg (cfg.suffix fp x.1 (m + 1)) q (m + 1)))

theorem Built.passed_node (B : Built cfg fp s t0 cut h) (hd : t0.d = 0) (w : Way t0 W t) {q : Bytes} (hq : Div (str W ++ t.pre) q) : ∀ x ∈ t.kvs, Passed cfg fp t0 q x := by
  intro x hx
  obtain ⟨m, tm, h1, h2⟩ := B.leaf w hx
  exact ⟨m, tm, h1, .inl (hq.ext_left (w.form B hd hx h2))⟩

theorem Built.stays_node (B : Built cfg fp s t0 cut h) (hd : t0.d = 0) (w : Way t0 W t) {q : Bytes} (hq : Div q (str W ++ t.pre) ∨ q <+: str W ++ t.pre) : ∀ x ∈ t.kvs, Stays cfg fp t0 q x := by
  intro x hx
  obtain ⟨m, tm, h1, h2⟩ := B.leaf w hx
  have hf := w.form B hd hx h2
  rcases hq with hq | hq
  · exact ⟨m, tm, h1, .inl (hq.ext_right hf)⟩
  · exact ⟨m, tm, h1, .inr (.inl (hq.trans hf))⟩

theorem Built.passed_item (B : Built cfg fp s t0 cut h) (hd : t0.d = 0) (w : Way t0 W t) (hi : i ∈ t.items) {c : UInt8} {v : Bytes} (hl : i.term = false → i.label < c) :
    ∀ x ∈ i.kvs, Passed cfg fp t0 (str W ++ t.pre ++ c :: v) x := by
  intro x hx
  cases ht : i.term with
  | false =>
    obtain ⟨m, tm, h1, h2⟩ := B.leaf w (item_label (w.good B.root).toOK hi ht hx).1
    exact ⟨m, tm, h1, .inl (Div.ext_left ⟨str W ++ t.pre, i.label, c, [], v, rfl, rfl, hl ht⟩ (w.form_item B hd hi ht hx h2))⟩
  | true =>
    obtain ⟨y, h1, h2, h3⟩ := item_term (w.good B.root).toOK hi ht
    rw [h1, List.mem_singleton] at hx
    subst hx
    obtain ⟨ip, iq, e⟩ := List.append_of_mem hi
    have hk : x.1 = str W ++ t.pre := by rw [← w.str_bd B.root hd h2, ← h3, List.take_length]
    refine ⟨t.bd, true, ⟨W, t, ip, i, iq, w, e, h1, rfl, ht⟩, .inr (.inl ⟨rfl, ?_, ?_⟩)⟩
    · rw [hk]
      exact List.prefix_append _ _
    · rw [hk]
      intro hc
      have := congrArg List.length hc
      simp at this

theorem Built.stays_item (B : Built cfg fp s t0 cut h) (hd : t0.d = 0) (w : Way t0 W t) (hi : i ∈ t.items) {c : UInt8} {v : Bytes} (ht : i.term = false) (hl : c < i.label) :
    ∀ x ∈ i.kvs, Stays cfg fp t0 (str W ++ t.pre ++ c :: v) x := by
  intro x hx
  obtain ⟨m, tm, h1, h2⟩ := B.leaf w (item_label (w.good B.root).toOK hi ht hx).1
  exact ⟨m, tm, h1, .inl (Div.ext_right ⟨str W ++ t.pre, c, i.label, v, [], rfl, rfl, hl⟩ (w.form_item B hd hi ht hx h2))⟩

end

end Surf
