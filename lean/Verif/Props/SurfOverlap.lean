import Verif.Surf.OverlapExact
import Verif.Props.SurfExact
import Verif.Props.SurfSize

/-!
# Property C55: where `Seek` stops and what `HasOverlap` answers, exactly

For the searches that `Seek` supports (`Supported`), by the stored keys, the bits of their real suffixes (`realBits`), and, in one corner, the number of dense levels.
-/

set_option linter.unusedSimpArgs false

namespace Surf.Props

/-- The real suffix of `q` behind the part that is kept of the stored key `k`, as a number; 0 if `q` is too short. -/
def real (keys : List Bytes) (r : Nat) (k q : Bytes) : Nat := (realBits r (shared keys k + 1) q).getD 0

/-- `Seek(q)` passes over the key `k`:
* what is kept of it is below `q`, and the two differ in some byte; or
* `k` is a prefix of another key, and a proper prefix of `q`; or
* what is kept of it is a prefix of `q`, and its real suffix is below that of `q`. -/
def PassedBy (keys : List Bytes) (r : Nat) (q k : Bytes) : Prop :=
  (form keys k < q ∧ ¬ form keys k <+: q) ∨ (isEnd keys k ∧ k <+: q ∧ k ≠ q) ∨ (¬ isEnd keys k ∧ form keys k <+: q ∧ real keys r k k < real keys r k q)

/-- What is kept of the key `k` does not rule out that it is below `stop`. -/
def MayPrecede (keys : List Bytes) (r : Nat) (stop k : Bytes) : Prop :=
  (form keys k < stop ∧ ¬ form keys k <+: stop) ∨ (form keys k <+: stop ∧ ¬ (isEnd keys k ∧ k = stop) ∧ real keys r k k ≤ real keys r k stop)

/-- The key `k` is taken to be `stop`: it is held by an end item, and is `stop`, or `stop` is the part of it that the dense levels hold. -/
def TakenFor (keys : List Bytes) (cut : Nat) (stop k : Bytes) : Prop :=
  isEnd keys k ∧ (k = stop ∨ (cut ≤ level keys k ∧ Begins keys cut k stop.length ∧ stop <+: k))

instance (keys : List Bytes) (r : Nat) (q k : Bytes) : Decidable (PassedBy keys r q k) := by unfold PassedBy isEnd; infer_instance
instance (keys : List Bytes) (r : Nat) (q k : Bytes) : Decidable (MayPrecede keys r q k) := by unfold MayPrecede isEnd; infer_instance
instance (keys : List Bytes) (cut : Nat) (q k : Bytes) : Decidable (TakenFor keys cut q k) := by unfold TakenFor isEnd; infer_instance

theorem rsuf_real {keys : List Bytes} {r : Nat} (hr : r ≤ 64) (k q : Bytes) : rsuf q (shared keys k + 1) r = real keys r k q := by
  obtain ⟨w, e, v⟩ := realSuffix_eq q (shared keys k + 1) hr
  unfold rsuf real
  rw [e, ← v]
  rfl

theorem div_iff {a b : Bytes} : Div a b ↔ a < b ∧ ¬ a <+: b := by
  constructor
  · intro h
    exact ⟨h.lt, (div_not_prefix h).1⟩
  · rintro ⟨h1, h2⟩
    rcases cmpTake_spec a b rfl with ⟨-, c2⟩ | ⟨-, -, c3⟩ | ⟨-, -, c3⟩ | ⟨-, c2⟩
    · exact c2
    · exact absurd c3 h2
    · exact absurd h1 (List.not_lt.mpr (prefix_le c3))
    · exact absurd (List.lt_trans h1 c2.lt) (List.lt_irrefl _)

section
variable {fp : Bytes → Word} {vs h r : Nat} {keys vals : List Bytes} {s : SuRF} {cut ht : Nat}

/-- The search passes over the pairs that it should. -/
theorem passed_by (hhr : h + r ≤ 64) (hin : Input vs keys vals) (B : Built (newBuilder vs h r) fp s ⟨keys.zip vals, 0⟩ cut ht) {q : Bytes} {x : KV} :
    (Passed (newBuilder vs h r) fp ⟨keys.zip vals, 0⟩ q x → PassedBy keys r q x.1) ∧ (Stays (newBuilder vs h r) fp ⟨keys.zip vals, 0⟩ q x → ¬ PassedBy keys r q x.1) := by
  have hfst : (⟨keys.zip vals, 0⟩ : Grp).kvs.map (·.1) = keys := hin.fst
  have hsuf : ∀ m, (sufCmp (newBuilder vs h r) ((newBuilder vs h r).suffix fp x.1 (m + 1)) q (m + 1) < 0 ↔ rsuf x.1 (m + 1) r < rsuf q (m + 1) r) := fun m => (sufCmp_le (fp := fp) B.cfgok x.1 q (m + 1) (m + 1)).2.2
  constructor
  · rintro ⟨m, tm, hL, hcase⟩
    obtain ⟨e1, e2⟩ := hL.spec B.root rfl hin.kvs.sorted
    rw [hfst] at e1 e2
    subst e1
    rcases hcase with h | ⟨h1, h2, h3⟩ | ⟨h1, h2, h3⟩
    · exact .inl (div_iff.mp h)
    · exact .inr (.inl ⟨e2.1 h1, h2, h3⟩)
    · refine .inr (.inr ⟨fun he => ?_, h2, ?_⟩)
      · rw [e2.2 he] at h1
        simp at h1
      · rw [hsuf] at h3
        rwa [rsuf_real (by omega), rsuf_real (by omega)] at h3
  · rintro ⟨m, tm, hL, hcase⟩ hP
    obtain ⟨e1, e2⟩ := hL.spec B.root rfl hin.kvs.sorted
    rw [hfst] at e1 e2
    subst e1
    have hle : form keys x.1 <+: x.1 := List.take_prefix _ _
    have hfx : isEnd keys x.1 → form keys x.1 = x.1 := by
      intro he
      obtain ⟨W, t, ip, i, iq, w, e, hx, hb, hterm⟩ := hL
      have hi : i ∈ t.items := by rw [e]; simp
      obtain ⟨x', k1, k2, k3⟩ := item_term (w.good B.root).toOK hi (hterm.trans (e2.2 he))
      rw [hx] at k1
      simp only [List.cons.injEq, and_true] at k1
      subst k1
      unfold form
      rw [List.take_of_length_le]
      omega
    rcases hcase with h | h | ⟨h1, h2, h3⟩
    · rcases hP with ⟨p1, -⟩ | ⟨p1, p2, -⟩ | ⟨-, p2, -⟩
      · exact absurd (List.lt_trans p1 h.lt) (List.lt_irrefl _)
      · exact (div_not_prefix h).2 (hle.trans p2)
      · exact (div_not_prefix h).2 p2
    · rcases hP with ⟨p1, -⟩ | ⟨p1, p2, p3⟩ | ⟨-, p2, p3⟩
      · exact absurd p1 (List.not_lt.mpr (prefix_le h))
      · exact p3 (p2.eq_of_length (Nat.le_antisymm p2.length_le (h.trans hle).length_le))
      · have : form keys x.1 = q := p2.eq_of_length (Nat.le_antisymm p2.length_le (List.IsPrefix.length_le h))
        have hq : real keys r x.1 q ≤ real keys r x.1 x.1 := by
          unfold real
          by_cases hs : r = 0
          · subst hs
            have a := rsuf_lt q (shared keys x.1 + 1) (r := 0) (by omega)
            rw [rsuf_real (by omega)] at a
            unfold real at a
            omega
          · have : realBits r (shared keys x.1 + 1) q = none := by
              rw [realBits_none]
              have : q.length ≤ shared keys x.1 + 1 := by
                rw [← this]
                exact List.length_take_le _ _
              omega
            rw [this]
            simp
        omega
    · rcases hP with ⟨-, p2⟩ | ⟨p1, -, -⟩ | ⟨-, -, p3⟩
      · exact p2 h2
      · rw [e2.2 p1] at h1
        simp at h1
      · rw [← rsuf_real (by omega), ← rsuf_real (by omega)] at p3
        have := (hsuf _).mpr p3
        omega

end

/-- **C55.** `Seek(q)`, for supported searches, with any suffixes, on an iterator after any calls, stops on the first stored key that it does not pass over, and is invalid if there is none. -/
theorem C55_seek (fp : Bytes → Word) (bmi : Bool) (vs h r : Nat) (hhr : h + r ≤ 64) (keys vals : List Bytes) (hin : Input vs keys vals) (hint : Int) (s : SuRF)
    (hs : build fp bmi (newBuilder vs h r) keys vals hint = some s) (it : Iterator) (hr : Reached bmi s (Supported keys s) it) (q : Bytes) (he : Supported keys s q) :
    ∃ it' fl, it.seek bmi s q = some (it', fl) ∧
      ((it'.valid = false ∧ ∀ k ∈ keys, PassedBy keys r q k) ∨
       (∃ (n : Nat) (k v : Bytes), keys[n]? = some k ∧ vals[n]? = some v ∧ it'.valid = true ∧ it'.key = some (form keys k) ∧ it'.value s = some (v.take vs) ∧
         ¬ PassedBy keys r q k ∧ ∀ m : Nat, m < n → ∀ k' : Bytes, keys[m]? = some k' → PassedBy keys r q k')) := by
  obtain ⟨ht, B⟩ := the_built hhr hin hs
  have hready := inv_ready (reached_inv hin B hr)
  obtain ⟨it', fl, b, a1, ⟨hb, c, ec, hc⟩, a2⟩ := B.i_seek bmi rfl q (he.clear hin B) hready
  have hfst : (⟨keys.zip vals, 0⟩ : Grp).kvs.map (·.1) = keys := hin.fst
  refine ⟨it', fl, a1, ?_⟩
  rcases a2 with ⟨rfl, a2⟩ | ⟨y, a2⟩
  · left
    refine ⟨a2.valid, fun k hk => ?_⟩
    rw [← hfst, List.mem_map] at hk
    obtain ⟨x, hx, rfl⟩ := hk
    exact (passed_by hhr hin B).1 (hb x hx)
  · right
    obtain ⟨r1, r2, r3⟩ := at_read hin B a2
    obtain ⟨c', ec'⟩ := a2.split
    have ez : keys.zip vals = b ++ y :: c' := ec'
    have hn : (keys.zip vals)[b.length]? = some y := by rw [ez]; simp
    rw [List.getElem?_zip_eq_some] at hn
    have hyc : y ∈ c := by
      have : b ++ y :: c' = b ++ c := by rw [← ec, ← ec']
      rw [← List.append_cancel_left this]
      simp
    refine ⟨b.length, y.1, y.2, hn.1, hn.2, r1, r2, r3, (passed_by hhr hin B).2 (hc y hyc), ?_⟩
    intro m hm k' hk'
    have : keys[m]? = (keys.zip vals)[m]?.map (·.1) := by rw [← List.getElem?_map, hin.fst]
    rw [this, ez, List.getElem?_append_left hm, List.getElem?_eq_getElem hm] at hk'
    simp only [Option.map_some, Option.some.injEq] at hk'
    rw [← hk']
    exact (passed_by hhr hin B).1 (hb _ (List.getElem_mem hm))

/-- `HasOverlap`, with real suffixes of less than 16 bits and any hash suffixes, if the search for the start is supported, does not panic, and is true exactly if there is a key that is not
passed over, and the first such key may be below the end of the range, or, if the end is part of the range, is taken for it. -/
theorem C55_overlap (fp : Bytes → Word) (bmi : Bool) (vs h r : Nat) (hhr : h + r ≤ 64) (h16 : r < 16) (keys vals : List Bytes) (hin : Input vs keys vals) (hint : Int) (s : SuRF)
    (hs : build fp bmi (newBuilder vs h r) keys vals hint = some s) (start stop : Bytes) (he : Supported keys s start) (includeEnd : Bool) :
    ∃ b, s.hasOverlap bmi start stop includeEnd = some b ∧
      (b = true ↔ ∃ (n : Nat) (k : Bytes), keys[n]? = some k ∧ ¬ PassedBy keys r start k ∧ (∀ m : Nat, m < n → ∀ k' : Bytes, keys[m]? = some k' → PassedBy keys r start k') ∧
        (MayPrecede keys r stop k ∨ (includeEnd = true ∧ TakenFor keys s.ld.height stop k))) := by
  obtain ⟨ht, B⟩ := the_built hhr hin hs
  have hfst : (⟨keys.zip vals, 0⟩ : Grp).kvs.map (·.1) = keys := hin.fst
  unfold SuRF.hasOverlap
  obtain ⟨it', fl, b, e, ⟨hb, c, ec, hc⟩, hcase⟩ := B.i_seek bmi rfl start (he.clear hin B) B.newReady
  have hne : ¬ (s.ld.height = 0 ∧ s.ls.height = 0) := by
    rw [B.hs]
    have := B.lt
    omega
  rw [if_neg hne, e]
  simp only [Option.bind_eq_bind, Option.bind_some, Option.pure_def]
  have hbk : ∀ m : Nat, m < b.length → ∀ k' : Bytes, keys[m]? = some k' → PassedBy keys r start k' := by
    intro m hm k' hk'
    have ez : keys.zip vals = b ++ c := ec
    have : keys[m]? = (keys.zip vals)[m]?.map (·.1) := by rw [← List.getElem?_map, hin.fst]
    rw [this, ez, List.getElem?_append_left hm, List.getElem?_eq_getElem hm] at hk'
    simp only [Option.map_some, Option.some.injEq] at hk'
    rw [← hk']
    exact (passed_by hhr hin B).1 (hb _ (List.getElem_mem hm))
  rcases hcase with ⟨rfl, hdone⟩ | ⟨y, hat⟩
  · rw [hdone.valid]
    refine ⟨false, by simp, by simp, ?_⟩
    rintro ⟨n, k, hk, hp, -⟩
    have hlen : keys.length = (⟨keys.zip vals, 0⟩ : Grp).kvs.length := by
      rw [← List.length_map (f := fun x : KV => x.1), hfst]
    refine absurd (hbk n ?_ k hk) hp
    rw [← hlen]
    exact (List.getElem?_eq_some_iff.mp hk).1
  · obtain ⟨W, t, ip, i, iq, hst, hsb, hiy⟩ := id hat
    obtain ⟨c', ec'⟩ := hat.split
    obtain ⟨cmp, e2, v⟩ := hst.outcome B rfl h16 hiy stop
    obtain ⟨w, eit, -⟩ := hst.at
    have hyc : y ∈ c := by
      have : b ++ y :: c' = b ++ c := by rw [← ec, ← ec']
      rw [← List.append_cancel_left this]
      simp
    have hny := (passed_by hhr hin B).2 (hc y hyc)
    have ez : keys.zip vals = b ++ y :: c' := ec'
    have hn : (keys.zip vals)[b.length]? = some y := by rw [ez]; simp
    rw [List.getElem?_zip_eq_some] at hn
    rw [hat.valid]
    simp only [Bool.not_true, Bool.false_eq_true, if_false]
    rw [e2]
    simp only [Option.bind_some]
    refine ⟨_, rfl, ?_⟩
    have hsh := leaf_shared B.root rfl hin.kvs.sorted w eit hiy
    have hend := leaf_end B.root hin.kvs.sorted w eit hiy
    have hlev := leaf_level B.root rfl hin.kvs.sorted w eit hiy
    have hbeg := fun hc n => leaf_begins B.root rfl hin.kvs.sorted eit hiy w (cut := s.ld.height) hc n
    have hWp := leaf_pre B rfl w eit hiy
    have hfx : i.term = true → y.1.take (t.bd + 1) = y.1 := by
      intro hterm
      have hi : i ∈ t.items := by rw [eit]; simp
      obtain ⟨x', k1, k2, k3⟩ := item_term (w.good B.root).toOK hi hterm
      rw [hiy] at k1
      simp only [List.cons.injEq, and_true] at k1
      subst k1
      exact List.take_of_length_le (by omega)
    rw [hfst] at hsh hend hlev hbeg
    have hfm : form keys y.1 = y.1.take (t.bd + 1) := by unfold form; rw [hsh]
    have hM : (cmp < 0 ∨ cmp = couldBePositive) ↔ MayPrecede keys r stop y.1 := by
      rw [v.lt, div_iff]
      unfold MayPrecede
      rw [hfm]
      refine or_congr_right (and_congr_right fun _ => and_congr ?_ ?_)
      · rw [← hend]
        refine not_congr (and_congr_right fun h1 => ?_)
        rw [hfx h1]
      · rw [← hsh, ← rsuf_real (by omega), ← rsuf_real (by omega)]
        rfl
    have hT : cmp = 0 ↔ TakenFor keys s.ld.height stop y.1 := by
      rw [v.eq]
      unfold TakenFor
      rw [← hend]
      refine and_congr_right fun h1 => or_congr (by rw [hfx h1]) ?_
      rw [hlev]
      refine and_congr_right fun h2 => ?_
      rw [hbeg h2]
      have hsp : str (W.drop (W.length - s.ld.height)) <+: y.1 := (drop_pre hWp rfl).trans (List.take_prefix _ _)
      constructor
      · intro h3
        exact ⟨by rw [← h3], by rw [h3]; exact hsp⟩
      · rintro ⟨h3, h4⟩
        exact (List.prefix_of_prefix_length_le h4 hsp (by omega)).eq_of_length h3
    have hP : (if includeEnd = true then decide ((if cmp = couldBePositive then -1 else cmp) ≤ 0) else decide ((if cmp = couldBePositive then -1 else cmp) < 0)) = true ↔
        (MayPrecede keys r stop y.1 ∨ (includeEnd = true ∧ TakenFor keys s.ld.height stop y.1)) := by
      rw [← hM, ← hT]
      by_cases hcp : cmp = couldBePositive
      · rw [if_pos hcp]
        cases includeEnd <;> simp [hcp]
      · rw [if_neg hcp]
        cases includeEnd <;> simp [hcp]
        omega
    rw [hP]
    constructor
    · intro h1
      exact ⟨b.length, y.1, hn.1, hny, hbk, h1⟩
    · rintro ⟨n, k, k1, k2, k3, k4⟩
      have : n = b.length := by
        rcases Nat.lt_trichotomy n b.length with h1 | h1 | h1
        · exact absurd (hbk n h1 k k1) k2
        · exact h1
        · exact absurd (k3 _ h1 _ hn.1) hny
      subst this
      rw [hn.1, Option.some.injEq] at k1
      rw [k1]
      exact k4

theorem end_form {keys : List Bytes} {k : Bytes} (he : isEnd keys k) : form keys k = k := by
  obtain ⟨y, hy, hne, hp⟩ := he
  unfold form
  apply List.take_of_length_le
  have : k.length ≤ shared keys k := by
    unfold shared
    apply le_foldr_max
    rw [List.mem_map]
    exact ⟨y, by simp [hy, hne], lcpLen_prefix hp⟩
  omega

/-- The answer `true` is right whenever what is kept of the stored keys tells them from the bounds of the range: no key that is kept in part is, as far as it is kept, a prefix of a bound (unless it is on the
right side of it all the same), and the end, if it is part of the range, is no proper prefix of a key that is itself a prefix of another. -/
theorem C55_precise (fp : Bytes → Word) (bmi : Bool) (vs h r : Nat) (hhr : h + r ≤ 64) (h16 : r < 16) (keys vals : List Bytes) (hin : Input vs keys vals) (hint : Int) (s : SuRF)
    (hs : build fp bmi (newBuilder vs h r) keys vals hint = some s) (start stop : Bytes) (he : Supported keys s start) (includeEnd : Bool)
    (hA : ∀ k ∈ keys, ¬ isEnd keys k → form keys k <+: start → start ≤ k)
    (hB : ∀ k ∈ keys, ¬ isEnd keys k → form keys k <+: stop → if includeEnd then k ≤ stop else k < stop)
    (hC : includeEnd = true → ∀ k ∈ keys, isEnd keys k → stop <+: k → k = stop)
    (ht : s.hasOverlap bmi start stop includeEnd = some true) : ∃ k ∈ keys, start ≤ k ∧ if includeEnd then k ≤ stop else k < stop := by
  obtain ⟨b, e, hb⟩ := C55_overlap fp bmi vs h r hhr h16 keys vals hin hint s hs start stop he includeEnd
  rw [ht, Option.some.injEq] at e
  obtain ⟨n, k, hk, hp, -, hq⟩ := hb.mp e.symm
  have hkm := List.mem_of_getElem? hk
  have hf : form keys k <+: k := List.take_prefix _ _
  refine ⟨k, hkm, ?_, ?_⟩
  · rw [← List.not_lt]
    intro hlt
    have hfs : form keys k <+: start := by
      by_contra hno
      exact hp (.inl ⟨List.lt_of_le_of_lt (prefix_le hf) hlt, hno⟩)
    by_cases hend : isEnd keys k
    · rw [end_form hend] at hfs
      refine hp (.inr (.inl ⟨hend, hfs, ?_⟩))
      rintro rfl
      exact List.lt_irrefl _ hlt
    · exact absurd hlt (List.not_lt.mpr (hA k hkm hend hfs))
  · have hlt : k < stop → if includeEnd then k ≤ stop else k < stop := by
      intro h1
      split
      · exact List.le_of_lt h1
      · exact h1
    rcases hq with (h1 | ⟨h1, h2, -⟩) | ⟨h1, h2, h3⟩
    · exact hlt ((div_iff.mpr h1).ext_left hf).lt
    · by_cases hend : isEnd keys k
      · rw [end_form hend] at h1
        exact hlt (prefix_lt h1 fun h => h2 ⟨hend, h⟩)
      · exact hB k hkm hend h1
    · rw [if_pos h1]
      rcases h3 with rfl | ⟨-, -, h3⟩
      · exact List.le_refl _
      · rw [hC h1 k hkm h2 h3]
        exact List.le_refl _

/-! ### Examples -/

/-- "k", "ka\x01", "ka\x02", "kb" without suffixes: `Seek("ka\x01z")` stops on "ka\x01", of which it cannot know that it is a whole key; it passes over "k". -/
example : PassedBy endKeys 0 [107, 97, 1, 122] [107] ∧ ¬ PassedBy endKeys 0 [107, 97, 1, 122] [107, 97, 1] := by decide +kernel

/-- With eight bits of real suffix a key can be told from the bounds one byte longer. -/
example : PassedBy [[1, 5], [2, 9]] 8 [1, 6] [1, 5] ∧ ¬ PassedBy [[1, 5], [2, 9]] 0 [1, 6] [1, 5] ∧ MayPrecede [[1, 5], [2, 9]] 0 [2, 8] [2, 9] ∧ ¬ MayPrecede [[1, 5], [2, 9]] 8 [2, 8] [2, 9] := by decide +kernel

/-- The corner: without dense levels the end "" is taken for the key "k" (which is a prefix of others), so that `HasOverlap("", "", true)` is true. -/
example : TakenFor endKeys 0 [] [107] ∧ ¬ TakenFor endKeys 1 [] [107] ∧ Begins endKeys 0 [107] 0 := by decide +kernel

example : ∃ s, build (fun _ => 0#64) true (newBuilder 1 0 0) endKeys endVals 0 = some s ∧ s.hasOverlap true [] [] true = some true ∧ s.hasOverlap true [] [] false = some false := by
  have hin : Input 1 endKeys endVals := by constructor <;> decide +kernel
  obtain ⟨s, hs⟩ := C38_build_partial (fun _ => 0#64) true 1 0 0 (by decide) _ _ hin 0
  have he : Supported endKeys s [] := by
    intro x _ _ _ c hc
    simp at hc
  have h0 := C50_zero (fun _ => 0#64) true 1 0 0 (by decide) endKeys endVals hin s hs
  refine ⟨s, hs, ?_, ?_⟩
  · obtain ⟨b, e, hb⟩ := C55_overlap _ true 1 0 0 (by decide) (by decide) _ _ hin 0 s hs [] [] he true
    have : b = true := hb.mpr ⟨0, [107], rfl, by decide +kernel, by simp, by rw [h0]; decide +kernel⟩
    rw [e, this]
  · obtain ⟨b, e, hb⟩ := C55_overlap _ true 1 0 0 (by decide) (by decide) _ _ hin 0 s hs [] [] he false
    have : b = false := by
      rw [← Bool.not_eq_true, hb]
      rintro ⟨n, k, hk, -, -, h1 | ⟨h1, -⟩⟩
      · exact absurd h1 ((show ∀ k ∈ endKeys, ¬ MayPrecede endKeys 0 [] k by decide +kernel) k (List.mem_of_getElem? hk))
      · simp at h1
    rw [e, this]

end Surf.Props
