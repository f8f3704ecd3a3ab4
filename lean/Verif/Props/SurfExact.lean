import Verif.Surf.Exact
import Verif.Surf.SufValue
import Verif.Props.SurfIter

/-!
# Property C54: what `Get` answers, for every query

The answer is given by the stored keys, the number of dense levels, and the bits of the suffixes (`hashBits`, `realBits`). The terms used: `shared` is the number of bytes that a key
has in common with some other stored key, `form` what the filter keeps of it (one byte more), `isEnd` says that it is a prefix of another stored key, `level` how many times it parts from others before.
-/

set_option linter.unusedSimpArgs false

namespace Surf.Props

/-- Where the node begins that holds the key: one byte behind the last place at which the key parts from others before. -/
def entry (keys : List Bytes) (k : Bytes) : Nat := (((keys.map (lcpLen k)).filter (· < shared keys k)).map (· + 1)).foldr max 0

/-- The query `q` leads to the stored key `k`, and `D` bytes of it are used up:
* `k` is no prefix of another key, and `q` begins with what is kept of `k`;
* `k` is a prefix of another key, and `q` is `k`;
* `k` is a prefix of another key, held on a sparse level, and `q` ends where the node begins that holds `k`;
* `k` is the only key and begins with 0xff, and `q` is empty. -/
def Meets (keys : List Bytes) (cut : Nat) (q k : Bytes) (D : Nat) : Prop :=
  (¬ isEnd keys k ∧ form keys k <+: q ∧ D = shared keys k) ∨
  (isEnd keys k ∧ q = k ∧ D = k.length) ∨
  (isEnd keys k ∧ cut ≤ level keys k ∧ q = k.take (entry keys k) ∧ D = entry keys k) ∨
  (keys = [k] ∧ q = [] ∧ k.head? = some 0xff ∧ D = 0)

/-- The suffix kept of the key `k`, behind `m` bytes, and that of the query, behind `l` bytes, agree. Without hash bits, real bits that are all 0, or that `k` is too short for, agree with everything. -/
def sameSuffix (fp : Bytes → Word) (h r : Nat) (k q : Bytes) (m l : Nat) : Prop :=
  if r = 0 then hashBits fp h k = hashBits fp h q
  else if h = 0 then realBits r m k = none ∨ realBits r m k = some 0 ∨ realBits r m k = realBits r l q
  else hashBits fp h k = hashBits fp h q ∧ (realBits r m k).getD 0 = (realBits r l q).getD 0

instance (keys : List Bytes) (cut : Nat) (q k : Bytes) (D : Nat) : Decidable (Meets keys cut q k D) := by
  unfold Meets isEnd
  infer_instance

theorem realBits_none {r m : Nat} {k : Bytes} : realBits r m k = none ↔ (k.length < m ∨ (k.length - m) * 8 < r) := by
  unfold realBits
  split
  · simp only [reduceCtorEq, false_iff]
    omega
  · simp only [true_iff]
    omega

theorem sufOK_same (fp : Bytes → Word) (vs h r : Nat) (hhr : h + r ≤ 64) (k q : Bytes) (m l : Nat) :
    sufOK (newBuilder vs h r) fp ((newBuilder vs h r).suffix fp k m) q l = true ↔ sameSuffix fp h r k q m l := by
  obtain ⟨wk, ek, vk⟩ := realSuffix_eq k m (r := r) (by omega)
  obtain ⟨wq, eq, vq⟩ := realSuffix_eq q l (r := r) (by omega)
  have hk := hashSuffix_eq fp k (h := h) (by omega)
  have hq := hashSuffix_eq fp q (h := h) (by omega)
  unfold sufOK sameSuffix Config.suffix newBuilder
  by_cases c0 : h = 0
  · by_cases c1 : r = 0
    · subst c0 c1
      simp [hashBits, Nat.mod_one]
    · subst c0
      simp only [c1, and_false, if_false, if_true, constructSuffix, ek, eq, Option.getD_some, Bool.or_eq_true, beq_iff_eq, Bool.and_eq_true, Bool.not_eq_true', decide_eq_false_iff_not]
      rw [← BitVec.toNat_inj, ← BitVec.toNat_inj, vk, vq, ← realBits_none]
      cases realBits r m k with
      | none => simp
      | some a =>
        cases realBits r l q with
        | none => simp
        | some b => simp
  · by_cases c1 : r = 0
    · subst c1
      simp only [c0, and_true, if_false, if_true, constructSuffix, Option.getD_some, beq_iff_eq]
      rw [← BitVec.toNat_inj, hk, hq]
    · simp only [c0, c1, and_self, if_false, constructSuffix, constructMixedSuffix, ek, eq, Option.bind_eq_bind, Option.bind_some, Option.pure_def, Option.getD_some, beq_iff_eq]
      have lk := hashSuffix_lt fp k (h := h) (by omega)
      have lq := hashSuffix_lt fp q (h := h) (by omega)
      obtain ⟨wk', ek', bk⟩ := realSuffix_lt k m (r := r) (by omega)
      obtain ⟨wq', eq', bq⟩ := realSuffix_lt q l (r := r) (by omega)
      rw [ek] at ek'
      rw [eq] at eq'
      rw [Option.some.injEq] at ek' eq'
      subst ek' eq'
      have key : ∀ (a b : Word), a.toNat < 2 ^ h → b.toNat < 2 ^ r → (a <<< r ||| b).toNat = 2 ^ r * a.toNat + b.toNat := by
        intro a b ha hb
        rw [BitVec.toNat_or, BitVec.toNat_shiftLeft, Nat.shiftLeft_eq, Nat.mod_eq_of_lt, Nat.mul_comm, Nat.two_pow_add_eq_or_of_lt hb]
        refine Nat.lt_of_lt_of_le (Nat.mul_lt_mul_of_pos_right ha (by positivity)) ?_
        rw [← Nat.pow_add]
        exact Nat.pow_le_pow_right (by omega) hhr
      rw [← BitVec.toNat_inj, key _ _ lk bk, key _ _ lq bq, ← hk, ← hq, ← vk, ← vq]
      constructor
      · intro hE
        have h1 : wk.toNat = wq.toNat := by
          have := congrArg (· % 2 ^ r) hE
          simp only [Nat.mul_add_mod] at this
          rwa [Nat.mod_eq_of_lt bk, Nat.mod_eq_of_lt bq] at this
        refine ⟨?_, h1⟩
        rw [h1] at hE
        exact Nat.eq_of_mul_eq_mul_left (show 0 < 2 ^ r by positivity) (Nat.add_right_cancel hE)
      · rintro ⟨h1, h2⟩
        rw [h1, h2]

section
variable {t0 t : Grp} {W : List Frame} {ip iq : List Item} {i : Item}

theorem leaf_entry (h0 : t0.Good) (hd : t0.d = 0) (hs : t0.kvs.Pairwise (·.1 < ·.1)) (w : Way t0 W t) (e : t.items = ip ++ i :: iq) {x : KV} (hx : i.kvs = [x]) : entry (t0.kvs.map (·.1)) x.1 = t.d := by
  have hsh := leaf_shared h0 hd hs w e hx
  have hxm := leaf_mem e hx
  unfold entry
  rw [hsh]
  apply Nat.le_antisymm
  · apply foldr_max_le
    intro n hn
    simp only [List.mem_map, List.mem_filter, decide_eq_true_eq] at hn
    obtain ⟨m, ⟨⟨k, ⟨y, hy, rfl⟩, rfl⟩, hlt⟩, rfl⟩ := hn
    by_cases hne : y = x
    · subst hne
      have := lcpLen_prefix (List.prefix_refl y.1)
      have := ((w.good h0).toOK).bd_le hxm
      omega
    · rcases leaf_lcp h0 w e hx hy hne with h | ⟨-, f, hf, h⟩
      · omega
      · have := (w.depths).1 f hf
        omega
  · cases w with
    | nil => omega
    | cons w' e' hc =>
      rename_i r f
      apply le_foldr_max
      simp only [List.mem_map, List.mem_filter, decide_eq_true_eq]
      obtain ⟨y, hy, h⟩ := (Way.cons w' e' hc).parted h0 hxm f (by simp)
      refine ⟨f.t.bd, ⟨⟨y.1, ⟨y, hy, rfl⟩, h⟩, ?_⟩, rfl⟩
      have := (Frame.child f).bd_ge
      have : (Frame.child f).d = f.t.bd + 1 := rfl
      omega

theorem comes_meets (h0 : t0.Good) (hd : t0.d = 0) (hs : t0.kvs.Pairwise (·.1 < ·.1)) {cut : Nat} (h2 : 0 < cut → 2 ≤ t0.kvs.length) (w : Way t0 W t) (e : t.items = ip ++ i :: iq) {x : KV} (hx : i.kvs = [x]) (q : Bytes) (D : Nat) :
    Comes t0 cut q W t i x D ↔ Meets (t0.kvs.map (·.1)) cut q x.1 D := by
  have hsh := leaf_shared h0 hd hs w e hx
  have hend := leaf_end h0 hs w e hx
  have hlev := leaf_level h0 hd hs w e hx
  have hent := leaf_entry h0 hd hs w e hx
  have hi : i ∈ t.items := by rw [e]; simp
  have hnt : i.term = false ↔ ¬ isEnd (t0.kvs.map (·.1)) x.1 := by rw [← hend]; simp
  unfold Comes Meets
  rw [← hnt, ← hend, hlev, hent]
  unfold form
  rw [hsh]
  refine or_congr_right (or_congr ?_ (or_congr_right ?_))
  · refine and_congr_right fun ht => and_congr_right fun _ => ?_
    obtain ⟨x', k1, k2, k3⟩ := item_term (w.good h0).toOK hi ht
    rw [hx] at k1
    simp only [List.cons.injEq, and_true] at k1
    subst k1
    rw [k3]
  · constructor
    · rintro ⟨h1, rfl, h3, h4, h5, h6, h7⟩
      cases w
      obtain ⟨e1, x', i', e2, e3, e4, e5, e6, e7⟩ := h0.single h3
      have hxx : x = x' := by
        have := leaf_mem e hx
        rw [e2, List.mem_singleton] at this
        exact this
      subst hxx
      refine ⟨by rw [e2]; rfl, h5, ?_, h7⟩
      have := (item_label h0.toOK hi h1 (x := x) (by rw [hx]; simp)).2.2
      rw [e1, hd, h6] at this
      rwa [List.head?_eq_getElem?]
    · rintro ⟨h1, h3, h4, h5⟩
      have hl : t0.kvs.length = 1 := by
        have := congrArg List.length h1
        simpa using this
      have hn2 : ¬ 2 ≤ t0.kvs.length := by omega
      have hW : W = [] := by
        cases w with
        | nil => rfl
        | cons w' e' hc =>
          have h6 := (Way.two h0 (.cons w' e' hc)).1
          have h7 := congrArg List.length (Way.cons w' e' hc).kvs
          simp only [List.length_append] at h7
          omega
      subst hW
      cases w
      obtain ⟨e1, x', i', e2, e3, e4, e5, e6, e7⟩ := h0.single hn2
      have hii : i = i' := by
        rw [e3] at hi
        simpa using hi
      subst hii
      have := (item_label h0.toOK hi e4 (x := x) (by rw [hx]; simp)).2.2
      rw [e1, hd, ← List.head?_eq_getElem?, h4, Option.some.injEq] at this
      exact ⟨e4, rfl, hn2, by omega, h3, this.symm, h5⟩

end

/-- **C54.** `Get(q)` finds something exactly if `q` leads to a stored key whose suffix agrees with that of `q`, and then it returns the value of this key. -/
theorem C54_hit (fp : Bytes → Word) (bmi : Bool) (vs h r : Nat) (hhr : h + r ≤ 64) (keys vals : List Bytes) (hin : Input vs keys vals) (hint : Int) (s : SuRF)
    (hs : build fp bmi (newBuilder vs h r) keys vals hint = some s) (q v : Bytes) :
    s.get fp bmi q = some (v, true) ↔
      ∃ (n : Nat) (k w : Bytes) (D : Nat), keys[n]? = some k ∧ vals[n]? = some w ∧ Meets keys s.ld.height q k D ∧ sameSuffix fp h r k q (shared keys k + 1) (D + 1) ∧ v = w.take vs := by
  obtain ⟨ht, B⟩ := the_built hhr hin hs
  have hg := B.get rfl bmi q
  have h2 : 0 < s.ld.height → 2 ≤ (⟨keys.zip vals, 0⟩ : Grp).kvs.length := root_two B
  have hfst : (⟨keys.zip vals, 0⟩ : Grp).kvs.map (·.1) = keys := hin.fst
  generalize s.ld.height = cut at *
  rw [hg]
  constructor
  · intro hit
    cases hf : find cut q (q.length + 1) 0 ⟨keys.zip vals, 0⟩ with
    | none => rw [hf] at hit; simp [answer] at hit
    | some p =>
      obtain ⟨j, D⟩ := p
      rw [hf] at hit
      simp only [answer, Option.some.injEq] at hit
      obtain ⟨W, t, ip, i, iq, x, w, e, hx, rfl, hC⟩ := find_comes B.root rfl (q.length + 1) [] _ .nil (Nat.zero_le _) (by simp) j D hf
      have hx' := (comes_meets B.root rfl hin.kvs.sorted h2 w e hx q D).mp hC
      have hkv : leafKV (t.bd, i) = x := by simp [leafKV, hx]
      have hsh := leaf_shared B.root rfl hin.kvs.sorted w e hx
      rw [hfst] at hx' hsh
      have hxm : x ∈ keys.zip vals := w.sub (leaf_mem e hx)
      obtain ⟨n, hn⟩ := List.getElem?_of_mem hxm
      rw [List.getElem?_zip_eq_some] at hn
      split at hit
      · rename_i hok
        simp only [Prod.mk.injEq, and_true] at hit
        refine ⟨n, x.1, x.2, D, hn.1, hn.2, hx', ?_, ?_⟩
        · rw [← sufOK_same fp vs h r hhr, hsh]
          simpa only [leafWord, hkv] using hok
        · rw [← hit]
          simp only [leafVal, hkv]
          rfl
      · simp at hit
  · rintro ⟨n, k, w, D, hk, hw, hM, hS, rfl⟩
    have hx : (k, w) ∈ keys.zip vals := by
      apply List.mem_of_getElem? (i := n)
      rw [List.getElem?_zip_eq_some]
      exact ⟨hk, hw⟩
    obtain ⟨m, tm, ⟨W, t, ip, i, iq, wy, e, hkv, hbd, htm⟩, -⟩ := B.leaf .nil (x := (k, w)) hx
    have hsh := leaf_shared B.root rfl hin.kvs.sorted wy e hkv
    have hC := comes_meets B.root rfl hin.kvs.sorted h2 wy e hkv q D
    rw [hfst] at hsh hC
    have hf := comes_find B.root rfl wy e hkv (hC.mpr hM)
    have hl : leafKV (t.bd, i) = (k, w) := by simp [leafKV, hkv]
    rw [hf]
    simp only [answer, leafWord, leafVal, hl]
    rw [← hsh, if_pos ((sufOK_same fp vs h r hhr k q _ _).mpr hS)]
    rfl

/-- Otherwise it reports a miss. -/
theorem C54_miss (fp : Bytes → Word) (bmi : Bool) (vs h r : Nat) (hhr : h + r ≤ 64) (keys vals : List Bytes) (hin : Input vs keys vals) (hint : Int) (s : SuRF)
    (hs : build fp bmi (newBuilder vs h r) keys vals hint = some s) (q : Bytes)
    (hno : ∀ k ∈ keys, ∀ D, Meets keys s.ld.height q k D → ¬ sameSuffix fp h r k q (shared keys k + 1) (D + 1)) : s.get fp bmi q = some ([], false) := by
  have hiff := C54_hit fp bmi vs h r hhr keys vals hin hint s hs q
  obtain ⟨ht, B⟩ := the_built hhr hin hs
  rw [B.get rfl bmi q] at hiff ⊢
  generalize find s.ld.height q (q.length + 1) 0 ⟨keys.zip vals, 0⟩ = f at *
  cases f with
  | none => rfl
  | some p =>
    obtain ⟨j, D⟩ := p
    simp only [answer] at hiff ⊢
    split
    · rename_i hok
      rw [if_pos hok] at hiff
      obtain ⟨n, k, w, D, hk, -, hM, hS, -⟩ := (hiff _).mp rfl
      exact absurd hS (hno k (List.mem_of_getElem? hk) D hM)
    · rfl

/-- Hash suffixes of more than 57 bits never tell two keys apart. -/
theorem C54_hash (fp : Bytes → Word) (h : Nat) (h57 : 57 < h) (k q : Bytes) (m l : Nat) : sameSuffix fp h 0 k q m l := by
  unfold sameSuffix hashBits
  rw [if_pos rfl, if_neg (by omega), if_neg (by omega)]

/-! ### Examples -/

/-- `endKeys` ("k", "ka\x01", "ka\x02", "kb") without dense levels: "kbzz" leads to "kb", of which everything is kept; "k" to "k", "ka\x02" to itself; "ka" leads nowhere. -/
example : Meets endKeys 0 [107, 98, 122, 122] [107, 98] 1 ∧ Meets endKeys 0 [107] [107] 1 ∧ Meets endKeys 0 [107, 97, 2] [107, 97, 2] 2 ∧ entry endKeys [107, 97, 2] = 2 ∧
    ∀ k ∈ endKeys, ¬ form endKeys k <+: [107, 97] ∨ isEnd endKeys k := by
  decide +kernel

/-- The third case: without dense levels the empty query leads to "k", since the prefix "k" of the root is not compared. -/
example : Meets endKeys 0 [] [107] 0 ∧ ¬ Meets endKeys 1 [] [107] 0 := by
  decide +kernel

/-- Three bits of a hash from bit 7 on, and twelve bits of a key behind one byte. -/
example : hashBits (fun _ => 0xfff#64) 3 [] = 7 ∧ realBits 12 1 [107, 97, 0xc0] = some 0x61c ∧ realBits 12 2 [107, 97, 0xc0] = none := by decide +kernel

/-- From 16 bits on the code goes back to the beginning of the key: behind "ka" the key "kabc" has the real suffix "ba". -/
example : realBits 16 2 [107, 97, 98, 99] = some 0x6261 := by decide +kernel

/-- The hypotheses of `C54_hit` hold for `endKeys`; "kb" with another real suffix is not found. -/
example : ∃ s, build (fun k => BitVec.ofNat 64 k.length) true (newBuilder 1 0 8) [[107], [107, 97, 1], [107, 97, 2], [107, 98, 5]] endVals 0 = some s ∧
    s.get (fun k => BitVec.ofNat 64 k.length) true [107, 98, 5, 7] = some ([3], true) ∧ s.get (fun k => BitVec.ofNat 64 k.length) true [107, 98, 6] ≠ some ([3], true) := by
  have hin : Input 1 [[107], [107, 97, 1], [107, 97, 2], [107, 98, 5]] endVals := by constructor <;> decide +kernel
  obtain ⟨s, hs⟩ := C38_build_partial (fun k => BitVec.ofNat 64 k.length) true 1 0 8 (by decide) _ _ hin 0
  refine ⟨s, hs, (C54_hit _ true 1 0 8 (by decide) _ _ hin 0 s hs _ _).mpr ⟨3, [107, 98, 5], [3], 1, rfl, rfl, .inl ?_, ?_, rfl⟩, ?_⟩
  · decide +kernel
  · unfold sameSuffix
    decide +kernel
  · intro h1
    obtain ⟨n, k, w, D, hk, hw, hM, hS, he⟩ := (C54_hit _ true 1 0 8 (by decide) _ _ hin 0 s hs _ _).mp h1
    match n, hk, hw with
    | 0, hk, hw => cases hw; exact absurd he (by decide)
    | 1, hk, hw => cases hw; exact absurd he (by decide)
    | 2, hk, hw => cases hw; exact absurd he (by decide)
    | 3, hk, hw =>
      cases hk
      rcases hM with ⟨-, -, rfl⟩ | ⟨h2, -⟩ | ⟨h2, -⟩ | ⟨h2, -⟩
      · revert hS
        unfold sameSuffix
        decide +kernel
      · revert h2
        decide +kernel
      · revert h2
        decide +kernel
      · exact absurd h2 (by decide)

end Surf.Props
