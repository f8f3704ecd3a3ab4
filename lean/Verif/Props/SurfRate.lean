import Verif.Props.SurfExact

/-!
# Property C71: how often a hash suffix lets a wrong query through

The hash function is a parameter of the model. Here its value at the query varies over all 64-bit words while its values at all other
byte strings stay as they are, and the words are counted for which `Get` finds the query.
-/

set_option linter.unusedSimpArgs false

namespace Surf.Props

/-! ## The filter depends on the hashes of its keys only -/

section
variable (cfg : Config) {fp fp' : Bytes → Word}

theorem insertLeaf_congr {k : Bytes} (h : fp k = fp' k) : Level.insertLeaf cfg fp k = Level.insertLeaf cfg fp' k := by
  have e : ∀ d, constructSuffix fp k d cfg.suffixType cfg.realSuffixLen cfg.hashSuffixLen = constructSuffix fp' k d cfg.suffixType cfg.realSuffixLen cfg.hashSuffixLen := by
    intro d
    unfold constructSuffix
    simp only [constructMixedSuffix, constructHashSuffix, h]
  funext d v l
  unfold Level.insertLeaf Level.insertSuffix
  rw [e]

theorem slice_mem {α : Type} {l x : List α} {a b : Nat} (h : slice l a b = some x) : ∀ k ∈ x, k ∈ l := by
  unfold slice at h
  split at h
  · cases h
    intro k hk
    exact List.mem_of_mem_take (List.mem_of_mem_drop hk)
  · cases h

theorem emitGroup_congr {rec1 rec2 : BuildFn} {keys : List Bytes} (h : ∀ k ∈ keys, fp k = fp' k)
    (hr : ∀ ls ks vs a b c, (∀ k ∈ ks, k ∈ keys) → rec1 ls ks vs a b c = rec2 ls ks vs a b c) (vals : List Bytes) (d lev gs ge : Nat) (ls : List Level) :
    emitGroup cfg fp rec1 keys vals d lev gs ge ls = emitGroup cfg fp' rec2 keys vals d lev gs ge ls := by
  unfold emitGroup
  cases hk : keys[gs]? with
  | none => rfl
  | some k =>
    simp only [Option.bind_eq_bind, Option.bind_some]
    rw [insertLeaf_congr cfg (h k (List.mem_of_getElem? hk))]
    refine congrArg _ (funext fun c => congrArg _ (funext fun ls => ?_))
    split
    · rfl
    · refine congrArg _ (funext fun ls => ?_)
      cases hs : slice keys gs ge with
      | none => rfl
      | some ks =>
        simp only [Option.bind_some]
        refine congrArg _ (funext fun vs => ?_)
        exact hr _ _ _ _ _ _ (slice_mem hs)

theorem groupLoop_congr {rec1 rec2 : BuildFn} {keys : List Bytes} (h : ∀ k ∈ keys, fp k = fp' k)
    (hr : ∀ ls ks vs a b c, (∀ k ∈ ks, k ∈ keys) → rec1 ls ks vs a b c = rec2 ls ks vs a b c) (vals : List Bytes) (pd d lev : Nat) : ∀ (n gs ge : Nat) (ls : List Level),
    groupLoop cfg fp rec1 keys vals pd d lev n gs ge ls = groupLoop cfg fp' rec2 keys vals pd d lev n gs ge ls := by
  intro n
  induction n with
  | zero => intro gs ge ls; rfl
  | succ n ih =>
    intro gs ge ls
    unfold groupLoop
    simp only [ih, emitGroup_congr cfg h hr, hr _ keys _ _ _ _ (fun k hk => hk)]

theorem buildNodes_congr (K : List Bytes) (h : ∀ k ∈ K, fp k = fp' k) : ∀ (fuel : Nat) (ls : List Level) (keys vals : List Bytes) (pd d lev : Nat), (∀ k ∈ keys, k ∈ K) →
    buildNodes cfg fp fuel ls keys vals pd d lev = buildNodes cfg fp' fuel ls keys vals pd d lev := by
  intro fuel
  induction fuel with
  | zero => intro ls keys vals pd d lev hk; rfl
  | succ fuel ih =>
    intro ls keys vals pd d lev hk
    have hk' : ∀ k ∈ keys, fp k = fp' k := fun k m => h k (hk k m)
    have ht : ∀ ls, terminatorItem cfg fp keys vals d lev ls = terminatorItem cfg fp' keys vals d lev ls := by
      intro ls
      unfold terminatorItem
      cases h0 : keys[0]? with
      | none => rfl
      | some k =>
        simp only [Option.bind_eq_bind, Option.bind_some]
        have e : Level.insertTerminator cfg fp k = Level.insertTerminator cfg fp' k := by
          funext d v l
          unfold Level.insertTerminator
          rw [insertLeaf_congr cfg (hk' k (List.mem_of_getElem? h0))]
        rw [e]
    unfold buildNodes
    simp only [ht, groupLoop_congr cfg hk' (fun ls ks vs a b c hs => ih ls ks vs a b c (fun k m => hk k (hs k m)))]

/-- `Build` uses the hash function on the keys only. -/
theorem build_congr (bmi : Bool) (keys vals : List Bytes) (hint : Int) (h : ∀ k ∈ keys, fp k = fp' k) : build fp bmi cfg keys vals hint = build fp' bmi cfg keys vals hint := by
  unfold build
  rw [buildNodes_congr cfg keys h _ _ _ _ _ _ _ (fun k m => m)]

end

/-! ## Counting -/

theorem countP_blocks (p : Nat → Bool) (a : Nat) (hp : ∀ n, p (n + a) = p n) : ∀ m, (List.range (m * a)).countP p = m * (List.range a).countP p := by
  have hm : ∀ m n, p (m * a + n) = p n := by
    intro m
    induction m with
    | zero => intro n; simp
    | succ m ih =>
      intro n
      rw [show (m + 1) * a + n = (m * a + n) + a by rw [Nat.succ_mul]; omega, hp, ih]
  intro m
  induction m with
  | zero => simp
  | succ m ih =>
    rw [Nat.succ_mul, List.range_add, List.countP_append, ih, List.countP_map, Nat.succ_mul]
    congr 2
    funext n
    exact hm m n

theorem countP_div (b c : Nat) (hb : 0 < b) : ∀ K, (List.range (K * b)).countP (fun n => n / b == c) = if c < K then b else 0 := by
  intro K
  induction K with
  | zero => simp
  | succ K ih =>
    rw [Nat.succ_mul, List.range_add, List.countP_append, ih, List.countP_map]
    have e : (List.range b).countP ((fun n => n / b == c) ∘ (fun x => K * b + x)) = if c = K then b else 0 := by
      by_cases hc : c = K
      · rw [if_pos hc]
        have : (List.range b).countP ((fun n => n / b == c) ∘ (fun x => K * b + x)) = (List.range b).length := by
          rw [List.countP_eq_length]
          intro x hx
          have hx := List.mem_range.mp hx
          simp only [Function.comp, beq_iff_eq, hc]
          rw [Nat.mul_comm, Nat.mul_add_div hb, Nat.div_eq_of_lt hx]
          rfl
        rw [this, List.length_range]
      · rw [if_neg hc, List.countP_eq_zero]
        intro x hx
        have hx := List.mem_range.mp hx
        simp only [Function.comp, beq_iff_eq]
        rw [Nat.mul_comm, Nat.mul_add_div hb, Nat.div_eq_of_lt hx]
        omega
    rw [e]
    split <;> split <;> split <;> omega

/-- Of all 64-bit words, one in `2^h` has the number `c` in its bits 7 to 6+h. -/
theorem count_hash (h c : Nat) (h57 : h ≤ 57) (hc : c < 2 ^ h) : (List.range (2 ^ 64)).countP (fun n => n / 2 ^ 7 % 2 ^ h == c) = 2 ^ (64 - h) := by
  have e : 2 ^ 64 = 2 ^ (57 - h) * (2 ^ h * 2 ^ 7) := by
    rw [← Nat.pow_add, ← Nat.pow_add]
    congr 1
    omega
  rw [e, countP_blocks]
  · have e2 : (List.range (2 ^ h * 2 ^ 7)).countP (fun n => n / 2 ^ 7 % 2 ^ h == c) = (List.range (2 ^ h * 2 ^ 7)).countP (fun n => n / 2 ^ 7 == c) := by
      apply List.countP_congr
      intro n hn
      have hn := List.mem_range.mp hn
      have : n / 2 ^ 7 < 2 ^ h := Nat.div_lt_of_lt_mul (by rw [Nat.mul_comm]; exact hn)
      rw [Nat.mod_eq_of_lt this]
    rw [e2, countP_div (2 ^ 7) c (by decide), if_pos hc, ← Nat.pow_add]
    congr 1
    omega
  · intro n
    have : (n + 2 ^ h * 2 ^ 7) / 2 ^ 7 = n / 2 ^ 7 + 2 ^ h := Nat.add_mul_div_right n (2 ^ h) (by decide)
    rw [this, Nat.add_mod_right]

/-! ## C71 -/

/-- The hash function `fp` with the value at `q` replaced by `w`. -/
def rehash (fp : Bytes → Word) (q : Bytes) (w : Word) : Bytes → Word := fun k => if k = q then w else fp k

/-- With `w` as the hash of `q`: `Get(q)` on the filter of these keys finds something. -/
def hits (fp : Bytes → Word) (bmi : Bool) (cfg : Config) (keys vals : List Bytes) (hint : Int) (q : Bytes) (w : Word) : Bool :=
  match (build (rehash fp q w) bmi cfg keys vals hint).bind (fun s => s.get (rehash fp q w) bmi q) with
  | some (_, true) => true
  | _ => false

/-- The number of hash values of `q` with which `Get(q)` finds something. -/
def lucky (fp : Bytes → Word) (bmi : Bool) (cfg : Config) (keys vals : List Bytes) (hint : Int) (q : Bytes) : Nat :=
  (List.range (2 ^ 64)).countP (fun n => hits fp bmi cfg keys vals hint q (BitVec.ofNat 64 n))

theorem rehash_other {fp : Bytes → Word} {q k : Bytes} {w : Word} (h : k ≠ q) : rehash fp q w k = fp k := by simp [rehash, h]
theorem rehash_self {fp : Bytes → Word} {q : Bytes} {w : Word} : rehash fp q w q = w := by simp [rehash]

theorem hashBits_other {fp : Bytes → Word} {h : Nat} {q k : Bytes} {w : Word} (e : k ≠ q) : hashBits (rehash fp q w) h k = hashBits fp h k := by
  unfold hashBits
  rw [rehash_other e]

theorem hashBits_self {fp : Bytes → Word} {h : Nat} (h57 : h ≤ 57) {q : Bytes} {n : Nat} (hn : n < 2 ^ 64) : hashBits (rehash fp q (BitVec.ofNat 64 n)) h q = n / 2 ^ 7 % 2 ^ h := by
  unfold hashBits
  rw [rehash_self, if_pos h57, BitVec.toNat_ofNat, Nat.mod_eq_of_lt hn]

/-- Either nothing is ever found, or it depends on the suffix of one stored key. -/
theorem hits_cases (fp : Bytes → Word) (bmi : Bool) (vs h r : Nat) (hhr : h + r ≤ 64) (keys vals : List Bytes) (hin : Input vs keys vals) (hint : Int) (q : Bytes) (hq : q ∉ keys)
    (s : SuRF) (hs : build fp bmi (newBuilder vs h r) keys vals hint = some s) :
    (∀ w, hits fp bmi (newBuilder vs h r) keys vals hint q w = false) ∨
    ∃ k m l, k ∈ keys ∧ ∀ w, hits fp bmi (newBuilder vs h r) keys vals hint q w = true ↔ sameSuffix (rehash fp q w) h r k q m l := by
  have hb : ∀ w, build (rehash fp q w) bmi (newBuilder vs h r) keys vals hint = some s := by
    intro w
    rw [← hs]
    exact build_congr _ bmi keys vals hint (fun k hk => rehash_other (fun e => hq (e ▸ hk)))
  have hg : ∀ w, s.get (rehash fp q w) bmi q = some (answer (newBuilder vs h r) (rehash fp q w) q (find s.ld.height q (q.length + 1) 0 ⟨keys.zip vals, 0⟩)) := by
    intro w
    obtain ⟨ht, B⟩ := the_built hhr hin (hb w)
    exact B.get rfl bmi q
  cases hf : find s.ld.height q (q.length + 1) 0 ⟨keys.zip vals, 0⟩ with
  | none =>
    left
    intro w
    unfold hits
    rw [hb, Option.bind_some, hg, hf]
    rfl
  | some p =>
    obtain ⟨j, D⟩ := p
    right
    obtain ⟨ht, B⟩ := the_built hhr hin hs
    obtain ⟨W, t, ip, i, iq, x, w, e, hx, rfl, hC⟩ := find_comes B.root rfl (q.length + 1) [] _ .nil (Nat.zero_le _) (by simp) j D hf
    have hkv : leafKV (t.bd, i) = x := by simp [leafKV, hx]
    have hxm : x ∈ keys.zip vals := w.sub (leaf_mem e hx)
    refine ⟨x.1, t.bd + 1, D + 1, (List.of_mem_zip (a := x.1) (b := x.2) hxm).1, ?_⟩
    intro w
    unfold hits
    rw [hb, Option.bind_some, hg, hf]
    simp only [answer, leafWord, hkv]
    rw [← sufOK_same (rehash fp q w) vs h r hhr x.1 q (t.bd + 1) (D + 1)]
    by_cases c : sufOK (newBuilder vs h r) (rehash fp q w) ((newBuilder vs h r).suffix (rehash fp q w) x.1 (t.bd + 1)) q (D + 1) = true
    · simp [c]
    · simp [c]

/-- **C71.** Let `q` not be stored. Of the `2^64` values that the hash of `q` can have, at most one in `2^h` makes `Get(q)` find something (`h ≤ 57` hash bits, any number of real bits). -/
theorem C71_rate (fp : Bytes → Word) (bmi : Bool) (vs h r : Nat) (h0 : 0 < h) (h57 : h ≤ 57) (hhr : h + r ≤ 64) (keys vals : List Bytes) (hin : Input vs keys vals) (hint : Int) (q : Bytes) (hq : q ∉ keys) :
    lucky fp bmi (newBuilder vs h r) keys vals hint q * 2 ^ h ≤ 2 ^ 64 := by
  obtain ⟨s, hs⟩ := C38_build_partial fp bmi vs h r hhr keys vals hin hint
  have hpow : 2 ^ (64 - h) * 2 ^ h = 2 ^ 64 := by
    rw [← Nat.pow_add]
    congr 1
    omega
  rcases hits_cases fp bmi vs h r hhr keys vals hin hint q hq s hs with hn | ⟨k, m, l, hk, hi⟩
  · unfold lucky
    simp only [hn]
    simp
  · have hle : lucky fp bmi (newBuilder vs h r) keys vals hint q ≤ (List.range (2 ^ 64)).countP (fun n => n / 2 ^ 7 % 2 ^ h == hashBits fp h k) := by
      unfold lucky
      apply List.countP_mono_left
      intro n hn hit
      have hn := List.mem_range.mp hn
      have hS := (hi _).mp hit
      have : hashBits (rehash fp q (BitVec.ofNat 64 n)) h k = hashBits (rehash fp q (BitVec.ofNat 64 n)) h q := by
        unfold sameSuffix at hS
        split at hS
        · exact hS
        · rw [if_neg (by omega)] at hS
          exact hS.1
      have hne : k ≠ q := fun e => hq (e ▸ hk)
      rw [hashBits_other hne, hashBits_self h57 hn] at this
      exact beq_iff_eq.mpr this.symm
    rw [count_hash h _ h57 (by unfold hashBits; rw [if_pos h57]; exact Nat.mod_lt _ (Nat.two_pow_pos h))] at hle
    calc _ ≤ 2 ^ (64 - h) * 2 ^ h := Nat.mul_le_mul_right _ hle
      _ = 2 ^ 64 := hpow

/-- **C71.** With hash suffixes only, exactly one in `2^h` does if `q` leads to a stored key (see C54), and none otherwise. -/
theorem C71_exact (fp : Bytes → Word) (bmi : Bool) (vs h : Nat) (h57 : h ≤ 57) (keys vals : List Bytes) (hin : Input vs keys vals) (hint : Int) (q : Bytes) (hq : q ∉ keys)
    (s : SuRF) (hs : build fp bmi (newBuilder vs h 0) keys vals hint = some s) :
    ((∃ k ∈ keys, ∃ D, Meets keys s.ld.height q k D) → lucky fp bmi (newBuilder vs h 0) keys vals hint q = 2 ^ (64 - h)) ∧
    (¬ (∃ k ∈ keys, ∃ D, Meets keys s.ld.height q k D) → lucky fp bmi (newBuilder vs h 0) keys vals hint q = 0) := by
  have hb : ∀ w, build (rehash fp q w) bmi (newBuilder vs h 0) keys vals hint = some s := by
    intro w
    rw [← hs]
    exact build_congr _ bmi keys vals hint (fun k hk => rehash_other (fun e => hq (e ▸ hk)))
  constructor
  · rintro ⟨k, hk, D, hM⟩
    rcases hits_cases fp bmi vs h 0 (by omega) keys vals hin hint q hq s hs with hn | ⟨k', m, l, hk', hi⟩
    · exfalso
      have hne : k ≠ q := fun e => hq (e ▸ hk)
      obtain ⟨n, hn'⟩ := List.getElem?_of_mem hk
      have hlen := hin.lens
      obtain ⟨v, hv⟩ : ∃ v, vals[n]? = some v := by
        have := (List.getElem?_eq_some_iff.mp hn').1
        exact ⟨vals[n]'(by omega), List.getElem?_eq_getElem (by omega)⟩
      have hit := (C54_hit (rehash fp q (fp k)) bmi vs h 0 (by omega) keys vals hin hint s (hb _) q (v.take vs)).mpr
        ⟨n, k, v, D, hn', hv, hM, by
          unfold sameSuffix hashBits
          rw [if_pos rfl, rehash_self, rehash_other hne], rfl⟩
      have := hn (fp k)
      unfold hits at this
      rw [hb, Option.bind_some, hit] at this
      exact absurd this (by simp)
    · have hne : k' ≠ q := fun e => hq (e ▸ hk')
      rw [← count_hash h (hashBits fp h k') h57 (by unfold hashBits; rw [if_pos h57]; exact Nat.mod_lt _ (Nat.two_pow_pos h))]
      unfold lucky
      apply List.countP_congr
      intro n hn
      have hn := List.mem_range.mp hn
      rw [hi, beq_iff_eq]
      unfold sameSuffix
      rw [if_pos rfl, hashBits_other hne, hashBits_self h57 hn]
      exact eq_comm
  · intro hno
    unfold lucky
    rw [List.countP_eq_zero]
    intro n _ hit
    unfold hits at hit
    rw [hb, Option.bind_some, C54_miss (rehash fp q _) bmi vs h 0 (by omega) keys vals hin hint s (hb _) q (fun k hk D hM _ => hno ⟨k, hk, D, hM⟩)] at hit
    exact absurd hit (by simp)

/-- **C71, where it fails.** With more than 57 hash bits (and no real bits) all of them do if `q` leads to a stored key: `constructHashSuffix` shifts by a negative amount then, taken as a
large one, and the suffix is always 0. -/
theorem C71_long (fp : Bytes → Word) (bmi : Bool) (vs h : Nat) (h57 : 57 < h) (h64 : h ≤ 64) (keys vals : List Bytes) (hin : Input vs keys vals) (hint : Int) (q : Bytes) (hq : q ∉ keys)
    (s : SuRF) (hs : build fp bmi (newBuilder vs h 0) keys vals hint = some s) (hm : ∃ k ∈ keys, ∃ D, Meets keys s.ld.height q k D) :
    lucky fp bmi (newBuilder vs h 0) keys vals hint q = 2 ^ 64 := by
  obtain ⟨k, hk, D, hM⟩ := hm
  have hall : (List.range (2 ^ 64)).countP (fun n => hits fp bmi (newBuilder vs h 0) keys vals hint q (BitVec.ofNat 64 n)) = (List.range (2 ^ 64)).length := by
    rw [List.countP_eq_length]
    intro x _
    have hb : build (rehash fp q (BitVec.ofNat 64 x)) bmi (newBuilder vs h 0) keys vals hint = some s := by
      rw [← hs]
      exact build_congr _ bmi keys vals hint (fun k hk => rehash_other (fun e => hq (e ▸ hk)))
    obtain ⟨n, hn'⟩ := List.getElem?_of_mem hk
    have hlen := hin.lens
    obtain ⟨v, hv⟩ : ∃ v, vals[n]? = some v := by
      have := (List.getElem?_eq_some_iff.mp hn').1
      exact ⟨vals[n]'(by omega), List.getElem?_eq_getElem (by omega)⟩
    have hit := (C54_hit (rehash fp q (BitVec.ofNat 64 x)) bmi vs h 0 (by omega) keys vals hin hint s hb q (v.take vs)).mpr ⟨n, k, v, D, hn', hv, hM, C54_hash _ h h57 k q _ _, rfl⟩
    unfold hits
    rw [hb, Option.bind_some, hit]
  rw [lucky, hall, List.length_range]

/-! ### Example -/

/-- "a\x05" leads to the stored "a\x01": one hash value in 256 lets it through 8 hash bits. "c" leads nowhere. -/
example (fp : Bytes → Word) : lucky fp true (newBuilder 1 8 0) [[97, 1], [98, 2]] [[1], [2]] 0 [97, 5] = 2 ^ 56 ∧ lucky fp true (newBuilder 1 8 0) [[97, 1], [98, 2]] [[1], [2]] 0 [99] = 0 := by
  have hin : Input 1 [[97, 1], [98, 2]] [[1], [2]] := by constructor <;> decide +kernel
  obtain ⟨s, hs⟩ := C38_build_partial fp true 1 8 0 (by decide) _ _ hin 0
  refine ⟨(C71_exact fp true 1 8 (by decide) _ _ hin 0 _ (by decide) s hs).1 ⟨[97, 1], by decide, 0, ?_⟩, (C71_exact fp true 1 8 (by decide) _ _ hin 0 _ (by decide) s hs).2 ?_⟩
  · exact Or.inl ⟨by decide +kernel, by decide +kernel, by decide +kernel⟩
  · rintro ⟨k, hk, D, hM⟩
    have hk : k = [97, 1] ∨ k = [98, 2] := by simpa using hk
    rcases hk with rfl | rfl
    · rcases hM with ⟨-, h, -⟩ | ⟨h, -⟩ | ⟨h, -⟩ | ⟨h, -⟩
      · exact absurd h (by decide +kernel)
      · exact absurd h (by decide +kernel)
      · exact absurd h (by decide +kernel)
      · exact absurd h (by decide)
    · rcases hM with ⟨-, h, -⟩ | ⟨h, -⟩ | ⟨h, -⟩ | ⟨h, -⟩
      · exact absurd h (by decide +kernel)
      · exact absurd h (by decide +kernel)
      · exact absurd h (by decide +kernel)
      · exact absurd h (by decide)

end Surf.Props
