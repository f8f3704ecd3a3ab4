import Verif.Surf.Shape
import Verif.Props.SurfGet

/-!
# Properties C27–C32: iterators and `HasOverlap`

The theorems are about the filter `s` that `Build` makes from `keys` and `vals` (see `Input`), for every hash function, with and without BMI2,
for every hint and suffix configuration, as far as their hypotheses do not say otherwise. What is kept of a key (`form`), the keys that are
prefixes of others (`isEnd`) and their levels (`level`) are specified in `Verif/Surf/Shape.lean` by how far keys agree. `s.ld.height` is the
number of dense levels of the filter.

Many of the statements hold only in part, because the code has errors. What fails is shown by the theorems whose names contain `witness`.
-/

set_option linter.unusedSimpArgs false

namespace Surf.Props

/-- The loop of a client: `for ; it.Valid(); it.Next() { … it.Key() … it.Value() … }`, or with `Prev`, reads this list of keys and values. -/
inductive Loop (s : SuRF) (step : Iterator → Option Iterator) : Iterator → List (Bytes × Bytes) → Prop
  | stop {it : Iterator} : it.valid = false → Loop s step it []
  | step {it it' : Iterator} {k v : Bytes} {l : List (Bytes × Bytes)} : it.valid = true → it.key = some k → it.value s = some v → step it = some it' → Loop s step it' l → Loop s step it ((k, v) :: l)

/-- What can be read at the position of a key. -/
def shown (keys : List Bytes) (vs : Nat) (kv : Bytes × Bytes) : Bytes × Bytes := (form keys kv.1, kv.2.take vs)

section
variable {fp : Bytes → Word} {bmi : Bool} {vs h r : Nat} {keys vals : List Bytes} {hint : Int} {s : SuRF}

theorem the_built (hhr : h + r ≤ 64) (hin : Input vs keys vals) (hs : build fp bmi (newBuilder vs h r) keys vals hint = some s) :
    ∃ ht, Built (newBuilder vs h r) fp s ⟨keys.zip vals, 0⟩ s.ld.height ht := by
  obtain ⟨cut, ht, B, -⟩ := get_built hhr hin hs
  rw [← B.ht] at B
  exact ⟨ht, B⟩

variable {cut ht : Nat}

theorem at_read (hin : Input vs keys vals) (B : Built (newBuilder vs h r) fp s ⟨keys.zip vals, 0⟩ cut ht) {it : Iterator} {b : List KV} {y : KV}
    (ha : At ⟨keys.zip vals, 0⟩ cut ht it b y) : it.valid = true ∧ it.key = some (form keys y.1) ∧ it.value s = some (y.2.take vs) := by
  obtain ⟨W, t, ip, i, iq, h1, -, h3⟩ := id ha
  obtain ⟨w, e, -⟩ := h1.at
  refine ⟨ha.valid, ?_, h1.value B h3⟩
  rw [h1.key B rfl h3]
  unfold form
  have := leaf_shared B.root rfl hin.kvs.sorted w e h3
  rw [show (⟨keys.zip vals, 0⟩ : Grp).kvs.map (·.1) = keys from hin.fst] at this
  rw [this]

theorem loop_next (hin : Input vs keys vals) (B : Built (newBuilder vs h r) fp s ⟨keys.zip vals, 0⟩ cut ht) (bmi : Bool) : ∀ (c b : List KV) (y : KV) (it : Iterator),
    At ⟨keys.zip vals, 0⟩ cut ht it b y → keys.zip vals = b ++ y :: c → Loop s (fun it => it.next bmi s) it ((y :: c).map (shown keys vs)) := by
  intro c
  induction c with
  | nil =>
    intro b y it ha e
    obtain ⟨h1, h2, h3⟩ := at_read hin B ha
    obtain ⟨it', h4, h5⟩ := B.i_next bmi ha
    refine .step h1 h2 h3 h4 ?_
    rcases h5 with ⟨-, h5⟩ | ⟨y', h5⟩
    · exact .stop h5.valid
    · obtain ⟨c', e'⟩ := h5.split
      have e'' : keys.zip vals = b ++ [y] ++ y' :: c' := e'
      rw [e] at e''
      have := congrArg List.length e''
      simp at this
  | cons z c ih =>
    intro b y it ha e
    obtain ⟨h1, h2, h3⟩ := at_read hin B ha
    obtain ⟨it', h4, h5⟩ := B.i_next bmi ha
    refine .step h1 h2 h3 h4 ?_
    rcases h5 with ⟨e', -⟩ | ⟨y', h5⟩
    · have e'' : b ++ [y] = keys.zip vals := e'
      rw [e] at e''
      have := congrArg List.length e''
      simp at this
    · obtain ⟨c', e'⟩ := h5.split
      have e'' : keys.zip vals = b ++ [y] ++ y' :: c' := e'
      rw [e] at e''
      have hyz : z = y' ∧ c = c' := by simpa using e''
      obtain ⟨rfl, rfl⟩ := hyz
      exact ih (b ++ [y]) z it' h5 (by rw [e]; simp)

theorem free_long (B : Built (newBuilder vs h r) fp s ⟨keys.zip vals, 0⟩ cut ht) {x y : KV} (hx : x ∈ keys.zip vals) (hne : cut = 0 ∨ x.1.length ≠ (⟨keys.zip vals, 0⟩ : Grp).bd) (hf : Free ⟨keys.zip vals, 0⟩ cut x y) :
    cut = 0 ∨ y.1.length ≠ (⟨keys.zip vals, 0⟩ : Grp).bd := by
  rcases hne with h0 | hne
  · exact .inl h0
  · rcases hf with h0 | ⟨h1, -⟩
    · exact .inl h0
    · right
      intro hl
      have h2 : y.1[(⟨keys.zip vals, 0⟩ : Grp).bd]? = none := List.getElem?_eq_none (by omega)
      rcases h1 with ⟨c, h1, -⟩ | h1
      · rw [h2] at h1
        simp at h1
      · rw [h2, eq_comm, List.getElem?_eq_none_iff] at h1
        have := B.root.toOK.bd_le (x := x) hx
        omega

/-- `Prev` goes back through the pairs before the current one, as far as it can. -/
theorem loop_prev (hin : Input vs keys vals) (B : Built (newBuilder vs h r) fp s ⟨keys.zip vals, 0⟩ cut ht) (bmi : Bool) (sel : KV → Bool) : ∀ (n : Nat) (b : List KV) (y : KV) (it : Iterator),
    b.length = n → At ⟨keys.zip vals, 0⟩ cut ht it b y → (cut = 0 ∨ y.1.length ≠ (⟨keys.zip vals, 0⟩ : Grp).bd) → (∀ z ∈ b, sel z = true ↔ Free ⟨keys.zip vals, 0⟩ cut y z) →
    Loop s (fun it => it.prev bmi s) it (shown keys vs y :: (b.filter sel).reverse.map (shown keys vs)) := by
  intro n
  induction n with
  | zero =>
    intro b y it hn ha hne hsel
    have : b = [] := List.eq_nil_of_length_eq_zero hn
    subst this
    obtain ⟨h1, h2, h3⟩ := at_read hin B ha
    obtain ⟨it', h4, h5⟩ := B.i_prev bmi ha hne
    refine .step h1 h2 h3 h4 ?_
    rcases h5 with ⟨-, h5⟩ | ⟨b', y', e, -⟩
    · exact .stop h5.valid
    · simp at e
  | succ n ih =>
    intro b y it hn ha hne hsel
    obtain ⟨h1, h2, h3⟩ := at_read hin B ha
    obtain ⟨it', h4, h5⟩ := B.i_prev bmi ha hne
    obtain ⟨c, ec⟩ := ha.split
    have hym : y ∈ keys.zip vals := by
      have ec' : keys.zip vals = b ++ y :: c := ec
      rw [ec']
      simp
    refine .step h1 h2 h3 h4 ?_
    rcases h5 with ⟨hst, h5⟩ | ⟨b', y', rfl, hf, h5⟩
    · have : b.filter sel = [] := by
        rw [List.filter_eq_nil_iff]
        intro z hz hs
        exact hst z hz ((hsel z hz).mp hs)
      rw [this]
      exact .stop h5.valid
    · have hs := (hsel y' (by simp)).mpr hf
      rw [List.filter_append, List.filter_cons, if_pos hs]
      simp only [List.filter_nil, List.reverse_append, List.reverse_cons, List.reverse_nil, List.nil_append, List.singleton_append, List.map_cons]
      refine ih b' y' it' (by simpa using hn) h5 (free_long B hym hne hf) (fun z hz => ?_)
      rw [hsel z (by simp [hz])]
      exact free_trans B.root.toOK (b := b') (m := []) (c := c) (by rw [ec]) hf z

/-! ### The root in terms of the keys -/

/-- The root has an end item only for a key that is a prefix of all keys. -/
theorem root_end (hin : Input vs keys vals) (hg : (⟨keys.zip vals, 0⟩ : Grp).Good) {i : Item} (hi : i ∈ (⟨keys.zip vals, 0⟩ : Grp).items) (ht : i.term = true) :
    ∃ x, i.kvs = [x] ∧ x ∈ keys.zip vals ∧ ∀ y ∈ keys, x.1 <+: y := by
  obtain ⟨x, h1, h2, h3⟩ := item_term hg.toOK hi ht
  refine ⟨x, h1, h2, fun y hy => ?_⟩
  rw [← hin.fst, List.mem_map] at hy
  obtain ⟨z, hz, rfl⟩ := hy
  have := hg.toOK.at_bd.1.common x h2 z hz
  rw [← h3, List.take_length] at this
  rw [this]
  exact List.take_prefix _ _

theorem not_root_end (hin : Input vs keys vals) {x y : KV} (hx : ∀ k ∈ keys, x.1 <+: k) (hxm : x ∈ keys.zip vals) (hy : y ∈ keys.zip vals) (hne : y ≠ x) : ¬ y.1 <+: x.1 := by
  intro hp
  apply hne
  have := hx y.1 (List.of_mem_zip hy).1
  exact eq_of_fst hin.kvs.sorted hy hxm (hp.eq_of_length (Nat.le_antisymm hp.length_le this.length_le))

theorem root_two (B : Built (newBuilder vs h r) fp s ⟨keys.zip vals, 0⟩ cut ht) (hc : 0 < cut) : 2 ≤ (⟨keys.zip vals, 0⟩ : Grp).kvs.length := by
  by_contra h2
  obtain ⟨e1, x, i, e2, e3, e4, e5, e6, e7⟩ := B.root.single h2
  have hd : (⟨keys.zip vals, 0⟩ : Grp).desc 1 = [] := by
    rw [Grp.desc_succ]
    simp [Grp.children, e3, e6, Grp.desc]
  exact B.ne 1 (by have := B.lt; omega) hd

end

/-! ### C29 -/

/-- **C29**, for filters with a dense level: `SeekToFirst` and `Next` go through the keys, in order, once each, with their values – except a key
that is a prefix of all keys, which is left out.
What is missing: the full statement is false, without dense levels (`C29_witness_sparse`) and for the key that is left out (`C29_witness_first`). -/
theorem C29_forward_partial (fp : Bytes → Word) (bmi : Bool) (vs h r : Nat) (hhr : h + r ≤ 64) (keys vals : List Bytes) (hin : Input vs keys vals) (hint : Int) (s : SuRF)
    (hs : build fp bmi (newBuilder vs h r) keys vals hint = some s) (hdense : 0 < s.ld.height) :
    ∃ it, s.newIterator.seekToFirst bmi s = some it ∧
      Loop s (fun it => it.next bmi s) it (((keys.zip vals).filter (fun kv => decide (∃ y ∈ keys, ¬ kv.1 <+: y))).map (shown keys vs)) := by
  obtain ⟨ht, B⟩ := the_built hhr hin hs
  generalize s.ld.height = cut at *
  have hg := B.root
  have hnot : ∀ {x : KV}, (∀ k ∈ keys, x.1 <+: k) → x ∈ keys.zip vals → ∀ l : List KV, (∀ y ∈ l, y ∈ keys.zip vals ∧ y ≠ x) → l.filter (fun kv => decide (∃ y ∈ keys, ¬ kv.1 <+: y)) = l := by
    intro x hx hxm l hl
    rw [List.filter_eq_self]
    intro y hy
    rw [decide_eq_true_eq]
    exact ⟨x.1, (List.of_mem_zip hxm).1, not_root_end hin hx hxm (hl y hy).1 (hl y hy).2⟩
  rcases hg.toOK.endItem_cases with ⟨h1, -⟩ | ⟨h1, z, js, h2, h3, h4, -⟩
  · obtain ⟨i, iq, e⟩ : ∃ i iq, (⟨keys.zip vals, 0⟩ : Grp).items = i :: iq := by
      cases hit : (⟨keys.zip vals, 0⟩ : Grp).items with
      | nil => exact absurd hit hg.toOK.items_ne
      | cons j jq => exact ⟨j, jq, rfl⟩
    obtain ⟨it, y, a1, a2⟩ := B.i_first bmi hdense B.newReady (ip := []) e (by simp) (hasEnd_false h1 i (by rw [e]; simp))
    obtain ⟨c, ec⟩ := a2.split
    have ec' : keys.zip vals = y :: c := ec
    refine ⟨it, a1, ?_⟩
    have hfil : (keys.zip vals).filter (fun kv => decide (∃ y ∈ keys, ¬ kv.1 <+: y)) = y :: c := by
      rw [← ec', List.filter_eq_self]
      intro x hx
      rw [decide_eq_true_eq]
      by_contra hc
      push Not at hc
      obtain ⟨i, hi, hxi, hcase⟩ := hg.toOK.item_of hx
      rcases hcase with ⟨-, k2, -⟩ | ⟨k1, k2, k3⟩
      · rw [hasEnd_false h1 i hi] at k2
        simp at k2
      · obtain ⟨ip, iq, ei⟩ := List.append_of_mem hi
        obtain ⟨j, hj, y, hy⟩ := other_item hg.toOK (root_two B hdense) ei
        obtain ⟨l1, l2, l3⟩ := lcp_items hg.toOK ei hj hxi hy
        have := lcpLen_prefix (hc y.1 (List.of_mem_zip l2).1)
        omega
    rw [hfil]
    exact loop_next hin B bmi c [] y it a2 ec'
  · obtain ⟨j, jq, rfl, hj⟩ := hg.end_two h2 h3
    obtain ⟨x, b1, b2, b3⟩ := root_end hin hg (i := z) (by rw [h2]; simp) h3
    obtain ⟨it, y, a1, a2⟩ := B.i_first bmi hdense B.newReady (ip := [z]) h2 (by simp [h3]) hj
    obtain ⟨c, ec⟩ := a2.split
    have ec' : keys.zip vals = [x] ++ y :: c := by
      have : keys.zip vals = [z].flatMap (·.kvs) ++ y :: c := ec
      rw [this]
      simp [b1]
    refine ⟨it, a1, ?_⟩
    have hfil : (keys.zip vals).filter (fun kv => decide (∃ y ∈ keys, ¬ kv.1 <+: y)) = y :: c := by
      conv_lhs => rw [ec']
      rw [List.filter_append, hnot b3 b2 (y :: c)]
      · rw [List.filter_cons, if_neg]
        · rfl
        · simp only [decide_eq_true_eq, not_exists, not_and, not_not]
          exact b3
      · intro k hk
        have hm : k ∈ keys.zip vals := by rw [ec']; simp [List.mem_cons.mp hk]
        refine ⟨hm, ?_⟩
        rintro rfl
        have hsrt := hin.kvs.sorted
        rw [ec', List.singleton_append, List.pairwise_cons] at hsrt
        exact absurd (hsrt.1 k hk) (List.lt_irrefl _)
    rw [hfil]
    have hb : [z].flatMap (·.kvs) = [x] := by simp [b1]
    rw [hb] at a2
    exact loop_next hin B bmi c [x] y it a2 ec'

/-! ### C30 -/

/-- The keys part, behind what all of them have in common, neither at the end of a key nor at a byte 0x00. -/
structure PlainRoot (keys : List Bytes) : Prop where
  /-- no key is a prefix of all keys -/
  noEnd : ∀ k ∈ keys, ∃ y ∈ keys, ¬ k <+: y
  /-- if a byte 0x00 follows what is common to all keys, in one of them, then in all of them -/
  noZero : ∀ p : Bytes, (∀ k ∈ keys, p <+: k) → (∃ k ∈ keys, p ++ [0] <+: k) → ∀ k ∈ keys, p ++ [0] <+: k

theorem PlainRoot.root {vs : Nat} {keys vals : List Bytes} (hp : PlainRoot keys) (hin : Input vs keys vals) (hg : (⟨keys.zip vals, 0⟩ : Grp).Good) (h2 : 2 ≤ (⟨keys.zip vals, 0⟩ : Grp).kvs.length) : ∀ i ∈ (⟨keys.zip vals, 0⟩ : Grp).items, i.plain := by
  intro i hi
  cases ht : i.term with
  | true =>
    exfalso
    obtain ⟨x, b1, b2, b3⟩ := root_end hin hg hi ht
    obtain ⟨y, hy, hn⟩ := hp.noEnd x.1 (List.of_mem_zip b2).1
    exact hn (b3 y hy)
  | false =>
    refine ⟨ht, fun h0 => ?_⟩
    have hl0 : i.label = 0 := UInt8.toNat_inj.mp h0
    obtain ⟨x, hx⟩ := List.exists_mem_of_ne_nil _ (hg.toOK.item_ne hi)
    obtain ⟨x1, x2, x3⟩ := item_label hg.toOK hi ht hx
    have hcom : ∀ y ∈ keys.zip vals, x.1.take (⟨keys.zip vals, 0⟩ : Grp).bd <+: y.1 := by
      intro y hy
      rw [hg.toOK.at_bd.1.common x x1 y hy]
      exact List.take_prefix _ _
    have hlen : (x.1.take (⟨keys.zip vals, 0⟩ : Grp).bd).length = (⟨keys.zip vals, 0⟩ : Grp).bd := by
      rw [List.length_take]
      omega
    have hx0 : x.1.take (⟨keys.zip vals, 0⟩ : Grp).bd ++ [0] <+: x.1 := by
      have : x.1.take ((⟨keys.zip vals, 0⟩ : Grp).bd + 1) = x.1.take (⟨keys.zip vals, 0⟩ : Grp).bd ++ [0] := by
        rw [List.take_add_one, x3, hl0]
        rfl
      rw [← this]
      exact List.take_prefix _ _
    obtain ⟨ip, iq, e⟩ := List.append_of_mem hi
    obtain ⟨j, hj, y, hy⟩ := other_item hg.toOK h2 e
    obtain ⟨l1, l2, l3⟩ := lcp_items hg.toOK e hj hx hy
    have hall := hp.noZero _ (fun k hk => by
      rw [← hin.fst, List.mem_map] at hk
      obtain ⟨z, hz, rfl⟩ := hk
      exact hcom z hz) ⟨x.1, (List.of_mem_zip x1).1, hx0⟩ y.1 (List.of_mem_zip l2).1
    have a1 := lcpLen_take x.1 y.1
    obtain ⟨u, hu⟩ := hx0
    obtain ⟨v, hv⟩ := hall
    have : lcpLen x.1 y.1 ≥ (x.1.take (⟨keys.zip vals, 0⟩ : Grp).bd ++ [0]).length := by
      conv_lhs => rw [← hu, ← hv]
      exact lcpLen_append _ _ _
    rw [List.length_append, hlen, l1] at this
    simp at this

/-- The number of bytes that all keys have in common. -/
def parting : List Bytes → Nat
  | [] => 0
  | k :: ks => (ks.map (lcpLen k)).foldr min k.length

/-- The key goes on with a byte other than 0x00 where the keys part. -/
def goesOn (keys : List Bytes) (k : Bytes) : Bool := match k[parting keys]? with
  | some c => c != 0
  | none => false

/-- The key `y` is a prefix of all the other keys but of the one where the keys part. -/
def second (keys : List Bytes) (y : Bytes) : Bool := y.length != parting keys && decide (3 ≤ keys.length) && keys.all (fun z => z.length == parting keys || y.isPrefixOf z)

/-- In a filter with `cut` dense levels, `Prev` comes from the stored key `k` to the stored key `y` below it. -/
def backTo (keys : List Bytes) (cut : Nat) (k y : Bytes) : Bool :=
  cut == 0 || ((goesOn keys y || y[parting keys]? == k[parting keys]?) && (keys.any (goesOn keys) || cut == 1 || !second keys y))

theorem foldr_min_le (l : List Nat) (a : Nat) : ∀ m ∈ l, l.foldr min a ≤ m := by
  induction l with
  | nil => simp
  | cons x l ih =>
    intro m hm
    rw [List.foldr_cons]
    rcases List.mem_cons.mp hm with rfl | hm
    · exact Nat.min_le_left _ _
    · exact Nat.le_trans (Nat.min_le_right _ _) (ih m hm)

theorem le_foldr_min (l : List Nat) (a b : Nat) (h : b ≤ a) (hl : ∀ m ∈ l, b ≤ m) : b ≤ l.foldr min a := by
  induction l with
  | nil => exact h
  | cons x l ih =>
    rw [List.foldr_cons]
    exact Nat.le_min.mpr ⟨hl x (by simp), ih (fun m hm => hl m (by simp [hm]))⟩

theorem le_lcpLen {a b : Bytes} {n : Nat} (h : a.take n = b.take n) (ha : n ≤ a.length) (hb : n ≤ b.length) : n ≤ lcpLen a b := by
  rw [← List.take_append_drop n a, ← List.take_append_drop n b, h]
  have := lcpLen_append (b.take n) (a.drop n) (b.drop n)
  rw [List.length_take, Nat.min_eq_left hb] at this
  exact this

section
variable {fp : Bytes → Word} {vs h r : Nat} {keys vals : List Bytes} {s : SuRF} {cut ht : Nat}

theorem parting_bd (hin : Input vs keys vals) (hg : (⟨keys.zip vals, 0⟩ : Grp).Good) (h2 : 2 ≤ (⟨keys.zip vals, 0⟩ : Grp).kvs.length) : parting keys = (⟨keys.zip vals, 0⟩ : Grp).bd := by
  obtain ⟨x, xs, ez⟩ : ∃ x xs, keys.zip vals = x :: xs := by
    cases hz : keys.zip vals with
    | nil => rw [show (⟨keys.zip vals, 0⟩ : Grp).kvs = keys.zip vals from rfl, hz] at h2; simp at h2
    | cons x xs => exact ⟨x, xs, rfl⟩
  have ek : keys = x.1 :: xs.map (·.1) := by
    conv_lhs => rw [← hin.fst, ez]
    rfl
  have hxm : x ∈ (⟨keys.zip vals, 0⟩ : Grp).kvs := by
    show x ∈ keys.zip vals
    rw [ez]
    simp
  have hp : parting keys = ((xs.map (·.1)).map (lcpLen x.1)).foldr min x.1.length := by rw [ek]; rfl
  rw [hp]
  apply Nat.le_antisymm
  · obtain ⟨i, hi, hxi⟩ : ∃ i ∈ (⟨keys.zip vals, 0⟩ : Grp).items, x ∈ i.kvs := by
      rw [← Grp.items_flat, List.mem_flatMap] at hxm
      exact hxm
    obtain ⟨ip, iq, e⟩ := List.append_of_mem hi
    obtain ⟨j, hj, y, hy⟩ := other_item hg.toOK h2 e
    obtain ⟨l1, l2, l3⟩ := lcp_items hg.toOK e hj hxi hy
    have hyx : y ∈ xs := by
      have : y ∈ keys.zip vals := l2
      rw [ez, List.mem_cons] at this
      rcases this with rfl | h
      · exact absurd rfl l3
      · exact h
    rw [← l1]
    exact foldr_min_le _ _ _ (List.mem_map.mpr ⟨y.1, List.mem_map.mpr ⟨y, hyx, rfl⟩, rfl⟩)
  · apply le_foldr_min _ _ _ (hg.toOK.bd_le hxm)
    intro m hm
    rw [List.map_map, List.mem_map] at hm
    obtain ⟨y, hy, rfl⟩ := hm
    have hym : y ∈ (⟨keys.zip vals, 0⟩ : Grp).kvs := by
      show y ∈ keys.zip vals
      rw [ez]
      simp [hy]
    exact le_lcpLen (hg.toOK.at_bd.1.common x hxm y hym) (hg.toOK.bd_le hxm) (hg.toOK.bd_le hym)

theorem goesOn_kept (hp : parting keys = (⟨keys.zip vals, 0⟩ : Grp).bd) (y : KV) : goesOn keys y.1 = true ↔ Kept ⟨keys.zip vals, 0⟩ y := by
  unfold goesOn Kept
  rw [hp]
  cases hy : y.1[(⟨keys.zip vals, 0⟩ : Grp).bd]? with
  | none => simp
  | some c => simp

theorem second_trap (hin : Input vs keys vals) (hp : parting keys = (⟨keys.zip vals, 0⟩ : Grp).bd) (y : KV) : second keys y.1 = true ↔ Trap ⟨keys.zip vals, 0⟩ y := by
  unfold second Trap
  rw [hp]
  have hl : keys.length = (keys.zip vals).length := by rw [← List.length_map (f := fun x : KV => x.1) (as := keys.zip vals), hin.fst]
  simp only [Bool.and_eq_true, bne_iff_ne, ne_eq, decide_eq_true_eq, List.all_eq_true, Bool.or_eq_true, beq_iff_eq, List.isPrefixOf_iff_prefix, and_assoc]
  refine and_congr_right fun _ => and_congr (by rw [hl]) ?_
  constructor
  · intro h z hz
    exact h z.1 (List.of_mem_zip (show z ∈ keys.zip vals from hz)).1
  · intro h k hk
    rw [← hin.fst, List.mem_map] at hk
    obtain ⟨z, hz, rfl⟩ := hk
    exact h z hz

theorem backTo_free (hin : Input vs keys vals) (B : Built (newBuilder vs h r) fp s ⟨keys.zip vals, 0⟩ cut ht) (x y : KV) : backTo keys cut x.1 y.1 = true ↔ Free ⟨keys.zip vals, 0⟩ cut x y := by
  unfold backTo Free
  rcases Nat.eq_zero_or_pos cut with h0 | hc
  · simp [h0]
  · have hp := parting_bd hin B.root (root_two B hc)
    simp only [Bool.or_eq_true, Bool.and_eq_true, beq_iff_eq, Bool.not_eq_true', or_assoc]
    rw [goesOn_kept hp, hp, ← Bool.not_eq_true, second_trap hin hp, List.any_eq_true]
    refine or_congr_right (and_congr_right fun _ => or_congr_left ?_)
    constructor
    · rintro ⟨k, hk, h1⟩
      rw [← hin.fst, List.mem_map] at hk
      obtain ⟨z, hz, rfl⟩ := hk
      exact ⟨z, hz, (goesOn_kept hp z).mp h1⟩
    · rintro ⟨z, hz, h1⟩
      exact ⟨z.1, (List.of_mem_zip (show z ∈ keys.zip vals from hz)).1, (goesOn_kept hp z).mpr h1⟩

/-- A key that is a prefix of all keys. -/
theorem prefix_all (hin : Input vs keys vals) (hg : (⟨keys.zip vals, 0⟩ : Grp).Good) (h2 : 2 ≤ (⟨keys.zip vals, 0⟩ : Grp).kvs.length) {x : KV} (hx : x ∈ keys.zip vals) :
    x.1.length = (⟨keys.zip vals, 0⟩ : Grp).bd ↔ ∀ y ∈ keys, x.1 <+: y := by
  constructor
  · intro hl y hy
    rw [← hin.fst, List.mem_map] at hy
    obtain ⟨z, hz, rfl⟩ := hy
    have := hg.toOK.at_bd.1.common x hx z hz
    rw [show x.1.take (⟨(⟨keys.zip vals, 0⟩ : Grp).kvs, (⟨keys.zip vals, 0⟩ : Grp).bd⟩ : Grp).d = x.1 by rw [← hl]; exact List.take_length] at this
    rw [this]
    exact List.take_prefix _ _
  · intro h
    have hxm : x ∈ (⟨keys.zip vals, 0⟩ : Grp).kvs := hx
    obtain ⟨i, hi, hxi⟩ : ∃ i ∈ (⟨keys.zip vals, 0⟩ : Grp).items, x ∈ i.kvs := by
      rw [← Grp.items_flat, List.mem_flatMap] at hxm
      exact hxm
    obtain ⟨ip, iq, e⟩ := List.append_of_mem hi
    obtain ⟨j, hj, y, hy⟩ := other_item hg.toOK h2 e
    obtain ⟨l1, l2, l3⟩ := lcp_items hg.toOK e hj hxi hy
    have := lcpLen_prefix (h y.1 (List.of_mem_zip (show y ∈ keys.zip vals from l2)).1)
    omega

end

/-- **C53.** In a filter with a dense level, `SeekToLast` stops on the greatest key, and `Prev` then goes through the stored keys below it, in reverse order, once each, with their values – except those
which `backTo` tells to be out of reach. -/
theorem C53_last (fp : Bytes → Word) (bmi : Bool) (vs h r : Nat) (hhr : h + r ≤ 64) (keys vals : List Bytes) (hin : Input vs keys vals) (hint : Int) (s : SuRF)
    (hs : build fp bmi (newBuilder vs h r) keys vals hint = some s) (hdense : 0 < s.ld.height) :
    ∃ it init last, s.newIterator.seekToLast bmi s = some it ∧ keys.zip vals = init ++ [last] ∧
      Loop s (fun it => it.prev bmi s) it (shown keys vs last :: (init.filter (fun kv => backTo keys s.ld.height last.1 kv.1)).reverse.map (shown keys vs)) := by
  obtain ⟨ht, B⟩ := the_built hhr hin hs
  generalize s.ld.height = cut at *
  have h2 := root_two B hdense
  obtain ⟨it, b, y, a1, a2, a3⟩ := B.i_last bmi hdense B.newReady h2
  have a3' : keys.zip vals = b ++ [y] := a3
  refine ⟨it, b, y, a1, a3', loop_prev hin B bmi _ b.length b y it rfl a2 (.inr ?_) (fun z hz => backTo_free hin B y z)⟩
  -- the last pair is not the first one
  intro hl
  have hall := (prefix_all hin B.root h2 (x := y) (by rw [a3']; simp)).mp hl
  cases b with
  | nil => rw [a3] at h2; simp at h2
  | cons z b =>
    have hsrt := hin.kvs.sorted
    rw [a3', List.cons_append, List.pairwise_cons] at hsrt
    have h4 := hsrt.1 y (by simp)
    have h5 := hall z.1 (List.of_mem_zip (show z ∈ keys.zip vals by rw [a3']; simp)).1
    exact absurd h4 (List.not_lt.mpr (prefix_le h5))

/-- **C30**, for filters with a dense level, if no key is a prefix of all keys and none goes on with a byte 0x00 where the keys part first:
`SeekToLast` and `Prev` go through the keys, in reverse order, once each, with their values. (`C53_last` says what happens otherwise.)
What is missing: the full statement is false, see `C30_witness_sparse`, `C30_witness_first` and `C30_witness_zero`. -/
theorem C30_backward_partial (fp : Bytes → Word) (bmi : Bool) (vs h r : Nat) (hhr : h + r ≤ 64) (keys vals : List Bytes) (hin : Input vs keys vals) (hint : Int) (s : SuRF)
    (hs : build fp bmi (newBuilder vs h r) keys vals hint = some s) (hdense : 0 < s.ld.height) (hroot : PlainRoot keys) :
    ∃ it, s.newIterator.seekToLast bmi s = some it ∧ Loop s (fun it => it.prev bmi s) it ((keys.zip vals).reverse.map (shown keys vs)) := by
  obtain ⟨it, b, y, a1, a2, a3⟩ := C53_last fp bmi vs h r hhr keys vals hin hint s hs hdense
  refine ⟨it, a1, ?_⟩
  obtain ⟨ht, B⟩ := the_built hhr hin hs
  have h2 := root_two B hdense
  have hz := hroot.root hin B.root h2
  have hkept : ∀ z ∈ keys.zip vals, Kept ⟨keys.zip vals, 0⟩ z := by
    intro z hzm
    have hzm' : z ∈ (⟨keys.zip vals, 0⟩ : Grp).kvs := hzm
    rw [← Grp.items_flat, List.mem_flatMap] at hzm'
    obtain ⟨i, hi, hzi⟩ := hzm'
    exact plain_kept B.root.toOK hi (hz i hi) hzi
  have hfil : b.filter (fun kv => backTo keys s.ld.height y.1 kv.1) = b := by
    rw [List.filter_eq_self]
    intro z hzm
    have hzm' : z ∈ keys.zip vals := by rw [a2]; simp [hzm]
    exact (backTo_free hin B y z).mpr (.inr ⟨.inl (hkept z hzm'), .inl ⟨z, hzm', hkept z hzm'⟩⟩)
  rw [hfil] at a3
  rw [a2]
  simpa using a3

/-! ### C31 -/

/-- The positions reached by `SeekToFirst` and `Next`. -/
inductive Forward (bmi : Bool) (s : SuRF) : Iterator → Prop
  | first {it : Iterator} : s.newIterator.seekToFirst bmi s = some it → Forward bmi s it
  | next {it it' : Iterator} : Forward bmi s it → it.next bmi s = some it' → Forward bmi s it'

/-- **C31.** At every valid position reached by `SeekToFirst` and `Next`, `Value` returns the value of a stored key and `Key` what is kept of
this key, which is a prefix of it. (Without dense levels the iterator never gets valid in this way, see `C29_witness_sparse`.) -/
theorem C31_key (fp : Bytes → Word) (bmi : Bool) (vs h r : Nat) (hhr : h + r ≤ 64) (keys vals : List Bytes) (hin : Input vs keys vals) (hint : Int) (s : SuRF)
    (hs : build fp bmi (newBuilder vs h r) keys vals hint = some s) (it : Iterator) (hit : Forward bmi s it) (hv : it.valid = true) :
    ∃ (n : Nat) (k v : Bytes), keys[n]? = some k ∧ vals[n]? = some v ∧ it.key = some (form keys k) ∧ form keys k <+: k ∧ it.value s = some (v.take vs) := by
  obtain ⟨ht, B⟩ := the_built hhr hin hs
  rcases Nat.eq_zero_or_pos s.ld.height with h0 | hdense
  · exfalso
    have hinv : it.d.valid = false := by
      clear hv
      induction hit with
      | first hf =>
        unfold Iterator.seekToFirst at hf
        simp only [h0] at hf
        rw [if_neg (by omega)] at hf
        split at hf
        · simp only [Option.bind_eq_bind, Option.bind_eq_some_iff, Option.pure_def, Option.some.injEq] at hf
          obtain ⟨_, _, _, _, rfl⟩ := hf
          rfl
        · simp only [Option.some.injEq] at hf
          rw [← hf]
          rfl
      | next hf hn ih =>
        unfold Iterator.next Iterator.incrDense at hn
        simp only [ih] at hn
        split at hn
        · simp only [Option.bind_eq_bind, Option.bind_eq_some_iff, Option.pure_def] at hn
          obtain ⟨s', _, hn⟩ := hn
          split at hn
          · simp only [Option.some.injEq] at hn
            rw [← hn]
            exact ih
          · simp only [Bool.not_false, if_true, Option.some.injEq] at hn
            rw [← hn]
            exact ih
        · simp only [Bool.not_false, if_true, Option.some.injEq] at hn
          rw [← hn]
          exact ih
    unfold Iterator.valid at hv
    rw [hinv] at hv
    simp at hv
  · generalize s.ld.height = cut at *
    have hg := B.root
    have hinv : (∃ b y, At ⟨keys.zip vals, 0⟩ cut ht it b y) ∨ Done cut ht it := by
      clear hv
      induction hit with
      | first hf =>
        obtain ⟨ip, i, iq, e, e1, e2⟩ : ∃ ip i iq, (⟨keys.zip vals, 0⟩ : Grp).items = ip ++ i :: iq ∧ (∀ z ∈ ip, z.term = true) ∧ i.term = false := by
          rcases hg.toOK.endItem_cases with ⟨h1, -⟩ | ⟨h1, z, js, h2, h3, h4, -⟩
          · cases hit : (⟨keys.zip vals, 0⟩ : Grp).items with
            | nil => exact absurd hit hg.toOK.items_ne
            | cons j jq => exact ⟨[], j, jq, rfl, by simp, hasEnd_false h1 j (by rw [hit]; simp)⟩
          · obtain ⟨j, jq, rfl, hj⟩ := hg.end_two h2 h3
            exact ⟨[z], j, jq, h2, by simp [h3], hj⟩
        obtain ⟨it', y, a1, a2⟩ := B.i_first bmi hdense B.newReady e e1 e2
        rw [hf, Option.some.injEq] at a1
        rw [a1]
        exact .inl ⟨_, y, a2⟩
      | next hf hn ih =>
        rcases ih with ⟨b, y, ih⟩ | ih
        · obtain ⟨it', a1, a2⟩ := B.i_next bmi ih
          rw [hn, Option.some.injEq] at a1
          rw [a1]
          rcases a2 with ⟨-, a2⟩ | ⟨y', a2⟩
          · exact .inr a2
          · exact .inl ⟨_, y', a2⟩
        · have := B.done_next bmi ih
          rw [hn, Option.some.injEq] at this
          rw [this]
          exact .inr ih
    rcases hinv with ⟨b, y, ha⟩ | hd
    · obtain ⟨-, a1, a2⟩ := at_read hin B ha
      obtain ⟨c, ec⟩ := ha.split
      have hm : y ∈ keys.zip vals := by
        have : keys.zip vals = b ++ y :: c := ec
        rw [this]
        simp
      obtain ⟨n, hn⟩ := List.getElem?_of_mem hm
      rw [List.getElem?_zip_eq_some] at hn
      exact ⟨n, y.1, y.2, hn.1, hn.2, a1, List.take_prefix _ _, a2⟩
    · rw [hd.valid] at hv
      simp at hv

/-! ### C28, C32 -/

/-- The positions reached by `Seek`, for keys that satisfy `ok`, `Next` and `Prev`, and, in filters with a dense level, `SeekToFirst` and `SeekToLast`.
(The number of levels is a `uint32` in the code, louds_dense.go:21-22.) -/
inductive Reached (bmi : Bool) (s : SuRF) (ok : Bytes → Prop) : Iterator → Prop
  | new : Reached bmi s ok s.newIterator
  | first {it it' : Iterator} : Reached bmi s ok it → 0 < s.ld.height → it.seekToFirst bmi s = some it' → Reached bmi s ok it'
  | last {it it' : Iterator} : Reached bmi s ok it → 0 < s.ld.height → it.seekToLast bmi s = some it' → Reached bmi s ok it'
  | seek {it it' : Iterator} {q : Bytes} {fl : Bool} : ok q → Reached bmi s ok it → it.seek bmi s q = some (it', fl) → Reached bmi s ok it'
  | next {it it' : Iterator} : Reached bmi s ok it → it.next bmi s = some it' → Reached bmi s ok it'
  | prev {it it' : Iterator} : s.ld.height < 2 ^ 32 → Reached bmi s ok it → it.prev bmi s = some it' → Reached bmi s ok it'

/-- If `q` goes on behind a stored key that is a prefix of others and on a sparse level, a stored key goes on with the same byte. -/
def Supported (keys : List Bytes) (s : SuRF) (q : Bytes) : Prop :=
  ∀ k ∈ keys, isEnd keys k → s.ld.height ≤ level keys k → ∀ c : UInt8, k ++ [c] <+: q → ∃ y ∈ keys, k ++ [c] <+: y

/-- The keys that are prefixes of others are on dense levels. (If no key is a prefix of another one, this holds.) -/
def EndsDense (keys : List Bytes) (s : SuRF) : Prop := ∀ k ∈ keys, isEnd keys k → level keys k < s.ld.height

/-- Then every search is supported. -/
theorem EndsDense.supported {keys : List Bytes} {s : SuRF} (he : EndsDense keys s) (q : Bytes) : Supported keys s q := by
  intro k hk hend hl
  have := he k hk hend
  omega

/-- The search for a stored key, or a prefix of one, is supported. -/
theorem supported_prefix {keys : List Bytes} (s : SuRF) {q y : Bytes} (hy : y ∈ keys) (hq : q <+: y) : Supported keys s q :=
  fun _ _ _ _ _ hc => ⟨y, hy, hc.trans hq⟩

section
variable {fp : Bytes → Word} {bmi : Bool} {vs h r : Nat} {keys vals : List Bytes} {hint : Int} {s : SuRF} {ht : Nat}

theorem Supported.clear (hin : Input vs keys vals) (B : Built (newBuilder vs h r) fp s ⟨keys.zip vals, 0⟩ s.ld.height ht) {q : Bytes} (he : Supported keys s q) : Clear ⟨keys.zip vals, 0⟩ s.ld.height q := by
  apply clear_of B.root rfl hin.kvs.sorted
  rw [show (⟨keys.zip vals, 0⟩ : Grp).kvs.map (·.1) = keys from hin.fst]
  exact he

theorem first_items (hg : (⟨keys.zip vals, 0⟩ : Grp).Good) : ∃ ip i iq, (⟨keys.zip vals, 0⟩ : Grp).items = ip ++ i :: iq ∧ (∀ z ∈ ip, z.term = true) ∧ i.term = false := by
  rcases hg.toOK.endItem_cases with ⟨h1, -⟩ | ⟨h1, z, js, h2, h3, h4, -⟩
  · cases hit : (⟨keys.zip vals, 0⟩ : Grp).items with
    | nil => exact absurd hit hg.toOK.items_ne
    | cons j jq => exact ⟨[], j, jq, rfl, by simp, hasEnd_false h1 j (by rw [hit]; simp)⟩
  · obtain ⟨j, jq, rfl, hj⟩ := hg.end_two h2 h3
    exact ⟨[z], j, jq, h2, by simp [h3], hj⟩

theorem reached_inv (hin : Input vs keys vals) (B : Built (newBuilder vs h r) fp s ⟨keys.zip vals, 0⟩ s.ld.height ht) {it : Iterator}
    (hr : Reached bmi s (Supported keys s) it) : (∃ b y, At ⟨keys.zip vals, 0⟩ s.ld.height ht it b y) ∨ Done s.ld.height ht it := by
  have hns := fun q he => Supported.clear hin B (q := q) he
  generalize Supported keys s = ok at *
  generalize hcut : s.ld.height = cut at *
  induction hr with
  | new => exact .inr ⟨B.newReady, rfl, .inl rfl⟩
  | @first it0 it1 hr hd hq ih =>
    have hready : Ready cut ht it0 := by
      rcases ih with ⟨b, y, ih⟩ | ih
      · exact ih.ready
      · exact ih.ready
    obtain ⟨ip, i, iq, e, e1, e2⟩ := first_items B.root
    obtain ⟨it', y, a1, a2⟩ := B.i_first bmi (by omega) hready e e1 e2
    rw [hq, Option.some.injEq] at a1
    rw [a1]
    exact .inl ⟨_, y, a2⟩
  | @last it0 it1 hr hd hq ih =>
    have hready : Ready cut ht it0 := by
      rcases ih with ⟨b, y, ih⟩ | ih
      · exact ih.ready
      · exact ih.ready
    obtain ⟨it', b, y, a1, a2, -⟩ := B.i_last bmi (by omega) hready (root_two B (by omega))
    rw [hq, Option.some.injEq] at a1
    rw [a1]
    exact .inl ⟨_, y, a2⟩
  | @seek it0 it1 q fl hok hr hq ih =>
    have hready : Ready cut ht it0 := by
      rcases ih with ⟨b, y, ih⟩ | ih
      · exact ih.ready
      · exact ih.ready
    obtain ⟨it', fl, b, a1, -, a2⟩ := B.i_seek bmi rfl q (hns q hok) hready
    rw [hq, Option.some.injEq, Prod.mk.injEq] at a1
    rw [a1.1]
    rcases a2 with ⟨-, a2⟩ | ⟨y, a2⟩
    · exact .inr a2
    · exact .inl ⟨b, y, a2⟩
  | next hr hn ih =>
    rcases ih with ⟨b, y, ih⟩ | ih
    · obtain ⟨it', a1, a2⟩ := B.i_next bmi ih
      rw [hn, Option.some.injEq] at a1
      rw [a1]
      rcases a2 with ⟨-, a2⟩ | ⟨y', a2⟩
      · exact .inr a2
      · exact .inl ⟨_, y', a2⟩
    · have := B.done_next bmi ih
      rw [hn, Option.some.injEq] at this
      rw [this]
      exact .inr ih
  | prev h32 hr hn ih =>
    rcases ih with ⟨b, y, ih⟩ | ih
    · have hne : cut = 0 ∨ y.1.length ≠ (⟨keys.zip vals, 0⟩ : Grp).bd := by
        rcases Nat.eq_zero_or_pos cut with h0 | hc
        · exact .inl h0
        · right
          intro hl
          have := B.i_prev_end bmi ih hc (by omega) hl
          rw [this] at hn
          simp at hn
      obtain ⟨it', a1, a2⟩ := B.i_prev bmi ih hne
      rw [hn, Option.some.injEq] at a1
      rw [a1]
      rcases a2 with ⟨-, a2⟩ | ⟨b', y', -, -, a2⟩
      · exact .inr a2
      · exact .inl ⟨_, y', a2⟩
    · have := B.done_prev bmi ih
      rw [hn, Option.some.injEq] at this
      rw [this]
      exact .inr ih

theorem inv_ready {cut ht : Nat} {t0 : Grp} {it : Iterator} (h : (∃ b y, At t0 cut ht it b y) ∨ Done cut ht it) : Ready cut ht it := by
  rcases h with ⟨b, y, h⟩ | h
  · exact h.ready
  · exact h.ready

end

section
variable {fp : Bytes → Word} {vs h r : Nat} {keys vals : List Bytes} {s : SuRF} {cut ht : Nat}

/-- Only the key that is a prefix of all keys shows as itself. -/
theorem form_end (hin : Input vs keys vals) {x k : KV} (hk : k ∈ keys.zip vals) (hall : ∀ y ∈ keys, k.1 <+: y) (hx : x ∈ keys.zip vals) (he : form keys x.1 = k.1) : x.1 = k.1 := by
  by_contra hne
  have hp := hall x.1 (List.of_mem_zip hx).1
  have h1 : k.1.length ≤ shared keys x.1 := by
    unfold shared
    have : lcpLen x.1 k.1 = k.1.length := by rw [lcpLen_comm]; exact lcpLen_prefix hp
    rw [← this]
    exact le_foldr_max (List.mem_map.mpr ⟨k.1, List.mem_filter.mpr ⟨(List.of_mem_zip hk).1, by simpa using fun h => hne h.symm⟩, rfl⟩)
  have h2 : (form keys x.1).length = min (shared keys x.1 + 1) x.1.length := by
    unfold form
    rw [List.length_take]
  rw [he] at h2
  have h3 := hp.length_le
  have h4 : k.1.length ≠ x.1.length := fun h => hne (hp.eq_of_length h).symm
  omega

end

/-- **C32**, after any sequence of `Seek` (of supported keys), `Next`, `Prev`, and, with a dense level, `SeekToFirst` and `SeekToLast`, none of these calls panics, except `Prev` on a key that is
a prefix of all keys in a filter with a dense level, which does.
What is missing: the full statement is false, see `C32_witness`; without dense levels, `Next` may panic after `SeekToFirst`, see `C29_witness_sparse`. -/
theorem C32_total_partial (fp : Bytes → Word) (bmi : Bool) (vs h r : Nat) (hhr : h + r ≤ 64) (keys vals : List Bytes) (hin : Input vs keys vals) (hint : Int) (s : SuRF)
    (hs : build fp bmi (newBuilder vs h r) keys vals hint = some s) (h32 : s.ld.height < 2 ^ 32) (it : Iterator) (hr : Reached bmi s (Supported keys s) it) :
    (∀ q, Supported keys s q → ∃ it' fl, it.seek bmi s q = some (it', fl)) ∧ (∃ it', it.next bmi s = some it') ∧
    (0 < s.ld.height → (∃ it', it.seekToFirst bmi s = some it') ∧ ∃ it', it.seekToLast bmi s = some it') ∧
    (it.prev bmi s = none ↔ 0 < s.ld.height ∧ it.valid = true ∧ ∃ k ∈ keys, (∀ y ∈ keys, k <+: y) ∧ it.key = some k) := by
  obtain ⟨ht, B⟩ := the_built hhr hin hs
  have hinv := reached_inv hin B hr
  refine ⟨fun q he => ?_, ?_, fun hd => ⟨?_, ?_⟩, ?_⟩
  · obtain ⟨it', fl, b, a1, -⟩ := B.i_seek bmi rfl q (he.clear hin B) (inv_ready hinv)
    exact ⟨it', fl, a1⟩
  · rcases hinv with ⟨b, y, ha⟩ | hd
    · obtain ⟨it', a1, -⟩ := B.i_next bmi ha
      exact ⟨it', a1⟩
    · exact ⟨it, B.done_next bmi hd⟩
  · obtain ⟨ip, i, iq, e, e1, e2⟩ := first_items B.root
    obtain ⟨it', y, a1, -⟩ := B.i_first bmi hd (inv_ready hinv) e e1 e2
    exact ⟨it', a1⟩
  · obtain ⟨it', b, y, a1, -⟩ := B.i_last bmi hd (inv_ready hinv) (root_two B hd)
    exact ⟨it', a1⟩
  · rcases hinv with ⟨b, y, ha⟩ | hd
    · obtain ⟨r1, r2, -⟩ := at_read hin B ha
      obtain ⟨c, ec⟩ := ha.split
      have hym : y ∈ keys.zip vals := by
        have ec' : keys.zip vals = b ++ y :: c := ec
        rw [ec']
        simp
      constructor
      · intro hn
        have hne : ¬ (s.ld.height = 0 ∨ y.1.length ≠ (⟨keys.zip vals, 0⟩ : Grp).bd) := by
          intro hne
          obtain ⟨it', a1, -⟩ := B.i_prev bmi ha hne
          rw [hn] at a1
          simp at a1
        push Not at hne
        have hc : 0 < s.ld.height := by omega
        have hall := (prefix_all hin B.root (root_two B hc) hym).mp hne.2
        refine ⟨hc, r1, y.1, (List.of_mem_zip hym).1, hall, ?_⟩
        rw [r2]
        congr 1
        unfold form
        rw [List.take_of_length_le]
        -- it agrees with another key in all its bytes
        obtain ⟨z, hz, hzy⟩ : ∃ z ∈ keys, z ≠ y.1 := by
          by_contra hcon
          push Not at hcon
          have h2 := root_two B hc
          have hnd := hin.kvs.sorted
          have h2' : 2 ≤ (keys.zip vals).length := h2
          match hzz : keys.zip vals, h2' with
          | a :: b :: l, _ =>
            rw [hzz, List.pairwise_cons] at hnd
            have h3 := hnd.1 b (by simp)
            rw [hcon a.1 (List.of_mem_zip (show a ∈ keys.zip vals by rw [hzz]; simp)).1, hcon b.1 (List.of_mem_zip (show b ∈ keys.zip vals by rw [hzz]; simp)).1] at h3
            exact List.lt_irrefl _ h3
        have h4 : y.1.length ≤ shared keys y.1 := by
          unfold shared
          rw [← lcpLen_prefix (hall z hz)]
          exact le_foldr_max (List.mem_map.mpr ⟨z, List.mem_filter.mpr ⟨hz, by simpa using hzy⟩, rfl⟩)
        omega
      · rintro ⟨hc, -, k, hk, hall, he⟩
        rw [← hin.fst, List.mem_map] at hk
        obtain ⟨kv, hkm, rfl⟩ := hk
        rw [r2, Option.some.injEq] at he
        have := form_end hin hkm hall hym he
        refine B.i_prev_end bmi ha hc h32 ?_
        rw [this]
        exact (prefix_all hin B.root (root_two B hc) hkm).mpr hall
    · constructor
      · intro hn
        rw [B.done_prev bmi hd] at hn
        simp at hn
      · rintro ⟨-, hv, -⟩
        rw [hd.valid] at hv
        simp at hv

/-- What is kept of the key `x` shows that it is below `q`: it is below `q` (in the order of byte strings), and if it is a prefix of `q`
then it is the whole key. (A prefix of `q` that is not known to be a whole key may belong to a key above `q`.) -/
def Below (keys : List Bytes) (q x : Bytes) : Prop := form keys x < q ∧ (form keys x <+: q → isEnd keys x)

theorem div_not_prefix {a b : Bytes} (h : Div a b) : ¬ a <+: b ∧ ¬ b <+: a := by
  obtain ⟨p, c, d, u, v, rfl, rfl, hlt⟩ := h
  have hne : c ≠ d := by
    rintro rfl
    exact UInt8.lt_irrefl _ hlt
  constructor
  · rw [List.prefix_append_right_inj, List.cons_prefix_cons]
    exact fun h => hne h.1
  · rw [List.prefix_append_right_inj, List.cons_prefix_cons]
    exact fun h => hne h.1.symm

/-- **C28**, for supported searches: `Seek(q)`, without suffix bits, on an iterator after any calls of `Seek` and
`Next`, stops on the first stored key that is not `Below` `q`, and is invalid if there is none.
What is missing: for a search that is not supported the statement is false, see `C28_witness`. -/
theorem C28_seek_partial (fp : Bytes → Word) (bmi : Bool) (vs : Nat) (keys vals : List Bytes) (hin : Input vs keys vals) (hint : Int) (s : SuRF)
    (hs : build fp bmi (newBuilder vs 0 0) keys vals hint = some s) (it : Iterator) (hr : Reached bmi s (Supported keys s) it) (q : Bytes) (he : Supported keys s q) :
    ∃ it' fl, it.seek bmi s q = some (it', fl) ∧
      ((it'.valid = false ∧ ∀ k ∈ keys, Below keys q k) ∨
       (∃ (n : Nat) (k v : Bytes), keys[n]? = some k ∧ vals[n]? = some v ∧ it'.valid = true ∧ it'.key = some (form keys k) ∧ it'.value s = some (v.take vs) ∧
         ¬ Below keys q k ∧ ∀ m : Nat, m < n → ∀ k' : Bytes, keys[m]? = some k' → Below keys q k')) := by
  obtain ⟨ht, B⟩ := the_built (by omega) hin hs
  have hready := inv_ready (reached_inv hin B hr)
  obtain ⟨it', fl, b, a1, ⟨hb, c, ec, hc⟩, a2⟩ := B.i_seek bmi rfl q (he.clear hin B) hready
  have hfst : (⟨keys.zip vals, 0⟩ : Grp).kvs.map (·.1) = keys := hin.fst
  have hpass : ∀ x, Passed (newBuilder vs 0 0) fp ⟨keys.zip vals, 0⟩ q x → Below keys q x.1 := by
    rintro x ⟨m, tm, hL, hcase⟩
    obtain ⟨e1, e2⟩ := hL.spec B.root rfl hin.kvs.sorted
    rw [hfst] at e1 e2
    subst e1
    rcases hcase with h | ⟨h1, h2, h3⟩ | ⟨-, -, h⟩
    · exact ⟨h.lt, fun hp => absurd hp (div_not_prefix h).1⟩
    · refine ⟨?_, fun _ => e2.1 h1⟩
      have hle : form keys x.1 ≤ x.1 := prefix_le (List.take_prefix _ _)
      exact List.lt_of_le_of_lt hle (prefix_lt h2 h3)
    · rw [sufCmp_none B.cfgok rfl] at h
      exact absurd h (by decide)
  have hstay : ∀ x, Stays (newBuilder vs 0 0) fp ⟨keys.zip vals, 0⟩ q x → ¬ Below keys q x.1 := by
    rintro x ⟨m, tm, hL, hcase⟩ ⟨b1, b2⟩
    obtain ⟨e1, e2⟩ := hL.spec B.root rfl hin.kvs.sorted
    rw [hfst] at e1 e2
    subst e1
    rcases hcase with h | h | ⟨h1, h2, -⟩
    · exact absurd (List.lt_trans b1 h.lt) (List.lt_irrefl _)
    · exact absurd b1 (List.not_lt.mpr (prefix_le h))
    · rw [e2.2 (b2 h2)] at h1
      simp at h1
  refine ⟨it', fl, a1, ?_⟩
  rcases a2 with ⟨rfl, a2⟩ | ⟨y, a2⟩
  · left
    refine ⟨a2.valid, fun k hk => ?_⟩
    rw [← hfst, List.mem_map] at hk
    obtain ⟨x, hx, rfl⟩ := hk
    exact hpass x (hb x hx)
  · right
    obtain ⟨r1, r2, r3⟩ := at_read hin B a2
    obtain ⟨c', ec'⟩ := a2.split
    have ez : keys.zip vals = b ++ y :: c' := ec'
    have hn : (keys.zip vals)[b.length]? = some y := by rw [ez]; simp
    rw [List.getElem?_zip_eq_some] at hn
    have hyc : y ∈ c := by
      have : b ++ y :: c' = b ++ c := by rw [← ec, ← ec']
      rw [← List.append_cancel_left this]
      simp
    refine ⟨b.length, y.1, y.2, hn.1, hn.2, r1, r2, r3, hstay y (hc y hyc), ?_⟩
    intro m hm k' hk'
    have hlen : keys.length = (keys.zip vals).length := by rw [← List.length_map (f := fun x : KV => x.1) (as := keys.zip vals), hin.fst]
    have : keys[m]? = (keys.zip vals)[m]?.map (·.1) := by rw [← List.getElem?_map, hin.fst]
    rw [this, ez, List.getElem?_append_left hm, List.getElem?_eq_getElem hm] at hk'
    simp only [Option.map_some, Option.some.injEq] at hk'
    rw [← hk']
    exact hpass _ (hb _ (List.getElem_mem hm))

/-- The stored keys have `r` bits behind the part that the trie keeps of them (not asked for if `r` is at most 8, nor of keys that are prefixes of others). -/
def LongKeys (keys : List Bytes) (r : Nat) : Prop := r ≤ 8 ∨ ∀ k ∈ keys, ¬ isEnd keys k → (form keys k).length * 8 + r ≤ k.length * 8

/-- `q` has `r` bits behind what the trie keeps of a stored key, if it begins with it (not asked for if `r` is at most 8). -/
def LongBound (keys : List Bytes) (r : Nat) (q : Bytes) : Prop := r ≤ 8 ∨ ∀ k ∈ keys, ¬ isEnd keys k → form keys k <+: q → (form keys k).length * 8 + r ≤ q.length * 8

section
variable {fp : Bytes → Word} {vs h r : Nat} {keys vals : List Bytes} {s : SuRF} {cut ht : Nat}

theorem leaf_form (hin : Input vs keys vals) (B : Built (newBuilder vs h r) fp s ⟨keys.zip vals, 0⟩ cut ht) {x : KV} {m : Nat} (hL : Leaf ⟨keys.zip vals, 0⟩ x m false) :
    x.1 ∈ keys ∧ ¬ isEnd keys x.1 ∧ form keys x.1 = x.1.take (m + 1) ∧ (form keys x.1).length = m + 1 := by
  have hfst : (⟨keys.zip vals, 0⟩ : Grp).kvs.map (·.1) = keys := hin.fst
  obtain ⟨e1, e2⟩ := hL.spec B.root rfl hin.kvs.sorted
  rw [hfst] at e1 e2
  have hf : form keys x.1 = x.1.take (m + 1) := by rw [e1]; rfl
  refine ⟨?_, fun h => by simpa using e2.2 h, hf, ?_⟩
  · obtain ⟨W, t, ip, i, iq, w, e, hx, -, -⟩ := hL
    rw [← hfst]
    exact List.mem_map.mpr ⟨x, w.sub (leaf_mem e hx), rfl⟩
  · rw [hf, List.length_take, Nat.min_eq_left (hL.long B.root)]

theorem LongKeys.roomy (hin : Input vs keys vals) (B : Built (newBuilder vs h r) fp s ⟨keys.zip vals, 0⟩ cut ht) (hl : LongKeys keys r) : Roomy (newBuilder vs h r) ⟨keys.zip vals, 0⟩ := by
  intro x m hL
  obtain ⟨a1, a2, a3, a4⟩ := leaf_form hin B hL
  rcases hl with hl | hl
  · exact .inl hl
  · have := hl x.1 a1 a2
    rw [a4] at this
    exact .inr this

theorem LongBound.roomy (hin : Input vs keys vals) (B : Built (newBuilder vs h r) fp s ⟨keys.zip vals, 0⟩ cut ht) {q : Bytes} (hl : LongBound keys r q) : RoomyFor (newBuilder vs h r) ⟨keys.zip vals, 0⟩ q := by
  intro x m hL hp
  obtain ⟨a1, a2, a3, a4⟩ := leaf_form hin B hL
  rcases hl with hl | hl
  · exact .inl hl
  · have := hl x.1 a1 a2 (by rw [a3]; exact hp)
    rw [a4] at this
    exact .inr this

end

/-- `Seek(q)`, for supported searches, with real suffixes of at most eight bits, or less than 16 and `LongKeys`, and any hash suffixes, does not go beyond a stored key that is not below `q`: the keys before the position
reached are below `q`. -/
theorem C28_below_partial (fp : Bytes → Word) (bmi : Bool) (vs h r : Nat) (hhr : h + r ≤ 64) (h16 : r < 16) (keys vals : List Bytes) (hlong : LongKeys keys r) (hin : Input vs keys vals) (hint : Int) (s : SuRF)
    (hs : build fp bmi (newBuilder vs h r) keys vals hint = some s) (it : Iterator) (hr : Reached bmi s (Supported keys s) it) (q : Bytes) (he : Supported keys s q) :
    ∃ it' fl, it.seek bmi s q = some (it', fl) ∧
      ((it'.valid = false ∧ ∀ k ∈ keys, k < q) ∨
       (∃ (n : Nat) (k v : Bytes), keys[n]? = some k ∧ vals[n]? = some v ∧ it'.valid = true ∧ it'.key = some (form keys k) ∧ it'.value s = some (v.take vs) ∧
         ∀ m : Nat, m < n → ∀ k' : Bytes, keys[m]? = some k' → k' < q)) := by
  obtain ⟨ht, B⟩ := the_built hhr hin hs
  have hready := inv_ready (reached_inv hin B hr)
  obtain ⟨it', fl, b, a1, ⟨hb, c, ec, hc⟩, a2⟩ := B.i_seek bmi rfl q (he.clear hin B) hready
  have hfst : (⟨keys.zip vals, 0⟩ : Grp).kvs.map (·.1) = keys := hin.fst
  have hpass : ∀ x ∈ b, x.1 < q := fun x hx => (hb x hx).lt B.root B.cfgok h16 (hlong.roomy hin B)
  refine ⟨it', fl, a1, ?_⟩
  rcases a2 with ⟨rfl, a2⟩ | ⟨y, a2⟩
  · left
    refine ⟨a2.valid, fun k hk => ?_⟩
    rw [← hfst, List.mem_map] at hk
    obtain ⟨x, hx, rfl⟩ := hk
    exact hpass x hx
  · right
    obtain ⟨r1, r2, r3⟩ := at_read hin B a2
    obtain ⟨c', ec'⟩ := a2.split
    have ez : keys.zip vals = b ++ y :: c' := ec'
    have hn : (keys.zip vals)[b.length]? = some y := by rw [ez]; simp
    rw [List.getElem?_zip_eq_some] at hn
    refine ⟨b.length, y.1, y.2, hn.1, hn.2, r1, r2, r3, ?_⟩
    intro m hm k' hk'
    have : keys[m]? = (keys.zip vals)[m]?.map (·.1) := by rw [← List.getElem?_map, hin.fst]
    rw [this, ez, List.getElem?_append_left hm, List.getElem?_eq_getElem hm] at hk'
    simp only [Option.map_some, Option.some.injEq] at hk'
    rw [← hk']
    exact hpass _ (List.getElem_mem hm)

/-! ### C27 -/

/-- **C27**, for real suffixes of at most eight bits, or less than 16 if the keys and the end of the range are long enough (and any hash suffixes), if the search for the start is supported:
`HasOverlap` is true if a stored key lies in the range.
What is missing: the full statement is false without these restrictions, see `C27_witness_end`, `C27_witness_short`, `C27_witness_stop` and `C27_witness_real`. -/
theorem C27_overlap_partial (fp : Bytes → Word) (bmi : Bool) (vs h r : Nat) (hhr : h + r ≤ 64) (h16 : r < 16) (keys vals : List Bytes) (hlong : LongKeys keys r) (hin : Input vs keys vals) (hint : Int) (s : SuRF)
    (hs : build fp bmi (newBuilder vs h r) keys vals hint = some s) (start stop : Bytes) (he : Supported keys s start) (hb : LongBound keys r stop) (includeEnd : Bool) (k : Bytes) (hk : k ∈ keys)
    (hstart : start ≤ k) (hstop : if includeEnd then k ≤ stop else k < stop) : s.hasOverlap bmi start stop includeEnd = some true := by
  obtain ⟨ht, B⟩ := the_built hhr hin hs
  rw [← hin.fst, List.mem_map] at hk
  obtain ⟨x, hx, rfl⟩ := hk
  exact B.hasOverlap bmi rfl h16 (hlong.roomy hin B) hin.kvs.sorted hx start stop (he.clear hin B) (hb.roomy hin B) includeEnd hstart hstop

/-! ### What fails -/

/-- The keys read by a client loop of at most `n` rounds; `none` if a call panics. -/
def collect (step : Iterator → Option Iterator) : Nat → Iterator → Option (List Bytes)
  | 0, _ => some []
  | n + 1, it => if it.valid then do
      let k ← it.key
      let it' ← step it
      let l ← collect step n it'
      return k :: l
    else some []

/-- "k", "ka\x01", "ka\x02", "kb" -/
def endKeys : List Bytes := [[107], [107, 97, 1], [107, 97, 2], [107, 98]]
def endVals : List Bytes := [[0], [1], [2], [3]]
/-- "k\x00a", "k\x00b", "kb" -/
def zeroKeys : List Bytes := [[107, 0, 97], [107, 0, 98], [107, 98]]
def zeroVals : List Bytes := [[0], [1], [2]]

/-- The positions `SeekToFirst` or `SeekToLast` and then `Next` and `Prev`, in any order, lead to. -/
inductive FromEnd (bmi : Bool) (s : SuRF) : Iterator → Prop
  | first {it it' : Iterator} : it.seekToFirst bmi s = some it' → FromEnd bmi s it'
  | last {it it' : Iterator} : it.seekToLast bmi s = some it' → FromEnd bmi s it'
  | next {it it' : Iterator} : FromEnd bmi s it → it.next bmi s = some it' → FromEnd bmi s it'
  | prev {it it' : Iterator} : FromEnd bmi s it → it.prev bmi s = some it' → FromEnd bmi s it'

/-- **C29, C30**, without dense levels: `SeekToFirst` and `SeekToLast` leave the iterator invalid, and so does every `Next` and `Prev` after them: iteration from an end shows no key at all.
With `C29_forward_partial` this says what forward iteration shows for every filter. -/
theorem C29_sparse (bmi : Bool) (s : SuRF) (h0 : s.ld.height = 0) (it : Iterator) (hit : FromEnd bmi s it) : it.valid = false := by
  have hinv : it.d.valid = false := by
    induction hit with
    | first hf =>
      unfold Iterator.seekToFirst at hf
      simp only [h0] at hf
      rw [if_neg (by omega)] at hf
      split at hf
      · simp only [Option.bind_eq_bind, Option.bind_eq_some_iff, Option.pure_def, Option.some.injEq] at hf
        obtain ⟨_, _, _, _, rfl⟩ := hf
        rfl
      · simp only [Option.some.injEq] at hf
        rw [← hf]
        rfl
    | last hf =>
      unfold Iterator.seekToLast at hf
      simp only [h0] at hf
      rw [if_neg (by omega)] at hf
      split at hf
      · simp only [Option.bind_eq_bind, Option.bind_eq_some_iff, Option.pure_def, Option.some.injEq] at hf
        obtain ⟨_, _, _, _, rfl⟩ := hf
        rfl
      · simp only [Option.some.injEq] at hf
        rw [← hf]
        rfl
    | next hf hn ih =>
      unfold Iterator.next Iterator.incrDense at hn
      simp only [ih] at hn
      split at hn
      · simp only [Option.bind_eq_bind, Option.bind_eq_some_iff, Option.pure_def] at hn
        obtain ⟨s', _, hn⟩ := hn
        split at hn
        · simp only [Option.some.injEq] at hn
          rw [← hn]
          exact ih
        · simp only [Bool.not_false, if_true, Option.some.injEq] at hn
          rw [← hn]
          exact ih
      · simp only [Bool.not_false, if_true, Option.some.injEq] at hn
        rw [← hn]
        exact ih
    | prev hf hn ih =>
      unfold Iterator.prev Iterator.decrDense at hn
      simp only [ih] at hn
      split at hn
      · simp only [Option.bind_eq_bind, Option.bind_eq_some_iff, Option.pure_def] at hn
        obtain ⟨s', _, hn⟩ := hn
        split at hn
        · simp only [Option.some.injEq] at hn
          rw [← hn]
          exact ih
        · simp only [Bool.not_false, if_true, Option.some.injEq] at hn
          rw [← hn]
          exact ih
      · simp only [Bool.not_false, if_true, Option.some.injEq] at hn
        rw [← hn]
        exact ih
  unfold Iterator.valid
  rw [hinv]
  rfl

/-- Without dense levels, `SeekToFirst` leaves the iterator invalid, and `Next` panics then. -/
theorem C29_witness_sparse :
    (build (fun _ => 0) true (newBuilder 1 0 0) endKeys endVals 0).bind (fun s => (s.newIterator.seekToFirst true s).map (fun it => (s.ld.height, it.valid, it.next true s))) = some (0, false, none) := by
  decide +kernel

/-- The key "k", a prefix of all keys, is left out by `SeekToFirst` and `Next`. -/
theorem C29_witness_first :
    (build (fun _ => 0) true (newBuilder 1 0 0) endKeys endVals 10000).bind (fun s => (s.newIterator.seekToFirst true s).bind (collect (fun it => it.next true s) 10)) =
      some [[107, 97, 1], [107, 97, 2], [107, 98]] := by
  decide +kernel

/-- Without dense levels, `SeekToLast` leaves the iterator invalid. -/
theorem C30_witness_sparse :
    (build (fun _ => 0) true (newBuilder 1 0 0) endKeys endVals 0).bind (fun s => (s.newIterator.seekToLast true s).map (fun it => (s.ld.height, it.valid))) = some (0, false) := by
  decide +kernel

/-- The key "k", a prefix of all keys, is left out by `SeekToLast` and `Prev`. -/
theorem C30_witness_first :
    (build (fun _ => 0) true (newBuilder 1 0 0) endKeys endVals 10000).bind (fun s => (s.newIterator.seekToLast true s).bind (collect (fun it => it.prev true s) 10)) =
      some [[107, 98], [107, 97, 2], [107, 97, 1]] := by
  decide +kernel

/-- The keys that go on with a byte 0x00 where all keys part are left out by `SeekToLast` and `Prev`. -/
theorem C30_witness_zero :
    (build (fun _ => 0) true (newBuilder 1 0 0) zeroKeys zeroVals 10000).bind (fun s => (s.newIterator.seekToLast true s).bind (collect (fun it => it.prev true s) 10)) = some [[107, 98]] := by
  decide +kernel

/-- `Seek("k")` stops on "k"; `Prev` panics then. -/
theorem C32_witness :
    (build (fun _ => 0) true (newBuilder 1 0 0) endKeys endVals 10000).bind (fun s => (s.newIterator.seek true s [107]).map (fun x => (x.1.valid, x.1.key, x.1.prev true s))) = some (true, some [107], none) := by
  decide +kernel

/-- With the keys "k" and "kb" in a filter without dense levels, `Seek("ka")` finds nothing. -/
theorem C28_witness :
    (build (fun _ => 0) true (newBuilder 1 0 0) [[107], [107, 98]] [[0], [1]] 0).bind (fun s => (s.newIterator.seek true s [107, 97]).map (fun x => x.1.valid)) = some false := by
  decide +kernel

/-- With the keys "k" and "kb" in a filter without dense levels, `HasOverlap("ka", "kz", true)` is false. -/
theorem C27_witness_end :
    (build (fun _ => 0) true (newBuilder 1 0 0) [[107], [107, 98]] [[0], [1]] 0).bind (fun s => s.hasOverlap true [107, 97] [107, 122] true) = some false := by
  decide +kernel

/-- With the keys "a\x05" and "b" and real suffixes of 9 bits, `HasOverlap("a\x04zz", "a\xff", true)` is false. -/
theorem C27_witness_short :
    (build (fun _ => 0) true (newBuilder 1 0 9) [[97, 5], [98]] [[0], [1]] 0).bind (fun s => s.hasOverlap true [97, 4, 122, 122] [97, 255] true) = some false := by
  decide +kernel

/-- With the keys "a\x05\x05" and "b\x01\x01" and real suffixes of 9 bits, `HasOverlap("a", "a\x06", true)` is false. -/
theorem C27_witness_stop :
    (build (fun _ => 0) true (newBuilder 1 0 9) [[97, 5, 5], [98, 1, 1]] [[0], [1]] 0).bind (fun s => s.hasOverlap true [97] [97, 6] true) = some false := by
  decide +kernel

/-- With real suffixes of 16 bits and one dense level, `HasOverlap(k, k, true)` is false for the stored key k = "a\x09\x02\x01\x01\x01\x01" (`constructRealSuffix` reads
`key[i]` for `key[level+i]`, and the sparse part is given the rest of the key). -/
theorem C27_witness_real :
    (build (fun _ => 0) true (newBuilder 1 0 16) [[97, 9, 1, 1, 1, 1, 1], [97, 9, 2, 1, 1, 1, 1], [98, 9, 2, 2, 2, 2, 2]] [[0], [1], [2]] 1000).bind
      (fun s => s.hasOverlap true [97, 9, 2, 1, 1, 1, 1] [97, 9, 2, 1, 1, 1, 1] true) = some false := by
  decide +kernel

/-! ### Examples -/

/-- "a", "kxyz1", "kxyz2", "kz": no key is a prefix of another one. -/
def plainKeys : List Bytes := [[97], [107, 120, 121, 122, 49], [107, 120, 121, 122, 50], [107, 122]]

theorem plainInput : Input 1 plainKeys endVals := by
  constructor <;> decide +kernel

theorem endInput : Input 1 endKeys endVals := by
  constructor <;> decide +kernel

theorem plainRoot : PlainRoot plainKeys := by
  refine ⟨by decide +kernel, fun p hp => ?_⟩
  have h1 := hp [97] (by decide)
  have h2 := hp [107, 122] (by decide)
  have : p = [] := by
    cases p with
    | nil => rfl
    | cons c p =>
      rw [List.cons_prefix_cons] at h1 h2
      have := h1.1.symm.trans h2.1
      simp at this
  subst this
  decide +kernel

/-- The hypotheses of the theorems hold for `plainKeys`, with real suffixes of 4 bits and hash suffixes of 8 bits, and two dense levels out of three. -/
example : ∃ s, build (fun k => BitVec.ofNat 64 k.length) true (newBuilder 1 8 4) plainKeys endVals 10000 = some s ∧ s.ld.height = 2 ∧ s.ls.height = 3 ∧ EndsDense plainKeys s := by
  obtain ⟨s, hs⟩ := C38_build_partial (fun k => BitVec.ofNat 64 k.length) true 1 8 4 (by decide) plainKeys endVals plainInput 10000
  have h1 : (build (fun k => BitVec.ofNat 64 k.length) true (newBuilder 1 8 4) plainKeys endVals 10000).map (fun s => (s.ld.height, s.ls.height)) = some (2, 3) := by decide +kernel
  rw [hs] at h1
  simp only [Option.map_some, Option.some.injEq, Prod.mk.injEq] at h1
  refine ⟨s, hs, h1.1, h1.2, ?_⟩
  intro k hk hend
  have : ∀ k ∈ plainKeys, ¬ isEnd plainKeys k := by decide +kernel
  exact absurd hend (this k hk)

/-- For `endKeys` as well, where "k" is a prefix of the other keys; it is on level 0, and there is one dense level. -/
example : ∃ s, build (fun k => BitVec.ofNat 64 k.length) true (newBuilder 1 0 0) endKeys endVals 10000 = some s ∧ s.ld.height = 1 ∧ EndsDense endKeys s ∧ isEnd endKeys [107] := by
  obtain ⟨s, hs⟩ := C38_build_partial (fun k => BitVec.ofNat 64 k.length) true 1 0 0 (by decide) endKeys endVals endInput 10000
  have h1 : (build (fun k => BitVec.ofNat 64 k.length) true (newBuilder 1 0 0) endKeys endVals 10000).map (fun s => s.ld.height) = some 1 := by decide +kernel
  rw [hs] at h1
  simp only [Option.map_some, Option.some.injEq] at h1
  refine ⟨s, hs, h1, ?_, by decide +kernel⟩
  intro k hk hend
  rw [h1]
  have : ∀ k ∈ endKeys, isEnd endKeys k → level endKeys k < 1 := by decide +kernel
  exact this k hk hend

/-- What `C29_forward_partial` and `C30_backward_partial` say for `plainKeys`: what is kept of the keys is "a", "kxyz1", "kxyz2", "kz". -/
example (s : SuRF) (hs : build (fun k => BitVec.ofNat 64 k.length) true (newBuilder 1 8 4) plainKeys endVals 10000 = some s) (hd : 0 < s.ld.height) :
    (∃ it, s.newIterator.seekToFirst true s = some it ∧ Loop s (fun it => it.next true s) it [([97], [0]), ([107, 120, 121, 122, 49], [1]), ([107, 120, 121, 122, 50], [2]), ([107, 122], [3])]) ∧
    ∃ it, s.newIterator.seekToLast true s = some it ∧ Loop s (fun it => it.prev true s) it [([107, 122], [3]), ([107, 120, 121, 122, 50], [2]), ([107, 120, 121, 122, 49], [1]), ([97], [0])] := by
  have h1 := C29_forward_partial _ true 1 8 4 (by decide) plainKeys endVals plainInput 10000 s hs hd
  have h2 := C30_backward_partial _ true 1 8 4 (by decide) plainKeys endVals plainInput 10000 s hs hd plainRoot
  have e1 : (((plainKeys.zip endVals).filter (fun kv => decide (∃ y ∈ plainKeys, ¬ kv.1 <+: y))).map (shown plainKeys 1)) = [([97], [0]), ([107, 120, 121, 122, 49], [1]), ([107, 120, 121, 122, 50], [2]), ([107, 122], [3])] := by
    decide +kernel
  have e2 : (plainKeys.zip endVals).reverse.map (shown plainKeys 1) = [([107, 122], [3]), ([107, 120, 121, 122, 50], [2]), ([107, 120, 121, 122, 49], [1]), ([97], [0])] := by
    decide +kernel
  rw [e1] at h1
  rw [e2] at h2
  exact ⟨h1, h2⟩

/-- A range in which "kxyz2" lies, without its end. -/
example (s : SuRF) (hs : build (fun k => BitVec.ofNat 64 k.length) true (newBuilder 1 8 4) plainKeys endVals 10000 = some s) (he : EndsDense plainKeys s) :
    s.hasOverlap true [107, 120, 121, 122, 49, 255] [107, 121] false = some true :=
  C27_overlap_partial _ true 1 8 4 (by decide) (by decide) plainKeys endVals (.inl (by decide)) plainInput 10000 s hs _ _ (he.supported _) (.inl (by decide)) false [107, 120, 121, 122, 50] (by decide) (by decide) (by decide)

/-- `Below`: "kxyz1" is kept whole but not known to be a whole key, so it is not below "kxyz1z"; in `endKeys`, "k" is. -/
example : ¬ Below plainKeys [107, 120, 121, 122, 49, 122] [107, 120, 121, 122, 49] ∧ Below endKeys [107, 97] [107] ∧ Below plainKeys [107] [97] := by
  unfold Below
  decide +kernel

end Surf.Props
