import Verif.Surf.GetSpec

/-! What the walk of `Get` finds. -/

set_option linter.unusedSimpArgs false

namespace Surf

namespace Grp

/-- Every pair of a node is below one of its items. -/
theorem OK.item_of {t : Grp} (h : t.OK) {x : KV} (hx : x ∈ t.kvs) : ∃ i ∈ t.items, x ∈ i.kvs ∧
    ((x.1.length = t.bd ∧ i.term = true ∧ i.kvs = [x]) ∨ (t.bd < x.1.length ∧ i.term = false ∧ x.1[t.bd]? = some i.label)) := by
  have hf := hx
  rw [← t.items_flat, List.mem_flatMap] at hf
  obtain ⟨i, hi, hxi⟩ := hf
  refine ⟨i, hi, hxi, ?_⟩
  rcases h.item hi with ⟨h1, -, y, hy, h2⟩ | ⟨h1, -, -, -, h2⟩
  · rw [h2, List.mem_singleton] at hxi
    subst hxi
    exact Or.inl ⟨(h.ends_len hy).2, h1, h2⟩
  · obtain ⟨h3, h4⟩ := h2 x hxi
    exact Or.inr ⟨(h.rest_len h3).2, h1, h4⟩

theorem OK.item_unique {t : Grp} (h : t.OK) {i j : Item} (hi : i ∈ t.items) (hj : j ∈ t.items) (h1 : i.term = false) (h2 : j.term = false) (h3 : i.label = j.label) : i = j := by
  have hs := h.items_sorted
  obtain ⟨a, b, e⟩ := List.append_of_mem hi
  rw [e] at hj hs
  rw [List.pairwise_append, List.pairwise_cons] at hs
  rw [List.mem_append, List.mem_cons] at hj
  rcases hj with hj | hj | hj
  · have := (hs.2.2 j hj i (by simp)).2 h2
    rw [h3] at this
    exact absurd this (UInt8.lt_irrefl _)
  · exact hj.symm
  · have := (hs.2.1.1 j hj).2 h1
    rw [h3] at this
    exact absurd this (UInt8.lt_irrefl _)

/-- The keys of a node agree up to the depth at which it branches, and the prefix is what they have behind its beginning. -/
theorem OK.pre_eq {t : Grp} (h : t.OK) {x : KV} (hx : x ∈ t.kvs) : t.pre = (x.1.take t.bd).drop t.d := by
  unfold Grp.pre
  cases hk : t.kvs with
  | nil => exact absurd hk h.ne
  | cons y ys =>
    have := h.at_bd.1.common y (by show y ∈ t.kvs; rw [hk]; simp) x hx
    simp only at this
    simp only
    rw [this]

/-- A query that agrees with the keys up to the beginning of the node and goes on with its prefix agrees with them up to where it branches. -/
theorem OK.pre_iff {t : Grp} (h : t.OK) {x : KV} (hx : x ∈ t.kvs) {q : Bytes} (hd : t.d ≤ q.length) (hq : q.take t.d = x.1.take t.d) :
    t.pre <+: q.drop t.d ↔ (t.bd ≤ q.length ∧ q.take t.bd = x.1.take t.bd) := by
  have hge := t.bd_ge
  have hble := h.bd_le hx
  have hpl := h.pre_length
  have e1 : ∀ (z : Bytes), z.take t.bd = z.take t.d ++ (z.drop t.d).take (t.bd - t.d) := by
    intro z
    have : z.take t.bd = z.take (t.d + (t.bd - t.d)) := by congr 1; omega
    rw [this, List.take_add]
  have e2 : t.pre = (x.1.drop t.d).take (t.bd - t.d) := by
    rw [h.pre_eq hx, List.drop_take]
  constructor
  · intro hp
    have hl := hp.length_le
    rw [List.length_drop] at hl
    refine ⟨by omega, ?_⟩
    rw [e1 q, e1 x.1, hq]
    congr 1
    rw [List.prefix_iff_eq_take] at hp
    rw [← e2, hp, hpl.1]
  · rintro ⟨hl, hp⟩
    rw [List.prefix_iff_eq_take, hpl.1, e2]
    rw [e1 q, e1 x.1, hq] at hp
    exact (List.append_cancel_left hp).symm

theorem Two.tail_eq {t : Grp} (h : t.Two) : t.tail = t.endItem := by
  obtain ⟨i, is, e, hne, hnt, h1, h2⟩ := h.first
  unfold tail endItem
  rw [e]
  simp only [List.head?_cons]
  cases hi : i.term with
  | true =>
    have := h1 hi
    simp [Option.filter, this.1, this.2, hi]
  | false =>
    have := h2 hi
    have hn : is.find? (·.term) = none := by
      rw [List.find?_eq_none]
      intro j hj
      simp [hnt j hj]
    simp [Option.filter, this, hi, hn]

/-- A node with one pair: it has one item, without terminator, and branches at once. -/
theorem Good.single {t : Grp} (h : t.Good) (h1 : ¬ 2 ≤ t.kvs.length) : t.bd = t.d ∧ ∃ x i, t.kvs = [x] ∧ t.items = [i] ∧ i.term = false ∧ i.kvs = [x] ∧ i.child = false ∧ t.d < x.1.length := by
  have hb : ∀ x ∈ t.kvs, t.d < x.1.length := h.big.resolve_left h1
  have hbd : t.bd = t.d := by
    apply Grp.bd_stop
    cases hs : sameAt t.d t.kvs with
    | false => rfl
    | true => exact absurd (sameAt_iff hs).1 h1
  refine ⟨hbd, ?_⟩
  match hk : t.kvs with
  | [] => exact absurd hk h.ne
  | _ :: _ :: _ => rw [hk] at h1; simp at h1
  | [x] =>
    obtain ⟨i, hi, hxi, -⟩ := h.item_of (x := x) (by rw [hk]; simp)
    have hfl := t.items_flat
    match hit : t.items with
    | [] => exact absurd hit h.items_ne
    | a :: b :: r =>
      exfalso
      rw [hit, hk] at hfl
      have ha := h.item_ne (i := a) (by rw [hit]; simp)
      have hb := h.item_ne (i := b) (by rw [hit]; simp)
      have := congrArg List.length hfl
      simp only [List.flatMap_cons, List.length_append, List.length_singleton] at this
      have h3 : a.kvs.length ≠ 0 := fun e => ha (List.eq_nil_of_length_eq_zero e)
      have h4 : b.kvs.length ≠ 0 := fun e => hb (List.eq_nil_of_length_eq_zero e)
      omega
    | [a] =>
      rw [hit, hk] at hfl
      simp only [List.flatMap_cons, List.flatMap_nil, List.append_nil] at hfl
      refine ⟨x, a, rfl, rfl, ?_, hfl, by simp [Item.child, hfl], hb x (by rw [hk]; simp)⟩
      have := (h.first_label hit).1 rfl
      exact this

theorem OK.endItem_mem {t : Grp} (h : t.OK) {i : Item} (he : t.endItem = some i) : i ∈ t.items ∧ i.term = true ∧ i.child = false ∧ ∃ x, x ∈ t.kvs ∧ i.kvs = [x] ∧ x.1.length = t.bd := by
  unfold endItem at he
  have hm := List.mem_of_find?_eq_some he
  have ht : i.term = true := by simpa using List.find?_some he
  refine ⟨hm, ht, h.term_leaf hm ht, ?_⟩
  rcases h.item hm with ⟨-, -, x, hx, e⟩ | ⟨h1, -⟩
  · exact ⟨x, (h.ends_len hx).1, e, (h.ends_len hx).2⟩
  · rw [ht] at h1; simp at h1

/-- The item of a key that ends where the node branches is found, on dense and on sparse levels. -/
theorem Good.end_found {t : Grp} (h : t.Good) {x : KV} (hx : x ∈ t.kvs) (hl : x.1.length ≤ t.bd) : ∃ i, t.endItem = some i ∧ t.tail = some i ∧ i.kvs = [x] := by
  have h2 : 2 ≤ t.kvs.length := by
    by_contra hc
    obtain ⟨e1, y, i, e2, -, -, -, -, e3⟩ := h.single hc
    rw [e2, List.mem_singleton] at hx
    subst hx
    omega
  obtain ⟨i, hi, hxi, hc⟩ := h.item_of hx
  rcases hc with ⟨-, h4, h5⟩ | ⟨h4, -⟩
  · rcases h.endItem_cases with ⟨h6, -⟩ | ⟨-, j, iq, e1, e2, -, e3⟩
    · unfold hasEnd at h6
      rw [List.any_eq_false] at h6
      exact absurd h4 (h6 i hi)
    · have hs := h.items_sorted
      rw [e1, List.pairwise_cons] at hs
      rw [e1, List.mem_cons] at hi
      rcases hi with rfl | hi
      · exact ⟨i, e3, by rw [Two.tail_eq ⟨h, h2⟩, e3], h5⟩
      · have := (hs.1 i hi).1
        rw [h4] at this
        simp at this
  · omega

end Grp

/-- The item found for a byte is the one below which the keys with that byte are. -/
theorem find_item {t : Grp} (h : t.OK) {x : KV} (hx : x ∈ t.kvs) {c : UInt8} (hc : x.1[t.bd]? = some c) :
    ∃ i ∈ t.items, t.items.find? (fun i => !i.term && some c == some i.label) = some i ∧ x ∈ i.kvs ∧ i.term = false ∧ i.label = c := by
  obtain ⟨i, hi, hxi, hcase⟩ := h.item_of hx
  rcases hcase with ⟨h1, -⟩ | ⟨h1, h2, h3⟩
  · rw [List.getElem?_eq_none (by omega)] at hc
    simp at hc
  · rw [hc] at h3
    simp only [Option.some.injEq] at h3
    rcases find_label (is := t.items) (c := c) with ⟨-, h5⟩ | ⟨ip, j, iq, h5, h6, h7, h8⟩
    · exact absurd h3.symm (h5 i hi h2)
    · have hj : j ∈ t.items := by rw [h5]; simp
      have : i = j := h.item_unique hi hj h2 h6 (by rw [h7, h3])
      subst this
      exact ⟨i, hi, h8, hxi, h2, h7⟩

theorem mem_child {t : Grp} {i : Item} (hi : i ∈ t.items) (hc : i.child = true) : (⟨i.kvs, t.bd + 1⟩ : Grp) ∈ t.children := by
  unfold Grp.children
  rw [List.mem_map]
  exact ⟨i, List.mem_filter.mpr ⟨hi, hc⟩, rfl⟩

/-- The walk for a stored key ends at its leaf. -/
theorem find_stored (cut : Nat) (x : KV) : ∀ (n lev : Nat) (t : Grp), t.Good → x ∈ t.kvs → x.1.length + 1 ≤ t.d + n →
    ∃ b i, find cut x.1 n lev t = some ((b, i), b) ∧ i.kvs = [x] := by
  intro n
  induction n with
  | zero =>
    intro lev t h hx hn
    have := h.len x hx
    omega
  | succ n ih =>
    intro lev t h hx hn
    have hd := h.len x hx
    have hble := h.bd_le hx
    have hge := t.bd_ge
    by_cases h1 : cut ≤ lev ∧ x.1.length ≤ t.d
    · rw [find_tail h1.1 h1.2]
      obtain ⟨i, -, e2, e3⟩ := h.end_found hx (by omega)
      rw [e2]
      exact ⟨t.bd, i, by rw [show t.d = t.bd by omega]; rfl, e3⟩
    · have hp : t.pre <+: x.1.drop t.d := (h.pre_iff hx hd rfl).mpr ⟨hble, rfl⟩
      by_cases h2 : x.1.length ≤ t.bd
      · rw [find_end h1 hp h2]
        obtain ⟨i, e1, e2, e3⟩ := h.end_found hx h2
        refine ⟨t.bd, i, ?_, e3⟩
        rw [e1, e2]
        split <;> rfl
      · have hqc := List.getElem?_eq_getElem (show t.bd < x.1.length by omega)
        obtain ⟨i, hi, e1, e2, e3, e4⟩ := find_item h.toOK hx hqc
        rw [find_hit h1 hp h2 hqc e1]
        cases hc : i.child with
        | true =>
          rw [if_pos rfl]
          have hg := (h.child_good (mem_child hi hc)).1
          exact ih (lev + 1) ⟨i.kvs, t.bd + 1⟩ hg e2 (by show _ ≤ t.bd + 1 + n; omega)
        | false =>
          rw [if_neg (by simp)]
          refine ⟨t.bd, i, rfl, ?_⟩
          have := (h.leafKV hi hc).1
          rw [this] at e2 ⊢
          rw [List.mem_singleton] at e2
          rw [e2]

/-! ### The suffix of a stored key -/

theorem sufOK_self (cfg : Config) (fp : Bytes → Word) (key : Bytes) (level : Nat) : sufOK cfg fp (cfg.suffix fp key level) key level = true := by
  unfold sufOK
  cases ht : cfg.suffixType with
  | none => rfl
  | hash => simp
  | mixed => simp
  | real =>
    simp only [Bool.or_eq_true, beq_iff_eq, Bool.and_eq_true, Bool.not_eq_true', decide_eq_false_iff_not]
    by_cases h : key.length < level ∨ (key.length - level) * 8 < cfg.realSuffixLen
    · left
      unfold Config.suffix
      rw [ht]
      simp only [constructSuffix]
      unfold constructRealSuffix
      rw [if_pos h]
      rfl
    · right
      exact ⟨h, trivial⟩

/-! ### What a hit is -/

/-- How the key of a hit and the query are related: either they agree on a beginning that no other stored key has; or the query is a beginning of the key, and the key is a beginning of all
stored keys that have the query as a beginning. -/
def Related (keys : List Bytes) (k q : Bytes) : Prop :=
  (∃ n, n ≤ k.length ∧ k.take n <+: q ∧ ∀ k' ∈ keys, k.take n <+: k' → k' = k) ∨ (q <+: k ∧ ∀ k' ∈ keys, q <+: k' → k <+: k')

theorem take_prefix_of {x q : Bytes} {d : Nat} (h : q.take d = x.take d) : q.take d <+: x := by rw [h]; exact List.take_prefix _ _

theorem find_related (cut : Nat) (K : List KV) (q : Bytes) : ∀ (n lev : Nat) (t : Grp), t.Good → t.d ≤ q.length →
    (∀ x ∈ t.kvs, x ∈ K ∧ q.take t.d = x.1.take t.d) → (∀ x ∈ K, q.take t.d <+: x.1 → x ∈ t.kvs) →
    ∀ j D, find cut q n lev t = some (j, D) → leafKV j ∈ K ∧ Related (K.map (·.1)) (leafKV j).1 q := by
  intro n
  induction n with
  | zero => intro lev t _ _ _ _ j D h; simp [find] at h
  | succ n ih =>
    intro lev t h hd hin hout j D hf
    have hge := t.bd_ge
    -- the key that ends at the node
    have hend : ∀ i, t.endItem = some i → q <+: q.take t.bd ∧ (q.length ≤ t.d ∨ t.pre <+: q.drop t.d) → leafKV (t.bd, i) ∈ K ∧ Related (K.map (·.1)) (leafKV (t.bd, i)).1 q := by
      intro i hi hq
      obtain ⟨h1, h2, h3, x, hx, h4, h5⟩ := h.endItem_mem hi
      have e : leafKV (t.bd, i) = x := by simp [leafKV, h4]
      rw [e]
      refine ⟨(hin x hx).1, Or.inr ⟨?_, ?_⟩⟩
      · rcases hq.2 with h6 | h6
        · have : q = q.take t.d := (List.take_of_length_le h6).symm
          rw [this]
          exact take_prefix_of (hin x hx).2
        · have := ((h.pre_iff hx hd (hin x hx).2).mp h6).2
          refine hq.1.trans ?_
          rw [this]
          exact List.take_prefix _ _
      · intro k' hk' hqk
        rw [List.mem_map] at hk'
        obtain ⟨y, hy, rfl⟩ := hk'
        have hyt : y ∈ t.kvs := hout y hy ((List.take_prefix _ _).trans hqk)
        have := h.at_bd.1.common x hx y hyt
        simp only at this
        rw [List.take_of_length_le (by omega)] at this
        rw [this]
        exact List.take_prefix _ _
    by_cases h1 : cut ≤ lev ∧ q.length ≤ t.d
    · rw [find_tail h1.1 h1.2] at hf
      by_cases h2 : 2 ≤ t.kvs.length
      · rw [Grp.Two.tail_eq ⟨h, h2⟩] at hf
        cases he : t.endItem with
        | none => rw [he] at hf; simp at hf
        | some i =>
          rw [he] at hf
          simp only [Option.map_some, Option.some.injEq, Prod.mk.injEq] at hf
          rw [← hf.1]
          exact hend i he ⟨by rw [List.take_of_length_le (by omega)]; exact List.prefix_rfl, Or.inl h1.2⟩
      · obtain ⟨e1, x, i, e2, e3, e4, e5, e6, e7⟩ := h.single h2
        unfold Grp.tail at hf
        rw [e3] at hf
        simp only [List.head?_cons] at hf
        cases hfl : (some i).filter (fun i => i.label == 0xff && !i.child) with
        | none => rw [hfl] at hf; simp at hf
        | some i' =>
          have hii : i' = i := by
            rw [Option.filter_eq_some_iff] at hfl
            simpa using hfl.1.symm
          subst hii
          rw [hfl] at hf
          simp only [Option.map_some, Option.some.injEq, Prod.mk.injEq] at hf
          rw [← hf.1]
          have e : leafKV (t.bd, i') = x := by simp [leafKV, e5]
          rw [e]
          have hx : x ∈ t.kvs := by rw [e2]; simp
          refine ⟨(hin x hx).1, Or.inl ⟨t.d, by omega, ?_, ?_⟩⟩
          · rw [← (hin x hx).2]
            exact List.take_prefix _ _
          · intro k' hk' hpk
            rw [List.mem_map] at hk'
            obtain ⟨y, hy, rfl⟩ := hk'
            rw [← (hin x hx).2] at hpk
            have := hout y hy hpk
            rw [e2, List.mem_singleton] at this
            rw [this]
    · by_cases hp : t.pre <+: q.drop t.d
      · by_cases h2 : q.length ≤ t.bd
        · rw [find_end h1 hp h2] at hf
          have hbt : 2 ≤ t.kvs.length ∨ lev < cut := by
            by_cases h3 : 2 ≤ t.kvs.length
            · exact Or.inl h3
            · right
              have := (h.single h3).1
              omega
          have : (if lev < cut then t.endItem else t.tail) = t.endItem := by
            split
            · rfl
            · exact Grp.Two.tail_eq ⟨h, hbt.resolve_right ‹_›⟩
          rw [this] at hf
          cases he : t.endItem with
          | none => rw [he] at hf; simp at hf
          | some i =>
            rw [he] at hf
            simp only [Option.map_some, Option.some.injEq, Prod.mk.injEq] at hf
            rw [← hf.1]
            exact hend i he ⟨by rw [List.take_of_length_le h2]; exact List.prefix_rfl, Or.inr hp⟩
        · have hlt : t.bd < q.length := by omega
          have hqc := List.getElem?_eq_getElem hlt
          rcases find_label (is := t.items) (c := q[t.bd]) with ⟨h3, -⟩ | ⟨ip, i, iq, h3, h4, h5, h6⟩
          · rw [find_miss h1 hp h2 hqc h3] at hf
            simp at hf
          · rw [find_hit h1 hp h2 hqc h6] at hf
            have hi : i ∈ t.items := by rw [h3]; simp
            -- the keys below the item
            have hin' : ∀ x ∈ i.kvs, x ∈ K ∧ q.take (t.bd + 1) = x.1.take (t.bd + 1) := by
              intro x hx
              have hxt : x ∈ t.kvs := by
                rw [← t.items_flat, List.mem_flatMap]
                exact ⟨i, hi, hx⟩
              refine ⟨(hin x hxt).1, ?_⟩
              have hb := ((h.pre_iff hxt hd (hin x hxt).2).mp hp).2
              rcases h.item hi with ⟨h7, -⟩ | ⟨-, -, -, -, h8⟩
              · rw [h4] at h7; simp at h7
              · rw [List.take_add_one, List.take_add_one, hb, (h8 x hx).2, hqc, h5]
            have hout' : ∀ x ∈ K, q.take (t.bd + 1) <+: x.1 → x ∈ i.kvs := by
              intro x hx hpx
              have hxt : x ∈ t.kvs := hout x hx (List.IsPrefix.trans (by
                rw [show t.d = min t.d (t.bd + 1) by omega, ← List.take_take]
                exact List.take_prefix _ _) hpx)
              have hxc : x.1[t.bd]? = some q[t.bd] := by
                obtain ⟨z, hz⟩ := hpx
                rw [← hz, List.getElem?_append_left (by simp; omega), List.getElem?_take_of_lt (by omega), hqc]
              obtain ⟨i', hi', -, e2, e3, e4⟩ := find_item h.toOK hxt hxc
              rw [h.item_unique hi hi' h4 e3 (by rw [h5, e4])]
              exact e2
            cases hc : i.child with
            | true =>
              rw [hc, if_pos rfl] at hf
              exact ih (lev + 1) ⟨i.kvs, t.bd + 1⟩ (h.child_good (mem_child hi hc)).1 (by show t.bd + 1 ≤ _; omega) hin' hout' j D hf
            | false =>
              rw [hc, if_neg (by simp)] at hf
              simp only [Option.some.injEq, Prod.mk.injEq] at hf
              rw [← hf.1]
              obtain ⟨e1, e2⟩ := h.leafKV hi hc
              have hm : leafKV (t.bd, i) ∈ i.kvs := by rw [e1]; simp [leafKV]
              have hlen : t.bd < (leafKV (t.bd, i)).1.length := by
                rcases h.item hi with ⟨h7, -⟩ | ⟨-, -, -, -, h8⟩
                · rw [h4] at h7; simp at h7
                · exact (h.rest_len (h8 _ hm).1).2
              refine ⟨(hin' _ hm).1, Or.inl ⟨t.bd + 1, by omega, ?_, ?_⟩⟩
              · rw [← (hin' _ hm).2]
                exact List.take_prefix _ _
              · intro k' hk' hpk
                rw [List.mem_map] at hk'
                obtain ⟨y, hy, rfl⟩ := hk'
                rw [← (hin' _ hm).2] at hpk
                have := hout' y hy hpk
                rw [e1, List.mem_singleton] at this
                rw [this]
      · rw [find_nopre h1 hp] at hf
        simp at hf

/-! ### Two cut-offs -/

theorem find_cuts (c1 c2 : Nat) (q : Bytes) : ∀ (n lev : Nat) (t : Grp), t.Good → (2 ≤ t.kvs.length ∨ (c1 ≤ lev ∧ c2 ≤ lev)) → t.d ≤ q.length → (∀ x ∈ t.kvs, q.take t.d = x.1.take t.d) →
    ∀ j D, find c1 q n lev t = some (j, D) → (∃ D', find c2 q n lev t = some (j, D')) ∨ (q <+: (leafKV j).1 ∧ q ≠ (leafKV j).1) := by
  intro n
  induction n with
  | zero => intro lev t _ _ _ _ j D h; simp [find] at h
  | succ n ih =>
    intro lev t h hs hd hin j D hf
    have hge := t.bd_ge
    -- a node at which the query ends, and whose prefix matters
    have hcase : 2 ≤ t.kvs.length → q.length ≤ t.d → ∀ i, t.endItem = some i → j = (t.bd, i) →
        (∃ D', find c2 q (n + 1) lev t = some (j, D')) ∨ (q <+: (leafKV j).1 ∧ q ≠ (leafKV j).1) := by
      intro h2 hq i he hj
      by_cases hc : c2 ≤ lev
      · left
        rw [find_tail hc hq, Grp.Two.tail_eq ⟨h, h2⟩, he, hj]
        exact ⟨t.d, rfl⟩
      · by_cases hb : t.bd = t.d
        · left
          have hpl := h.pre_length.1
          have : t.pre = [] := List.eq_nil_of_length_eq_zero (by omega)
          rw [find_end (by omega) (by rw [this]; simp) (by omega), if_pos (by omega), he, hj]
          exact ⟨t.bd, rfl⟩
        · right
          obtain ⟨h1, -, h3, x, hx, h4, h5⟩ := h.endItem_mem he
          have e : leafKV j = x := by rw [hj]; simp [leafKV, h4]
          rw [e]
          refine ⟨?_, ?_⟩
          · have : q = q.take t.d := (List.take_of_length_le hq).symm
            rw [this, hin x hx]
            exact List.take_prefix _ _
          · intro hc
            rw [hc] at hq
            omega
    by_cases h1 : c1 ≤ lev ∧ q.length ≤ t.d
    · rw [find_tail h1.1 h1.2] at hf
      by_cases h2 : 2 ≤ t.kvs.length
      · rw [Grp.Two.tail_eq ⟨h, h2⟩] at hf
        cases he : t.endItem with
        | none => rw [he] at hf; simp at hf
        | some i =>
          rw [he] at hf
          simp only [Option.map_some, Option.some.injEq, Prod.mk.injEq] at hf
          exact hcase h2 h1.2 i he hf.1.symm
      · left
        have := hs.resolve_left h2
        rw [find_tail this.2 h1.2]
        exact ⟨D, hf⟩
    · by_cases hp : t.pre <+: q.drop t.d
      · by_cases h2 : q.length ≤ t.bd
        · rw [find_end h1 hp h2] at hf
          have h3 : 2 ≤ t.kvs.length := by
            by_contra h3
            have := (h.single h3).1
            rcases hs with h4 | h4 <;> omega
          have : (if lev < c1 then t.endItem else t.tail) = t.endItem := by
            split
            · rfl
            · exact Grp.Two.tail_eq ⟨h, h3⟩
          rw [this] at hf
          cases he : t.endItem with
          | none => rw [he] at hf; simp at hf
          | some i =>
            rw [he] at hf
            simp only [Option.map_some, Option.some.injEq, Prod.mk.injEq] at hf
            by_cases h5 : q.length ≤ t.d
            · exact hcase h3 h5 i he hf.1.symm
            · left
              have h6 : (if lev < c2 then t.endItem else t.tail) = t.endItem := by
                split
                · rfl
                · exact Grp.Two.tail_eq ⟨h, h3⟩
              rw [find_end (by omega) hp h2, h6, he]
              exact ⟨t.bd, by rw [← hf.1]; rfl⟩
        · have hlt : t.bd < q.length := by omega
          have hqc := List.getElem?_eq_getElem hlt
          rcases find_label (is := t.items) (c := q[t.bd]) with ⟨h3, -⟩ | ⟨ip, i, iq, h3, h4, h5, h6⟩
          · rw [find_miss h1 hp h2 hqc h3] at hf
            simp at hf
          · rw [find_hit h1 hp h2 hqc h6] at hf
            rw [find_hit (by omega) hp h2 hqc h6]
            have hi : i ∈ t.items := by rw [h3]; simp
            cases hc : i.child with
            | true =>
              rw [hc, if_pos rfl] at hf
              rw [if_pos rfl]
              have hg := h.child_good (mem_child hi hc)
              refine ih (lev + 1) ⟨i.kvs, t.bd + 1⟩ hg.1 (Or.inl hg.2) (by show t.bd + 1 ≤ _; omega) ?_ j D hf
              intro x hx
              have hxt : x ∈ t.kvs := by
                rw [← t.items_flat, List.mem_flatMap]
                exact ⟨i, hi, hx⟩
              have hb := ((h.pre_iff hxt hd (hin x hxt)).mp hp).2
              rcases h.item hi with ⟨h7, -⟩ | ⟨-, -, -, -, h8⟩
              · rw [h4] at h7; simp at h7
              · show q.take (t.bd + 1) = _
                rw [List.take_add_one, List.take_add_one, hb, (h8 x hx).2, hqc, h5]
            | false =>
              left
              rw [hc, if_neg (by simp)] at hf
              simp only [Option.some.injEq, Prod.mk.injEq] at hf
              rw [if_neg (by simp)]
              exact ⟨t.bd, by rw [← hf.1]⟩
      · rw [find_nopre h1 hp] at hf
        simp at hf

end Surf
