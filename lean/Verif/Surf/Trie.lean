import Verif.Surf.Bits
import Verif.Common

/-!
# The trie of a sorted key list (specification)

Nothing here follows the code. A node of the trie is a group of stored pairs whose keys agree on the first `d` bytes. It branches at the first depth `bd`
at which the keys do not all have the same byte: an item for the key that ends there, if there is one, and one for every byte that follows. An item of one pair is a leaf; one of
several pairs leads to a child.
-/

set_option linter.unusedSimpArgs false

namespace Surf

/-- A stored pair. -/
abbrev KV := Bytes × Bytes

/-- Split a list into maximal runs of keys with the same byte at `d`. -/
def runs (d : Nat) : List KV → List (List KV)
  | [] => []
  | x :: xs => match runs d xs with
    | (y :: ys) :: rest => if x.1[d]? = y.1[d]? then (x :: y :: ys) :: rest else [x] :: (y :: ys) :: rest
    | rest => [x] :: rest

/-- An item of a node: its label, whether it stands for a key that ends here, and the pairs below. -/
structure Item where
  label : UInt8
  term : Bool
  kvs : List KV
deriving Repr, DecidableEq

/-- Does the item lead to a child node? -/
def Item.child (i : Item) : Bool := decide (1 < i.kvs.length)

/-- The item of a run. -/
def groupItem (d : Nat) (g : List KV) : Item := ⟨(g.head?.bind (·.1[d]?)).getD 0, false, g⟩

/-- A node: the pairs below it, and the depth at which it begins. -/
structure Grp where
  kvs : List KV
  d : Nat
deriving Repr, DecidableEq

/-- Are there several keys, all with the same byte at `d`? -/
def sameAt (d : Nat) : List KV → Bool
  | x :: y :: rest => x.1[d]?.isSome && (y :: rest).all (fun z => z.1[d]? == x.1[d]?)
  | _ => false

/-- The first depth, at most `n` steps from `d` on, at which the keys differ. -/
def branchAt (kvs : List KV) : Nat → Nat → Nat
  | 0, d => d
  | n + 1, d => if sameAt d kvs then branchAt kvs n (d + 1) else d

/-- The length of the first key. -/
def headLen : List KV → Nat
  | [] => 0
  | x :: _ => x.1.length

/-- The items at depth `d`. -/
def itemsAt (d : Nat) : List KV → List Item
  | [] => []
  | x :: xs => if x.1.length ≤ d then ⟨0xff, true, [x]⟩ :: (runs d xs).map (groupItem d) else (runs d (x :: xs)).map (groupItem d)

namespace Grp

/-- The depth at which the node branches. -/
def bd (t : Grp) : Nat := branchAt t.kvs (headLen t.kvs - t.d) t.d

/-- The bytes between the beginning of the node and the depth at which it branches. -/
def pre (t : Grp) : Bytes := match t.kvs with
  | [] => []
  | x :: _ => (x.1.take t.bd).drop t.d

/-- The items of a node. -/
def items (t : Grp) : List Item := itemsAt t.bd t.kvs

/-- The children of a node. -/
def children (t : Grp) : List Grp := (t.items.filter Item.child).map fun i => ⟨i.kvs, t.bd + 1⟩

/-- The nodes `l` levels below a node, from left to right. -/
def desc : Nat → Grp → List Grp
  | 0, t => [t]
  | l + 1, t => t.children.flatMap (desc l)

/-- A node of the trie of sorted keys: not empty, sorted, with a common beginning. -/
structure OK (t : Grp) : Prop where
  ne : t.kvs ≠ []
  sorted : t.kvs.Pairwise (fun a b => a.1 < b.1)
  len : ∀ x ∈ t.kvs, t.d ≤ x.1.length
  common : ∀ x ∈ t.kvs, ∀ y ∈ t.kvs, x.1.take t.d = y.1.take t.d

/-- A node as the builder meets it: with two pairs at least, or one whose key is not at its end. -/
structure Good (t : Grp) : Prop extends t.OK where
  big : 2 ≤ t.kvs.length ∨ ∀ x ∈ t.kvs, t.d < x.1.length

end Grp

/-! ## Order -/

theorem lt_of_append (p a b : Bytes) : p ++ a < p ++ b ↔ a < b := by
  induction p with
  | nil => simp
  | cons x p ih => rw [List.cons_append, List.cons_append, List.cons_lt_cons_iff]; simp [ih]

theorem key_split {a : Bytes} {d : Nat} (h : d < a.length) : a = a.take d ++ a[d] :: a.drop (d + 1) := by
  rw [← List.drop_eq_getElem_cons h, List.take_append_drop]

/-- Below a common beginning, the next bytes of sorted keys are sorted. -/
theorem byte_le {a b : Bytes} {d : Nat} (h : a < b) (hc : a.take d = b.take d) (ha : d < a.length) (hb : d < b.length) : a[d] ≤ b[d] := by
  rw [key_split ha, key_split hb, hc, lt_of_append, List.cons_lt_cons_iff] at h
  rcases h with h | ⟨h, -⟩
  · exact UInt8.le_of_lt h
  · rw [h]; exact UInt8.le_refl _

/-- The greater of two keys with a common beginning does not end with it. -/
theorem len_of_lt {a b : Bytes} {d : Nat} (h : a < b) (hc : a.take d = b.take d) (hb : d ≤ b.length) : d < b.length := by
  rcases Nat.lt_or_ge d b.length with h1 | h1
  · exact h1
  · exfalso
    have e : b.take d = b := List.take_of_length_le h1
    rw [← List.take_append_drop d a, hc, e] at h
    have h2 : b ++ a.drop d < b ++ [] := by simpa using h
    rw [lt_of_append] at h2
    exact List.not_lt_nil _ h2

/-! ## Runs -/

theorem runs_ne_nil (d : Nat) : ∀ (xs : List KV) (g : List KV), g ∈ runs d xs → g ≠ [] := by
  intro xs
  induction xs with
  | nil => intro g h; simp [runs] at h
  | cons x xs ih =>
    intro g h
    rw [runs] at h
    split at h
    next y ys rest e =>
      by_cases hc : x.1[d]? = y.1[d]?
      · rw [if_pos hc, List.mem_cons] at h
        rcases h with rfl | h
        · simp
        · exact ih g (by rw [e]; exact List.mem_cons_of_mem _ h)
      · rw [if_neg hc, List.mem_cons] at h
        rcases h with rfl | h
        · simp
        · exact ih g (by rw [e]; exact h)
    next e =>
      rw [List.mem_cons] at h
      rcases h with rfl | h
      · simp
      · exact ih g h

theorem runs_flatten (d : Nat) : ∀ (xs : List KV), (runs d xs).flatten = xs := by
  intro xs
  induction xs with
  | nil => rfl
  | cons x xs ih =>
    rw [runs]
    split
    next y ys rest e =>
      rw [e] at ih
      by_cases hc : x.1[d]? = y.1[d]?
      · rw [if_pos hc]
        simp only [List.flatten_cons, List.cons_append] at ih ⊢
        rw [← ih]
      · rw [if_neg hc]
        simp only [List.flatten_cons, List.cons_append, List.nil_append] at ih ⊢
        rw [← ih]
    next e => simp [ih]

theorem runs_same (d : Nat) : ∀ (xs : List KV) (g : List KV), g ∈ runs d xs → ∀ x ∈ g, ∀ y ∈ g, x.1[d]? = y.1[d]? := by
  intro xs
  induction xs with
  | nil => intro g h; simp [runs] at h
  | cons x xs ih =>
    intro g h
    rw [runs] at h
    split at h
    next y ys rest e =>
      by_cases hc : x.1[d]? = y.1[d]?
      · rw [if_pos hc, List.mem_cons] at h
        rcases h with rfl | h
        · have h1 := ih (y :: ys) (by rw [e]; simp)
          have h2 : ∀ z ∈ x :: y :: ys, z.1[d]? = y.1[d]? := by
            intro z hz
            rw [List.mem_cons] at hz
            rcases hz with rfl | hz
            · exact hc
            · exact h1 z hz y (by simp)
          intro a ha b hb
          rw [h2 a ha, h2 b hb]
        · exact ih g (by rw [e]; exact List.mem_cons_of_mem _ h)
      · rw [if_neg hc, List.mem_cons] at h
        rcases h with rfl | h
        · intro a ha b hb
          simp at ha hb
          rw [ha, hb]
        · exact ih g (by rw [e]; exact h)
    next e =>
      rw [List.mem_cons] at h
      rcases h with rfl | h
      · intro a ha b hb
        simp at ha hb
        rw [ha, hb]
      · exact ih g h

/-- How the loop of the builder finds the first run. -/
theorem runs_append (d : Nat) (r rest : List KV) (hr : r ≠ []) (hs : ∀ x ∈ r, ∀ y ∈ r, x.1[d]? = y.1[d]?)
    (hd : ∀ x ∈ r, ∀ y, rest.head? = some y → x.1[d]? ≠ y.1[d]?) : runs d (r ++ rest) = r :: runs d rest := by
  induction r with
  | nil => exact absurd rfl hr
  | cons x r ih =>
    cases r with
    | nil =>
      rw [List.cons_append, List.nil_append, runs]
      cases rest with
      | nil => rfl
      | cons y rest' =>
        have hne := hd x (by simp) y rfl
        have hfl := runs_flatten d (y :: rest')
        split
        next z zs rr e =>
          rw [e] at hfl
          simp only [List.flatten_cons, List.cons_append, List.cons.injEq] at hfl
          rw [if_neg (by rw [hfl.1]; exact hne), e]
        next e => rfl
    | cons y r' =>
      rw [List.cons_append, runs, ih (by simp) (fun a ha b hb => hs a (List.mem_cons_of_mem _ ha) b (List.mem_cons_of_mem _ hb))
        (fun a ha b hb => hd a (List.mem_cons_of_mem _ ha) b hb)]
      simp only
      rw [if_pos (hs x (by simp) y (by simp))]

/-- The bytes of the runs of sorted keys are strictly sorted. -/
theorem runs_sorted (d : Nat) : ∀ (xs : List KV), (∀ x ∈ xs, d < x.1.length) → xs.Pairwise (fun a b => a.1 < b.1) →
    (∀ x ∈ xs, ∀ y ∈ xs, x.1.take d = y.1.take d) → (runs d xs).Pairwise (fun g h => (groupItem d g).label < (groupItem d h).label) := by
  intro xs
  induction xs with
  | nil => intro _ _ _; simp [runs]
  | cons x xs ih =>
    intro hl hs hc
    have ih := ih (fun y hy => hl y (List.mem_cons_of_mem _ hy)) (List.pairwise_cons.mp hs).2
      (fun a ha b hb => hc a (List.mem_cons_of_mem _ ha) b (List.mem_cons_of_mem _ hb))
    have hx : d < x.1.length := hl x (by simp)
    rw [runs]
    split
    next y ys rest e =>
      rw [e] at ih
      have hy : y ∈ xs := by
        rw [← runs_flatten d xs, e]
        simp
      have hyl : d < y.1.length := hl y (List.mem_cons_of_mem _ hy)
      have hle := byte_le ((List.pairwise_cons.mp hs).1 y hy) (hc x (by simp) y (List.mem_cons_of_mem _ hy)) hx hyl
      have hly : (groupItem d (y :: ys)).label = y.1[d] := by simp [groupItem, List.getElem?_eq_getElem hyl]
      by_cases hh : x.1[d]? = y.1[d]?
      · rw [if_pos hh]
        have hlx : (groupItem d (x :: y :: ys)).label = (groupItem d (y :: ys)).label := by
          simp only [groupItem, List.head?_cons, Option.bind_some, hh]
        rw [List.pairwise_cons] at ih ⊢
        exact ⟨fun g hg => by rw [hlx]; exact ih.1 g hg, ih.2⟩
      · rw [if_neg hh]
        have hlx : (groupItem d [x]).label = x.1[d] := by simp [groupItem, List.getElem?_eq_getElem hx]
        have hlt : (groupItem d [x]).label < (groupItem d (y :: ys)).label := by
          rw [hlx, hly]
          refine UInt8.lt_of_le_of_ne hle ?_
          intro h2
          apply hh
          rw [List.getElem?_eq_getElem hx, List.getElem?_eq_getElem hyl, h2]
        rw [List.pairwise_cons]
        refine ⟨?_, ih⟩
        intro g hg
        rw [List.mem_cons] at hg
        rcases hg with rfl | hg
        · exact hlt
        · exact UInt8.lt_trans hlt ((List.pairwise_cons.mp ih).1 g hg)
    next e =>
      cases hr : runs d xs with
      | nil => simp
      | cons g rest =>
        have := runs_ne_nil d xs g (by rw [hr]; simp)
        cases g with
        | nil => exact absurd rfl this
        | cons a b => exact absurd hr (e _ _ _)

/-! ## Nodes -/

theorem sameAt_iff {d : Nat} {kvs : List KV} (h : sameAt d kvs = true) : 2 ≤ kvs.length ∧ ∀ x ∈ kvs, ∀ y ∈ kvs, x.1[d]? = y.1[d]? ∧ d < x.1.length := by
  match kvs with
  | [] => simp [sameAt] at h
  | [x] => simp [sameAt] at h
  | x :: y :: rest =>
    simp only [sameAt, Bool.and_eq_true, Option.isSome_iff_exists, List.all_eq_true, beq_iff_eq] at h
    obtain ⟨⟨c, hc⟩, h2⟩ := h
    have h3 : ∀ z ∈ x :: y :: rest, z.1[d]? = some c := by
      intro z hz
      rw [List.mem_cons] at hz
      rcases hz with rfl | hz
      · exact hc
      · rw [h2 z hz, hc]
    refine ⟨by simp, fun a ha b hb => ⟨by rw [h3 a ha, h3 b hb], ?_⟩⟩
    have := h3 a ha
    exact (List.getElem?_eq_some_iff.mp this).1

theorem sameAt_of {d : Nat} {kvs : List KV} (h2 : 2 ≤ kvs.length) (h : ∀ x ∈ kvs, ∀ y ∈ kvs, x.1[d]? = y.1[d]?) (hl : ∀ x ∈ kvs, d < x.1.length) :
    sameAt d kvs = true := by
  match kvs with
  | [] => simp at h2
  | [x] => simp at h2
  | x :: y :: rest =>
    simp only [sameAt, Bool.and_eq_true, Option.isSome_iff_exists, List.all_eq_true, beq_iff_eq]
    exact ⟨⟨x.1[d]'(hl x (by simp)), List.getElem?_eq_getElem _⟩, fun z hz => h z (List.mem_cons_of_mem _ hz) x (by simp)⟩

namespace Grp

/-- A node that does not branch yet can be taken to begin one byte later. -/
theorem OK.deeper {t : Grp} (h : t.OK) (hs : sameAt t.d t.kvs = true) : (⟨t.kvs, t.d + 1⟩ : Grp).OK := by
  obtain ⟨-, h2⟩ := sameAt_iff hs
  refine ⟨h.ne, h.sorted, fun x hx => (h2 x hx x hx).2, ?_⟩
  intro x hx y hy
  show x.1.take (t.d + 1) = y.1.take (t.d + 1)
  rw [List.take_add_one, List.take_add_one, h.common x hx y hy, (h2 x hx y hy).1]

theorem bd_deeper {t : Grp} (hs : sameAt t.d t.kvs = true) : (⟨t.kvs, t.d + 1⟩ : Grp).bd = t.bd := by
  obtain ⟨h1, h2⟩ := sameAt_iff hs
  unfold bd
  have h3 : t.d < headLen t.kvs := by
    cases hk : t.kvs with
    | nil => rw [hk] at h1; simp at h1
    | cons x xs => exact (h2 x (by rw [hk]; simp) x (by rw [hk]; simp)).2
  obtain ⟨n, hn⟩ : ∃ n, headLen t.kvs - t.d = n + 1 := ⟨headLen t.kvs - t.d - 1, by omega⟩
  rw [hn, branchAt, if_pos hs]
  show branchAt t.kvs (headLen t.kvs - (t.d + 1)) (t.d + 1) = _
  rw [show headLen t.kvs - (t.d + 1) = n by omega]

theorem bd_stop {t : Grp} (hs : sameAt t.d t.kvs = false) : t.bd = t.d := by
  unfold bd
  cases headLen t.kvs - t.d with
  | zero => rfl
  | succ n => rw [branchAt, if_neg (by rw [hs]; simp)]

theorem branchAt_le (kvs : List KV) : ∀ n d, d ≤ branchAt kvs n d ∧ branchAt kvs n d ≤ d + n := by
  intro n
  induction n with
  | zero => intro d; exact ⟨Nat.le_refl _, Nat.le_refl _⟩
  | succ n ih =>
    intro d
    rw [branchAt]
    split
    · have := ih (d + 1)
      omega
    · omega

theorem bd_ge (t : Grp) : t.d ≤ t.bd := (branchAt_le _ _ _).1

/-- A node can be taken to begin where it branches. -/
theorem OK.at_bd {t : Grp} (h : t.OK) : (⟨t.kvs, t.bd⟩ : Grp).OK ∧ sameAt t.bd t.kvs = false := by
  have key : ∀ n (t : Grp), t.OK → t.bd - t.d = n → (⟨t.kvs, t.bd⟩ : Grp).OK ∧ sameAt t.bd t.kvs = false := by
    intro n
    induction n with
    | zero =>
      intro t h hn
      have hge := t.bd_ge
      have e : t.bd = t.d := by omega
      cases hs : sameAt t.d t.kvs with
      | false => rw [e]; exact ⟨h, hs⟩
      | true =>
        have h1 := bd_deeper hs
        have h2 := (⟨t.kvs, t.d + 1⟩ : Grp).bd_ge
        rw [h1] at h2
        simp only at h2
        omega
    | succ n ih =>
      intro t h hn
      cases hs : sameAt t.d t.kvs with
      | false =>
        have := bd_stop hs
        omega
      | true =>
        have h1 := bd_deeper hs
        have h2 := ih ⟨t.kvs, t.d + 1⟩ (h.deeper hs) (by rw [h1]; show t.bd - (t.d + 1) = n; omega)
        rw [h1] at h2
        exact h2
  exact key _ t h rfl

theorem OK.bd_le {t : Grp} (h : t.OK) {x : KV} (hx : x ∈ t.kvs) : t.bd ≤ x.1.length := h.at_bd.1.len x hx

/-- Only the first key can end where the node branches. -/
theorem OK.tail_long {t : Grp} (h : t.OK) {x : KV} {xs : List KV} (e : t.kvs = x :: xs) : ∀ y ∈ xs, t.bd < y.1.length := by
  intro y hy
  have hb := h.at_bd.1
  have hs := h.sorted
  rw [e, List.pairwise_cons] at hs
  have hyk : y ∈ t.kvs := by rw [e]; exact List.mem_cons_of_mem _ hy
  exact len_of_lt (hs.1 y hy) (hb.common x (by show x ∈ t.kvs; rw [e]; simp) y hyk) (hb.len y hyk)

/-- The pairs of which the items other than the terminator are made. -/
def rest (t : Grp) : List KV := match t.kvs with
  | [] => []
  | x :: xs => if x.1.length ≤ t.bd then xs else x :: xs

/-- The key that ends where the node branches. -/
def ends (t : Grp) : List KV := match t.kvs with
  | [] => []
  | x :: _ => if x.1.length ≤ t.bd then [x] else []

theorem items_eq (t : Grp) : t.items = t.ends.map (fun x => ⟨0xff, true, [x]⟩) ++ (runs t.bd t.rest).map (groupItem t.bd) := by
  unfold items itemsAt ends rest
  cases t.kvs with
  | nil => rfl
  | cons x xs =>
    simp only
    split <;> simp

theorem ends_rest (t : Grp) : t.ends ++ t.rest = t.kvs := by
  unfold ends rest
  cases t.kvs with
  | nil => rfl
  | cons x xs =>
    simp only
    split <;> simp

theorem ends_cases (t : Grp) : t.ends = [] ∨ ∃ x, t.ends = [x] := by
  unfold ends
  cases t.kvs with
  | nil => exact Or.inl rfl
  | cons x xs =>
    simp only
    split
    · exact Or.inr ⟨x, rfl⟩
    · exact Or.inl rfl

theorem OK.ends_len {t : Grp} (h : t.OK) {x : KV} (hx : x ∈ t.ends) : x ∈ t.kvs ∧ x.1.length = t.bd := by
  have hk : x ∈ t.kvs := by rw [← t.ends_rest]; exact List.mem_append_left _ hx
  refine ⟨hk, ?_⟩
  have := h.bd_le hk
  unfold ends at hx
  cases hkv : t.kvs with
  | nil => rw [hkv] at hx; simp at hx
  | cons y ys =>
    rw [hkv] at hx
    simp only at hx
    split at hx
    · simp at hx
      subst hx
      omega
    · simp at hx

theorem OK.rest_len {t : Grp} (h : t.OK) {x : KV} (hx : x ∈ t.rest) : x ∈ t.kvs ∧ t.bd < x.1.length := by
  have hk : x ∈ t.kvs := by rw [← t.ends_rest]; exact List.mem_append_right _ hx
  refine ⟨hk, ?_⟩
  unfold rest at hx
  cases hkv : t.kvs with
  | nil => rw [hkv] at hx; simp at hx
  | cons y ys =>
    rw [hkv] at hx
    simp only at hx
    split at hx
    · exact h.tail_long hkv x hx
    · rw [List.mem_cons] at hx
      rcases hx with rfl | hx
      · omega
      · exact h.tail_long hkv x hx

theorem OK.rest_sorted {t : Grp} (h : t.OK) : t.rest.Pairwise (fun a b => a.1 < b.1) := by
  have := h.sorted
  rw [← t.ends_rest, List.pairwise_append] at this
  exact this.2.1

theorem OK.rest_common {t : Grp} (h : t.OK) {x y : KV} (hx : x ∈ t.rest) (hy : y ∈ t.rest) : x.1.take t.bd = y.1.take t.bd :=
  h.at_bd.1.common x (h.rest_len hx).1 y (h.rest_len hy).1

/-- What the items are. -/
theorem OK.item {t : Grp} (h : t.OK) {i : Item} (hi : i ∈ t.items) :
    (i.term = true ∧ i.label = 0xff ∧ ∃ x, x ∈ t.ends ∧ i.kvs = [x]) ∨
    (i.term = false ∧ i.kvs ∈ runs t.bd t.rest ∧ i = groupItem t.bd i.kvs ∧ i.kvs ≠ [] ∧
      ∀ x ∈ i.kvs, x ∈ t.rest ∧ x.1[t.bd]? = some i.label) := by
  rw [items_eq, List.mem_append, List.mem_map, List.mem_map] at hi
  rcases hi with ⟨x, hx, rfl⟩ | ⟨g, hg, rfl⟩
  · exact Or.inl ⟨rfl, rfl, x, hx, rfl⟩
  · right
    have hne := runs_ne_nil _ _ g hg
    have hmem : ∀ x ∈ g, x ∈ t.rest := by
      intro x hx
      rw [← runs_flatten t.bd t.rest]
      exact List.mem_flatten.mpr ⟨g, hg, hx⟩
    refine ⟨rfl, hg, rfl, hne, fun x hx => ⟨hmem x hx, ?_⟩⟩
    have hxg : x ∈ g := hx
    have hlen := (h.rest_len (hmem x hxg)).2
    cases hgc : g with
    | nil => exact absurd hgc hne
    | cons y ys =>
      have := runs_same _ _ g hg x hxg y (by rw [hgc]; simp)
      show _ = some (groupItem t.bd (y :: ys)).label
      simp only [groupItem, List.head?_cons, Option.bind_some]
      rw [← this, List.getElem?_eq_getElem hlen]
      rfl

theorem items_flat (t : Grp) : t.items.flatMap (·.kvs) = t.kvs := by
  rw [items_eq, List.flatMap_append]
  have h1 : (t.ends.map (fun x => (⟨0xff, true, [x]⟩ : Item))).flatMap (·.kvs) = t.ends := by
    generalize t.ends = l
    induction l with
    | nil => rfl
    | cons a l ih => simp [ih]
  have h2 : ((runs t.bd t.rest).map (groupItem t.bd)).flatMap (·.kvs) = t.rest := by
    conv_rhs => rw [← runs_flatten t.bd t.rest]
    generalize runs t.bd t.rest = l
    induction l with
    | nil => rfl
    | cons a l ih =>
      simp only [List.map_cons, List.flatMap_cons, List.flatten_cons, ih]
      rfl
  rw [h1, h2, ends_rest]

theorem OK.item_ne {t : Grp} (h : t.OK) {i : Item} (hi : i ∈ t.items) : i.kvs ≠ [] := by
  rcases h.item hi with ⟨-, -, x, -, e⟩ | ⟨-, -, -, e, -⟩
  · rw [e]; simp
  · exact e

theorem OK.items_ne {t : Grp} (h : t.OK) : t.items ≠ [] := by
  intro e
  have := t.items_flat
  rw [e] at this
  exact h.ne this.symm

/-- A child is a node of the trie. -/
theorem OK.child_good {t : Grp} (h : t.OK) {c : Grp} (hc : c ∈ t.children) : c.Good ∧ 2 ≤ c.kvs.length := by
  unfold children at hc
  rw [List.mem_map] at hc
  obtain ⟨i, hi, rfl⟩ := hc
  rw [List.mem_filter] at hi
  obtain ⟨hi, hch⟩ := hi
  have h2 : 2 ≤ i.kvs.length := by simp [Item.child] at hch; omega
  rcases h.item hi with ⟨-, -, x, -, e⟩ | ⟨-, hr, -, hne, hx⟩
  · rw [e] at h2; simp at h2
  · refine ⟨⟨⟨hne, ?_, ?_, ?_⟩, Or.inl h2⟩, h2⟩
    · have := h.rest_sorted
      rw [← runs_flatten t.bd t.rest, List.pairwise_flatten] at this
      exact this.1 _ hr
    · intro x hx'
      have := (h.rest_len (hx x hx').1).2
      exact this
    · intro x hx' y hy'
      show x.1.take (t.bd + 1) = y.1.take (t.bd + 1)
      rw [List.take_add_one, List.take_add_one, h.rest_common (hx x hx').1 (hx y hy').1, (hx x hx').2, (hx y hy').2]

/-- A node with two pairs or more has two items or more. -/
theorem OK.two_items {t : Grp} (h : t.OK) (h2 : 2 ≤ t.kvs.length) : 2 ≤ t.items.length := by
  by_contra hlt
  have hfl := t.items_flat
  match hi : t.items with
  | [] => exact h.items_ne hi
  | _ :: _ :: _ => rw [hi] at hlt; simp at hlt
  | [i] =>
    rw [hi] at hfl
    simp only [List.flatMap_cons, List.flatMap_nil, List.append_nil] at hfl
    rcases h.item (i := i) (by rw [hi]; simp) with ⟨-, -, x, -, e⟩ | ⟨-, -, -, -, hx⟩
    · rw [← hfl, e] at h2
      simp at h2
    · have := h.at_bd.2
      rw [sameAt_of h2 ?_ ?_] at this
      · simp at this
      · intro x hx1 y hy1
        rw [← hfl] at hx1 hy1
        rw [(hx x hx1).2, (hx y hy1).2]
      · intro x hx1
        rw [← hfl] at hx1
        exact (h.rest_len (hx x hx1).1).2

/-- The labels of the items other than the terminator are strictly sorted. -/
theorem OK.labels_sorted {t : Grp} (h : t.OK) : ((runs t.bd t.rest).map (groupItem t.bd)).Pairwise (fun i j => i.label < j.label) := by
  rw [List.pairwise_map]
  exact runs_sorted t.bd t.rest (fun x hx => (h.rest_len hx).2) h.rest_sorted (fun x hx y hy => h.rest_common hx hy)

/-- The pairs below the items are in order. -/
theorem OK.desc_good {t : Grp} (h : t.OK) : ∀ l c, c ∈ desc (l + 1) t → c.Good ∧ 2 ≤ c.kvs.length := by
  intro l
  induction l generalizing t with
  | zero =>
    intro c hc
    simp only [desc, List.mem_flatMap, List.mem_singleton] at hc
    obtain ⟨c', hc', rfl⟩ := hc
    exact h.child_good hc'
  | succ l ih =>
    intro c hc
    rw [desc, List.mem_flatMap] at hc
    obtain ⟨c', hc', h3⟩ := hc
    exact ih (h.child_good hc').1.toOK c h3

theorem desc_succ (l : Nat) (t : Grp) : desc (l + 1) t = (desc l t).flatMap children := by
  induction l generalizing t with
  | zero => simp [desc]
  | succ l ih =>
    rw [desc]
    have : t.children.flatMap (desc (l + 1)) = t.children.flatMap (fun c => (desc l c).flatMap children) := by
      congr 1
      funext c
      exact ih c
    rw [this, ← List.flatMap_assoc]
    rfl

end Grp

end Surf
