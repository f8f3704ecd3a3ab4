import Verif.Art.Node
import Verif.Surf.BitsLemmas
import Verif.Common
import Mathlib.Data.List.Nodup
import Mathlib.Data.List.Perm.Subperm

/-!
# The node containers are finite maps from bytes to children

`Node.child` is what a node says about a byte (by `findChild`). `Node.WF` are the representation invariants. Every operation on a
well-formed node has the effect of the corresponding operation on the map.
-/

set_option linter.unusedSimpArgs false

namespace Art

open Surf

/-- Change a function at one point. -/
def upd {α β : Type} [DecidableEq α] (f : α → β) (a : α) (x : β) : α → β := fun b => if b = a then x else f b

@[simp] theorem upd_same {α β : Type} [DecidableEq α] (f : α → β) (a : α) (x : β) : upd f a x a = x := by simp [upd]
theorem upd_other {α β : Type} [DecidableEq α] (f : α → β) {a b : α} (x : β) (h : b ≠ a) : upd f a x b = f b := by
  simp [upd, h]

/-! ## All bytes, counting -/

theorem mem_allBytes (b : UInt8) : b ∈ allBytes := by
  unfold allBytes
  rw [List.mem_map]
  exact ⟨b.toNat, by simpa using b.toNat_lt, by simp⟩

theorem nodup_allBytes : allBytes.Nodup := by
  unfold allBytes
  refine List.Nodup.map_on ?_ List.nodup_range
  intro x hx y hy h
  simp only [List.mem_range] at hx hy
  have := congrArg UInt8.toNat h
  simpa [Nat.mod_eq_of_lt hx, Nat.mod_eq_of_lt hy] using this

theorem length_allBytes : allBytes.length = 256 := by simp [allBytes]

theorem allBytes_getElem (i : Nat) (h : i < 256) : allBytes[i]? = some (UInt8.ofNat i) := by
  simp [allBytes, h]

/-- Number of bytes with a child. -/
def cnt (f : UInt8 → Option Ref) : Nat := allBytes.countP (fun b => (f b).isSome)

theorem countP_change {α : Type} [DecidableEq α] (p q : α → Bool) (a : α) (h : ∀ x, x ≠ a → p x = q x) :
    ∀ l : List α, l.Nodup → a ∈ l → l.countP p + (q a).toNat = l.countP q + (p a).toNat := by
  have key : ∀ l : List α, a ∉ l → l.countP p = l.countP q := by
    intro l hl
    apply List.countP_congr
    intro x hx
    rw [h x (fun e => hl (e ▸ hx))]
  intro l
  induction l with
  | nil => simp
  | cons x l ih =>
    intro hn hm
    rw [List.nodup_cons] at hn
    rw [List.countP_cons, List.countP_cons]
    by_cases hx : x = a
    · subst hx
      rw [key l hn.1]
      cases p x <;> cases q x <;> simp [Nat.add_assoc, Nat.add_comm]
    · have := ih hn.2 ((List.mem_cons.mp hm).resolve_left (fun e => hx e.symm))
      rw [h x hx]
      omega

theorem cnt_upd (f : UInt8 → Option Ref) (b : UInt8) (x : Option Ref) :
    cnt (upd f b x) + (f b).isSome.toNat = cnt f + x.isSome.toNat := by
  have := countP_change (fun c => (upd f b x c).isSome) (fun c => (f c).isSome) b
    (fun c hc => by simp only [upd_other f x hc]) allBytes nodup_allBytes (mem_allBytes b)
  simpa [cnt] using this

theorem cnt_congr {f g : UInt8 → Option Ref} (h : ∀ b, (f b).isSome = (g b).isSome) : cnt f = cnt g := by
  simp only [cnt, h]

theorem cnt_le (f : UInt8 → Option Ref) : cnt f ≤ 256 := by
  have := List.countP_le_length (p := fun b => (f b).isSome) (l := allBytes)
  rw [length_allBytes] at this
  exact this

theorem cnt_pos_iff (f : UInt8 → Option Ref) : 0 < cnt f ↔ ∃ b r, f b = some r := by
  simp only [cnt, List.countP_pos_iff, Option.isSome_iff_exists]
  constructor
  · rintro ⟨b, -, r, h⟩
    exact ⟨b, r, h⟩
  · rintro ⟨b, r, h⟩
    exact ⟨b, mem_allBytes b, r, h⟩

/-- The bytes of a list without duplicates are counted by its length. -/
theorem cnt_of_list (f : UInt8 → Option Ref) (l : List UInt8) (hn : l.Nodup) (h : ∀ b, (f b).isSome ↔ b ∈ l) : cnt f = l.length := by
  rw [cnt, List.countP_eq_length_filter]
  apply List.Perm.length_eq
  rw [List.perm_ext_iff_of_nodup (nodup_allBytes.filter _) hn]
  intro b
  simp [mem_allBytes, h]

theorem cnt_eq_256 {f : UInt8 → Option Ref} (h : ∀ b, (f b).isSome) : cnt f = 256 := by
  rw [cnt, List.countP_eq_length.mpr (by simpa using fun b _ => h b), length_allBytes]

/-! ## Well-formed nodes -/

/-- The part of node4 and node16: the first `num` keys are distinct and have a child each. -/
structure ArrWF (cap num : Nat) (keys : Bytes) (children : List (Option Ref)) : Prop where
  lenK : keys.length = cap
  lenC : children.length = cap
  num_le : num ≤ cap
  nodup : (keys.take num).Nodup
  isc : ∀ i, i < num → ∃ r, children[i]? = some (some r)

/-- The child under a byte in a node48, and its slot. -/
def idxChild (index : List Nat) (children : List (Option Ref)) (b : UInt8) : Option (Ref × Nat) :=
  match index[b.toNat]? with
  | some (i + 1) => (children[i]?.join).map (fun c => (c, i))
  | _ => none

/-- node48: `index` and `slots` agree, and used slots hold a child. -/
structure IdxWF (num : Nat) (index : List Nat) (children : List (Option Ref)) (slots : Word) : Prop where
  lenI : index.length = 256
  lenC : children.length = 48
  isc : ∀ (b i : Nat), index[b]? = some (i + 1) → ∃ r, children[i]? = some (some r)
  inj : ∀ (b b' i : Nat), index[b]? = some (i + 1) → index[b']? = some (i + 1) → b = b'
  slot : ∀ i, i < 48 → (slots.getLsbD (47 - i) = true ↔ ∃ b : Nat, index[b]? = some (i + 1))
  top : ∀ j, 48 ≤ j → j < 64 → slots.getLsbD j = true
  count : cnt (fun b => (idxChild index children b).map (·.1)) = num

/-- The representation invariant of a node container. The dummy is not a container. -/
def Node.WF (n : Node) : Prop :=
  match n.kids with
  | .n4 keys children => ArrWF 4 n.numChildren.toNat keys children
  | .n16 keys children => ArrWF 16 n.numChildren.toNat keys children
  | .n48 index children slots => IdxWF n.numChildren.toNat index children slots
  | .n256 children => children.length = 256 ∧ n.numChildren = UInt8.ofNat (cnt (fun b => children[b.toNat]?.join))
  | .dummy _ => False

/-- The child under a byte. -/
def Node.child (n : Node) (b : UInt8) : Option Ref := (n.findChild b).map (·.1)

/-- The capacity, which also says of which type the node is (0 for the dummy). -/
def Node.cap (n : Node) : Nat :=
  match n.kids with
  | .n4 .. => 4
  | .n16 .. => 16
  | .n48 .. => 48
  | .n256 .. => 256
  | .dummy _ => 0

/-- Everything but the container and the version. -/
def Node.SameHead (n n' : Node) : Prop := n'.prefixLen = n.prefixLen ∧ n'.pre = n.pre ∧ n'.prefixLeaf = n.prefixLeaf

/-! ## Node4 and node16 -/

/-- The child under a byte in the arrays of a node4 or node16. -/
def arrChild (num : Nat) (keys : Bytes) (children : List (Option Ref)) (b : UInt8) : Option (Ref × Nat) :=
  ((keys.take num).findIdx? (· == b)).bind (fun i => (children[i]?.join).map (fun c => (c, i)))

theorem ArrWF.find_iff {cap num keys children} (h : ArrWF cap num keys children) (b : UInt8) (r : Ref) (i : Nat) :
    arrChild num keys children b = some (r, i) ↔ i < num ∧ keys[i]? = some b ∧ children[i]? = some (some r) := by
  have hlen : (keys.take num).length = num := by have := h.lenK; have := h.num_le; simp; omega
  unfold arrChild
  constructor
  · intro hh
    rw [Option.bind_eq_some_iff] at hh
    obtain ⟨j, h1, h2⟩ := hh
    rw [Option.map_eq_some_iff] at h2
    obtain ⟨c, h3, h4⟩ := h2
    cases h4
    rw [List.findIdx?_eq_some_iff_getElem] at h1
    obtain ⟨hj, h5, -⟩ := h1
    have hk : i < keys.length := by have := h.lenK; have := h.num_le; omega
    refine ⟨by omega, ?_, ?_⟩
    · rw [List.getElem_take] at h5
      rw [List.getElem?_eq_getElem hk]
      simpa using h5
    · simpa [Option.join_eq_some_iff] using h3
  · rintro ⟨h1, h2, h3⟩
    rw [Option.bind_eq_some_iff]
    refine ⟨i, ?_, by simp [h3]⟩
    rw [List.findIdx?_eq_some_iff_getElem]
    have hk : i < keys.length := by have := h.lenK; have := h.num_le; omega
    rw [List.getElem?_eq_getElem hk] at h2
    refine ⟨by omega, by rw [List.getElem_take]; simpa using h2, ?_⟩
    intro j hj
    have hnd := h.nodup
    rw [List.nodup_iff_pairwise_ne, List.pairwise_iff_getElem] at hnd
    have := hnd j i (by omega) (by omega) hj
    rw [List.getElem_take, List.getElem_take] at this
    rw [List.getElem_take]
    simp only [Option.some.injEq] at h2
    rw [h2] at this
    simpa using this

/-- A byte is in the map iff it is one of the first `num` keys. -/
theorem ArrWF.isSome_iff {cap num keys children} (h : ArrWF cap num keys children) (b : UInt8) :
    (arrChild num keys children b).isSome ↔ b ∈ keys.take num := by
  rw [Option.isSome_iff_exists]
  constructor
  · rintro ⟨⟨r, i⟩, hh⟩
    obtain ⟨h1, h2, -⟩ := (h.find_iff b r i).mp hh
    rw [List.mem_iff_getElem?]
    exact ⟨i, by rw [List.getElem?_take, if_pos h1, h2]⟩
  · intro hb
    rw [List.mem_iff_getElem?] at hb
    obtain ⟨i, hi⟩ := hb
    rw [List.getElem?_take] at hi
    split at hi
    next h1 =>
      obtain ⟨r, hr⟩ := h.isc i h1
      exact ⟨(r, i), (h.find_iff b r i).mpr ⟨h1, hi, hr⟩⟩
    next => simp at hi

theorem ArrWF.cnt_eq {cap num keys children} (h : ArrWF cap num keys children) :
    cnt (fun b => (arrChild num keys children b).map (·.1)) = num := by
  rw [cnt_of_list _ (keys.take num) h.nodup]
  · have := h.lenK; have := h.num_le; simp; omega
  · intro b
    rw [Option.isSome_map]
    exact h.isSome_iff b

/-- `arrChild` is determined by the set of (key, child) pairs. -/
theorem ArrWF.ext {cap num keys children cap' num' keys' children'} (h : ArrWF cap num keys children)
    (h' : ArrWF cap' num' keys' children') (b : UInt8)
    (e : ∀ r, (∃ i, i < num ∧ keys[i]? = some b ∧ children[i]? = some (some r)) ↔
      (∃ i, i < num' ∧ keys'[i]? = some b ∧ children'[i]? = some (some r))) :
    (arrChild num keys children b).map (·.1) = (arrChild num' keys' children' b).map (·.1) := by
  apply Option.ext
  intro r
  constructor
  · intro hh
    rw [Option.map_eq_some_iff] at hh ⊢
    obtain ⟨⟨r', i⟩, h1, h2⟩ := hh
    simp only at h2
    subst h2
    obtain ⟨j, hj⟩ := (e r').mp ⟨i, (h.find_iff b r' i).mp h1⟩
    exact ⟨(r', j), (h'.find_iff b r' j).mpr hj, rfl⟩
  · intro hh
    rw [Option.map_eq_some_iff] at hh ⊢
    obtain ⟨⟨r', i⟩, h1, h2⟩ := hh
    simp only at h2
    subst h2
    obtain ⟨j, hj⟩ := (e r').mpr ⟨i, (h'.find_iff b r' i).mp h1⟩
    exact ⟨(r', j), (h.find_iff b r' j).mpr hj, rfl⟩

theorem ArrWF.child_iff {cap num keys children} (h : ArrWF cap num keys children) (b : UInt8) (r : Ref) :
    (arrChild num keys children b).map (·.1) = some r ↔
      ∃ i, i < num ∧ keys[i]? = some b ∧ children[i]? = some (some r) := by
  rw [Option.map_eq_some_iff]
  constructor
  · rintro ⟨⟨r', i⟩, h1, h2⟩
    simp only at h2
    subst h2
    exact ⟨i, (h.find_iff b r' i).mp h1⟩
  · rintro ⟨i, hi⟩
    exact ⟨(r, i), (h.find_iff b r i).mpr hi, rfl⟩

/-- Two keys at different positions below `num` differ. -/
theorem ArrWF.key_inj {cap num keys children} (h : ArrWF cap num keys children) {i j : Nat} {b : UInt8} (hi : i < num) (hj : j < num)
    (h1 : keys[i]? = some b) (h2 : keys[j]? = some b) : i = j := by
  obtain ⟨r, hr⟩ := h.isc i hi
  obtain ⟨r', hr'⟩ := h.isc j hj
  have e1 := (h.find_iff b r i).mpr ⟨hi, h1, hr⟩
  have e2 := (h.find_iff b r' j).mpr ⟨hj, h2, hr'⟩
  rw [e1] at e2
  simp at e2
  exact e2.2

theorem ArrWF.nodup_of_inj {keys : Bytes} {num : Nat}
    (h : ∀ i j b, i < num → j < num → keys[i]? = some b → keys[j]? = some b → i = j) : (keys.take num).Nodup := by
  rw [List.nodup_iff_pairwise_ne, List.pairwise_iff_getElem]
  intro i j hi hj hij e
  simp only [List.length_take] at hi hj
  rw [List.getElem_take, List.getElem_take] at e
  have := h i j (keys[j]'(by omega)) (by omega) (by omega) (by rw [List.getElem?_eq_getElem (by omega), e])
    (by rw [List.getElem?_eq_getElem (by omega)])
  omega

theorem setAt_eq {α : Type} {l : List α} {i : Nat} {x : α} (h : i < l.length) : setAt l i x = some (l.set i x) := by
  simp [setAt, h]

/-- Appending a key that is not there. -/
theorem ArrWF.insert {cap num keys children} (h : ArrWF cap num keys children) (b : UInt8) (r : Ref) (hlt : num < cap)
    (hb : arrChild num keys children b = none) :
    ArrWF cap (num + 1) (keys.set num b) (children.set num (some r)) ∧
    ∀ c, (arrChild (num + 1) (keys.set num b) (children.set num (some r)) c).map (·.1) =
      upd (fun c => (arrChild num keys children c).map (·.1)) b (some r) c := by
  have hK := h.lenK
  have hC := h.lenC
  have hnew : ∀ i, i < num → keys[i]? ≠ some b := by
    intro i hi e
    obtain ⟨r', hr'⟩ := h.isc i hi
    rw [(h.find_iff b r' i).mpr ⟨hi, e, hr'⟩] at hb
    simp at hb
  have hW : ArrWF cap (num + 1) (keys.set num b) (children.set num (some r)) := by
    refine ⟨by simp [hK], by simp [hC], by omega, ?_, ?_⟩
    · apply ArrWF.nodup_of_inj
      intro i j c hi hj e1 e2
      rw [List.getElem?_set] at e1 e2
      split at e1 <;> split at e2
      · omega
      · simp at e1
        obtain ⟨-, rfl⟩ := e1
        exact absurd e2 (hnew j (by omega))
      · simp at e2
        obtain ⟨-, rfl⟩ := e2
        exact absurd e1 (hnew i (by omega))
      · exact h.key_inj (by omega) (by omega) e1 e2
    · intro i hi
      rw [List.getElem?_set]
      split
      next e => exact ⟨r, by simp [hC, ← e]; omega⟩
      next e => exact h.isc i (by omega)
  refine ⟨hW, ?_⟩
  intro c
  apply Option.ext
  intro r'
  rw [hW.child_iff]
  by_cases hc : c = b
  · subst hc
    rw [upd_same]
    constructor
    · rintro ⟨i, h1, h2, h3⟩
      rw [List.getElem?_set] at h2 h3
      split at h2
      next e => rw [if_pos e] at h3; simp at h3; rw [h3.2]
      next e => exact absurd h2 (hnew i (by omega))
    · intro e
      simp only [Option.some.injEq] at e
      subst e
      exact ⟨num, by omega, by rw [List.getElem?_set_self (by omega)], by rw [List.getElem?_set_self (by omega)]⟩
  · rw [upd_other _ _ hc, h.child_iff]
    constructor
    · rintro ⟨i, h1, h2, h3⟩
      rw [List.getElem?_set] at h2 h3
      split at h2
      next e => simp at h2; exact absurd h2.2.symm hc
      next e => rw [if_neg e] at h3; exact ⟨i, by omega, h2, h3⟩
    · rintro ⟨i, h1, h2, h3⟩
      exact ⟨i, by omega, by rw [List.getElem?_set_ne (by omega)]; exact h2,
        by rw [List.getElem?_set_ne (by omega)]; exact h3⟩

theorem shiftDown_getElem? {α : Type} {l l' : List α} {i : Nat} (h : shiftDown l i = some l') (j : Nat) :
    l'[j]? = if j < i then l[j]? else if j + 1 < l.length then l[j + 1]? else if j < l.length then l[l.length - 1]? else none := by
  unfold shiftDown at h
  split at h
  next hi =>
    simp only [Option.some.injEq] at h
    subst h
    rw [List.append_assoc, List.getElem?_append]
    simp only [List.length_take, Nat.min_eq_left (Nat.le_of_lt hi)]
    split
    next hj => rw [List.getElem?_take, if_pos hj]
    next hj =>
      rw [List.getElem?_append]
      simp only [List.length_drop]
      split
      next h2 => rw [if_pos (by omega), List.getElem?_drop]; congr 1; omega
      next h2 =>
        rw [if_neg (by omega), List.getElem?_drop]
        split
        next h3 => congr 1; omega
        next h3 => rw [List.getElem?_eq_none]; omega
  next => simp at h

theorem shiftDown_length {α : Type} {l l' : List α} {i : Nat} (h : shiftDown l i = some l') : l'.length = l.length := by
  unfold shiftDown at h
  split at h
  next hi =>
    simp only [Option.some.injEq] at h
    subst h
    simp
    omega
  next => simp at h

/-- Removing the key at position `i`. -/
theorem ArrWF.remove {cap num keys children} (h : ArrWF cap num keys children) {b : UInt8} {r : Ref} {i : Nat}
    (hb : arrChild num keys children b = some (r, i)) :
    ∃ keys' children', shiftDown keys i = some keys' ∧ shiftDown children i = some children' ∧
      num - 1 < children'.length ∧
      ArrWF cap (num - 1) keys' (children'.set (num - 1) none) ∧
      ∀ c, (arrChild (num - 1) keys' (children'.set (num - 1) none) c).map (·.1) =
        upd (fun c => (arrChild num keys children c).map (·.1)) b none c := by
  obtain ⟨hi, hk, hc⟩ := (h.find_iff b r i).mp hb
  have hK := h.lenK
  have hC := h.lenC
  have hN := h.num_le
  obtain ⟨keys', ek⟩ : ∃ k', shiftDown keys i = some k' := by
    unfold shiftDown; rw [if_pos (by omega)]; exact ⟨_, rfl⟩
  obtain ⟨children', ec⟩ : ∃ k', shiftDown children i = some k' := by
    unfold shiftDown; rw [if_pos (by omega)]; exact ⟨_, rfl⟩
  have gk := shiftDown_getElem? ek
  have gc := shiftDown_getElem? ec
  have lk := shiftDown_length ek
  have lc := shiftDown_length ec
  have gk' : ∀ j, j < num - 1 → keys'[j]? = if j < i then keys[j]? else keys[j + 1]? := by
    intro j hj
    rw [gk]
    split
    · rfl
    · rw [if_pos (by omega)]
  have gc' : ∀ j, j < num - 1 → (children'.set (num - 1) none)[j]? = if j < i then children[j]? else children[j + 1]? := by
    intro j hj
    rw [List.getElem?_set_ne (by omega), gc]
    split
    · rfl
    · rw [if_pos (by omega)]
  have hW : ArrWF cap (num - 1) keys' (children'.set (num - 1) none) := by
    refine ⟨by omega, by simp; omega, by omega, ?_, ?_⟩
    · apply ArrWF.nodup_of_inj
      intro j1 j2 c h1 h2 e1 e2
      rw [gk' _ h1] at e1
      rw [gk' _ h2] at e2
      split at e1 <;> split at e2
      · exact h.key_inj (by omega) (by omega) e1 e2
      · have := h.key_inj (by omega) (by omega) e1 e2; omega
      · have := h.key_inj (by omega) (by omega) e1 e2; omega
      · have := h.key_inj (by omega) (by omega) e1 e2; omega
    · intro j hj
      rw [gc' _ hj]
      split
      · exact h.isc j (by omega)
      · exact h.isc (j + 1) (by omega)
  refine ⟨keys', children', ek, ec, by omega, hW, ?_⟩
  intro c
  apply Option.ext
  intro r'
  rw [hW.child_iff]
  by_cases hcb : c = b
  · subst hcb
    rw [upd_same]
    constructor
    · rintro ⟨j, h1, h2, h3⟩
      rw [gk' _ h1] at h2
      split at h2
      · have := h.key_inj (by omega) hi h2 hk; omega
      · have := h.key_inj (by omega) hi h2 hk; omega
    · simp
  · rw [upd_other _ _ hcb, h.child_iff]
    constructor
    · rintro ⟨j, h1, h2, h3⟩
      rw [gk' _ h1] at h2
      rw [gc' _ h1] at h3
      split at h2
      next e => rw [if_pos e] at h3; exact ⟨j, by omega, h2, h3⟩
      next e => rw [if_neg e] at h3; exact ⟨j + 1, by omega, h2, h3⟩
    · rintro ⟨j, h1, h2, h3⟩
      have hji : j ≠ i := by
        rintro rfl
        rw [hk] at h2
        simp at h2
        exact hcb h2.symm
      by_cases hlt : j < i
      · exact ⟨j, by omega, by rw [gk' _ (by omega), if_pos hlt]; exact h2, by rw [gc' _ (by omega), if_pos hlt]; exact h3⟩
      · refine ⟨j - 1, by omega, ?_, ?_⟩
        · rw [gk' _ (by omega), if_neg (by omega), Nat.sub_add_cancel (by omega)]; exact h2
        · rw [gc' _ (by omega), if_neg (by omega), Nat.sub_add_cancel (by omega)]; exact h3

/-- Replacing the child at position `i`. -/
theorem ArrWF.replace {cap num keys children} (h : ArrWF cap num keys children) {b : UInt8} {r : Ref} {i : Nat} (r' : Ref)
    (hb : arrChild num keys children b = some (r, i)) :
    i < children.length ∧ ArrWF cap num keys (children.set i (some r')) ∧
      ∀ c, (arrChild num keys (children.set i (some r')) c).map (·.1) =
        upd (fun c => (arrChild num keys children c).map (·.1)) b (some r') c := by
  obtain ⟨hi, hk, hc⟩ := (h.find_iff b r i).mp hb
  have hC := h.lenC
  have hN := h.num_le
  have hW : ArrWF cap num keys (children.set i (some r')) := by
    refine ⟨h.lenK, by simp [hC], hN, h.nodup, ?_⟩
    intro j hj
    rw [List.getElem?_set]
    split
    · rw [if_pos (by omega)]; exact ⟨r', rfl⟩
    · exact h.isc j hj
  refine ⟨by omega, hW, ?_⟩
  intro c
  apply Option.ext
  intro r''
  rw [hW.child_iff]
  by_cases hcb : c = b
  · subst hcb
    rw [upd_same]
    constructor
    · rintro ⟨j, h1, h2, h3⟩
      have := h.key_inj h1 hi h2 hk
      subst this
      rw [List.getElem?_set_self (by omega)] at h3
      simpa using h3
    · intro e
      simp only [Option.some.injEq] at e
      subst e
      exact ⟨i, hi, hk, by rw [List.getElem?_set_self (by omega)]⟩
  · rw [upd_other _ _ hcb, h.child_iff]
    constructor
    · rintro ⟨j, h1, h2, h3⟩
      have hne : i ≠ j := by
        rintro rfl
        rw [hk] at h2; simp at h2; exact hcb h2.symm
      rw [List.getElem?_set_ne hne] at h3
      exact ⟨j, h1, h2, h3⟩
    · rintro ⟨j, h1, h2, h3⟩
      have hne : i ≠ j := by
        rintro rfl
        rw [hk] at h2; simp at h2; exact hcb h2.symm
      exact ⟨j, h1, h2, by rw [List.getElem?_set_ne hne]; exact h3⟩

/-! ## Node48 -/

theorem leadingZeros_spec (w : Word) (h : w ≠ 0#64) :
    leadingZeros w < 64 ∧ w.getLsbD (63 - leadingZeros w) = true := by
  have hex : ∃ x ∈ (wbits w).reverse, (x == true) = true := by
    by_contra hno
    apply h
    apply BitVec.eq_of_getLsbD_eq
    intro i hi
    by_contra hne
    apply hno
    refine ⟨true, ?_, rfl⟩
    rw [List.mem_reverse, List.mem_iff_getElem?]
    refine ⟨i, ?_⟩
    rw [wbits_getElem?, if_pos hi]
    simpa using hne
  have hlt := List.findIdx_lt_length_of_exists hex
  have hg := List.findIdx_getElem (w := hlt)
  unfold leadingZeros
  rw [List.length_reverse, wbits_length] at hlt
  refine ⟨hlt, ?_⟩
  rw [List.getElem_reverse] at hg
  simp only [wbits_getElem, wbits_length] at hg
  simpa using hg

/-- A free slot is found, and marked as used. -/
theorem allocSlot_spec (slots : Word) (htop : ∀ j, 48 ≤ j → j < 64 → slots.getLsbD j = true)
    (hfree : ∃ i, i < 48 ∧ slots.getLsbD (47 - i) = false) :
    ∃ pos slots', allocSlot slots = some (pos, slots') ∧ pos < 48 ∧ slots.getLsbD (47 - pos) = false ∧
      ∀ j, j < 64 → slots'.getLsbD j = (slots.getLsbD j || j == 47 - pos) := by
  obtain ⟨i, hi, hf⟩ := hfree
  have hne : ~~~slots ≠ 0#64 := by
    intro e
    have := congrArg (fun w => BitVec.getLsbD w (47 - i)) e
    simp [hf] at this
    omega
  obtain ⟨h1, h2⟩ := leadingZeros_spec _ hne
  have h3 : slots.getLsbD (63 - leadingZeros (~~~slots)) = false := by
    rw [BitVec.getLsbD_not] at h2
    simp at h2
    exact h2.2
  generalize hzz : leadingZeros (~~~slots) = z at *
  have hz : 16 ≤ z := by
    by_contra hc
    rw [htop (63 - z) (by omega) (by omega)] at h3
    simp at h3
  refine ⟨z - 16, slots ||| (1#64 <<< (63 - z)), ?_, by omega, ?_, ?_⟩
  · unfold allocSlot len64 usub
    rw [hzz, if_pos (by omega)]
    simp only [Option.bind_eq_bind, Option.bind_some, Option.pure_def]
    rw [show 48 - (64 - z) = z - 16 by omega, show 48 - (z - 16) - 1 = 63 - z by omega]
  · rw [show 47 - (z - 16) = 63 - z by omega]; exact h3
  · intro j hj
    rw [BitVec.getLsbD_or, BitVec.getLsbD_shiftLeft]
    congr 1
    rw [show 47 - (z - 16) = 63 - z by omega]
    simp only [hj, decide_true, Bool.true_and]
    by_cases hjz : j < 63 - z
    · simp [hjz]; omega
    · simp only [hjz, decide_false, Bool.not_false, Bool.true_and, BitVec.getLsbD_one]
      by_cases hj2 : j = 63 - z
      · simp [hj2]
      · have : j - (63 - z) ≠ 0 := by omega
        simp only [this, decide_false, Bool.and_false]
        simp [hj2]

theorem freeSlot_spec (slots : Word) (pos : Nat) (hp : pos < 48) (j : Nat) (hj : j < 64) :
    (freeSlot slots pos).getLsbD j = (slots.getLsbD j && !(j == 47 - pos)) := by
  unfold freeSlot
  rw [BitVec.getLsbD_and, BitVec.getLsbD_not, BitVec.getLsbD_shiftLeft, show 48 - pos - 1 = 47 - pos by omega]
  congr 1
  simp only [hj, decide_true, Bool.true_and]
  by_cases hjz : j < 47 - pos
  · simp [hjz]; omega
  · simp only [hjz, decide_false, Bool.not_false, Bool.true_and, BitVec.getLsbD_one]
    by_cases hj2 : j = 47 - pos
    · simp [hj2]
    · have : j - (47 - pos) ≠ 0 := by omega
      simp only [this, decide_false, Bool.and_false]
      simp [hj2]

theorem IdxWF.find_iff {num index children slots} (h : IdxWF num index children slots) (b : UInt8) (r : Ref) (i : Nat) :
    idxChild index children b = some (r, i) ↔ index[b.toNat]? = some (i + 1) ∧ children[i]? = some (some r) := by
  unfold idxChild
  constructor
  · intro hh
    split at hh
    next j e =>
      rw [Option.map_eq_some_iff] at hh
      obtain ⟨c, h3, h4⟩ := hh
      cases h4
      exact ⟨e, by simpa [Option.join_eq_some_iff] using h3⟩
    next => simp at hh
  · rintro ⟨h1, h2⟩
    rw [h1]
    simp [h2]

theorem IdxWF.child_iff {num index children slots} (h : IdxWF num index children slots) (b : UInt8) (r : Ref) :
    (idxChild index children b).map (·.1) = some r ↔ ∃ i : Nat, index[b.toNat]? = some (i + 1) ∧ children[i]? = some (some r) := by
  rw [Option.map_eq_some_iff]
  constructor
  · rintro ⟨⟨r', i⟩, h1, h2⟩
    simp only at h2
    subst h2
    exact ⟨i, (h.find_iff b r' i).mp h1⟩
  · rintro ⟨i, hi⟩
    exact ⟨(r, i), (h.find_iff b r i).mpr hi, rfl⟩

/-- A node48 with fewer than 48 children has a free slot. -/
theorem IdxWF.free {num index children slots} (h : IdxWF num index children slots) (hn : num < 48) :
    ∃ i, i < 48 ∧ slots.getLsbD (47 - i) = false := by
  by_contra hno
  have hall : ∀ i, i < 48 → ∃ b : Nat, index[b]? = some (i + 1) := by
    intro i hi
    rw [← h.slot i hi]
    by_contra hc
    exact hno ⟨i, hi, by simpa using hc⟩
  choose! g hg using hall
  have hgl : ∀ i, i < 48 → g i < 256 := by
    intro i hi
    have := (List.getElem?_eq_some_iff.mp (hg i hi)).1
    rw [h.lenI] at this
    exact this
  have hnd : ((List.range 48).map (fun i => UInt8.ofNat (g i))).Nodup := by
    refine List.Nodup.map_on ?_ List.nodup_range
    intro x hx y hy e
    simp only [List.mem_range] at hx hy
    have e2 := congrArg UInt8.toNat e
    have : g x = g y := by simpa [Nat.mod_eq_of_lt (hgl x hx), Nat.mod_eq_of_lt (hgl y hy)] using e2
    have h1 := hg x hx
    rw [this, hg y hy] at h1
    simp at h1
    omega
  have hsub : ((List.range 48).map (fun i => UInt8.ofNat (g i))) ⊆
      allBytes.filter (fun b => ((idxChild index children b).map (·.1)).isSome) := by
    intro b hb
    rw [List.mem_map] at hb
    obtain ⟨i, hi, rfl⟩ := hb
    simp only [List.mem_range] at hi
    rw [List.mem_filter]
    refine ⟨mem_allBytes _, ?_⟩
    obtain ⟨r, hr⟩ := h.isc _ _ (hg i hi)
    rw [Option.isSome_iff_exists]
    refine ⟨r, (h.child_iff _ _).mpr ⟨i, ?_, hr⟩⟩
    simp [Nat.mod_eq_of_lt (hgl i hi), hg i hi]
  have := (hnd.subperm hsub).length_le
  rw [← List.countP_eq_length_filter] at this
  have hc := h.count
  unfold cnt at hc
  rw [hc] at this
  simp at this
  omega

theorem toNat_inj_iff {a b : UInt8} : a.toNat = b.toNat ↔ a = b := UInt8.toNat_inj

theorem IdxWF.insert {num index children slots} (h : IdxWF num index children slots) (b : UInt8) (r : Ref) (hlt : num < 48)
    (hb : idxChild index children b = none) :
    ∃ pos slots', allocSlot slots = some (pos, slots') ∧ pos < 48 ∧
      IdxWF (num + 1) (index.set b.toNat (pos + 1)) (children.set pos (some r)) slots' ∧
      ∀ c, (idxChild (index.set b.toNat (pos + 1)) (children.set pos (some r)) c).map (·.1) =
        upd (fun c => (idxChild index children c).map (·.1)) b (some r) c := by
  obtain ⟨pos, slots', h1, h2, h3, h4⟩ := allocSlot_spec slots h.top (h.free hlt)
  have hI := h.lenI
  have hC := h.lenC
  have hbl : b.toNat < 256 := b.toNat_lt
  have hb0 : ∀ i : Nat, index[b.toNat]? ≠ some (i + 1) := by
    intro i e
    obtain ⟨r', hr'⟩ := h.isc _ _ e
    rw [(h.find_iff b r' i).mpr ⟨e, hr'⟩] at hb
    simp at hb
  have hpos : ∀ c : Nat, index[c]? ≠ some (pos + 1) := by
    intro c e
    have := (h.slot pos h2).mpr ⟨c, e⟩
    rw [h3] at this
    simp at this
  have gI : ∀ c : Nat, (index.set b.toNat (pos + 1))[c]? = if c = b.toNat then some (pos + 1) else index[c]? := by
    intro c
    rw [List.getElem?_set]
    split
    next e => rw [if_pos (by omega), if_pos e.symm]
    next e => rw [if_neg (fun e' => e e'.symm)]
  have gC : ∀ c : Nat, (children.set pos (some r))[c]? = if c = pos then some (some r) else children[c]? := by
    intro c
    rw [List.getElem?_set]
    split
    next e => rw [if_pos (by omega), if_pos e.symm]
    next e => rw [if_neg (fun e' => e e'.symm)]
  have hmap : ∀ c, (idxChild (index.set b.toNat (pos + 1)) (children.set pos (some r)) c).map (·.1) =
        upd (fun c => (idxChild index children c).map (·.1)) b (some r) c := by
    intro c
    by_cases hc : c = b
    · subst hc
      rw [upd_same]
      unfold idxChild
      rw [gI, if_pos rfl]
      simp [gC]
    · rw [upd_other _ _ hc]
      have hne : c.toNat ≠ b.toNat := fun e => hc (UInt8.toNat_inj.mp e)
      unfold idxChild
      rw [gI, if_neg hne]
      cases hi : index[c.toNat]? with
      | none => rfl
      | some i =>
        cases i with
        | zero => rfl
        | succ i =>
          simp only
          rw [gC, if_neg]
          rintro rfl
          exact hpos _ hi
  refine ⟨pos, slots', h1, h2, ⟨by simp [hI], by simp [hC], ?_, ?_, ?_, ?_, ?_⟩, hmap⟩
  · intro c i e
    rw [gC]
    split
    · exact ⟨r, rfl⟩
    · rw [gI] at e
      split at e
      · simp at e; omega
      · exact h.isc _ _ e
  · intro c c' i e e'
    rw [gI] at e e'
    split at e <;> split at e'
    · omega
    · simp only [Option.some.injEq] at e
      rw [← e] at e'
      exact absurd e' (hpos _)
    · simp only [Option.some.injEq] at e'
      rw [← e'] at e
      exact absurd e (hpos _)
    · exact h.inj _ _ _ e e'
  · intro i hi
    rw [h4 _ (by omega), Bool.or_eq_true, h.slot i hi]
    constructor
    · rintro (⟨c, hc⟩ | hc)
      · refine ⟨c, ?_⟩
        rw [gI, if_neg]
        · exact hc
        · rintro rfl
          exact hb0 _ hc
      · simp at hc
        refine ⟨b.toNat, ?_⟩
        rw [gI, if_pos rfl]
        simp
        omega
    · rintro ⟨c, hc⟩
      rw [gI] at hc
      split at hc
      · right
        simp at hc ⊢
        omega
      · exact Or.inl ⟨c, hc⟩
  · intro j hj1 hj2
    rw [h4 _ hj2, h.top j hj1 hj2]
    rfl
  · rw [funext hmap]
    have := cnt_upd (fun c => (idxChild index children c).map (·.1)) b (some r)
    rw [h.count] at this
    simpa [hb] using this

theorem IdxWF.remove {num index children slots} (h : IdxWF num index children slots) {b : UInt8} {r : Ref} {pos : Nat}
    (hb : idxChild index children b = some (r, pos)) :
    index[b.toNat]? = some (pos + 1) ∧ pos < 48 ∧ 0 < num ∧
      IdxWF (num - 1) (index.set b.toNat 0) (children.set pos none) (freeSlot slots pos) ∧
      ∀ c, (idxChild (index.set b.toNat 0) (children.set pos none) c).map (·.1) =
        upd (fun c => (idxChild index children c).map (·.1)) b none c := by
  obtain ⟨h1, h2⟩ := (h.find_iff b r pos).mp hb
  have hI := h.lenI
  have hC := h.lenC
  have hbl : b.toNat < 256 := b.toNat_lt
  have hp : pos < 48 := by have := (List.getElem?_eq_some_iff.mp h2).1; omega
  have gI : ∀ c : Nat, (index.set b.toNat 0)[c]? = if c = b.toNat then some 0 else index[c]? := by
    intro c
    rw [List.getElem?_set]
    split
    next e => rw [if_pos (by omega), if_pos e.symm]
    next e => rw [if_neg (fun e' => e e'.symm)]
  have gC : ∀ c : Nat, c ≠ pos → (children.set pos none)[c]? = children[c]? := by
    intro c hc
    rw [List.getElem?_set_ne (fun e => hc e.symm)]
  have hother : ∀ c i : Nat, c ≠ b.toNat → index[c]? = some (i + 1) → i ≠ pos := by
    rintro c i hc e rfl
    exact hc (h.inj _ _ _ e h1)
  have hmap : ∀ c, (idxChild (index.set b.toNat 0) (children.set pos none) c).map (·.1) =
        upd (fun c => (idxChild index children c).map (·.1)) b none c := by
    intro c
    by_cases hc : c = b
    · subst hc
      rw [upd_same]
      unfold idxChild
      rw [gI, if_pos rfl]
      rfl
    · rw [upd_other _ _ hc]
      have hne : c.toNat ≠ b.toNat := fun e => hc (UInt8.toNat_inj.mp e)
      unfold idxChild
      rw [gI, if_neg hne]
      cases hi : index[c.toNat]? with
      | none => rfl
      | some i =>
        cases i with
        | zero => rfl
        | succ i =>
          simp only
          rw [gC _ (hother _ _ hne hi)]
  have hcnt := cnt_upd (fun c => (idxChild index children c).map (·.1)) b none
  rw [h.count] at hcnt
  simp only [hb, Option.map_some, Option.isSome_some, Option.isSome_none, Bool.toNat_true, Bool.toNat_false] at hcnt
  refine ⟨h1, hp, by omega, ⟨by simp [hI], by simp [hC], ?_, ?_, ?_, ?_, ?_⟩, hmap⟩
  · intro c i e
    rw [gI] at e
    split at e
    · simp at e
    next hc =>
      rw [gC _ (hother _ _ hc e)]
      exact h.isc _ _ e
  · intro c c' i e e'
    rw [gI] at e e'
    split at e <;> split at e'
    · omega
    · simp at e
    · simp at e'
    · exact h.inj _ _ _ e e'
  · intro i hi
    rw [freeSlot_spec _ _ hp _ (by omega), Bool.and_eq_true, h.slot i hi]
    constructor
    · rintro ⟨⟨c, hc⟩, hne⟩
      refine ⟨c, ?_⟩
      rw [gI, if_neg]
      · exact hc
      · rintro rfl
        rw [h1] at hc
        simp at hc hne
        omega
    · rintro ⟨c, hc⟩
      rw [gI] at hc
      split at hc
      · simp at hc
      next hne =>
        have := hother _ _ hne hc
        refine ⟨⟨c, hc⟩, ?_⟩
        simp
        omega
  · intro j hj1 hj2
    rw [freeSlot_spec _ _ hp _ hj2, h.top j hj1 hj2]
    simp
    omega
  · rw [funext hmap]
    omega

theorem IdxWF.replace {num index children slots} (h : IdxWF num index children slots) {b : UInt8} {r : Ref} {pos : Nat} (r' : Ref)
    (hb : idxChild index children b = some (r, pos)) :
    pos < children.length ∧ IdxWF num index (children.set pos (some r')) slots ∧
      ∀ c, (idxChild index (children.set pos (some r')) c).map (·.1) =
        upd (fun c => (idxChild index children c).map (·.1)) b (some r') c := by
  obtain ⟨h1, h2⟩ := (h.find_iff b r pos).mp hb
  have hC := h.lenC
  have hp : pos < 48 := by have := (List.getElem?_eq_some_iff.mp h2).1; omega
  have gC : ∀ c : Nat, (children.set pos (some r'))[c]? = if c = pos then some (some r') else children[c]? := by
    intro c
    rw [List.getElem?_set]
    split
    next e => rw [if_pos (by omega), if_pos e.symm]
    next e => rw [if_neg (fun e' => e e'.symm)]
  have hmap : ∀ c, (idxChild index (children.set pos (some r')) c).map (·.1) =
        upd (fun c => (idxChild index children c).map (·.1)) b (some r') c := by
    intro c
    by_cases hc : c = b
    · subst hc
      rw [upd_same]
      unfold idxChild
      rw [h1]
      simp [gC]
    · rw [upd_other _ _ hc]
      have hne : c.toNat ≠ b.toNat := fun e => hc (UInt8.toNat_inj.mp e)
      unfold idxChild
      cases hi : index[c.toNat]? with
      | none => rfl
      | some i =>
        cases i with
        | zero => rfl
        | succ i =>
          simp only
          rw [gC, if_neg]
          rintro rfl
          exact hne (h.inj _ _ _ hi h1)
  refine ⟨by omega, ⟨h.lenI, by simp [hC], ?_, h.inj, h.slot, h.top, ?_⟩, hmap⟩
  · intro c i e
    rw [gC]
    split
    · exact ⟨r', rfl⟩
    · exact h.isc _ _ e
  · rw [funext hmap]
    have := cnt_upd (fun c => (idxChild index children c).map (·.1)) b (some r')
    rw [h.count] at this
    simp only [hb, Option.map_some, Option.isSome_some, Bool.toNat_true] at this
    omega

end Art
