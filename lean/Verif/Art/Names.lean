import Verif.Art.System

/-!
# Leaves as pointers

In `Verif.Art.Node` a pointer to a leaf is the leaf itself. Here the values of the leaves are *names* of memory blocks, and a function gives the
leaf that a name stands for: `Node.leaves f` is the node with every leaf `l` replaced by `f l`. If `f` keeps the keys, all functions of node.go commute with it.
-/

set_option linter.unusedSimpArgs false

namespace Art

open Surf Spec

/-- The pointer with the leaf replaced. -/
def Ref.leaves (f : Leaf → Leaf) : Ref → Ref
  | .leaf l => .leaf (f l)
  | .node a => .node a

/-- The part of a node that depends on its type, with all leaves replaced. -/
def Kids.leaves (f : Leaf → Leaf) : Kids → Kids
  | .n4 keys children => .n4 keys (children.map (Option.map (Ref.leaves f)))
  | .n16 keys children => .n16 keys (children.map (Option.map (Ref.leaves f)))
  | .n48 index children slots => .n48 index (children.map (Option.map (Ref.leaves f))) slots
  | .n256 children => .n256 (children.map (Option.map (Ref.leaves f)))
  | .dummy r => .dummy (r.map (Ref.leaves f))

/-- The node with all leaves replaced. -/
def Node.leaves (f : Leaf → Leaf) (n : Node) : Node := { n with prefixLeaf := n.prefixLeaf.map f, kids := n.kids.leaves f }

/-- The heap with all leaves replaced. -/
def Heap.leaves (f : Leaf → Leaf) (h : Heap) : Heap := h.map (Node.leaves f)

section
variable (f : Leaf → Leaf)

/-! ## Lists -/

theorem setAt_map {α β : Type} (g : α → β) (l : List α) (i : Nat) (x : α) : setAt (l.map g) i (g x) = (setAt l i x).map (List.map g) := by
  unfold setAt
  rw [List.length_map]
  split
  · simp [List.map_set]
  · rfl

theorem shiftDown_map {α β : Type} (g : α → β) (l : List α) (i : Nat) : shiftDown (l.map g) i = (shiftDown l i).map (List.map g) := by
  unfold shiftDown
  rw [List.length_map]
  split
  · simp
  · rfl

theorem nils_map (n : Nat) : (nils n).map (Option.map (Ref.leaves f)) = nils n := by simp [nils]

theorem setAt_some (l : List (Option Ref)) (i : Nat) (r : Ref) : setAt (l.map (Option.map (Ref.leaves f))) i (some (r.leaves f)) = (setAt l i (some r)).map (List.map (Option.map (Ref.leaves f))) :=
  setAt_map (Option.map (Ref.leaves f)) l i (some r)

theorem setAt_none (l : List (Option Ref)) (i : Nat) : setAt (l.map (Option.map (Ref.leaves f))) i none = (setAt l i none).map (List.map (Option.map (Ref.leaves f))) :=
  setAt_map (Option.map (Ref.leaves f)) l i none

theorem heap_get (h : Heap) (a : Addr) : (Heap.leaves f h)[a]? = h[a]?.map (Node.leaves f) := by simp [Heap.leaves]

theorem heap_set (h : Heap) (a : Addr) (n : Node) : (Heap.leaves f h).set a (n.leaves f) = Heap.leaves f (h.set a n) := by simp [Heap.leaves, List.map_set]

theorem heap_length (h : Heap) : (Heap.leaves f h).length = h.length := by simp [Heap.leaves]

theorem heap_append (h : Heap) (n : Node) : Heap.leaves f h ++ [n.leaves f] = Heap.leaves f (h ++ [n]) := by simp [Heap.leaves]

theorem heap_setVer (h : Heap) (a : Addr) (v : Nat) : setVer (Heap.leaves f h) a v = Heap.leaves f (setVer h a v) := by
  unfold setVer Heap.leaves
  apply List.ext_getElem?
  intro i
  rw [List.getElem?_modify, List.getElem?_map, List.getElem?_map, List.getElem?_modify]
  cases h[i]? <;> simp [Node.leaves] <;> split <;> rfl

/-! ## Node functions -/

namespace Node

theorem leaves_version (n : Node) : (n.leaves f).version = n.version := rfl

theorem leaves_cap (n : Node) : (n.leaves f).cap = n.cap := by
  unfold Node.cap Node.leaves
  cases n.kids <;> rfl

theorem leaves_isFull (n : Node) : (n.leaves f).isFull = n.isFull := by
  obtain ⟨_, _, _, _, _, kids⟩ := n
  cases kids <;> rfl

theorem leaves_insertChild (n : Node) (key : UInt8) (r : Ref) : (n.leaves f).insertChild key (r.leaves f) = (n.insertChild key r).map (Node.leaves f) := by
  obtain ⟨v, c, l, p, pl, kids⟩ := n
  cases kids with
  | n4 keys children =>
    simp only [insertChild, leaves, Kids.leaves, setAt_some]
    cases setAt keys c.toNat key
    · rfl
    · cases setAt children c.toNat (some r) <;> rfl
  | n16 keys children =>
    simp only [insertChild, leaves, Kids.leaves, setAt_some]
    cases setAt keys c.toNat key
    · rfl
    · cases setAt children c.toNat (some r) <;> rfl
  | n48 index children slots =>
    simp only [insertChild, leaves, Kids.leaves, setAt_some]
    cases allocSlot slots with
    | none => rfl
    | some x =>
      obtain ⟨pos, slots⟩ := x
      simp only [Option.bind_eq_bind, Option.bind_some]
      cases setAt children pos (some r) with
      | none => rfl
      | some y =>
        simp only [Option.map_some, Option.bind_some]
        cases setAt index key.toNat (pos + 1) <;> rfl
  | n256 children =>
    simp only [insertChild, leaves, Kids.leaves, setAt_some]
    cases setAt children key.toNat (some r) <;> rfl
  | dummy r => rfl

theorem leaves_copyNode (n m : Node) : copyNode (n.leaves f) (m.leaves f) = (copyNode n m).leaves f := rfl

theorem mapM_map {α β γ : Type} (g : β → γ) (k : α → Option β) (l : List α) : l.mapM (fun x => (k x).map g) = (l.mapM k).map (List.map g) := by
  induction l with
  | nil => rfl
  | cons x l ih =>
    rw [List.mapM_cons, List.mapM_cons, ih]
    cases k x
    · rfl
    · cases l.mapM k <;> rfl

theorem leaves_spread (index : List Nat) (children : List (Option Ref)) :
    spreadChildren index (children.map (Option.map (Ref.leaves f))) = (spreadChildren index children).map (List.map (Option.map (Ref.leaves f))) := by
  unfold spreadChildren
  rw [← mapM_map]
  congr 1
  funext idx
  split
  · rw [List.getElem?_map]
  · rfl

theorem leaves_grow (n : Node) (key : UInt8) (r : Ref) : (n.leaves f).growAndInsert key (r.leaves f) = (n.growAndInsert key r).map (Node.leaves f) := by
  obtain ⟨v, c, l, p, pl, kids⟩ := n
  cases kids with
  | n4 keys children =>
    unfold growAndInsert
    dsimp only [leaves, Kids.leaves]
    rw [← leaves_insertChild]
    congr 1
    simp [leaves, Kids.leaves, copyNode, nils_map]
  | n16 keys children =>
    unfold growAndInsert
    dsimp only [leaves, Kids.leaves]
    cases indexKeys keys 0 (List.replicate 256 0) with
    | none => rfl
    | some index =>
      simp only [Option.bind_eq_bind, Option.bind_some]
      rw [← leaves_insertChild]
      congr 1
      simp [leaves, Kids.leaves, copyNode, nils_map]
  | n48 index children slots =>
    unfold growAndInsert
    dsimp only [leaves, Kids.leaves]
    rw [leaves_spread]
    cases spreadChildren index children with
    | none => rfl
    | some ch =>
      simp only [Option.bind_eq_bind, Option.bind_some, Option.map_some]
      rw [← leaves_insertChild]
      rfl
  | n256 children => rfl
  | dummy r => rfl

theorem leaves_removeChild (n : Node) (i : Nat) : (n.leaves f).removeChild i = (n.removeChild i).map (Node.leaves f) := by
  obtain ⟨v, c, l, p, pl, kids⟩ := n
  cases kids with
  | n4 keys children =>
    simp only [removeChild, leaves, Kids.leaves, shiftDown_map]
    cases shiftDown keys i with
    | none => rfl
    | some _ =>
      cases shiftDown children i with
      | none => rfl
      | some ch =>
        simp only [Option.bind_eq_bind, Option.bind_some, Option.map_some, setAt_none]
        cases setAt ch (c - 1).toNat none <;> rfl
  | n16 keys children =>
    simp only [removeChild, leaves, Kids.leaves, shiftDown_map]
    cases shiftDown keys i with
    | none => rfl
    | some _ =>
      cases shiftDown children i with
      | none => rfl
      | some ch =>
        simp only [Option.bind_eq_bind, Option.bind_some, Option.map_some, setAt_none]
        cases setAt ch (c - 1).toNat none <;> rfl
  | n48 index children slots =>
    simp only [removeChild, leaves, Kids.leaves, setAt_none]
    cases index[i]? with
    | none => rfl
    | some v =>
      simp only [Option.bind_eq_bind, Option.bind_some]
      cases usub v 1 with
      | none => rfl
      | some pos =>
        simp only [Option.bind_some]
        cases setAt index i 0 with
        | none => rfl
        | some _ =>
          simp only [Option.bind_some]
          cases setAt children pos none <;> rfl
  | n256 children =>
    simp only [removeChild, leaves, Kids.leaves, setAt_none]
    cases setAt children i none <;> rfl
  | dummy r => rfl

theorem leaves_shouldShrink (n : Node) (d : Bool) : (n.leaves f).shouldShrink d = n.shouldShrink d := by
  obtain ⟨v, c, l, p, pl, kids⟩ := n
  cases kids <;> try rfl
  cases pl <;> rfl

theorem leaves_writeItems (items : List (UInt8 × Option Ref)) : ∀ (idx : Nat) (keys : Bytes) (children : List (Option Ref)),
    writeItems (items.map (Prod.map id (Option.map (Ref.leaves f)))) idx keys (children.map (Option.map (Ref.leaves f))) =
      (writeItems items idx keys children).map (Prod.map id (List.map (Option.map (Ref.leaves f)))) := by
  induction items with
  | nil => intros; rfl
  | cons x items ih =>
    obtain ⟨k, c⟩ := x
    intro idx keys children
    simp only [List.map_cons, Prod.map_apply, id_eq, writeItems]
    rw [setAt_map (Option.map (Ref.leaves f))]
    cases setAt keys idx k with
    | none => rfl
    | some keys =>
      simp only [Option.bind_eq_bind, Option.bind_some]
      cases setAt children idx c with
      | none => rfl
      | some ch =>
        simp only [Option.map_some, Option.bind_some]
        exact ih (idx + 1) keys ch

theorem leaves_items48 (index : List Nat) (children : List (Option Ref)) (key : UInt8) :
    items48 index (children.map (Option.map (Ref.leaves f))) key = (items48 index children key).map (List.map (Prod.map id (Option.map (Ref.leaves f)))) := by
  unfold items48
  rw [← mapM_map]
  congr 1
  funext b
  cases index[b.toNat]? with
  | none => rfl
  | some i =>
    simp only [Option.bind_eq_bind, Option.bind_some]
    cases usub i 1 with
    | none => rfl
    | some pos =>
      simp only [Option.bind_some, List.getElem?_map]
      cases children[pos]? <;> rfl

theorem leaves_shrink256 (old : List (Option Ref)) (key : UInt8) (bs : List UInt8) : ∀ (index : List Nat) (children : List (Option Ref)) (slots : Word),
    shrink256Loop (old.map (Option.map (Ref.leaves f))) key bs index (children.map (Option.map (Ref.leaves f))) slots =
      (shrink256Loop old key bs index children slots).map fun x => (x.1, x.2.1.map (Option.map (Ref.leaves f)), x.2.2) := by
  induction bs with
  | nil => intros; rfl
  | cons b bs ih =>
    intro index children slots
    unfold shrink256Loop
    rw [List.getElem?_map]
    cases old[b.toNat]? with
    | none => rfl
    | some o =>
      cases o with
      | none => exact ih index children slots
      | some c =>
        simp only [Option.map_some]
        by_cases hb : b = key
        · rw [if_pos hb, if_pos hb]
          exact ih index children slots
        · rw [if_neg hb, if_neg hb]
          cases allocSlot slots with
          | none => rfl
          | some x =>
            obtain ⟨pos, slots⟩ := x
            simp only [Option.bind_eq_bind, Option.bind_some]
            cases setAt index b.toNat (pos + 1) with
            | none => rfl
            | some index =>
              simp only [Option.bind_some, setAt_some]
              cases setAt children pos (some c) with
              | none => rfl
              | some ch =>
                simp only [Option.bind_some, Option.map_some]
                exact ih index ch slots

theorem leaves_shrink (n : Node) (key : UInt8) : (n.leaves f).shrink key = (n.shrink key).map (Node.leaves f) := by
  obtain ⟨v, c, l, p, pl, kids⟩ := n
  cases kids with
  | n4 keys children => rfl
  | n16 keys children =>
    unfold shrink
    dsimp only [leaves, Kids.leaves]
    have e : ((keys.zip (children.map (Option.map (Ref.leaves f)))).take c.toNat).filter (fun p => p.1 != key) =
        (((keys.zip children).take c.toNat).filter (fun p => p.1 != key)).map (Prod.map id (Option.map (Ref.leaves f))) := by
      rw [List.zip_map_right, ← List.map_take, List.filter_map]
      rfl
    have := leaves_writeItems f (((keys.zip children).take c.toNat).filter (fun p => p.1 != key)) 0 (zeroBytes 4) (nils 4)
    rw [nils_map] at this
    rw [e, this]
    cases writeItems (((keys.zip children).take c.toNat).filter (fun p => p.1 != key)) 0 (zeroBytes 4) (nils 4) <;> rfl
  | n48 index children slots =>
    unfold shrink
    dsimp only [leaves, Kids.leaves]
    rw [leaves_items48]
    cases items48 index children key with
    | none => rfl
    | some items =>
      simp only [Option.map_some, Option.bind_eq_bind, Option.bind_some]
      have := leaves_writeItems f items 0 (zeroBytes 16) (nils 16)
      rw [nils_map] at this
      rw [this]
      cases writeItems items 0 (zeroBytes 16) (nils 16) <;> rfl
  | n256 old =>
    unfold shrink
    dsimp only [leaves, Kids.leaves]
    have := leaves_shrink256 f old key allBytes (List.replicate 256 0) (nils 48) node48EmptySlots
    rw [nils_map] at this
    rw [this]
    cases shrink256Loop old key allBytes (List.replicate 256 0) (nils 48) node48EmptySlots <;> rfl
  | dummy r => rfl

theorem leaves_shouldCompress (n : Node) (d : Bool) : (n.leaves f).shouldCompress d = n.shouldCompress d := by
  obtain ⟨v, c, l, p, pl, kids⟩ := n
  cases kids <;> rfl

theorem leaves_checkPrefix (n : Node) (key : Bytes) (d : Nat) : (n.leaves f).checkPrefix key d = n.checkPrefix key d := rfl

theorem join_map {α β : Type} (g : α → β) (o : Option (Option α)) : (o.map (Option.map g)).join = o.join.map g := by
  cases o with
  | none => rfl
  | some o => cases o <;> rfl

theorem leaves_findChild (n : Node) (key : UInt8) : (n.leaves f).findChild key = (n.findChild key).map fun x => (x.1.leaves f, x.2) := by
  obtain ⟨v, c, l, p, pl, kids⟩ := n
  cases kids with
  | n4 keys children =>
    unfold findChild
    dsimp only [leaves, Kids.leaves]
    cases (keys.take c.toNat).findIdx? (· == key) with
    | none => rfl
    | some i =>
      simp only [List.getElem?_map, join_map]
      cases children[i]?.join <;> rfl
  | n16 keys children =>
    unfold findChild
    dsimp only [leaves, Kids.leaves]
    cases keys.findIdx? (· == key) with
    | none => rfl
    | some i =>
      simp only [List.getElem?_map, join_map]
      split
      · cases children[i]?.join <;> rfl
      · rfl
  | n48 index children slots =>
    unfold findChild
    dsimp only [leaves, Kids.leaves]
    rcases index[key.toNat]? with _ | (_ | idx)
    · rfl
    · rfl
    · simp only [List.getElem?_map, join_map]
      cases children[idx]?.join <;> rfl
  | n256 children =>
    unfold findChild
    dsimp only [leaves, Kids.leaves]
    simp only [List.getElem?_map, join_map]
    cases children[key.toNat]?.join <;> rfl
  | dummy r => rfl

theorem findSome_map {α β : Type} (g : α → β) (l : List (Option α)) : (l.map (Option.map g)).findSome? id = (l.findSome? id).map g := by
  induction l with
  | nil => rfl
  | cons x l ih =>
    cases x with
    | none => exact ih
    | some a => rfl

theorem leaves_firstChild (n : Node) : (n.leaves f).firstChild = n.firstChild.map (Option.map (Ref.leaves f)) := by
  obtain ⟨v, c, l, p, pl, kids⟩ := n
  cases kids with
  | n4 keys children => exact List.getElem?_map ..
  | n16 keys children => exact List.getElem?_map ..
  | n48 index children slots =>
    unfold firstChild
    dsimp only [leaves, Kids.leaves]
    cases index.find? (· != 0) with
    | none => rfl
    | some p =>
      simp only [Option.bind_eq_bind]
      cases usub p 1 with
      | none => rfl
      | some pos => exact List.getElem?_map ..
  | n256 children =>
    unfold firstChild
    dsimp only [leaves, Kids.leaves]
    rw [findSome_map]
    cases children.findSome? id <;> rfl
  | dummy r => rfl

theorem leaves_setSlot (n : Node) (i : Nat) (r : Ref) : (n.leaves f).setSlot i (r.leaves f) = (n.setSlot i r).map (Node.leaves f) := by
  obtain ⟨v, c, l, p, pl, kids⟩ := n
  cases kids with
  | dummy r => rfl
  | _ =>
    unfold setSlot
    dsimp only [leaves, Kids.leaves]
    rw [setAt_some]
    cases setAt _ i (some r) <;> rfl

theorem leaves_root (n : Node) : (n.leaves f).root = n.root.map (Ref.leaves f) := by
  obtain ⟨v, c, l, p, pl, kids⟩ := n
  cases kids <;> rfl

end Node

/-! ## Heap functions -/

theorem leaves_storeLoc (h : Heap) (loc : Loc) (r : Ref) : storeLoc (Heap.leaves f h) loc (r.leaves f) = (storeLoc h loc r).map (Heap.leaves f) := by
  unfold storeLoc
  rw [heap_get]
  cases h[loc.1]? with
  | none => rfl
  | some n =>
    simp only [Option.map_some, Option.bind_eq_bind, Option.bind_some, Node.leaves_setSlot]
    cases n.setSlot loc.2 r with
    | none => rfl
    | some m =>
      simp only [Option.map_some, Option.bind_some, Option.pure_def]
      rw [heap_set]

theorem leaves_allocAt (h : Heap) (loc : Loc) (n : Node) : allocAt (Heap.leaves f h) loc (n.leaves f) = (allocAt h loc n).map (Heap.leaves f) := by
  unfold allocAt
  rw [heap_append, heap_length]
  exact leaves_storeLoc f (h ++ [n]) loc (.node h.length)

theorem leaves_updatePrefixLeaf (h : Heap) (a : Addr) (key value value' : Bytes) (hv : f (newLeaf key value) = newLeaf key value') :
    updatePrefixLeaf (Heap.leaves f h) a key value' = (updatePrefixLeaf h a key value).map (Heap.leaves f) := by
  unfold updatePrefixLeaf
  rw [heap_get]
  cases h[a]? with
  | none => rfl
  | some n =>
    simp only [Option.map_some, Option.bind_eq_bind, Option.bind_some, Option.pure_def]
    rw [← heap_set, ← hv]
    rfl

theorem leaves_clearPrefixLeaf (h : Heap) (a : Addr) : clearPrefixLeaf (Heap.leaves f h) a = (clearPrefixLeaf h a).map (Heap.leaves f) := by
  unfold clearPrefixLeaf
  rw [heap_get]
  cases h[a]? with
  | none => rfl
  | some n =>
    simp only [Option.map_some, Option.bind_eq_bind, Option.bind_some, Option.pure_def]
    rw [← heap_set]
    rfl

theorem leaves_insertChildAt (h : Heap) (a : Addr) (key : UInt8) (r : Ref) : insertChildAt (Heap.leaves f h) a key (r.leaves f) = (insertChildAt h a key r).map (Heap.leaves f) := by
  unfold insertChildAt
  rw [heap_get]
  cases h[a]? with
  | none => rfl
  | some n =>
    simp only [Option.map_some, Option.bind_eq_bind, Option.bind_some, Node.leaves_insertChild]
    cases n.insertChild key r with
    | none => rfl
    | some m =>
      simp only [Option.map_some, Option.bind_some, Option.pure_def]
      rw [heap_set]

theorem leaves_growAt (h : Heap) (a : Addr) (key : UInt8) (r : Ref) (loc : Loc) : growAt (Heap.leaves f h) a key (r.leaves f) loc = (growAt h a key r loc).map (Heap.leaves f) := by
  unfold growAt
  rw [heap_get]
  cases h[a]? with
  | none => rfl
  | some n =>
    simp only [Option.map_some, Option.bind_eq_bind, Option.bind_some, Node.leaves_grow]
    cases n.growAndInsert key r with
    | none => rfl
    | some m =>
      simp only [Option.map_some, Option.bind_some]
      exact leaves_allocAt f h loc m

theorem leaves_removeChildAt (h : Heap) (a : Addr) (i : Nat) : removeChildAt (Heap.leaves f h) a i = (removeChildAt h a i).map (Heap.leaves f) := by
  unfold removeChildAt
  rw [heap_get]
  cases h[a]? with
  | none => rfl
  | some n =>
    simp only [Option.map_some, Option.bind_eq_bind, Option.bind_some, Node.leaves_removeChild]
    cases n.removeChild i with
    | none => rfl
    | some m =>
      simp only [Option.map_some, Option.bind_some, Option.pure_def]
      rw [heap_set]

theorem leaves_shrinkAt (h : Heap) (a : Addr) (key : UInt8) (loc : Loc) : shrinkAt (Heap.leaves f h) a key loc = (shrinkAt h a key loc).map (Heap.leaves f) := by
  unfold shrinkAt
  rw [heap_get]
  cases h[a]? with
  | none => rfl
  | some n =>
    simp only [Option.map_some, Option.bind_eq_bind, Option.bind_some, Node.leaves_shrink]
    cases n.shrink key with
    | none => rfl
    | some m =>
      simp only [Option.map_some, Option.bind_some]
      exact leaves_allocAt f h loc m

theorem leaves_placeLeaf (n : Node) (pos : Nat) (key : Bytes) (l : Leaf) : placeLeaf (n.leaves f) pos key (f l) = (placeLeaf n pos key l).map (Node.leaves f) := by
  unfold placeLeaf
  split
  · rfl
  · cases key[pos]? with
    | none => rfl
    | some b => exact Node.leaves_insertChild f n b (.leaf l)

theorem leaves_newNode4 : Node.leaves f newNode4 = newNode4 := by
  simp [Node.leaves, newNode4, Kids.leaves, nils_map]

variable {f} (hf : ∀ l, (f l).key = l.key)
include hf

theorem leaves_matchKey (l : Leaf) (key : Bytes) : (f l).matchKey key = l.matchKey key := by
  unfold Leaf.matchKey
  rw [hf]

theorem leaves_updateOrExpand (h : Heap) (l : Leaf) (key value value' : Bytes) (depth : Nat) (loc : Loc) (hv : f (newLeaf key value) = newLeaf key value') :
    updateOrExpand (Heap.leaves f h) (f l) key value' depth loc = (updateOrExpand h l key value depth loc).map (Heap.leaves f) := by
  unfold updateOrExpand
  rw [leaves_matchKey hf, hf, ← hv]
  split
  · exact leaves_storeLoc f h loc (.leaf _)
  · dsimp only
    generalize hn : ({ newNode4 with prefixLen := _, pre := _ } : Node) = n
    have e : n.leaves f = n := by
      rw [← hn]
      simp [Node.leaves, newNode4, Kids.leaves, nils_map]
    have p1 := leaves_placeLeaf f n (missLoop l.key key (min key.length l.key.length - depth) depth) l.key l
    rw [e] at p1
    rw [p1]
    cases placeLeaf n (missLoop l.key key (min key.length l.key.length - depth) depth) l.key l with
    | none => rfl
    | some m =>
      simp only [Option.map_some, Option.bind_eq_bind, Option.bind_some]
      rw [leaves_placeLeaf]
      cases placeLeaf m _ key (newLeaf key value) with
      | none => rfl
      | some m' =>
        simp only [Option.map_some, Option.bind_some]
        exact leaves_allocAt f h loc m'

omit hf in
theorem leaves_insertSplitPrefix (h : Heap) (a : Addr) (key full value value' : Bytes) (depth len : Nat) (loc : Loc) (hv : f (newLeaf key value) = newLeaf key value') :
    insertSplitPrefix (Heap.leaves f h) a key full value' depth len loc = (insertSplitPrefix h a key full value depth len loc).map (Heap.leaves f) := by
  unfold insertSplitPrefix
  rw [heap_get, ← hv]
  cases h[a]? with
  | none => rfl
  | some n =>
    simp only [Option.map_some, Option.bind_eq_bind, Option.bind_some]
    have p1 := leaves_placeLeaf f newNode4 (depth + len) key (newLeaf key value)
    rw [leaves_newNode4] at p1
    rw [p1]
    cases placeLeaf newNode4 (depth + len) key (newLeaf key value) with
    | none => rfl
    | some m =>
      simp only [Option.map_some, Option.bind_some]
      have e : splitRest (n.leaves f) full depth len = splitRest n full depth len := rfl
      rw [e]
      cases splitRest n full depth len with
      | none => rfl
      | some x =>
        obtain ⟨pos, newLen, tmp⟩ := x
        simp only [Option.bind_some]
        have p2 := Node.leaves_insertChild f { m with prefixLen := len, pre := Node.pad8 (n.pre.take (min maxPrefixLen len)) } pos (.node a)
        have e2 : ({ m.leaves f with prefixLen := len, pre := Node.pad8 ((n.leaves f).pre.take (min maxPrefixLen len)) } : Node).insertChild pos (.node a) =
            (({ m with prefixLen := len, pre := Node.pad8 (n.pre.take (min maxPrefixLen len)) } : Node).insertChild pos (.node a)).map (Node.leaves f) := p2
        rw [e2]
        cases ({ m with prefixLen := len, pre := Node.pad8 (n.pre.take (min maxPrefixLen len)) } : Node).insertChild pos (.node a) with
        | none => rfl
        | some m' =>
          simp only [Option.map_some, Option.bind_some]
          have e3 : (Heap.leaves f h).set a { n.leaves f with prefixLen := newLen, pre := tmp } = Heap.leaves f (h.set a { n with prefixLen := newLen, pre := tmp }) :=
            heap_set f h a { n with prefixLen := newLen, pre := tmp }
          rw [e3]
          exact leaves_allocAt f _ loc m'

omit hf in
theorem leaves_compressAt (h : Heap) (a c : Addr) (b : UInt8) (loc : Loc) : compressAt (Heap.leaves f h) a c b loc = (compressAt h a c b loc).map (Heap.leaves f) := by
  unfold compressAt
  rw [heap_get, heap_get]
  cases h[a]? with
  | none => rfl
  | some n =>
    simp only [Option.map_some, Option.bind_eq_bind, Option.bind_some]
    cases h[c]? with
    | none => rfl
    | some m =>
      simp only [Option.map_some, Option.bind_some]
      have e3 := heap_set f h c { m with pre := compressedPrefix n m b, prefixLen := m.prefixLen + n.prefixLen + 1 }
      have e4 := leaves_storeLoc f (h.set c { m with pre := compressedPrefix n m b, prefixLen := m.prefixLen + n.prefixLen + 1 }) loc (.node c)
      rw [← e3] at e4
      exact e4

end
end Art
