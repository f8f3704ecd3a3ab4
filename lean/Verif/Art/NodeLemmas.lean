import Verif.Art.ContOps
import Verif.Surf.MiscLemmas

/-! # Leaves, and when a node shrinks -/

set_option linter.unusedSimpArgs false

namespace Art

open Surf

section Leaf

variable {k v : Bytes}

theorem newLeaf_keyLen (hk : k.length < 2 ^ 32) : (newLeaf k v).keyLen = k.length := by
  have : (newLeaf k v).mem.drop 1 = putUint32 k.length ++ (k ++ putUint32 v.length ++ v) := by simp [newLeaf, typeLeaf]
  rw [Leaf.keyLen, this, uint32_put _ hk]
  rfl

theorem newLeaf_key (hk : k.length < 2 ^ 32) : (newLeaf k v).key = k := by
  have : (newLeaf k v).mem.drop 5 = k ++ (putUint32 v.length ++ v) := by
    have : (newLeaf k v).mem = ([typeLeaf] ++ putUint32 k.length) ++ (k ++ (putUint32 v.length ++ v)) := by simp [newLeaf]
    rw [this, List.drop_left' (by simp)]
  rw [Leaf.key, newLeaf_keyLen hk, this, List.take_left']
  rfl

theorem newLeaf_valueLen (hk : k.length < 2 ^ 32) (hv : v.length < 2 ^ 32) : (newLeaf k v).valueLen = v.length := by
  have : (newLeaf k v).mem.drop (k.length + 5) = putUint32 v.length ++ v := by
    have : (newLeaf k v).mem = ([typeLeaf] ++ putUint32 k.length ++ k) ++ (putUint32 v.length ++ v) := by simp [newLeaf]
    rw [this, List.drop_left' (by simp; omega)]
  rw [Leaf.valueLen, newLeaf_keyLen hk, this, uint32_put _ hv]
  rfl

theorem newLeaf_value (hk : k.length < 2 ^ 32) (hv : v.length < 2 ^ 32) : (newLeaf k v).value = v := by
  have : (newLeaf k v).mem.drop (k.length + 9) = v := by
    have : (newLeaf k v).mem = ([typeLeaf] ++ putUint32 k.length ++ k ++ putUint32 v.length) ++ v := by simp [newLeaf]
    rw [this, List.drop_left' (by simp; omega)]
  rw [Leaf.value, newLeaf_keyLen hk, newLeaf_valueLen hk hv, this, List.take_length]

end Leaf

theorem Leaf.matchKey_iff (l : Leaf) (key : Bytes) : l.matchKey key = true ↔ l.key = key := by simp [Leaf.matchKey]

/-- `shouldShrink` is right: it is asked before the child is removed. -/
theorem shouldShrink_spec {n : Node} (h : n.WF) (hmin : minCount n.cap ≤ cnt n.child) (pd : Bool) :
    n.shouldShrink pd = some (if n.cap = 4 then !pd && (if n.prefixLeaf = none then decide (cnt n.child ≤ 2) else decide (cnt n.child ≤ 1))
      else decide (cnt n.child = minCount n.cap)) := by
  have hnum := h.num
  have hx := h
  unfold Node.WF at hx
  unfold Node.shouldShrink
  split at hx
  next keys children e =>
    have hc : n.cap = 4 := by simp [Node.cap, e]
    rw [e]
    simp only
    rw [if_pos hc, hnum.2.1 (by omega)]
    cases pd <;> simp <;> split <;> rfl
  next keys children e =>
    have hc : n.cap = 16 := by simp [Node.cap, e]
    rw [e]
    simp only
    rw [if_neg (by omega), hnum.2.1 (by omega), hc]
    rw [hc] at hmin
    rw [Option.some.injEq, decide_eq_decide]
    simp only [minCount, node16MinSize] at *
    omega
  next index children slots e =>
    have hc : n.cap = 48 := by simp [Node.cap, e]
    rw [e]
    simp only
    rw [if_neg (by omega), hnum.2.1 (by omega), hc]
    rw [hc] at hmin
    rw [Option.some.injEq, decide_eq_decide]
    simp only [minCount, node48MinSize] at *
    omega
  next children e =>
    have hc : n.cap = 256 := by simp [Node.cap, e]
    rw [e]
    simp only
    rw [if_neg (by omega), hnum.1, hc]
    rw [hc] at hmin hnum
    have := hnum.2.2
    rw [← Bool.decide_and, Option.some.injEq, decide_eq_decide]
    simp only [minCount, node256MinSize, UInt8.toNat_ofNat'] at *
    omega
  next => exact absurd hx id

end Art
