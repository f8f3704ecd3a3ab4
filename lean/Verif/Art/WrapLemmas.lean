import Verif.Art.Wrap
import Verif.Art.HeapTree
import Verif.Surf.WrapLemmas

/-! # Depths and prefix lengths below 2^31: the wrapping functions compute what those over the natural numbers compute -/

set_option linter.unusedSimpArgs false

namespace Art.U32

open Surf (Word Bytes usub uint32)
open Surf.U32 (u add sub u_eq add_eq sub_eq)
open scoped Surf.U32

theorem uint32_lt {b : Bytes} {n : Nat} (h : uint32 b = some n) : n < 2 ^ 32 := by
  unfold uint32 at h
  split at h
  · cases h
    rename_i b0 b1 b2 b3 _
    have := b0.toNat_lt
    have := b1.toNat_lt
    have := b2.toNat_lt
    have := b3.toNat_lt
    omega
  · cases h

theorem leaf_key_lt (l : Leaf) : l.key.length < 2 ^ 32 := by
  have : l.keyLen < 2 ^ 32 := by
    unfold Leaf.keyLen
    cases h : uint32 (l.mem.drop 1) with
    | none => simp
    | some n => exact uint32_lt h
  unfold Leaf.key
  rw [List.length_take]
  omega

section
variable {n : Node} {key full : Bytes} {depth : Nat}

theorem checkPrefix_u (hd : depth ≤ key.length) (hk : key.length < 2 ^ 31) (hn : n.prefixLen < 2 ^ 31) : checkPrefix n key depth = some (n.checkPrefix key depth) := by
  unfold checkPrefix Node.checkPrefix
  by_cases h0 : n.prefixLen = 0
  · rw [if_pos h0, if_pos h0]
  · rw [if_neg h0, if_neg h0]
    dsimp only
    rw [add_eq (by omega), u_eq (by omega)]
    by_cases h1 : key.length < depth + n.prefixLen
    · rw [if_pos h1, if_pos h1]
    · rw [if_neg h1, if_neg h1, if_neg (by omega)]

/-- Where the search goes on is inside of the key. -/
theorem checkPrefix_le (hd : depth ≤ key.length) : (n.checkPrefix key depth).1 ≤ key.length := by
  unfold Node.checkPrefix
  split
  · exact hd
  · dsimp only
    split
    · exact Nat.zero_le _
    · simp only; omega

theorem missLoop_u {lkey key : Bytes} {m : Nat} (hl : m ≤ lkey.length) (hk : m ≤ key.length) (hm : m < 2 ^ 32) : ∀ (F i : Nat), m - i ≤ F →
    missLoop lkey key m F i = some (Art.missLoop lkey key (m - i) i) := by
  intro F
  induction F with
  | zero =>
    intro i h
    rw [show m - i = 0 by omega]
    rfl
  | succ F ih =>
    intro i h
    unfold missLoop
    by_cases hi : i < m
    · rw [if_pos hi, show m - i = (m - (i + 1)) + 1 by omega]
      unfold Art.missLoop
      rw [List.getElem?_eq_getElem (show i < lkey.length by omega), List.getElem?_eq_getElem (show i < key.length by omega)]
      dsimp only
      split
      · rfl
      · rw [add_eq (by omega), ih _ (by omega)]
    · rw [if_neg hi, show m - i = 0 by omega]
      rfl

theorem missLoop_bounds (a b : Bytes) : ∀ (k i : Nat), i ≤ Art.missLoop a b k i ∧ Art.missLoop a b k i ≤ i + k := by
  intro k
  induction k with
  | zero => intro i; exact ⟨Nat.le_refl _, Nat.le_refl _⟩
  | succ k ih =>
    intro i
    unfold Art.missLoop
    split
    · split
      · omega
      · have := ih (i + 1)
        omega
    · omega

theorem placeLeaf_u (hk : key.length < 2 ^ 32) (pos : Nat) (l : Leaf) : placeLeaf n pos key l = Art.placeLeaf n pos key l := by
  unfold placeLeaf Art.placeLeaf
  rw [u_eq hk]

theorem updateOrExpand_u {l : Leaf} {value : Bytes} {loc : Loc} (hd : depth ≤ key.length) (hk : key.length < 2 ^ 31) (h : Heap) :
    updateOrExpand h l key value depth loc = Art.updateOrExpand h l key value depth loc := by
  unfold updateOrExpand Art.updateOrExpand
  split
  · rfl
  · have hl := leaf_key_lt l
    rw [u_eq (show key.length < 2 ^ 32 by omega), u_eq hl, missLoop_u (by omega) (by omega) (by omega) _ _ (by omega)]
    have hb := missLoop_bounds l.key key (min key.length l.key.length - depth) depth
    generalize Art.missLoop l.key key (min key.length l.key.length - depth) depth = mp at hb ⊢
    simp only [Option.bind_eq_bind, Option.bind_some]
    rw [if_neg (by omega), sub_eq (by omega) (by omega)]
    rw [placeLeaf_u hl]
    congr 1
    funext x
    rw [placeLeaf_u (by omega)]

theorem sub_wrap {a b : Nat} (h : a < b) (hb : b < 2 ^ 32) : a ⊟ b = 2 ^ 32 + a - b := by
  unfold sub
  omega

theorem splitRest_u {p : Nat} (hd : depth < 2 ^ 31) (hp : p < 2 ^ 31) (hn : n.prefixLen < 2 ^ 31) : splitRest n full depth p = Art.splitRest n full depth p := by
  unfold splitRest Art.splitRest usub maxPrefixLen
  rw [add_eq (show p + 1 < 2 ^ 32 by omega), add_eq (show depth + p < 2 ^ 32 by omega), add_eq (show depth + p + 1 < 2 ^ 32 by omega)]
  by_cases h : p + 1 ≤ n.prefixLen
  · rw [if_pos h, sub_eq h (by omega)]
    simp only [Option.bind_eq_bind, Option.bind_some]
    split
    · congr 1
      funext x
      rw [if_pos (by omega)]
    · congr 1
      funext x
      rw [add_eq (by omega)]
      by_cases h2 : depth + p + 1 + (n.prefixLen - (p + 1)) ≤ full.length
      · rw [if_pos h2, if_pos ⟨by omega, h2⟩, List.drop_take]
        have e : depth + p + 1 + (n.prefixLen - (p + 1)) - (depth + p + 1) = n.prefixLen - (p + 1) := by omega
        rw [e]
      · rw [if_neg h2, if_neg (fun h => h2 h.2)]
  · rw [if_neg h, sub_wrap (by omega) (by omega)]
    simp only [Option.bind_eq_bind, Option.bind_none]
    split
    · cases n.pre[p]? with
      | none => rfl
      | some x =>
        rw [Option.bind_some, if_neg (by omega)]
    · cases full[depth + p]? with
      | none => rfl
      | some x =>
        rw [Option.bind_some, if_neg]
        unfold add
        omega

theorem insertSplitPrefix_u {value : Bytes} {a : Addr} {p : Nat} {loc : Loc} (hd : depth ≤ key.length) (hk : key.length < 2 ^ 31) (hp : p ≤ key.length) {h : Heap}
    (hh : ∀ (a : Addr) n, h[a]? = some n → n.prefixLen < 2 ^ 31) : insertSplitPrefix h a key full value depth p loc = Art.insertSplitPrefix h a key full value depth p loc := by
  unfold insertSplitPrefix Art.insertSplitPrefix
  cases hn : h[a]? with
  | none => rfl
  | some n =>
    simp only [Option.bind_eq_bind, Option.bind_some]
    rw [add_eq (by omega), placeLeaf_u (by omega), splitRest_u (by omega) (by omega) (hh a n hn)]

theorem compressAt_u {a c : Addr} {b : UInt8} {loc : Loc} {h : Heap}
    (hh : ∀ (a : Addr) n, h[a]? = some n → n.prefixLen < 2 ^ 31) : compressAt h a c b loc = Art.compressAt h a c b loc := by
  unfold compressAt Art.compressAt
  cases hn : h[a]? with
  | none => rfl
  | some n =>
    cases hc : h[c]? with
    | none => rfl
    | some m =>
      have := hh _ _ hn
      have := hh _ _ hc
      simp only [Option.bind_eq_bind, Option.bind_some]
      rw [add_eq (show n.prefixLen + 1 < 2 ^ 32 by omega), add_eq (by omega), Nat.add_assoc]

theorem agree_le : ∀ (k : Nat) (a b : Bytes) (p : Nat), agree a b k = some p → p ≤ k := by
  intro k
  induction k with
  | zero =>
    intro a b p h
    unfold agree at h
    cases h
    exact Nat.le_refl _
  | succ k ih =>
    intro a b p h
    unfold agree at h
    split at h
    · split at h
      · cases h; omega
      · obtain ⟨q, hq, e⟩ := Option.map_eq_some_iff.mp h
        have := ih _ _ _ hq
        omega
    · cases h

theorem shortLoop_u {pre key : Bytes} {l : Nat} (hl : depth + l < 2 ^ 32) : ∀ (F i : Nat), i ≤ l → l - i ≤ F →
    shortLoop pre key depth l F i = (agree (pre.drop i) (key.drop (depth + i)) (l - i)).map (i + ·) := by
  intro F
  induction F with
  | zero =>
    intro i hi h
    rw [show l - i = 0 by omega]
    unfold agree
    rfl
  | succ F ih =>
    intro i hi h
    unfold shortLoop
    by_cases hlt : i < l
    · rw [if_pos hlt, show l - i = (l - (i + 1)) + 1 by omega, add_eq (by omega)]
      unfold agree
      cases hp : pre[i]? with
      | none =>
        have := List.getElem?_eq_none_iff.mp hp
        rw [List.drop_eq_nil_of_le this]
        rfl
      | some x =>
        have hx := List.getElem?_eq_some_iff.mp hp
        rw [List.drop_eq_getElem_cons hx.1, hx.2]
        cases hq : key[depth + i]? with
        | none =>
          have := List.getElem?_eq_none_iff.mp hq
          rw [List.drop_eq_nil_of_le this]
          rfl
        | some y =>
          have hy := List.getElem?_eq_some_iff.mp hq
          rw [List.drop_eq_getElem_cons hy.1, hy.2]
          dsimp only
          split
          · rfl
          · rw [add_eq (by omega), ih _ (by omega) (by omega), Option.map_map]
            congr 1
            funext z
            simp only [Function.comp]
            omega
    · rw [if_neg hlt, show l - i = 0 by omega]
      unfold agree
      rfl

theorem mismatchShort_u (hd : depth ≤ key.length) (hk : key.length < 2 ^ 31) (hn : n.prefixLen < 2 ^ 31) : mismatchShort n key depth = Art.mismatchShort n key depth := by
  unfold mismatchShort Art.mismatchShort usub
  rw [if_pos hd, u_eq (by omega), sub_eq hd (by omega), shortLoop_u (by omega) _ _ (by omega) (by omega)]
  simp

theorem longLoop_u {l : Nat} (hl : l < 2 ^ 32) : ∀ (F i : Nat), l - i ≤ F →
    longLoop key full l F i = (agree (full.drop i) (key.drop i) (l - i)).map (i + ·) := by
  intro F
  induction F with
  | zero =>
    intro i h
    rw [show l - i = 0 by omega]
    unfold agree
    rfl
  | succ F ih =>
    intro i h
    unfold longLoop
    by_cases hlt : i < l
    · rw [if_pos hlt, show l - i = (l - (i + 1)) + 1 by omega]
      unfold agree
      cases hp : key[i]? with
      | none =>
        have := List.getElem?_eq_none_iff.mp hp
        rw [List.drop_eq_nil_of_le this]
        cases List.drop i full <;> rfl
      | some x =>
        have hx := List.getElem?_eq_some_iff.mp hp
        rw [List.drop_eq_getElem_cons hx.1, hx.2]
        cases hq : full[i]? with
        | none =>
          have := List.getElem?_eq_none_iff.mp hq
          rw [List.drop_eq_nil_of_le this]
          rfl
        | some y =>
          have hy := List.getElem?_eq_some_iff.mp hq
          rw [List.drop_eq_getElem_cons hy.1, hy.2]
          dsimp only
          by_cases e : x = y
          · rw [if_neg (by simp [e]), if_neg (by simp [e]), add_eq (by omega), ih _ (by omega), Option.map_map]
            congr 1
            funext z
            simp only [Function.comp]
            omega
          · rw [if_pos e, if_pos (Ne.symm e)]
            rfl
    · rw [if_neg hlt, show l - i = 0 by omega]
      unfold agree
      rfl

theorem mismatchLong_u (hd : depth ≤ key.length) (hk : key.length < 2 ^ 31) (hn : n.prefixLen < 2 ^ 31) : mismatchLong n key full depth = Art.mismatchLong n key full depth := by
  unfold mismatchLong Art.mismatchLong
  rw [u_eq (by omega), add_eq (by omega), longLoop_u (by omega) _ _ (by omega), Option.map_map]
  cases h : agree (full.drop depth) (key.drop depth) (min key.length (depth + n.prefixLen) - depth) with
  | none => rfl
  | some p =>
    have := agree_le _ _ _ _ h
    simp only [Option.map_some, Function.comp]
    rw [sub_eq (by omega) (by omega)]
    congr 1
    omega

theorem mismatchShort_le {p : Nat} (h : Art.mismatchShort n key depth = some p) : p ≤ key.length := by
  unfold Art.mismatchShort at h
  obtain ⟨r, hr, h⟩ := Option.bind_eq_some_iff.mp h
  have := agree_le _ _ _ _ h
  unfold usub at hr
  split at hr
  · cases hr
    omega
  · cases hr

theorem mismatchLong_le {p : Nat} (h : Art.mismatchLong n key full depth = some p) : p ≤ key.length := by
  have := agree_le _ _ _ _ h
  omega

theorem nextNode_u (hd : depth ≤ key.length) (hk : key.length < 2 ^ 31) : nextNode n key depth = some (Art.nextNode n key depth) := by
  unfold nextNode Art.nextNode
  rw [u_eq (by omega)]
  split
  · rfl
  · rw [if_pos (by omega), List.getElem?_eq_getElem (by omega)]

end

end Art.U32
