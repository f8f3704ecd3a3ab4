import Verif.Art.WrapNear

/-! # `Get`, `Put` and `Delete` are near to the programs over the natural numbers -/

set_option linter.unusedSimpArgs false

namespace Art.U32

open Surf (Word Bytes usub)
open Surf.U32 (u add sub u_eq add_eq sub_eq)
open scoped Surf.U32
open Spec Props

/-- No condition on the result. -/
abbrev Any {α : Type} : α → Prop := fun _ => True

section
variable {α : Type} {Q : α → Prop}

theorem near_ite {c : Prop} [Decidable c] {p p' q q' : Prog α} (h1 : c → Near Q p p') (h2 : ¬ c → Near Q q q') : Near Q (if c then p else q) (if c then p' else q') := by
  split
  · exact h1 ‹_›
  · exact h2 ‹_›

end

/-! ## Get -/

theorem near_search {key : Bytes} (hk : key.length < 2 ^ 31) : ∀ (fuel depth : Nat) (parent : Addr) (pv : Nat) (curr : Addr), depth ≤ key.length →
    Near Any (Art.search key fuel depth parent pv curr) (search key fuel depth parent pv curr) := by
  intro fuel
  induction fuel with
  | zero => intro depth parent pv curr hd; unfold search Art.search; exact .diverge
  | succ fuel ih =>
    intro depth parent pv curr hd
    unfold search Art.search
    refine .wait fun version => near_ite (fun _ => .ret trivial) fun _ => .load fun w => near_ite (fun _ => .ret trivial) fun _ => .read fun n hn => ?_
    rw [checkPrefix_u hd hk hn]
    have hle := checkPrefix_le (n := n) hd
    generalize n.checkPrefix key depth = r at hle ⊢
    obtain ⟨d, b⟩ := r
    cases b with
    | false =>
      dsimp only
      rw [if_pos rfl]
      exact .load fun w => .ret trivial
    | true =>
      dsimp only at hle ⊢
      rw [if_neg (by simp)]
      refine .read fun n' hn' => ?_
      rw [nextNode_u hle hk]
      refine .load fun w => near_ite (fun _ => .ret trivial) fun _ => ?_
      cases hx : Art.nextNode n' key d with
      | none => exact .ret trivial
      | some x =>
        cases x with
        | leaf l => exact .ret trivial
        | node c =>
          have hlt : d < key.length := by
            by_contra hc
            unfold Art.nextNode at hx
            rw [if_pos (by omega)] at hx
            cases h2 : n'.prefixLeaf <;> rw [h2] at hx <;> simp at hx
          dsimp only
          rw [add_eq (by omega)]
          exact ih _ _ _ _ (by omega)

theorem near_get {key : Bytes} (hk : key.length < 2 ^ 31) : ∀ fuel, Near Any (Art.get key fuel) (get key fuel) := by
  intro fuel
  induction fuel with
  | zero => unfold get Art.get; exact .diverge
  | succ fuel ih =>
    unfold get Art.get
    refine (near_start (Q := Any) fun a v => near_search hk _ _ _ _ _ (Nat.zero_le _)).bind ?_
    intro a _
    cases a with
    | none => exact ih
    | some x => exact .ret trivial

/-! ## Put -/

theorem near_fullKey : ∀ (fuel : Nat) (curr : Addr) (v : Nat), Near Any (fullKey fuel curr v) (fullKey fuel curr v) := by
  intro fuel
  induction fuel with
  | zero => intro curr v; unfold fullKey; exact .diverge
  | succ fuel ih =>
    intro curr v
    unfold fullKey
    refine .read fun n _ => ?_
    cases n.prefixLeaf with
    | some l => exact .load fun w => .ret trivial
    | none =>
      refine .read fun n _ => ?_
      cases n.firstChild with
      | none => exact .panic
      | some next =>
        refine .load fun w => near_ite (fun _ => .ret trivial) fun _ => ?_
        cases next with
        | none => exact .panic
        | some x =>
          cases x with
          | leaf l => exact .load fun w => .ret trivial
          | node c => exact .wait fun v => near_ite (fun _ => .ret trivial) fun _ => ih _ _

/-- The result of `prefixMismatch` is a position in the key. -/
def InKey (key : Bytes) : Option (Nat × Bytes) → Prop
  | none => True
  | some (p, _) => p ≤ key.length

section
variable {key : Bytes} {depth : Nat} (hk : key.length < 2 ^ 31) (hd : depth ≤ key.length)
include hk hd

theorem near_mismatchLoop (curr : Addr) (v : Nat) (parent : Addr) (pv : Nat) : ∀ (fuel : Nat) (got : Option Bytes),
    Near (InKey key) (Art.mismatchLoop key depth curr v parent pv fuel got) (mismatchLoop key depth curr v parent pv fuel got) := by
  intro fuel
  induction fuel with
  | zero => intro got; unfold mismatchLoop Art.mismatchLoop; exact .diverge
  | succ fuel ih =>
    intro got
    unfold mismatchLoop Art.mismatchLoop
    refine .load fun w => near_ite (fun _ => .ret trivial) fun _ => .load fun w => near_ite (fun _ => .ret trivial) fun _ => ?_
    cases got with
    | some full =>
      refine .read fun n hn => ?_
      rw [mismatchLong_u hd hk hn]
      cases hp : Art.mismatchLong n key full depth with
      | none => exact .panic
      | some p => exact .ret (mismatchLong_le hp)
    | none => exact (near_fullKey _ _ _).bind fun got _ => ih got

theorem near_prefixMismatch (fuel : Nat) (curr : Addr) (v : Nat) (parent : Addr) (pv : Nat) :
    Near (InKey key) (Art.prefixMismatch fuel key depth curr v parent pv) (prefixMismatch fuel key depth curr v parent pv) := by
  unfold prefixMismatch Art.prefixMismatch
  refine .read fun n hn => near_ite (fun _ => .read fun n hn => ?_) fun _ => near_mismatchLoop hk hd _ _ _ _ _ _
  rw [mismatchShort_u hd hk hn]
  cases hp : Art.mismatchShort n key depth with
  | none => exact .panic
  | some p => exact .ret (mismatchShort_le hp)

end

theorem near_insertHere (key value : Bytes) (b : UInt8) (parent : Addr) (pv : Nat) (curr : Addr) (v : Nat) (loc : Loc) :
    Near Any (insertHere key value b parent pv curr v loc) (insertHere key value b parent pv curr v loc) := by
  unfold insertHere
  refine .read fun n _ => ?_
  cases n.isFull with
  | none => exact .panic
  | some x =>
    cases x with
    | true =>
      exact .cas fun ok => near_ite (fun _ => .ret trivial) fun _ => .cas fun ok => near_ite (fun _ => .unlock (.ret trivial)) fun _ =>
        Near.same (fun _ _ e => chg_growAt e) (.unlockObsolete (.unlock (.ret trivial)))
    | false =>
      exact .cas fun ok => near_ite (fun _ => .ret trivial) fun _ => .load fun w => near_ite (fun _ => .unlock (.ret trivial)) fun _ =>
        Near.same (fun _ _ e => chg_insertChildAt e) (.unlock (.ret trivial))

theorem near_insert {key : Bytes} (hk : key.length < 2 ^ 31) (value : Bytes) : ∀ (fuel depth : Nat) (parent : Addr) (pv : Nat) (curr : Addr) (loc : Loc), depth ≤ key.length →
    Near Any (Art.insert key value fuel depth parent pv curr loc) (insert key value fuel depth parent pv curr loc) := by
  intro fuel
  induction fuel with
  | zero => intro depth parent pv curr loc hd; unfold insert Art.insert; exact .diverge
  | succ fuel ih =>
    intro depth parent pv curr loc hd
    unfold insert Art.insert
    refine .wait fun version => near_ite (fun _ => .ret trivial) fun _ => (near_prefixMismatch hk hd _ _ _ _ _).bind ?_
    intro r hr
    cases r with
    | none => exact .ret trivial
    | some r =>
      obtain ⟨p, full⟩ := r
      have hp : p ≤ key.length := hr
      refine .read fun n hn => near_ite (fun _ => ?_) fun _ => .read fun n hn => ?_
      · refine .cas fun ok => near_ite (fun _ => .ret trivial) fun _ => .cas fun ok => near_ite (fun _ => .unlock (.ret trivial)) fun _ =>
          .write (fun h hl => (insertSplitPrefix_u hd hk hp hl).symm) (fun h h' hz e => chg_insertSplitPrefix (by simp [keeps]) hz e) (.unlock (.unlock (.ret trivial)))
      · rw [add_eq (show depth + n.prefixLen < 2 ^ 32 by omega), u_eq (show key.length < 2 ^ 32 by omega)]
        refine near_ite (fun _ => ?_) fun hne => ?_
        · exact .cas fun ok => near_ite (fun _ => .ret trivial) fun _ => .load fun w => near_ite (fun _ => .unlock (.ret trivial)) fun _ =>
            Near.same (fun _ _ e => chg_updatePrefixLeaf e) (.unlock (.ret trivial))
        · cases hb : key[depth + n.prefixLen]? with
          | none => exact .panic
          | some b =>
            have hlt := (List.getElem?_eq_some_iff.mp hb).1
            dsimp only
            rw [add_eq (by omega)]
            refine .read fun n' _ => .load fun w => near_ite (fun _ => .ret trivial) fun _ => ?_
            cases n'.findChild b with
            | none => exact near_insertHere _ _ _ _ _ _ _ _
            | some x =>
              obtain ⟨next, slot, pos⟩ := x
              refine .load fun w => near_ite (fun _ => .ret trivial) fun _ => ?_
              cases next with
              | leaf l =>
                refine .cas fun ok => near_ite (fun _ => .ret trivial) fun _ =>
                  .write (fun h _ => (updateOrExpand_u (by omega) hk h).symm) (fun _ _ _ e => chg_updateOrExpand e) (.unlock (.ret trivial))
              | node c => exact ih _ _ _ _ _ (by omega)

theorem near_put {key : Bytes} (hk : key.length < 2 ^ 31) (value : Bytes) : ∀ fuel, Near Any (Art.put key value fuel) (put key value fuel) := by
  intro fuel
  induction fuel with
  | zero => unfold put Art.put; exact .diverge
  | succ fuel ih =>
    unfold put Art.put
    refine (near_start (Q := Any) fun a v => near_insert hk value _ _ _ _ _ _ (Nat.zero_le _)).bind ?_
    intro a _
    cases a with
    | false => exact ih
    | true => exact .ret trivial

/-! ## Delete -/

theorem near_compressChild (idx : Nat) (parent curr : Addr) (v : Nat) (loc : Loc) :
    Near Any (Art.compressChild idx parent curr v loc) (compressChild idx parent curr v loc) := by
  unfold compressChild Art.compressChild
  refine .read fun n _ => ?_
  cases n.kids with
  | n4 keys children =>
    dsimp only
    cases children[idx]?.join with
    | none => exact .panic
    | some x =>
      cases x with
      | leaf l => exact Near.same (fun _ _ e => chg_storeLoc e) (.unlockObsolete (.unlock (.ret trivial)))
      | node c =>
        cases keys[idx]? with
        | none => exact .panic
        | some b =>
          refine .lock (.unlock (.unlock (.ret trivial))) ⟨_, _, _, rfl⟩ fun hc => ?_
          exact .write (fun h hl => (compressAt_u hl).symm) (fun h h' _ e => chg_compressAt hc (by simp [keeps]) e) (.unlock (.unlockObsolete (.unlock (.ret trivial))))
  | _ => exact .panic

theorem near_removeChildAndShrink (b : UInt8) (parent curr : Addr) (v : Nat) (loc : Loc) :
    Near Any (Art.removeChildAndShrink b parent curr v loc) (removeChildAndShrink b parent curr v loc) := by
  unfold removeChildAndShrink Art.removeChildAndShrink
  refine .read fun n _ => ?_
  cases n.kids with
  | n4 keys children =>
    dsimp only
    cases n.prefixLeaf with
    | some l => exact Near.same (fun _ _ e => chg_storeLoc e) (.unlockObsolete (.unlock (.ret trivial)))
    | none =>
      refine near_ite (fun _ => ?_) fun _ => near_ite (fun _ => near_compressChild _ _ _ _ _) fun _ => near_compressChild _ _ _ _ _
      exact Near.same (fun _ _ e => chg_allocAt rfl e) (.unlockObsolete (.unlock (.ret trivial)))
  | _ => exact Near.same (fun _ _ e => chg_shrinkAt e) (.unlockObsolete (.unlock (.ret trivial)))

theorem near_removeHere (key : Bytes) (parent : Addr) (pv : Nat) (curr : Addr) (v : Nat) (loc : Loc) :
    Near Any (Art.removeHere key parent pv curr v loc) (removeHere key parent pv curr v loc) := by
  unfold removeHere Art.removeHere
  refine .read fun n _ => .load fun w => near_ite (fun _ => .ret trivial) fun _ => near_ite (fun _ => .load fun w => .ret trivial) fun _ => .read fun n _ => near_ite (fun _ => ?_) fun _ => ?_
  · exact .cas fun ok => near_ite (fun _ => .ret trivial) fun _ => .cas fun ok => near_ite (fun _ => .unlock (.ret trivial)) fun _ => near_compressChild _ _ _ _ _
  · exact .cas fun ok => near_ite (fun _ => .ret trivial) fun _ => Near.same (fun _ _ e => chg_clearPrefixLeaf e) (.unlock (.ret trivial))

theorem near_removeLeaf (key : Bytes) (b : UInt8) (l : Leaf) (pos : Nat) (parent : Addr) (pv : Nat) (curr : Addr) (v : Nat) (loc : Loc) :
    Near Any (Art.removeLeaf key b l pos parent pv curr v loc) (removeLeaf key b l pos parent pv curr v loc) := by
  unfold removeLeaf Art.removeLeaf
  refine near_ite (fun _ => .load fun w => .ret trivial) fun _ => .read fun n _ => ?_
  cases n.shouldShrink (parent == 0) with
  | none => exact .panic
  | some x =>
    cases x with
    | true => exact .cas fun ok => near_ite (fun _ => .ret trivial) fun _ => .cas fun ok => near_ite (fun _ => .unlock (.ret trivial)) fun _ => near_removeChildAndShrink _ _ _ _ _
    | false => exact .cas fun ok => near_ite (fun _ => .ret trivial) fun _ => Near.same (fun _ _ e => chg_removeChildAt e) (.unlock (.ret trivial))

theorem near_remove {key : Bytes} (hk : key.length < 2 ^ 31) : ∀ (fuel depth : Nat) (parent : Addr) (pv : Nat) (curr : Addr) (loc : Loc), depth ≤ key.length →
    Near Any (Art.remove key fuel depth parent pv curr loc) (remove key fuel depth parent pv curr loc) := by
  intro fuel
  induction fuel with
  | zero => intro depth parent pv curr loc hd; unfold remove Art.remove; exact .diverge
  | succ fuel ih =>
    intro depth parent pv curr loc hd
    unfold remove Art.remove
    refine .wait fun version => near_ite (fun _ => .ret trivial) fun _ => .load fun w => near_ite (fun _ => .ret trivial) fun _ => .read fun n hn => ?_
    rw [checkPrefix_u hd hk hn]
    have hle := checkPrefix_le (n := n) hd
    generalize n.checkPrefix key depth = r at hle ⊢
    obtain ⟨d, b⟩ := r
    cases b with
    | false =>
      dsimp only
      rw [if_pos rfl]
      exact .load fun w => .ret trivial
    | true =>
      dsimp only at hle ⊢
      rw [if_neg (show ¬ (true = false) by simp), u_eq (show key.length < 2 ^ 32 by omega)]
      refine near_ite (fun _ => near_removeHere _ _ _ _ _ _) fun hne => ?_
      rw [if_neg (by omega), List.getElem?_eq_getElem (show d < key.length by omega)]
      refine .read fun n' _ => .load fun w => near_ite (fun _ => .ret trivial) fun _ => ?_
      cases n'.findChild key[d] with
      | none => exact .ret trivial
      | some x =>
        obtain ⟨next, slot, pos⟩ := x
        cases next with
        | leaf l => exact near_removeLeaf _ _ _ _ _ _ _ _ _
        | node c =>
          dsimp only
          rw [add_eq (by omega)]
          exact ih _ _ _ _ _ (by omega)

theorem near_delete {key : Bytes} (hk : key.length < 2 ^ 31) : ∀ fuel, Near Any (Art.delete key fuel) (delete key fuel) := by
  intro fuel
  induction fuel with
  | zero => unfold delete Art.delete; exact .diverge
  | succ fuel ih =>
    unfold delete Art.delete
    refine (near_start (Q := Any) fun a v => near_remove hk _ _ _ _ _ _ (Nat.zero_le _)).bind ?_
    intro a _
    cases a with
    | false => exact ih
    | true => exact .ret trivial

theorem near_prog {c : Call} (hc : Small c) (fuel : Nat) : Near Any (c.prog fuel) (prog c fuel) := by
  cases c with
  | get k => exact near_get hc fuel
  | put k v => exact (near_put hc.1 v fuel).bind fun _ _ => .ret trivial
  | delete k => exact (near_delete hc fuel).bind fun _ _ => .ret trivial

end Art.U32
