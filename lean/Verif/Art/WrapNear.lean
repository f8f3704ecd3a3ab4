import Verif.Art.WrapLemmas
import Verif.Props.ArtConc

/-!
# The wrapping programs are near to those over the natural numbers

`Near` relates two programs that do the same steps as long as all prefix lengths they meet are below 2^31. It also records how the critical sections change prefix lengths.
-/

set_option linter.unusedSimpArgs false

namespace Art.U32

open Surf (Word Bytes usub)
open Surf.U32 (u add sub u_eq add_eq sub_eq)
open scoped Surf.U32
open Spec Props

/-! ## How critical sections change prefix lengths -/

/-- The nodes that are unlocked (and stay in the tree) by the first steps of the program. -/
def keeps {α : Type} : Prog α → List Addr
  | .unlock a k => a :: keeps k
  | .unlockObsolete _ k => keeps k
  | _ => []

theorem keeps_bind {α β : Type} {f : α → Prog β} {a : Addr} : ∀ {p : Prog α}, a ∈ keeps p → a ∈ keeps (p.bind f) := by
  intro p
  induction p with
  | unlock b k ih =>
    intro h
    rcases List.mem_cons.mp h with h | h
    · exact List.mem_cons.mpr (.inl h)
    · exact List.mem_cons.mpr (.inr (ih h))
  | unlockObsolete b k ih => intro h; exact ih h
  | _ => intro h; cases h

/-- Every node of `h'` has the prefix length it has in `h`, or is in `L`, or is new. -/
structure Chg (L : List Addr) (h h' : Heap) : Prop where
  len : h.length ≤ h'.length
  node : ∀ (a : Addr) n', h'[a]? = some n' → (∃ n, h[a]? = some n ∧ n'.prefixLen = n.prefixLen ∧ n'.version = n.version) ∨ (a ≠ 0 ∧ a ∈ L) ∨ (h.length ≤ a ∧ n'.version = 0)

theorem Chg.trans {L : List Addr} {h h1 h2 : Heap} (c1 : Chg L h h1) (c2 : Chg L h1 h2) : Chg L h h2 := by
  refine ⟨Nat.le_trans c1.len c2.len, ?_⟩
  intro a n2 h2
  rcases c2.node a n2 h2 with ⟨n1, e1, e2, e3⟩ | g | g
  · rcases c1.node a n1 e1 with ⟨n, f1, f2, f3⟩ | g | g
    · exact .inl ⟨n, f1, by rw [e2, f2], by rw [e3, f3]⟩
    · exact .inr (.inl g)
    · exact .inr (.inr ⟨g.1, by rw [e3, g.2]⟩)
  · exact .inr (.inl g)
  · exact .inr (.inr ⟨Nat.le_trans c1.len g.1, g.2⟩)

theorem Chg.set {L : List Addr} {h : Heap} {a : Addr} {n n' : Node} (e : h[a]? = some n) (hp : n'.prefixLen = n.prefixLen) (hv : n'.version = n.version) : Chg L h (h.set a n') := by
  refine ⟨by simp, ?_⟩
  intro b m hm
  left
  by_cases hb : b = a
  · subst hb
    rw [List.getElem?_set_self (List.getElem?_eq_some_iff.mp e).1] at hm
    cases hm
    exact ⟨n, e, hp, hv⟩
  · rw [List.getElem?_set_ne (Ne.symm hb)] at hm
    exact ⟨m, hm, rfl, rfl⟩

theorem Chg.set_in {L : List Addr} {h : Heap} {a : Addr} {n' : Node} (h0 : a ≠ 0) (hL : a ∈ L) : Chg L h (h.set a n') := by
  refine ⟨by simp, ?_⟩
  intro b m hm
  by_cases hb : b = a
  · exact .inr (.inl ⟨hb ▸ h0, hb ▸ hL⟩)
  · rw [List.getElem?_set_ne (Ne.symm hb)] at hm
    exact .inl ⟨m, hm, rfl, rfl⟩

theorem Chg.append {L : List Addr} {h : Heap} {n : Node} (hv : n.version = 0) : Chg L h (h ++ [n]) := by
  refine ⟨by simp, ?_⟩
  intro b m hm
  by_cases hb : b < h.length
  · rw [List.getElem?_append_left hb] at hm
    exact .inl ⟨m, hm, rfl, rfl⟩
  · right; right
    have hb' : h.length ≤ b := Nat.not_lt.mp hb
    refine ⟨hb', ?_⟩
    rw [List.getElem?_append_right hb'] at hm
    have : m = n := by
      cases hx : b - h.length with
      | zero => rw [hx] at hm; simpa using hm.symm
      | succ k => rw [hx] at hm; simp at hm
    rw [this, hv]

theorem setSlot_keep {n n' : Node} {i : Nat} {r : Ref} (h : n.setSlot i r = some n') : n'.prefixLen = n.prefixLen ∧ n'.version = n.version := by
  unfold Node.setSlot at h
  split at h <;>
  first
  | (obtain ⟨c, -, rfl⟩ := Option.map_eq_some_iff.mp h; exact ⟨rfl, rfl⟩)
  | (cases h; exact ⟨rfl, rfl⟩)

theorem insertChild_keep {n n' : Node} {b : UInt8} {r : Ref} (h : n.insertChild b r = some n') : n'.prefixLen = n.prefixLen ∧ n'.version = n.version := by
  unfold Node.insertChild at h
  split at h <;>
  simp only [Option.bind_eq_bind, Option.bind_eq_some_iff, Option.pure_def, Option.some.injEq, reduceCtorEq] at h
  · obtain ⟨_, -, _, -, rfl⟩ := h; exact ⟨rfl, rfl⟩
  · obtain ⟨_, -, _, -, rfl⟩ := h; exact ⟨rfl, rfl⟩
  · obtain ⟨_, -, _, -, _, -, rfl⟩ := h; exact ⟨rfl, rfl⟩
  · obtain ⟨_, -, rfl⟩ := h; exact ⟨rfl, rfl⟩

theorem removeChild_keep {n n' : Node} {i : Nat} (h : n.removeChild i = some n') : n'.prefixLen = n.prefixLen ∧ n'.version = n.version := by
  unfold Node.removeChild at h
  split at h <;>
  simp only [Option.bind_eq_bind, Option.bind_eq_some_iff, Option.pure_def, Option.some.injEq, reduceCtorEq] at h
  · obtain ⟨_, -, _, -, _, -, rfl⟩ := h; exact ⟨rfl, rfl⟩
  · obtain ⟨_, -, _, -, _, -, rfl⟩ := h; exact ⟨rfl, rfl⟩
  · obtain ⟨_, -, _, -, _, -, _, -, rfl⟩ := h; exact ⟨rfl, rfl⟩
  · obtain ⟨_, -, rfl⟩ := h; exact ⟨rfl, rfl⟩
  · subst h; exact ⟨rfl, rfl⟩

theorem growAndInsert_new {n n' : Node} {b : UInt8} {r : Ref} (h : n.growAndInsert b r = some n') : n'.version = 0 := by
  unfold Node.growAndInsert at h
  split at h
  · exact (insertChild_keep h).2
  · simp only [Option.bind_eq_bind, Option.bind_eq_some_iff] at h
    obtain ⟨_, -, h⟩ := h
    exact (insertChild_keep h).2
  · simp only [Option.bind_eq_bind, Option.bind_eq_some_iff] at h
    obtain ⟨_, -, h⟩ := h
    exact (insertChild_keep h).2
  · cases h

theorem shrink_new {n n' : Node} {b : UInt8} (h : n.shrink b = some n') : n'.version = 0 := by
  unfold Node.shrink at h
  split at h <;>
  simp only [Option.bind_eq_bind, Option.bind_eq_some_iff, Option.pure_def, Option.some.injEq, reduceCtorEq] at h
  · obtain ⟨_, -, rfl⟩ := h; rfl
  · obtain ⟨_, -, _, -, rfl⟩ := h; rfl
  · obtain ⟨_, -, rfl⟩ := h; rfl

theorem placeLeaf_keep {n n' : Node} {pos : Nat} {key : Bytes} {l : Leaf} (h : Art.placeLeaf n pos key l = some n') : n'.version = n.version := by
  unfold Art.placeLeaf at h
  split at h
  · cases h; rfl
  · obtain ⟨b, -, h⟩ := Option.bind_eq_some_iff.mp h
    exact (insertChild_keep h).2

section
variable {L : List Addr} {h h' : Heap} {a c : Addr} {loc : Loc} {b : UInt8} {r : Ref}

theorem chg_storeLoc (e : storeLoc h loc r = some h') : Chg L h h' := by
  unfold storeLoc at e
  obtain ⟨n, h1, e⟩ := Option.bind_eq_some_iff.mp e
  obtain ⟨n', h2, e⟩ := Option.bind_eq_some_iff.mp e
  cases e
  exact Chg.set h1 (setSlot_keep h2).1 (setSlot_keep h2).2

theorem chg_allocAt {n : Node} (hv : n.version = 0) (e : allocAt h loc n = some h') : Chg L h h' := (Chg.append hv).trans (chg_storeLoc e)

theorem chg_updatePrefixLeaf {key value : Bytes} (e : updatePrefixLeaf h a key value = some h') : Chg L h h' := by
  unfold updatePrefixLeaf at e
  obtain ⟨n, h1, e⟩ := Option.bind_eq_some_iff.mp e
  cases e
  exact Chg.set h1 rfl rfl

theorem chg_clearPrefixLeaf (e : clearPrefixLeaf h a = some h') : Chg L h h' := by
  unfold clearPrefixLeaf at e
  obtain ⟨n, h1, e⟩ := Option.bind_eq_some_iff.mp e
  cases e
  exact Chg.set h1 rfl rfl

theorem chg_insertChildAt (e : insertChildAt h a b r = some h') : Chg L h h' := by
  unfold insertChildAt at e
  obtain ⟨n, h1, e⟩ := Option.bind_eq_some_iff.mp e
  obtain ⟨n', h2, e⟩ := Option.bind_eq_some_iff.mp e
  cases e
  exact Chg.set h1 (insertChild_keep h2).1 (insertChild_keep h2).2

theorem chg_removeChildAt {i : Nat} (e : removeChildAt h a i = some h') : Chg L h h' := by
  unfold removeChildAt at e
  obtain ⟨n, h1, e⟩ := Option.bind_eq_some_iff.mp e
  obtain ⟨n', h2, e⟩ := Option.bind_eq_some_iff.mp e
  cases e
  exact Chg.set h1 (removeChild_keep h2).1 (removeChild_keep h2).2

theorem chg_growAt (e : growAt h a b r loc = some h') : Chg L h h' := by
  unfold growAt at e
  obtain ⟨n, h1, e⟩ := Option.bind_eq_some_iff.mp e
  obtain ⟨n', h2, e⟩ := Option.bind_eq_some_iff.mp e
  exact chg_allocAt (growAndInsert_new h2) e

theorem chg_shrinkAt (e : shrinkAt h a b loc = some h') : Chg L h h' := by
  unfold shrinkAt at e
  obtain ⟨n, h1, e⟩ := Option.bind_eq_some_iff.mp e
  obtain ⟨n', h2, e⟩ := Option.bind_eq_some_iff.mp e
  exact chg_allocAt (shrink_new h2) e

theorem chg_updateOrExpand {l : Leaf} {key value : Bytes} {depth : Nat} (e : Art.updateOrExpand h l key value depth loc = some h') : Chg L h h' := by
  unfold Art.updateOrExpand at e
  split at e
  · exact chg_storeLoc e
  · obtain ⟨n1, h1, e⟩ := Option.bind_eq_some_iff.mp e
    obtain ⟨n2, h2, e⟩ := Option.bind_eq_some_iff.mp e
    exact chg_allocAt (by rw [placeLeaf_keep h2, placeLeaf_keep h1]; rfl) e

theorem chg_insertSplitPrefix {key full value : Bytes} {depth p : Nat} (hL : a ∈ L) (hz : ∀ d, h[0]? = some d → d.prefixLen = 0)
    (e : Art.insertSplitPrefix h a key full value depth p loc = some h') : Chg L h h' := by
  unfold Art.insertSplitPrefix at e
  obtain ⟨n, h1, e⟩ := Option.bind_eq_some_iff.mp e
  obtain ⟨n1, h2, e⟩ := Option.bind_eq_some_iff.mp e
  obtain ⟨⟨pos, newLen, tmp⟩, h3, e⟩ := Option.bind_eq_some_iff.mp e
  obtain ⟨n2, h4, e⟩ := Option.bind_eq_some_iff.mp e
  have ha : a ≠ 0 := by
    rintro rfl
    have := hz n h1
    unfold Art.splitRest usub at h3
    rw [this, if_neg (by omega)] at h3
    cases h3
  exact (Chg.set_in ha hL).trans (chg_allocAt (by rw [(insertChild_keep h4).2]; exact placeLeaf_keep h2) e)

theorem chg_compressAt (hc : c ≠ 0) (hL : c ∈ L) (e : Art.compressAt h a c b loc = some h') : Chg L h h' := by
  unfold Art.compressAt at e
  obtain ⟨n, h1, e⟩ := Option.bind_eq_some_iff.mp e
  obtain ⟨n1, h2, e⟩ := Option.bind_eq_some_iff.mp e
  exact (Chg.set_in hc hL).trans (chg_storeLoc e)

end

/-! ## Near programs -/

/-- All prefix lengths of the heap are below 2^31. -/
def Low (h : Heap) : Prop := ∀ (a : Addr) n, h[a]? = some n → n.prefixLen < 2 ^ 31

/-- The first program takes the same steps as the second as long as all prefix lengths are below 2^31, and every result satisfies `Q`. -/
inductive Near {α : Type} (Q : α → Prop) : Prog α → Prog α → Prop
  | ret {a} : Q a → Near Q (.ret a) (.ret a)
  | panic : Near Q .panic .panic
  | diverge : Near Q .diverge .diverge
  | wait {a k k'} : (∀ x, Near Q (k x) (k' x)) → Near Q (.wait a k) (.wait a k')
  | load {a k k'} : (∀ x, Near Q (k x) (k' x)) → Near Q (.load a k) (.load a k')
  | cas {a v k k'} : (∀ x, Near Q (k x) (k' x)) → Near Q (.cas a v k) (.cas a v k')
  | lock {a k k'} : Near Q (k false) (k' false) → (∃ f b k1, k true = .write f (.unlock a (.unlockObsolete b k1))) → (a ≠ 0 → Near Q (k true) (k' true)) →
      Near Q (.lock a k) (.lock a k')
  | unlock {a k k'} : Near Q k k' → Near Q (.unlock a k) (.unlock a k')
  | unlockObsolete {a k k'} : Near Q k k' → Near Q (.unlockObsolete a k) (.unlockObsolete a k')
  | read {a v k k'} : (∀ n : Node, n.prefixLen < 2 ^ 31 → Near Q (k n) (k' n)) → Near Q (.read a v k) (.read a v k')
  | readRoot {k k'} : (∀ x, Near Q (k x) (k' x)) → Near Q (.readRoot k) (.readRoot k')
  | choose {k k'} : (∀ x, Near Q (k x) (k' x)) → Near Q (.choose k) (.choose k')
  | write {f f' k k'} : (∀ h, Low h → f h = f' h) → (∀ h h', (∀ d, h[0]? = some d → d.prefixLen = 0) → f h = some h' → Chg (keeps k) h h') → Near Q k k' →
      Near Q (.write f k) (.write f' k')

theorem Near.bind {α β : Type} {Q : α → Prop} {R : β → Prop} {p p' : Prog α} {f f' : α → Prog β} (h : Near Q p p') (hf : ∀ a, Q a → Near R (f a) (f' a)) :
    Near R (p.bind f) (p'.bind f') := by
  induction h with
  | ret h => exact hf _ h
  | panic => exact .panic
  | diverge => exact .diverge
  | wait _ ih => exact .wait ih
  | load _ ih => exact .load ih
  | cas _ ih => exact .cas ih
  | lock _ h1 _ ih1 ih2 =>
    obtain ⟨g, b, k1, e⟩ := h1
    refine .lock ih1 ⟨g, b, k1.bind f, ?_⟩ ih2
    rw [e]
    rfl
  | unlock _ ih => exact .unlock ih
  | unlockObsolete _ ih => exact .unlockObsolete ih
  | read _ ih => exact .read ih
  | readRoot _ ih => exact .readRoot ih
  | choose _ ih => exact .choose ih
  | write h1 h2 _ ih =>
    refine .write h1 (fun h h' hz e => ?_) ih
    have := h2 h h' hz e
    refine ⟨this.len, fun a n hn => ?_⟩
    rcases this.node a n hn with g | g | g
    · exact .inl g
    · exact .inr (.inl ⟨g.1, keeps_bind g.2⟩)
    · exact .inr (.inr g)

/-- The same critical section. -/
theorem Near.same {α : Type} {Q : α → Prop} {f : Heap → Option Heap} {k k' : Prog α} (h : ∀ h h', f h = some h' → Chg (keeps k) h h') (hk : Near Q k k') : Near Q (.write f k) (.write f k') :=
  .write (fun _ _ => rfl) (fun h0 h' _ e => h h0 h' e) hk

theorem near_start {α : Type} {Q : α → Prop} {k k' : Addr → Nat → Prog α} (h : ∀ a v, Near Q (k a v) (k' a v)) : Near Q (start k) (start k') := by
  have hm : ∀ (r : Option Ref) (v : Nat), Near Q (match r with | some (.node a) => k a v | _ => .panic) (match r with | some (.node a) => k' a v | _ => .panic) := by
    intro r v
    cases r with
    | none => exact .panic
    | some r => cases r with
      | leaf l => exact .panic
      | node a => exact h a v
  refine .choose fun b => ?_
  cases b
  · exact .wait fun v => .readRoot fun r => hm r v
  · exact .readRoot fun r => .wait fun v => hm r v

end Art.U32
