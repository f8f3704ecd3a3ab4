import Verif.Art.NodeLemmas

/-!
# The ends of a node (range.go)

`firstChild` is in `Art/Node.lean`, as `insert` uses it. `lastChild` is used by nothing.
-/

set_option linter.unusedSimpArgs false

namespace Art

open Surf

/-- range.go:43-52, the loop for a node48, below `i` -/
def Node.lastLoop48 (index : List Nat) (children : List (Option Ref)) : Nat → Option Ref
  | 0 => none
  | i + 1 => do
    let pos ← index[i]?
    if pos = 0 then lastLoop48 index children i
    else
      match ← children[pos - 1]? with
      | some c => some c
      | none => lastLoop48 index children i

/-- range.go:53-58, the loop for a node256, below `i` -/
def Node.lastLoop256 (children : List (Option Ref)) : Nat → Option Ref
  | 0 => none
  | i + 1 => do
    match ← children[i]? with
    | some c => some c
    | none => lastLoop256 children i

/-- range.go:33-61 `lastChild`; `some none` is a nil pointer, `none` a panic. The counter is a byte: without children, the index is 255. -/
def Node.lastChild (n : Node) : Option (Option Ref) :=
  match n.kids with
  | .n4 _ children => children[(n.numChildren - 1).toNat]?
  | .n16 _ children => children[(n.numChildren - 1).toNat]?
  | .n48 index children _ => (lastLoop48 index children 256).map some
  | .n256 children => (lastLoop256 children 256).map some
  | .dummy _ => none

theorem lastLoop48_spec {num index children slots} (h : IdxWF num index children slots) (f : UInt8 → Option Ref)
    (hf : ∀ b r, f b = some r ↔ ∃ i, index[b.toNat]? = some (i + 1) ∧ children[i]? = some (some r)) : ∀ k, k ≤ 256 → (∃ b, b.toNat < k ∧ f b ≠ none) →
    ∃ r b, Node.lastLoop48 index children k = some r ∧ f b = some r ∧ b.toNat < k ∧ ∀ b', b < b' → b'.toNat < k → f b' = none := by
  intro k
  induction k with
  | zero => rintro - ⟨b, hb, -⟩; omega
  | succ k ih =>
    rintro hk ⟨b0, hb0, hne⟩
    unfold Node.lastLoop48
    have hkl : k < index.length := by rw [h.lenI]; omega
    obtain ⟨pos, hpos⟩ : ∃ p, index[k]? = some p := ⟨_, List.getElem?_eq_getElem hkl⟩
    have hkk : (UInt8.ofNat k).toNat = k := ofNat_toNat_lt (by omega)
    rw [hpos]
    simp only [Option.bind_eq_bind, Option.bind_some]
    cases pos with
    | zero =>
      have hnone : f (UInt8.ofNat k) = none := by
        by_contra hcon
        obtain ⟨r, hr⟩ := Option.ne_none_iff_exists'.mp hcon
        obtain ⟨i, h1, -⟩ := (hf _ _).mp hr
        rw [hkk, hpos] at h1
        simp at h1
      rw [if_pos rfl]
      have hlt : b0.toNat < k := by
        by_contra hge
        have : b0 = UInt8.ofNat k := UInt8.toNat_inj.mp (by rw [hkk]; omega)
        rw [this] at hne
        exact hne hnone
      obtain ⟨r, b, h1, h2, h3, h4⟩ := ih (by omega) ⟨b0, hlt, hne⟩
      refine ⟨r, b, h1, h2, by omega, ?_⟩
      intro b' hb' hlt'
      by_cases e : b'.toNat = k
      · have : b' = UInt8.ofNat k := UInt8.toNat_inj.mp (by rw [hkk]; omega)
        rw [this]
        exact hnone
      · exact h4 b' hb' (by omega)
    | succ i =>
      obtain ⟨r, hr⟩ := h.isc k i hpos
      rw [if_neg (by omega), Nat.add_sub_cancel, hr]
      refine ⟨r, UInt8.ofNat k, rfl, (hf _ _).mpr ⟨i, by rw [hkk]; exact hpos, hr⟩, by omega, ?_⟩
      intro b' hb' hlt'
      rw [UInt8.lt_iff_toNat_lt, hkk] at hb'
      omega

theorem lastLoop256_spec {children : List (Option Ref)} (hl : children.length = 256) : ∀ k, k ≤ 256 → (∃ b : UInt8, b.toNat < k ∧ children[b.toNat]?.join ≠ none) →
    ∃ (r : Ref) (b : UInt8), Node.lastLoop256 children k = some r ∧ children[b.toNat]?.join = some r ∧ b.toNat < k ∧
      ∀ b' : UInt8, b < b' → b'.toNat < k → children[b'.toNat]?.join = none := by
  intro k
  induction k with
  | zero => rintro - ⟨b, hb, -⟩; omega
  | succ k ih =>
    rintro hk ⟨b0, hb0, hne⟩
    unfold Node.lastLoop256
    obtain ⟨o, ho⟩ : ∃ p, children[k]? = some p := ⟨_, List.getElem?_eq_getElem (by omega)⟩
    have hkk : (UInt8.ofNat k).toNat = k := ofNat_toNat_lt (by omega)
    rw [ho]
    simp only [Option.bind_eq_bind, Option.bind_some]
    cases o with
    | none =>
      have hlt : b0.toNat < k := by
        by_contra hge
        rw [show b0.toNat = k by omega, ho] at hne
        simp at hne
      obtain ⟨r, b, h1, h2, h3, h4⟩ := ih (by omega) ⟨b0, hlt, hne⟩
      refine ⟨r, b, h1, h2, by omega, ?_⟩
      intro b' hb' hlt'
      by_cases e : b'.toNat = k
      · rw [e, ho]
        rfl
      · exact h4 b' hb' (by omega)
    | some r =>
      refine ⟨r, UInt8.ofNat k, rfl, by rw [hkk, ho]; rfl, by omega, ?_⟩
      intro b' hb' hlt'
      rw [UInt8.lt_iff_toNat_lt, hkk] at hb'
      omega

theorem lastChild_spec {n : Node} (h : n.WF) (hpos : 0 < cnt n.child) :
    ∃ r b, n.lastChild = some (some r) ∧ n.child b = some r ∧ (48 ≤ n.cap → ∀ b', b < b' → n.child b' = none) := by
  have hnum := h.num
  have hx := h
  unfold Node.WF at hx
  unfold Node.lastChild
  have arr : ∀ {cap keys children}, cap ≤ 16 → ArrWF cap n.numChildren.toNat keys children → 0 < n.numChildren.toNat →
      ∃ r b, children[(n.numChildren - 1).toNat]? = some (some r) ∧ (arrChild n.numChildren.toNat keys children b).map (·.1) = some r := by
    intro cap keys children hcap hw hn
    have hle := hw.num_le
    have hm : (n.numChildren - 1).toNat = n.numChildren.toNat - 1 := by
      rw [UInt8.toNat_sub_of_le]
      · rfl
      · rw [UInt8.le_iff_toNat_le]; exact hn
    rw [hm]
    obtain ⟨r, hr⟩ := hw.isc (n.numChildren.toNat - 1) (by omega)
    have hl : n.numChildren.toNat - 1 < keys.length := by have := hw.lenK; omega
    exact ⟨r, keys[n.numChildren.toNat - 1], hr, (hw.child_iff _ _).mpr ⟨_, by omega, List.getElem?_eq_getElem hl, hr⟩⟩
  split at hx
  next keys children e =>
    rw [e, child_n4 e]
    rw [← hnum.2.1 (by simp [Node.cap, e])] at hpos
    obtain ⟨r, b, h1, h2⟩ := arr (by omega) hx hpos
    exact ⟨r, b, h1, h2, by simp [Node.cap, e]⟩
  next keys children e =>
    rw [e, child_n16 e]
    rw [← hnum.2.1 (by simp [Node.cap, e])] at hpos
    obtain ⟨r, b, h1, h2⟩ := arr (by omega) hx hpos
    exact ⟨r, b, h1, h2, by simp [Node.cap, e]⟩
  next index children slots e =>
    rw [e, child_n48 e]
    rw [child_n48 e, cnt_pos_iff] at hpos
    obtain ⟨b, r, hb⟩ := hpos
    obtain ⟨r, b, h1, h2, -, h3⟩ := lastLoop48_spec hx (fun b => (idxChild index children b).map (·.1)) (fun b r => hx.child_iff b r) 256 (Nat.le_refl _)
      ⟨b, b.toNat_lt, by rw [hb]; simp⟩
    exact ⟨r, b, by simp only [h1]; rfl, h2, fun _ b' hb' => h3 b' hb' b'.toNat_lt⟩
  next children e =>
    rw [e, child_n256 e]
    rw [child_n256 e, cnt_pos_iff] at hpos
    obtain ⟨b, r, hb⟩ := hpos
    obtain ⟨r, b, h1, h2, -, h3⟩ := lastLoop256_spec hx.1 256 (Nat.le_refl _) ⟨b, b.toNat_lt, by rw [hb]; simp⟩
    exact ⟨r, b, by simp only [h1]; rfl, h2, fun _ b' hb' => h3 b' hb' b'.toNat_lt⟩
  next => exact hx.elim

theorem firstChild_least {n : Node} (h : n.WF) (hpos : 0 < cnt n.child) :
    ∃ r b, n.firstChild = some (some r) ∧ n.child b = some r ∧ (48 ≤ n.cap → ∀ b', b' < b → n.child b' = none) := by
  obtain ⟨r, b, h1, h2⟩ := firstChild_spec h hpos
  have hx := h
  unfold Node.WF at hx
  split at hx
  next keys children e => exact ⟨r, b, h1, h2, by simp [Node.cap, e]⟩
  next keys children e => exact ⟨r, b, h1, h2, by simp [Node.cap, e]⟩
  next index children slots e =>
    unfold Node.firstChild at h1 ⊢
    rw [e] at h1 ⊢
    simp only at h1 ⊢
    cases hf : index.find? (· != 0) with
    | none => rw [hf] at h1; simp at h1
    | some p =>
      rw [List.find?_eq_some_iff_getElem] at hf
      obtain ⟨hp, i, hi, hip, hmin⟩ := hf
      simp at hp
      have hi' : index[i]? = some (p - 1 + 1) := by rw [List.getElem?_eq_getElem hi, hip]; congr 1; omega
      have hi2 : i < 256 := by have := hx.lenI; omega
      obtain ⟨r', hr'⟩ := hx.isc i (p - 1) hi'
      refine ⟨r', UInt8.ofNat i, ?_, ?_, fun _ b' hb' => ?_⟩
      · simp only [usub]
        rw [if_pos (by omega)]
        simp [hr']
      · rw [child_n48 e]
        exact (hx.child_iff _ _).mpr ⟨p - 1, by rw [ofNat_toNat_lt hi2]; exact hi', hr'⟩
      · rw [UInt8.lt_iff_toNat_lt, ofNat_toNat_lt hi2] at hb'
        rw [child_n48 e]
        by_contra hcon
        obtain ⟨r2, hr2⟩ := Option.ne_none_iff_exists'.mp hcon
        obtain ⟨j, g1, -⟩ := (hx.child_iff _ _).mp hr2
        have := hmin b'.toNat hb'
        rw [List.getElem?_eq_some_iff] at g1
        obtain ⟨g1, g2⟩ := g1
        rw [g2] at this
        simp at this
  next children e =>
    unfold Node.firstChild at h1 ⊢
    rw [e] at h1 ⊢
    simp only at h1 ⊢
    cases hf : children.findSome? id with
    | none => rw [hf] at h1; simp at h1
    | some r' =>
      rw [List.findSome?_eq_some_iff] at hf
      obtain ⟨l1, a, l2, e1, e2, hmin⟩ := hf
      simp only [id] at e2
      subst e2
      have hl := hx.1
      have hi2 : l1.length < 256 := by rw [e1] at hl; simp at hl; omega
      refine ⟨r', UInt8.ofNat l1.length, rfl, ?_, fun _ b' hb' => ?_⟩
      · rw [child_n256 e]
        simp only
        rw [ofNat_toNat_lt hi2, e1]
        simp
      · rw [UInt8.lt_iff_toNat_lt, ofNat_toNat_lt hi2] at hb'
        rw [child_n256 e, e1]
        simp only
        rw [List.getElem?_append_left hb']
        have := hmin _ (List.getElem_mem hb')
        simp only [id] at this
        rw [List.getElem?_eq_getElem hb', this]
        rfl
  next => exact hx.elim

end Art
