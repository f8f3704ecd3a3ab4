import Verif.Art.Slow

/-!
# A tree in which `Put` is slow

The keys are made of blocks of ten bytes, of which the first is 0 or 1 and the others are 0; all keys of `n` blocks are stored.
-/

set_option linter.unusedSimpArgs false

namespace Art

open Surf Spec Props Prog

/-- A byte for a bit. -/
def bit (b : Bool) : UInt8 := if b then 1 else 0

/-- The key of some bits. -/
def blocks : List Bool → Bytes
  | [] => []
  | b :: bs => bit b :: (List.replicate 9 0 ++ blocks bs)

theorem bit_inj {b c : Bool} (h : bit b = bit c) : b = c := by revert h; revert b c; decide

theorem blocks_length (bs : List Bool) : (blocks bs).length = 10 * bs.length := by
  induction bs with
  | nil => rfl
  | cons b bs ih => simp [blocks, ih]; omega

theorem blocks_append (xs ys : List Bool) : blocks (xs ++ ys) = blocks xs ++ blocks ys := by
  induction xs with
  | nil => rfl
  | cons b xs ih => simp [blocks, ih]

theorem blocks_inj : ∀ {xs ys : List Bool}, blocks xs = blocks ys → xs = ys := by
  intro xs
  induction xs with
  | nil =>
    intro ys h
    cases ys with
    | nil => rfl
    | cons y ys => simp [blocks] at h
  | cons x xs ih =>
    intro ys h
    cases ys with
    | nil => simp [blocks] at h
    | cons y ys =>
      simp only [blocks, List.cons.injEq, List.append_cancel_left_eq] at h
      rw [bit_inj h.1, ih h.2]

/-- Within a block there are zeros only. -/
theorem blocks_zero : ∀ {bs : List Bool} {j : Nat} {x : UInt8}, (blocks bs)[j]? = some x → j % 10 ≠ 0 → x = 0 := by
  intro bs
  induction bs with
  | nil => intro j x h; simp [blocks] at h
  | cons b bs ih =>
    intro j x h hj
    cases j with
    | zero => simp at hj
    | succ j =>
      simp only [blocks, List.getElem?_cons_succ] at h
      by_cases hlt : j < 9
      · rw [List.getElem?_append_left (by simpa using hlt), List.getElem?_replicate, if_pos hlt] at h
        exact (Option.some.inj h).symm
      · rw [List.getElem?_append_right (by simpa using hlt)] at h
        simp only [List.length_replicate] at h
        exact ih h (by omega)

/-- A key that parts from the given one at the start of a block. -/
theorem blocks_sibling {bs : List Bool} {i : Nat} (hi : i < bs.length) : ∃ bs', bs'.length = bs.length ∧ blocks bs' ≠ blocks bs ∧
    (∀ p, p <+: blocks bs → p.length ≤ 10 * i → p <+: blocks bs') ∧ (∀ p, p <+: blocks bs → p <+: blocks bs' → p.length ≤ 10 * i) := by
  obtain ⟨xs, b, ys, rfl, hx⟩ : ∃ xs b ys, bs = xs ++ b :: ys ∧ xs.length = i :=
    ⟨bs.take i, bs[i], bs.drop (i + 1), by rw [List.getElem_cons_drop]; simp, by simp; omega⟩
  subst hx
  refine ⟨xs ++ (!b) :: ys, by simp, ?_, ?_, ?_⟩
  · intro e
    have := blocks_inj e
    simp at this
  · intro p h1 h2
    rw [blocks_append] at h1 ⊢
    rw [← blocks_length] at h2
    exact (List.prefix_of_prefix_length_le h1 (List.prefix_append _ _) h2).trans (List.prefix_append _ _)
  · intro p h1 h2
    by_contra hlt
    rw [blocks_append, blocks] at h1 h2
    have hl : (blocks xs).length < p.length := by rw [blocks_length]; omega
    have h3 := (List.prefix_append (blocks xs ++ [bit b]) (List.replicate 9 0 ++ blocks ys))
    have h4 := (List.prefix_append (blocks xs ++ [bit !b]) (List.replicate 9 0 ++ blocks ys))
    simp only [List.append_assoc, List.singleton_append] at h3 h4
    have h5 := List.prefix_of_prefix_length_le h3 h1 (by simp; omega)
    have h6 := List.prefix_of_prefix_length_le h4 h2 (by simp; omega)
    have := bit_inj (snoc_inj h5 h6)
    simp at this

theorem cnt_two {f : UInt8 → Option Ref} (h : 2 ≤ cnt f) : ∃ b b' r r', b ≠ b' ∧ f b = some r ∧ f b' = some r' := by
  obtain ⟨b, r, hb⟩ := (cnt_pos_iff f).mp (by omega)
  have h1 := cnt_upd f b none
  rw [hb] at h1
  simp at h1
  obtain ⟨b', r', hb'⟩ := (cnt_pos_iff (upd f b none)).mp (by omega)
  by_cases e : b' = b
  · subst e; simp at hb'
  · rw [upd_other _ _ e] at hb'
    exact ⟨b, b', r, r', fun e' => e e'.symm, hb, hb'⟩

theorem Prog.bind_bind {α β γ : Type} (f : α → Prog β) (g : β → Prog γ) : ∀ p : Prog α, (p.bind f).bind g = p.bind fun x => (f x).bind g := by
  intro p
  induction p with
  | ret a => rfl
  | panic => rfl
  | diverge => rfl
  | wait a k ih => simp only [Prog.bind, ih]
  | load a k ih => simp only [Prog.bind, ih]
  | cas a v k ih => simp only [Prog.bind, ih]
  | lock a k ih => simp only [Prog.bind, ih]
  | unlock a k ih => simp only [Prog.bind, ih]
  | unlockObsolete a k ih => simp only [Prog.bind, ih]
  | read a v k ih => simp only [Prog.bind, ih]
  | readRoot k ih => simp only [Prog.bind, ih]
  | choose k ih => simp only [Prog.bind, ih]
  | write g k ih => simp only [Prog.bind, ih]

/-- The stored keys are those of `n` blocks. -/
def Tower (n : Nat) (m : Map) : Prop := ∀ K, m K ≠ none ↔ ∃ bs : List Bool, bs.length = n ∧ K = blocks bs

section
variable {E : Addr → Bytes} {live : Addr → Prop} {h : Heap} {root : Addr} {m : Map} {n : Nat}

theorem HTr.child_key (ht : HTr E live h root m) {a : Addr} (ha : live a) {x : Node} (hx : h[a]? = some x) {b : UInt8} {r : Ref} (hb : x.child b = some r) :
    ∃ K, m K ≠ none ∧ E a ++ [b] <+: K := by
  have hlv := ht.tree.leaves a ha
  rw [view_eq hx] at hlv
  cases r with
  | leaf l => exact ⟨l.key, by rw [ht.stored_value ha hx (Or.inr ⟨b, hb⟩)]; simp, hlv.leaf b l hb⟩
  | node c =>
    obtain ⟨h10, hcr, h11, -⟩ := ht.child_node ha hx hb
    obtain ⟨N, hN⟩ := exists_bound E h.length
    obtain ⟨K, k1, k2, -⟩ := ht.below (fun a ha => hN a (ht.lt ha)) N c h10 hcr (by omega)
    exact ⟨K, k1, h11.trans k2⟩

/-- No node of the tower has a leaf of its own. -/
theorem tower_pleaf (ht : HTr E live h root m) (hm : Tower n m) {a : Addr} (ha : live a) {x : Node} (hx : h[a]? = some x) (hlt : (E a).length < 10 * n) : x.prefixLeaf = none := by
  cases hp : x.prefixLeaf with
  | none => rfl
  | some l =>
    have hlv := ht.tree.leaves a ha
    rw [view_eq hx] at hlv
    have h1 := ht.stored_value ha hx (Or.inl hp)
    obtain ⟨bs, h2, h3⟩ := (hm l.key).mp (by rw [h1]; simp)
    have h4 := hlv.pleaf l hp
    rw [← h4, h3, blocks_length, h2] at hlt
    omega

/-- Every node of the tower stands where a block begins. -/
theorem tower_level (ht : HTr E live h root m) (hm : Tower n m) {a : Addr} (ha : live a) (hr : a ≠ root) : (E a).length < 10 * n ∧ (E a).length % 10 = 0 := by
  obtain ⟨N, hN⟩ := exists_bound E h.length
  obtain ⟨K, k1, k2, k3⟩ := ht.below (fun a ha => hN a (ht.lt ha)) N a ha hr (by omega)
  obtain ⟨bs, h2, rfl⟩ := (hm K).mp k1
  rw [blocks_length, h2] at k3
  refine ⟨k3, ?_⟩
  obtain ⟨x, hx, hvw, hok⟩ := ht.view_live ha
  have h3 := hok.two hr
  rw [tower_pleaf ht hm ha hx k3] at h3
  obtain ⟨b, b', r, r', hne, h4, h5⟩ := cnt_two (by simpa using h3)
  obtain ⟨K1, g1, g2⟩ := ht.child_key ha hx h4
  obtain ⟨K2, g3, g4⟩ := ht.child_key ha hx h5
  obtain ⟨bs1, e1, rfl⟩ := (hm K1).mp g1
  obtain ⟨bs2, e2, rfl⟩ := (hm K2).mp g3
  by_contra hmod
  have get : ∀ {K : Bytes} {b : UInt8}, E a ++ [b] <+: K → K[(E a).length]? = some b := by
    rintro K b ⟨s, rfl⟩
    simp
  have z1 := blocks_zero (get g2) hmod
  have z2 := blocks_zero (get g4) hmod
  exact hne (z1.trans z2.symm)

/-- Below a node of the tower that is not a last one there are nodes only, each ten bytes further. -/
theorem tower_child (ht : HTr E live h root m) (hm : Tower n m) {a : Addr} (ha : live a) {x : Node} (hx : h[a]? = some x) {i : Nat} (hi : (E a).length = 10 * i) (hin : i + 1 < n)
    {b : UInt8} {r : Ref} (hb : x.child b = some r) : ∃ c, r = .node c ∧ (E c).length = 10 * (i + 1) := by
  obtain ⟨K, k1, k2⟩ := ht.child_key ha hx hb
  obtain ⟨bs, h2, rfl⟩ := (hm K).mp k1
  obtain ⟨bs', g1, g2, g3, g4⟩ := blocks_sibling (bs := bs) (i := i + 1) (by omega)
  have k3 := g3 _ k2 (by simp; omega)
  have k4 : m (blocks bs') ≠ none := (hm _).mpr ⟨bs', by omega, rfl⟩
  cases r with
  | leaf l =>
    exfalso
    have hv : (view h a).child b = some (.leaf l) := by rw [view_eq hx]; exact hb
    rw [ht.tree.lookup_leaf ha k2 hv] at k1
    rw [ht.tree.lookup_leaf ha k3 hv] at k4
    split at k1
    · next e1 =>
      split at k4
      · next e2 => exact g2 (e2.symm.trans e1)
      · exact k4 rfl
    · exact k1 rfl
  | node c =>
    obtain ⟨h10, hcr, h11, h12, nc, h13, h14⟩ := ht.child_node ha hx hb
    have pre : ∀ {K}, m K ≠ none → E a ++ [b] <+: K → E c <+: K := by
      intro K h1 h2
      by_contra hno
      exact h1 (ht.absent h10 h13 h14 (by rw [h12]; exact h2) hno)
    have h5 := g4 _ (pre k1 k2) (pre k4 k3)
    have h6 := (tower_level ht hm h10 hcr).2
    have h7 := h11.length_le
    simp at h7
    exact ⟨c, rfl, by omega⟩

/-- `fullKey` goes down to the bottom. -/
theorem slow_fullKey {β : Type} (ht : HTr E live h root m) (hc : Calm live h) (hm : Tower n m) {f : Option Bytes → Prog β} {j : Nat} :
    ∀ (fuel : Nat) (curr : Addr) (v i : Nat), live curr → curr ≠ root → ver h curr = some v → (E curr).length = 10 * i →
      (∀ full, E curr <+: full → Slow h j (f (some full))) → Slow h (4 * (n - i) + j) ((fullKey fuel curr v).bind f) := by
  intro fuel
  induction fuel with
  | zero => intro curr v i hl hr hv hE hf; exact slow_diverge
  | succ fuel ih =>
    intro curr v i hl hr hv hE hf
    obtain ⟨x, hx, hvw, hok⟩ := ht.view_live hl
    have hlv := ht.tree.leaves curr hl
    rw [hvw] at hlv
    obtain ⟨h1, -⟩ := tower_level ht hm hl hr
    have hpl := tower_pleaf ht hm hl hx h1
    have h2 := hok.two hr
    rw [hpl] at h2
    obtain ⟨r, b, h3, h5⟩ := firstChild_spec hok.wf (by simp at h2; omega)
    have hin : i < n := by omega
    rw [show 4 * (n - i) + j = 4 * (n - i - 1) + j + 1 + 1 + 1 + 1 by omega]
    simp only [fullKey, Prog.bind]
    refine slow_read hx hv ?_
    rw [hpl]
    simp only [Prog.bind]
    refine slow_read hx hv ?_
    rw [h3]
    simp only [Prog.bind]
    refine slow_load hv ?_
    rw [if_neg (by simp)]
    cases r with
    | leaf l =>
      simp only [Prog.bind]
      refine slow_load hv ?_
      rw [if_pos rfl]
      have hlast : ¬ i + 1 < n := by
        intro hlt
        obtain ⟨c, e, -⟩ := tower_child ht hm hl hx hE hlt h5
        cases e
      rw [show n - i - 1 = 0 by omega, Nat.mul_zero, Nat.zero_add]
      exact hf _ (prefix_of_snoc (hlv.leaf b l h5))
    | node c =>
      obtain ⟨h10, hcr, h11, h12, nc, h13, h14⟩ := ht.child_node hl hx h5
      obtain ⟨cv, hcv, hc4⟩ := hc c (Or.inr h10)
      simp only [Prog.bind]
      refine slow_wait hcv ?_
      rw [if_neg (by simp [not_obsolete hc4])]
      obtain ⟨g1, g2⟩ := tower_level ht hm h10 hcr
      have h15 := h11.length_le
      simp at h15
      obtain ⟨c', e, h16⟩ := tower_child ht hm hl hx hE (by omega) h5
      cases e
      have := ih c cv (i + 1) h10 hcr hcv h16 (fun full hfull => hf full ((prefix_of_snoc h11).trans hfull))
      rw [show n - i - 1 = n - (i + 1) by omega]
      exact this

/-- `prefixMismatch` at a node of the tower that is on the path of the key. -/
theorem slow_mismatch {β : Type} (ht : HTr E live h root m) (hc : Calm live h) (hm : Tower n m) {f : Option (Nat × Bytes) → Prog β} {j : Nat} {fuel : Nat} {key : Bytes} {depth : Nat} {curr parent : Addr}
    {v pv i : Nat} {x : Node} (hl : live curr) (hr : curr ≠ root) (hx : h[curr]? = some x) (hd : depth + x.prefixLen = (E curr).length) (h8 : 8 < x.prefixLen) (hv : ver h curr = some v)
    (hpv : ver h parent = some pv) (hE : (E curr).length = 10 * i) (hp : E curr <+: key) (hf : ∀ full, Slow h j (f (some (x.prefixLen, full)))) :
    Slow h (4 * (n - i) + 6 + j) ((prefixMismatch fuel key depth curr v parent pv).bind f) := by
  rw [show 4 * (n - i) + 6 + j = 4 * (n - i) + (j + 1 + 1 + 1) + 1 + 1 + 1 by omega]
  simp only [prefixMismatch, Prog.bind]
  refine slow_read hx hv ?_
  rw [if_neg (show ¬ x.prefixLen ≤ maxPrefixLen from Nat.not_le.mpr h8)]
  cases fuel with
  | zero => exact slow_diverge
  | succ fuel =>
    simp only [mismatchLoop, Prog.bind]
    refine slow_load hv ?_
    rw [if_neg (by simp)]
    simp only [Prog.bind]
    refine slow_load hpv ?_
    rw [if_neg (by simp), Prog.bind_bind]
    refine slow_fullKey ht hc hm fuel curr v i hl hr hv hE fun full hfull => ?_
    cases fuel with
    | zero => exact slow_diverge
    | succ fuel =>
      simp only [mismatchLoop, Prog.bind]
      refine slow_load hv ?_
      rw [if_neg (by simp)]
      simp only [Prog.bind]
      refine slow_load hpv ?_
      rw [if_neg (by simp)]
      simp only [Prog.bind]
      refine slow_read hx hv ?_
      obtain ⟨p, g1, g2, g3, g4⟩ := mismatchLong_spec (full := full) hd hfull ((List.take_prefix _ _).trans hp)
      rw [g1]
      have e : p = x.prefixLen := by
        by_contra hne
        exact g4 (by omega) ((List.take_prefix _ _).trans hp)
      rw [e]
      exact hf full

/-- `insert` of a key of the tower, from a node below the root on. -/
theorem slow_insert (ht : HTr E live h root m) (hc : Calm live h) (hm : Tower n m) {key value : Bytes} (hk : key.length = 10 * n) (hkm : m key ≠ none) :
    ∀ (fuel depth : Nat) (parent : Addr) (pv : Nat) (curr : Addr) (loc : Loc) (x : Node) (i : Nat), live curr → curr ≠ root → h[curr]? = some x → depth + x.prefixLen = (E curr).length →
      x.prefixLen = 9 → ver h parent = some pv → (E curr).length = 10 * i → E curr <+: key →
      Slow h (2 * ((n - i) * (n - i)) + 14 * (n - i)) (insert key value fuel depth parent pv curr loc) := by
  intro fuel
  induction fuel with
  | zero => intro depth parent pv curr loc x i hl hr hx hd h9 hpv hE hp; exact slow_diverge
  | succ fuel ih =>
    intro depth parent pv curr loc x i hl hr hx hd h9 hpv hE hp
    obtain ⟨v, hv, h4⟩ := hc curr (Or.inr hl)
    obtain ⟨h1, -⟩ := tower_level ht hm hl hr
    obtain ⟨r, hrn⟩ : ∃ r, n - i = r + 1 := ⟨n - i - 1, by omega⟩
    have hadd : 2 * ((n - i) * (n - i)) + 14 * (n - i) = 4 * (n - i) + 6 + (2 * (r * r) + 14 * r + 1 + 1 + 1 + 1 + 1) + 1 := by
      have e : (r + 1) * (r + 1) = r * r + r + r + 1 := by
        rw [Nat.add_mul, Nat.mul_add]
        omega
      rw [hrn, e]
      omega
    rw [hadd]
    simp only [insert]
    refine slow_wait hv ?_
    rw [if_neg (by simp [not_obsolete h4])]
    refine slow_mismatch ht hc hm hl hr hx hd (by omega) hv hpv hE hp fun full => ?_
    simp only
    refine slow_read hx hv ?_
    rw [if_neg (by simp)]
    refine slow_read hx hv ?_
    rw [hd]
    have hlt : (E curr).length < key.length := by omega
    rw [if_neg (by omega)]
    have hkb := List.getElem?_eq_getElem hlt
    have hsn := snoc_get hp hkb
    rw [hkb]
    generalize key[(E curr).length] = b at hsn
    simp only
    refine slow_read hx hv (slow_load hv ?_)
    rw [if_neg (by simp)]
    cases hfc : x.findChild b with
    | none =>
      exfalso
      exact hkm (ht.tree.lookup_none hl hsn (by rw [view_eq hx]; show (x.findChild b).map _ = _; rw [hfc]; rfl))
    | some y =>
      obtain ⟨next, slot, pos⟩ := y
      simp only
      refine slow_load hpv ?_
      rw [if_neg (by simp)]
      have hcb := findChild_child hfc
      cases next with
      | leaf l =>
        have hlast : ¬ i + 1 < n := by
          intro hlt
          obtain ⟨c, e, -⟩ := tower_child ht hm hl hx hE hlt hcb
          cases e
        rw [show r = 0 by omega]
        simp [Slow]
      | node c =>
        simp only
        obtain ⟨h10, hcr, h11, h12, nc, h13, h14⟩ := ht.child_node hl hx hcb
        obtain ⟨g1, g2⟩ := tower_level ht hm h10 hcr
        have h15 := h11.length_le
        simp at h15
        obtain ⟨c', e, h16⟩ := tower_child ht hm hl hx hE (by omega) hcb
        cases e
        have hpc : E c <+: key := by
          by_contra hno
          exact hkm (ht.absent h10 h13 h14 (by rw [h12]; exact hsn) hno)
        have := ih ((E curr).length + 1) curr v c (curr, slot) nc (i + 1) h10 hcr h13 h14 (by omega) hv h16 hpc
        rw [show r = n - (i + 1) by omega]
        exact this

/-- `Put` of a key of the tower. -/
theorem slow_put (ht : HTr E live h root m) (hc : Calm live h) (hm : Tower n m) (hn : 1 ≤ n) {key value : Bytes} (hkm : m key ≠ none) (fuel : Nat) :
    Slow h (2 * (n * n) + 10 * n - 1) (put key value fuel) := by
  cases fuel with
  | zero => exact slow_diverge
  | succ fuel =>
    obtain ⟨x, hl, hx, hp, hE, -⟩ := ht.root_facts
    obtain ⟨v0, hv0, -⟩ := hc 0 (Or.inl rfl)
    obtain ⟨v, hv, h4⟩ := hc root (Or.inr hl)
    obtain ⟨bs, hbs, hkb⟩ := (hm key).mp hkm
    have hk : key.length = 10 * n := by rw [hkb, blocks_length, hbs]
    obtain ⟨r, hrn⟩ : ∃ r, n = r + 1 := ⟨n - 1, by omega⟩
    have hadd : 2 * (n * n) + 10 * n - 1 = 2 * (r * r) + 14 * r + 1 + 1 + 1 + 1 + 1 + 2 + 1 + 3 := by
      have e : (r + 1) * (r + 1) = r * r + r + r + 1 := by
        rw [Nat.add_mul, Nat.mul_add]
        omega
      rw [hrn, e]
      omega
    rw [hadd, put]
    refine Slow.bind (slow_start (k := fun r v => insert key value fuel 0 0 v r (0, 0)) ht hv0 ?_)
    cases fuel with
    | zero => exact slow_diverge
    | succ fuel =>
      simp only [insert, prefixMismatch, Prog.bind]
      refine slow_wait hv ?_
      rw [if_neg (by simp [not_obsolete h4])]
      refine slow_read hx hv ?_
      rw [if_pos (by rw [hp]; exact Nat.zero_le _)]
      simp only [Prog.bind]
      refine slow_read hx hv ?_
      have hmis : mismatchShort x key 0 = some 0 := by
        simp [mismatchShort, usub, hp, agree]
      rw [hmis]
      simp only [Prog.bind]
      refine slow_read hx hv ?_
      rw [if_neg (by simp [hp])]
      refine slow_read hx hv ?_
      have hd : 0 + x.prefixLen = (E root).length := by rw [hp, hE]; rfl
      rw [hd]
      have hlt : (E root).length < key.length := by rw [hE]; simp; omega
      rw [if_neg (by omega)]
      have hkb := List.getElem?_eq_getElem hlt
      have hsn := snoc_get (P := E root) (by rw [hE]; simp) hkb
      rw [hkb]
      generalize key[(E root).length] = b at hsn
      simp only
      refine slow_read hx hv (slow_load hv ?_)
      rw [if_neg (by simp)]
      cases hfc : x.findChild b with
      | none =>
        exfalso
        exact hkm (ht.tree.lookup_none hl hsn (by rw [view_eq hx]; show (x.findChild b).map _ = _; rw [hfc]; rfl))
      | some y =>
        obtain ⟨next, slot, pos⟩ := y
        simp only
        refine slow_load hv0 ?_
        rw [if_neg (by simp)]
        have hcb := findChild_child hfc
        have hE0 : (E root).length = 10 * 0 := by rw [hE]; rfl
        cases next with
        | leaf l =>
          have hlast : ¬ 0 + 1 < n := by
            intro hlt
            obtain ⟨c, e, -⟩ := tower_child ht hm hl hx hE0 hlt hcb
            cases e
          rw [show r = 0 by omega]
          simp [Slow]
        | node c =>
          simp only
          obtain ⟨h10, hcr, h11, h12, nc, h13, h14⟩ := ht.child_node hl hx hcb
          obtain ⟨g1, g2⟩ := tower_level ht hm h10 hcr
          have h15 := h11.length_le
          simp at h15
          obtain ⟨c', e, h16⟩ := tower_child ht hm hl hx hE0 (by omega) hcb
          cases e
          have hpc : E c <+: key := by
            by_contra hno
            exact hkm (ht.absent h10 h13 h14 (by rw [h12]; exact hsn) hno)
          have := slow_insert (value := value) ht hc hm hk hkm fuel ((E root).length + 1) root v c (root, slot) nc 1 h10 hcr h13 h14 (by omega) hv h16 hpc
          rw [show r = n - 1 by omega]
          exact this

end

end Art
