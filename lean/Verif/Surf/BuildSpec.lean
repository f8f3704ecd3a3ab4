import Verif.Surf.LevelRep

/-! `buildNodes` writes the trie of the keys, level by level. -/

set_option linter.unusedSimpArgs false

namespace Surf

/-- The items of a level: those of its nodes, then those of the node at hand. -/
def jOf (A : List Grp) (P : List JItem) : List JItem := A.flatMap Grp.jtems ++ P
/-- The LOUDS bits of a level; the node at hand is marked at its end only. -/
def loOf (A : List Grp) (P : List JItem) : List Bool := A.flatMap Grp.louds ++ List.replicate P.length false

/-- Level `i` holds the nodes `A i` and the items `P i` of a node at hand. -/
structure RepAll (cfg : Config) (fp : Bytes → Word) (ls : List Level) (A : Nat → List Grp) (P : Nat → List JItem) : Prop where
  rep : ∀ i l, ls[i]? = some l → LRep cfg fp l (jOf (A i) (P i)) (loOf (A i) (P i)) (A i)
  out : ∀ i, ls.length ≤ i → A i = [] ∧ P i = []

section
variable {cfg : Config} {fp : Bytes → Word}

theorem RepAll.congr {ls : List Level} {A A' : Nat → List Grp} {P P' : Nat → List JItem} (h : RepAll cfg fp ls A P) (hA : ∀ i, A' i = A i)
    (hP : ∀ i, P' i = P i) : RepAll cfg fp ls A' P' := by
  rw [funext hA, funext hP]; exact h

theorem modifyLevel_bind (ls : List Level) (i : Nat) (f g : Level → Option Level) :
    ((modifyLevel ls i f).bind fun ls' => modifyLevel ls' i g) = modifyLevel ls i (fun l => (f l).bind g) := by
  unfold modifyLevel
  cases h : ls[i]? with
  | none => rfl
  | some l =>
    have hi : i < ls.length := by
      rcases Nat.lt_or_ge i ls.length with h1 | h1
      · exact h1
      · rw [List.getElem?_eq_none h1] at h; simp at h
    simp only [Option.bind_eq_bind, Option.bind_some]
    cases h2 : f l with
    | none => rfl
    | some l' =>
      simp only [Option.bind_some, Option.pure_def]
      rw [List.getElem?_set_self hi]
      simp only [Option.bind_some]
      cases g l' with
      | none => rfl
      | some l'' => simp

theorem RepAll.modify {ls : List Level} {A : Nat → List Grp} {P : Nat → List JItem} (h : RepAll cfg fp ls A P) {level : Nat} (hl : level < ls.length)
    (f : Level → Option Level) (A' : List Grp) (P' : List JItem)
    (hf : ∀ l, ls[level]? = some l → LRep cfg fp l (jOf (A level) (P level)) (loOf (A level) (P level)) (A level) →
      ∃ l', f l = some l' ∧ LRep cfg fp l' (jOf A' P') (loOf A' P') A') :
    ∃ ls', modifyLevel ls level f = some ls' ∧ ls'.length = ls.length ∧
      RepAll cfg fp ls' (fun i => if i = level then A' else A i) (fun i => if i = level then P' else P i) := by
  have hg : ls[level]? = some ls[level] := List.getElem?_eq_getElem hl
  obtain ⟨l', h1, h2⟩ := hf _ hg (h.rep level _ hg)
  refine ⟨ls.set level l', ?_, by simp, ?_⟩
  · unfold modifyLevel
    rw [hg]
    simp only [Option.bind_eq_bind, Option.bind_some]
    rw [h1]
    rfl
  · constructor
    · intro i l e
      by_cases hi : i = level
      · subst hi
        rw [List.getElem?_set_self hl] at e
        simp only [Option.some.injEq] at e
        subst e
        simpa using h2
      · rw [List.getElem?_set_ne (fun h => hi h.symm)] at e
        simp only [if_neg hi]
        exact h.rep i l e
    · intro i hi
      rw [List.length_set] at hi
      simp only [if_neg (show i ≠ level by omega)]
      exact h.out i hi

/-- The children among some items. -/
def below (D : Nat) (E : List Item) : List Grp := (E.filter Item.child).map fun i => ⟨i.kvs, D + 1⟩

theorem below_append (D : Nat) (E : List Item) (i : Item) : below D (E ++ [i]) = below D E ++ (if i.child then [⟨i.kvs, D + 1⟩] else []) := by
  unfold below
  rw [List.filter_append, List.map_append]
  cases h : i.child <;> simp [h]

/-- The nodes after the items `E` of a node have been treated. -/
def midA (A : Nat → List Grp) (level D : Nat) (E : List Item) : Nat → List Grp :=
  fun i => if level < i then A i ++ (below D E).flatMap (Grp.desc (i - level - 1)) else A i
/-- The items of the node at hand after `E` have been treated. -/
def midP (P : Nat → List JItem) (level D : Nat) (E : List Item) : Nat → List JItem :=
  fun i => if i = level then E.map (fun e => (D, e)) else P i

/-- What `buildNodes` with some fuel does. -/
def BuildOK (cfg : Config) (fp : Bytes → Word) (recur : BuildFn) (n : Nat) : Prop :=
  ∀ (ls : List Level) (A : Nat → List Grp) (P : Nat → List JItem) (t : Grp) (dep level : Nat), RepAll cfg fp ls A P → t.Good → t.d ≤ dep → dep ≤ t.bd →
    level ≤ ls.length → (∀ i, level ≤ i → P i = []) → (∀ x ∈ t.kvs, cfg.valueSize ≤ x.2.length) → (∀ x ∈ t.kvs, x.1.length + 1 ≤ dep + n) →
    ∃ ls', recur ls (t.kvs.map (·.1)) (t.kvs.map (·.2)) t.d dep level = some ls' ∧
      RepAll cfg fp ls' (fun i => if level ≤ i then A i ++ t.desc (i - level) else A i) P ∧ ls.length ≤ ls'.length ∧ level < ls'.length ∧
      (∀ i, ls.length ≤ i → i < ls'.length → t.desc (i - level) ≠ [])

theorem slice_mid {α : Type} (a b c : List α) (f : α → γ) (n : Nat) (hn : n = a.length) (m : Nat) (hm : m = a.length + b.length) :
    slice ((a ++ b ++ c).map f) n m = some (b.map f) := by
  subst hn hm
  rw [slice, if_pos ⟨by omega, by simp⟩, ← List.map_take, ← List.map_drop]
  rw [show a.length + b.length = (a ++ b).length by simp, List.take_left' rfl, List.drop_left' rfl]

/-- Treating one group. -/
theorem emit_spec (hcfg : cfg.Fine) {recur : BuildFn} {n : Nat} (hr : BuildOK cfg fp recur n) {ls : List Level} {A : Nat → List Grp} {P : Nat → List JItem}
    {level D : Nat} {E : List Item} (h : RepAll cfg fp ls (midA A level D E) (midP P level D E)) (hl : level < ls.length) (hP : ∀ i, level < i → P i = [])
    (done cur rest : List KV) (hne : cur ≠ []) (hs : ∀ x ∈ cur, ∀ y ∈ cur, x.1[D]? = y.1[D]?) (hlong : ∀ x ∈ cur, D < x.1.length)
    (hgood : 2 ≤ cur.length → (⟨cur, D + 1⟩ : Grp).Good) (hv : ∀ x ∈ cur, cfg.valueSize ≤ x.2.length) (hfuel : ∀ x ∈ cur, x.1.length + 1 ≤ D + 1 + n) :
    ∃ ls', emitGroup cfg fp recur ((done ++ cur ++ rest).map (·.1)) ((done ++ cur ++ rest).map (·.2)) D level done.length (done.length + cur.length) ls = some ls' ∧
      RepAll cfg fp ls' (midA A level D (E ++ [groupItem D cur])) (midP P level D (E ++ [groupItem D cur])) ∧ ls.length ≤ ls'.length ∧
      (∀ i, ls.length ≤ i → i < ls'.length → (below D (E ++ [groupItem D cur])).flatMap (Grp.desc (i - level - 1)) ≠ []) := by
  obtain ⟨x, xs, rfl⟩ : ∃ x xs, cur = x :: xs := by cases cur with | nil => exact absurd rfl hne | cons x xs => exact ⟨x, xs, rfl⟩
  have hx : D < x.1.length := hlong x (by simp)
  have k1 : ((done ++ (x :: xs) ++ rest).map (·.1))[done.length]? = some x.1 := by
    rw [List.getElem?_map, List.append_assoc, List.getElem?_append_right (Nat.le_refl _)]; simp
  have k2 : ((done ++ (x :: xs) ++ rest).map (·.2))[done.length]? = some x.2 := by
    rw [List.getElem?_map, List.append_assoc, List.getElem?_append_right (Nat.le_refl _)]; simp
  have hA : midA A level D E level = A level := by simp [midA]
  have hPl : midP P level D E level = E.map (fun e => (D, e)) := by simp [midP]
  have hlab : (groupItem D (x :: xs)).label = x.1[D] := by simp [groupItem, List.getElem?_eq_getElem hx]
  unfold emitGroup
  rw [k1]
  simp only [Option.bind_eq_bind, Option.bind_some]
  rw [List.getElem?_eq_getElem hx]
  simp only [Option.bind_some]
  have hjo : ∀ (i : Item), jOf (A level) (E.map (fun e => (D, e))) ++ [(D, i)] = jOf (A level) ((E ++ [i]).map (fun e => (D, e))) := by
    intro i; unfold jOf; simp
  have hlo : ∀ (i : Item), loOf (A level) (E.map (fun e => (D, e))) ++ [false] = loOf (A level) ((E ++ [i]).map (fun e => (D, e))) := by
    intro i; unfold loOf; simp [List.replicate_succ']
  by_cases e : xs = []
  · subst e
    simp only [List.length_singleton, Nat.add_sub_cancel_left, if_true]
    rw [k2]
    simp only [Option.bind_some]
    rw [modifyLevel_bind]
    obtain ⟨ls', e1, e2, e3⟩ := h.modify hl
      (fun l => (some (l.appendLabel x.1[D]).moveToNextItemSlot).bind (Level.insertLeaf cfg fp x.1 D x.2)) (A level) ((E ++ [groupItem D [x]]).map (fun e => (D, e)))
      (by
        intro l _ hL
        rw [hA, hPl] at hL
        simp only [Option.bind_some]
        obtain ⟨l', f1, f2⟩ := hL.leaf hcfg x D x.1[D] (hv x (by simp))
        refine ⟨l', f1, ?_⟩
        have : (⟨x.1[D], false, [x]⟩ : Item) = groupItem D [x] := by
          rw [← hlab]; rfl
        rw [this, hjo, hlo (groupItem D [x])] at f2
        exact f2)
    refine ⟨ls', e1, e3.congr ?_ ?_, by omega, by intro i; omega⟩
    · intro i
      unfold midA
      rw [below_append, show (groupItem D [x]).child = false from rfl]
      simp only [Bool.false_eq_true, if_false, List.append_nil]
      by_cases hi : i = level
      · subst hi; simp
      · rw [if_neg hi]
    · intro i
      unfold midP
      by_cases hi : i = level
      · subst hi; simp
      · simp [hi]
  · have hcl : (x :: xs).length ≥ 2 := by
      cases xs with
      | nil => exact absurd rfl e
      | cons y ys => simp
    simp only [if_neg (show ¬ done.length + (x :: xs).length - done.length = 1 by omega)]
    have hch : (groupItem D (x :: xs)).child = true := by
      exact decide_eq_true hcl
    have hpush : ∀ (f : List Level → Option (List Level)), ((modifyLevel ls level fun l => some (l.appendLabel x.1[D]).moveToNextItemSlot).bind fun ls =>
        (modifyLevel ls level Level.setHasChild).bind f) = (modifyLevel ls level (fun l => (some (l.appendLabel x.1[D]).moveToNextItemSlot).bind Level.setHasChild)).bind f := by
      intro f
      rw [← modifyLevel_bind, Option.bind_assoc]
    rw [hpush]
    obtain ⟨ls1, e1, e2, e3⟩ := h.modify hl
      (fun l => (some (l.appendLabel x.1[D]).moveToNextItemSlot).bind Level.setHasChild) (A level) ((E ++ [groupItem D (x :: xs)]).map (fun e => (D, e)))
      (by
        intro l _ hL
        rw [hA, hPl] at hL
        simp only [Option.bind_some]
        obtain ⟨l', f1, f2⟩ := hL.child D (groupItem D (x :: xs)) hch
        rw [hlab] at f1
        refine ⟨l', f1, ?_⟩
        rw [hjo, hlo (groupItem D (x :: xs))] at f2
        exact f2)
    rw [e1]
    simp only [Option.bind_some]
    rw [slice_mid done (x :: xs) rest _ _ rfl _ rfl, slice_mid done (x :: xs) rest _ _ rfl _ rfl]
    simp only [Option.bind_some]
    obtain ⟨ls', f1, f2, f3, f4, f5⟩ := hr ls1 _ _ (⟨x :: xs, D + 1⟩ : Grp) (D + 1) (level + 1) e3 (hgood hcl) (Nat.le_refl _) (Grp.bd_ge (⟨x :: xs, D + 1⟩ : Grp)) (by omega)
      (by
        intro i hi
        simp only [if_neg (show i ≠ level by omega), midP]
        exact hP i (by omega))
      hv hfuel
    refine ⟨ls', f1, f2.congr ?_ ?_, by omega, ?_⟩
    · intro i
      unfold midA
      rw [below_append, if_pos hch]
      by_cases h1 : level < i
      · rw [if_pos h1, if_pos (by omega), if_neg (by omega), if_pos h1, List.flatMap_append, ← List.append_assoc]
        congr 1
        simp only [List.flatMap_cons, List.flatMap_nil, List.append_nil]
        rw [show i - level - 1 = i - (level + 1) by omega]
        rfl
      · rw [if_neg h1, if_neg (by omega)]
        by_cases h2 : i = level
        · rw [if_pos h2, h2]
        · rw [if_neg h2, if_neg h1]
    · intro i
      unfold midP
      by_cases hi : i = level
      · subst hi; simp
      · simp [hi]
    · intro i h1 h2
      have := f5 i (by omega) h2
      rw [below_append, if_pos hch, List.flatMap_append]
      simp only [List.flatMap_cons, List.flatMap_nil, List.append_nil, ne_eq, List.append_eq_nil_iff, not_and]
      intro _
      rw [show i - level - 1 = i - (level + 1) by omega]
      exact this

theorem sameByte_spec (x y : KV) (D : Nat) (hx : D < x.1.length) (hy : D < y.1.length) (gs ge : Nat)
    (kvs : List KV) (h3 : kvs[gs]? = some x) (h4 : kvs[ge]? = some y) :
    sameByte (kvs.map (·.1)) D gs ge = some (decide (x.1[D]? = y.1[D]?)) := by
  unfold sameByte
  simp only [List.getElem?_map, h3, h4, Option.map_some, Option.bind_eq_bind, Option.bind_some]
  rw [List.getElem?_eq_getElem hx, List.getElem?_eq_getElem hy]
  simp only [Option.bind_some, Option.pure_def, Option.some.injEq]
  by_cases e : x.1[D] = y.1[D]
  · simp [e]
  · simp [e]

/-- The loop of a node that branches. -/
theorem loop_spec (hcfg : cfg.Fine) {recur : BuildFn} {n : Nat} (hr : BuildOK cfg fp recur n) {A : Nat → List Grp} {P : Nat → List JItem}
    {level : Nat} {t : Grp} (ht : t.OK) (pd : Nat) (hP : ∀ i, level < i → P i = []) (hv : ∀ x ∈ t.kvs, cfg.valueSize ≤ x.2.length)
    (hfuel : ∀ x ∈ t.kvs, x.1.length + 1 ≤ t.bd + 1 + n) :
    ∀ (rest : List KV) (ls0 ls : List Level) (E : List Item) (done cur : List KV), RepAll cfg fp ls (midA A level t.bd E) (midP P level t.bd E) → level < ls.length →
      cur ≠ [] → (∀ x ∈ cur, ∀ y ∈ cur, x.1[t.bd]? = y.1[t.bd]?) → t.kvs = done ++ cur ++ rest → (∀ x ∈ cur ++ rest, t.bd < x.1.length) →
      E ++ (runs t.bd (cur ++ rest)).map (groupItem t.bd) = t.items →
      ls0.length ≤ ls.length → (∀ i, ls0.length ≤ i → i < ls.length → (below t.bd E).flatMap (Grp.desc (i - level - 1)) ≠ []) →
      ∃ ls', groupLoop cfg fp recur (t.kvs.map (·.1)) (t.kvs.map (·.2)) pd t.bd level (t.kvs.length + 1 - (done.length + cur.length)) done.length (done.length + cur.length) ls = some (ls', false) ∧
        RepAll cfg fp ls' (midA A level t.bd t.items) (midP P level t.bd t.items) ∧ level < ls'.length ∧ ls0.length ≤ ls'.length ∧
        (∀ i, ls0.length ≤ i → i < ls'.length → (below t.bd t.items).flatMap (Grp.desc (i - level - 1)) ≠ []) := by
  have hmono : ∀ (E : List Item) (i : Item) (k : Nat), (below t.bd E).flatMap (Grp.desc k) ≠ [] → (below t.bd (E ++ [i])).flatMap (Grp.desc k) ≠ [] := by
    intro E i k h1 h2
    rw [below_append, List.flatMap_append, List.append_eq_nil_iff] at h2
    exact h1 h2.1
  intro rest
  induction rest with
  | nil =>
    intro ls0 ls E done cur h hl hne hs hk hlong hE hlen hnew
    rw [List.append_nil] at hE hk hlong
    have hlk : t.kvs.length = done.length + cur.length := by rw [hk]; simp
    rw [hlk, Nat.add_sub_cancel_left]
    rw [groupLoop, if_neg (by rw [List.length_map]; omega)]
    simp only [Option.bind_eq_bind, Option.bind_some, Bool.false_eq_true, if_false]
    have hcond : ¬ (done.length + cur.length = (t.kvs.map (·.1)).length ∧ done.length = 0 ∧ done.length + cur.length - done.length ≠ 1) := by
      rintro ⟨-, h0, h1⟩
      have hd : done = [] := List.eq_nil_of_length_eq_zero h0
      subst hd
      rw [List.nil_append] at hk
      have := ht.at_bd.2
      rw [sameAt_of (by
        rw [hk]
        have : cur.length ≠ 0 := fun h => hne (List.eq_nil_of_length_eq_zero h)
        simp at h1
        omega) (by rw [hk]; exact hs) (by rw [hk]; exact hlong)] at this
      simp at this
    rw [if_neg hcond]
    have hruns : runs t.bd cur = [cur] := by
      have := runs_append t.bd cur [] hne hs (by simp)
      simpa [runs] using this
    rw [hruns] at hE
    simp only [List.map_cons, List.map_nil] at hE
    obtain ⟨ls', f1, f2, f3, f4⟩ := emit_spec hcfg hr h hl hP done cur [] hne hs hlong
      (by
        intro h2
        refine (ht.child_good (c := ⟨cur, t.bd + 1⟩) ?_).1
        unfold Grp.children
        rw [List.mem_map]
        refine ⟨groupItem t.bd cur, ?_, rfl⟩
        rw [List.mem_filter, ← hE]
        exact ⟨by simp, decide_eq_true h2⟩)
      (fun x hx => hv x (by rw [hk]; exact List.mem_append_right _ hx)) (fun x hx => hfuel x (by rw [hk]; exact List.mem_append_right _ hx))
    rw [List.append_nil, ← hk] at f1
    rw [f1]
    simp only [Option.bind_some]
    rw [hE] at f2 f4
    refine ⟨ls', by rw [groupLoop], f2, by omega, by omega, ?_⟩
    intro i h1 h2
    rcases Nat.lt_or_ge i ls.length with h3 | h3
    · rw [← hE]; exact hmono _ _ _ (hnew i h1 h3)
    · exact f4 i h3 h2
  | cons y rest ih =>
    intro ls0 ls E done cur h hl hne hs hk hlong hE hlen hnew
    obtain ⟨x, xs, rfl⟩ : ∃ x xs, cur = x :: xs := by cases cur with | nil => exact absurd rfl hne | cons x xs => exact ⟨x, xs, rfl⟩
    have hlk : t.kvs.length = done.length + (x :: xs).length + rest.length + 1 := by rw [hk]; simp; omega
    have hx : t.bd < x.1.length := hlong x (by simp)
    have hy : t.bd < y.1.length := hlong y (by simp)
    rw [show t.kvs.length + 1 - (done.length + (x :: xs).length) = rest.length + 1 + 1 by omega]
    rw [groupLoop, if_pos (by rw [List.length_map]; omega)]
    have k1 : t.kvs[done.length]? = some x := by
      rw [hk, List.append_assoc, List.getElem?_append_right (Nat.le_refl _)]; simp
    have k2 : t.kvs[done.length + (x :: xs).length]? = some y := by
      rw [hk, List.getElem?_append_right (by simp)]; simp
    rw [sameByte_spec x y t.bd hx hy done.length (done.length + (x :: xs).length) t.kvs k1 k2]
    simp only [Option.bind_eq_bind, Option.bind_some]
    by_cases e : x.1[t.bd]? = y.1[t.bd]?
    · rw [if_pos (by simpa using e)]
      have := ih ls0 ls E done (x :: xs ++ [y]) h hl (by simp)
        (by
          intro a ha b hb
          have ha' : a.1[t.bd]? = x.1[t.bd]? := by
            rw [List.mem_append] at ha
            rcases ha with ha | ha
            · exact hs a ha x (by simp)
            · simp at ha; rw [ha, e]
          have hb' : b.1[t.bd]? = x.1[t.bd]? := by
            rw [List.mem_append] at hb
            rcases hb with hb | hb
            · exact hs b hb x (by simp)
            · simp at hb; rw [hb, e]
          rw [ha', hb'])
        (by rw [hk]; simp) (by intro a ha; exact hlong a (by simpa using ha)) (by rw [← hE]; simp) hlen hnew
      have e2 : (x :: xs ++ [y]).length = (x :: xs).length + 1 := by simp
      rw [e2, show t.kvs.length + 1 - (done.length + ((x :: xs).length + 1)) = rest.length + 1 by omega] at this
      exact this
    · rw [if_neg (by simpa using e), if_neg (by rw [List.length_map]; rintro ⟨h1, -⟩; omega)]
      have hruns : runs t.bd ((x :: xs) ++ y :: rest) = (x :: xs) :: runs t.bd (y :: rest) := by
        refine runs_append t.bd (x :: xs) (y :: rest) hne hs ?_
        intro a ha b hb
        simp only [List.head?_cons, Option.some.injEq] at hb
        subst hb
        rw [hs a ha x (by simp)]
        exact e
      rw [hruns, List.map_cons] at hE
      obtain ⟨ls', f1, f2, f3, f4⟩ := emit_spec hcfg hr h hl hP done (x :: xs) (y :: rest) hne hs (fun a ha => hlong a (List.mem_append_left _ ha))
        (by
          intro h2
          refine (ht.child_good (c := ⟨x :: xs, t.bd + 1⟩) ?_).1
          unfold Grp.children
          rw [List.mem_map]
          refine ⟨groupItem t.bd (x :: xs), ?_, rfl⟩
          rw [List.mem_filter, ← hE]
          exact ⟨by simp, decide_eq_true h2⟩)
        (fun a ha => hv a (by rw [hk]; exact List.mem_append_left _ (List.mem_append_right _ ha)))
        (fun a ha => hfuel a (by rw [hk]; exact List.mem_append_left _ (List.mem_append_right _ ha)))
      rw [← hk] at f1
      rw [f1]
      simp only [Option.bind_some]
      have := ih ls0 ls' (E ++ [groupItem t.bd (x :: xs)]) (done ++ (x :: xs)) [y] f2 (by omega) (by simp)
        (by intro a ha b hb; simp at ha hb; rw [ha, hb]) (by rw [hk]; simp) (by intro a ha; exact hlong a (List.mem_append_right _ ha)) (by rw [← hE]; simp)
        (by omega)
        (by
          intro i h1 h2
          rcases Nat.lt_or_ge i ls.length with h3 | h3
          · exact hmono _ _ _ (hnew i h1 h3)
          · exact f4 i h3 h2)
      have e2 : (done ++ x :: xs).length = done.length + (x :: xs).length := by simp
      rw [e2, List.length_singleton, show t.kvs.length + 1 - (done.length + (x :: xs).length + 1) = rest.length + 1 by omega] at this
      exact this

/-- A node whose keys have the same byte at `dep` branches further below. -/
theorem Grp.branch_of {t : Grp} {dep : Nat} (h1 : t.d ≤ dep) (h2 : dep < t.bd) : sameAt dep t.kvs = true := by
  have key : ∀ n d, d ≤ dep → dep < branchAt t.kvs n d → sameAt dep t.kvs = true := by
    intro n
    induction n with
    | zero => intro d h1 h2; simp [branchAt] at h2; omega
    | succ n ih =>
      intro d h1 h2
      rw [branchAt] at h2
      by_cases e : sameAt d t.kvs = true
      · rw [if_pos e] at h2
        by_cases hd : d = dep
        · rw [← hd]; exact e
        · exact ih (d + 1) (by omega) h2
      · rw [if_neg e] at h2; omega
  exact key _ _ h1 h2

/-- The loop of a node that does not branch at `dep`. -/
theorem loop_same (recur : BuildFn) (kvs : List KV) (h2 : 2 ≤ kvs.length) (dep : Nat) (hs : ∀ x ∈ kvs, ∀ y ∈ kvs, x.1[dep]? = y.1[dep]? ∧ dep < x.1.length) (pd level : Nat)
    (ls : List Level) : ∀ n ge, ge + n = kvs.length → groupLoop cfg fp recur (kvs.map (·.1)) (kvs.map (·.2)) pd dep level (n + 1) 0 ge ls =
      (recur ls (kvs.map (·.1)) (kvs.map (·.2)) pd (dep + 1) level).map (fun ls => (ls, true)) := by
  intro n
  induction n with
  | zero =>
    intro ge hge
    rw [groupLoop, if_neg (by rw [List.length_map]; omega)]
    simp only [Option.bind_eq_bind, Option.bind_some, Bool.false_eq_true, if_false]
    rw [if_pos (by rw [List.length_map]; refine ⟨by omega, by simp, by omega⟩)]
    cases recur ls (kvs.map (·.1)) (kvs.map (·.2)) pd (dep + 1) level <;> rfl
  | succ n ih =>
    intro ge hge
    rw [groupLoop, if_pos (by rw [List.length_map]; omega)]
    have k1 : kvs[0]? = some kvs[0] := List.getElem?_eq_getElem (by omega)
    have k2 : kvs[ge]? = some kvs[ge] := List.getElem?_eq_getElem (by omega)
    have h3 := hs kvs[0] (List.getElem_mem _) kvs[ge] (List.getElem_mem _)
    rw [sameByte_spec _ _ dep h3.2 (hs kvs[ge] (List.getElem_mem _) kvs[0] (List.getElem_mem _)).2 0 ge kvs k1 k2]
    simp only [Option.bind_eq_bind, Option.bind_some]
    rw [if_pos (by simpa using h3.1)]
    exact ih (ge + 1) (by omega)

/-- `buildNodes` writes the nodes of the trie. -/
theorem buildNodes_spec (hcfg : cfg.Fine) : ∀ n, BuildOK cfg fp (buildNodes cfg fp n) n := by
  intro n
  induction n with
  | zero =>
    intro ls A P t dep level h ht hd hb hl hP hv hfuel
    exfalso
    obtain ⟨x, hx⟩ := List.exists_mem_of_ne_nil _ ht.ne
    have h1 := hfuel x hx
    have h2 := ht.bd_le hx
    omega
  | succ n ih =>
    intro ls A P t dep level h ht hd hb hl hP hv hfuel
    -- the level is there
    have hen : RepAll cfg fp (ensureLevel ls level) A P ∧ level < (ensureLevel ls level).length ∧ ls.length ≤ (ensureLevel ls level).length ∧
        (ensureLevel ls level).length ≤ max ls.length (level + 1) := by
      unfold ensureLevel
      by_cases e : level ≥ ls.length
      · rw [if_pos e]
        have hle : level = ls.length := by omega
        refine ⟨⟨?_, ?_⟩, by simp; omega, by simp, by simp; omega⟩
        · intro i l e1
          rw [List.getElem?_append] at e1
          by_cases hi : i < ls.length
          · rw [if_pos hi] at e1; exact h.rep i l e1
          · rw [if_neg hi] at e1
            have hi0 : i - ls.length = 0 := by
              by_contra hc
              rw [List.getElem?_eq_none (by simp; omega)] at e1
              simp at e1
            rw [hi0] at e1
            simp only [List.getElem?_cons_zero, Option.some.injEq] at e1
            subst e1
            obtain ⟨o1, o2⟩ := h.out i (by omega)
            rw [o1, o2]
            exact lrep_fresh
        · intro i hi
          simp only [List.length_append, List.length_singleton] at hi
          exact h.out i (by omega)
      · rw [if_neg e]
        exact ⟨h, by omega, Nat.le_refl _, by omega⟩
    obtain ⟨h0, hl0, hle0, hle1⟩ := hen
    generalize hE : ensureLevel ls level = ls0 at *
    have hlv : ls0[level]? = some ls0[level] := List.getElem?_eq_getElem hl0
    have hL := h0.rep level _ hlv
    rw [hP level (Nat.le_refl _)] at hL
    have hstart : ls0[level].numItems = ((A level).flatMap Grp.louds).length := by
      rw [Level.numItems, hL.b.labels, ← hL.b.lol]
      simp [loOf]
    obtain ⟨x, xs, hk⟩ : ∃ x xs, t.kvs = x :: xs := by
      cases hk : t.kvs with
      | nil => exact absurd hk ht.ne
      | cons x xs => exact ⟨x, xs, rfl⟩
    have hxm : x ∈ t.kvs := by rw [hk]; simp
    have hk0 : (t.kvs.map (·.1))[0]? = some x.1 := by rw [hk]; rfl
    have hv0 : (t.kvs.map (·.2))[0]? = some x.2 := by rw [hk]; rfl
    rw [buildNodes, hE, hlv]
    simp only [Option.bind_eq_bind, Option.bind_some]
    rcases Nat.lt_or_ge dep t.bd with hlt | hge
    · -- the keys agree at this depth
      have hsame := Grp.branch_of hd hlt
      obtain ⟨g1, g2⟩ := sameAt_iff hsame
      have hterm : terminatorItem cfg fp (t.kvs.map (·.1)) (t.kvs.map (·.2)) dep level ls0 = some (ls0, 0) := by
        unfold terminatorItem
        rw [hk0]
        simp only [Option.bind_eq_bind, Option.bind_some]
        rw [if_neg (by have := (g2 x hxm x hxm).2; omega)]
        rfl
      rw [hterm]
      simp only [Option.bind_some, List.length_map, Nat.sub_zero]
      rw [loop_same _ t.kvs g1 dep g2 t.d level ls0 t.kvs.length 0 (by omega)]
      obtain ⟨ls', f1, f2, f3, f4, f5⟩ := ih ls0 A P t (dep + 1) level h0 ht (by omega) hlt (by omega) hP hv
        (fun y hy => by have := hfuel y hy; omega)
      rw [f1]
      refine ⟨ls', rfl, f2, by omega, f4, ?_⟩
      intro i h1 h2
      rcases Nat.lt_or_ge i ls0.length with h3 | h3
      · have : i - level = 0 := by omega
        rw [this]
        simp [Grp.desc]
      · exact f5 i h3 h2
    · -- the node branches here
      have hdb : dep = t.bd := by omega
      subst hdb
      have hrest : t.rest ≠ [] := by
        intro e
        have h1 := t.ends_rest
        rw [e, List.append_nil] at h1
        rcases t.ends_cases with h2 | ⟨z, h2⟩
        · rw [h2] at h1; exact ht.ne h1.symm
        · have hz := ht.ends_len (x := z) (by rw [h2]; simp)
          rcases ht.big with h3 | h3
          · rw [← h1, h2] at h3; simp at h3
          · have h4 := h3 z hz.1
            have h5 : t.bd = t.d := by
              refine Grp.bd_stop ?_
              rw [← h1, h2]
              rfl
            omega
      -- the terminator
      have hterm : ∃ ls1, terminatorItem cfg fp (t.kvs.map (·.1)) (t.kvs.map (·.2)) t.bd level ls0 = some (ls1, t.ends.length) ∧ ls1.length = ls0.length ∧
          RepAll cfg fp ls1 (midA A level t.bd (t.ends.map (fun x => ⟨0xff, true, [x]⟩))) (midP P level t.bd (t.ends.map (fun x => ⟨0xff, true, [x]⟩))) := by
        unfold terminatorItem
        rw [hk0]
        simp only [Option.bind_eq_bind, Option.bind_some]
        by_cases e : x.1.length ≤ t.bd
        · have he : t.ends = [x] := by unfold Grp.ends; rw [hk]; simp [e]
          rw [if_pos (by omega), hv0]
          simp only [Option.bind_some]
          obtain ⟨ls1, e1, e2, e3⟩ := h0.modify hl0 (Level.insertTerminator cfg fp x.1 t.bd x.2) (A level) [(t.bd, (⟨0xff, true, [x]⟩ : Item))]
            (by
              intro l _ hl'
              rw [hP level (Nat.le_refl _)] at hl'
              obtain ⟨l', f1, f2⟩ := hl'.term hcfg x t.bd (hv x hxm)
              refine ⟨l', f1, ?_⟩
              unfold jOf loOf at f2 ⊢
              simpa using f2)
          rw [e1, he]
          refine ⟨ls1, rfl, e2, e3.congr ?_ ?_⟩
          · intro i
            unfold midA below
            by_cases hi : i = level
            · subst hi; simp
            · simp [hi, Item.child]
          · intro i
            unfold midP
            by_cases hi : i = level
            · subst hi; simp
            · simp [hi]
        · have he : t.ends = [] := by unfold Grp.ends; rw [hk]; simp [e]
          rw [if_neg (by omega), he]
          refine ⟨ls0, rfl, rfl, h0.congr ?_ ?_⟩
          · intro i
            simp [midA, below]
          · intro i
            unfold midP
            by_cases hi : i = level
            · subst hi; simp [hP]
            · simp [hi]
      obtain ⟨ls1, e1, e2, e3⟩ := hterm
      rw [e1]
      simp only [Option.bind_some]
      obtain ⟨y, ys, hr⟩ : ∃ y ys, t.rest = y :: ys := by
        cases hr : t.rest with
        | nil => exact absurd hr hrest
        | cons y ys => exact ⟨y, ys, rfl⟩
      have hkv : t.kvs = t.ends ++ [y] ++ ys := by rw [← t.ends_rest, hr]; simp
      have hlk : t.kvs.length = t.ends.length + ys.length + 1 := by rw [hkv]; simp; omega
      have hylen : t.bd < y.1.length := (ht.rest_len (by rw [hr]; simp)).2
      obtain ⟨ls2, f1, f2, f3, f4, f5⟩ := loop_spec (A := A) (P := P) hcfg ih ht.toOK t.d (fun i hi => hP i (by omega)) hv
        (fun z hz => by have := hfuel z hz; omega) ys ls1 ls1 _ t.ends [y] e3 (by omega) (by simp) (by intro a ha b hb; simp at ha hb; rw [ha, hb]) hkv
        (by intro a ha; exact (ht.rest_len (by rw [hr]; simpa using ha)).2) (by rw [t.items_eq, hr]; simp) (Nat.le_refl _) (by intro i; omega)
      -- the first step of the loop
      have hfirst : groupLoop cfg fp (buildNodes cfg fp n) (t.kvs.map (·.1)) (t.kvs.map (·.2)) t.d t.bd level ((t.kvs.map (·.1)).length + 1 - t.ends.length)
          t.ends.length t.ends.length ls1 = some (ls2, false) := by
        rw [List.length_map, show t.kvs.length + 1 - t.ends.length = ys.length + 1 + 1 by omega]
        rw [groupLoop, if_pos (by rw [List.length_map]; omega)]
        have k1 : t.kvs[t.ends.length]? = some y := by
          rw [hkv, List.append_assoc, List.getElem?_append_right (Nat.le_refl _)]; simp
        rw [sameByte_spec y y t.bd hylen hylen t.ends.length t.ends.length t.kvs k1 k1]
        simp only [Option.bind_eq_bind, Option.bind_some]
        rw [if_pos (by simp)]
        rw [List.length_singleton, show t.kvs.length + 1 - (t.ends.length + 1) = ys.length + 1 by omega] at f1
        exact f1
      rw [hfirst]
      simp only [Option.bind_some, Bool.false_eq_true, if_false]
      rw [hk0]
      simp only [Option.bind_some]
      rw [hstart]
      obtain ⟨m, hm⟩ : ∃ m, t.items.length = m + 1 := by
        cases hi : t.items with
        | nil => exact absurd hi ht.items_ne
        | cons a b => exact ⟨b.length, by simp⟩
      obtain ⟨ls3, g1, g2, g3⟩ := f2.modify f3 (Level.finishNode t.d t.bd ((A level).flatMap Grp.louds).length x.1) (A level ++ [t]) []
        (by
          intro l _ hl'
          have a1 : midA A level t.bd t.items level = A level := by simp [midA]
          have a2 : midP P level t.bd t.items level = t.jtems := by simp [midP, Grp.jtems]
          rw [a1, a2] at hl'
          have a3 : loOf (A level) t.jtems = (A level).flatMap Grp.louds ++ List.replicate (m + 1) false := by
            unfold loOf Grp.jtems
            rw [List.length_map, hm]
          rw [a3] at hl'
          obtain ⟨l', b1, b2⟩ := hl'.finish t t.bd_ge (ht.bd_le hxm) (by unfold Grp.pre; rw [hk])
          refine ⟨l', b1, ?_⟩
          have a4 : jOf (A level ++ [t]) [] = jOf (A level) t.jtems := by unfold jOf; simp
          have a5 : loOf (A level ++ [t]) [] = (A level).flatMap Grp.louds ++ true :: List.replicate m false := by
            unfold loOf; simp [Grp.louds, hm]
          rw [a4, a5]
          exact b2)
      refine ⟨ls3, g1, g3.congr ?_ ?_, by omega, by omega, ?_⟩
      · intro i
        by_cases hi : i = level
        · subst hi; simp [Grp.desc]
        · rw [if_neg hi]
          unfold midA
          by_cases h1 : level < i
          · rw [if_pos h1, if_pos (by omega)]
            congr 1
            obtain ⟨k, hk⟩ : ∃ k, i - level = k + 1 := ⟨i - level - 1, by omega⟩
            rw [hk]
            rfl
          · rw [if_neg h1, if_neg (by omega)]
      · intro i
        unfold midP
        by_cases hi : i = level
        · subst hi; simp [hP]
        · simp [hi]
      · intro i h1 h2
        rcases Nat.lt_or_ge i ls1.length with h3 | h3
        · have : i - level = 0 := by omega
          rw [this]
          simp [Grp.desc]
        · have := f5 i h3 (by omega)
          obtain ⟨k, hk⟩ : ∃ k, i - level = k + 1 := ⟨i - level - 1, by omega⟩
          rw [hk] at this ⊢
          exact this

end

end Surf
