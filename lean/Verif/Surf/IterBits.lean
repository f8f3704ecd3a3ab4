import Verif.Surf.GetSpec
import Verif.Surf.Iter

/-! The neighbouring labels of a position in the dense part. -/

set_option linter.unusedSimpArgs false

namespace Surf

/-! ### Bit positions -/

theorem firstTrue_eq {l : List Bool} {n : Nat} (h : l[n]? = some true) (hn : ∀ m, m < n → l[m]? = some false) : firstTrue l = n := by
  induction l generalizing n with
  | nil => simp at h
  | cons a l ih =>
    unfold firstTrue
    rw [List.findIdx_cons]
    cases n with
    | zero =>
      simp only [List.getElem?_cons_zero, Option.some.injEq] at h
      simp [h]
    | succ n =>
      have h0 := hn 0 (by omega)
      simp only [List.getElem?_cons_zero, Option.some.injEq] at h0
      rw [h0]
      simp only [List.getElem?_cons_succ] at h
      have := ih h (fun m hm => by simpa using hn (m + 1) (by omega))
      unfold firstTrue at this
      simp only [cond_false, beq_true] at this ⊢
      simp [this]

theorem firstTrue_ge {l : List Bool} {n : Nat} (hn : ∀ m, m < n → l[m]? = some false) : n ≤ firstTrue l := by
  induction l generalizing n with
  | nil =>
    cases n with
    | zero => exact Nat.zero_le _
    | succ n => have := hn 0 (by omega); simp at this
  | cons a l ih =>
    cases n with
    | zero => exact Nat.zero_le _
    | succ n =>
      have h0 := hn 0 (by omega)
      simp only [List.getElem?_cons_zero, Option.some.injEq] at h0
      unfold firstTrue
      rw [List.findIdx_cons, h0]
      have := ih (n := n) (fun m hm => by simpa using hn (m + 1) (by omega))
      unfold firstTrue at this
      simp only [beq_true] at this ⊢
      simp
      exact this

theorem firstTrue_le {l : List Bool} {n : Nat} (h : l[n]? = some true) : firstTrue l ≤ n := by
  induction l generalizing n with
  | nil => simp at h
  | cons a l ih =>
    unfold firstTrue
    rw [List.findIdx_cons]
    cases a with
    | true => simp
    | false =>
      cases n with
      | zero => simp at h
      | succ n =>
        have := ih (n := n) (by simpa using h)
        unfold firstTrue at this
        simp only [beq_true] at this ⊢
        simp
        exact this

section
variable {v : RankVector} {A : List Bool}

/-- A label vector whose bits fill its words: the bits are `A`. -/
structure LV (v : RankVector) (A : List Bool) : Prop where
  rv : RV v 64 A 0
  full : A.length % 64 = 0

theorem LV.numWords (h : LV v A) : 64 * v.bv.bits.length = A.length ∧ v.bv.numBits = A.length ∧ v.bv.bits.length = v.bv.numWords := by
  have h1 := h.rv.wf.words
  have h2 := h.rv.num
  have h5 : v.bv.numWords = numWordsOf v.bv.numBits := rfl
  have h4 := h.full
  rw [Nat.add_zero] at h2
  refine ⟨?_, h2, h1⟩
  rw [h1]
  unfold numWordsOf
  split <;> omega

theorem LV.bits (h : LV v A) : bitsOf v.bv.bits = A := by
  have h1 := h.rv.holds.bitsOf_eq
  have h2 := h.numWords.1
  rw [h1]
  simp
  omega

theorem LV.isSet (h : LV v A) {p : Nat} {b : Bool} (hp : v.bv.isSet p = some b) (hl : p < A.length) : A[p]? = some b := by
  have := h.rv.isSet hl
  rw [hp] at this
  rw [List.getElem?_eq_getElem hl, this]

/-- The next label. -/
theorem LV.next_hit (h : LV v A) {pos q : Nat} (hlt : pos < q) (hq : A[q]? = some true) (hn : ∀ p, pos < p → p < q → A[p]? = some false) :
    v.bv.distanceToNextSetBit pos = some (q - pos) := by
  obtain ⟨w1, w2, w3⟩ := h.numWords
  obtain ⟨hql, -⟩ := List.getElem?_eq_some_iff.mp hq
  rw [BitVector.distanceToNextSetBit_spec v.bv w3 pos (by omega) (by rw [← w3]; omega), h.bits]
  have hmem : true ∈ A.drop (pos + 1) := by
    rw [List.mem_iff_getElem?]
    exact ⟨q - (pos + 1), by rw [List.getElem?_drop, show pos + 1 + (q - (pos + 1)) = q by omega, hq]⟩
  rw [if_pos hmem, firstTrue_eq (n := q - (pos + 1)) (by rw [List.getElem?_drop, show pos + 1 + (q - (pos + 1)) = q by omega, hq])
    (fun m hm => by rw [List.getElem?_drop]; exact hn _ (by omega) (by omega))]
  congr 1
  omega

/-- No next label below `m`. -/
theorem LV.next_none (h : LV v A) {pos m : Nat} (hlt : pos < m) (hm : m ≤ A.length) (hn : ∀ p, pos < p → p < m → A[p]? = some false) :
    ∃ d, v.bv.distanceToNextSetBit pos = some d ∧ (d = 0 ∨ m ≤ pos + d) := by
  obtain ⟨w1, w2, w3⟩ := h.numWords
  by_cases hp : pos + 1 < A.length
  · rw [BitVector.distanceToNextSetBit_spec v.bv w3 pos (by omega) (by rw [← w3]; omega), h.bits]
    refine ⟨_, rfl, Or.inr ?_⟩
    split
    · have := firstTrue_ge (l := A.drop (pos + 1)) (n := m - (pos + 1)) (fun k hk => by rw [List.getElem?_drop]; exact hn _ (by omega) (by omega))
      omega
    · omega
  · exact ⟨0, BitVector.distanceToNextSetBit_past v.bv pos (by omega), Or.inl rfl⟩

theorem rev_take_get {A : List Bool} {pos k : Nat} (h1 : pos ≤ A.length) (h2 : k < pos) : ((A.take pos).reverse)[k]? = A[pos - 1 - k]? := by
  rw [List.getElem?_reverse (by rw [List.length_take]; omega), List.length_take, Nat.min_eq_left h1, List.getElem?_take_of_lt (by omega)]

theorem LV.prev_dist (h : LV v A) {pos : Nat} (hp : pos ≤ A.length) : v.bv.distanceToPrevSetBit pos = some (1 + firstTrue (A.take pos).reverse) := by
  rw [BitVector.distanceToPrevSetBit_spec v.bv pos (by have := h.numWords.1; omega), h.bits]

/-- The previous label. -/
theorem LV.prev_hit (h : LV v A) {pos q : Nat} (hlt : q < pos) (hp : pos ≤ A.length) (hq : A[q]? = some true) (hn : ∀ p, q < p → p < pos → A[p]? = some false) :
    v.bv.distanceToPrevSetBit pos = some (pos - q) := by
  rw [h.prev_dist hp, firstTrue_eq (n := pos - 1 - q)]
  · congr 1
    omega
  · rw [rev_take_get hp (by omega), show pos - 1 - (pos - 1 - q) = q by omega, hq]
  · intro m hm
    rw [rev_take_get hp (by omega)]
    exact hn _ (by omega) (by omega)

/-- No previous label from `m` on, but one below, at `q`. -/
theorem LV.prev_far (h : LV v A) {pos m q : Nat} (hlt : q < m) (hm : m ≤ pos) (hp : pos ≤ A.length) (hq : A[q]? = some true) (hn : ∀ p, m ≤ p → p < pos → A[p]? = some false) :
    ∃ d, v.bv.distanceToPrevSetBit pos = some d ∧ pos < m + d ∧ q + d ≤ pos := by
  refine ⟨_, h.prev_dist hp, ?_, ?_⟩
  · have := firstTrue_ge (l := (A.take pos).reverse) (n := pos - m) (fun k hk => by rw [rev_take_get hp (by omega)]; exact hn _ (by omega) (by omega))
    omega
  · have := firstTrue_le (l := (A.take pos).reverse) (n := pos - 1 - q) (by rw [rev_take_get hp (by omega), show pos - 1 - (pos - 1 - q) = q by omega, hq])
    omega

/-- No previous label at all. -/
theorem LV.prev_none (h : LV v A) {pos : Nat} (hp : pos ≤ A.length) (hn : ∀ p, p < pos → A[p]? = some false) :
    ∃ d, v.bv.distanceToPrevSetBit pos = some d ∧ pos < d := by
  refine ⟨_, h.prev_dist hp, ?_⟩
  have := firstTrue_ge (l := (A.take pos).reverse) (n := pos) (fun k hk => by rw [rev_take_get hp hk]; exact hn _ (by omega))
  omega

end

/-! ### Labels -/

section
variable {cfg : Config} {fp : Bytes → Word} {ld : LoudsDense} {pre post : List Grp} {t : Grp}

theorem DView.lv {ns : List Grp} (h : DView cfg fp ld ns) : LV ld.labelVec (ns.flatMap fun t => mapBits (fun _ => true) t.items) :=
  ⟨h.lab, by rw [mapBits_flat_length]; omega⟩

/-- The label bits of a node. -/
theorem lab_bit (pre post : List Grp) (t : Grp) {c : Nat} (hc : c < 256) :
    ((pre ++ t :: post).flatMap fun t => mapBits (fun _ => true) t.items)[pre.length * 256 + c]? = some (t.items.any fun i => !i.term && i.label.toNat == c) := by
  have hl : c < (mapBits (fun _ => true) t.items).length := by rw [mapBits_length]; exact hc
  have hg := getElem_mid (pre.flatMap fun t => mapBits (fun _ => true) t.items) (mapBits (fun _ => true) t.items) (post.flatMap fun t => mapBits (fun _ => true) t.items) c hl
  rw [← flat_split (g := fun t => mapBits (fun _ => true) t.items), mapBits_flat_length, mapBits_get _ _ c hc] at hg
  rw [hg]
  simp

theorem lab_true (pre post : List Grp) {t : Grp} {i : Item} (hi : i ∈ t.items) (ht : i.term = false) :
    ((pre ++ t :: post).flatMap fun t => mapBits (fun _ => true) t.items)[pre.length * 256 + i.label.toNat]? = some true := by
  rw [lab_bit pre post t i.label.toNat_lt]
  congr 1
  rw [List.any_eq_true]
  exact ⟨i, hi, by simp [ht]⟩

theorem lab_false (pre post : List Grp) {t : Grp} {c : Nat} (hc : c < 256) (h : ∀ i ∈ t.items, i.term = false → i.label.toNat ≠ c) :
    ((pre ++ t :: post).flatMap fun t => mapBits (fun _ => true) t.items)[pre.length * 256 + c]? = some false := by
  rw [lab_bit pre post t hc]
  congr 1
  rw [List.any_eq_false]
  intro i hi
  simp only [Bool.and_eq_true, Bool.not_eq_true', beq_iff_eq, not_and]
  exact h i hi

/-- The next label in the node, after byte `c`. -/
theorem DView.next_in (h : DView cfg fp ld (pre ++ t :: post)) {ip iq : List Item} {j : Item} (e : t.items = ip ++ j :: iq) {c : Nat} (hlt : c < j.label.toNat)
    (hj : j.term = false) (hip : ∀ i ∈ ip, i.term = false → i.label.toNat ≤ c) (hiq : ∀ i ∈ iq, i.term = false → j.label.toNat < i.label.toNat) :
    ld.nextPos (pre.length * 256 + c) = some (pre.length * 256 + j.label.toNat) := by
  have hj256 := j.label.toNat_lt
  unfold LoudsDense.nextPos
  rw [h.lv.next_hit (q := pre.length * 256 + j.label.toNat) (by omega) (lab_true pre post (by rw [e]; simp) hj) ?_]
  · simp only [Option.bind_eq_bind, Option.bind_some, Option.pure_def]
    exact congrArg some (by omega)
  · intro p h1 h2
    obtain ⟨c', rfl⟩ : ∃ c', p = pre.length * 256 + c' := ⟨p - pre.length * 256, by omega⟩
    refine lab_false pre post (by omega) ?_
    intro i hi hit
    rw [e, List.mem_append, List.mem_cons] at hi
    rcases hi with hi | rfl | hi
    · have := hip i hi hit; omega
    · omega
    · have := hiq i hi hit; omega

/-- No label in the node after byte `c`. -/
theorem DView.next_out (h : DView cfg fp ld (pre ++ t :: post)) {c : Nat} (hc : c < 256) (hip : ∀ i ∈ t.items, i.term = false → i.label.toNat ≤ c) :
    ∃ q, ld.nextPos (pre.length * 256 + c) = some q ∧ (pre.length * 256 + c = q ∨ q / 256 > (pre.length * 256 + c) / 256) := by
  obtain ⟨d, e1, e2⟩ := h.lv.next_none (pos := pre.length * 256 + c) (m := (pre.length + 1) * 256) (by omega)
    (by rw [mapBits_flat_length, List.length_append, List.length_cons]; omega) (by
      intro p h1 h2
      obtain ⟨c', rfl⟩ : ∃ c', p = pre.length * 256 + c' := ⟨p - pre.length * 256, by omega⟩
      refine lab_false pre post (by omega) ?_
      intro i hi hit
      have := hip i hi hit
      omega)
  unfold LoudsDense.nextPos
  rw [e1]
  refine ⟨_, rfl, ?_⟩
  rcases e2 with rfl | e2
  · exact Or.inl (Nat.add_zero _).symm
  · right
    omega

/-- The first label of a node, from the end of the node before. -/
theorem DView.next_first (h : DView cfg fp ld (pre ++ t :: post)) (hp : pre ≠ []) {ip iq : List Item} {j : Item} (e : t.items = ip ++ j :: iq)
    (hj : j.term = false) (hip : ∀ i ∈ ip, i.term = true) (hiq : ∀ i ∈ iq, i.term = false → j.label.toNat < i.label.toNat) :
    ld.nextPos (pre.length * 256 - 1) = some (pre.length * 256 + j.label.toNat) := by
  have hj256 := j.label.toNat_lt
  have hp1 : 0 < pre.length := List.length_pos_iff.mpr hp
  unfold LoudsDense.nextPos
  rw [h.lv.next_hit (q := pre.length * 256 + j.label.toNat) (by omega) (lab_true pre post (by rw [e]; simp) hj) ?_]
  · simp only [Option.bind_eq_bind, Option.bind_some, Option.pure_def]
    exact congrArg some (by omega)
  · intro p h1 h2
    obtain ⟨c', rfl⟩ : ∃ c', p = pre.length * 256 + c' := ⟨p - pre.length * 256, by omega⟩
    refine lab_false pre post (by omega) ?_
    intro i hi hit
    rw [e, List.mem_append, List.mem_cons] at hi
    rcases hi with hi | rfl | hi
    · rw [hip i hi] at hit; simp at hit
    · omega
    · have := hiq i hi hit; omega

/-- The label before byte `c` in the node. (`c = 256`: the last one.) -/
theorem DView.prev_in (h : DView cfg fp ld (pre ++ t :: post)) {ip iq : List Item} {j : Item} (e : t.items = ip ++ j :: iq) {c : Nat} (hc : c ≤ 256) (hlt : j.label.toNat < c)
    (hj : j.term = false) (hip : ∀ i ∈ ip, i.term = false → i.label.toNat < j.label.toNat) (hiq : ∀ i ∈ iq, i.term = false → c ≤ i.label.toNat)
    (hz : 0 < pre.length * 256 + j.label.toNat) :
    ld.prevPos (pre.length * 256 + c) = some (pre.length * 256 + j.label.toNat, false) := by
  unfold LoudsDense.prevPos
  rw [h.lv.prev_hit (q := pre.length * 256 + j.label.toNat) (by omega) (by rw [mapBits_flat_length, List.length_append, List.length_cons]; omega)
    (lab_true pre post (by rw [e]; simp) hj) ?_]
  · simp only [Option.bind_eq_bind, Option.bind_some, Option.pure_def]
    rw [if_neg (by omega)]
    congr 2
    omega
  · intro p h1 h2
    obtain ⟨c', rfl⟩ : ∃ c', p = pre.length * 256 + c' := ⟨p - pre.length * 256, by omega⟩
    refine lab_false pre post (by omega) ?_
    intro i hi hit
    rw [e, List.mem_append, List.mem_cons] at hi
    rcases hi with hi | rfl | hi
    · have := hip i hi hit; omega
    · omega
    · have := hiq i hi hit; omega

/-- No label before byte `c` in the node, but there is one in an earlier node. -/
theorem DView.prev_out (h : DView cfg fp ld (pre ++ t :: post)) {c : Nat} (hc : c < 256) (hip : ∀ i ∈ t.items, i.term = false → c ≤ i.label.toNat)
    {q : Nat} (hq0 : 0 < q) (hq : q < pre.length * 256) (hqt : ((pre ++ t :: post).flatMap fun t => mapBits (fun _ => true) t.items)[q]? = some true) :
    ∃ pp, ld.prevPos (pre.length * 256 + c) = some (pp, false) ∧ pp / 256 < pre.length := by
  obtain ⟨d, e1, e2, e3⟩ := h.lv.prev_far (pos := pre.length * 256 + c) (m := pre.length * 256) hq (by omega)
    (by rw [mapBits_flat_length, List.length_append, List.length_cons]; omega) hqt (by
      intro p h1 h2
      obtain ⟨c', rfl⟩ : ∃ c', p = pre.length * 256 + c' := ⟨p - pre.length * 256, by omega⟩
      refine lab_false pre post (by omega) ?_
      intro i hi hit
      have := hip i hi hit
      omega)
  unfold LoudsDense.prevPos
  rw [e1]
  refine ⟨pre.length * 256 + c - d, ?_, by omega⟩
  simp only [Option.bind_eq_bind, Option.bind_some, Option.pure_def]
  rw [if_neg (by omega)]

/-- No label before byte `c` in the root. -/
theorem DView.prev_root (h : DView cfg fp ld (t :: post)) {c : Nat} (hc : c < 256) (hip : ∀ i ∈ t.items, i.term = false → c ≤ i.label.toNat) :
    ∃ pp, ld.prevPos c = some (pp, true) := by
  have h' : DView cfg fp ld ([] ++ t :: post) := h
  obtain ⟨d, e1, e2⟩ := h'.lv.prev_none (pos := c) (by rw [mapBits_flat_length, List.length_append, List.length_cons]; omega) (by
      intro p h1
      have := lab_false [] post (t := t) (c := p) (by omega) (fun i hi hit => by have := hip i hi hit; omega)
      simpa using this)
  unfold LoudsDense.prevPos
  rw [e1]
  refine ⟨0, ?_⟩
  simp only [Option.bind_eq_bind, Option.bind_some, Option.pure_def]
  rw [if_pos (by omega)]

/-- No label before `pos`, but maybe the very first one. -/
theorem DView.prev_zero {ns : List Grp} (h : DView cfg fp ld ns) {pos : Nat} (hp : pos ≤ ns.length * 256)
    (hn : ∀ p, 0 < p → p < pos → (ns.flatMap fun t => mapBits (fun _ => true) t.items)[p]? ≠ some true) : ld.prevPos pos = some (0, true) := by
  have hlen := mapBits_flat_length (fun _ => true) ns
  have hp' : pos ≤ (ns.flatMap fun t => mapBits (fun _ => true) t.items).length := by omega
  have := firstTrue_ge (l := ((ns.flatMap fun t => mapBits (fun _ => true) t.items).take pos).reverse) (n := pos - 1) (fun k hk => by
    rw [rev_take_get hp' (by omega)]
    have h1 := hn (pos - 1 - k) (by omega) (by omega)
    have h2 : pos - 1 - k < (ns.flatMap fun t => mapBits (fun _ => true) t.items).length := by omega
    rw [List.getElem?_eq_getElem h2] at h1 ⊢
    congr 1
    simpa using h1)
  unfold LoudsDense.prevPos
  rw [h.lv.prev_dist hp']
  simp only [Option.bind_eq_bind, Option.bind_some, Option.pure_def]
  rw [if_pos (by omega)]

end

end Surf
