import Verif.Surf.ReadsGet
import Verif.Surf.LocateSparse
import Verif.Surf.GetSpec
import Verif.Surf.InitLemmas

/-! In a built filter the set bits of the LOUDS vector lie close together: a node has at most 257 labels. -/

set_option linter.unusedSimpArgs false

namespace Surf

theorem items_257 {t : Grp} (h : t.OK) : t.items.length ≤ 257 := by
  have hs := h.items_sorted
  have h1 : t.items.countP (fun i => !i.term) ≤ 256 := by
    have e := ones_mapBits_all hs (fun _ => true)
    simp only [Bool.true_and] at e
    rw [← e]
    have : ones (mapBits (fun _ => true) t.items) ≤ (mapBits (fun _ => true) t.items).length := List.count_le_length
    rw [mapBits_length] at this
    exact this
  have h2 : t.items.countP (fun i => i.term) ≤ 1 := by
    cases e : t.items with
    | nil => simp
    | cons i is =>
      rw [e, List.pairwise_cons] at hs
      have : is.countP (fun i => i.term) = 0 := by
        rw [List.countP_eq_zero]
        intro j hj
        rw [(hs.1 j hj).1]
        simp
      rw [List.countP_cons, this]
      split <;> omega
  have h3 := List.length_eq_countP_add_countP (fun i : Item => i.term) (l := t.items)
  have h4 : t.items.countP (fun i => decide ¬ i.term = true) = t.items.countP (fun i => !i.term) := by
    congr 1
    funext i
    cases i.term <;> rfl
  omega

theorem louds_257 {t : Grp} (h : t.OK) : t.louds.length ≤ 257 := by rw [h.louds_length]; exact items_257 h

/-- The node behind `j` others begins at the `j+1`-st set bit. -/
theorem louds_select {ns : List Grp} (h : ∀ t ∈ ns, t.OK) {j : Nat} (hj : j < ns.length) : IsSelect (ns.flatMap Grp.louds) (j + 1) ((ns.take j).flatMap Grp.louds).length := by
  have e : ns.flatMap Grp.louds = (ns.take j).flatMap Grp.louds ++ (ns[j].louds ++ (ns.drop (j + 1)).flatMap Grp.louds) := by
    have e0 : ns = ns.take j ++ (ns[j] :: ns.drop (j + 1)) := by rw [← List.drop_eq_getElem_cons hj, List.take_append_drop]
    have e1 := congrArg (List.flatMap Grp.louds) e0
    rw [List.flatMap_append, List.flatMap_cons] at e1
    exact e1
  obtain ⟨-, l2⟩ := louds_flat (ns.take j) (fun t ht => h t (List.mem_of_mem_take ht))
  have : IsSelect (ns[j].louds ++ (ns.drop (j + 1)).flatMap Grp.louds) 1 0 := ⟨by simp [Grp.louds], by simp⟩
  have := isSelect_append_right (l := (ns.take j).flatMap Grp.louds) this
  rw [← e] at this
  have l2 : ((ns.take j).flatMap Grp.louds).count true = j := by
    have := l2
    unfold ones at this
    rw [this, List.length_take]
    omega
  rw [l2] at this
  exact this

theorem louds_flat_le {ns : List Grp} (h : ∀ t ∈ ns, t.OK) : (ns.flatMap Grp.louds).length ≤ 257 * ns.length := by
  induction ns with
  | nil => simp
  | cons t ns ih =>
    have h1 := louds_257 (h t (by simp))
    have h2 := ih (fun t ht => h t (List.mem_cons_of_mem _ ht))
    rw [List.flatMap_cons, List.length_append, List.length_cons]
    omega

theorem louds_apart {ns : List Grp} (h : ∀ t ∈ ns, t.OK) {a b p q : Nat} (ha : IsSelect (ns.flatMap Grp.louds) a p) (hb : IsSelect (ns.flatMap Grp.louds) b q) (hab : a ≤ b) : q ≤ p + 257 * (b - a) := by
  obtain ⟨-, l2⟩ := louds_flat ns h
  unfold ones at l2
  have ba := ha.bounds
  have bb := hb.bounds
  rw [l2] at ba bb
  have e1 := ha.unique (n := a) (by
    have := louds_select h (j := a - 1) (by omega)
    rwa [show a - 1 + 1 = a by omega] at this)
  have e2 := hb.unique (n := b) (by
    have := louds_select h (j := b - 1) (by omega)
    rwa [show b - 1 + 1 = b by omega] at this)
  have e3 : ns.take (b - 1) = ns.take (a - 1) ++ (ns.drop (a - 1)).take (b - a) := by
    rw [show b - 1 = (a - 1) + (b - a) by omega, List.take_add]
  rw [e1, e2, e3, List.flatMap_append, List.length_append]
  have := louds_flat_le (ns := (ns.drop (a - 1)).take (b - a)) (fun t ht => h t (List.mem_of_mem_drop (List.mem_of_mem_take ht)))
  have hl : ((ns.drop (a - 1)).take (b - a)).length ≤ b - a := by rw [List.length_take]; omega
  have : 257 * ((ns.drop (a - 1)).take (b - a)).length ≤ 257 * (b - a) := Nat.mul_le_mul_left _ hl
  omega

/-- From every position the next set bit, or the end, is at most 257 away. -/
theorem louds_next : ∀ {ns : List Grp}, (∀ t ∈ ns, t.OK) → ∀ {p k : Nat}, p < (ns.flatMap Grp.louds).length →
    (true ∈ (ns.flatMap Grp.louds ++ List.replicate k false).drop (p + 1) → 1 + firstTrue ((ns.flatMap Grp.louds ++ List.replicate k false).drop (p + 1)) ≤ 257) ∧
    (true ∉ (ns.flatMap Grp.louds ++ List.replicate k false).drop (p + 1) → (ns.flatMap Grp.louds).length - p ≤ 257) := by
  intro ns
  induction ns with
  | nil => intro _ p k hp; simp at hp
  | cons t ns ih =>
    intro h p k hp
    have ht := h t (by simp)
    have h1 := louds_257 ht
    have hrest : ∀ t ∈ ns, t.OK := fun t ht => h t (List.mem_cons_of_mem _ ht)
    rw [List.flatMap_cons, List.length_append] at hp
    rw [List.flatMap_cons, List.append_assoc, List.length_append]
    by_cases hlt : p < t.louds.length
    · have hd : (t.louds ++ (ns.flatMap Grp.louds ++ List.replicate k false)).drop (p + 1) = List.replicate (t.items.length - 1 - p) false ++ (ns.flatMap Grp.louds ++ List.replicate k false) := by
        rw [List.drop_append_of_le_length (by omega)]
        congr 1
        unfold Grp.louds
        rw [List.drop_succ_cons, List.drop_replicate]
      have hl := ht.louds_length
      rw [hd]
      cases ns with
      | nil =>
        refine ⟨fun hm => ?_, fun _ => ?_⟩
        · simp at hm
        · simp; omega
      | cons u ns =>
        have hm : true ∈ List.replicate (t.items.length - 1 - p) false ++ ((u :: ns).flatMap Grp.louds ++ List.replicate k false) := by simp [Grp.louds]
        refine ⟨fun _ => ?_, fun hn => absurd hm hn⟩
        rw [firstTrue_append_right (by simp), List.length_replicate]
        have : firstTrue ((u :: ns).flatMap Grp.louds ++ List.replicate k false) = 0 := by simp [firstTrue, Grp.louds, List.findIdx_cons]
        omega
    · have hd : (t.louds ++ (ns.flatMap Grp.louds ++ List.replicate k false)).drop (p + 1) = (ns.flatMap Grp.louds ++ List.replicate k false).drop (p - t.louds.length + 1) := by
        rw [List.drop_append, List.drop_eq_nil_of_le (by omega), List.nil_append]
        congr 1
        omega
      rw [hd]
      have := ih hrest (p := p - t.louds.length) (k := k) (by omega)
      refine ⟨this.1, fun hn => ?_⟩
      have := this.2 hn
      omega

theorem selectLoop_ones (bmi : Bool) (bits : List Word) : ∀ (fuel off : Nat) (w : Word) (r p : Nat), SelectVector.selectLoop bmi bits fuel off w r = some p →
    r ≤ (wbits w ++ bitsOf (bits.drop (off + 1))).count true := by
  intro fuel
  induction fuel with
  | zero => intro off w r p h; cases h
  | succ fuel ih =>
    intro off w r p h
    rw [List.count_append]
    unfold SelectVector.selectLoop at h
    dsimp only at h
    have ho : onesCount w = (wbits w).count true := rfl
    split at h
    · obtain ⟨w', hw, h⟩ := Option.bind_eq_some_iff.mp h
      obtain ⟨hlt, rfl⟩ := List.getElem?_eq_some_iff.mp hw
      have := ih _ _ _ _ h
      rw [List.drop_eq_getElem_cons hlt, show bitsOf (bits[off + 1] :: bits.drop (off + 1 + 1)) = wbits bits[off + 1] ++ bitsOf (bits.drop (off + 1 + 1)) from List.flatMap_cons]
      omega
    · omega

theorem select_le {bmi : Bool} {v : SelectVector} (hv : v.WF) (h0 : (bitsOf v.bv.bits)[0]? = some true) {rank p : Nat} (h : v.select bmi rank = some p) : 1 ≤ rank ∧ rank ≤ ones (bitsOf v.bv.bits) := by
  unfold SelectVector.select at h
  obtain ⟨r, hr, h⟩ := Option.bind_eq_some_iff.mp h
  obtain ⟨pos, hpos, h⟩ := Option.bind_eq_some_iff.mp h
  simp only [selectSampleInterval] at hpos
  have hstart : 1 ≤ rank ∧ r < rank ∧ IsSelect (bitsOf v.bv.bits) (rank - r) pos := by
    unfold SelectVector.selectRankLeft at hr
    have hr : (if rank / 64 = 0 then usub (rank % 64) 1 else some (rank % 64)) = some r := hr
    by_cases hz : rank / 64 = 0
    · rw [if_pos hz] at hr
      unfold usub at hr
      split at hr
      · simp only [Option.some.injEq] at hr
        rw [hz, hv.zero] at hpos
        cases hpos
        refine ⟨by omega, by omega, h0, ?_⟩
        simp
        omega
      · cases hr
    · rw [if_neg hz] at hr
      simp only [Option.some.injEq] at hr
      have hl := (List.getElem?_eq_some_iff.mp hpos).1
      rw [hv.len] at hl
      obtain ⟨p', e, hp'⟩ := hv.lut (rank / 64) (by omega) (by omega)
      rw [hpos] at e
      cases e
      refine ⟨by omega, by omega, ?_⟩
      rw [show rank - r = 64 * (rank / 64) by omega]
      exact hp'
  obtain ⟨h1, hlt, hsel⟩ := hstart
  refine ⟨h1, ?_⟩
  have hb := hsel.bounds
  unfold SelectVector.selectFrom at h
  split at h
  · next hr0 =>
    subst hr0
    have := hb.2.2
    unfold ones
    omega
  · have hw1 : (if pos % 64 = 64 - 1 then pos / 64 + 1 else pos / 64) = (pos + 1) / 64 := by
      split <;> omega
    have hw2 : (if pos % 64 = 64 - 1 then 0 else pos % 64 + 1) = (pos + 1) % 64 := by
      split <;> omega
    dsimp only at h
    rw [hw1, hw2] at h
    split at h
    · cases h
    · next w0 hw =>
      obtain ⟨hwl, rfl⟩ := List.getElem?_eq_some_iff.mp hw
      have hcnt := selectLoop_ones _ _ _ _ _ _ _ h
      rw [SelectVector.wbits_mask_low _ _ (by omega), List.append_assoc, ← bitsOf_drop _ _ hwl, List.count_append, List.count_replicate] at hcnt
      simp only [Bool.beq_eq_decide_eq] at hcnt
      have hall : (bitsOf v.bv.bits).count true = ((bitsOf v.bv.bits).take (pos + 1)).count true + ((bitsOf v.bv.bits).drop (pos + 1)).count true := by
        rw [← List.count_append, List.take_append_drop]
      have htake : ((bitsOf v.bv.bits).take (pos + 1)).count true = rank - r := by
        rw [List.take_add_one, List.count_append, hsel.1]
        have := hsel.2
        simp
        omega
      unfold ones
      simp at hcnt
      omega

theorem trailing_le (w : Word) : trailingZeros w ≤ 64 := by
  rw [trailingZeros_eq]
  have := List.findIdx_le_length (p := (· == true)) (xs := wbits w)
  rw [wbits_length] at this
  exact this

theorem SView.close {cfg : Config} {fp : Bytes → Word} {ls : LoudsSparse} {ds ns : List Grp} (h : SView cfg fp ls ds ns) (hok : ∀ t ∈ ns, t.OK) (hne : ns ≠ []) : Cnt.Close ls := by
  have he := h.lo.bitsOf_eq
  have h0 : (bitsOf ls.loudsVec.bv.bits)[0]? = some true := by
    rw [he]
    cases ns with
    | nil => exact absurd rfl hne
    | cons a ns => simp [Grp.louds]
  refine ⟨fun bmi rank pos p hpos hp => ?_, fun pos d hd => ?_⟩
  · obtain ⟨h1, h2⟩ := select_le h.lowf h0 hp
    obtain ⟨q, e, hq⟩ := SelectVector.select_spec bmi ls.loudsVec h.lowf rank h1 h2 h0
    rw [hp] at e
    cases e
    have hstart : ∃ a, a ≤ rank ∧ rank ≤ a + 63 ∧ IsSelect (bitsOf ls.loudsVec.bv.bits) a pos := by
      by_cases hz : rank / 64 = 0
      · rw [hz, h.lowf.zero] at hpos
        cases hpos
        exact ⟨1, h1, by omega, h0, by simp⟩
      · have hl := (List.getElem?_eq_some_iff.mp hpos).1
        rw [h.lowf.len] at hl
        obtain ⟨p', e, hp'⟩ := h.lowf.lut (rank / 64) (by omega) (by omega)
        rw [hpos] at e
        cases e
        exact ⟨_, by omega, by omega, hp'⟩
    obtain ⟨a, ha1, ha2, ha⟩ := hstart
    rw [he] at ha hq
    have := louds_apart hok (isSelect_of_append_zeros ha) (isSelect_of_append_zeros hq) ha1
    have : 257 * (rank - a) ≤ 257 * 63 := Nat.mul_le_mul_left _ (by omega)
    omega
  · have hw : ls.loudsVec.bv.bits.length = ls.loudsVec.bv.numWords := h.lowf.words
    have hnw := BitVector.numWordsOf_bounds ls.loudsVec.bv.numBits
    have hnn : ls.loudsVec.bv.numWords = numWordsOf ls.loudsVec.bv.numBits := rfl
    unfold LoudsSparse.nodeSize at hd
    by_cases hp : pos < ls.loudsVec.bv.numBits ∧ pos + 1 < 64 * ls.loudsVec.bv.numWords
    · rw [BitVector.distanceToNextSetBit_spec _ hw pos hp.1 hp.2, he] at hd
      have hlt := hp.1
      rw [h.lon] at hlt
      have hnx := louds_next hok (k := 64 * ls.loudsVec.bv.bits.length - (ns.flatMap Grp.louds).length) hlt
      split at hd
      · next hm => cases hd; exact hnx.1 hm
      · next hm =>
        cases hd
        rw [h.lon]
        exact hnx.2 hm
    · unfold BitVector.distanceToNextSetBit at hd
      dsimp only at hd
      split at hd
      · cases hd; omega
      · next hge =>
        obtain ⟨w, -, hd⟩ := Option.bind_eq_some_iff.mp hd
        split at hd
        · cases hd
          have := trailing_le (w >>> ((pos + 1) % 64))
          omega
        · obtain ⟨last, hlast, hd⟩ := Option.bind_eq_some_iff.mp hd
          unfold usub at hlast
          split at hlast
          · cases hlast
            split at hd
            · unfold usub at hd
              split at hd
              · cases hd; omega
              · cases hd
            · exfalso
              omega
          · cases hlast

theorem Built.close {cfg : Config} {fp : Bytes → Word} {s : SuRF} {t : Grp} {cut h : Nat} (B : Built cfg fp s t cut h) : Cnt.Close s.ls := by
  refine B.sv.close (fun x hx => ?_) ?_
  · unfold nodesIn at hx
    obtain ⟨i, -, hx⟩ := List.mem_flatMap.mp hx
    exact (B.root.desc_ok hx).toOK
  · intro e
    have hne := B.ne cut B.lt
    obtain ⟨x, hx⟩ := List.exists_mem_of_ne_nil _ hne
    have : x ∈ nodesIn t cut (h - cut) := by
      unfold nodesIn
      have := B.lt
      exact List.mem_flatMap.mpr ⟨cut, by simp; omega, hx⟩
    rw [e] at this
    cases this

end Surf
