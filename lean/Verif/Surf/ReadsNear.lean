import Verif.Surf.ReadsIter
import Verif.Surf.IterDense

/-! In the dense part of a built filter the labels lie close together: every node has one. -/

set_option linter.unusedSimpArgs false

namespace Surf

theorem Grp.Good.label {t : Grp} (ht : t.Good) : true ∈ mapBits (fun _ => true) t.items := by
  have key : ∀ i ∈ t.items, i.term = false → true ∈ mapBits (fun _ => true) t.items := by
    intro i hi hf
    unfold mapBits
    refine List.mem_map.mpr ⟨i.label.toNat, List.mem_range.mpr i.label.toNat_lt, ?_⟩
    exact List.any_eq_true.mpr ⟨i, hi, by simp [hf]⟩
  cases e : t.items with
  | nil => exact absurd e ht.toOK.items_ne
  | cons i is =>
    rw [← e]
    cases hi : i.term with
    | false => exact key i (by rw [e]; simp) hi
    | true =>
      obtain ⟨j, js, e2, hj⟩ := ht.end_two e hi
      exact key j (by rw [e, e2]; simp) hj

theorem firstTrue_lt {l : List Bool} (h : true ∈ l) : firstTrue l < l.length := by
  unfold firstTrue
  exact List.findIdx_lt_length_of_exists ⟨true, h, rfl⟩

/-- From every position the next label, or the end, is less than 512 away. -/
theorem labels_next : ∀ {ns : List Grp}, (∀ t ∈ ns, t.Good) → ∀ {p k : Nat}, p < (ns.flatMap fun t => mapBits (fun _ => true) t.items).length →
    (true ∈ ((ns.flatMap fun t => mapBits (fun _ => true) t.items) ++ List.replicate k false).drop (p + 1) →
      1 + firstTrue (((ns.flatMap fun t => mapBits (fun _ => true) t.items) ++ List.replicate k false).drop (p + 1)) ≤ 512) ∧
    (true ∉ ((ns.flatMap fun t => mapBits (fun _ => true) t.items) ++ List.replicate k false).drop (p + 1) → (ns.flatMap fun t => mapBits (fun _ => true) t.items).length - p ≤ 512) := by
  intro ns
  induction ns with
  | nil => intro _ p k hp; simp at hp
  | cons t ns ih =>
    intro h p k hp
    have hrest : ∀ t ∈ ns, t.Good := fun t ht => h t (List.mem_cons_of_mem _ ht)
    have hl := mapBits_length (fun _ => true) t.items
    rw [List.flatMap_cons, List.length_append] at hp
    rw [List.flatMap_cons, List.append_assoc, List.length_append]
    generalize hA : (ns.flatMap fun t => mapBits (fun _ => true) t.items) = A at *
    generalize hM : mapBits (fun _ => true) t.items = M at *
    by_cases hlt : p < 256
    · rw [List.drop_append_of_le_length (by omega)]
      have hd : (M.drop (p + 1)).length ≤ 255 := by rw [List.length_drop]; omega
      by_cases hm : true ∈ M.drop (p + 1)
      · refine ⟨fun _ => ?_, fun hn => absurd (List.mem_append_left _ hm) hn⟩
        rw [firstTrue_append_left hm]
        have := firstTrue_lt hm
        omega
      · rw [firstTrue_append_right hm]
        cases ns with
        | nil =>
          rw [← hA]
          refine ⟨fun hx => ?_, fun _ => ?_⟩
          · simp at hx
            exact absurd hx hm
          · simp; omega
        | cons u ns =>
          have hu := (hrest u (by simp)).label
          have hul := mapBits_length (fun _ => true) u.items
          rw [List.flatMap_cons] at hA
          have hlt2 := firstTrue_lt hu
          rw [← hA, List.append_assoc]
          refine ⟨fun _ => ?_, fun hn => absurd (List.mem_append_right _ (List.mem_append_left _ hu)) hn⟩
          rw [firstTrue_append_left hu]
          omega
    · have hd : (M ++ (A ++ List.replicate k false)).drop (p + 1) = (A ++ List.replicate k false).drop (p - 256 + 1) := by
        rw [List.drop_append, List.drop_eq_nil_of_le (by omega), List.nil_append]
        congr 1
        omega
      rw [hd]
      have := ih hrest (p := p - 256) (k := k) (by omega)
      refine ⟨this.1, fun hn => ?_⟩
      have := this.2 hn
      omega

theorem DView.near {cfg : Config} {fp : Bytes → Word} {ld : LoudsDense} {ns : List Grp} (h : DView cfg fp ld ns) (hok : ∀ t ∈ ns, t.Good) : Cnt.Near ld := by
  intro pos d hd
  have he := h.lab.holds.bitsOf_eq
  have hnum := h.lab.num
  have hw : ld.labelVec.bv.bits.length = ld.labelVec.bv.numWords := h.lab.wf.words
  have hnw := BitVector.numWordsOf_bounds ld.labelVec.bv.numBits
  have hnn : ld.labelVec.bv.numWords = numWordsOf ld.labelVec.bv.numBits := rfl
  by_cases hp : pos < ld.labelVec.bv.numBits ∧ pos + 1 < 64 * ld.labelVec.bv.numWords
  · rw [BitVector.distanceToNextSetBit_spec _ hw pos hp.1 hp.2, he] at hd
    have hlt := hp.1
    rw [hnum, Nat.add_zero] at hlt
    have hnx := labels_next hok (k := 64 * ld.labelVec.bv.bits.length - (ns.flatMap fun t => mapBits (fun _ => true) t.items).length) hlt
    split at hd
    · next hm => cases hd; exact hnx.1 hm
    · next hm =>
      cases hd
      rw [hnum]
      exact hnx.2 hm
  · unfold BitVector.distanceToNextSetBit at hd
    dsimp only at hd
    split at hd
    · cases hd; omega
    · next hge =>
      obtain ⟨w, -, hd⟩ := Option.bind_eq_some_iff.mp hd
      split at hd
      · cases hd
        have := trailing_le (w >>> ((pos + 1) % 64))
        omega
      · obtain ⟨last, hlast, hd⟩ := Option.bind_eq_some_iff.mp hd
        unfold usub at hlast
        split at hlast
        · cases hlast
          split at hd
          · unfold usub at hd
            split at hd
            · cases hd; omega
            · cases hd
          · exfalso
            omega
        · cases hlast

theorem Built.near {cfg : Config} {fp : Bytes → Word} {s : SuRF} {t : Grp} {cut h : Nat} (B : Built cfg fp s t cut h) : Cnt.Near s.ld := by
  refine B.dv.near (fun x hx => ?_)
  unfold nodesIn at hx
  obtain ⟨i, -, hx⟩ := List.mem_flatMap.mp hx
  exact B.root.desc_ok hx

end Surf
