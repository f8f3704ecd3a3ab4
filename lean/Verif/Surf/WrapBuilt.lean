import Verif.Surf.WrapLemmas
import Verif.Surf.Size

/-!
# The filters of at most 2^23 keys are small enough
-/

namespace Surf

theorem ones_le_length (l : List Bool) : ones l ≤ l.length := List.count_le_length

theorem ones_take_le (l : List Bool) (n : Nat) : ones (l.take n) ≤ ones l := List.Sublist.count_le _ (List.take_sublist _ _)

theorem RankVector.small_of {v : RankVector} {bs : Nat} {A : List Bool} {e m : Nat} (hr : RV v bs A e) (hl : v.rankLut.length = v.bv.numBits / v.blockSize + 1)
    (hn : v.bv.numBits + 2 ^ 10 ≤ 2 ^ 32) (hm : ones A ≤ m) : v.Small m := by
  refine ⟨⟨hr.wf.words, hn⟩, fun x hx => ?_⟩
  obtain ⟨i, hi, e⟩ := List.getElem_of_mem hx
  have h1 := hr.wf.lut i (by omega)
  rw [List.getElem?_eq_getElem hi, e, Option.some.injEq] at h1
  have h2 := ones_take_le (bitsOf v.bv.bits) (i * v.blockSize)
  rw [hr.holds.ones] at h2
  omega

theorem SelectVector.small_of {v : SelectVector} (hw : v.WF) (hn : v.bv.numBits + 2 ^ 10 ≤ 2 ^ 32) : v.Small := by
  have hlen : (bitsOf v.bv.bits).length ≤ v.bv.numBits + 63 := by
    rw [bitsOf_length, hw.words]
    unfold numWordsOf
    split <;> omega
  refine ⟨⟨hw.words, hn⟩, ?_⟩
  intro n hmem
  obtain ⟨i, hi, e⟩ := List.getElem_of_mem hmem
  cases i with
  | zero =>
    have := hw.zero
    rw [List.getElem?_eq_getElem hi, e, Option.some.injEq] at this
    omega
  | succ i =>
    have h0 := hw.len
    obtain ⟨p, h1, h2⟩ := hw.lut (i + 1) (by omega) (by omega)
    rw [List.getElem?_eq_getElem hi, e, Option.some.injEq] at h1
    subst h1
    have h3 := getElem?_lt h2.1
    omega

theorem PrefixVec.small_of {v : PrefixVec} {ns : List Grp} (hp : PV v ns) (hl : v.hasPrefixVec.rankLut.length = v.hasPrefixVec.bv.numBits / v.hasPrefixVec.blockSize + 1)
    (hn : ns.length ≤ 2 ^ 23) : v.Small := by
  have hnum := hp.rv.num
  rw [List.length_map] at hnum
  refine ⟨RankVector.small_of hp.rv hl (by omega) ?_, ?_, ?_⟩
  · refine Nat.le_trans (ones_le_length _) ?_
    rw [List.length_map]; omega
  · rw [hp.wf.offs, offsets_length]
    have := prefixes_le ns
    omega
  · rw [hp.wf.data]; exact hp.wf.small

theorem SuffixVector.small_of {cfg : Config} {v : SuffixVector} {ws : List Word} (hv : SV cfg v ws) (h1 : cfg.suffixLen ≤ 64) : v.Small := by
  by_cases h0 : cfg.suffixType = .none
  · rw [hv.none h0]
    exact ⟨by decide⟩
  · obtain ⟨-, a, b, -, -⟩ := hv.some_ h0
    refine ⟨?_⟩
    unfold SuffixVector.suffixLen
    unfold Config.suffixLen at h1
    omega

theorem Built.small {cfg : Config} {fp : Bytes → Word} {s : SuRF} {t : Grp} {cut h : Nat} (B : Built cfg fp s t cut h) (L : s.Luts)
    (hn : t.kvs.length ≤ 2 ^ 23) (hv : t.kvs.length * cfg.valueSize < 2 ^ 32) (hsl : cfg.suffixLen ≤ 64) : s.Small := by
  have hlt := B.lt
  have hok := B.root.toOK
  obtain ⟨dn, sn, di, si, dl, sl, C, hipn⟩ := B.counts
  obtain ⟨c1, c2, c3, c4, c5, c6, c7, c8, c9, c10, c11, c12, c13⟩ := C
  have hvl1 := B.values_length 0 cut
  have hvl2 := B.values_length cut (h - cut)
  rw [c6] at hvl1
  rw [c7] at hvl2
  have hv1 : dl * cfg.valueSize ≤ t.kvs.length * cfg.valueSize := Nat.mul_le_mul_right _ (by omega)
  have hv2 : sl * cfg.valueSize ≤ t.kvs.length * cfg.valueSize := Nat.mul_le_mul_right _ (by omega)
  obtain ⟨e, hip⟩ := B.dv.ip
  have hall : ∀ g ∈ nodesIn t 0 cut, g.OK := by
    intro g hg
    rcases nodesIn_two hok hg with rfl | ⟨g1, -⟩
    · exact hok
    · exact g1.toOK
  have o1 := ones_child_all _ hall
  have o2 := ones_leaf_all _ hall
  have o3 := ones_le_length ((nodesIn t 0 cut).map Grp.hasEnd)
  rw [List.length_map, c1] at o3
  have hpn := B.dv.pre.rv.num
  rw [List.length_map, c1] at hpn
  refine ⟨⟨?_, ?_, ?_, ?_, ?_, ?_, ?_, ?_⟩, ⟨?_, ?_, ?_, ?_, ?_, ?_, ?_, ?_⟩⟩
  · refine RankVector.small_of B.dv.lab L.dl ?_ ?_
    · rw [B.dv.lab.num, mapBits_flat_length]; omega
    · omega
  · refine RankVector.small_of B.dv.hc L.dhc ?_ ?_
    · rw [B.dv.hc.num, mapBits_flat_length]; omega
    · omega
  · refine RankVector.small_of hip L.dip ?_ ?_
    · omega
    · omega
  · exact SuffixVector.small_of B.dv.suf hsl
  · rw [B.dv.val]
    dsimp only; omega
  · exact PrefixVec.small_of B.dv.pre L.dpre (by omega)
  · omega
  · omega
  · rw [B.sv.lab, List.length_append, List.length_map, List.length_singleton]; omega
  · refine RankVector.small_of B.sv.hc L.shc ?_ ?_
    · rw [B.sv.hc.num, List.length_map]; omega
    · refine Nat.le_trans (ones_le_length _) ?_
      rw [List.length_map]; omega
  · rw [B.sv.hc.num, List.length_map]; omega
  · refine SelectVector.small_of B.sv.lowf ?_
    rw [B.sv.lon, c5]; omega
  · rw [B.sv.dc]; omega
  · exact SuffixVector.small_of B.sv.suf hsl
  · rw [B.sv.val]
    dsimp only; omega
  · exact PrefixVec.small_of B.sv.pre L.spre (by omega)

end Surf
