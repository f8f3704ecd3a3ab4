import Verif.Surf.WrapIterSparse
import Verif.Surf.WrapBuilt
import Verif.Surf.Astray

/-!
# The filters of keys that are not too long are small enough for the iterators
-/

set_option linter.unusedSimpArgs false

namespace Surf

open U32

theorem PV.getPrefix_le {v : PrefixVec} {ns : List Grp} {M : Nat} (hp : PV v ns) (hM : ∀ t ∈ ns, t.pre.length ≤ M) {id : Nat} {r : Bytes} (h : v.getPrefix id = some r) : r.length ≤ M := by
  have hnum := hp.rv.num
  rcases Nat.lt_or_ge id v.hasPrefixVec.bv.numBits with hid | hid
  · obtain ⟨b, -, h2⟩ := PrefixVec.getPrefix_spec v _ hp.wf id hid
    rw [h, Option.some.injEq] at h2
    subst h2
    cases b with
    | false => exact Nat.zero_le _
    | true =>
      rw [if_pos rfl]
      cases e : ((ns.map Grp.pre).filter (fun p => !p.isEmpty))[ones ((bitsOf v.hasPrefixVec.bv.bits).take id)]? with
      | none => exact Nat.zero_le _
      | some p =>
        obtain ⟨t, ht, rfl⟩ := List.mem_map.mp (List.mem_filter.mp (List.mem_of_getElem? e)).1
        exact hM t ht
  · have hb := hp.rv.holds.bit id
    rw [List.getElem?_eq_none (by omega)] at hb
    unfold PrefixVec.getPrefix at h
    obtain ⟨b, h1, h⟩ := Option.bind_eq_some_iff.mp h
    have : b = false := by
      unfold BitVector.isSet at h1
      rw [readBit_eq] at h1
      unfold bitAt at hb
      simpa [h1] using hb
    subst this
    cases h
    exact Nat.zero_le _

theorem Grp.pre_le {t : Grp} {M : Nat} (hM : ∀ x ∈ t.kvs, x.1.length ≤ M) : t.pre.length ≤ M := by
  unfold Grp.pre
  split
  · exact Nat.zero_le _
  · rename_i x xs e
    have := hM x (by rw [e]; simp)
    rw [List.length_drop, List.length_take]
    omega

theorem nodesIn_pre_le {t c : Grp} {M a n : Nat} (hM : ∀ x ∈ t.kvs, x.1.length ≤ M) (hc : c ∈ nodesIn t a n) : c.pre.length ≤ M := by
  obtain ⟨i, hi⟩ := nodesIn_mem hc
  exact Grp.pre_le (fun x hx => hM x (desc_kvs i t c hi x hx))

/-- A node `l` levels below another begins `l` bytes behind it at least. -/
theorem desc_d (l : Nat) : ∀ (t c : Grp), c ∈ t.desc l → t.d + l ≤ c.d := by
  induction l with
  | zero =>
    intro t c hc
    rw [Grp.desc, List.mem_singleton] at hc
    subst hc
    exact Nat.le_refl _
  | succ l ih =>
    intro t c hc
    rw [Grp.desc, List.mem_flatMap] at hc
    obtain ⟨u, hu, hc⟩ := hc
    have := ih u c hc
    unfold Grp.children at hu
    rw [List.mem_map] at hu
    obtain ⟨i, hi, rfl⟩ := hu
    have := t.bd_ge
    dsimp only at *
    omega

section
variable {cfg : Config} {fp : Bytes → Word} {s : SuRF} {t : Grp} {cut h M : Nat}

/-- There are not more levels than bytes in the longest key, and one. -/
theorem Built.height_le (B : Built cfg fp s t cut h) (hM : ∀ x ∈ t.kvs, x.1.length ≤ M) : h ≤ M + 1 := by
  have hlt := B.lt
  have hne := B.ne (h - 1) (by omega)
  obtain ⟨c, hc⟩ := List.exists_mem_of_ne_nil _ hne
  have hd := desc_d _ _ _ hc
  have hg := B.root.desc_ok hc
  obtain ⟨x, hx⟩ := List.exists_mem_of_ne_nil _ hg.ne
  have h1 := hg.len x hx
  have h2 := hM x (desc_kvs _ _ _ hc x hx)
  omega

theorem Built.iSmall (B : Built cfg fp s t cut h) (hs : s.Small) (hM : ∀ x ∈ t.kvs, x.1.length ≤ M) (hb : (M + 2) * (M + 1) ≤ 2 ^ 31) : s.ISmall M := by
  have hh := B.height_le hM
  have hlt := B.lt
  have hMM : (M + 2) * 1 ≤ (M + 2) * (M + 1) := Nat.mul_le_mul_left _ (by omega)
  refine ⟨⟨hs.ld, fun id r hr => B.dv.pre.getPrefix_le (fun c hc => nodesIn_pre_le hM hc) hr, ?_⟩,
    ⟨hs.ls, fun id r hr => B.sv.pre.getPrefix_le (fun c hc => nodesIn_pre_le hM hc) hr, ?_, ?_, ?_⟩⟩
  · refine Nat.le_trans (Nat.mul_le_mul_right _ ?_) hb
    rw [B.ht]; omega
  · refine Nat.le_trans (Nat.mul_le_mul_right _ ?_) hb
    unfold LoudsSparse.sparseLevels
    rw [B.hs]; omega
  · rw [B.hs]; omega
  · rw [B.hs, B.start]; omega

/-- `Prev` on the dense leaf of the key that is as short as the shared part of all keys panics in 32-bit arithmetic, too: it looks for level 2^32 - 1. -/
theorem DLeaf.prev_none_u {T : Grp} {ip iq : List Item} {i : Item} {it : Iterator} (B : Built cfg fp s t cut h) (bmi : Bool) (hcut : cut < 2 ^ 31)
    (h1 : DLeaf t cut it.d [] T ip i iq) (hs : it.s.valid = false) (hterm : i.term = true) : U32.prev bmi s it = none := by
  unfold U32.prev
  rw [hs]
  simp only [Bool.false_eq_true, if_false]
  unfold U32.decrDense
  rw [h1.valid]
  simp only [Bool.not_true, Bool.false_eq_true, if_false]
  rcases h1.place with ⟨h2, -⟩ | ⟨-, h2, j, iq', h3, h4⟩
  · rw [hterm] at h2
    simp at h2
  · have := h1.lt
    rw [List.length_nil] at this
    have hlev : it.d.level = 0 := h4.lev
    have hsz := h4.szp
    have e : U32.dPrev s.ld it.d = none := by
      unfold U32.dPrev
      rw [B.ht, if_neg (by omega), h2, hlev]
      simp only [if_true]
      rw [show (0 ⊟ 1 : Nat) = 2 ^ 32 - 2 + 1 by decide, U32.dPrevLoop]
      unfold U32.dPrevHere
      rw [List.getElem?_eq_none (by omega)]
      rfl
    rw [e]
    rfl

/-- Where `Prev` panics, it does so in 32-bit arithmetic, too. -/
theorem Built.r_prev_u (B : Built cfg fp s t cut h) (bmi : Bool) (hcut : cut < 2 ^ 31) {it : Iterator} (hr : Roam t cut h it) (hn : it.prev bmi s = none) : U32.prev bmi s it = none := by
  rcases B.r_prev bmi (by omega) hr with ⟨⟨T, ip, i, iq, h1, hi⟩, -⟩ | ⟨it', h1, -⟩
  · rcases hr with ⟨-, h2⟩ | ⟨R, T', sc, l, rc, h2, hf, -⟩ | h2
    · exact h1.prev_none_u B bmi hcut h2.valid hi
    · obtain ⟨a1, a2, a3⟩ := h1.comp
      obtain ⟨b1, b2, b3⟩ := h2.comp
      rw [← b1, ← b2, ← b3, a1, a2, a3] at hf
      cases hf
    · rw [B.done_prev bmi h2] at hn
      cases hn
  · rw [h1] at hn
    cases hn

end

end Surf
