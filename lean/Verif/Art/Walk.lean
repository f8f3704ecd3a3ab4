import Verif.Art.Commit3
import Verif.Art.Prog

/-! # Facts about single nodes on the way of a key, used for runs alone and for concurrent runs -/

set_option linter.unusedSimpArgs false

namespace Art

open Surf Spec

theorem agree_spec : ∀ (len : Nat) (a b : Bytes), len ≤ a.length → len ≤ b.length →
    ∃ k, agree a b len = some k ∧ k ≤ len ∧ a.take k = b.take k ∧ (k < len → a[k]? ≠ b[k]?) := by
  intro len
  induction len with
  | zero => intro a b _ _; exact ⟨0, by simp [agree], Nat.le_refl _, by simp, by simp⟩
  | succ len ih =>
    intro a b ha hb
    cases a with
    | nil => simp at ha
    | cons x a =>
      cases b with
      | nil => simp at hb
      | cons y b =>
        simp only [agree]
        by_cases e : x = y
        · subst e
          obtain ⟨k, h1, h2, h3, h4⟩ := ih a b (by simpa using ha) (by simpa using hb)
          refine ⟨k + 1, by simp [h1], by omega, by simp [h3], ?_⟩
          intro hk
          simpa using h4 (by omega)
        · refine ⟨0, by simp [e], by omega, by simp, ?_⟩
          intro _
          simp [e]

/-- Comparing the rest `Y` of a path with a key. -/
theorem agree_path {P key Y : Bytes} {depth len : Nat} (hd : depth ≤ P.length) (hp : P.take depth <+: key)
    (hY : Y.take (P.length - depth) = P.drop depth) (hlen : len = min (key.length - depth) (P.length - depth)) :
    ∃ k, agree Y (key.drop depth) len = some k ∧ k ≤ P.length - depth ∧ P.take (depth + k) <+: key ∧
      (k < P.length - depth → ¬ P.take (depth + k + 1) <+: key) := by
  have hYl : P.length - depth ≤ Y.length := by
    have := congrArg List.length hY
    simp at this
    omega
  have hdk : depth ≤ key.length := by
    have := hp.length_le
    simp at this
    omega
  obtain ⟨k, h1, h2, h3, h4⟩ := agree_spec len Y (key.drop depth) (by omega) (by simp; omega)
  have hYP : Y.take k = (P.drop depth).take k := by
    rw [← hY, List.take_take]
    congr 1
    omega
  have hyi : ∀ i, i < P.length - depth → Y[i]? = P[depth + i]? := by
    intro i hi
    have := congrArg (fun l => l[i]?) hY
    simp only [List.getElem?_take, if_pos hi, List.getElem?_drop] at this
    exact this
  refine ⟨k, h1, by omega, ?_, ?_⟩
  · rw [List.prefix_iff_eq_take]
    have e1 : P.take (depth + k) = P.take depth ++ (P.drop depth).take k := List.take_add
    have e2 : key.take (depth + k) = key.take depth ++ (key.drop depth).take k := List.take_add
    have e3 : (P.take (depth + k)).length = depth + k := by simp; omega
    have e4 : P.take depth = key.take depth := by
      have h5 := List.prefix_iff_eq_take.mp hp
      rw [List.length_take, Nat.min_eq_left hd] at h5
      exact h5
    rw [e3, e1, e2, ← hYP, h3, e4]
  · intro hk hpre
    have hl := hpre.length_le
    simp at hl
    have hkl : k < len := by omega
    apply h4 hkl
    rw [hyi k hk, List.getElem?_drop]
    obtain ⟨s, hs⟩ := hpre
    rw [← hs, List.getElem?_append_left (by simp; omega), List.getElem?_take, if_pos (by omega)]

theorem mismatchShort_spec {n : Node} {P key : Bytes} {depth : Nat} (hd : depth + n.prefixLen = P.length)
    (hpre : n.pre = Node.pad8 (P.drop (P.length - n.prefixLen))) (h8 : n.prefixLen ≤ 8) (hp : P.take depth <+: key) :
    ∃ k, mismatchShort n key depth = some k ∧ k ≤ n.prefixLen ∧ P.take (depth + k) <+: key ∧
      (k < n.prefixLen → ¬ P.take (depth + k + 1) <+: key) := by
  have hdk : depth ≤ key.length := by
    have := hp.length_le
    simp at this
    omega
  have e : P.length - n.prefixLen = depth := by omega
  rw [e] at hpre
  have hl : P.length - depth = n.prefixLen := by omega
  obtain ⟨k, h1, h2, h3, h4⟩ := agree_path (Y := n.pre) (len := min (key.length - depth) n.prefixLen) (by omega) hp (by
    rw [hpre, take_pad8 _ _ (by omega) (by simp), List.take_of_length_le (by simp)]) (by omega)
  rw [hl] at h2 h4
  refine ⟨k, ?_, h2, h3, h4⟩
  simp [mismatchShort, usub_eq hdk, h1]

theorem mismatchLong_spec {n : Node} {P key full : Bytes} {depth : Nat} (hd : depth + n.prefixLen = P.length)
    (hfull : P <+: full) (hp : P.take depth <+: key) :
    ∃ k, mismatchLong n key full depth = some k ∧ k ≤ n.prefixLen ∧ P.take (depth + k) <+: key ∧
      (k < n.prefixLen → ¬ P.take (depth + k + 1) <+: key) := by
  have hl : P.length - depth = n.prefixLen := by omega
  have hdk : depth ≤ key.length := by
    have := hp.length_le
    simp at this
    omega
  obtain ⟨k, h1, h2, h3, h4⟩ := agree_path (Y := full.drop depth) (len := min key.length (depth + n.prefixLen) - depth) (by omega) hp (by
    obtain ⟨s, rfl⟩ := hfull
    rw [List.drop_append_of_le_length (by omega), List.take_append_of_le_length (by simp), List.take_of_length_le (by simp)]) (by omega)
  rw [hl] at h2 h4
  exact ⟨k, h1, h2, h3, h4⟩

/-- What `checkPrefix` finds out. -/
theorem checkPrefix_spec {n : Node} {P key : Bytes} {depth : Nat} (hd : depth + n.prefixLen = P.length)
    (hpre : n.pre = Node.pad8 (P.drop (P.length - n.prefixLen))) (hdk : depth ≤ key.length) :
    ((n.checkPrefix key depth).2 = false → ¬ P <+: key) ∧
    ((n.checkPrefix key depth).2 = true → (n.checkPrefix key depth).1 = P.length ∧ P.length ≤ key.length) := by
  unfold Node.checkPrefix
  by_cases h0 : n.prefixLen = 0
  · simp only [if_pos h0]
    refine ⟨by simp, fun _ => ⟨by omega, by omega⟩⟩
  · simp only [if_neg h0]
    split
    next hlt =>
      refine ⟨fun _ hh => ?_, by simp⟩
      have := hh.length_le
      omega
    next hge =>
      refine ⟨?_, fun _ => ⟨by simp; omega, by omega⟩⟩
      intro hh hpk
      simp at hh
      apply hh
      rw [hpre, hd]
      obtain ⟨s, rfl⟩ := hpk
      rw [List.take_left]
      congr 2
      omega

theorem take_of_le_prefix {P key : Bytes} {d : Nat} (h : P <+: key) : P.take d <+: key := (List.take_prefix _ _).trans h

/-- The next byte of the key. -/
theorem snoc_get {P key : Bytes} {b : UInt8} (h : P <+: key) (hb : key[P.length]? = some b) : P ++ [b] <+: key := by
  obtain ⟨s, rfl⟩ := h
  rw [List.getElem?_append_right (Nat.le_refl _), Nat.sub_self] at hb
  cases s with
  | nil => simp at hb
  | cons x s =>
    simp at hb
    subst hb
    exact ⟨s, by simp⟩

theorem get_of_snoc {P key : Bytes} {b : UInt8} (h : P ++ [b] <+: key) : key[P.length]? = some b := by
  obtain ⟨s, rfl⟩ := h
  simp

end Art
