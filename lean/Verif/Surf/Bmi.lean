import Verif.Surf.Select64
import Verif.Surf.Iter

/-! Nothing depends on whether the processor has BMI2: every call of `select64` asks for a set bit that is there. -/

set_option linter.unusedSimpArgs false

namespace Surf

theorem select64_bmi (b : Bool) (x : Word) (n : Nat) (h1 : 1 ≤ n) (h2 : n ≤ onesCount x) : select64 b x n = select64 false x n := by
  have h3 : n ≤ (wbits x).count true := h2
  obtain ⟨p, e, hp⟩ := select64_spec b x n h1 h3
  obtain ⟨q, f, hq⟩ := select64_spec false x n h1 h3
  rw [e, f, hp.unique hq]

theorem select64_some (x : Word) (n : Nat) (h1 : 1 ≤ n) (h2 : n ≤ onesCount x) : ∃ p, select64 false x n = some p := by
  obtain ⟨p, e, -⟩ := select64_spec false x n h1 h2
  exact ⟨p, e⟩

attribute [local irreducible] select64 onesCount

namespace SelectVector

theorem sampleLoop_step (b : Bool) (w : Word) (i up o : Nat) (lut : List Nat) (s : Nat) (hs : up < s) (hle : s ≤ up + o) (p : Nat) (hp : select64 b w (s - up) = some p) :
    sampleLoop b w i up o lut s = sampleLoop b w i up o (lut ++ [i * 64 + p]) (s + selectSampleInterval) := by
  have hu : usub s up = some (s - up) := by
    unfold usub
    rw [if_pos (by omega)]
  rw [sampleLoop, if_pos hle, hu, Option.bind_eq_bind, Option.bind_some, hp]
  rfl

theorem sampleLoop_stop (b : Bool) (w : Word) (i up o : Nat) (lut : List Nat) (s : Nat) (hle : ¬ s ≤ up + o) : sampleLoop b w i up o lut s = some (lut, s) := by
  rw [sampleLoop, if_neg hle]

theorem sampleLoop_bmi (b : Bool) (w : Word) (i up o : Nat) (ho : o = onesCount w) : ∀ (n : Nat) (lut : List Nat) (s : Nat), up < s → up + o + 1 - s ≤ n →
    sampleLoop b w i up o lut s = sampleLoop false w i up o lut s ∧ ∀ l s', sampleLoop false w i up o lut s = some (l, s') → up + o < s' := by
  have stop : ∀ (lut : List Nat) (s : Nat), ¬ s ≤ up + o →
      sampleLoop b w i up o lut s = sampleLoop false w i up o lut s ∧ ∀ l s', sampleLoop false w i up o lut s = some (l, s') → up + o < s' := by
    intro lut s hle
    rw [sampleLoop_stop b _ _ _ _ _ _ hle, sampleLoop_stop false _ _ _ _ _ _ hle]
    refine ⟨rfl, ?_⟩
    intro l s' h
    simp only [Option.some.injEq, Prod.mk.injEq] at h
    omega
  intro n
  induction n with
  | zero =>
    intro lut s hs hn
    exact stop lut s (by omega)
  | succ n ih =>
    intro lut s hs hn
    by_cases hle : s ≤ up + o
    · obtain ⟨p, hp⟩ := select64_some w (s - up) (by omega) (by omega)
      have hb := select64_bmi b w (s - up) (by omega) (by omega)
      rw [sampleLoop_step b _ _ _ _ _ _ hs hle p (hb.trans hp), sampleLoop_step false _ _ _ _ _ _ hs hle p hp]
      exact ih (lut ++ [i * 64 + p]) (s + selectSampleInterval) (by omega) (by unfold selectSampleInterval; omega)
    · exact stop lut s hle

theorem lutLoop_cons (b : Bool) (w : Word) (ws : List Word) (i up : Nat) (lut : List Nat) (s : Nat) :
    lutLoop b (w :: ws) i up lut s = (sampleLoop b w i up (onesCount w) lut s).bind (fun r => lutLoop b ws (i + 1) (up + onesCount w) r.1 r.2) := by
  conv => lhs; rw [lutLoop]
  generalize sampleLoop b w i up (onesCount w) lut s = o
  generalize up + onesCount w = o
  rfl

theorem lutLoop_bmi (b : Bool) : ∀ (ws : List Word) (i up : Nat) (lut : List Nat) (s : Nat), up < s → lutLoop b ws i up lut s = lutLoop false ws i up lut s := by
  intro ws
  induction ws with
  | nil => intros; rfl
  | cons w ws ih =>
    intro i up lut s hs
    rw [lutLoop_cons, lutLoop_cons]
    generalize ho : onesCount w = o
    obtain ⟨e1, e2⟩ := sampleLoop_bmi b w i up o ho.symm _ lut s hs (Nat.le_refl _)
    rw [e1]
    cases h : sampleLoop false w i up o lut s with
    | none => rw [Option.bind_none, Option.bind_none]
    | some r =>
      rw [Option.bind_some, Option.bind_some]
      exact ih _ _ _ _ (e2 r.1 r.2 h)

theorem init_bmi (b : Bool) (ls : List (List Word)) (ns : List Nat) : init b ls ns = init false ls ns := by
  unfold init
  have h : ∀ bv : BitVector, lutLoop b bv.bits 0 0 [0] selectSampleInterval = lutLoop false bv.bits 0 0 [0] selectSampleInterval := fun bv => lutLoop_bmi b _ _ _ _ _ (by decide)
  simp only [h]

theorem selectLoop_succ (b : Bool) (bits : List Word) (fuel off : Nat) (w : Word) (r o : Nat) (ho : onesCount w = o) :
    selectLoop b bits (fuel + 1) off w r = if o < r then (bits[off + 1]?).bind (fun w' => selectLoop b bits fuel (off + 1) w' (r - o)) else (select64 b w r).bind (fun s => some (off * 64 + s)) := by
  subst ho
  conv => lhs; rw [selectLoop]
  generalize onesCount w = o
  by_cases h : o < r
  · simp only [if_pos h]
    cases bits[off + 1]? with
    | none => rw [Option.bind_none, Option.bind_eq_bind, Option.bind_none]
    | some x => rw [Option.bind_some, Option.bind_eq_bind, Option.bind_some]
  · simp only [if_neg h]
    generalize select64 b w r = y
    cases y with
    | none => rw [Option.bind_none, Option.bind_eq_bind, Option.bind_none]
    | some x => rw [Option.bind_some, Option.bind_eq_bind, Option.bind_some, Option.pure_def]

theorem selectLoop_bmi (b : Bool) (bits : List Word) : ∀ (fuel off : Nat) (w : Word) (r : Nat), 1 ≤ r → selectLoop b bits fuel off w r = selectLoop false bits fuel off w r := by
  intro fuel
  induction fuel with
  | zero => intros; rw [selectLoop, selectLoop]
  | succ n ih =>
    intro off w r hr
    generalize ho : onesCount w = o
    rw [selectLoop_succ b _ _ _ _ _ o ho, selectLoop_succ false _ _ _ _ _ o ho]
    by_cases h : o < r
    · rw [if_pos h, if_pos h]
      cases bits[off + 1]? with
      | none => rw [Option.bind_none, Option.bind_none]
      | some x =>
        rw [Option.bind_some, Option.bind_some]
        exact ih _ _ _ (by omega)
    · rw [if_neg h, if_neg h, select64_bmi b w r hr (by omega)]

theorem selectFrom_bmi (b : Bool) (v : SelectVector) (pos r : Nat) : v.selectFrom b pos r = v.selectFrom false pos r := by
  unfold selectFrom
  by_cases h : r = 0
  · rw [if_pos h, if_pos h]
  · rw [if_neg h, if_neg h]
    have e : ∀ off w, selectLoop b v.bv.bits (v.bv.bits.length + 1) off w r = selectLoop false v.bv.bits (v.bv.bits.length + 1) off w r :=
      fun off w => selectLoop_bmi b _ _ _ _ _ (by omega)
    simp only [e]

theorem select_bmi (b : Bool) (v : SelectVector) (r : Nat) : v.select b r = v.select false r := by
  unfold select
  simp only [selectFrom_bmi b]

end SelectVector

theorem build_bmi (fp : Bytes → Word) (b : Bool) (cfg : Config) (keys vals : List Bytes) (hint : Int) : build fp b cfg keys vals hint = build fp false cfg keys vals hint := by
  unfold build assemble LoudsSparse.init
  simp only [SelectVector.init_bmi b]

theorem firstLabelPos_bmi (b : Bool) (ls : LoudsSparse) (n : Nat) : ls.firstLabelPos b n = ls.firstLabelPos false n := by
  unfold LoudsSparse.firstLabelPos
  simp only [SelectVector.select_bmi b]

theorem lastLabelPos_bmi (b : Bool) (ls : LoudsSparse) (n : Nat) : ls.lastLabelPos b n = ls.lastLabelPos false n := by
  unfold LoudsSparse.lastLabelPos
  simp only [SelectVector.select_bmi b]

theorem getLoop_bmi (fp : Bytes → Word) (b : Bool) (ls : LoudsSparse) (q : Bytes) : ∀ fuel d n p, ls.getLoop fp b q fuel d n p = ls.getLoop fp false q fuel d n p := by
  intro fuel
  induction fuel with
  | zero => intros; rfl
  | succ k ih =>
    intro d n p
    rw [LoudsSparse.getLoop, LoudsSparse.getLoop]
    simp only [firstLabelPos_bmi b, ih]

theorem get_bmi (fp : Bytes → Word) (b : Bool) (s : SuRF) (q : Bytes) : s.get fp b q = s.get fp false q := by
  unfold SuRF.get LoudsSparse.get
  simp only [firstLabelPos_bmi b, getLoop_bmi fp b]

namespace SparseIter

theorem downLoop_bmi (b : Bool) (ls : LoudsSparse) (first : Bool) : ∀ n it p, downLoop b ls first n it p = downLoop false ls first n it p := by
  intro n
  induction n with
  | zero => intros; rfl
  | succ k ih =>
    intro it p
    rw [downLoop, downLoop]
    simp only [firstLabelPos_bmi b, lastLabelPos_bmi b, ih]

theorem move_bmi (b : Bool) (ls : LoudsSparse) (first : Bool) (it : SparseIter) : it.move b ls first = it.move false ls first := by
  unfold move enter
  simp only [firstLabelPos_bmi b, lastLabelPos_bmi b, downLoop_bmi b]

theorem next_bmi (b : Bool) (ls : LoudsSparse) (it : SparseIter) : it.next b ls = it.next false ls := by
  unfold next
  simp only [move_bmi b]

theorem prev_bmi (b : Bool) (ls : LoudsSparse) (it : SparseIter) : it.prev b ls = it.prev false ls := by
  unfold prev
  simp only [move_bmi b]

theorem seekLoop_bmi (b : Bool) (ls : LoudsSparse) (q : Bytes) : ∀ n it d i p, seekLoop b ls q n it d i p = seekLoop false ls q n it d i p := by
  intro n
  induction n with
  | zero =>
    intro it d i p
    rw [seekLoop, seekLoop]
    unfold seekTail
    simp only [move_bmi b]
  | succ k ih =>
    intro it d i p
    rw [seekLoop, seekLoop]
    unfold seekLabel moveToLeftInNextSubTrie compareSuffixGreaterThan
    simp only [move_bmi b, next_bmi b, firstLabelPos_bmi b, ih]

theorem seek_bmi (b : Bool) (ls : LoudsSparse) (it : SparseIter) (q : Bytes) : it.seek b ls q = it.seek false ls q := by
  unfold seek
  simp only [seekLoop_bmi b, firstLabelPos_bmi b]

end SparseIter

namespace Iterator

theorem intoSparse_bmi (b : Bool) (f : SuRF) (first : Bool) (it : Iterator) : it.intoSparse b f first = it.intoSparse false f first := by
  unfold intoSparse
  simp only [SparseIter.move_bmi b]

theorem next_bmi (b : Bool) (f : SuRF) (it : Iterator) : it.next b f = it.next false f := by
  unfold next incrDense
  simp only [SparseIter.next_bmi b, intoSparse_bmi b]

theorem prev_bmi (b : Bool) (f : SuRF) (it : Iterator) : it.prev b f = it.prev false f := by
  unfold prev decrDense
  simp only [SparseIter.prev_bmi b, intoSparse_bmi b]

theorem seek_bmi (b : Bool) (f : SuRF) (it : Iterator) (q : Bytes) : it.seek b f q = it.seek false f q := by
  unfold seek incrDense
  simp only [SparseIter.seek_bmi b, intoSparse_bmi b]

theorem seekToFirst_bmi (b : Bool) (f : SuRF) (it : Iterator) : it.seekToFirst b f = it.seekToFirst false f := by
  unfold seekToFirst
  simp only [SparseIter.move_bmi b, intoSparse_bmi b]

theorem seekToLast_bmi (b : Bool) (f : SuRF) (it : Iterator) : it.seekToLast b f = it.seekToLast false f := by
  unfold seekToLast SparseIter.setToLastInRoot
  simp only [SparseIter.move_bmi b, intoSparse_bmi b, lastLabelPos_bmi b]

end Iterator

theorem hasOverlap_bmi (b : Bool) (f : SuRF) (x y : Bytes) (incl : Bool) : f.hasOverlap b x y incl = f.hasOverlap false x y incl := by
  unfold SuRF.hasOverlap
  simp only [Iterator.seek_bmi b]

end Surf
