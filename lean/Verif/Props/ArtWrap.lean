import Verif.Art.WrapSim
import Verif.Props.ArtLin

/-!
# Property C75: `Get`, `Put` and `Delete` of the tree in the 32-bit arithmetic of the code

`Verif.Art.Wrap` has the calls once more, with every `uint32` sum and difference taken modulo 2^32, as in the code. The rest of the development counts with unbounded numbers.
Here: for keys of less than 2^31 bytes, whatever any number of threads can see of the one they can see of the other.
-/

set_option linter.unusedSimpArgs false

namespace Art.Props

open Surf Spec

/-- What can be seen of a call: that it has not begun; that it is under way; what it has returned; that it has panicked. -/
inductive Seen where
  | nothing
  | running (c : Call)
  | returned (c : Call) (o : Option Bytes)
  | panicked (c : Call)

/-- What can be seen of a call. -/
def _root_.Art.Proc.seen : Proc → Seen
  | .idle => .nothing
  | .running c _ => .running c
  | .done c o => .returned c o
  | .crashed c => .panicked c

section
variable {T : Nat} {τ : Nat → Conf} {who : Nat → Nat}

/-- **C75.** Every run in 32-bit arithmetic is a run with unbounded numbers: there is one with the same nodes in memory, the same locks held, and the same calls begun, returned (with the same results) and
panicked, at every instant. -/
theorem C75_refines (h : U32.Run T τ who) : ∃ σ, Run T σ who ∧ ∀ t, t ≤ T →
    (σ t).heap = (τ t).heap ∧ (σ t).owner = (τ t).owner ∧ ∀ i, ((σ t).procs i).seen = ((τ t).procs i).seen := by
  obtain ⟨σ, h1, h2, -⟩ := U32.simulate T h
  refine ⟨σ, h1, fun t ht => ⟨(h2 t ht).heap, (h2 t ht).owner, fun i => ?_⟩⟩
  have := (h2 t ht).procs i
  generalize (σ t).procs i = p, (τ t).procs i = q at this
  cases this <;> rfl

/-- **C75.** No prefix length of 2^31 or more is ever stored. -/
theorem C75_lengths (h : U32.Run T τ who) {t : Nat} (ht : t ≤ T) {a : Addr} {n : Node} (hn : (τ t).heap[a]? = some n) : n.prefixLen < 2 ^ 31 := by
  obtain ⟨σ, h1, h2, h3⟩ := U32.simulate T h
  rw [← (h2 t ht).heap] at hn
  exact (h3 t ht).low a n hn

theorem seen_done {p p' : Proc} (h : p.seen = p'.seen) {c : Call} {o : Option Bytes} : p = .done c o ↔ p' = .done c o := by
  cases p <;> cases p' <;> simp_all [Proc.seen]

theorem seen_idle {p p' : Proc} (h : p.seen = p'.seen) : p = .idle ↔ p' = .idle := by
  cases p <;> cases p' <;> simp_all [Proc.seen]

theorem seen_crashed {p p' : Proc} (h : p.seen = p'.seen) {c : Call} : p = .crashed c ↔ p' = .crashed c := by
  cases p <;> cases p' <;> simp_all [Proc.seen]

theorem seen_call {p p' : Proc} (h : p.seen = p'.seen) : p.call = p'.call := by
  cases p <;> cases p' <;> simp_all [Proc.seen, Proc.call]

theorem seen_running {p p' : Proc} (h : p.seen = p'.seen) {c : Call} : (∃ q, p = .running c q) ↔ ∃ q, p' = .running c q := by
  cases p <;> cases p' <;> simp_all [Proc.seen]

/-- **C75.** Every run in 32-bit arithmetic is linearizable, as in C46. -/
theorem C75_linearizable (h : U32.Run T τ who) : ∃ L : List Op,
    (L.map Op.id).Nodup ∧
    (∀ i c o, (τ T).procs i = .done c o → ⟨i, c, o⟩ ∈ L) ∧
    (∀ e ∈ L, ((τ T).procs e.id).call = some e.call ∧ ∀ c o, (τ T).procs e.id = .done c o → e.out = o) ∧
    L.Pairwise (fun a b => ¬ ∃ t, t ≤ T ∧ (τ t).procs a.id = .idle ∧ ∃ c o, (τ t).procs b.id = .done c o) ∧
    ∃ m, Legal Map.empty L m ∧ Stands (τ T).heap m := by
  obtain ⟨σ, h1, h2⟩ := C75_refines h
  obtain ⟨e1, -, e2⟩ := h2 T (Nat.le_refl _)
  obtain ⟨L, g1, g2, g3, g4, m, g5, g6⟩ := C46_linearizable h1
  refine ⟨L, g1, fun i c o hd => g2 i c o ((seen_done (e2 i)).mpr hd), fun e he => ?_, g4.imp ?_, m, g5, by rw [← e1]; exact g6⟩
  · obtain ⟨f1, f2⟩ := g3 e he
    exact ⟨by rw [← seen_call (e2 e.id)]; exact f1, fun c o hd => f2 c o ((seen_done (e2 e.id)).mpr hd)⟩
  · rintro a b hab ⟨t, ht, f1, c, o, f2⟩
    obtain ⟨-, -, e3⟩ := h2 t ht
    exact hab ⟨t, ht, (seen_idle (e3 a.id)).mpr f1, c, o, (seen_done (e3 b.id)).mpr f2⟩

/-- **C75.** In 32-bit arithmetic too, no `Get` and no `Delete` panics: no depth or length wraps to a slice expression out of bounds. -/
theorem C75_no_panic (h : U32.Run T τ who) {i : Nat} {c : Call} (hc : (τ T).procs i = .crashed c) : ∃ k v, c = .put k v := by
  obtain ⟨σ, h1, h2⟩ := C75_refines h
  exact C21_no_panic_partial h1 ((seen_crashed ((h2 T (Nat.le_refl _)).2.2 i)).mpr hc)

/-- **C75.** In 32-bit arithmetic too, a call that is not under way holds no lock. -/
theorem C75_released (h : U32.Run T τ who) {i : Nat} (hd : ∀ c p, (τ T).procs i ≠ .running c p) (a : Addr) : (τ T).owner a ≠ some i := by
  obtain ⟨σ, h1, h2⟩ := C75_refines h
  obtain ⟨-, e1, e2⟩ := h2 T (Nat.le_refl _)
  rw [← e1]
  refine C17_released h1 (fun c p hp => ?_) a
  obtain ⟨q, hq⟩ := (seen_running (e2 i)).mp ⟨p, hp⟩
  exact hd c q hq

end

/-- **C75.** The arithmetic does wrap: with a prefix of 2^31 bytes at a depth of 2^31, `checkPrefix` computes the position 0, and `key[depth:0]` panics. -/
theorem C75_wraps (n : Node) (key : Bytes) (hp : n.prefixLen = 2 ^ 31) : U32.checkPrefix n key (2 ^ 31) = none := by
  unfold U32.checkPrefix
  have e : U32.add 2147483648 2147483648 = 0 := by decide
  simp [hp, e]

/-- **C75.** The bound on the keys is needed: at the root, a key of 2^32 bytes counts as the empty one (`uint32(len(key))` is 0), so that `Get` looks no further
than the leaf of the empty key, whatever is stored. -/
theorem C75_long (n : Node) (key : Bytes) (hk : key.length = 2 ^ 32) (hp : n.prefixLen = 0) :
    U32.checkPrefix n key 0 = some (0, true) ∧ U32.nextNode n key 0 = some (n.prefixLeaf.map .leaf) := by
  have e : U32.u 4294967296 = 0 := by decide
  exact ⟨by simp [U32.checkPrefix, hp], by simp [U32.nextNode, hk, e]⟩

/-! ## Examples: runs by a schedule -/

instance (c : Call) : Decidable (U32.Small c) := by
  cases c <;> (unfold U32.Small; infer_instance)

/-- A step of the call `i` in 32-bit arithmetic, that reads what is there. Only the program of a new call is another. -/
def actU (σ : Conf) (i : Nat) : Act → Option Conf
  | .call c fuel => match σ.procs i with
    | .idle => if U32.Small c then some (σ.to i σ.heap (.running c (U32.prog c fuel))) else none
    | _ => none
  | .go b => act σ i (.go b)

theorem actU_step {σ σ' : Conf} {i : Nat} {x : Act} (h : actU σ i x = some σ') {B : Addr → Nat → Prop} (hB : ∀ (a : Addr) n, σ.heap[a]? = some n → B a n.prefixLen) :
    U32.Step B i σ σ' := by
  cases x with
  | call c fuel =>
    simp only [actU] at h
    split at h
    next hp =>
      by_cases e : U32.Small c
      · rw [if_pos e] at h
        cases h
        exact .call c fuel hp e
      · rw [if_neg e] at h
        simp at h
    next => simp at h
  | go b =>
    simp only [actU, act] at h
    split at h
    next c o hp => cases h; exact .ret hp
    next c hp => cases h; exact .crash hp trivial
    next c a k hp =>
      split at h
      next n hn =>
        by_cases e : locked n.version = false
        · rw [if_pos e] at h; cases h; exact .wait hp hn e
        · rw [if_neg e] at h; simp at h
      next => simp at h
    next c a k hp =>
      split at h
      next n hn => cases h; exact .load hp hn
      next => simp at h
    next c a v k hp =>
      split at h
      next n hn =>
        by_cases e : n.version = v
        · rw [if_pos e] at h; cases h; exact .cas hp hn e
        · rw [if_neg e] at h; cases h; exact .casFail hp hn e
      next => simp at h
    next c a k hp =>
      split at h
      next n hn =>
        by_cases e : locked n.version = false
        · rw [if_pos e] at h
          by_cases e' : obsolete n.version = false
          · rw [if_pos e'] at h; cases h; exact .lock hp hn e e'
          · rw [if_neg e'] at h; simp at h
        · rw [if_neg e] at h; simp at h
      next => simp at h
    next c a k hp =>
      split at h
      next n hn => cases h; exact .unlock hp hn
      next => simp at h
    next c a k hp =>
      split at h
      next n hn => cases h; exact .unlockObsolete hp hn
      next => simp at h
    next c a v k hp =>
      split at h
      next n hn => cases h; exact .read n hp hn rfl (fun _ => rfl) (fun _ => hB a n hn)
      next => simp at h
    next c k hp =>
      split at h
      next n hn => cases h; exact .readRoot hp hn
      next => simp at h
    next c k hp => cases h; exact .choose b hp
    next c f k hp =>
      split at h
      next hh hn => cases h; exact .write hp hn
      next => simp at h
    next => simp at h

/-- Run a schedule. -/
def execU : List (Nat × Act) → Conf → Option Conf
  | [], σ => some σ
  | (i, x) :: xs, σ => (actU σ i x).bind (execU xs)

/-- The states of a run by a schedule. -/
def statesU : List (Nat × Act) → Conf → Nat → Conf
  | [], σ, _ => σ
  | _ :: _, σ, 0 => σ
  | (i, x) :: xs, σ, t + 1 => match actU σ i x with
    | some σ' => statesU xs σ' t
    | none => σ

theorem statesU_zero (xs : List (Nat × Act)) (σ : Conf) : statesU xs σ 0 = σ := by
  cases xs <;> rfl

theorem execU_acts : ∀ (xs : List (Nat × Act)) (σ σ' : Conf), execU xs σ = some σ' → statesU xs σ xs.length = σ' ∧
    ∀ t, t < xs.length → ∃ x, actU (statesU xs σ t) ((xs[t]?.map (·.1)).getD 0) x = some (statesU xs σ (t + 1)) := by
  intro xs
  induction xs with
  | nil =>
    intro σ σ' h
    cases h
    exact ⟨rfl, by simp⟩
  | cons x xs ih =>
    intro σ σ' h
    obtain ⟨i, x⟩ := x
    simp only [execU, Option.bind_eq_some_iff] at h
    obtain ⟨σ1, h1, h2⟩ := h
    obtain ⟨g1, g2⟩ := ih σ1 σ' h2
    refine ⟨by simp only [List.length_cons, statesU, h1]; exact g1, ?_⟩
    intro t ht
    cases t with
    | zero =>
      simp only [statesU, h1, List.getElem?_cons_zero, Option.map_some, Option.getD_some, statesU_zero]
      exact ⟨x, h1⟩
    | succ t =>
      simp only [statesU, h1, List.getElem?_cons_succ]
      exact g2 t (by simpa using ht)

theorem execU_run {xs : List (Nat × Act)} {σ' : Conf} (h : execU xs Conf.init = some σ') : ∃ σ who, U32.Run xs.length σ who ∧ σ xs.length = σ' := by
  obtain ⟨h1, h2⟩ := execU_acts xs _ _ h
  refine ⟨statesU xs Conf.init, fun t => (xs[t]?.map (·.1)).getD 0, ⟨statesU_zero _ _, fun t ht => ?_⟩, h1⟩
  obtain ⟨x, hx⟩ := h2 t ht
  exact actU_step hx (fun a n hn => ⟨t, n, Nat.le_refl _, hn, rfl⟩)

/-- The hypotheses of C75 are met: the run `overtaken` in 32-bit arithmetic. -/
theorem C75_example : ∃ σ who, U32.Run overtaken.length σ who ∧ (σ overtaken.length).returned 5 (some [4]) ∧ (σ overtaken.length).returned 3 none := by
  have h : ((execU overtaken Conf.init).map fun σ => σ.returned 5 (some [4]) && σ.returned 3 none) = some true := by decide +kernel
  simp only [Option.map_eq_some_iff] at h
  obtain ⟨σ', h1, h2⟩ := h
  obtain ⟨σ, who, h3, h4⟩ := execU_run h1
  rw [Bool.and_eq_true] at h2
  exact ⟨σ, who, h3, by rw [h4]; exact h2.1, by rw [h4]; exact h2.2⟩

/-- The run of `C21_violated` in 32-bit arithmetic: here too the `Put` panics, and the `Delete`, which makes a prefix longer, returns. It meets the hypotheses of `C75_no_panic` and `C75_released`. -/
theorem C75_example_panic : ∃ σ who, U32.Run unlucky.length σ who ∧ (σ unlucky.length).panicked 3 ∧ (σ unlucky.length).returned 4 none := by
  have h : ((execU unlucky Conf.init).map fun σ => σ.panicked 3 && σ.returned 4 none) = some true := by decide +kernel
  simp only [Option.map_eq_some_iff] at h
  obtain ⟨σ', h1, h2⟩ := h
  obtain ⟨σ, who, h3, h4⟩ := execU_run h1
  rw [Bool.and_eq_true] at h2
  exact ⟨σ, who, h3, by rw [h4]; exact h2.1, by rw [h4]; exact h2.2⟩

end Art.Props
