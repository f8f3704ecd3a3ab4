import Verif.Art.Lin
import Verif.Art.LockWord

/-!
# The tree used by any number of threads: C46, C47

`Legal` and `Op` (in `Verif.Art.Lin`) are the specification of C46: what a single thread would see. `Word` (in `Verif.Art.LockWord`) are the operations of
lock.go on 64-bit words.
-/

set_option linter.unusedSimpArgs false

namespace Art.Props

open Surf Spec

section
variable {T : Nat} {σ : Nat → Conf} {who : Nat → Nat}

/-- C46: every run is linearizable. There is one order of calls – each one once; all those that have returned, with what they returned, and some of those that have begun – such that
made one after the other on an empty store they return the same, and the store holds then what the tree holds; and no call is in this
order before a call that returned before it began. -/
theorem C46_linearizable (h : Run T σ who) : ∃ L : List Op,
    (L.map Op.id).Nodup ∧
    (∀ i c o, (σ T).procs i = .done c o → ⟨i, c, o⟩ ∈ L) ∧
    (∀ e ∈ L, ((σ T).procs e.id).call = some e.call ∧ ∀ c o, (σ T).procs e.id = .done c o → e.out = o) ∧
    L.Pairwise (fun a b => ¬ ∃ t, t ≤ T ∧ (σ t).procs a.id = .idle ∧ ∃ c o, (σ t).procs b.id = .done c o) ∧
    ∃ m, Legal Map.empty L m ∧ Stands (σ T).heap m := by
  obtain ⟨s, hs⟩ := h.si T (Nat.le_refl _)
  have hid : ((order σ T who s).map (opOf (σ T))).map Op.id = order σ T who s := by
    rw [List.map_map]
    conv => rhs; rw [← List.map_id (order σ T who s)]
    apply List.map_congr_left
    intro i _
    exact opOf_id _ _
  refine ⟨(order σ T who s).map (opOf (σ T)), ?_, ?_, ?_, ?_, ?_⟩
  · rw [hid]
    exact order_nodup h hs
  · intro i c o hd
    rw [List.mem_map]
    refine ⟨i, order_complete h hs hd, ?_⟩
    unfold opOf
    rw [hd]
  · intro e he
    rw [List.mem_map] at he
    obtain ⟨i, hi, rfl⟩ := he
    unfold order at hi
    rw [List.mem_flatMap] at hi
    obtain ⟨t, ht, hi⟩ := hi
    rw [List.mem_range] at ht
    obtain ⟨c, p, -, hc⟩ := block_runs h hs (show t ≤ T by omega) hi
    rw [opOf_id, opOf_call hc]
    refine ⟨hc, ?_⟩
    intro c' o hd
    unfold opOf
    rw [hd]
  · rw [List.pairwise_map]
    exact (order_time h hs).imp (fun {a b} hab => by rw [opOf_id, opOf_id]; exact hab)
  · have h0 : s.hist[0]? = some (none, Map.empty) := by
      obtain ⟨m, hm⟩ := hs.first
      rw [hm, (hs.maps _ _ _ hm).unique (C14_map h).1]
    obtain ⟨m, h1, h2⟩ := order_legal h hs h0
    exact ⟨m, h2, h1⟩

/-- In `d` steps the version of a node rises by at most `3 * d`. -/
theorem version_rise (h : Run T σ who) {t : Nat} {a : Addr} {n : Node} (hn : (σ t).heap[a]? = some n) :
    ∀ d, t + d ≤ T → ∀ n', (σ (t + d)).heap[a]? = some n' → n'.version ≤ n.version + 3 * d := by
  intro d
  induction d with
  | zero =>
    intro _ n' hn'
    rw [Nat.add_zero, hn] at hn'
    cases hn'
    omega
  | succ d ih =>
    intro hd n' hn'
    obtain ⟨n1, h1, -, -⟩ := C18_version_monotone h hn d (by omega)
    have := h.version (show t + d < T by omega) h1 hn'
    have := ih (by omega) n1 h1
    omega

/-- C47: lock.go keeps the version of a node in a word of 64 bits. On any stretch of at most `2 ^ 62` steps of a run, every test lock.go makes on these words has the outcome that the model, which
uses numbers, gives it, and every word is the word of the number. -/
theorem C47_words (h : Run T σ who) {t d : Nat} (hT : t + d ≤ T) (hd : d ≤ 2 ^ 62) {a : Addr} {n n' : Node} (hn : (σ t).heap[a]? = some n) (hn' : (σ (t + d)).heap[a]? = some n') :
    Word.check (word n.version) (word n'.version) = decide (n'.version = n.version) ∧
    Word.upgrade (word n.version) (word n'.version) = (if n'.version = n.version then (word (n.version + 2), true) else (word n'.version, false)) ∧
    Word.locked (word n'.version) = locked n'.version ∧ Word.obsolete (word n'.version) = obsolete n'.version ∧
    Word.unlock (word n'.version) = word (n'.version + 2) ∧ Word.unlockObsolete (word n'.version) = word (n'.version + 3) := by
  obtain ⟨n1, h1, -, h2⟩ := C18_version_monotone h hn d hT
  rw [hn'] at h1
  cases h1
  have h3 := version_rise h hn d hT n' hn'
  have hiff : word n.version = word n'.version ↔ n'.version = n.version := by
    constructor
    · intro e
      exact (word_inj e h2 (by omega)).symm
    · intro e
      rw [e]
  refine ⟨?_, ?_, word_locked _, word_obsolete _, word_add _ _, word_add _ _⟩
  · unfold Word.check
    rw [Bool.eq_iff_iff, beq_iff_eq, decide_eq_true_eq]
    exact hiff
  · unfold Word.upgrade
    by_cases e : n'.version = n.version
    · rw [if_pos (hiff.mpr e).symm, if_pos e, word_add]
    · rw [if_neg (fun h => e (hiff.mp h.symm)), if_neg e]

/-- C47: if the word of a node that was not locked is the same again at most `2 ^ 62` steps later, the node did not change in between. -/
theorem C47_snapshot (h : Run T σ who) {t : Nat} {a : Addr} {n : Node} (hn : (σ t).heap[a]? = some n) (hl : Word.locked (word n.version) = false)
    {d : Nat} (hT : t + d ≤ T) (hd : d ≤ 2 ^ 62) {n' : Node} (hn' : (σ (t + d)).heap[a]? = some n') (hw : word n.version = word n'.version) :
    ∀ e, e ≤ d → (σ (t + e)).heap[a]? = some n := by
  have h1 := (C47_words h hT hd hn hn').1
  unfold Word.check at h1
  rw [beq_iff_eq.mpr hw] at h1
  rw [word_locked] at hl
  exact C18_snapshot h hn hl hT hn' (of_decide_eq_true h1.symm)

end

/-! ## Examples -/

/-- The call `i` was `c` and has returned `o`. -/
def ended (σ : Conf) (i : Nat) (c : Call) (o : Option Bytes) : Bool := match σ.procs i with
  | .done c' o' => decide (c' = c) && decide (o' = o)
  | _ => false

theorem ended_iff {σ : Conf} {i : Nat} {c : Call} {o : Option Bytes} (h : ended σ i c o = true) : σ.procs i = .done c o := by
  unfold ended at h
  split at h
  next c' o' e =>
    rw [Bool.and_eq_true, decide_eq_true_eq, decide_eq_true_eq] at h
    rw [e, h.1, h.2]
  next => simp at h

/-- What `C46_linearizable` says of the run `overtaken`, in which a `Get` begun first returns the value of a `Put` begun later: both are in the order, with what they returned. -/
example : ∃ σ who, ∃ L : List Op, Run overtaken.length σ who ∧ (∃ m, Legal Map.empty L m ∧ Stands (σ overtaken.length).heap m) ∧
    ⟨5, .get (sevens 20 2), some [4]⟩ ∈ L ∧ ⟨3, .put (sevens 20 2) [4], none⟩ ∈ L := by
  have h : ((exec overtaken Conf.init).map fun σ => ended σ 5 (.get (sevens 20 2)) (some [4]) && ended σ 3 (.put (sevens 20 2) [4]) none) = some true := by
    decide +kernel
  simp only [Option.map_eq_some_iff] at h
  obtain ⟨σ', h1, h2⟩ := h
  obtain ⟨σ, who, h3, h4⟩ := exec_run h1
  rw [Bool.and_eq_true] at h2
  obtain ⟨L, -, g2, -, -, g5⟩ := C46_linearizable h3
  exact ⟨σ, who, L, h3, g5, g2 _ _ _ (by rw [h4]; exact ended_iff h2.1), g2 _ _ _ (by rw [h4]; exact ended_iff h2.2)⟩

/-- `Legal` on three calls: a `Get` that finds what was put before, and one that finds nothing after a `Delete`. -/
example : Legal Map.empty [⟨3, .put [1] [4], none⟩, ⟨5, .get [1], some [4]⟩, ⟨6, .delete [1], none⟩, ⟨7, .get [1], none⟩] Map.empty ∧
    ¬ ∃ m, Legal Map.empty [⟨5, .get [1], some [4]⟩, ⟨3, .put [1] [4], none⟩] m := by
  refine ⟨⟨rfl, rfl, rfl, rfl, ?_⟩, ?_⟩
  · funext k
    simp [Call.effect, Map.delete, Map.put, Map.empty]
  · rintro ⟨m, h, -⟩
    simp [Call.answer, Map.empty] at h

/-- The hypotheses of `C47_words` and `C47_snapshot` are met in the run `unlucky`: the lock word of the first node is 12 at the end, and it is not locked. Words wrap: the word of 2 ^ 64 + 12 is the same. -/
example : ((exec unlucky Conf.init).map fun σ => σ.heap.map fun n => (word n.version, Word.locked (word n.version), Word.obsolete (word n.version))) =
    some [(0#64, false, false), (12#64, false, false), (9#64, false, true), (4#64, false, false)] ∧ word (2 ^ 64 + 12) = word 12 := by
  decide +kernel

end Art.Props
