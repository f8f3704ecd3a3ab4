import Verif.Art.Tower
import Verif.Props.ArtSteps

/-!
# `Put` is slow where prefixes are long: C90

At every node with a prefix of more than eight bytes `Put` looks for a leaf below the node, to get the whole prefix (`fullKey`, node.go:575-607). Where there are many such nodes on the path of the key, this takes
quadratic time. `Get` does not look.
-/

set_option linter.unusedSimpArgs false

namespace Art.Props

open Surf Spec

section
variable {T : Nat} {σ : Nat → Conf} {who : Nat → Nat}

/-- A slow program does not return earlier among other calls that leave the heap alone. -/
theorem slow_undisturbed (h : Run T σ who) {i : Nat} {c : Call} {o : Option Bytes} : ∀ (d t n : Nat) p, t + d ≤ T → (∀ e, e < d → who (t + e) ≠ i → (σ (t + e + 1)).heap = (σ (t + e)).heap) →
    (σ t).procs i = .running c p → Slow (σ t).heap n p → (σ (t + d)).procs i = .done c o → n + 1 ≤ steps who i t d := by
  intro d
  induction d with
  | zero =>
    intro t n p _ _ hp _ hdone
    rw [Nat.add_zero, hp] at hdone
    simp at hdone
  | succ d ih =>
    intro t n p ht hoth hp hs hdone
    have hoth' : ∀ e, e < d → who (t + 1 + e) ≠ i → (σ (t + 1 + e + 1)).heap = (σ (t + 1 + e)).heap := fun e he => by
      have := hoth (e + 1) (by omega)
      rwa [show t + (e + 1) = t + 1 + e by omega] at this
    have hst := h.step t (by omega)
    rw [steps_succ]
    rw [show t + (d + 1) = t + 1 + d by omega] at hdone
    by_cases hi : who t = i
    · rw [if_pos hi]
      rw [hi] at hst
      cases n with
      | zero => omega
      | succ n =>
        rcases hs.step hp hst with hcr | ⟨p', h1, h2, h3⟩
        · exfalso
          have still : ∀ d, t + 1 + d ≤ T → (σ (t + 1 + d)).procs i = .crashed c := by
            intro d
            induction d with
            | zero => intro _; exact hcr
            | succ d ih =>
              intro hd
              have hst := h.step (t + 1 + d) (by omega)
              have hne : who (t + 1 + d) ≠ i := by
                intro e
                rw [e] at hst
                rcases hst.before with ⟨h3, -⟩ | ⟨c, p, h3⟩ <;> simp [ih (by omega)] at h3
              rw [show t + 1 + (d + 1) = t + 1 + d + 1 by omega, hst.other hne.symm]
              exact ih (by omega)
          rw [still d (by omega)] at hdone
          simp at hdone
        · have := ih (t + 1) n p' (by omega) hoth' h1 (by rw [h2]; exact h3) hdone
          omega
    · rw [if_neg hi]
      have := ih (t + 1) n p (by omega) hoth' (by rw [hst.other (fun e => hi e.symm)]; exact hp) (by rw [show (σ (t + 1)).heap = (σ t).heap from hoth 0 (by omega) hi]; exact hs) hdone
      omega

/-- **C90**: when all keys of `n` blocks are stored and nobody disturbs it, a `Put` of such a key (it has 10·n bytes) does not return before its `2·n² + 10·n`-th step. -/
theorem C90_put_slow (h : Run T σ who) {t d i fuel n : Nat} {key value : Bytes} {o : Option Bytes} {m : Map} (ht : t + d ≤ T) (hq : Quiet (σ t).heap)
    (hp : (σ t).procs i = .running (.put key value) ((Call.put key value).prog fuel)) (hm : Stands (σ t).heap m) (hn : 1 ≤ n) (htw : Tower n m) (hk : m key ≠ none)
    (hoth : ∀ e, e < d → who (t + e) ≠ i → (σ (t + e + 1)).heap = (σ (t + e)).heap) (hdone : (σ (t + d)).procs i = .done (.put key value) o) :
    2 * (n * n) + 10 * n ≤ steps who i t d := by
  obtain ⟨m', E, live, ⟨root, htr⟩, hc⟩ := quiet_seq h (show t ≤ T by omega) hq
  have e : m' = m := htr.stands.unique hm
  subst e
  have hs : Slow (σ t).heap (2 * (n * n) + 10 * n - 1) ((Call.put key value).prog fuel) := Slow.bind (slow_put htr hc htw hn hk fuel)
  have := slow_undisturbed h d t _ _ ht hoth hp hs hdone
  omega

/-- C90: under the same circumstances a `Get` of such a key takes at most `50·n + 9` steps. -/
theorem C90_get_fast (h : Run T σ who) {t d i fuel n : Nat} {key : Bytes} {m : Map} (ht : t + d ≤ T) (hq : Quiet (σ t).heap)
    (hp : (σ t).procs i = .running (.get key) ((Call.get key).prog fuel)) (hm : Stands (σ t).heap m) (htw : Tower n m) (hk : m key ≠ none) (hfu : 10 * n + 5 ≤ fuel)
    (hoth : ∀ e, e < d → who (t + e) ≠ i → (σ (t + e + 1)).heap = (σ (t + e)).heap) : steps who i t d ≤ 50 * n + 9 := by
  have len : ∀ K, m K ≠ none → K.length = 10 * n := by
    intro K hK
    obtain ⟨bs, h1, rfl⟩ := (htw K).mp hK
    rw [blocks_length, h1]
  have := (C89_steps h (L := 10 * n) ht hq hp hm (fun K hK => by rw [len K hK]) hfu (Or.inl (by simp)) hoth).1
  simp only [callSteps, len key hk] at this
  omega

/-! ### Such trees are reached -/

theorem others_still (h : Run T σ who) {i : Nat} {t : Nat} : ∀ d, t + d ≤ T → (∀ u, t ≤ u → u < t + d → who u = i) → ∀ j, j ≠ i → (σ (t + d)).procs j = (σ t).procs j := by
  intro d
  induction d with
  | zero => intros; rfl
  | succ d ih =>
    intro hd hw j hj
    have hst := h.step (t + d) (by omega)
    rw [show t + (d + 1) = t + d + 1 by omega, hst.other (by rw [hw (t + d) (by omega) (by omega)]; exact hj)]
    exact ih (by omega) (fun u h1 h2 => hw u h1 (by omega)) j hj

end

/-- Any keys can be put one after the other. -/
theorem put_all (ks : List Bytes) (hks : ∀ k ∈ ks, k.length < 2 ^ 32) : ∃ T σ who m, Run T σ who ∧ Quiet (σ T).heap ∧ Stands (σ T).heap m ∧ (∀ K, m K ≠ none ↔ K ∈ ks) ∧
    (∀ i c p, (σ T).procs i ≠ .running c p) ∧ ∀ i, ks.length ≤ i → (σ T).procs i = .idle := by
  induction ks with
  | nil =>
    have hr : Run 0 (fun _ => Conf.init) (fun _ => 0) := ⟨rfl, fun t ht => by omega⟩
    have hq : Quiet Conf.init.heap := by
      intro a n hn
      have hall : Conf.init.heap.all (fun n => !locked n.version) = true := by decide +kernel
      have := List.all_eq_true.mp hall n (List.mem_of_getElem? hn)
      simpa using this
    obtain ⟨m, E, live, ⟨root, htr⟩, -⟩ := quiet_seq hr (Nat.le_refl 0) hq
    refine ⟨0, _, _, m, hr, hq, htr.stands, ?_, ?_, ?_⟩
    · intro K
      simp only [List.not_mem_nil, iff_false, not_not]
      cases hK : m K with
      | none => rfl
      | some v =>
        obtain ⟨a, x, l, -, h1, h2, -⟩ := (htr.stands K v).mp hK
        exfalso
        have hall : Conf.init.heap.all (fun n => n.prefixLeaf.isNone && allBytes.all fun b => match n.child b with | some (.leaf _) => false | _ => true) = true := by decide +kernel
        have h3 := List.all_eq_true.mp hall x (List.mem_of_getElem? h1)
        simp only [Bool.and_eq_true, List.all_eq_true] at h3
        rcases h2 with h2 | ⟨b, h2⟩
        · simp [h2] at h3
        · have := h3.2 b (mem_allBytes b)
          simp [h2] at this
    · intro i c p; simp [Conf.init]
    · intro i _; rfl
  | cons k ks ih =>
    obtain ⟨T, σ, who, m, h, hq, hm, hk, hrun, hidle⟩ := ih (fun x hx => hks x (List.mem_cons_of_mem _ hx))
    have hf : (Call.put k []).Fits := ⟨hks k (by simp), by decide⟩
    obtain ⟨L, hL⟩ : ∃ L, ∀ K, m K ≠ none → K.length ≤ L := ⟨2 ^ 32, fun K hK => by
      have := hks K (List.mem_cons_of_mem _ ((hk K).mp hK))
      omega⟩
    obtain ⟨σ2, who2, k1, k2, k3, -⟩ := Run.extend h (.call (.put k []) (L + 5) (hidle ks.length (Nat.le_refl _)) hf)
    have hheap : (σ2 (T + 1)).heap = (σ T).heap := by rw [k3]; rfl
    obtain ⟨d, σ3, who3, o, g1, g2, g3, -, g4, g5, g6⟩ := C89_finish k1 (i := ks.length) (fuel := L + 5) (L := L) (c := .put k []) (m := m) (by rw [hheap]; exact hq) (by rw [k3]; exact to_self _ _ _ _)
      (by rw [hheap]; exact hm) hL (Nat.le_refl _) (Or.inl (by simp))
    have hprocs : ∀ j, j ≠ ks.length → (σ3 (T + 1 + d)).procs j = (σ T).procs j := by
      intro j hj
      rw [others_still g2 (t := T + 1) d (Nat.le_refl _) g4 j hj, g3 _ (Nat.le_refl _), k3]
      simp [Conf.to, hj]
    have hrun' : ∀ i c p, (σ3 (T + 1 + d)).procs i ≠ .running c p := by
      intro i c p
      by_cases e : i = ks.length
      · rw [e, g5]; simp
      · rw [hprocs i e]; exact hrun i c p
    have hq' : Quiet (σ3 (T + 1 + d)).heap := by
      intro a x hx
      by_contra hl
      obtain ⟨i, hi⟩ := (C17_locked_iff g2 (Nat.le_refl _) hx).mp (by simpa using hl)
      exact C17_released g2 (hrun' i) a hi
    obtain ⟨m1, hs1⟩ := quiet_seq k1 (Nat.le_refl _) (by rw [hheap]; exact hq)
    have e1 : m1 = m := by
      obtain ⟨E, live, ⟨root, htr⟩, -⟩ := hs1
      refine htr.stands.unique ?_
      rw [hheap]; exact hm
    subst e1
    obtain ⟨-, hs2, -⟩ := returns_spec hs1 hf g6
    obtain ⟨E, live, ⟨root, htr⟩, -⟩ := hs2
    refine ⟨T + 1 + d, σ3, who3, m1.put k [], g2, hq', htr.stands, ?_, hrun', ?_⟩
    · intro K
      rw [List.mem_cons, ← hk]
      unfold Map.put
      by_cases e : K = k
      · simp [e]
      · simp [e]
    · intro i hi
      simp only [List.length_cons] at hi
      rw [hprocs i (by omega)]
      exact hidle i (by omega)

/-- All lists of `n` bits. -/
def bits : Nat → List (List Bool)
  | 0 => [[]]
  | n + 1 => (bits n).map (false :: ·) ++ (bits n).map (true :: ·)

theorem mem_bits : ∀ {n : Nat} {bs : List Bool}, bs ∈ bits n ↔ bs.length = n := by
  intro n
  induction n with
  | zero => intro bs; simp [bits]
  | succ n ih =>
    intro bs
    simp only [bits, List.mem_append, List.mem_map, ih]
    constructor
    · rintro (⟨a, h1, rfl⟩ | ⟨a, h1, rfl⟩) <;> simp [h1]
    · intro h
      cases bs with
      | nil => simp at h
      | cons b bs =>
        cases b
        · exact Or.inl ⟨bs, by simpa using h, rfl⟩
        · exact Or.inr ⟨bs, by simpa using h, rfl⟩

/-- The hypotheses of `C90_put_slow` are met for every `n` (as far as lengths fit into 32 bits), in a run in which the keys are put one after the other, and the `Put` does return. -/
theorem C90_example (n : Nat) (hn : 10 * n < 2 ^ 32) : ∃ T d σ who m o, Run (T + d) σ who ∧ Quiet (σ T).heap ∧ Stands (σ T).heap m ∧ Tower n m ∧ m (blocks (List.replicate n false)) ≠ none ∧
    (σ T).procs (2 ^ n) = .running (.put (blocks (List.replicate n false)) [1]) ((Call.put (blocks (List.replicate n false)) [1]).prog (10 * n + 5)) ∧
    (∀ u, T ≤ u → u < T + d → who u = 2 ^ n) ∧ (σ (T + d)).procs (2 ^ n) = .done (.put (blocks (List.replicate n false)) [1]) o := by
  have hlen : ∀ n, (bits n).length = 2 ^ n := by
    intro n
    induction n with
    | zero => rfl
    | succ n ih => simp [bits, ih, Nat.pow_succ]; omega
  obtain ⟨T, σ, who, m, h, hq, hm, hk, hrun, hidle⟩ := put_all ((bits n).map blocks) (by
    intro k hk
    obtain ⟨bs, h1, rfl⟩ := List.mem_map.mp hk
    rw [blocks_length, mem_bits.mp h1]
    exact hn)
  have htw : Tower n m := by
    intro K
    rw [hk, List.mem_map]
    constructor
    · rintro ⟨bs, h1, rfl⟩; exact ⟨bs, mem_bits.mp h1, rfl⟩
    · rintro ⟨bs, h1, rfl⟩; exact ⟨bs, mem_bits.mpr h1, rfl⟩
  have hkey : m (blocks (List.replicate n false)) ≠ none := (htw _).mpr ⟨_, by simp, rfl⟩
  have hf : (Call.put (blocks (List.replicate n false)) [1]).Fits := ⟨by rw [blocks_length]; simpa using hn, by decide⟩
  obtain ⟨σ2, who2, k1, k2, k3, -⟩ := Run.extend h (.call _ (10 * n + 5) (hidle (2 ^ n) (by simp [hlen])) hf)
  have hheap : (σ2 (T + 1)).heap = (σ T).heap := by rw [k3]; rfl
  have hp : (σ2 (T + 1)).procs (2 ^ n) = .running (.put (blocks (List.replicate n false)) [1]) ((Call.put (blocks (List.replicate n false)) [1]).prog (10 * n + 5)) := by
    rw [k3]; exact to_self _ _ _ _
  obtain ⟨d, σ3, who3, o, g1, g2, g3, -, g4, g5, g6⟩ := C89_finish k1 (i := 2 ^ n) (L := 10 * n) (m := m) (by rw [hheap]; exact hq) hp (by rw [hheap]; exact hm) (by
    intro K hK
    obtain ⟨bs, h1, rfl⟩ := (htw K).mp hK
    rw [blocks_length, h1]) (Nat.le_refl _) (Or.inl (by simp))
  have e := g3 (T + 1) (Nat.le_refl _)
  exact ⟨T + 1, d, σ3, who3, m, o, g2, by rw [e, hheap]; exact hq, by rw [e, hheap]; exact hm, htw, hkey, by rw [e]; exact hp, g4, g5⟩

end Art.Props
