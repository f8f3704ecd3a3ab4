import Verif.Art.Few
import Verif.Art.Lin
import Verif.Props.ArtConc

/-!
# How long things take: C56, C57, C58

Steps are those of `Verif.Art.System`: an access to a version word, a read of a node, or all changes of a critical section.
-/

set_option linter.unusedSimpArgs false

namespace Art.Props

open Surf Spec

/-- The number of steps that the call `i` makes among the `d` steps from the instant `t` on. -/
def steps (who : Nat → Nat) (i t d : Nat) : Nat := ((List.range d).filter fun e => who (t + e) = i).length

theorem steps_succ (who : Nat → Nat) (i t d : Nat) : steps who i t (d + 1) = (if who t = i then 1 else 0) + steps who i (t + 1) d := by
  have hr : (List.range (d + 1)).filter (fun e => who (t + e) = i) = (if who t = i then [0] else []) ++ ((List.range d).filter fun e => who (t + 1 + e) = i).map (· + 1) := by
    rw [List.range_succ_eq_map, List.filter_cons]
    simp only [Nat.add_zero, List.filter_map]
    have e1 : ((fun e => decide (who (t + e) = i)) ∘ Nat.succ) = fun e => decide (who (t + 1 + e) = i) := by
      funext e
      simp only [Function.comp]
      rw [show t + e.succ = t + 1 + e by omega]
    rw [e1]
    split <;> simp_all
  unfold steps
  rw [hr, List.length_append, List.length_map]
  split <;> rfl

section
variable {T : Nat} {σ : Nat → Conf} {who : Nat → Nat}

theorem Run.cut (h : Run T σ who) {t : Nat} (ht : t ≤ T) : Run t σ who := ⟨h.init, fun u hu => h.step u (by omega)⟩

theorem left_other (h : Run T σ who) {t i n : Nat} (ht : t < T) (hi : who t ≠ i) (hl : Left (σ t) i n) : Left (σ (t + 1)) i n := by
  refine ⟨hl.1, fun c p hp => ?_⟩
  rw [(h.step t ht).other (fun e => hi e.symm)] at hp
  obtain ⟨L, hb, hL⟩ := hl.2 c p hp
  refine ⟨L, hb, fun a => ?_⟩
  rw [← hL]
  rcases C17_lock_steps h ht a with e | ⟨e1, e2⟩ | ⟨e1, e2⟩
  · rw [e]
  · rw [e1, e2]
    simp [hi]
  · rw [e1, e2]
    simp [hi]

theorem left_run (h : Run T σ who) (i : Nat) : ∀ t, t ≤ T → ∃ n, Left (σ t) i n := by
  intro t
  induction t with
  | zero =>
    intro _
    refine ⟨8, Nat.le_refl _, fun c p hp => ?_⟩
    rw [h.init] at hp
    simp [Conf.init] at hp
  | succ t ih =>
    intro ht
    obtain ⟨n, hl⟩ := ih (by omega)
    by_cases hi : who t = i
    · have hs := h.step t (by omega)
      rw [hi] at hs
      obtain ⟨n', h1, -⟩ := hl.step (fun hd a => C17_released (Run.cut h (show t ≤ T by omega)) hd a) hs (fun hd a => C17_released (Run.cut h ht) hd a)
      exact ⟨n', h1⟩
    · exact ⟨n, left_other h (by omega) hi hl⟩

/-- **C56**: while a call holds a lock without interruption it makes at most eight steps, the one that gives back the last lock included. -/
theorem C56_brief (h : Run T σ who) (i t d : Nat) (ht : t + d ≤ T) (hold : ∀ e, e < d → ∃ a, (σ (t + e)).owner a = some i) :
    steps who i t d ≤ 8 := by
  have key : ∀ (d t n : Nat), t + d ≤ T → (∀ e, e < d → ∃ a, (σ (t + e)).owner a = some i) → Left (σ t) i n → steps who i t d ≤ n := by
    intro d
    induction d with
    | zero => intros; simp [steps]
    | succ d ih =>
      intro t n ht hold hl
      rw [steps_succ]
      have hold' : ∀ e, e < d → ∃ a, (σ (t + 1 + e)).owner a = some i := fun e he => by
        have := hold (e + 1) (by omega)
        rwa [show t + (e + 1) = t + 1 + e by omega] at this
      by_cases hi : who t = i
      · have hs := h.step t (by omega)
        rw [hi] at hs
        obtain ⟨n', h1, h2⟩ := hl.step (fun hd a => C17_released (Run.cut h (show t ≤ T by omega)) hd a) hs (fun hd a => C17_released (Run.cut h (show t + 1 ≤ T by omega)) hd a)
        obtain ⟨h3, h4⟩ := h2 (by simpa using hold 0 (by omega))
        rw [if_pos hi]
        cases d with
        | zero => simp [steps]; omega
        | succ d =>
          have h5 := h4 (by simpa using hold 1 (by omega))
          have := ih (t + 1) n' (by omega) hold' h1
          omega
      · rw [if_neg hi]
        have := ih (t + 1) n (by omega) hold' (left_other h (by omega) hi hl)
        omega
  obtain ⟨n, hl⟩ := left_run h i t (by omega)
  exact Nat.le_trans (key d t n ht hold hl) hl.1

/-- C56: a call that holds a lock does not wait in `waitUnlock`. (It waits for a further lock at most, in `lock`.) -/
theorem C56_no_wait (h : Run T σ who) {i : Nat} {a b : Addr} {c : Call} {k : Nat → Prog (Option Bytes)} (ho : (σ T).owner a = some i) : (σ T).procs i ≠ .running c (.wait b k) := by
  intro hp
  obtain ⟨n, hl⟩ := left_run h i T (Nat.le_refl _)
  obtain ⟨L, ⟨rfl, -⟩, hL⟩ := hl.2 _ _ hp
  rw [hL] at ho
  simp at ho

/-! ### Get -/

theorem att_run (h : Run T σ who) {i : Nat} {key : Bytes} : ∀ t, t ≤ T → ∀ p, (σ t).procs i = .running (.get key) p → Att key (5 * key.length + 7) p := by
  intro t
  induction t with
  | zero =>
    intro _ p hp
    rw [h.init] at hp
    simp [Conf.init] at hp
  | succ t ih =>
    intro ht p hp
    have hs := h.step t (by omega)
    by_cases hi : i = who t
    · rw [← hi] at hs
      rcases hs.before with ⟨-, c, fuel, -, h1⟩ | ⟨c, q, hq⟩
      · rw [hp] at h1
        cases h1
        exact .again _
      · have hc : c = .get key := by
          have := (hs.phase i).2 c (by rw [hq]; rfl)
          rw [hp] at this
          simpa [Proc.call] using this.symm
        subst hc
        have ha := ih (by omega) q hq
        obtain ⟨-, -, h1 | ⟨j, p', h1, h2, h3⟩ | ⟨f, p', -, h2, h3⟩⟩ := ha.step hq hs
        · exact absurd hp (h1 p)
        · rw [hp] at h2
          cases h2
          exact h3.mono (by omega)
        · rw [hp] at h2
          cases h2
          exact h3
    · rw [hs.other hi] at hp
      exact ih (by omega) p hp

/-- **C57**: a step of a `Get` changes nothing: no node, no version, no lock. -/
theorem C57_reads (h : Run T σ who) {t : Nat} (ht : t < T) {key : Bytes} {p : Prog (Option Bytes)} (hp : (σ t).procs (who t) = .running (.get key) p) :
    (σ (t + 1)).heap = (σ t).heap ∧ (σ (t + 1)).owner = (σ t).owner :=
  have hs := (att_run h t (by omega) p hp).step hp (h.step t ht)
  ⟨hs.1, hs.2.1⟩

/-- A call that has come to its end makes no steps. -/
theorem steps_end (h : Run T σ who) {i : Nat} : ∀ (d t : Nat), t + d ≤ T → (σ t).procs i ≠ .idle → (∀ c p, (σ t).procs i ≠ .running c p) → steps who i t d = 0 := by
  intro d
  induction d with
  | zero => intros; simp [steps]
  | succ d ih =>
    intro t ht h1 h2
    have hi : who t ≠ i := by
      rintro rfl
      rcases (h.step t (by omega)).before with ⟨h3, -⟩ | ⟨c, p, h3⟩
      · exact h1 h3
      · exact h2 c p h3
    rw [steps_succ, if_neg hi, ih (t + 1) (by omega)]
    · rw [(h.step t (by omega)).other hi.symm]
      exact h1
    · rw [(h.step t (by omega)).other hi.symm]
      exact h2

/-- What a `Get` still has to do while nobody changes the heap, with a whole attempt ahead. -/
theorem few_run (h : Run T σ who) {t : Nat} (ht : t ≤ T) (key : Bytes) (f : Nat) : Few (fun _ => True) (σ t).heap (5 * key.length + 8) (get key f) := by
  obtain ⟨s, hs⟩ := h.si t ht
  obtain ⟨m, -, root, htr⟩ := hs.inv.tree
  rw [hs.heap] at htr
  exact few_get htr (fun a n hl hn => hs.inv.alive a n hl (by rw [hs.heap]; exact hn)) key f

/-- **C57**: while nobody changes the heap, a `Get` makes at most `10 * len(key) + 16` steps: the rest of an attempt that may fail because of changes before, then one attempt that cannot fail. -/
theorem C57_bound (h : Run T σ who) {i t d : Nat} (ht : t + d ≤ T) {key : Bytes} {p : Prog (Option Bytes)} (hp : (σ t).procs i = .running (.get key) p)
    (hq : ∀ e, e < d → (σ (t + e + 1)).heap = (σ (t + e)).heap) : steps who i t d ≤ 10 * key.length + 16 := by
  -- the attempt that cannot fail
  have last : ∀ (d t n : Nat) p, t + d ≤ T → (∀ e, e < d → (σ (t + e + 1)).heap = (σ (t + e)).heap) → (σ t).procs i = .running (.get key) p → Few (fun _ => True) (σ t).heap n p →
      steps who i t d ≤ n + 1 := by
    intro d
    induction d with
    | zero => intros; simp [steps]
    | succ d ih =>
      intro t n p ht hq hp hf
      have hq' : ∀ e, e < d → (σ (t + 1 + e + 1)).heap = (σ (t + 1 + e)).heap := fun e he => by
        have := hq (e + 1) (by omega)
        rwa [show t + (e + 1) = t + 1 + e by omega] at this
      have hh : (σ (t + 1)).heap = (σ t).heap := hq 0 (by omega)
      have hs := h.step t (by omega)
      rw [steps_succ]
      by_cases hi : who t = i
      · rw [if_pos hi]
        rw [hi] at hs
        rcases hf.step hp hs with h1 | ⟨h1, p', h2, h3⟩
        · have := steps_end h (i := i) d (t + 1) (by omega) (by
            intro e
            have := (hs.phase i).2 _ (by rw [hp]; rfl)
            rw [e] at this
            simp [Proc.call] at this) (by
            intro c q e
            have := (hs.phase i).2 _ (by rw [hp]; rfl)
            rw [e] at this
            simp only [Proc.call, Option.some.injEq] at this
            subst this
            exact h1 q e)
          omega
        · have := ih (t + 1) (n - 1) p' (by omega) hq' h2 (by rw [hh]; exact h3)
          omega
      · rw [if_neg hi]
        have := ih (t + 1) n p (by omega) hq' (by rw [hs.other (fun e => hi e.symm)]; exact hp) (by rw [hh]; exact hf)
        omega
  have first : ∀ (d t n : Nat) p, t + d ≤ T → (∀ e, e < d → (σ (t + e + 1)).heap = (σ (t + e)).heap) → (σ t).procs i = .running (.get key) p → Att key n p →
      steps who i t d ≤ n + (5 * key.length + 9) := by
    intro d
    induction d with
    | zero => intros; simp [steps]
    | succ d ih =>
      intro t n p ht hq hp hf
      have hq' : ∀ e, e < d → (σ (t + 1 + e + 1)).heap = (σ (t + 1 + e)).heap := fun e he => by
        have := hq (e + 1) (by omega)
        rwa [show t + (e + 1) = t + 1 + e by omega] at this
      have hs := h.step t (by omega)
      by_cases hi : who t = i
      · rw [hi] at hs
        obtain ⟨-, -, h1 | ⟨j, p', h1, h2, h3⟩ | ⟨f, p', h1, h2, h3⟩⟩ := hf.step hp hs
        · rw [steps_succ, if_pos hi]
          have := steps_end h (i := i) d (t + 1) (by omega) (by
            intro e
            have := (hs.phase i).2 _ (by rw [hp]; rfl)
            rw [e] at this
            simp [Proc.call] at this) (by
            intro c q e
            have := (hs.phase i).2 _ (by rw [hp]; rfl)
            rw [e] at this
            simp only [Proc.call, Option.some.injEq] at this
            subst this
            exact h1 q e)
          omega
        · rw [steps_succ, if_pos hi]
          have := ih (t + 1) j p' (by omega) hq' h2 h3
          omega
        · subst h1
          have := last (d + 1) t _ _ ht hq hp (few_run h (by omega) key _)
          omega
      · rw [steps_succ, if_neg hi]
        have := ih (t + 1) n p (by omega) hq' (by rw [hs.other (fun e => hi e.symm)]; exact hp) hf
        omega
  have := first d t _ p ht hq hp (att_run h t (by omega) p hp)
  omega

/-! ### Any call -/

/-- Nobody holds a lock. -/
def Quiet (h : Heap) : Prop := ∀ (a : Addr) n, h[a]? = some n → locked n.version = false

/-- When nobody holds a lock, the heap is one between two calls that run alone. -/
theorem quiet_seq (h : Run T σ who) {t : Nat} (ht : t ≤ T) (hq : Quiet (σ t).heap) : ∃ m, Seq (σ t).heap m := by
  obtain ⟨s, hs⟩ := h.si t ht
  obtain ⟨m, -, hht⟩ := hs.inv.tree
  obtain ⟨root, htr⟩ := id hht
  rw [hs.heap] at hht htr
  refine ⟨m, s.E, s.live, hht, ?_⟩
  have h4 : ∀ (v : Nat), v % 2 = 0 → locked v = false → v % 4 = 0 := by
    intro v h1 h2
    simp only [locked, beq_eq_false_iff_ne, ne_eq] at h2
    omega
  rintro a (rfl | ha)
  · obtain ⟨d, hd, -⟩ := htr.dummy
    exact ⟨_, ver_of_get hd, h4 _ (hs.inv.zero d (by rw [hs.heap]; exact hd)) (hq 0 d hd)⟩
  · obtain ⟨n, hn, -⟩ := htr.node a ha
    exact ⟨_, ver_of_get hn, h4 _ (hs.inv.alive a n ha (by rw [hs.heap]; exact hn)) (hq a n hn)⟩

theorem fits_run (h : Run T σ who) {i : Nat} {c : Call} : ∀ t, t ≤ T → ∀ p, (σ t).procs i = .running c p → c.Fits := by
  intro t
  induction t with
  | zero =>
    intro _ p hp
    rw [h.init] at hp
    simp [Conf.init] at hp
  | succ t ih =>
    intro ht p hp
    have hs := h.step t (by omega)
    by_cases hi : i = who t
    · rw [← hi] at hs
      rcases hs.before with ⟨-, c', fuel, hf, h1⟩ | ⟨c', q, hq⟩
      · rw [hp] at h1
        cases h1
        exact hf
      · have hc : c' = c := by
          have := (hs.phase i).2 c' (by rw [hq]; rfl)
          rw [hp] at this
          simpa [Proc.call] using this.symm
        subst hc
        exact ih (by omega) q hq
    · rw [hs.other hi] at hp
      exact ih (by omega) p hp

/-- A program that comes to its end in `n` steps when nobody disturbs it does so among other calls that leave the heap alone. -/
theorem solo_undisturbed (h : Run T σ who) {i : Nat} {c : Call} {H : Heap} : ∀ (d t n : Nat) p, t + d ≤ T → (∀ e, e < d → who (t + e) ≠ i → (σ (t + e + 1)).heap = (σ (t + e)).heap) → (σ t).procs i = .running c p →
    Solo (fun o h' => c.Returns H o h') n (σ t).heap p → steps who i t d ≤ n + 1 ∧
    ((∃ o, (σ (t + d)).procs i = .done c o ∧ c.Returns H o (σ (t + d)).heap) ∨ ((∃ p, (σ (t + d)).procs i = .running c p) ∧ ∃ σ', Step i (σ (t + d)) σ')) := by
  intro d
  induction d with
  | zero =>
    intro t n p ht hoth hp hsolo
    exact ⟨by simp [steps], Or.inr ⟨⟨p, hp⟩, hsolo.can hp⟩⟩
  | succ d ih =>
    intro t n p ht hoth hp hsolo
    have hoth' : ∀ e, e < d → who (t + 1 + e) ≠ i → (σ (t + 1 + e + 1)).heap = (σ (t + 1 + e)).heap := fun e he => by
      have := hoth (e + 1) (by omega)
      rwa [show t + (e + 1) = t + 1 + e by omega] at this
    have hst := h.step t (by omega)
    rw [steps_succ, show t + (d + 1) = t + 1 + d by omega]
    by_cases hi : who t = i
    · rw [if_pos hi]
      rw [hi] at hst
      rcases hsolo.step hp hst with ⟨o, h1, h2⟩ | ⟨j, p', rfl, h1, h2⟩
      · have hend := steps_end h (i := i) d (t + 1) (by omega) (by rw [h1]; simp) (by rw [h1]; simp)
        refine ⟨by omega, Or.inl ⟨o, ?_⟩⟩
        -- nothing changes any more
        have still : ∀ (d t : Nat), t + d ≤ T → (∀ e, e < d → who (t + e) ≠ i → (σ (t + e + 1)).heap = (σ (t + e)).heap) → (σ t).procs i = .done c o → c.Returns H o (σ t).heap →
            (σ (t + d)).procs i = .done c o ∧ c.Returns H o (σ (t + d)).heap := by
          intro d
          induction d with
          | zero => intro t _ _ h1 h2; exact ⟨h1, h2⟩
          | succ d ih =>
            intro t ht hoth h1 h2
            have hne : who t ≠ i := by
              rintro rfl
              rcases (h.step t (by omega)).before with ⟨h3, -⟩ | ⟨c, p, h3⟩ <;> simp [h1] at h3
            rw [show t + (d + 1) = t + 1 + d by omega]
            refine ih (t + 1) (by omega) (fun e he => ?_) ?_ ?_
            · have := hoth (e + 1) (by omega)
              rwa [show t + (e + 1) = t + 1 + e by omega] at this
            · rw [(h.step t (by omega)).other hne.symm]
              exact h1
            · rw [show (σ (t + 1)).heap = (σ t).heap from hoth 0 (by omega) hne]
              exact h2
        exact still d (t + 1) (by omega) hoth' h1 h2
      · have := ih (t + 1) j p' (by omega) hoth' h1 h2
        exact ⟨by omega, this.2⟩
    · rw [if_neg hi]
      have := ih (t + 1) n p (by omega) hoth' (by rw [hst.other (fun e => hi e.symm)]; exact hp) (by rw [show (σ (t + 1)).heap = (σ t).heap from hoth 0 (by omega) hi]; exact hsolo)
      exact ⟨by omega, this.2⟩

/-- **C58**: a call that begins when nobody holds a lock, and while which nobody else changes the heap, does what it does when it runs alone, and is through after a number of steps that depends on the heap and the
call only. It never waits. For a `Delete` this is so if it comes to an end at all when it runs alone (see C05). -/
theorem C58_undisturbed : ∃ M : Heap → Call → Nat, ∀ {T : Nat} {σ : Nat → Conf} {who : Nat → Nat}, Run T σ who → ∀ {t d i fuel : Nat} {c : Call}, t + d ≤ T → Quiet (σ t).heap →
    (σ t).procs i = .running c (c.prog fuel) → M (σ t).heap c ≤ fuel → ((∀ k, c ≠ .delete k) ∨ ∃ o h', c.Returns (σ t).heap o h') →
    (∀ e, e < d → who (t + e) ≠ i → (σ (t + e + 1)).heap = (σ (t + e)).heap) →
    steps who i t d ≤ M (σ t).heap c + 1 ∧
    ((∃ o, (σ (t + d)).procs i = .done c o ∧ c.Returns (σ t).heap o (σ (t + d)).heap) ∨
      ((∃ p, (σ (t + d)).procs i = .running c p) ∧ ∃ σ', Step i (σ (t + d)) σ')) := by
  have hM : ∀ (h : Heap) (c : Call), ∃ M, ∀ m, Seq h m → c.Fits → ((∀ k, c ≠ .delete k) ∨ ∃ o h', c.Returns h o h') → ∀ fuel ≥ M, Solo (fun o h' => c.Returns h o h') M h (c.prog fuel) := by
    intro h c
    by_cases hx : (∃ m, Seq h m) ∧ c.Fits ∧ ((∀ k, c ≠ .delete k) ∨ ∃ o h', c.Returns h o h')
    · obtain ⟨⟨m, hs⟩, hf, hr⟩ := hx
      obtain ⟨M, hM⟩ := solo_call hs hf hr
      exact ⟨M, fun _ _ _ _ => hM⟩
    · exact ⟨0, fun m h1 h2 h3 => absurd ⟨⟨m, h1⟩, h2, h3⟩ hx⟩
  refine ⟨fun h c => (hM h c).choose, ?_⟩
  intro T σ who h t d i fuel c ht hq hp hfu hr hoth
  obtain ⟨m, hs⟩ := quiet_seq h (show t ≤ T by omega) hq
  have h0 := (hM (σ t).heap c).choose_spec m hs (fits_run h t (by omega) _ hp) hr fuel hfu
  dsimp only at hfu ⊢
  generalize (hM (σ t).heap c).choose = M at h0 hfu ⊢
  generalize hH : (σ t).heap = H at h0 ⊢
  exact solo_undisturbed h d t M _ ht hoth hp (by rw [hH]; exact h0)

/-- A run can be extended by a step. -/
theorem Run.extend (h : Run T σ who) {i : Nat} {x : Conf} (hs : Step i (σ T) x) :
    ∃ σ' who', Run (T + 1) σ' who' ∧ (∀ u, u ≤ T → σ' u = σ u) ∧ σ' (T + 1) = x ∧ (∀ u, u < T → who' u = who u) ∧ who' T = i := by
  refine ⟨fun u => if u ≤ T then σ u else x, fun u => if u < T then who u else i, ⟨?_, ?_⟩, ?_, ?_, ?_, ?_⟩
  · simp [h.init]
  · intro t ht
    by_cases e : t < T
    · have : t ≤ T := by omega
      have : t + 1 ≤ T := by omega
      simp only [*, if_true]
      exact h.step t e
    · have : t = T := by omega
      subst this
      simp only [Nat.le_refl, if_true, Nat.lt_irrefl, if_false]
      rw [if_neg (by omega)]
      exact hs
  · intro u hu
    simp [hu]
  · simp
  · intro u hu
    simp [hu]
  · simp

/-- C58: from such an instant on the call, left to itself, does return after finitely many steps. -/
theorem C58_finish : ∃ M : Heap → Call → Nat, ∀ {T : Nat} {σ : Nat → Conf} {who : Nat → Nat}, Run T σ who → ∀ {i fuel : Nat} {c : Call}, Quiet (σ T).heap →
    (σ T).procs i = .running c (c.prog fuel) → M (σ T).heap c ≤ fuel → ((∀ k, c ≠ .delete k) ∨ ∃ o h', c.Returns (σ T).heap o h') →
    ∃ d σ' who' o, d ≤ M (σ T).heap c + 1 ∧ Run (T + d) σ' who' ∧ (∀ u, u ≤ T → σ' u = σ u) ∧ (∀ u, T ≤ u → u < T + d → who' u = i) ∧ (σ' (T + d)).procs i = .done c o ∧
      c.Returns (σ T).heap o (σ' (T + d)).heap := by
  obtain ⟨M, hM⟩ := C58_undisturbed
  refine ⟨M, ?_⟩
  intro T σ who h i fuel c hq hp hfu hr
  by_contra hno
  -- otherwise there are runs of any length in which only the call makes steps
  have long : ∀ d, d ≤ M (σ T).heap c + 2 → ∃ σ' who', Run (T + d) σ' who' ∧ (∀ u, u ≤ T → σ' u = σ u) ∧ ∀ u, T ≤ u → u < T + d → who' u = i := by
    intro d
    induction d with
    | zero => intro _; exact ⟨σ, who, h, fun _ _ => rfl, fun u h1 h2 => by omega⟩
    | succ d ih =>
      intro hd
      obtain ⟨σ1, who1, h1, h2, h3⟩ := ih (by omega)
      have e := h2 T (Nat.le_refl _)
      obtain ⟨-, ⟨o, g1, g2⟩ | ⟨-, x, g⟩⟩ := hM h1 (t := T) (d := d) (i := i) (fuel := fuel) (c := c) (Nat.le_refl _) (by rw [e]; exact hq) (by rw [e]; exact hp) (by rw [e]; exact hfu) (by rw [e]; exact hr)
        (fun u hu hne => absurd (h3 (T + u) (by omega) (by omega)) hne)
      · exact absurd ⟨d, σ1, who1, o, by omega, h1, h2, h3, g1, by rw [e] at g2; exact g2⟩ hno
      · obtain ⟨σ2, who2, k1, k2, k3, k4, k5⟩ := Run.extend h1 g
        refine ⟨σ2, who2, k1, fun u hu => by rw [k2 u (by omega), h2 u hu], ?_⟩
        intro u hu1 hu2
        by_cases e : u < T + d
        · rw [k4 u e, h3 u hu1 e]
        · rw [show u = T + d by omega, k5]
  obtain ⟨σ1, who1, h1, h2, h3⟩ := long _ (Nat.le_refl _)
  have e := h2 T (Nat.le_refl _)
  obtain ⟨hst, -⟩ := hM h1 (t := T) (i := i) (fuel := fuel) (c := c) (Nat.le_refl _) (by rw [e]; exact hq) (by rw [e]; exact hp) (by rw [e]; exact hfu) (by rw [e]; exact hr)
    (fun u hu hne => absurd (h3 (T + u) (by omega) (by omega)) hne)
  have hall : steps who1 i T (M (σ T).heap c + 2) = M (σ T).heap c + 2 := by
    unfold steps
    rw [List.filter_eq_self.mpr, List.length_range]
    intro u hu
    rw [List.mem_range] at hu
    simpa using h3 (T + u) (by omega) (by omega)
  rw [hall, e] at hst
  omega

end

/-- After the three `Put`s of `setup`, `Delete(sevens 5 8)` runs: it locks the first node, the second, and, to merge the second with its only remaining child, the third. -/
def merging : List (Nat × Act) := setup ++ [(4, .call (.delete (sevens 5 8)) 9)] ++ goes 4 24

/-- The hypotheses of `C56_brief` are met, and its bound is reached, by this run: at 73 the `Delete` holds a lock, and it does until it has made eight more steps. -/
theorem C56_example : ∃ σ who, Run merging.length σ who ∧ (∀ e, e < 8 → ∃ a, (σ (73 + e)).owner a = some 4) ∧ (∀ e, e < 8 → who (73 + e) = 4) ∧ ∀ a, a < 4 → (σ 81).owner a = none := by
  have h : (exec merging Conf.init).isSome := by decide +kernel
  obtain ⟨σ', h1⟩ := Option.isSome_iff_exists.mp h
  refine ⟨states merging Conf.init, fun t => (merging[t]?.map (·.1)).getD 0, ⟨states_zero _ _, (exec_steps _ _ _ h1).2⟩, ?_, ?_, ?_⟩
  · intro e he
    exact ⟨1, (show ∀ e, e < 8 → (states merging Conf.init (73 + e)).owner 1 = some 4 by decide +kernel) e he⟩
  · decide +kernel
  · decide +kernel

/-- The hypotheses of `C57_reads` and `C57_bound` are met by the run `overtaken` from 108 on: the `Get` is at the end of an attempt that fails because of the `Put`, makes another one, and returns, all without
any change of the heap. -/
theorem C57_example : ∃ σ who p, Run overtaken.length σ who ∧ (σ 108).procs 5 = .running (.get (sevens 20 2)) p ∧ (∀ e, e < 20 → (σ (108 + e + 1)).heap = (σ (108 + e)).heap) ∧
    steps who 5 108 20 = 20 ∧ (σ 128).returned 5 (some [4]) := by
  have h : (exec overtaken Conf.init).isSome := by decide +kernel
  obtain ⟨σ', h1⟩ := Option.isSome_iff_exists.mp h
  obtain ⟨p, hp⟩ : ∃ p, (states overtaken Conf.init 108).procs 5 = .running (.get (sevens 20 2)) p := by
    have hx : (match (states overtaken Conf.init 108).procs 5 with | .running c _ => decide (c = .get (sevens 20 2)) | _ => false) = true := by decide +kernel
    split at hx
    · next c p e =>
      rw [of_decide_eq_true hx] at e
      exact ⟨p, e⟩
    · simp at hx
  refine ⟨states overtaken Conf.init, fun t => (overtaken[t]?.map (·.1)).getD 0, p, ⟨states_zero _ _, (exec_steps _ _ _ h1).2⟩, hp, ?_, ?_, ?_⟩
  · exact (show ∀ e, e < 20 → (states overtaken Conf.init (108 + e + 1)).heap = (states overtaken Conf.init (108 + e)).heap by decide +kernel)
  · decide +kernel
  · decide +kernel

/-- The hypotheses of `C58_undisturbed` and `C58_finish` are met, with any amount of fuel, after the three `Put`s of `setup`. -/
theorem C58_example (fuel : Nat) : ∃ σ who, Run 58 σ who ∧ Quiet (σ 58).heap ∧ (σ 58).procs 3 = .running (.put (sevens 20 2) [4]) ((Call.put (sevens 20 2) [4]).prog fuel) := by
  have h : ((exec setup Conf.init).map fun σ => σ.heap.all (fun n => !locked n.version) && (match σ.procs 3 with | .idle => true | _ => false)) = some true := by decide +kernel
  simp only [Option.map_eq_some_iff, Bool.and_eq_true] at h
  obtain ⟨σ', h1, h2, h3⟩ := h
  obtain ⟨σ, who, g3, g4⟩ := exec_run h1
  have hidle : (σ setup.length).procs 3 = .idle := by
    rw [g4]
    split at h3
    · next e => exact e
    · simp at h3
  have hlen : setup.length = 57 := by decide +kernel
  rw [hlen] at g3 g4 hidle
  obtain ⟨σ2, who2, k1, k2, k3, -⟩ := Run.extend g3 (.call (.put (sevens 20 2) [4]) fuel hidle ⟨by decide, by decide⟩)
  refine ⟨σ2, who2, k1, ?_, ?_⟩
  · rw [k3]
    intro a n hn
    rw [show (Conf.to (σ 57) 3 (σ 57).heap _).heap = (σ 57).heap from rfl, g4] at hn
    have := List.all_eq_true.mp h2 n (List.mem_of_getElem? hn)
    simpa using this
  · rw [k3]
    exact to_self _ _ _ _

end Art.Props
