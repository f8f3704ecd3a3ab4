import Verif.Art.Sound

/-!
# How long a call holds locks

A condition on programs: from the first lock a call takes on, at most eight more of its own steps follow before it holds none. (The changes of a critical section count as one step.)
-/

set_option linter.unusedSimpArgs false

namespace Art

open Surf Spec Props

/-- The steps that are left after one step: all of them if the call held no lock before it, or holds none after it. -/
def budget (N : Nat) (before after : List Addr) (n : Nat) : Nat := if before = [] ∨ after = [] then N else n - 1

/-- A call that holds the locks of `L`, and has `p` still to run, holds none after at most `n` steps, and this is so again, with `N` steps, whenever it takes a first lock.
It waits for nothing but a further lock while it holds one. -/
def Brief {α : Type} (N : Nat) : Prog α → List Addr → Nat → Prop
  | .ret _, L, n => L = [] ∧ n = N
  | .panic, _, _ => True
  | .diverge, _, _ => True
  | .wait _ k, L, n => L = [] ∧ n = N ∧ ∀ v, Brief N (k v) [] N
  | .load _ k, L, n => (L = [] ∨ 0 < n) ∧ ∀ v, Brief N (k v) L (budget N L L n)
  | .cas a _ k, L, n => (L = [] ∨ 0 < n) ∧ Brief N (k true) (a :: L) (budget N L (a :: L) n) ∧ Brief N (k false) L (budget N L L n)
  | .lock a k, L, n => (L = [] ∨ 0 < n) ∧ Brief N (k true) (a :: L) (budget N L (a :: L) n) ∧ Brief N (k false) L (budget N L L n)
  | .unlock a k, L, n => (L = [] ∨ 0 < n) ∧ Brief N k (L.filter (· ≠ a)) (budget N L (L.filter (· ≠ a)) n)
  | .unlockObsolete a k, L, n => (L = [] ∨ 0 < n) ∧ Brief N k (L.filter (· ≠ a)) (budget N L (L.filter (· ≠ a)) n)
  | .read _ _ k, L, n => (L = [] ∨ 0 < n) ∧ ∀ r, Brief N (k r) L (budget N L L n)
  | .readRoot k, L, n => L = [] ∧ n = N ∧ ∀ r, Brief N (k r) [] N
  | .choose k, L, n => L = [] ∧ n = N ∧ ∀ b, Brief N (k b) [] N
  | .write _ k, L, n => (L = [] ∨ 0 < n) ∧ Brief N k L (budget N L L n)

theorem Brief.bind {α β : Type} {N : Nat} {f : α → Prog β} (hf : ∀ a, Brief N (f a) [] N) : ∀ {p : Prog α} {L : List Addr} {n : Nat}, Brief N p L n → Brief N (p.bind f) L n := by
  intro p
  induction p with
  | ret a => rintro L n ⟨rfl, rfl⟩; exact hf a
  | panic => intro L n _; trivial
  | diverge => intro L n _; trivial
  | wait a k ih => rintro L n ⟨h1, h2, h⟩; exact ⟨h1, h2, fun v => ih v (h v)⟩
  | load a k ih => rintro L n ⟨h1, h⟩; exact ⟨h1, fun v => ih v (h v)⟩
  | cas a v k ih => rintro L n ⟨h1, h, h'⟩; exact ⟨h1, ih _ h, ih _ h'⟩
  | lock a k ih => rintro L n ⟨h1, h, h'⟩; exact ⟨h1, ih _ h, ih _ h'⟩
  | unlock a k ih => rintro L n ⟨h1, h⟩; exact ⟨h1, ih h⟩
  | unlockObsolete a k ih => rintro L n ⟨h1, h⟩; exact ⟨h1, ih h⟩
  | read a v k ih => rintro L n ⟨h1, h⟩; exact ⟨h1, fun v => ih v (h v)⟩
  | readRoot k ih => rintro L n ⟨h1, h2, h⟩; exact ⟨h1, h2, fun v => ih v (h v)⟩
  | choose k ih => rintro L n ⟨h1, h2, h⟩; exact ⟨h1, h2, fun v => ih v (h v)⟩
  | write g k ih => rintro L n ⟨h1, h⟩; exact ⟨h1, ih h⟩

@[simp] theorem budget_nil (N : Nat) (L : List Addr) (n : Nat) : budget N [] L n = N := by simp [budget]
@[simp] theorem budget_nil' (N : Nat) (L : List Addr) (n : Nat) : budget N L [] n = N := by simp [budget]
@[simp] theorem budget_cons (N : Nat) (a b : Addr) (L M : List Addr) (n : Nat) : budget N (a :: L) (b :: M) n = n - 1 := by simp [budget]

section
variable {N : Nat} {α : Type}
theorem brief_ret (a : α) : Brief N (.ret a) [] N := ⟨rfl, rfl⟩
theorem brief_wait {a : Addr} {k : Nat → Prog α} (h : ∀ v, Brief N (k v) [] N) : Brief N (.wait a k) [] N := ⟨rfl, rfl, h⟩
theorem brief_load {a : Addr} {k : Nat → Prog α} (h : ∀ v, Brief N (k v) [] N) : Brief N (.load a k) [] N := ⟨.inl rfl, by simpa using h⟩
theorem brief_read {a : Addr} {v : Nat} {k : Node → Prog α} (h : ∀ v, Brief N (k v) [] N) : Brief N (.read a v k) [] N := ⟨.inl rfl, by simpa using h⟩
theorem brief_cas {a : Addr} {v : Nat} {k : Bool → Prog α} (h : Brief N (k true) [a] N) (h' : Brief N (k false) [] N) : Brief N (.cas a v k) [] N := ⟨.inl rfl, by simpa using h, by simpa using h'⟩
end

theorem brief_start {α : Type} {N : Nat} {k : Addr → Nat → Prog α} (hk : ∀ a v, Brief N (k a v) [] N) : Brief N (start k) [] N := by
  unfold start
  refine ⟨rfl, rfl, fun b => ?_⟩
  cases b
  · refine ⟨rfl, rfl, fun v => ⟨rfl, rfl, fun r => ?_⟩⟩
    dsimp only
    split
    · exact hk _ _
    · trivial
  · refine ⟨rfl, rfl, fun r => ⟨rfl, rfl, fun v => ?_⟩⟩
    dsimp only
    split
    · exact hk _ _
    · trivial

theorem brief_search {N : Nat} (key : Bytes) : ∀ (fuel depth : Nat) (parent : Addr) (pv : Nat) (curr : Addr), Brief N (search key fuel depth parent pv curr) [] N := by
  intro fuel
  induction fuel with
  | zero => intros; trivial
  | succ fuel ih =>
    intro depth parent pv curr
    unfold search
    refine brief_wait fun v => ?_
    split
    · exact brief_ret _
    refine brief_load fun w => ?_
    split
    · exact brief_ret _
    refine brief_read fun n => ?_
    split
    · exact brief_load fun _ => brief_ret _
    refine brief_read fun n' => brief_load fun w => ?_
    split
    · exact brief_ret _
    split
    · exact brief_ret _
    · exact brief_ret _
    · exact ih _ _ _ _

theorem brief_fullKey {N : Nat} : ∀ (fuel : Nat) (curr : Addr) (v : Nat), Brief N (fullKey fuel curr v) [] N := by
  intro fuel
  induction fuel with
  | zero => intros; trivial
  | succ fuel ih =>
    intro curr v
    unfold fullKey
    refine brief_read fun n => ?_
    split
    · exact brief_load fun _ => brief_ret _
    refine brief_read fun n => ?_
    split
    · trivial
    refine brief_load fun w => ?_
    split
    · exact brief_ret _
    split
    · trivial
    · exact brief_load fun _ => brief_ret _
    · refine brief_wait fun v => ?_
      split
      · exact brief_ret _
      · exact ih _ _

theorem brief_mismatchLoop {N : Nat} (key : Bytes) (depth : Nat) (curr : Addr) (v : Nat) (parent : Addr) (pv : Nat) : ∀ (fuel : Nat) (got : Option Bytes), Brief N (mismatchLoop key depth curr v parent pv fuel got) [] N := by
  intro fuel
  induction fuel with
  | zero => intros; trivial
  | succ fuel ih =>
    intro got
    unfold mismatchLoop
    refine brief_load fun w => ?_
    split
    · exact brief_ret _
    refine brief_load fun w => ?_
    split
    · exact brief_ret _
    split
    · refine brief_read fun n => ?_
      split
      · exact brief_ret _
      · trivial
    · exact (brief_fullKey _ _ _).bind fun got => ih got

theorem brief_mismatch {N : Nat} (fuel : Nat) (key : Bytes) (depth : Nat) (curr : Addr) (v : Nat) (parent : Addr) (pv : Nat) : Brief N (prefixMismatch fuel key depth curr v parent pv) [] N := by
  unfold prefixMismatch
  refine brief_read fun n => ?_
  split
  · refine brief_read fun n => ?_
    split
    · exact brief_ret _
    · trivial
  · exact brief_mismatchLoop _ _ _ _ _ _ _ _

/-- The end of a critical section with one lock. -/
theorem brief_end1 {α : Type} {a : Addr} (x : α) {n : Nat} (hn : 0 < n) : Brief 8 (.unlock a (.ret x)) [a] n := by
  simp [Brief, budget, hn]

/-- The end of a critical section with two locks. -/
theorem brief_end2 {α : Type} {a b : Addr} (x : α) {n : Nat} (hn : 1 < n) : Brief 8 (.unlock a (.unlock b (.ret x))) [a, b] n := by
  have : 0 < n := by omega
  have : 0 < n - 1 := by omega
  by_cases h : b = a <;> simp [Brief, budget, *]

theorem brief_end2' {α : Type} {a b : Addr} (x : α) {n : Nat} (hn : 1 < n) : Brief 8 (.unlockObsolete a (.unlock b (.ret x))) [a, b] n := by
  have : 0 < n := by omega
  have : 0 < n - 1 := by omega
  by_cases h : b = a <;> simp [Brief, budget, *]

theorem brief_end3 {α : Type} {a b c : Addr} (x : α) {n : Nat} (hn : 2 < n) : Brief 8 (.unlock c (.unlockObsolete a (.unlock b (.ret x)))) [c, a, b] n := by
  have : 0 < n := by omega
  have : 0 < n - 1 := by omega
  have : 0 < n - 1 - 1 := by omega
  by_cases h1 : a = c <;> by_cases h2 : b = c <;> by_cases h3 : b = a <;> simp_all [Brief, budget]

theorem brief_write {α : Type} {f : Heap → Option Heap} {k : Prog α} {a : Addr} {L : List Addr} {n : Nat} (hn : 0 < n) (h : Brief 8 k (a :: L) (n - 1)) : Brief 8 (.write f k) (a :: L) n :=
  ⟨.inr hn, by simpa using h⟩

theorem brief_insertHere (key value : Bytes) (b : UInt8) (parent : Addr) (pv : Nat) (curr : Addr) (v : Nat) (loc : Loc) : Brief 8 (insertHere key value b parent pv curr v loc) [] 8 := by
  unfold insertHere
  refine brief_read fun n => ?_
  split
  · trivial
  · refine brief_cas ⟨.inr (by omega), ?_, ?_⟩ (brief_ret _)
    · exact brief_write (by simp) (brief_end2' _ (by simp))
    · exact brief_end1 _ (by simp)
  · refine brief_cas ⟨.inr (by omega), fun w => ?_⟩ (brief_ret _)
    dsimp only
    split
    · exact brief_end1 _ (by simp)
    · exact brief_write (by simp) (brief_end1 _ (by simp))

theorem brief_insert (key value : Bytes) : ∀ (fuel depth : Nat) (parent : Addr) (pv : Nat) (curr : Addr) (loc : Loc), Brief 8 (insert key value fuel depth parent pv curr loc) [] 8 := by
  intro fuel
  induction fuel with
  | zero => intros; trivial
  | succ fuel ih =>
    intro depth parent pv curr loc
    unfold insert
    refine brief_wait fun v => ?_
    split
    · exact brief_ret _
    refine (brief_mismatch _ _ _ _ _ _ _).bind fun x => ?_
    split
    · exact brief_ret _
    refine brief_read fun n => ?_
    split
    · refine brief_cas ⟨.inr (by omega), ?_, ?_⟩ (brief_ret _)
      · exact brief_write (by simp) (brief_end2 _ (by simp))
      · exact brief_end1 _ (by simp)
    refine brief_read fun n => ?_
    split
    · refine brief_cas ⟨.inr (by omega), fun w => ?_⟩ (brief_ret _)
      dsimp only
      split
      · exact brief_end1 _ (by simp)
      · exact brief_write (by simp) (brief_end1 _ (by simp))
    split
    · trivial
    refine brief_read fun n' => brief_load fun w => ?_
    split
    · exact brief_ret _
    split
    · exact brief_insertHere _ _ _ _ _ _ _ _
    · refine brief_load fun w => ?_
      split
      · exact brief_ret _
      split
      · exact brief_cas (brief_write (by simp) (brief_end1 _ (by simp))) (brief_ret _)
      · exact ih _ _ _ _ _

theorem brief_compress (idx : Nat) (parent curr : Addr) (v : Nat) (loc : Loc) {n : Nat} (hn : 5 < n) : Brief 8 (compressChild idx parent curr v loc) [curr, parent] n := by
  unfold compressChild
  refine ⟨.inr (by omega), fun r => ?_⟩
  rw [budget_cons]
  dsimp only
  split
  · split
    · exact brief_write (by omega) (brief_end2' _ (by omega))
    · refine ⟨.inr (by omega), ?_, ?_⟩
      · rw [budget_cons]
        exact brief_write (by omega) (brief_end3 _ (by omega))
      · rw [budget_cons]
        exact brief_end2 _ (by omega)
    · trivial
  · trivial

theorem brief_shrink (b : UInt8) (parent curr : Addr) (v : Nat) (loc : Loc) {n : Nat} (hn : 6 < n) : Brief 8 (removeChildAndShrink b parent curr v loc) [curr, parent] n := by
  unfold removeChildAndShrink
  refine ⟨.inr (by omega), fun r => ?_⟩
  rw [budget_cons]
  dsimp only
  split
  · split
    · exact brief_write (by omega) (brief_end2' _ (by omega))
    · split
      · exact brief_write (by omega) (brief_end2' _ (by omega))
      · split
        · exact brief_compress _ _ _ _ _ (by omega)
        · exact brief_compress _ _ _ _ _ (by omega)
  · exact brief_write (by omega) (brief_end2' _ (by omega))

theorem brief_removeHere (key : Bytes) (parent : Addr) (pv : Nat) (curr : Addr) (v : Nat) (loc : Loc) : Brief 8 (removeHere key parent pv curr v loc) [] 8 := by
  unfold removeHere
  refine brief_read fun n => brief_load fun w => ?_
  split
  · exact brief_ret _
  split
  · exact brief_load fun _ => brief_ret _
  refine brief_read fun n => ?_
  split
  · refine brief_cas ⟨.inr (by omega), ?_, ?_⟩ (brief_ret _)
    · exact brief_compress _ _ _ _ _ (by simp)
    · exact brief_end1 _ (by simp)
  · exact brief_cas (brief_write (by simp) (brief_end1 _ (by simp))) (brief_ret _)

theorem brief_removeLeaf (key : Bytes) (b : UInt8) (l : Leaf) (pos : Nat) (parent : Addr) (pv : Nat) (curr : Addr) (v : Nat) (loc : Loc) : Brief 8 (removeLeaf key b l pos parent pv curr v loc) [] 8 := by
  unfold removeLeaf
  split
  · exact brief_load fun _ => brief_ret _
  refine brief_read fun n => ?_
  split
  · trivial
  · refine brief_cas ⟨.inr (by omega), ?_, ?_⟩ (brief_ret _)
    · exact brief_shrink _ _ _ _ _ (by simp)
    · exact brief_end1 _ (by simp)
  · exact brief_cas (brief_write (by simp) (brief_end1 _ (by simp))) (brief_ret _)

theorem brief_remove (key : Bytes) : ∀ (fuel depth : Nat) (parent : Addr) (pv : Nat) (curr : Addr) (loc : Loc), Brief 8 (remove key fuel depth parent pv curr loc) [] 8 := by
  intro fuel
  induction fuel with
  | zero => intros; trivial
  | succ fuel ih =>
    intro depth parent pv curr loc
    unfold remove
    refine brief_wait fun v => ?_
    split
    · exact brief_ret _
    refine brief_load fun w => ?_
    split
    · exact brief_ret _
    refine brief_read fun n => ?_
    split
    · exact brief_load fun _ => brief_ret _
    split
    · exact brief_removeHere _ _ _ _ _ _
    split
    · exact brief_load fun _ => brief_ret _
    refine brief_read fun n' => brief_load fun w => ?_
    split
    · exact brief_ret _
    split
    · exact brief_ret _
    · exact brief_removeLeaf _ _ _ _ _ _ _ _ _
    · exact ih _ _ _ _ _

theorem brief_call (c : Call) (fuel : Nat) : Brief 8 (c.prog fuel) [] 8 := by
  cases c with
  | get k =>
    induction fuel with
    | zero => trivial
    | succ fuel ih =>
      show Brief 8 (Art.get k (fuel + 1)) [] 8
      unfold Art.get
      refine (brief_start fun a v => brief_search _ _ _ _ _ _).bind fun x => ?_
      split
      · exact brief_ret _
      · exact ih
  | put k v =>
    refine Brief.bind (fun _ => brief_ret _) ?_
    induction fuel with
    | zero => trivial
    | succ fuel ih =>
      unfold Art.put
      refine (brief_start fun a v => brief_insert _ _ _ _ _ _ _ _).bind fun x => ?_
      split
      · exact brief_ret _
      · exact ih
  | delete k =>
    refine Brief.bind (fun _ => brief_ret _) ?_
    induction fuel with
    | zero => trivial
    | succ fuel ih =>
      unfold Art.delete
      refine (brief_start fun a v => brief_remove _ _ _ _ _ _ _).bind fun x => ?_
      split
      · exact brief_ret _
      · exact ih

/-! ### In a run -/

/-- The locks that a running call holds, and the steps it has left. -/
def Left (σ : Conf) (i : Nat) (n : Nat) : Prop :=
  n ≤ 8 ∧ ∀ c p, σ.procs i = .running c p → ∃ L, Brief 8 p L n ∧ ∀ a, σ.owner a = some i ↔ a ∈ L

theorem budget_le {L M : List Addr} {n : Nat} (hn : n ≤ 8) : budget 8 L M n ≤ 8 := by
  unfold budget
  split <;> omega

/-- What a step of the call itself leaves. -/
def Spent (σ σ' : Conf) (i n n' : Nat) : Prop :=
  (∃ a, σ.owner a = some i) → 0 < n ∧ ((∃ a, σ'.owner a = some i) → n' = n - 1)

theorem spent_of {σ σ' : Conf} {i n : Nat} {L M : List Addr} (h1 : ∀ a, σ.owner a = some i ↔ a ∈ L) (h2 : ∀ a, σ'.owner a = some i ↔ a ∈ M) (hn : L = [] ∨ 0 < n) : Spent σ σ' i n (budget 8 L M n) := by
  rintro ⟨a, ha⟩
  rw [h1] at ha
  have hL : L ≠ [] := List.ne_nil_of_mem ha
  refine ⟨hn.resolve_left hL, ?_⟩
  rintro ⟨b, hb⟩
  rw [h2] at hb
  have hM : M ≠ [] := List.ne_nil_of_mem hb
  simp [budget, hL, hM]

theorem to_self (σ : Conf) (i : Nat) (h : Heap) (p : Proc) : (σ.to i h p).procs i = p := by simp [Conf.to]

section
variable {σ σ' : Conf} {i n : Nat} {L : List Addr}

theorem Left.keep {c : Call} {q : Prog (Option Bytes)} {hp : Heap} (hn : n ≤ 8) (hL : ∀ a, σ.owner a = some i ↔ a ∈ L) (h0 : L = [] ∨ 0 < n) (hq : Brief 8 q L (budget 8 L L n)) :
    ∃ n', Left (σ.to i hp (.running c q)) i n' ∧ Spent σ (σ.to i hp (.running c q)) i n n' := by
  refine ⟨budget 8 L L n, ⟨budget_le hn, ?_⟩, spent_of hL hL h0⟩
  intro c' p' h
  rw [to_self] at h
  cases h
  exact ⟨L, hq, hL⟩

theorem Left.take {c : Call} {q : Prog (Option Bytes)} {hp : Heap} {b : Addr} (hn : n ≤ 8) (hL : ∀ a, σ.owner a = some i ↔ a ∈ L) (h0 : L = [] ∨ 0 < n) (hq : Brief 8 q (b :: L) (budget 8 L (b :: L) n)) :
    ∃ n', Left ((σ.to i hp (.running c q)).own b (some i)) i n' ∧ Spent σ ((σ.to i hp (.running c q)).own b (some i)) i n n' := by
  have h2 : ∀ a, ((σ.to i hp (.running c q)).own b (some i)).owner a = some i ↔ a ∈ b :: L := by
    intro a
    rw [List.mem_cons, ← hL]
    show upd σ.owner b (some i) a = some i ↔ _
    unfold upd
    by_cases h : a = b
    · simp [h]
    · simp [h]
  refine ⟨budget 8 L (b :: L) n, ⟨budget_le hn, ?_⟩, spent_of hL h2 h0⟩
  intro c' p' h
  have h' : (σ.to i hp (.running c q)).procs i = .running c' p' := h
  rw [to_self] at h'
  cases h'
  exact ⟨_, hq, h2⟩

theorem Left.free {c : Call} {q : Prog (Option Bytes)} {hp : Heap} {b : Addr} (hn : n ≤ 8) (hL : ∀ a, σ.owner a = some i ↔ a ∈ L) (h0 : L = [] ∨ 0 < n)
    (hq : Brief 8 q (L.filter (· ≠ b)) (budget 8 L (L.filter (· ≠ b)) n)) :
    ∃ n', Left ((σ.to i hp (.running c q)).own b none) i n' ∧ Spent σ ((σ.to i hp (.running c q)).own b none) i n n' := by
  have h2 : ∀ a, ((σ.to i hp (.running c q)).own b none).owner a = some i ↔ a ∈ L.filter (· ≠ b) := by
    intro a
    rw [List.mem_filter, ← hL]
    show upd σ.owner b none a = some i ↔ _
    unfold upd
    by_cases h : a = b
    · simp [h]
    · simp [h]
  refine ⟨budget 8 L (L.filter (· ≠ b)) n, ⟨budget_le hn, ?_⟩, spent_of hL h2 h0⟩
  intro c' p' h
  have h' : (σ.to i hp (.running c q)).procs i = .running c' p' := h
  rw [to_self] at h'
  cases h'
  exact ⟨_, hq, h2⟩

end

/-- One step of the call. -/
theorem Left.step {σ σ' : Conf} {i n : Nat} (hl : Left σ i n) (hidle : (∀ c p, σ.procs i ≠ .running c p) → ∀ a, σ.owner a ≠ some i) (hs : Step i σ σ') (hafter : (∀ c p, σ'.procs i ≠ .running c p) → ∀ a, σ'.owner a ≠ some i) :
    ∃ n', Left σ' i n' ∧ Spent σ σ' i n n' := by
  obtain ⟨hn, hl⟩ := hl
  cases hs with
  | call c fuel h1 h2 =>
    have hno : ∀ a, σ.owner a ≠ some i := hidle (by rw [h1]; simp)
    refine ⟨8, ⟨Nat.le_refl _, ?_⟩, ?_⟩
    · intro c' p' h
      rw [to_self] at h
      cases h
      exact ⟨[], brief_call c fuel, fun a => ⟨fun ha => absurd ha (hno a), fun ha => absurd ha (by simp)⟩⟩
    · rintro ⟨a, ha⟩
      exact absurd ha (hno a)
  | ret h1 =>
    obtain ⟨L, ⟨rfl, rfl⟩, hL⟩ := hl _ _ h1
    refine ⟨8, ⟨Nat.le_refl _, ?_⟩, ?_⟩
    · intro c' p' h
      rw [to_self] at h
      cases h
    · rintro ⟨a, ha⟩
      rw [hL] at ha
      simp at ha
  | @crash c p h1 h2 =>
    refine ⟨8, ⟨Nat.le_refl _, ?_⟩, ?_⟩
    · intro c' p' h
      rw [to_self] at h
      cases h
    · rintro ⟨a, ha⟩
      exact absurd ha (hafter (by rw [to_self]; simp) a)
  | wait h1 h2 h3 =>
    obtain ⟨L, ⟨rfl, rfl, hb⟩, hL⟩ := hl _ _ h1
    exact Left.keep hn hL (.inl rfl) (by simpa using hb _)
  | load h1 h2 =>
    obtain ⟨L, ⟨h0, hb⟩, hL⟩ := hl _ _ h1
    exact Left.keep hn hL h0 (hb _)
  | cas h1 h2 h3 =>
    obtain ⟨L, ⟨h0, hb, -⟩, hL⟩ := hl _ _ h1
    exact Left.take hn hL h0 hb
  | casFail h1 h2 h3 =>
    obtain ⟨L, ⟨h0, -, hb⟩, hL⟩ := hl _ _ h1
    exact Left.keep hn hL h0 hb
  | lockFail h1 h2 h3 h4 =>
    obtain ⟨L, ⟨h0, -, hb⟩, hL⟩ := hl _ _ h1
    exact Left.keep hn hL h0 hb
  | lock h1 h2 h3 h4 =>
    obtain ⟨L, ⟨h0, hb, -⟩, hL⟩ := hl _ _ h1
    exact Left.take hn hL h0 hb
  | unlock h1 h2 =>
    obtain ⟨L, ⟨h0, hb⟩, hL⟩ := hl _ _ h1
    exact Left.free hn hL h0 hb
  | unlockObsolete h1 h2 =>
    obtain ⟨L, ⟨h0, hb⟩, hL⟩ := hl _ _ h1
    exact Left.free hn hL h0 hb
  | read r h1 h2 h3 h4 =>
    obtain ⟨L, ⟨h0, hb⟩, hL⟩ := hl _ _ h1
    exact Left.keep hn hL h0 (hb _)
  | readRoot h1 h2 =>
    obtain ⟨L, ⟨rfl, rfl, hb⟩, hL⟩ := hl _ _ h1
    exact Left.keep hn hL (.inl rfl) (by simpa using hb _)
  | choose b h1 =>
    obtain ⟨L, ⟨rfl, rfl, hb⟩, hL⟩ := hl _ _ h1
    exact Left.keep hn hL (.inl rfl) (by simpa using hb _)
  | write h1 h2 =>
    obtain ⟨L, ⟨h0, hb⟩, hL⟩ := hl _ _ h1
    exact Left.keep hn hL h0 hb

end Art
