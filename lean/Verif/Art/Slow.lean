import Verif.Art.Time

/-!
# Lower bounds for the number of steps

`Slow n h p`: as long as nobody changes the heap `h`, the program `p` does not return within its first `n` steps, and these change nothing.
-/

set_option linter.unusedSimpArgs false

namespace Art

open Surf Spec Props Prog

/-- See above. -/
def Slow {α : Type} (h : Heap) : Nat → Prog α → Prop
  | 0, _ => True
  | _ + 1, .panic => True
  | _ + 1, .diverge => True
  | n + 1, .wait a k => ∃ x, h[a]? = some x ∧ Slow h n (k x.version)
  | n + 1, .load a k => ∃ x, h[a]? = some x ∧ Slow h n (k x.version)
  | n + 1, .read a v k => ∃ x, h[a]? = some x ∧ x.version = v ∧ Slow h n (k x)
  | n + 1, .readRoot k => ∃ x, h[0]? = some x ∧ Slow h n (k x.root)
  | n + 1, .choose k => ∀ b, Slow h n (k b)
  | _ + 1, _ => False

section
variable {α β : Type} {h : Heap}

theorem Slow.less : ∀ {n m : Nat} {p : Prog α}, Slow h n p → m ≤ n → Slow h m p := by
  intro n
  induction n with
  | zero => intro m p _ hm; obtain rfl : m = 0 := by omega
            simp [Slow]
  | succ n ih =>
    intro m p hp hm
    cases m with
    | zero => simp [Slow]
    | succ m =>
      have hm' : m ≤ n := by omega
      cases p with
      | ret a => simp [Slow] at hp
      | panic => simp [Slow]
      | diverge => simp [Slow]
      | wait a k => simp only [Slow] at hp ⊢; obtain ⟨x, h1, h2⟩ := hp; exact ⟨x, h1, ih h2 hm'⟩
      | load a k => simp only [Slow] at hp ⊢; obtain ⟨x, h1, h2⟩ := hp; exact ⟨x, h1, ih h2 hm'⟩
      | read a v k => simp only [Slow] at hp ⊢; obtain ⟨x, h1, h0, h2⟩ := hp; exact ⟨x, h1, h0, ih h2 hm'⟩
      | readRoot k => simp only [Slow] at hp ⊢; obtain ⟨x, h1, h2⟩ := hp; exact ⟨x, h1, ih h2 hm'⟩
      | choose k => simp only [Slow] at hp ⊢; exact fun b => ih (hp b) hm'
      | cas a v k => simp [Slow] at hp
      | lock a k => simp [Slow] at hp
      | unlock a k => simp [Slow] at hp
      | unlockObsolete a k => simp [Slow] at hp
      | write f k => simp [Slow] at hp

theorem Slow.bind {f : α → Prog β} : ∀ {n : Nat} {p : Prog α}, Slow h n p → Slow h n (p.bind f) := by
  intro n
  induction n with
  | zero => intro p _; simp [Slow]
  | succ n ih =>
    intro p hp
    cases p with
    | ret a => simp [Slow] at hp
    | panic => simp [Slow, Prog.bind]
    | diverge => simp [Slow, Prog.bind]
    | wait a k => simp only [Slow, Prog.bind] at hp ⊢; obtain ⟨x, h1, h2⟩ := hp; exact ⟨x, h1, ih h2⟩
    | load a k => simp only [Slow, Prog.bind] at hp ⊢; obtain ⟨x, h1, h2⟩ := hp; exact ⟨x, h1, ih h2⟩
    | read a v k => simp only [Slow, Prog.bind] at hp ⊢; obtain ⟨x, h1, h0, h2⟩ := hp; exact ⟨x, h1, h0, ih h2⟩
    | readRoot k => simp only [Slow, Prog.bind] at hp ⊢; obtain ⟨x, h1, h2⟩ := hp; exact ⟨x, h1, ih h2⟩
    | choose k => simp only [Slow, Prog.bind] at hp ⊢; exact fun b => ih (hp b)
    | cas a v k => simp [Slow] at hp
    | lock a k => simp [Slow] at hp
    | unlock a k => simp [Slow] at hp
    | unlockObsolete a k => simp [Slow] at hp
    | write f k => simp [Slow] at hp

theorem slow_diverge : ∀ {n : Nat}, Slow h n (.diverge : Prog α)
  | 0 => by simp [Slow]
  | _ + 1 => by simp [Slow]

theorem slow_panic : ∀ {n : Nat}, Slow h n (.panic : Prog α)
  | 0 => by simp [Slow]
  | _ + 1 => by simp [Slow]

theorem slow_wait {n : Nat} {a : Addr} {v : Nat} {k : Nat → Prog α} (hv : ver h a = some v) (hk : Slow h n (k v)) : Slow h (n + 1) (.wait a k) := by
  obtain ⟨x, h1, rfl⟩ := get_of_ver hv
  exact ⟨x, h1, hk⟩

theorem slow_load {n : Nat} {a : Addr} {v : Nat} {k : Nat → Prog α} (hv : ver h a = some v) (hk : Slow h n (k v)) : Slow h (n + 1) (.load a k) := by
  obtain ⟨x, h1, rfl⟩ := get_of_ver hv
  exact ⟨x, h1, hk⟩

theorem slow_read {n : Nat} {a : Addr} {x : Node} {v : Nat} {k : Node → Prog α} (hn : h[a]? = some x) (hv : ver h a = some v) (hk : Slow h n (k x)) : Slow h (n + 1) (.read a v k) :=
  ⟨x, hn, by simpa [ver, hn] using hv, hk⟩

end

/-- One step of a slow program. -/
theorem Slow.step {n i : Nat} {c : Call} {p : Prog (Option Bytes)} {σ σ' : Conf} (h : Slow σ.heap (n + 1) p) (hp : σ.procs i = .running c p) (hs : Step i σ σ') :
    σ'.procs i = .crashed c ∨ ∃ p', σ'.procs i = .running c p' ∧ σ'.heap = σ.heap ∧ Slow σ.heap n p' := by
  have hidle : ∀ {c'} {q}, σ.procs i = .running c' q → c' = c ∧ q = p := by
    intro c' q h1
    rw [hp] at h1
    cases h1
    exact ⟨rfl, rfl⟩
  have hsame : ∀ {a : Addr} {x y : Node}, σ.heap[a]? = some x → σ.heap[a]? = some y → x = y := by
    intro a x y h1 h2
    rw [h1] at h2
    exact Option.some.inj h2
  cases hs with
  | call c' fuel h1 => rw [hp] at h1; simp at h1
  | ret h1 => obtain ⟨rfl, rfl⟩ := hidle h1; simp [Slow] at h
  | crash h1 => obtain ⟨rfl, rfl⟩ := hidle h1; exact Or.inl (to_self _ _ _ _)
  | wait h1 h2 h3 =>
    obtain ⟨rfl, rfl⟩ := hidle h1
    simp only [Slow] at h
    obtain ⟨x, g1, g2⟩ := h
    cases hsame h2 g1
    exact Or.inr ⟨_, to_self _ _ _ _, rfl, g2⟩
  | load h1 h2 =>
    obtain ⟨rfl, rfl⟩ := hidle h1
    simp only [Slow] at h
    obtain ⟨x, g1, g2⟩ := h
    cases hsame h2 g1
    exact Or.inr ⟨_, to_self _ _ _ _, rfl, g2⟩
  | read r h1 h2 h3 h4 =>
    obtain ⟨rfl, rfl⟩ := hidle h1
    simp only [Slow] at h
    obtain ⟨x, g1, g0, g2⟩ := h
    cases hsame h2 g1
    cases h4 g0
    exact Or.inr ⟨_, to_self _ _ _ _, rfl, g2⟩
  | readRoot h1 h2 =>
    obtain ⟨rfl, rfl⟩ := hidle h1
    simp only [Slow] at h
    obtain ⟨x, g1, g2⟩ := h
    cases hsame h2 g1
    exact Or.inr ⟨_, to_self _ _ _ _, rfl, g2⟩
  | choose b h1 =>
    obtain ⟨rfl, rfl⟩ := hidle h1
    simp only [Slow] at h
    exact Or.inr ⟨_, to_self _ _ _ _, rfl, h b⟩
  | cas h1 => obtain ⟨rfl, rfl⟩ := hidle h1; simp [Slow] at h
  | casFail h1 => obtain ⟨rfl, rfl⟩ := hidle h1; simp [Slow] at h
  | lockFail h1 => obtain ⟨rfl, rfl⟩ := hidle h1; simp [Slow] at h
  | lock h1 => obtain ⟨rfl, rfl⟩ := hidle h1; simp [Slow] at h
  | unlock h1 => obtain ⟨rfl, rfl⟩ := hidle h1; simp [Slow] at h
  | unlockObsolete h1 => obtain ⟨rfl, rfl⟩ := hidle h1; simp [Slow] at h
  | write h1 => obtain ⟨rfl, rfl⟩ := hidle h1; simp [Slow] at h

section
variable {E : Addr → Bytes} {live : Addr → Prop} {h : Heap} {root : Addr} {m : Map}

theorem slow_start {α : Type} {n : Nat} (ht : HTr E live h root m) {k : Addr → Nat → Prog α} {v : Nat} (hv : ver h 0 = some v) (hk : Slow h n (k root v)) : Slow h (n + 3) (start k) := by
  obtain ⟨d, hd, hk'⟩ := ht.dummy
  have hr : d.root = some (.node root) := by simp [Node.root, hk']
  have hdv : d.version = v := by simpa [ver, hd] using hv
  unfold start
  intro b
  cases b
  · refine ⟨d, hd, d, hd, ?_⟩
    rw [hr, hdv]
    exact hk
  · refine ⟨d, hd, d, hd, ?_⟩
    rw [hr, hdv]
    exact hk

end

end Art
