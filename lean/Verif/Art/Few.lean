import Verif.Art.Alone

/-!
# How many steps a `Get` makes

One attempt of `Get` to walk down the tree is short whatever it reads. An attempt that begins while nobody changes the heap is the last one.
-/

set_option linter.unusedSimpArgs false

namespace Art

open Surf Spec Props Prog

/-- While the heap is `h`, the program `p`, which changes nothing, makes at most `n` steps, and `Q` holds of what it returns. (It may wait for a lock.) -/
def Few {α : Type} (Q : α → Prop) (h : Heap) : Nat → Prog α → Prop
  | _, .ret a => Q a
  | _, .diverge => True
  | n, .wait a k => ∀ x, h[a]? = some x → locked x.version = false → 0 < n ∧ Few Q h (n - 1) (k x.version)
  | n, .load a k => ∀ x, h[a]? = some x → 0 < n ∧ Few Q h (n - 1) (k x.version)
  | n, .read a v k => ∀ x r, h[a]? = some x → (x.version = v → r = x) → 0 < n ∧ Few Q h (n - 1) (k r)
  | n, .readRoot k => ∀ x, h[0]? = some x → 0 < n ∧ Few Q h (n - 1) (k x.root)
  | n, .choose k => ∀ b, 0 < n ∧ Few Q h (n - 1) (k b)
  | _, _ => False

theorem Few.mono {α : Type} {Q : α → Prop} {h : Heap} : ∀ {p : Prog α} {n m : Nat}, Few Q h n p → n ≤ m → Few Q h m p := by
  intro p
  induction p with
  | ret a => intro n m hp _; simpa [Few] using hp
  | panic => intro n m hp; simp [Few] at hp
  | diverge => intro n m hp _; simp [Few]
  | wait a k ih =>
    intro n m hp hm
    simp only [Few] at hp ⊢
    exact fun x h1 h2 => ⟨by have := (hp x h1 h2).1; omega, ih _ (hp x h1 h2).2 (by omega)⟩
  | load a k ih =>
    intro n m hp hm
    simp only [Few] at hp ⊢
    exact fun x h1 => ⟨by have := (hp x h1).1; omega, ih _ (hp x h1).2 (by omega)⟩
  | read a v k ih =>
    intro n m hp hm
    simp only [Few] at hp ⊢
    exact fun x r h1 h2 => ⟨by have := (hp x r h1 h2).1; omega, ih _ (hp x r h1 h2).2 (by omega)⟩
  | readRoot k ih =>
    intro n m hp hm
    simp only [Few] at hp ⊢
    exact fun x h1 => ⟨by have := (hp x h1).1; omega, ih _ (hp x h1).2 (by omega)⟩
  | choose k ih =>
    intro n m hp hm
    simp only [Few] at hp ⊢
    exact fun b => ⟨by have := (hp b).1; omega, ih _ (hp b).2 (by omega)⟩
  | cas a v k ih => intro n m hp; simp [Few] at hp
  | lock a k ih => intro n m hp; simp [Few] at hp
  | unlock a k ih => intro n m hp; simp [Few] at hp
  | unlockObsolete a k ih => intro n m hp; simp [Few] at hp
  | write g k ih => intro n m hp; simp [Few] at hp

theorem Few.bind {α β : Type} {Q : α → Prop} {R : β → Prop} {h : Heap} {f : α → Prog β} (hf : ∀ a, Q a → ∀ n, Few R h n (f a)) :
    ∀ {p : Prog α} {n : Nat}, Few Q h n p → Few R h n (p.bind f) := by
  intro p
  induction p with
  | ret a => intro n hp; exact hf a (by simpa [Few] using hp) n
  | panic => intro n hp; simp [Few] at hp
  | diverge => intro n hp; simp [Few, Prog.bind]
  | wait a k ih =>
    intro n hp
    simp only [Few, Prog.bind] at hp ⊢
    exact fun x h1 h2 => ⟨(hp x h1 h2).1, ih _ (hp x h1 h2).2⟩
  | load a k ih =>
    intro n hp
    simp only [Few, Prog.bind] at hp ⊢
    exact fun x h1 => ⟨(hp x h1).1, ih _ (hp x h1).2⟩
  | read a v k ih =>
    intro n hp
    simp only [Few, Prog.bind] at hp ⊢
    exact fun x r h1 h2 => ⟨(hp x r h1 h2).1, ih _ (hp x r h1 h2).2⟩
  | readRoot k ih =>
    intro n hp
    simp only [Few, Prog.bind] at hp ⊢
    exact fun x h1 => ⟨(hp x h1).1, ih _ (hp x h1).2⟩
  | choose k ih =>
    intro n hp
    simp only [Few, Prog.bind] at hp ⊢
    exact fun b => ⟨(hp b).1, ih _ (hp b).2⟩
  | cas a v k ih => intro n hp; simp [Few] at hp
  | lock a k ih => intro n hp; simp [Few] at hp
  | unlock a k ih => intro n hp; simp [Few] at hp
  | unlockObsolete a k ih => intro n hp; simp [Few] at hp
  | write g k ih => intro n hp; simp [Few] at hp

/-- The position after a prefix that was found to fit. -/
theorem checkPrefix_ge {n : Node} {key : Bytes} {depth : Nat} (h : ¬ (n.checkPrefix key depth).2 = false) : depth ≤ (n.checkPrefix key depth).1 := by
  unfold Node.checkPrefix at *
  split
  · exact Nat.le_refl _
  · dsimp only at *
    split
    · simp_all
    · simp

theorem nextNode_lt {n : Node} {key : Bytes} {depth : Nat} {c : Addr} (h : nextNode n key depth = some (.node c)) : depth < key.length := by
  unfold nextNode at h
  split at h
  · cases hp : n.prefixLeaf <;> simp [hp] at h
  · split at h
    · next hb => exact (List.getElem?_eq_some_iff.mp hb).1
    · simp at h

/-- An attempt of `Get`. -/
theorem few_search {E : Addr → Bytes} {live : Addr → Prop} {h : Heap} {root : Addr} {m : Map} (ht : HTr E live h root m) (hal : ∀ (a : Addr) n, live a → h[a]? = some n → n.version % 2 = 0) (key : Bytes) :
    ∀ (fuel depth : Nat) (parent : Addr) (pv : Nat) (curr : Addr) (n : Node), live curr → h[curr]? = some n → depth + n.prefixLen = (E curr).length → ver h parent = some pv → depth ≤ key.length →
      Few (fun x => x ≠ none) h (5 * (key.length + 1 - depth)) (search key fuel depth parent pv curr) := by
  intro fuel
  induction fuel with
  | zero => intros; simp [search, Few]
  | succ fuel ih =>
    intro depth parent pv curr n hl hn hd hpv hdk
    obtain ⟨n', hn', -, hok⟩ := ht.view_live hl
    rw [hn] at hn'
    cases hn'
    obtain ⟨hcp1, hcp2⟩ := checkPrefix_spec (key := key) hd hok.pre hdk
    have hobs : obsolete n.version = false := by simp [obsolete, hal curr n hl hn]
    obtain ⟨j, hj⟩ : ∃ j, 5 * (key.length + 1 - depth) = j + 5 := ⟨5 * (key.length + 1 - depth) - 5, by omega⟩
    rw [hj]
    unfold search
    simp only [Few]
    intro x hx _
    rw [hn] at hx
    cases hx
    refine ⟨by omega, ?_⟩
    rw [if_neg (by simp [hobs])]
    simp only [Few]
    intro x hx
    have hxv : x.version = pv := by simpa [ver, hx] using hpv
    refine ⟨by omega, ?_⟩
    rw [if_neg (by simp [hxv])]
    simp only [Few]
    intro x r hx hr
    rw [hn] at hx
    cases hx
    cases hr rfl
    refine ⟨by omega, ?_⟩
    by_cases e : (n.checkPrefix key depth).2 = false
    · rw [if_pos e]
      simp only [Few]
      intro x hx
      rw [hn] at hx
      cases hx
      exact ⟨by omega, by simp⟩
    · rw [if_neg e]
      simp only [Few]
      intro x r hx hr
      rw [hn] at hx
      cases hx
      cases hr rfl
      refine ⟨by omega, ?_⟩
      intro x hx
      rw [hn] at hx
      cases hx
      refine ⟨by omega, ?_⟩
      rw [if_neg (by simp)]
      obtain ⟨h5, h6⟩ := hcp2 (by simpa using e)
      rw [h5]
      cases hx : nextNode n key (E curr).length with
      | none => simp [Few]
      | some r =>
        cases r with
        | leaf l => simp [Few]
        | node c =>
          have hlt := nextNode_lt hx
          obtain ⟨b, h7, h8, h9⟩ := next_node hx
          obtain ⟨h10, -, h11, h12, nc, h13, h14⟩ := ht.child_node hl hn h7
          have := ih ((E curr).length + 1) curr n.version c nc h10 h13 h14 (ver_of_get hn) (by omega)
          exact Few.mono this (by omega)

/-- The steps of one attempt. -/
def getSteps (key : Bytes) : Nat := 5 * key.length + 8

/-- `Get`, begun while nobody changes the heap. -/
theorem few_get {E : Addr → Bytes} {live : Addr → Prop} {h : Heap} {root : Addr} {m : Map} (ht : HTr E live h root m) (hal : ∀ (a : Addr) n, live a → h[a]? = some n → n.version % 2 = 0) (key : Bytes) (fuel : Nat) :
    Few (fun _ => True) h (getSteps key) (get key fuel) := by
  cases fuel with
  | zero => simp [get, Few]
  | succ fuel =>
    unfold get
    refine Few.bind (Q := fun x => x ≠ none) ?_ ?_
    · intro a ha n
      cases a with
      | none => exact absurd rfl ha
      | some x => simp [Few]
    · obtain ⟨n, hl, hn, hp, hE, -⟩ := ht.root_facts
      obtain ⟨d, hd, hk'⟩ := ht.dummy
      have hr : d.root = some (.node root) := by simp [Node.root, hk']
      have hs := few_search ht hal key fuel 0 0 d.version root n hl hn (by rw [hp, hE]; rfl) (ver_of_get hd) (Nat.zero_le _)
      have he : getSteps key - 1 - 1 - 1 = 5 * (key.length + 1 - 0) := by unfold getSteps; omega
      have hpos : 3 ≤ getSteps key := by unfold getSteps; omega
      unfold start
      simp only [Few]
      intro b
      refine ⟨by omega, ?_⟩
      cases b
      · rw [if_neg (by simp)]
        simp only [Few]
        intro x hx _
        rw [hd] at hx
        cases hx
        refine ⟨by omega, ?_⟩
        intro x hx
        rw [hd] at hx
        cases hx
        refine ⟨by omega, ?_⟩
        rw [hr, he]
        exact hs
      · rw [if_pos rfl]
        simp only [Few]
        intro x hx
        rw [hd] at hx
        cases hx
        refine ⟨by omega, ?_⟩
        intro x hx _
        rw [hd] at hx
        cases hx
        refine ⟨by omega, ?_⟩
        rw [hr, he]
        exact hs

/-- Within `n` steps the program of a `Get` returns, or begins a new attempt, whatever it reads; and it only reads. -/
inductive Att (key : Bytes) : Nat → Prog (Option Bytes) → Prop
  | again {n} (f) : Att key n (get key f)
  | ret {n a} : Att key n (.ret a)
  | panic {n} : Att key n .panic
  | diverge {n} : Att key n .diverge
  | wait {n a k} : (∀ v, Att key n (k v)) → Att key (n + 1) (.wait a k)
  | load {n a k} : (∀ v, Att key n (k v)) → Att key (n + 1) (.load a k)
  | read {n a v k} : (∀ r, Att key n (k r)) → Att key (n + 1) (.read a v k)
  | readRoot {n k} : (∀ r, Att key n (k r)) → Att key (n + 1) (.readRoot k)

theorem Att.mono {key : Bytes} {n : Nat} {p : Prog (Option Bytes)} (h : Att key n p) : ∀ {m}, n ≤ m → Att key m p := by
  induction h with
  | again f => exact fun _ => .again f
  | ret => exact fun _ => .ret
  | panic => exact fun _ => .panic
  | diverge => exact fun _ => .diverge
  | wait _ ih => intro m hm; obtain ⟨m, rfl⟩ : ∃ j, m = j + 1 := ⟨m - 1, by omega⟩; exact .wait fun v => ih v (by omega)
  | load _ ih => intro m hm; obtain ⟨m, rfl⟩ : ∃ j, m = j + 1 := ⟨m - 1, by omega⟩; exact .load fun v => ih v (by omega)
  | read _ ih => intro m hm; obtain ⟨m, rfl⟩ : ∃ j, m = j + 1 := ⟨m - 1, by omega⟩; exact .read fun v => ih v (by omega)
  | readRoot _ ih => intro m hm; obtain ⟨m, rfl⟩ : ∃ j, m = j + 1 := ⟨m - 1, by omega⟩; exact .readRoot fun v => ih v (by omega)

theorem att_search (key : Bytes) (f : Nat) : ∀ (fuel depth : Nat) (parent : Addr) (pv : Nat) (curr : Addr), depth ≤ key.length →
    Att key (5 * (key.length + 1 - depth)) ((search key fuel depth parent pv curr).bind fun | some x => .ret x | none => get key f) := by
  intro fuel
  induction fuel with
  | zero => intros; exact .diverge
  | succ fuel ih =>
    intro depth parent pv curr hdk
    obtain ⟨j, hj⟩ : ∃ j, 5 * (key.length + 1 - depth) = j + 5 := ⟨5 * (key.length + 1 - depth) - 5, by omega⟩
    rw [hj]
    unfold search
    refine .wait fun v => ?_
    dsimp only
    split
    · exact .again f
    refine .load fun w => ?_
    dsimp only
    split
    · exact .again f
    refine .read fun n => ?_
    dsimp only
    split
    · refine .load fun w => ?_
      dsimp only
      split
      · exact .ret
      · exact .again f
    next e =>
    refine .read fun n' => .load fun w => ?_
    dsimp only
    split
    · exact .again f
    split
    · exact .ret
    · exact .ret
    next c' hx =>
    have h1 := checkPrefix_ge e
    have h2 := nextNode_lt hx
    have := ih ((n.checkPrefix key depth).1 + 1) curr v c' (by omega)
    refine Att.mono this (by omega)

/-- The first step of an attempt. -/
theorem get_choose (key : Bytes) (f : Nat) : ∃ k, get key (f + 1) = .choose k ∧ ∀ b, Att key (5 * key.length + 7) (k b) := by
  refine ⟨_, rfl, fun b => ?_⟩
  have he : 5 * key.length + 7 = 5 * (key.length + 1 - 0) + 2 := by omega
  rw [he]
  cases b
  · refine .wait fun v => .readRoot fun r => ?_
    dsimp only
    split
    · exact att_search key f f 0 0 v _ (Nat.zero_le _)
    · exact .panic
  · refine .readRoot fun r => .wait fun v => ?_
    dsimp only
    split
    · exact att_search key f f 0 0 v _ (Nat.zero_le _)
    · exact .panic

/-- One step of a `Get`: nothing is changed. -/
theorem Att.step {key : Bytes} {n i : Nat} {c : Call} {p : Prog (Option Bytes)} {σ σ' : Conf} (h : Att key n p) (hp : σ.procs i = .running c p) (hs : Step i σ σ') :
    σ'.heap = σ.heap ∧ σ'.owner = σ.owner ∧
    ((∀ p', σ'.procs i ≠ .running c p') ∨ (∃ j p', n = j + 1 ∧ σ'.procs i = .running c p' ∧ Att key j p') ∨
      ∃ f p', p = get key (f + 1) ∧ σ'.procs i = .running c p' ∧ Att key (5 * key.length + 7) p') := by
  have hidle : ∀ {c'} {q}, σ.procs i = .running c' q → c' = c ∧ q = p := by
    intro c' q h1
    rw [hp] at h1
    cases h1
    exact ⟨rfl, rfl⟩
  cases hs with
  | call c' fuel h1 => rw [hp] at h1; simp at h1
  | ret h1 => exact ⟨rfl, rfl, Or.inl (by intro p'; rw [to_self]; simp)⟩
  | crash h1 => exact ⟨rfl, rfl, Or.inl (by intro p'; rw [to_self]; simp)⟩
  | @wait c' a k x h1 h2 h3 =>
    obtain ⟨rfl, rfl⟩ := hidle h1
    refine ⟨rfl, rfl, Or.inr (Or.inl ?_)⟩
    generalize hq : Prog.wait a k = q at h
    cases h with
    | wait h4 => cases hq; exact ⟨_, _, rfl, to_self _ _ _ _, h4 _⟩
    | again f =>
      cases f with
      | zero => simp [get] at hq
      | succ f =>
        obtain ⟨k', e, -⟩ := get_choose key f
        rw [e] at hq
        cases hq
    | _ => cases hq
  | @load c' a k x h1 h2 =>
    obtain ⟨rfl, rfl⟩ := hidle h1
    refine ⟨rfl, rfl, Or.inr (Or.inl ?_)⟩
    generalize hq : Prog.load a k = q at h
    cases h with
    | load h4 => cases hq; exact ⟨_, _, rfl, to_self _ _ _ _, h4 _⟩
    | again f =>
      cases f with
      | zero => simp [get] at hq
      | succ f =>
        obtain ⟨k', e, -⟩ := get_choose key f
        rw [e] at hq
        cases hq
    | _ => cases hq
  | @read c' a v k x r h1 h2 h3 h5 =>
    obtain ⟨rfl, rfl⟩ := hidle h1
    refine ⟨rfl, rfl, Or.inr (Or.inl ?_)⟩
    generalize hq : Prog.read a v k = q at h
    cases h with
    | read h4 => cases hq; exact ⟨_, _, rfl, to_self _ _ _ _, h4 _⟩
    | again f =>
      cases f with
      | zero => simp [get] at hq
      | succ f =>
        obtain ⟨k', e, -⟩ := get_choose key f
        rw [e] at hq
        cases hq
    | _ => cases hq
  | @readRoot c' k x h1 h2 =>
    obtain ⟨rfl, rfl⟩ := hidle h1
    refine ⟨rfl, rfl, Or.inr (Or.inl ?_)⟩
    generalize hq : Prog.readRoot k = q at h
    cases h with
    | readRoot h4 => cases hq; exact ⟨_, _, rfl, to_self _ _ _ _, h4 _⟩
    | again f =>
      cases f with
      | zero => simp [get] at hq
      | succ f =>
        obtain ⟨k', e, -⟩ := get_choose key f
        rw [e] at hq
        cases hq
    | _ => cases hq
  | @choose c' k b h1 =>
    obtain ⟨rfl, rfl⟩ := hidle h1
    refine ⟨rfl, rfl, Or.inr (Or.inr ?_)⟩
    generalize hq : Prog.choose k = q at h
    cases h with
    | again f =>
      cases f with
      | zero => simp [get] at hq
      | succ f =>
        obtain ⟨k', e, h4⟩ := get_choose key f
        rw [e] at hq
        cases hq
        exact ⟨f, _, rfl, to_self _ _ _ _, h4 b⟩
    | _ => cases hq
  | @cas c' a v k x h1 =>
    obtain ⟨rfl, rfl⟩ := hidle h1
    exfalso
    generalize hq : Prog.cas a v k = q at h
    cases h with
    | again f =>
      cases f with
      | zero => simp [get] at hq
      | succ f => obtain ⟨k', e, -⟩ := get_choose key f; rw [e] at hq; cases hq
    | _ => cases hq
  | @casFail c' a v k x h1 =>
    obtain ⟨rfl, rfl⟩ := hidle h1
    exfalso
    generalize hq : Prog.cas a v k = q at h
    cases h with
    | again f =>
      cases f with
      | zero => simp [get] at hq
      | succ f => obtain ⟨k', e, -⟩ := get_choose key f; rw [e] at hq; cases hq
    | _ => cases hq
  | @lockFail c' a k x h1 =>
    obtain ⟨rfl, rfl⟩ := hidle h1
    exfalso
    generalize hq : Prog.lock a k = q at h
    cases h with
    | again f =>
      cases f with
      | zero => simp [get] at hq
      | succ f => obtain ⟨k', e, -⟩ := get_choose key f; rw [e] at hq; cases hq
    | _ => cases hq
  | @lock c' a k x h1 =>
    obtain ⟨rfl, rfl⟩ := hidle h1
    exfalso
    generalize hq : Prog.lock a k = q at h
    cases h with
    | again f =>
      cases f with
      | zero => simp [get] at hq
      | succ f => obtain ⟨k', e, -⟩ := get_choose key f; rw [e] at hq; cases hq
    | _ => cases hq
  | @unlock c' a k x h1 =>
    obtain ⟨rfl, rfl⟩ := hidle h1
    exfalso
    generalize hq : Prog.unlock a k = q at h
    cases h with
    | again f =>
      cases f with
      | zero => simp [get] at hq
      | succ f => obtain ⟨k', e, -⟩ := get_choose key f; rw [e] at hq; cases hq
    | _ => cases hq
  | @unlockObsolete c' a k x h1 =>
    obtain ⟨rfl, rfl⟩ := hidle h1
    exfalso
    generalize hq : Prog.unlockObsolete a k = q at h
    cases h with
    | again f =>
      cases f with
      | zero => simp [get] at hq
      | succ f => obtain ⟨k', e, -⟩ := get_choose key f; rw [e] at hq; cases hq
    | _ => cases hq
  | @write c' f k x h1 =>
    obtain ⟨rfl, rfl⟩ := hidle h1
    exfalso
    generalize hq : Prog.write f k = q at h
    cases h with
    | again f =>
      cases f with
      | zero => simp [get] at hq
      | succ f => obtain ⟨k', e, -⟩ := get_choose key f; rw [e] at hq; cases hq
    | _ => cases hq

/-- One step of a `Get` while nobody changes the heap. -/
theorem Few.step {n i : Nat} {c : Call} {p : Prog (Option Bytes)} {σ σ' : Conf} {Q : Option Bytes → Prop} (h : Few Q σ.heap n p) (hp : σ.procs i = .running c p) (hs : Step i σ σ') :
    (∀ p', σ'.procs i ≠ .running c p') ∨ 0 < n ∧ ∃ p', σ'.procs i = .running c p' ∧ Few Q σ.heap (n - 1) p' := by
  have hidle : ∀ {c'} {q}, σ.procs i = .running c' q → c' = c ∧ q = p := by
    intro c' q h1
    rw [hp] at h1
    cases h1
    exact ⟨rfl, rfl⟩
  cases hs with
  | call c' fuel h1 => rw [hp] at h1; simp at h1
  | ret h1 => exact Or.inl (by intro p'; rw [to_self]; simp)
  | crash h1 => exact Or.inl (by intro p'; rw [to_self]; simp)
  | wait h1 h2 h3 =>
    obtain ⟨rfl, rfl⟩ := hidle h1
    simp only [Few] at h
    exact Or.inr ⟨(h _ h2 h3).1, _, to_self _ _ _ _, (h _ h2 h3).2⟩
  | load h1 h2 =>
    obtain ⟨rfl, rfl⟩ := hidle h1
    simp only [Few] at h
    exact Or.inr ⟨(h _ h2).1, _, to_self _ _ _ _, (h _ h2).2⟩
  | read r h1 h2 h3 h4 =>
    obtain ⟨rfl, rfl⟩ := hidle h1
    simp only [Few] at h
    exact Or.inr ⟨(h _ r h2 h4).1, _, to_self _ _ _ _, (h _ r h2 h4).2⟩
  | readRoot h1 h2 =>
    obtain ⟨rfl, rfl⟩ := hidle h1
    simp only [Few] at h
    exact Or.inr ⟨(h _ h2).1, _, to_self _ _ _ _, (h _ h2).2⟩
  | choose b h1 =>
    obtain ⟨rfl, rfl⟩ := hidle h1
    simp only [Few] at h
    exact Or.inr ⟨(h b).1, _, to_self _ _ _ _, (h b).2⟩
  | cas h1 => obtain ⟨rfl, rfl⟩ := hidle h1; simp [Few] at h
  | casFail h1 => obtain ⟨rfl, rfl⟩ := hidle h1; simp [Few] at h
  | lockFail h1 => obtain ⟨rfl, rfl⟩ := hidle h1; simp [Few] at h
  | lock h1 => obtain ⟨rfl, rfl⟩ := hidle h1; simp [Few] at h
  | unlock h1 => obtain ⟨rfl, rfl⟩ := hidle h1; simp [Few] at h
  | unlockObsolete h1 => obtain ⟨rfl, rfl⟩ := hidle h1; simp [Few] at h
  | write h1 => obtain ⟨rfl, rfl⟩ := hidle h1; simp [Few] at h

/-- A call that makes a step begins or is running. -/
theorem Step.before {i : Nat} {σ σ' : Conf} (hs : Step i σ σ') :
    (σ.procs i = .idle ∧ ∃ (c : Call) (fuel : Nat), c.Fits ∧ σ'.procs i = .running c (c.prog fuel)) ∨ ∃ c p, σ.procs i = .running c p := by
  cases hs with
  | call c fuel h1 h2 => exact Or.inl ⟨h1, c, fuel, h2, to_self _ _ _ _⟩
  | ret h1 => exact Or.inr ⟨_, _, h1⟩
  | crash h1 => exact Or.inr ⟨_, _, h1⟩
  | wait h1 => exact Or.inr ⟨_, _, h1⟩
  | load h1 => exact Or.inr ⟨_, _, h1⟩
  | cas h1 => exact Or.inr ⟨_, _, h1⟩
  | casFail h1 => exact Or.inr ⟨_, _, h1⟩
  | lockFail h1 => exact Or.inr ⟨_, _, h1⟩
  | lock h1 => exact Or.inr ⟨_, _, h1⟩
  | unlock h1 => exact Or.inr ⟨_, _, h1⟩
  | unlockObsolete h1 => exact Or.inr ⟨_, _, h1⟩
  | read r h1 => exact Or.inr ⟨_, _, h1⟩
  | readRoot h1 => exact Or.inr ⟨_, _, h1⟩
  | choose b h1 => exact Or.inr ⟨_, _, h1⟩
  | write h1 => exact Or.inr ⟨_, _, h1⟩

/-! ### Any call that nobody disturbs -/

theorem Solo.step {n i : Nat} {c : Call} {p : Prog (Option Bytes)} {σ σ' : Conf} {Q : Option Bytes → Heap → Prop} (h : Solo Q n σ.heap p) (hp : σ.procs i = .running c p) (hs : Step i σ σ') :
    (∃ o, σ'.procs i = .done c o ∧ Q o σ'.heap) ∨ ∃ j p', n = j + 1 ∧ σ'.procs i = .running c p' ∧ Solo Q j σ'.heap p' := by
  have hidle : ∀ {c'} {q}, σ.procs i = .running c' q → c' = c ∧ q = p := by
    intro c' q h1
    rw [hp] at h1
    cases h1
    exact ⟨rfl, rfl⟩
  have hsame : ∀ {a : Addr} {x y : Node}, σ.heap[a]? = some x → σ.heap[a]? = some y → x = y := by
    intro a x y h1 h2
    rw [h1] at h2
    exact Option.some.inj h2
  cases hs with
  | call c' fuel h1 => rw [hp] at h1; simp at h1
  | ret h1 =>
    obtain ⟨rfl, rfl⟩ := hidle h1
    cases h with
    | ret h2 => exact Or.inl ⟨_, to_self _ _ _ _, h2⟩
  | crash h1 hf =>
    obtain ⟨rfl, rfl⟩ := hidle h1
    exfalso
    cases h <;> simp_all [Faulty]
  | wait h1 h2 h3 =>
    obtain ⟨rfl, rfl⟩ := hidle h1
    cases h with
    | wait g1 g2 g3 => cases hsame h2 g1; exact Or.inr ⟨_, _, rfl, to_self _ _ _ _, g3⟩
  | load h1 h2 =>
    obtain ⟨rfl, rfl⟩ := hidle h1
    cases h with
    | load g1 g3 => cases hsame h2 g1; exact Or.inr ⟨_, _, rfl, to_self _ _ _ _, g3⟩
  | cas h1 h2 h3 =>
    obtain ⟨rfl, rfl⟩ := hidle h1
    cases h with
    | cas g1 g2 g3 => exact Or.inr ⟨_, _, rfl, (own_procs _ _ _ _).trans (to_self _ _ _ _), g3⟩
    | casFail g1 g2 => cases hsame h2 g1; exact absurd h3 g2
  | casFail h1 h2 h3 =>
    obtain ⟨rfl, rfl⟩ := hidle h1
    cases h with
    | casFail g1 g2 g3 => exact Or.inr ⟨_, _, rfl, to_self _ _ _ _, g3⟩
    | cas g1 g2 => cases hsame h2 g1; exact absurd g2 h3
  | lockFail h1 h2 h3 h4 =>
    obtain ⟨rfl, rfl⟩ := hidle h1
    cases h with
    | lockFail g1 g2 g3 g4 => exact Or.inr ⟨_, _, rfl, to_self _ _ _ _, g4⟩
    | lock g1 g2 g3 => cases hsame h2 g1; rw [h4] at g3; simp at g3
  | lock h1 h2 h3 h4 =>
    obtain ⟨rfl, rfl⟩ := hidle h1
    cases h with
    | lock g1 g2 g3 g4 => cases hsame h2 g1; exact Or.inr ⟨_, _, rfl, (own_procs _ _ _ _).trans (to_self _ _ _ _), g4⟩
    | lockFail g1 g2 g3 => cases hsame h2 g1; rw [h4] at g3; simp at g3
  | unlock h1 h2 =>
    obtain ⟨rfl, rfl⟩ := hidle h1
    cases h with
    | unlock g1 g3 => cases hsame h2 g1; exact Or.inr ⟨_, _, rfl, (own_procs _ _ _ _).trans (to_self _ _ _ _), g3⟩
  | unlockObsolete h1 h2 =>
    obtain ⟨rfl, rfl⟩ := hidle h1
    cases h with
    | unlockObsolete g1 g3 => cases hsame h2 g1; exact Or.inr ⟨_, _, rfl, (own_procs _ _ _ _).trans (to_self _ _ _ _), g3⟩
  | read r h1 h2 h3 h4 =>
    obtain ⟨rfl, rfl⟩ := hidle h1
    cases h with
    | read g1 g2 g3 => cases hsame h2 g1; cases h4 g2; exact Or.inr ⟨_, _, rfl, to_self _ _ _ _, g3⟩
  | readRoot h1 h2 =>
    obtain ⟨rfl, rfl⟩ := hidle h1
    cases h with
    | readRoot g1 g3 => cases hsame h2 g1; exact Or.inr ⟨_, _, rfl, to_self _ _ _ _, g3⟩
  | choose b h1 =>
    obtain ⟨rfl, rfl⟩ := hidle h1
    cases h with
    | choose g => exact Or.inr ⟨_, _, rfl, to_self _ _ _ _, g b⟩
  | write h1 h2 =>
    obtain ⟨rfl, rfl⟩ := hidle h1
    cases h with
    | write g1 g3 => rw [h2] at g1; cases g1; exact Or.inr ⟨_, _, rfl, to_self _ _ _ _, g3⟩

theorem Solo.can {n i : Nat} {c : Call} {p : Prog (Option Bytes)} {σ : Conf} {Q : Option Bytes → Heap → Prop} (h : Solo Q n σ.heap p) (hp : σ.procs i = .running c p) : ∃ σ', Step i σ σ' := by
  cases h with
  | ret _ => exact ⟨_, .ret hp⟩
  | wait h1 h2 _ => exact ⟨_, .wait hp h1 h2⟩
  | load h1 _ => exact ⟨_, .load hp h1⟩
  | cas h1 h2 _ => exact ⟨_, .cas hp h1 h2⟩
  | casFail h1 h2 _ => exact ⟨_, .casFail hp h1 h2⟩
  | lock h1 h2 h3 _ => exact ⟨_, .lock hp h1 h2 h3⟩
  | lockFail h1 h2 h3 _ => exact ⟨_, .lockFail hp h1 h2 h3⟩
  | unlock h1 _ => exact ⟨_, .unlock hp h1⟩
  | unlockObsolete h1 _ => exact ⟨_, .unlockObsolete hp h1⟩
  | read h1 h2 _ => exact ⟨_, .read _ hp h1 rfl (fun _ => rfl)⟩
  | readRoot h1 _ => exact ⟨_, .readRoot hp h1⟩
  | choose _ => exact ⟨_, .choose true hp⟩
  | write h1 _ => exact ⟨_, .write hp h1⟩

end Art
