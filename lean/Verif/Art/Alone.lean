import Verif.Art.Brief

/-!
# A call that nobody disturbs

`Solo Q n h p`: whatever is chosen, the program `p`, when nobody else changes the heap, comes from the heap `h` to its end in at most `n` steps, without waiting, and `Q` holds of what it returns and of the
heap it leaves. Every read is of a node at the version the reader believes in.
-/

set_option linter.unusedSimpArgs false

namespace Art

open Surf Spec Props Prog

/-- See above. -/
inductive Solo {α : Type} (Q : α → Heap → Prop) : Nat → Heap → Prog α → Prop
  | ret {n h a} : Q a h → Solo Q n h (.ret a)
  | wait {n h a k x} : h[a]? = some x → locked x.version = false → Solo Q n h (k x.version) → Solo Q (n + 1) h (.wait a k)
  | load {n h a k x} : h[a]? = some x → Solo Q n h (k x.version) → Solo Q (n + 1) h (.load a k)
  | cas {n h a v k x} : h[a]? = some x → x.version = v → Solo Q n (setVer h a (v + 2)) (k true) → Solo Q (n + 1) h (.cas a v k)
  | casFail {n h a v k x} : h[a]? = some x → x.version ≠ v → Solo Q n h (k false) → Solo Q (n + 1) h (.cas a v k)
  | lock {n h a k x} : h[a]? = some x → locked x.version = false → obsolete x.version = false → Solo Q n (setVer h a (x.version + 2)) (k true) → Solo Q (n + 1) h (.lock a k)
  | lockFail {n h a k x} : h[a]? = some x → locked x.version = false → obsolete x.version = true → Solo Q n h (k false) → Solo Q (n + 1) h (.lock a k)
  | unlock {n h a k x} : h[a]? = some x → Solo Q n (setVer h a (x.version + 2)) k → Solo Q (n + 1) h (.unlock a k)
  | unlockObsolete {n h a k x} : h[a]? = some x → Solo Q n (setVer h a (x.version + 3)) k → Solo Q (n + 1) h (.unlockObsolete a k)
  | read {n h a v k x} : h[a]? = some x → x.version = v → Solo Q n h (k x) → Solo Q (n + 1) h (.read a v k)
  | readRoot {n h k x} : h[0]? = some x → Solo Q n h (k x.root) → Solo Q (n + 1) h (.readRoot k)
  | choose {n h k} : (∀ b, Solo Q n h (k b)) → Solo Q (n + 1) h (.choose k)
  | write {n h f k h'} : f h = some h' → Solo Q n h' k → Solo Q (n + 1) h (.write f k)

section
variable {α β : Type} {Q R : α → Heap → Prop} {n : Nat} {h : Heap} {p : Prog α}

theorem Solo.mono (hs : Solo Q n h p) : ∀ {m}, n ≤ m → Solo Q m h p := by
  induction hs with
  | ret hq => intro m _; exact .ret hq
  | wait h1 h2 _ ih => intro m hm; obtain ⟨m, rfl⟩ : ∃ j, m = j + 1 := ⟨m - 1, by omega⟩; exact .wait h1 h2 (ih (by omega))
  | load h1 _ ih => intro m hm; obtain ⟨m, rfl⟩ : ∃ j, m = j + 1 := ⟨m - 1, by omega⟩; exact .load h1 (ih (by omega))
  | cas h1 h2 _ ih => intro m hm; obtain ⟨m, rfl⟩ : ∃ j, m = j + 1 := ⟨m - 1, by omega⟩; exact .cas h1 h2 (ih (by omega))
  | casFail h1 h2 _ ih => intro m hm; obtain ⟨m, rfl⟩ : ∃ j, m = j + 1 := ⟨m - 1, by omega⟩; exact .casFail h1 h2 (ih (by omega))
  | lock h1 h2 h3 _ ih => intro m hm; obtain ⟨m, rfl⟩ : ∃ j, m = j + 1 := ⟨m - 1, by omega⟩; exact .lock h1 h2 h3 (ih (by omega))
  | lockFail h1 h2 h3 _ ih => intro m hm; obtain ⟨m, rfl⟩ : ∃ j, m = j + 1 := ⟨m - 1, by omega⟩; exact .lockFail h1 h2 h3 (ih (by omega))
  | unlock h1 _ ih => intro m hm; obtain ⟨m, rfl⟩ : ∃ j, m = j + 1 := ⟨m - 1, by omega⟩; exact .unlock h1 (ih (by omega))
  | unlockObsolete h1 _ ih => intro m hm; obtain ⟨m, rfl⟩ : ∃ j, m = j + 1 := ⟨m - 1, by omega⟩; exact .unlockObsolete h1 (ih (by omega))
  | read h1 h2 _ ih => intro m hm; obtain ⟨m, rfl⟩ : ∃ j, m = j + 1 := ⟨m - 1, by omega⟩; exact .read h1 h2 (ih (by omega))
  | readRoot h1 _ ih => intro m hm; obtain ⟨m, rfl⟩ : ∃ j, m = j + 1 := ⟨m - 1, by omega⟩; exact .readRoot h1 (ih (by omega))
  | choose _ ih => intro m hm; obtain ⟨m, rfl⟩ : ∃ j, m = j + 1 := ⟨m - 1, by omega⟩; exact .choose fun b => ih b (by omega)
  | write h1 _ ih => intro m hm; obtain ⟨m, rfl⟩ : ∃ j, m = j + 1 := ⟨m - 1, by omega⟩; exact .write h1 (ih (by omega))

theorem Solo.bind {f : α → Prog β} {Q : β → Heap → Prop} {m : Nat} (hs : Solo (fun a h' => Solo Q m h' (f a)) n h p) : Solo Q (n + m) h (p.bind f) := by
  induction hs with
  | ret hq => exact hq.mono (by omega)
  | wait h1 h2 _ ih => rw [Nat.add_right_comm]; exact .wait h1 h2 ih
  | load h1 _ ih => rw [Nat.add_right_comm]; exact .load h1 ih
  | cas h1 h2 _ ih => rw [Nat.add_right_comm]; exact .cas h1 h2 ih
  | casFail h1 h2 _ ih => rw [Nat.add_right_comm]; exact .casFail h1 h2 ih
  | lock h1 h2 h3 _ ih => rw [Nat.add_right_comm]; exact .lock h1 h2 h3 ih
  | lockFail h1 h2 h3 _ ih => rw [Nat.add_right_comm]; exact .lockFail h1 h2 h3 ih
  | unlock h1 _ ih => rw [Nat.add_right_comm]; exact .unlock h1 ih
  | unlockObsolete h1 _ ih => rw [Nat.add_right_comm]; exact .unlockObsolete h1 ih
  | read h1 h2 _ ih => rw [Nat.add_right_comm]; exact .read h1 h2 ih
  | readRoot h1 _ ih => rw [Nat.add_right_comm]; exact .readRoot h1 ih
  | choose _ ih => rw [Nat.add_right_comm]; exact .choose ih
  | write h1 _ ih => rw [Nat.add_right_comm]; exact .write h1 ih

theorem Solo.imp (hs : Solo Q n h p) (hq : ∀ a h', Q a h' → R a h') : Solo R n h p := by
  induction hs with
  | ret h1 => exact .ret (hq _ _ h1)
  | wait h1 h2 _ ih => exact .wait h1 h2 ih
  | load h1 _ ih => exact .load h1 ih
  | cas h1 h2 _ ih => exact .cas h1 h2 ih
  | casFail h1 h2 _ ih => exact .casFail h1 h2 ih
  | lock h1 h2 h3 _ ih => exact .lock h1 h2 h3 ih
  | lockFail h1 h2 h3 _ ih => exact .lockFail h1 h2 h3 ih
  | unlock h1 _ ih => exact .unlock h1 ih
  | unlockObsolete h1 _ ih => exact .unlockObsolete h1 ih
  | read h1 h2 _ ih => exact .read h1 h2 ih
  | readRoot h1 _ ih => exact .readRoot h1 ih
  | choose _ ih => exact .choose ih
  | write h1 _ ih => exact .write h1 ih

/-- More fuel does not matter. -/
theorem Solo.le (hs : Solo Q n h p) : ∀ {q}, Le p q → Solo Q n h q := by
  induction hs with
  | ret h1 => intro q hq; cases hq; exact .ret h1
  | wait h1 h2 _ ih => intro q hq; cases hq with | wait _ hk => exact .wait h1 h2 (ih (hk _))
  | load h1 _ ih => intro q hq; cases hq with | load _ hk => exact .load h1 (ih (hk _))
  | cas h1 h2 _ ih => intro q hq; cases hq with | cas _ _ hk => exact .cas h1 h2 (ih (hk _))
  | casFail h1 h2 _ ih => intro q hq; cases hq with | cas _ _ hk => exact .casFail h1 h2 (ih (hk _))
  | lock h1 h2 h3 _ ih => intro q hq; cases hq with | lock _ hk => exact .lock h1 h2 h3 (ih (hk _))
  | lockFail h1 h2 h3 _ ih => intro q hq; cases hq with | lock _ hk => exact .lockFail h1 h2 h3 (ih (hk _))
  | unlock h1 _ ih => intro q hq; cases hq with | unlock _ hk => exact .unlock h1 (ih hk)
  | unlockObsolete h1 _ ih => intro q hq; cases hq with | unlockObsolete _ hk => exact .unlockObsolete h1 (ih hk)
  | read h1 h2 _ ih => intro q hq; cases hq with | read _ _ hk => exact .read h1 h2 (ih (hk _))
  | readRoot h1 _ ih => intro q hq; cases hq with | readRoot hk => exact .readRoot h1 (ih (hk _))
  | choose _ ih => intro q hq; cases hq with | choose hk => exact .choose fun b => ih b (hk b)
  | write h1 _ ih => intro q hq; cases hq with | write _ hk => exact .write h1 (ih hk)

theorem Solo.fuel {p : Nat → Prog α} (hp : ∀ fuel, Le (p fuel) (p (fuel + 1))) {fuel : Nat} (hs : Solo Q n h (p fuel)) : ∀ {fuel'}, fuel ≤ fuel' → Solo Q n h (p fuel') := by
  intro fuel' hf
  obtain ⟨j, rfl⟩ := Nat.exists_eq_add_of_le hf
  clear hf
  induction j with
  | zero => exact hs
  | succ j ih => exact ih.le (hp _)

theorem Solo.run (hs : Solo Q n h p) (rf : Bool) : ∃ a h', p.run rf h = .done a h' ∧ Q a h' := by
  induction hs with
  | ret h1 => exact ⟨_, _, rfl, h1⟩
  | wait h1 h2 _ ih => simpa [Prog.run, ver_of_get h1, h2] using ih
  | load h1 _ ih => simpa [Prog.run, ver_of_get h1] using ih
  | cas h1 h2 _ ih => simpa [Prog.run, ver_of_get h1, h2] using ih
  | casFail h1 h2 _ ih => simpa [Prog.run, ver_of_get h1, h2] using ih
  | lock h1 h2 h3 _ ih => simpa [Prog.run, ver_of_get h1, h2, h3] using ih
  | lockFail h1 h2 h3 _ ih => simpa [Prog.run, ver_of_get h1, h2, h3] using ih
  | unlock h1 _ ih => simpa [Prog.run, ver_of_get h1] using ih
  | unlockObsolete h1 _ ih => simpa [Prog.run, ver_of_get h1] using ih
  | read h1 h2 _ ih => simpa [Prog.run, h1, h2] using ih
  | readRoot h1 _ ih => simpa [Prog.run, h1] using ih
  | choose _ ih => exact ih rf
  | write h1 _ ih => simpa [Prog.run, h1] using ih

/-! ### From runs -/

/-- A program without `choose`. -/
def Plain : Prog α → Prop
  | .ret _ => True
  | .panic => True
  | .diverge => True
  | .wait _ k => ∀ v, Plain (k v)
  | .load _ k => ∀ v, Plain (k v)
  | .cas _ _ k => ∀ v, Plain (k v)
  | .lock _ k => ∀ v, Plain (k v)
  | .unlock _ k => Plain k
  | .unlockObsolete _ k => Plain k
  | .read _ _ k => ∀ v, Plain (k v)
  | .readRoot k => ∀ v, Plain (k v)
  | .choose _ => False
  | .write _ k => Plain k

theorem Plain.bind {f : α → Prog β} (hf : ∀ a, Plain (f a)) : ∀ {p : Prog α}, Plain p → Plain (p.bind f) := by
  intro p
  induction p with
  | ret a => intro _; exact hf a
  | panic => intro _; trivial
  | diverge => intro _; trivial
  | wait a k ih => exact fun h v => ih v (h v)
  | load a k ih => exact fun h v => ih v (h v)
  | cas a v k ih => exact fun h v => ih v (h v)
  | lock a k ih => exact fun h v => ih v (h v)
  | unlock a k ih => exact fun h => ih h
  | unlockObsolete a k ih => exact fun h => ih h
  | read a v k ih => exact fun h v => ih v (h v)
  | readRoot k ih => exact fun h v => ih v (h v)
  | choose k ih => exact fun h => h.elim
  | write g k ih => exact fun h => ih h

theorem solo_of_run {rf : Bool} : ∀ {p : Prog α} {h h' : Heap} {a : α}, Plain p → p.run rf h = .done a h' → ∃ n, Solo (fun x y => x = a ∧ y = h') n h p := by
  intro p
  induction p with
  | ret a =>
    intro h h' b _ hr
    simp only [Prog.run, Out.done.injEq] at hr
    exact ⟨0, .ret hr⟩
  | panic => intro h h' b _ hr; simp [Prog.run] at hr
  | diverge => intro h h' b _ hr; simp [Prog.run] at hr
  | wait a k ih =>
    intro h h' b hp hr
    simp only [Prog.run] at hr
    cases hv : ver h a with
    | none => simp [hv] at hr
    | some v =>
      obtain ⟨x, h1, rfl⟩ := get_of_ver hv
      simp only [hv] at hr
      split at hr
      · simp at hr
      · obtain ⟨n, hn⟩ := ih _ (hp _) hr
        exact ⟨n + 1, .wait h1 (by simp_all) hn⟩
  | load a k ih =>
    intro h h' b hp hr
    simp only [Prog.run] at hr
    cases hv : ver h a with
    | none => simp [hv] at hr
    | some v =>
      obtain ⟨x, h1, rfl⟩ := get_of_ver hv
      simp only [hv] at hr
      obtain ⟨n, hn⟩ := ih _ (hp _) hr
      exact ⟨n + 1, .load h1 hn⟩
  | cas a v k ih =>
    intro h h' b hp hr
    simp only [Prog.run] at hr
    cases hv : ver h a with
    | none => simp [hv] at hr
    | some w =>
      obtain ⟨x, h1, rfl⟩ := get_of_ver hv
      simp only [hv] at hr
      split at hr
      · next e =>
        obtain ⟨n, hn⟩ := ih _ (hp _) hr
        exact ⟨n + 1, .cas h1 e hn⟩
      · next e =>
        obtain ⟨n, hn⟩ := ih _ (hp _) hr
        exact ⟨n + 1, .casFail h1 e hn⟩
  | lock a k ih =>
    intro h h' b hp hr
    simp only [Prog.run] at hr
    cases hv : ver h a with
    | none => simp [hv] at hr
    | some w =>
      obtain ⟨x, h1, rfl⟩ := get_of_ver hv
      simp only [hv] at hr
      split at hr
      · simp at hr
      · next e0 =>
        split at hr
        · next e =>
          obtain ⟨n, hn⟩ := ih _ (hp _) hr
          exact ⟨n + 1, .lockFail h1 (by simpa using e0) e hn⟩
        · next e =>
          obtain ⟨n, hn⟩ := ih _ (hp _) hr
          exact ⟨n + 1, .lock h1 (by simpa using e0) (by simpa using e) hn⟩
  | unlock a k ih =>
    intro h h' b hp hr
    simp only [Prog.run] at hr
    cases hv : ver h a with
    | none => simp [hv] at hr
    | some w =>
      obtain ⟨x, h1, rfl⟩ := get_of_ver hv
      simp only [hv] at hr
      obtain ⟨n, hn⟩ := ih hp hr
      exact ⟨n + 1, .unlock h1 hn⟩
  | unlockObsolete a k ih =>
    intro h h' b hp hr
    simp only [Prog.run] at hr
    cases hv : ver h a with
    | none => simp [hv] at hr
    | some w =>
      obtain ⟨x, h1, rfl⟩ := get_of_ver hv
      simp only [hv] at hr
      obtain ⟨n, hn⟩ := ih hp hr
      exact ⟨n + 1, .unlockObsolete h1 hn⟩
  | read a v k ih =>
    intro h h' b hp hr
    simp only [Prog.run] at hr
    cases hv : h[a]? with
    | none => simp [hv] at hr
    | some x =>
      simp only [hv] at hr
      split at hr
      · next e =>
        obtain ⟨n, hn⟩ := ih _ (hp _) hr
        exact ⟨n + 1, .read hv e hn⟩
      · simp at hr
  | readRoot k ih =>
    intro h h' b hp hr
    simp only [Prog.run] at hr
    cases hv : h[0]? with
    | none => simp [hv] at hr
    | some x =>
      simp only [hv] at hr
      obtain ⟨n, hn⟩ := ih _ (hp _) hr
      exact ⟨n + 1, .readRoot hv hn⟩
  | choose k ih => intro h h' b hp; exact hp.elim
  | write f k ih =>
    intro h h' b hp hr
    simp only [Prog.run] at hr
    cases hv : f h with
    | none => simp [hv] at hr
    | some x =>
      simp only [hv] at hr
      obtain ⟨n, hn⟩ := ih hp hr
      exact ⟨n + 1, .write hv hn⟩

end

theorem plain_search (key : Bytes) : ∀ (fuel depth : Nat) (parent : Addr) (pv : Nat) (curr : Addr), Plain (search key fuel depth parent pv curr) := by
  intro fuel
  induction fuel with
  | zero => intros; trivial
  | succ fuel ih =>
    intro depth parent pv curr
    unfold search
    intro v
    dsimp only
    split
    · trivial
    intro w
    dsimp only
    split
    · trivial
    intro n
    dsimp only
    split
    · intro _; trivial
    intro n' w
    dsimp only
    split
    · trivial
    split
    · trivial
    · trivial
    · exact ih _ _ _ _

theorem plain_fullKey : ∀ (fuel : Nat) (curr : Addr) (v : Nat), Plain (fullKey fuel curr v) := by
  intro fuel
  induction fuel with
  | zero => intros; trivial
  | succ fuel ih =>
    intro curr v
    unfold fullKey
    intro n
    dsimp only
    split
    · intro _; trivial
    intro n
    dsimp only
    split
    · trivial
    intro w
    dsimp only
    split
    · trivial
    split
    · trivial
    · intro _; trivial
    · intro v
      dsimp only
      split
      · trivial
      · exact ih _ _

theorem plain_mismatchLoop (key : Bytes) (depth : Nat) (curr : Addr) (v : Nat) (parent : Addr) (pv : Nat) : ∀ (fuel : Nat) (got : Option Bytes), Plain (mismatchLoop key depth curr v parent pv fuel got) := by
  intro fuel
  induction fuel with
  | zero => intros; trivial
  | succ fuel ih =>
    intro got
    unfold mismatchLoop
    intro w
    dsimp only
    split
    · trivial
    intro w
    dsimp only
    split
    · trivial
    split
    · intro n
      dsimp only
      split
      · trivial
      · trivial
    · exact (plain_fullKey _ _ _).bind fun got => ih got

theorem plain_mismatch (fuel : Nat) (key : Bytes) (depth : Nat) (curr : Addr) (v : Nat) (parent : Addr) (pv : Nat) : Plain (prefixMismatch fuel key depth curr v parent pv) := by
  unfold prefixMismatch
  intro n
  dsimp only
  split
  · intro n
    dsimp only
    split
    · trivial
    · trivial
  · exact plain_mismatchLoop _ _ _ _ _ _ _ _

theorem plain_insertHere (key value : Bytes) (b : UInt8) (parent : Addr) (pv : Nat) (curr : Addr) (v : Nat) (loc : Loc) : Plain (insertHere key value b parent pv curr v loc) := by
  unfold insertHere
  intro n
  dsimp only
  split
  · trivial
  · rintro ⟨⟩
    · trivial
    · rintro ⟨⟩ <;> trivial
  · rintro ⟨⟩
    · trivial
    · intro w
      dsimp only
      split <;> trivial

theorem plain_insert (key value : Bytes) : ∀ (fuel depth : Nat) (parent : Addr) (pv : Nat) (curr : Addr) (loc : Loc), Plain (insert key value fuel depth parent pv curr loc) := by
  intro fuel
  induction fuel with
  | zero => intros; trivial
  | succ fuel ih =>
    intro depth parent pv curr loc
    unfold insert
    intro v
    dsimp only
    split
    · trivial
    refine (plain_mismatch _ _ _ _ _ _ _).bind fun x => ?_
    split
    · trivial
    intro n
    dsimp only
    split
    · rintro ⟨⟩
      · trivial
      · rintro ⟨⟩ <;> trivial
    intro n
    dsimp only
    split
    · rintro ⟨⟩
      · trivial
      · intro w
        dsimp only
        split <;> trivial
    split
    · trivial
    intro n' w
    dsimp only
    split
    · trivial
    split
    · exact plain_insertHere _ _ _ _ _ _ _ _
    · intro w
      dsimp only
      split
      · trivial
      split
      · rintro ⟨⟩ <;> trivial
      · exact ih _ _ _ _ _

theorem plain_compress (idx : Nat) (parent curr : Addr) (v : Nat) (loc : Loc) : Plain (compressChild idx parent curr v loc) := by
  unfold compressChild
  intro r
  dsimp only
  split
  · split
    · trivial
    · rintro ⟨⟩ <;> trivial
    · trivial
  · trivial

theorem plain_shrink (b : UInt8) (parent curr : Addr) (v : Nat) (loc : Loc) : Plain (removeChildAndShrink b parent curr v loc) := by
  unfold removeChildAndShrink
  intro r
  dsimp only
  split
  · split
    · trivial
    · split
      · trivial
      · split
        · exact plain_compress _ _ _ _ _
        · exact plain_compress _ _ _ _ _
  · trivial

theorem plain_removeHere (key : Bytes) (parent : Addr) (pv : Nat) (curr : Addr) (v : Nat) (loc : Loc) : Plain (removeHere key parent pv curr v loc) := by
  unfold removeHere
  intro n w
  dsimp only
  split
  · trivial
  split
  · intro _; trivial
  intro n
  dsimp only
  split
  · rintro ⟨⟩
    · trivial
    · rintro ⟨⟩
      · trivial
      · exact plain_compress _ _ _ _ _
  · rintro ⟨⟩ <;> trivial

theorem plain_removeLeaf (key : Bytes) (b : UInt8) (l : Leaf) (pos : Nat) (parent : Addr) (pv : Nat) (curr : Addr) (v : Nat) (loc : Loc) : Plain (removeLeaf key b l pos parent pv curr v loc) := by
  unfold removeLeaf
  split
  · intro _; trivial
  intro n
  dsimp only
  split
  · trivial
  · rintro ⟨⟩
    · trivial
    · rintro ⟨⟩
      · trivial
      · exact plain_shrink _ _ _ _ _
  · rintro ⟨⟩ <;> trivial

theorem plain_remove (key : Bytes) : ∀ (fuel depth : Nat) (parent : Addr) (pv : Nat) (curr : Addr) (loc : Loc), Plain (remove key fuel depth parent pv curr loc) := by
  intro fuel
  induction fuel with
  | zero => intros; trivial
  | succ fuel ih =>
    intro depth parent pv curr loc
    unfold remove
    intro v
    dsimp only
    split
    · trivial
    intro w
    dsimp only
    split
    · trivial
    intro n
    dsimp only
    split
    · intro _; trivial
    split
    · exact plain_removeHere _ _ _ _ _ _
    split
    · intro _; trivial
    intro n' w
    dsimp only
    split
    · trivial
    split
    · trivial
    · exact plain_removeLeaf _ _ _ _ _ _ _ _ _
    · exact ih _ _ _ _ _

/-! ### Calls on a quiet heap -/

section
variable {E : Addr → Bytes} {live : Addr → Prop} {h : Heap} {root : Addr} {m : Map}

theorem solo_start {α : Type} {Q : α → Heap → Prop} {n : Nat} (ht : HTr E live h root m) (hc : Calm live h) {k : Addr → Nat → Prog α} {v : Nat} (hv : ver h 0 = some v) (hk : Solo Q n h (k root v)) : Solo Q (n + 3) h (start k) := by
  obtain ⟨v', hv', h4⟩ := hc 0 (Or.inl rfl)
  rw [hv] at hv'
  cases hv'
  obtain ⟨d, hd, hk'⟩ := ht.dummy
  have hr : d.root = some (.node root) := by simp [Node.root, hk']
  have hloc : locked v = false := by simp [locked]; omega
  have hdv : d.version = v := by simpa [ver, hd] using hv
  unfold start
  refine .choose fun b => ?_
  cases b
  · refine .wait hd (by rw [hdv]; exact hloc) (.readRoot hd ?_)
    rw [hr, hdv]
    exact hk
  · refine .readRoot hd (.wait hd (by rw [hdv]; exact hloc) ?_)
    rw [hr, hdv]
    exact hk

/-- A call that comes to an end when it runs alone. -/
theorem solo_call (hs : Seq h m) {c : Call} (hf : c.Fits) (hr : (∀ k, c ≠ .delete k) ∨ ∃ o h', c.Returns h o h') :
    ∃ M, ∀ fuel ≥ M, Solo (fun o h' => c.Returns h o h') M h (c.prog fuel) := by
  obtain ⟨E, live, ⟨root, ht⟩, hc⟩ := id hs
  obtain ⟨N, hN⟩ := exists_bound E h.length
  obtain ⟨n, hl, hn, hp, hE, -⟩ := ht.root_facts
  obtain ⟨v, hv, -⟩ := hc 0 (Or.inl rfl)
  -- with enough fuel the program needs some number of steps
  have key : ∃ M N a h', Solo (fun x y => x = a ∧ y = h') M h (c.prog N) := by
    cases c with
    | get k =>
      have g := run_search (rf := true) ht hc k (fun a ha => hN a (ht.lt ha)) N 0 0 v root n hl hn (by rw [hp, hE]; rfl) hv (Nat.zero_le _) (Or.inl (by simp)) (by omega)
      obtain ⟨j, hj⟩ := solo_of_run (plain_search _ _ _ _ _ _) g
      refine ⟨j + 3 + 0, N + 1, m k, h, ?_⟩
      show Solo _ _ h (Art.get k (N + 1))
      unfold Art.get
      refine Solo.bind (m := 0) (Solo.imp (solo_start (k := fun r v => search k N 0 0 v r) ht hc hv hj) ?_)
      rintro a h' ⟨rfl, rfl⟩
      exact .ret ⟨rfl, rfl⟩
    | put k w =>
      obtain ⟨h', g, -⟩ := run_insert (rf := true) ht hc hf.1 hf.2 (fun a ha => hN a (ht.lt ha)) (N + 3) 0 v root (0, 0) n
        ⟨hl, hn, by rw [hp, hE]; rfl, .root 0⟩ hv (by simp) (by omega)
      obtain ⟨j, hj⟩ := solo_of_run (plain_insert _ _ _ _ _ _ _ _) g
      refine ⟨j + 3 + 0 + 0, N + 4, none, h', ?_⟩
      show Solo _ _ h ((Art.put k w (N + 4)).bind fun _ => .ret none)
      refine Solo.bind (m := 0) ?_
      unfold Art.put
      refine Solo.bind (m := 0) (Solo.imp (solo_start (k := fun r v => insert k w (N + 3) 0 0 v r (0, 0)) ht hc hv hj) ?_)
      rintro a h' ⟨rfl, rfl⟩
      exact .ret (.ret ⟨rfl, rfl⟩)
    | delete k =>
      obtain ⟨o, h1, rf, fuel, hret⟩ := hr.resolve_left (fun hh => hh k rfl)
      obtain ⟨b, h', g⟩ : ∃ b h', (remove k N 0 0 v root (0, 0)).run rf h = .done b h' := by
        rcases run_remove (rf := rf) ht hc k (fun a ha => hN a (ht.lt ha)) N 0 v root (0, 0) n
          ⟨hl, hn, by rw [hp, hE]; rfl, .root 0⟩ hv (Nat.zero_le _) (Or.inl (by simp)) (by omega) with ⟨-, h', g1, -⟩ | ⟨-, b, g1⟩
        · exact ⟨_, _, g1⟩
        · exact ⟨_, _, g1⟩
      have hb : b = true := by
        rcases run_remove (rf := rf) ht hc k (fun a ha => hN a (ht.lt ha)) N 0 v root (0, 0) n
          ⟨hl, hn, by rw [hp, hE]; rfl, .root 0⟩ hv (Nat.zero_le _) (Or.inl (by simp)) (by omega) with ⟨-, h', g1, -⟩ | ⟨hk0, b', g1⟩
        · rw [g1] at g
          cases g
          rfl
        · rw [g1] at g
          cases g
          cases b with
          | true => rfl
          | false =>
            exfalso
            have hbad : ∀ j, (Art.delete k j).run rf h = .diverge := by
              intro j
              induction j with
              | zero => rfl
              | succ j ih =>
                rw [Art.delete, run_bind]
                obtain ⟨v', hv', h4, hrun⟩ := run_start (rf := rf) ht hc (fun r v => remove k j 0 0 v r (0, 0))
                rw [hv] at hv'
                cases hv'
                rw [hrun]
                rcases (Classical.em ((remove k j 0 0 v root (0, 0)).run rf h = .diverge)) with h1 | h1
                · rw [h1]; rfl
                · have e1 := run_fuel_le (p := fun j => remove k j 0 0 v root (0, 0)) (fun fuel => remove_mono _ _ _ _ _ _ _) (Nat.le_add_right j N) h1
                  have e2 := run_fuel_le (p := fun j => remove k j 0 0 v root (0, 0)) (rf := rf) (h := h) (fun fuel => remove_mono _ _ _ _ _ _ _) (Nat.le_add_left N j) (by simp only [g1]; simp)
                  rw [← e1, e2, g1]
                  exact ih
            rw [Call.prog, run_bind, hbad] at hret
            simp [Out.andThen] at hret
      subst hb
      obtain ⟨j, hj⟩ := solo_of_run (plain_remove _ _ _ _ _ _ _) g
      refine ⟨j + 3 + 0 + 0, N + 1, none, h', ?_⟩
      show Solo _ _ h ((Art.delete k (N + 1)).bind fun _ => .ret none)
      refine Solo.bind (m := 0) ?_
      unfold Art.delete
      refine Solo.bind (m := 0) (Solo.imp (solo_start (k := fun r v => remove k N 0 0 v r (0, 0)) ht hc hv hj) ?_)
      rintro a h' ⟨rfl, rfl⟩
      exact .ret (.ret ⟨rfl, rfl⟩)
  obtain ⟨M, N', a, h', hsolo⟩ := key
  refine ⟨max M N', fun fuel hfu => ?_⟩
  have h1 : Solo _ M h (c.prog fuel) := Solo.fuel (prog_mono c) hsolo (Nat.le_trans (Nat.le_max_right _ _) hfu)
  refine (h1.mono (Nat.le_max_left _ _)).imp ?_
  rintro o y ⟨rfl, rfl⟩
  obtain ⟨a, y', g1, rfl, rfl⟩ := hsolo.run true
  exact ⟨true, N', g1⟩

end

end Art
