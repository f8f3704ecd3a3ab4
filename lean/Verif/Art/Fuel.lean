import Verif.Art.SeqDel

/-! # Fuel does not matter

A program that returns with some amount of fuel behaves the same with more. -/

set_option linter.unusedSimpArgs false

namespace Art

open Surf Spec

/-- `q` does what `p` does, and may go on where `p` has used up its fuel. -/
inductive Prog.Le {α : Type} : Prog α → Prog α → Prop
  | diverge (q) : Le .diverge q
  | ret (a) : Le (.ret a) (.ret a)
  | panic : Le .panic .panic
  | wait (a) {k k'} : (∀ x, Le (k x) (k' x)) → Le (.wait a k) (.wait a k')
  | load (a) {k k'} : (∀ x, Le (k x) (k' x)) → Le (.load a k) (.load a k')
  | cas (a v) {k k'} : (∀ x, Le (k x) (k' x)) → Le (.cas a v k) (.cas a v k')
  | lock (a) {k k'} : (∀ x, Le (k x) (k' x)) → Le (.lock a k) (.lock a k')
  | unlock (a) {k k'} : Le k k' → Le (.unlock a k) (.unlock a k')
  | unlockObsolete (a) {k k'} : Le k k' → Le (.unlockObsolete a k) (.unlockObsolete a k')
  | read (a v) {k k'} : (∀ x, Le (k x) (k' x)) → Le (.read a v k) (.read a v k')
  | readRoot {k k'} : (∀ x, Le (k x) (k' x)) → Le (.readRoot k) (.readRoot k')
  | choose {k k'} : (∀ x, Le (k x) (k' x)) → Le (.choose k) (.choose k')
  | write (f) {k k'} : Le k k' → Le (.write f k) (.write f k')

namespace Prog

variable {α β : Type}

theorem Le.refl (p : Prog α) : Le p p := by
  induction p with
  | ret a => exact .ret a
  | panic => exact .panic
  | diverge => exact .diverge _
  | wait a k ih => exact .wait a ih
  | load a k ih => exact .load a ih
  | cas a v k ih => exact .cas a v ih
  | lock a k ih => exact .lock a ih
  | unlock a k ih => exact .unlock a ih
  | unlockObsolete a k ih => exact .unlockObsolete a ih
  | read a v k ih => exact .read a v ih
  | readRoot k ih => exact .readRoot ih
  | choose k ih => exact .choose ih
  | write f k ih => exact .write f ih

theorem Le.bind {p q : Prog α} (h : Le p q) {f g : α → Prog β} (hf : ∀ x, Le (f x) (g x)) : Le (p.bind f) (q.bind g) := by
  induction h with
  | diverge q => exact .diverge _
  | ret a => exact hf a
  | panic => exact .panic
  | wait a _ ih => exact .wait a ih
  | load a _ ih => exact .load a ih
  | cas a v _ ih => exact .cas a v ih
  | lock a _ ih => exact .lock a ih
  | unlock a _ ih => exact .unlock a ih
  | unlockObsolete a _ ih => exact .unlockObsolete a ih
  | read a v _ ih => exact .read a v ih
  | readRoot _ ih => exact .readRoot ih
  | choose _ ih => exact .choose ih
  | write f _ ih => exact .write f ih

theorem Le.ite {c : Prop} [Decidable c] {p q p' q' : Prog α} (h1 : Le p p') (h2 : Le q q') : Le (if c then p else q) (if c then p' else q') := by
  split
  · exact h1
  · exact h2

theorem Le.run {rf : Bool} {p q : Prog α} (h : Le p q) : ∀ s, p.run rf s = .diverge ∨ q.run rf s = p.run rf s := by
  induction h with
  | diverge q => exact fun s => Or.inl rfl
  | ret a => exact fun s => Or.inr rfl
  | panic => exact fun s => Or.inr rfl
  | wait a _ ih =>
    intro s
    simp only [Prog.run]
    cases ver s a with
    | none => exact Or.inr rfl
    | some v =>
      simp only
      split
      · exact Or.inr rfl
      · exact ih v s
  | load a _ ih =>
    intro s
    simp only [Prog.run]
    cases ver s a with
    | none => exact Or.inr rfl
    | some v => exact ih v s
  | cas a v _ ih =>
    intro s
    simp only [Prog.run]
    cases ver s a with
    | none => exact Or.inr rfl
    | some w =>
      simp only
      split
      · exact ih _ _
      · exact ih _ _
  | lock a _ ih =>
    intro s
    simp only [Prog.run]
    cases ver s a with
    | none => exact Or.inr rfl
    | some w =>
      simp only
      split
      · exact Or.inr rfl
      · split
        · exact ih _ _
        · exact ih _ _
  | unlock a _ ih =>
    intro s
    simp only [Prog.run]
    cases ver s a with
    | none => exact Or.inr rfl
    | some w => exact ih _
  | unlockObsolete a _ ih =>
    intro s
    simp only [Prog.run]
    cases ver s a with
    | none => exact Or.inr rfl
    | some w => exact ih _
  | read a v _ ih =>
    intro s
    simp only [Prog.run]
    cases s[a]? with
    | none => exact Or.inr rfl
    | some w =>
      simp only
      split
      · exact ih _ _
      · exact Or.inr rfl
  | readRoot _ ih =>
    intro s
    simp only [Prog.run]
    cases s[0]? with
    | none => exact Or.inr rfl
    | some w => exact ih _ _
  | choose _ ih => exact fun s => ih _ s
  | write f _ ih =>
    intro s
    simp only [Prog.run]
    cases f s with
    | none => exact Or.inr rfl
    | some w => exact ih _

end Prog

open Prog

theorem search_mono (key : Bytes) : ∀ fuel d p pv c, Le (search key fuel d p pv c) (search key (fuel + 1) d p pv c) := by
  intro fuel
  induction fuel with
  | zero => intro d p pv c; exact .diverge _
  | succ fuel ih =>
    intro d p pv c
    conv_lhs => rw [search]
    conv_rhs => rw [search]
    refine .wait _ fun v => .ite (.refl _) <| .load _ fun w => .ite (.refl _) <| .read _ _ fun n => .ite (.refl _) <|
      .read _ _ fun n' => .load _ fun w => .ite (.refl _) ?_
    split
    · exact .refl _
    · exact .refl _
    · exact ih _ _ _ _

theorem start_mono {α : Type} {k k' : Addr → Nat → Prog α} (h : ∀ a v, Le (k a v) (k' a v)) : Le (start k) (start k') := by
  unfold start
  refine .choose fun b => .ite (.readRoot fun r => .wait _ fun v => ?_) (.wait _ fun v => .readRoot fun r => ?_)
  · split
    · exact h _ _
    · exact .refl _
  · split
    · exact h _ _
    · exact .refl _

theorem get_mono (key : Bytes) : ∀ fuel, Le (get key fuel) (get key (fuel + 1)) := by
  intro fuel
  induction fuel with
  | zero => exact .diverge _
  | succ fuel ih =>
    conv_lhs => rw [get]
    conv_rhs => rw [get]
    refine (start_mono fun a v => search_mono _ _ _ _ _ _).bind fun x => ?_
    cases x with
    | none => exact ih
    | some x => exact .refl _

theorem fullKey_mono : ∀ fuel c v, Le (fullKey fuel c v) (fullKey (fuel + 1) c v) := by
  intro fuel
  induction fuel with
  | zero => intro c v; exact .diverge _
  | succ fuel ih =>
    intro c v
    conv_lhs => rw [fullKey]
    conv_rhs => rw [fullKey]
    refine .read _ _ fun n => ?_
    split
    · exact .refl _
    · refine .read _ _ fun n => ?_
      split
      · exact .refl _
      · refine .load _ fun w => .ite (.refl _) ?_
        split
        · exact .refl _
        · exact .refl _
        · exact .wait _ fun v => .ite (.refl _) (ih _ _)

theorem mismatchLoop_mono (key : Bytes) (d : Nat) (c : Addr) (v : Nat) (p : Addr) (pv : Nat) : ∀ fuel got,
    Le (mismatchLoop key d c v p pv fuel got) (mismatchLoop key d c v p pv (fuel + 1) got) := by
  intro fuel
  induction fuel with
  | zero => intro got; exact .diverge _
  | succ fuel ih =>
    intro got
    cases got with
    | some full =>
      conv_lhs => rw [mismatchLoop]
      conv_rhs => rw [mismatchLoop]
      exact .refl _
    | none =>
      conv_lhs => rw [mismatchLoop]
      conv_rhs => rw [mismatchLoop]
      refine .load _ fun w => .ite (.refl _) <| .load _ fun w => .ite (.refl _) ?_
      exact (fullKey_mono _ _ _).bind fun got => ih got

theorem prefixMismatch_mono (fuel : Nat) (key : Bytes) (d : Nat) (c : Addr) (v : Nat) (p : Addr) (pv : Nat) :
    Le (prefixMismatch fuel key d c v p pv) (prefixMismatch (fuel + 1) key d c v p pv) := by
  unfold prefixMismatch
  exact .read _ _ fun n => .ite (.refl _) (mismatchLoop_mono _ _ _ _ _ _ _ _)

theorem insert_mono (key value : Bytes) : ∀ fuel d p pv c loc, Le (insert key value fuel d p pv c loc) (insert key value (fuel + 1) d p pv c loc) := by
  intro fuel
  induction fuel with
  | zero => intro d p pv c loc; exact .diverge _
  | succ fuel ih =>
    intro d p pv c loc
    conv_lhs => rw [insert]
    conv_rhs => rw [insert]
    refine .wait _ fun v => .ite (.refl _) <| (prefixMismatch_mono _ _ _ _ _ _ _).bind fun x => ?_
    cases x with
    | none => exact .refl _
    | some x =>
      refine .read _ _ fun n => .ite (.refl _) <| .read _ _ fun n => .ite (.refl _) ?_
      split
      · exact .refl _
      · refine .read _ _ fun n => .load _ fun w => .ite (.refl _) ?_
        split
        · exact .refl _
        · refine .load _ fun w => .ite (.refl _) ?_
          split
          · exact .refl _
          · exact ih _ _ _ _ _

theorem put_mono (key value : Bytes) : ∀ fuel, Le (put key value fuel) (put key value (fuel + 1)) := by
  intro fuel
  induction fuel with
  | zero => exact .diverge _
  | succ fuel ih =>
    conv_lhs => rw [put]
    conv_rhs => rw [put]
    refine (start_mono fun a v => insert_mono _ _ _ _ _ _ _ _).bind fun x => ?_
    cases x with
    | true => exact .refl _
    | false => exact ih

theorem remove_mono (key : Bytes) : ∀ fuel d p pv c loc, Le (remove key fuel d p pv c loc) (remove key (fuel + 1) d p pv c loc) := by
  intro fuel
  induction fuel with
  | zero => intro d p pv c loc; exact .diverge _
  | succ fuel ih =>
    intro d p pv c loc
    conv_lhs => rw [remove]
    conv_rhs => rw [remove]
    refine .wait _ fun v => .ite (.refl _) <| .load _ fun w => .ite (.refl _) <| .read _ _ fun n => .ite (.refl _) <| .ite (.refl _) ?_
    split
    · exact .refl _
    · refine .read _ _ fun n => .load _ fun w => .ite (.refl _) ?_
      split
      · exact .refl _
      · exact .refl _
      · exact ih _ _ _ _ _

theorem delete_mono (key : Bytes) : ∀ fuel, Le (delete key fuel) (delete key (fuel + 1)) := by
  intro fuel
  induction fuel with
  | zero => exact .diverge _
  | succ fuel ih =>
    conv_lhs => rw [delete]
    conv_rhs => rw [delete]
    refine (start_mono fun a v => remove_mono _ _ _ _ _ _ _).bind fun x => ?_
    cases x with
    | true => exact .refl _
    | false => exact ih

/-- More fuel does not change an outcome. -/
theorem run_fuel {α : Type} {p : Nat → Prog α} (hp : ∀ fuel, Le (p fuel) (p (fuel + 1))) {rf : Bool} {h : Heap} {fuel : Nat}
    (hd : (p fuel).run rf h ≠ .diverge) : ∀ k, (p (fuel + k)).run rf h = (p fuel).run rf h := by
  intro k
  induction k with
  | zero => rfl
  | succ k ih =>
    rcases (hp (fuel + k)).run (rf := rf) h with h1 | h1
    · rw [ih] at h1
      exact absurd h1 hd
    · rw [← ih]
      exact h1

theorem run_fuel_le {α : Type} {p : Nat → Prog α} (hp : ∀ fuel, Le (p fuel) (p (fuel + 1))) {rf : Bool} {h : Heap} {fuel fuel' : Nat}
    (hle : fuel ≤ fuel') (hd : (p fuel).run rf h ≠ .diverge) : (p fuel').run rf h = (p fuel).run rf h := by
  obtain ⟨k, rfl⟩ := Nat.exists_eq_add_of_le hle
  exact run_fuel hp hd k

/-- `Delete` of a key that is not there, running alone: it returns and leaves everything as it is, or it never returns. -/
theorem run_delete_absent {h : Heap} {m : Map} {rf : Bool} (hs : Seq h m) {key : Bytes} (hk : m key = none) :
    (∃ N, ∀ fuel ≥ N, (delete key fuel).run rf h = .done () h) ∨ (∀ fuel, (delete key fuel).run rf h = .diverge) := by
  obtain ⟨E, live, ⟨root, ht⟩, hc⟩ := hs
  obtain ⟨N, hN⟩ := exists_bound E h.length
  obtain ⟨n, hl, hn, hp, hE, -⟩ := ht.root_facts
  obtain ⟨v, hv, -⟩ := hc 0 (Or.inl rfl)
  have key' : ∃ b, ∀ k, N ≤ k → (remove key k 0 0 v root (0, 0)).run rf h = .done b h := by
    rcases run_remove (rf := rf) ht hc key (fun a ha => hN a (ht.lt ha)) N 0 v root (0, 0) n
      ⟨hl, hn, by rw [hp, hE]; rfl, .root 0⟩ hv (Nat.zero_le _) (Or.inl (by simp)) (by omega) with ⟨g1, -⟩ | ⟨-, b, g1⟩
    · exact absurd hk g1
    · refine ⟨b, fun k hk => ?_⟩
      rw [← g1]
      exact run_fuel_le (p := fun k => remove key k 0 0 v root (0, 0)) (fun fuel => remove_mono _ _ _ _ _ _ _) hk (by
        simp only [g1]
        simp)
  obtain ⟨b, hb⟩ := key'
  have step : ∀ k, N ≤ k → (delete key (k + 1)).run rf h = if b then .done () h else (delete key k).run rf h := by
    intro k hk
    rw [delete, run_bind]
    obtain ⟨v', hv', h4, hrun⟩ := run_start (rf := rf) ht hc (fun r v => remove key k 0 0 v r (0, 0))
    rw [hv] at hv'
    cases hv'
    rw [hrun, hb k hk]
    cases b <;> rfl
  cases b with
  | true =>
    left
    refine ⟨N + 1, fun fuel hf => ?_⟩
    obtain ⟨k, rfl⟩ : ∃ k, fuel = k + 1 := ⟨fuel - 1, by omega⟩
    rw [step k (by omega)]
    rfl
  | false =>
    right
    intro fuel
    -- with any outcome the fuel would not matter, and with little of it the loop cannot have ended
    by_contra hne
    have hsmall : ∀ k, (delete key k).run rf h = .diverge := by
      intro k
      induction k with
      | zero => rfl
      | succ k ih =>
        rw [delete, run_bind]
        obtain ⟨v', hv', h4, hrun⟩ := run_start (rf := rf) ht hc (fun r v => remove key k 0 0 v r (0, 0))
        rw [hv] at hv'
        cases hv'
        rw [hrun]
        rcases (Classical.em ((remove key k 0 0 v root (0, 0)).run rf h = .diverge)) with h1 | h1
        · rw [h1]; rfl
        · have : (remove key k 0 0 v root (0, 0)).run rf h = .done false h := by
            rw [← hb (k + N) (by omega)]
            exact (run_fuel_le (p := fun k => remove key k 0 0 v root (0, 0)) (fun fuel => remove_mono _ _ _ _ _ _ _) (Nat.le_add_right k N) h1).symm
          rw [this]
          exact ih
    exact hne (hsmall fuel)

end Art
