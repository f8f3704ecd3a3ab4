import Verif.Art.Few
import Verif.Art.Sound

/-!
# The number of steps of a call that runs alone

`cost rf p h` counts the steps that `p.run rf h` takes.
-/

set_option linter.unusedSimpArgs false

namespace Art

open Surf Spec Props Prog

section
variable {α β : Type} {rf : Bool}

/-- The number of steps of a program that runs alone, up to where it ends, panics or waits in vain. -/
def cost (rf : Bool) : Prog α → Heap → Nat
  | .ret _, _ => 0
  | .panic, _ => 0
  | .diverge, _ => 0
  | .wait a k, h => match ver h a with
    | none => 0
    | some v => if locked v then 0 else cost rf (k v) h + 1
  | .load a k, h => match ver h a with
    | none => 0
    | some v => cost rf (k v) h + 1
  | .cas a v k, h => match ver h a with
    | none => 0
    | some w => if w = v then cost rf (k true) (setVer h a (v + 2)) + 1 else cost rf (k false) h + 1
  | .lock a k, h => match ver h a with
    | none => 0
    | some v => if locked v then 0 else if obsolete v then cost rf (k false) h + 1 else cost rf (k true) (setVer h a (v + 2)) + 1
  | .unlock a k, h => match ver h a with
    | none => 0
    | some v => cost rf k (setVer h a (v + 2)) + 1
  | .unlockObsolete a k, h => match ver h a with
    | none => 0
    | some v => cost rf k (setVer h a (v + 3)) + 1
  | .read a v k, h => match h[a]? with
    | none => 0
    | some n => if n.version = v then cost rf (k n) h + 1 else 0
  | .readRoot k, h => match h[0]? with
    | none => 0
    | some n => cost rf (k n.root) h + 1
  | .choose k, h => cost rf (k rf) h + 1
  | .write f k, h => match f h with
    | none => 0
    | some h' => cost rf k h' + 1

/-- `cost` counts the steps. -/
theorem solo_cost : ∀ {p : Prog α} {h h' : Heap} {a : α}, Plain p → p.run rf h = .done a h' → Solo (fun x y => x = a ∧ y = h') (cost rf p h) h p := by
  intro p
  induction p with
  | ret a =>
    intro h h' b _ hr
    simp only [Prog.run, Out.done.injEq] at hr
    exact .ret hr
  | panic => intro h h' b _ hr; simp [Prog.run] at hr
  | diverge => intro h h' b _ hr; simp [Prog.run] at hr
  | wait a k ih =>
    intro h h' b hp hr
    simp only [Prog.run] at hr
    cases hv : ver h a with
    | none => simp [hv] at hr
    | some v =>
      obtain ⟨x, h1, rfl⟩ := get_of_ver hv
      simp only [hv] at hr
      simp only [cost, hv]
      split at hr
      · simp at hr
      · next e => rw [if_neg e]; exact .wait h1 (by simp_all) (ih _ (hp _) hr)
  | load a k ih =>
    intro h h' b hp hr
    simp only [Prog.run] at hr
    cases hv : ver h a with
    | none => simp [hv] at hr
    | some v =>
      obtain ⟨x, h1, rfl⟩ := get_of_ver hv
      simp only [hv] at hr
      simp only [cost, hv]
      exact .load h1 (ih _ (hp _) hr)
  | cas a v k ih =>
    intro h h' b hp hr
    simp only [Prog.run] at hr
    cases hv : ver h a with
    | none => simp [hv] at hr
    | some w =>
      obtain ⟨x, h1, rfl⟩ := get_of_ver hv
      simp only [hv] at hr
      simp only [cost, hv]
      split at hr
      · next e => rw [if_pos e]; exact .cas h1 e (ih _ (hp _) hr)
      · next e => rw [if_neg e]; exact .casFail h1 e (ih _ (hp _) hr)
  | lock a k ih =>
    intro h h' b hp hr
    simp only [Prog.run] at hr
    cases hv : ver h a with
    | none => simp [hv] at hr
    | some w =>
      obtain ⟨x, h1, rfl⟩ := get_of_ver hv
      simp only [hv] at hr
      simp only [cost, hv]
      split at hr
      · simp at hr
      · next e0 =>
        rw [if_neg e0]
        split at hr
        · next e => rw [if_pos e]; exact .lockFail h1 (by simpa using e0) e (ih _ (hp _) hr)
        · next e => rw [if_neg e]; exact .lock h1 (by simpa using e0) (by simpa using e) (ih _ (hp _) hr)
  | unlock a k ih =>
    intro h h' b hp hr
    simp only [Prog.run] at hr
    cases hv : ver h a with
    | none => simp [hv] at hr
    | some w =>
      obtain ⟨x, h1, rfl⟩ := get_of_ver hv
      simp only [hv] at hr
      simp only [cost, hv]
      exact .unlock h1 (ih hp hr)
  | unlockObsolete a k ih =>
    intro h h' b hp hr
    simp only [Prog.run] at hr
    cases hv : ver h a with
    | none => simp [hv] at hr
    | some w =>
      obtain ⟨x, h1, rfl⟩ := get_of_ver hv
      simp only [hv] at hr
      simp only [cost, hv]
      exact .unlockObsolete h1 (ih hp hr)
  | read a v k ih =>
    intro h h' b hp hr
    simp only [Prog.run] at hr
    cases hv : h[a]? with
    | none => simp [hv] at hr
    | some x =>
      simp only [hv] at hr
      simp only [cost, hv]
      split at hr
      · next e => rw [if_pos e]; exact .read hv e (ih _ (hp _) hr)
      · simp at hr
  | readRoot k ih =>
    intro h h' b hp hr
    simp only [Prog.run] at hr
    cases hv : h[0]? with
    | none => simp [hv] at hr
    | some x =>
      simp only [hv] at hr
      simp only [cost, hv]
      exact .readRoot hv (ih _ (hp _) hr)
  | choose k ih => intro h h' b hp; exact hp.elim
  | write f k ih =>
    intro h h' b hp hr
    simp only [Prog.run] at hr
    cases hv : f h with
    | none => simp [hv] at hr
    | some x =>
      simp only [hv] at hr
      simp only [cost, hv]
      exact .write hv (ih hp hr)

theorem cost_bind {f : α → Prog β} {a : α} {h' : Heap} : ∀ {p : Prog α} {h : Heap}, p.run rf h = .done a h' → cost rf (p.bind f) h = cost rf p h + cost rf (f a) h' := by
  intro p
  induction p with
  | ret a => intro h hr; simp only [Prog.run, Out.done.injEq] at hr; obtain ⟨rfl, rfl⟩ := hr; simp [Prog.bind, cost]
  | panic => intro h hr; simp [Prog.run] at hr
  | diverge => intro h hr; simp [Prog.run] at hr
  | wait a k ih =>
    intro h hr
    simp only [Prog.run] at hr
    simp only [Prog.bind, cost]
    cases hv : ver h a with
    | none => simp [hv] at hr
    | some v =>
      simp only [hv] at hr
      split at hr
      · simp at hr
      · next e => simp only [hv, if_neg e, ih _ hr]; omega
  | load a k ih =>
    intro h hr
    simp only [Prog.run] at hr
    simp only [Prog.bind, cost]
    cases hv : ver h a with
    | none => simp [hv] at hr
    | some v =>
      simp only [hv] at hr
      simp only [hv, ih _ hr]; omega
  | cas a v k ih =>
    intro h hr
    simp only [Prog.run] at hr
    simp only [Prog.bind, cost]
    cases hv : ver h a with
    | none => simp [hv] at hr
    | some w =>
      simp only [hv] at hr
      split at hr
      · next e => simp only [hv, if_pos e, ih _ hr]; omega
      · next e => simp only [hv, if_neg e, ih _ hr]; omega
  | lock a k ih =>
    intro h hr
    simp only [Prog.run] at hr
    simp only [Prog.bind, cost]
    cases hv : ver h a with
    | none => simp [hv] at hr
    | some w =>
      simp only [hv] at hr
      split at hr
      · simp at hr
      · next e0 =>
        split at hr
        · next e => simp only [hv, if_neg e0, if_pos e, ih _ hr]; omega
        · next e => simp only [hv, if_neg e0, if_neg e, ih _ hr]; omega
  | unlock a k ih =>
    intro h hr
    simp only [Prog.run] at hr
    simp only [Prog.bind, cost]
    cases hv : ver h a with
    | none => simp [hv] at hr
    | some w =>
      simp only [hv] at hr
      simp only [hv, ih hr]; omega
  | unlockObsolete a k ih =>
    intro h hr
    simp only [Prog.run] at hr
    simp only [Prog.bind, cost]
    cases hv : ver h a with
    | none => simp [hv] at hr
    | some w =>
      simp only [hv] at hr
      simp only [hv, ih hr]; omega
  | read a v k ih =>
    intro h hr
    simp only [Prog.run] at hr
    simp only [Prog.bind, cost]
    cases hv : h[a]? with
    | none => simp [hv] at hr
    | some x =>
      simp only [hv] at hr
      split at hr
      · next e => simp only [hv, if_pos e, ih _ hr]; omega
      · simp at hr
  | readRoot k ih =>
    intro h hr
    simp only [Prog.run] at hr
    simp only [Prog.bind, cost]
    cases hv : h[0]? with
    | none => simp [hv] at hr
    | some x =>
      simp only [hv] at hr
      simp only [hv, ih _ hr]; omega
  | choose k ih =>
    intro h hr
    simp only [Prog.run] at hr
    simp only [Prog.bind, cost, ih _ hr]; omega
  | write g k ih =>
    intro h hr
    simp only [Prog.run] at hr
    simp only [Prog.bind, cost]
    cases hv : g h with
    | none => simp [hv] at hr
    | some x =>
      simp only [hv] at hr
      simp only [hv, ih hr]; omega

/-! ### Steps whose outcome is known -/

variable {h : Heap}

theorem cost_wait {a : Addr} {v : Nat} (hv : ver h a = some v) (h4 : v % 4 = 0) (k : Nat → Prog α) : cost rf (.wait a k) h = cost rf (k v) h + 1 := by
  have : locked v = false := by simp [locked]; omega
  simp [cost, hv, this]

theorem cost_load {a : Addr} {v : Nat} (hv : ver h a = some v) (k : Nat → Prog α) : cost rf (.load a k) h = cost rf (k v) h + 1 := by
  simp [cost, hv]

theorem cost_read {a : Addr} {n : Node} {v : Nat} (hn : h[a]? = some n) (hv : ver h a = some v) (k : Node → Prog α) : cost rf (.read a v k) h = cost rf (k n) h + 1 := by
  have : n.version = v := by simpa [ver, hn] using hv
  simp [cost, hn, this]

/-! ### Bounds whatever the heap -/

/-- At most `n` steps, in whatever heap. -/
def Brisk (n : Nat) (p : Prog α) : Prop := ∀ rf h, cost rf p h ≤ n

theorem brisk_ret {n : Nat} {a : α} : Brisk n (.ret a : Prog α) := fun _ _ => Nat.zero_le _
theorem brisk_panic {n : Nat} : Brisk n (.panic : Prog α) := fun _ _ => Nat.zero_le _
theorem brisk_diverge {n : Nat} : Brisk n (.diverge : Prog α) := fun _ _ => Nat.zero_le _
theorem Brisk.mono {n m : Nat} {p : Prog α} (h : Brisk n p) (hnm : n ≤ m) : Brisk m p := fun rf x => Nat.le_trans (h rf x) hnm

theorem brisk_wait {n : Nat} {a : Addr} {k : Nat → Prog α} (hk : ∀ v, Brisk n (k v)) : Brisk (n + 1) (.wait a k) := by
  intro rf h
  simp only [cost]
  split
  · omega
  · split
    · omega
    · exact Nat.succ_le_succ (hk _ rf h)
theorem brisk_load {n : Nat} {a : Addr} {k : Nat → Prog α} (hk : ∀ v, Brisk n (k v)) : Brisk (n + 1) (.load a k) := by
  intro rf h
  simp only [cost]
  split
  · omega
  · exact Nat.succ_le_succ (hk _ rf h)
theorem brisk_cas {n : Nat} {a : Addr} {v : Nat} {k : Bool → Prog α} (hk : ∀ v, Brisk n (k v)) : Brisk (n + 1) (.cas a v k) := by
  intro rf h
  simp only [cost]
  split
  · omega
  · split
    · exact Nat.succ_le_succ (hk _ rf _)
    · exact Nat.succ_le_succ (hk _ rf _)
theorem brisk_lock {n : Nat} {a : Addr} {k : Bool → Prog α} (hk : ∀ v, Brisk n (k v)) : Brisk (n + 1) (.lock a k) := by
  intro rf h
  simp only [cost]
  split
  · omega
  · split
    · omega
    · split
      · exact Nat.succ_le_succ (hk _ rf _)
      · exact Nat.succ_le_succ (hk _ rf _)
theorem brisk_unlock {n : Nat} {a : Addr} {k : Prog α} (hk : Brisk n k) : Brisk (n + 1) (.unlock a k) := by
  intro rf h
  simp only [cost]
  split
  · omega
  · exact Nat.succ_le_succ (hk rf _)
theorem brisk_unlockObsolete {n : Nat} {a : Addr} {k : Prog α} (hk : Brisk n k) : Brisk (n + 1) (.unlockObsolete a k) := by
  intro rf h
  simp only [cost]
  split
  · omega
  · exact Nat.succ_le_succ (hk rf _)
theorem brisk_read {n : Nat} {a : Addr} {v : Nat} {k : Node → Prog α} (hk : ∀ v, Brisk n (k v)) : Brisk (n + 1) (.read a v k) := by
  intro rf h
  simp only [cost]
  split
  · omega
  · split
    · exact Nat.succ_le_succ (hk _ rf _)
    · omega
theorem brisk_write {n : Nat} {f : Heap → Option Heap} {k : Prog α} (hk : Brisk n k) : Brisk (n + 1) (.write f k) := by
  intro rf h
  simp only [cost]
  split
  · omega
  · exact Nat.succ_le_succ (hk rf _)

end

/-! ### Get -/

theorem brisk_search (key : Bytes) : ∀ (fuel depth : Nat) (parent : Addr) (pv : Nat) (curr : Addr), depth ≤ key.length →
    Brisk (5 * (key.length - depth) + 5) (search key fuel depth parent pv curr) := by
  intro fuel
  induction fuel with
  | zero => intro depth parent pv curr _; exact brisk_diverge
  | succ fuel ih =>
    intro depth parent pv curr hd
    unfold search
    refine brisk_wait fun v => ?_
    split
    · exact brisk_ret
    refine brisk_load fun w => ?_
    split
    · exact brisk_ret
    refine brisk_read fun n => ?_
    split
    · exact brisk_load fun w => brisk_ret
    next e =>
    refine brisk_read fun n' => brisk_load fun w => ?_
    split
    · exact brisk_ret
    have hge := checkPrefix_ge e
    cases hx : nextNode n' key (n.checkPrefix key depth).1 with
    | none => exact brisk_ret
    | some r =>
      cases r with
      | leaf l => exact brisk_ret
      | node c =>
        have hlt := nextNode_lt hx
        exact (ih _ _ _ _ (by omega)).mono (by omega)

/-! ### Delete -/

theorem brisk_compress (idx : Nat) (parent curr : Addr) (v : Nat) (loc : Loc) : Brisk 6 (compressChild idx parent curr v loc) := by
  unfold compressChild
  refine brisk_read fun n => ?_
  split
  · split
    · exact Brisk.mono (brisk_write (brisk_unlockObsolete (brisk_unlock (brisk_ret (n := 0))))) (by omega)
    · refine brisk_lock fun ok => ?_
      split
      · exact Brisk.mono (brisk_unlock (brisk_unlock (brisk_ret (n := 0)))) (by omega)
      · exact Brisk.mono (brisk_write (brisk_unlock (brisk_unlockObsolete (brisk_unlock (brisk_ret (n := 0)))))) (by omega)
    · exact brisk_panic
  · exact brisk_panic

theorem brisk_shrink (b : UInt8) (parent curr : Addr) (v : Nat) (loc : Loc) : Brisk 7 (removeChildAndShrink b parent curr v loc) := by
  have hw : ∀ f, Brisk 6 (.write f (.unlockObsolete curr (.unlock parent (.ret true))) : Prog Bool) := fun f =>
    Brisk.mono (brisk_write (brisk_unlockObsolete (brisk_unlock (brisk_ret (n := 0))))) (by omega)
  unfold removeChildAndShrink
  refine brisk_read fun n => ?_
  split
  · split
    · exact hw _
    · split
      · exact hw _
      · split
        · exact brisk_compress _ _ _ _ _
        · exact brisk_compress _ _ _ _ _
  · exact hw _

theorem brisk_removeHere (key : Bytes) (parent : Addr) (pv : Nat) (curr : Addr) (v : Nat) (loc : Loc) : Brisk 11 (removeHere key parent pv curr v loc) := by
  unfold removeHere
  refine brisk_read fun n => brisk_load fun w => ?_
  split
  · exact brisk_ret
  split
  · exact brisk_load fun w => brisk_ret
  refine brisk_read fun n => ?_
  split
  · refine brisk_cas fun ok => ?_
    split
    · exact brisk_ret
    refine brisk_cas fun ok => ?_
    split
    · exact brisk_unlock brisk_ret
    · exact brisk_compress _ _ _ _ _
  · refine brisk_cas fun ok => ?_
    split
    · exact brisk_ret
    · exact Brisk.mono (brisk_write (brisk_unlock (brisk_ret (n := 0)))) (by omega)

theorem brisk_removeLeaf (key : Bytes) (b : UInt8) (l : Leaf) (pos : Nat) (parent : Addr) (pv : Nat) (curr : Addr) (v : Nat) (loc : Loc) :
    Brisk 10 (removeLeaf key b l pos parent pv curr v loc) := by
  unfold removeLeaf
  split
  · exact brisk_load fun w => brisk_ret
  refine brisk_read fun n => ?_
  split
  · exact brisk_panic
  · refine brisk_cas fun ok => ?_
    split
    · exact brisk_ret
    refine brisk_cas fun ok => ?_
    split
    · exact brisk_unlock brisk_ret
    · exact brisk_shrink _ _ _ _ _
  · refine brisk_cas fun ok => ?_
    split
    · exact brisk_ret
    · exact Brisk.mono (brisk_write (brisk_unlock (brisk_ret (n := 0)))) (by omega)

theorem brisk_remove (key : Bytes) : ∀ (fuel depth : Nat) (parent : Addr) (pv : Nat) (curr : Addr) (loc : Loc), depth ≤ key.length →
    Brisk (5 * (key.length - depth) + 14) (remove key fuel depth parent pv curr loc) := by
  intro fuel
  induction fuel with
  | zero => intro depth parent pv curr loc _; exact brisk_diverge
  | succ fuel ih =>
    intro depth parent pv curr loc hd
    unfold remove
    refine brisk_wait fun v => ?_
    split
    · exact brisk_ret
    refine brisk_load fun w => ?_
    split
    · exact brisk_ret
    refine brisk_read fun n => ?_
    split
    · exact brisk_load fun w => brisk_ret
    next e =>
    have hge := checkPrefix_ge e
    split
    · exact (brisk_removeHere _ _ _ _ _ _).mono (by omega)
    split
    · exact brisk_load fun w => brisk_ret
    next b hb =>
    have hlt := (List.getElem?_eq_some_iff.mp hb).1
    refine Brisk.mono (n := 5 * (key.length - ((n.checkPrefix key depth).1 + 1)) + 14 + 2) (brisk_read fun n' => brisk_load fun w => ?_) (by omega)
    split
    · exact brisk_ret
    split
    · exact brisk_ret
    · exact (brisk_removeLeaf _ _ _ _ _ _ _ _ _).mono (by omega)
    · exact ih _ _ _ _ _ (by omega)

/-! ### Put -/

section
variable {E : Addr → Bytes} {live : Addr → Prop} {h : Heap} {root : Addr} {m : Map} {rf : Bool}

/-- `fullKey` takes four steps per node on its way down. -/
theorem cost_fullKey (ht : HTr E live h root m) (hc : Calm live h) {N : Nat} (hN : ∀ a, live a → (E a).length < N) :
    ∀ (fuel : Nat) (curr : Addr) (v : Nat), live curr → curr ≠ root → ver h curr = some v →
      cost rf (fullKey fuel curr v) h ≤ 4 * (N - (E curr).length) := by
  intro fuel
  induction fuel with
  | zero => intro curr v hl hr hv; exact Nat.zero_le _
  | succ fuel ih =>
    intro curr v hl hr hv
    have hlt := hN curr hl
    obtain ⟨n, hn, hvw, hok⟩ := ht.view_live hl
    rw [fullKey, cost_read hn hv]
    cases hpl : n.prefixLeaf with
    | some l =>
      simp only
      rw [cost_load hv]
      simp only [cost]
      omega
    | none =>
      have h2 := hok.two hr
      simp [hpl] at h2
      obtain ⟨r, b, h3, h5⟩ := firstChild_spec hok.wf (by omega)
      simp only
      rw [cost_read hn hv, h3]
      simp only
      rw [cost_load hv, if_neg (by simp)]
      cases r with
      | leaf l =>
        simp only
        rw [cost_load hv]
        simp only [cost]
        omega
      | node c =>
        obtain ⟨h10, hcr, h11, h12, nc, h13, h14⟩ := ht.child_node hl hn h5
        obtain ⟨cv, hcv, hc4⟩ := hc c (Or.inr h10)
        simp only
        rw [cost_wait hcv hc4, if_neg (by simp [not_obsolete hc4])]
        have h15 := ih c cv h10 hcr hcv
        have h16 := hN c h10
        have := h11.length_le
        simp at this
        omega

/-- What `prefixMismatch` costs. -/
theorem cost_prefixMismatch (ht : HTr E live h root m) (hc : Calm live h) {N : Nat} (hN : ∀ a, live a → (E a).length < N) {fuel : Nat}
    {key : Bytes} {depth : Nat} {curr parent : Addr} {v pv : Nat} {n : Node} (hl : live curr) (hn : h[curr]? = some n)
    (hd : depth + n.prefixLen = (E curr).length) (hv : ver h curr = some v) (hpv : ver h parent = some pv) (hf : N + 2 ≤ fuel + (E curr).length) :
    cost rf (prefixMismatch fuel key depth curr v parent pv) h ≤ if n.prefixLen ≤ 8 then 2 else 4 * (N - (E curr).length) + 6 := by
  obtain ⟨n', hn', hvw, hok⟩ := ht.view_live hl
  rw [hn] at hn'
  cases hn'
  have hlt := hN curr hl
  rw [prefixMismatch, cost_read hn hv]
  by_cases h8 : n.prefixLen ≤ maxPrefixLen
  · rw [if_pos h8, cost_read hn hv, if_pos (show n.prefixLen ≤ 8 from h8)]
    split <;> simp [cost]
  · rw [if_neg h8, if_neg (show ¬ n.prefixLen ≤ 8 from h8)]
    have h8' : 8 < n.prefixLen := Nat.lt_of_not_le h8
    have hr : curr ≠ root := by
      rintro rfl
      have := ht.tree.root_plen
      rw [hvw] at this
      simp [Node.view] at this
      omega
    obtain ⟨k, rfl⟩ : ∃ k, fuel = k + 2 := ⟨fuel - 2, by omega⟩
    obtain ⟨full, h5, h6⟩ := run_fullKey (rf := rf) ht hc hN (k + 1) curr v hl hr hv (by omega)
    have h7 := cost_fullKey (rf := rf) ht hc hN (k + 1) curr v hl hr hv
    rw [mismatchLoop, cost_load hv, if_neg (by simp), cost_load hpv, if_neg (by simp)]
    rw [cost_bind h5]
    rw [mismatchLoop, cost_load hv, if_neg (by simp), cost_load hpv, if_neg (by simp)]
    rw [cost_read hn hv]
    cases mismatchLong n key full depth with
    | none => simp only [cost]; omega
    | some p => simp only [cost]; omega

theorem brisk_insertHere (key value : Bytes) (b : UInt8) (parent : Addr) (pv : Nat) (curr : Addr) (v : Nat) (loc : Loc) :
    Brisk 6 (insertHere key value b parent pv curr v loc) := by
  unfold insertHere
  refine brisk_read fun n => ?_
  split
  · exact brisk_panic
  · refine brisk_cas fun ok => ?_
    split
    · exact brisk_ret
    refine brisk_cas fun ok => ?_
    split
    · exact brisk_unlock brisk_ret
    · exact brisk_write (brisk_unlockObsolete (brisk_unlock brisk_ret))
  · refine brisk_cas fun ok => ?_
    split
    · exact brisk_ret
    refine brisk_load fun w => ?_
    split
    · exact brisk_unlock brisk_ret
    · exact brisk_write (brisk_unlock brisk_ret)

/-- The bound for `insert` with `r` bytes of the key to go. -/
def insertCost (N r : Nat) : Nat := 8 * r + 9 + (r / 10 + 1) * (4 * (N - 9))

theorem insertCost_short {N r r' p : Nat} (h : r' + p + 1 ≤ r) : 8 + insertCost N r' ≤ insertCost N r := by
  unfold insertCost
  have h1 : r' / 10 + 1 ≤ r / 10 + 1 := by omega
  have h2 := Nat.mul_le_mul_right (4 * (N - 9)) h1
  omega

theorem insertCost_long {N r r' p : Nat} (h : r' + p + 1 ≤ r) (hp : 8 < p) : 8 + 4 * (N - 9) + insertCost N r' ≤ insertCost N r := by
  unfold insertCost
  have h1 : r' / 10 + 1 ≤ r / 10 := by omega
  have h2 := Nat.mul_le_mul_right (4 * (N - 9)) h1
  rw [Nat.succ_mul (r / 10)]
  omega

theorem insertCost_end {N r : Nat} : 8 * r + 9 + 4 * (N - 9) ≤ insertCost N r := by
  unfold insertCost
  have := Nat.le_mul_of_pos_left (4 * (N - 9)) (Nat.succ_pos (r / 10))
  simp only [Nat.succ_eq_add_one] at this
  omega

theorem cost_insert (ht : HTr E live h root m) (hc : Calm live h) {key value : Bytes} {N : Nat} (hN : ∀ a, live a → (E a).length < N) :
    ∀ (fuel depth : Nat) (pv : Nat) (curr : Addr) (loc : Loc) (n : Node), Here E live h root depth curr loc n →
      ver h loc.1 = some pv → (E curr).take depth <+: key → N + 3 ≤ fuel + (E curr).length →
      cost rf (insert key value fuel depth loc.1 pv curr loc) h ≤ insertCost N (key.length - depth) := by
  intro fuel
  induction fuel with
  | zero => intro depth pv curr loc n hh hpv hp hf; exact Nat.zero_le _
  | succ fuel ih =>
    intro depth pv curr loc n hh hpv hp hf
    obtain ⟨v, hv, h4⟩ := hc curr (Or.inr hh.alive)
    obtain ⟨n', hn', hvw, hok⟩ := ht.view_live hh.alive
    rw [hh.get] at hn'
    cases hn'
    have hn := hh.get
    have hNc := hN curr hh.alive
    have hend := insertCost_end (N := N) (r := key.length - depth)
    obtain ⟨p, full, g1, g2, g3, g4, g5⟩ := run_prefixMismatch (rf := rf) (key := key) (fuel := fuel) ht hc hN hh.alive hn hh.depth hv hpv hp (by omega)
    have hcost := cost_prefixMismatch (rf := rf) (key := key) (fuel := fuel) ht hc hN hh.alive hn hh.depth hv hpv (by omega)
    have hdk : depth ≤ key.length := by
      have := hp.length_le
      have := hh.depth
      rw [List.length_take] at *
      omega
    have hcost' : cost rf (prefixMismatch fuel key depth curr v loc.1 pv) h ≤ 2 + 4 * (N - 9) ∧ (8 < n.prefixLen → 10 ≤ (E curr).length) := by
      by_cases h8 : n.prefixLen ≤ 8
      · rw [if_pos h8] at hcost
        exact ⟨by omega, fun h => absurd h (by omega)⟩
      · have hr : curr ≠ root := by
          rintro rfl
          have := ht.tree.root_plen
          rw [hvw] at this
          simp [Node.view] at this
          omega
        obtain ⟨b, slot, pos, np, e, q1, q2, q3⟩ := hh.at_.parent hr
        have hcc : np.child b = some (.node curr) := by simp [Node.child, q3]
        obtain ⟨-, -, -, -, nc, h13, h14⟩ := ht.child_node q1 q2 hcc
        rw [hn] at h13
        cases h13
        rw [if_neg h8] at hcost
        exact ⟨by omega, fun _ => by omega⟩
    obtain ⟨hcost', h10⟩ := hcost'
    have hdp := hh.depth
    rw [insert, cost_wait hv h4, if_neg (by simp [not_obsolete h4]), cost_bind g1]
    simp only
    rw [cost_read hn hv]
    by_cases hpn : p = n.prefixLen
    · rw [if_neg (by simp [hpn]), cost_read hn hv]
      have hEk : E curr <+: key := by
        have : (E curr).take (depth + p) = E curr := by
          rw [hpn, hh.depth, List.take_length]
        rw [this] at g3
        exact g3
      rw [hh.depth]
      by_cases hlen : (E curr).length = key.length
      · rw [if_pos hlen]
        have hs : Brisk 4 (.cas curr v fun ok => if !ok then .ret false else .load loc.1 fun w => if w ≠ pv then .unlock curr (.ret false) else
            .write (updatePrefixLeaf · curr key value) <| .unlock curr <| .ret true : Prog Bool) := by
          refine brisk_cas fun ok => ?_
          split
          · exact brisk_ret
          refine brisk_load fun w => ?_
          split
          · exact brisk_unlock brisk_ret
          · exact brisk_write (brisk_unlock brisk_ret)
        have := hs rf h
        omega
      · rw [if_neg hlen]
        have hlt : (E curr).length < key.length := by have := hEk.length_le; omega
        have hkb := List.getElem?_eq_getElem hlt
        have hsn := snoc_get hEk hkb
        rw [hkb]
        generalize key[(E curr).length] = b at hsn
        simp only
        rw [cost_read hn hv, cost_load hv, if_neg (by simp)]
        cases hfc : n.findChild b with
        | none =>
          simp only
          have := brisk_insertHere key value b loc.1 pv curr v loc rf h
          omega
        | some x =>
          obtain ⟨next, slot, pos⟩ := x
          simp only
          rw [cost_load hpv, if_neg (by simp)]
          cases next with
          | leaf l =>
            simp only
            have hs : Brisk 3 (.cas curr v fun ok => if !ok then .ret false else
                .write (updateOrExpand · l key value ((E curr).length + 1) (curr, slot)) <| .unlock curr <| .ret true : Prog Bool) := by
              refine brisk_cas fun ok => ?_
              split
              · exact brisk_ret
              · exact brisk_write (brisk_unlock brisk_ret)
            have := hs rf h
            omega
          | node c =>
            simp only
            have hcc : n.child b = some (.node c) := by simp [Node.child, hfc]
            obtain ⟨h10, hcr, h11, h12, nc, h13, h14⟩ := ht.child_node hh.alive hn hcc
            have hi := ih ((E curr).length + 1) v c (curr, slot) nc ⟨h10, h13, h14, .child hh.alive hn hfc⟩ hv (by rw [h12]; exact hsn) (by
              have := h11.length_le
              simp at this
              omega)
            dsimp only at hi
            have hle : key.length - ((E curr).length + 1) + n.prefixLen + 1 ≤ key.length - depth := by omega
            by_cases h8 : n.prefixLen ≤ 8
            · rw [if_pos h8] at hcost
              have := insertCost_short (N := N) hle
              omega
            · rw [if_neg h8] at hcost
              have := insertCost_long (N := N) hle (by omega)
              omega
    · rw [if_pos hpn]
      have hs : Brisk 5 (.cas loc.1 pv fun ok => if !ok then .ret false else .cas curr v fun ok => if !ok then .unlock loc.1 (.ret false) else
          .write (insertSplitPrefix · curr key full value depth p loc) <| .unlock curr <| .unlock loc.1 <| .ret true : Prog Bool) := by
        refine brisk_cas fun ok => ?_
        split
        · exact brisk_ret
        refine brisk_cas fun ok => ?_
        split
        · exact brisk_unlock brisk_ret
        · exact brisk_write (brisk_unlock (brisk_unlock brisk_ret))
      have := hs rf h
      omega

/-! ### Paths and stored keys -/

/-- Below every node but the root there is a longer stored key. -/
theorem HTr.below (ht : HTr E live h root m) {N : Nat} (hN : ∀ a, live a → (E a).length < N) : ∀ (j : Nat) (a : Addr), live a → a ≠ root → N ≤ j + (E a).length →
    ∃ K, m K ≠ none ∧ E a <+: K ∧ (E a).length < K.length := by
  intro j
  induction j with
  | zero => intro a ha _ hj; have := hN a ha; omega
  | succ j ih =>
    intro a ha hr hj
    obtain ⟨n, hn, hvw, hok⟩ := ht.view_live ha
    have hlv := ht.tree.leaves a ha
    rw [hvw] at hlv
    have h2 := hok.two hr
    obtain ⟨b, r, hb⟩ := (cnt_pos_iff n.child).mp (by cases hpl : n.prefixLeaf <;> simp [hpl] at h2 <;> omega)
    cases r with
    | leaf l =>
      have h3 := hlv.leaf b l hb
      refine ⟨l.key, by rw [ht.stored_value ha hn (Or.inr ⟨b, hb⟩)]; simp, prefix_of_snoc h3, ?_⟩
      have := h3.length_le
      simp at this
      omega
    | node c =>
      obtain ⟨h10, hcr, h11, -⟩ := ht.child_node ha hn hb
      have h12 := h11.length_le
      simp at h12
      obtain ⟨K, k1, k2, k3⟩ := ih c h10 hcr (by omega)
      exact ⟨K, k1, (prefix_of_snoc h11).trans k2, by omega⟩

/-- No path is longer than the stored keys. -/
theorem HTr.path_le (ht : HTr E live h root m) {L : Nat} (hL : ∀ K, m K ≠ none → K.length ≤ L) {a : Addr} (ha : live a) : (E a).length < max L 1 := by
  by_cases hr : a = root
  · subst hr; rw [ht.tree.root_E]; simp
  · obtain ⟨N, hN⟩ := exists_bound E h.length
    obtain ⟨K, k1, -, k2⟩ := ht.below (fun a ha => hN a (ht.lt ha)) N a ha hr (by omega)
    have := hL K k1
    omega

end

end Art
