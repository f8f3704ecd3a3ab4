import Verif.Art.Sound

/-!
# Lock words of 64 bits

lock.go works on one 64-bit word per node. The programs of the model (`Verif.Art.Prog`) use natural numbers. Here are the operations
of lock.go on words, and why the numbers stand for them.
-/

set_option linter.unusedSimpArgs false

namespace Art

open Surf

/-- lock.go:12 `v&1 != 1`, negated: the node is obsolete -/
def Word.obsolete (w : BitVec 64) : Bool := w &&& 1#64 == 1#64
/-- lock.go:68 `v&2 == 2`: the node is locked -/
def Word.locked (w : BitVec 64) : Bool := w &&& 2#64 == 2#64
/-- lock.go:20, 24 `version == atomic.LoadUint64(&n.version)` -/
def Word.check (recorded now : BitVec 64) : Bool := recorded == now
/-- lock.go:32, 36 `CompareAndSwapUint64(&n.version, version, version+2)`: the new word, and whether it succeeded -/
def Word.upgrade (recorded now : BitVec 64) : BitVec 64 × Bool := if now = recorded then (recorded + 2#64, true) else (now, false)
/-- lock.go:57-59 `AddUint64(&n.version, 2)` -/
def Word.unlock (w : BitVec 64) : BitVec 64 := w + 2#64
/-- lock.go:61-63 `AddUint64(&n.version, 3)` -/
def Word.unlockObsolete (w : BitVec 64) : BitVec 64 := w + 3#64

/-- The 64-bit word that holds a version. -/
def word (v : Nat) : BitVec 64 := BitVec.ofNat 64 v

theorem and_one (w : BitVec 64) : (w &&& 1#64).toNat = w.toNat % 2 := by
  rw [BitVec.toNat_and, show (1#64).toNat = 1 from rfl, Nat.and_one_is_mod]

theorem and_two (w : BitVec 64) : (w &&& 2#64).toNat = 2 * (w.toNat / 2 % 2) := by
  rw [BitVec.toNat_and, show (2#64).toNat = 2 from rfl]
  have h : w.toNat &&& 2 = 2 ^ 1 * ((w.toNat >>> 1) &&& 1) := by
    apply Nat.eq_of_testBit_eq
    intro i
    rw [Nat.testBit_and, Nat.testBit_two_pow_mul, Nat.testBit_and, Nat.testBit_shiftRight]
    cases i with
    | zero => simp
    | succ i =>
      have e1 : (2 : Nat).testBit (i + 1) = (1 : Nat).testBit i := by rw [Nat.testBit_succ]
      rw [e1]
      simp [Nat.add_comm]
  rw [h, Nat.and_one_is_mod, Nat.shiftRight_eq_div_pow, Nat.pow_one]

theorem word_obsolete (v : Nat) : Word.obsolete (word v) = obsolete v := by
  unfold Word.obsolete obsolete word
  rw [Bool.eq_iff_iff, beq_iff_eq, beq_iff_eq, ← BitVec.toNat_inj, and_one, BitVec.toNat_ofNat]
  generalize hw : (1#64).toNat = one
  have : one = 1 := by rw [← hw]; rfl
  omega

theorem word_locked (v : Nat) : Word.locked (word v) = locked v := by
  unfold Word.locked locked word
  rw [Bool.eq_iff_iff, beq_iff_eq, beq_iff_eq, ← BitVec.toNat_inj, and_two, BitVec.toNat_ofNat]
  generalize hw : (2#64).toNat = two
  have : two = 2 := by rw [← hw]; rfl
  omega

theorem word_add (v d : Nat) : word v + BitVec.ofNat 64 d = word (v + d) := by
  unfold word
  rw [BitVec.ofNat_add]

theorem word_inj {v w : Nat} (h : word v = word w) (hle : v ≤ w) (hd : w < v + 2 ^ 64) : v = w := by
  unfold word at h
  rw [← BitVec.toNat_inj, BitVec.toNat_ofNat, BitVec.toNat_ofNat] at h
  omega

theorem word_locked_of_mod {v : Nat} : Word.locked (word v) = true ↔ v % 4 = 2 ∨ v % 4 = 3 := by
  rw [word_locked]
  unfold locked
  rw [beq_iff_eq]
  omega

/-- A step raises a version by at most 3. -/
theorem GStep.version {i : Nat} {eff : Spec.Map → Spec.Map → Prop} {s s2 : St} (h : GStep i eff s s2) {a : Addr} {n n' : Node}
    (hn : s.heap[a]? = some n) (hn' : s2.heap[a]? = some n') : n'.version ≤ n.version + 3 := by
  cases h with
  | tick hm =>
    have hn' : s.heap[a]? = some n' := hn'
    rw [hn] at hn'
    cases hn'
    omega
  | @acquire m b k hm hk hk4 =>
    have hn' : (s.acquire i b k.version).heap[a]? = some n' := hn'
    by_cases e : a = b
    · subst e
      rw [acquire_get hk] at hn'
      rw [hk] at hn
      cases hn
      cases hn'
      show n.version + 2 ≤ n.version + 3
      omega
    · rw [acquire_get_ne _ e, hn] at hn'
      cases hn'
      omega
  | @release m b k d hm hk ho hd =>
    have hn' : (s.release b k.version d).heap[a]? = some n' := hn'
    by_cases e : a = b
    · subst e
      rw [release_get hk] at hn'
      rw [hk] at hn
      cases hn
      cases hn'
      show n.version + d ≤ n.version + 3
      omega
    · rw [release_get_ne _ e, hn] at hn'
      cases hn'
      omega
  | commit hm he hC hI' hT =>
    rw [hC.heap] at hn'
    obtain ⟨n1, g1, g2, g3⟩ := hC.node a n hn
    rw [hn'] at g1
    cases g1
    omega

theorem Run.version {T : Nat} {σ : Nat → Conf} {who : Nat → Nat} (h : Run T σ who) {t : Nat} (ht : t < T) {a : Addr} {n n' : Node}
    (hn : (σ t).heap[a]? = some n) (hn' : (σ (t + 1)).heap[a]? = some n') : n'.version ≤ n.version + 3 := by
  obtain ⟨s, hs⟩ := h.si t (by omega)
  obtain ⟨s2, c, hsim⟩ := hs.sim h ht
  exact hsim.g.version (by rw [hs.heap]; exact hn) (by rw [hsim.heap]; exact hn')

end Art
