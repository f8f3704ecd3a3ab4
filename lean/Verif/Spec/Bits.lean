/-!
# Specification of bit sequences (independent of the model)

A bit sequence is a function `Nat → Bool`.
-/

namespace Spec

/-- Bit `p` of a slice of 64-bit words (little-endian bit order, word after word); `false` behind the end. -/
def bitSeq (ws : List (BitVec 64)) (p : Nat) : Bool :=
  match ws[p / 64]? with
  | some w => w.getLsbD (p % 64)
  | none => false

/-- The number of set positions below `n`. -/
def countBelow (b : Nat → Bool) : Nat → Nat
  | 0 => 0
  | n + 1 => countBelow b n + (if b n then 1 else 0)

/-- Position `p` is the `n`-th set bit (counting from 1). -/
def IsNth (b : Nat → Bool) (n p : Nat) : Prop := b p = true ∧ countBelow b p = n - 1 ∧ 1 ≤ n

/-- A level of `n` bits stored in words: enough words, and zero padding in the last word used. -/
def LevelStored (src : List (BitVec 64)) (n : Nat) : Prop :=
  n ≤ 64 * src.length ∧ ∀ p, n ≤ p → p / 64 = n / 64 → bitSeq src p = false

end Spec
