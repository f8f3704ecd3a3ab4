import Verif.Props.ArtNode

/-!
# C86: leaves as blocks of the Go heap

node.go:150-191: a leaf is a byte slice made by `make`, read through pointers that are computed with `unsafe`. Here: which bytes of its block are read, and where the slices begin that `key` and `value` make.

The Go heap, as far as it matters here (runtime/mheap.go, malloc.go, mbitmap.go `findObject`): a span is a row of slots of the same size; a block lies in one slot, at its beginning or, if it is smaller than 16 bytes, anywhere in a slot
of 16 bytes. The garbage collector takes a pointer for one to the slot it points into. A pointer into no slot of a span in use (such as one at the limit of the span) is a fatal error ("found bad pointer in Go heap").
-/

set_option linter.unusedSimpArgs false

namespace Art.Props

open Surf (Bytes putUint32)

/-- A slice made of a leaf: where it begins, counted from the beginning of the block, its length and capacity. -/
structure LeafSlice where
  off : Nat
  len : Nat
  cap : Nat

/-- node.go:172-175 -/
def _root_.Art.Leaf.keySlice (l : Leaf) : LeafSlice := ⟨5, l.keyLen, l.keyLen⟩

/-- node.go:185-188 -/
def _root_.Art.Leaf.valueSlice (l : Leaf) : LeafSlice := ⟨l.keyLen + 9, l.valueLen, l.valueLen⟩

/-- node.go:170, 182, 183: where 4-byte numbers are loaded by `key` and `value` -/
def _root_.Art.Leaf.loads (l : Leaf) : List Nat := [1, l.keyLen + 5]

/-- The bytes of a slice. -/
def LeafSlice.bytes (s : LeafSlice) (l : Leaf) : Bytes := (l.mem.drop s.off).take s.len

/-- A span: `n` slots of `elem` bytes from `base` on. -/
structure Span where
  base : Nat
  elem : Nat
  n : Nat

/-- The end of the last slot. -/
def Span.limit (s : Span) : Nat := s.base + s.n * s.elem

/-- The address is in the slot `i`. -/
def Span.In (s : Span) (i p : Nat) : Prop := i < s.n ∧ s.base + i * s.elem ≤ p ∧ p < s.base + (i + 1) * s.elem

/-- A block of `len` bytes is at the address `A`, in the slot `i`. -/
structure Span.Holds (s : Span) (i A len : Nat) : Prop where
  slot : i < s.n
  low : s.base + i * s.elem ≤ A
  high : A + len ≤ s.base + (i + 1) * s.elem

/-- No address is in two slots. -/
theorem Span.In.unique {s : Span} {i j p : Nat} (h : s.In i p) (h' : s.In j p) : i = j := by
  obtain ⟨-, h1, h2⟩ := h
  obtain ⟨-, h3, h4⟩ := h'
  rcases Nat.lt_trichotomy i j with e | e | e
  · have := Nat.mul_le_mul_right s.elem (show i + 1 ≤ j from e)
    omega
  · exact e
  · have := Nat.mul_le_mul_right s.elem (show j + 1 ≤ i from e)
    omega

section
variable {k v : Bytes} {s : Span} {i A : Nat}

theorem newLeaf_size (k v : Bytes) : (newLeaf k v).mem.length = 9 + k.length + v.length := by
  simp [newLeaf]
  omega

/-- **C86, reads.** The numbers `key` and `value` load, and the slices they make, are within the block and do not overlap; they cover it but for the first byte (the type). The slices have no spare capacity. -/
theorem C86_inside (hk : k.length < 2 ^ 32) (hv : v.length < 2 ^ 32) :
    (newLeaf k v).loads = [1, k.length + 5] ∧ (newLeaf k v).keySlice = ⟨5, k.length, k.length⟩ ∧ (newLeaf k v).valueSlice = ⟨k.length + 9, v.length, v.length⟩ ∧
    k.length + 9 + v.length = (newLeaf k v).mem.length ∧ (newLeaf k v).keySlice.bytes (newLeaf k v) = k ∧ (newLeaf k v).valueSlice.bytes (newLeaf k v) = v := by
  have e1 := newLeaf_keyLen (v := v) hk
  have e2 := newLeaf_valueLen hk hv
  refine ⟨by simp [Leaf.loads, e1], by simp [Leaf.keySlice, e1], by simp [Leaf.valueSlice, e1, e2], by rw [newLeaf_size]; omega, (C12_leaf k v hk hv).1, (C12_leaf k v hk hv).2.1⟩

/-- **C86, the pointer in a value.** The slice that `value` makes points into the slot of its leaf, unless the value is empty and the block ends where the slot ends. -/
theorem C86_pointer (hk : k.length < 2 ^ 32) (hv : v.length < 2 ^ 32) (h : s.Holds i A (newLeaf k v).mem.length) :
    s.In i (A + (newLeaf k v).valueSlice.off) ↔ ¬ (v = [] ∧ A + (newLeaf k v).mem.length = s.base + (i + 1) * s.elem) := by
  rw [(C86_inside hk hv).2.2.1]
  obtain ⟨h1, h2, h3⟩ := h
  rw [newLeaf_size] at *
  unfold Span.In
  dsimp only
  constructor
  · rintro ⟨-, -, h4⟩ ⟨rfl, h5⟩
    simp only [List.length_nil] at *
    omega
  · intro h4
    refine ⟨h1, by omega, ?_⟩
    by_cases e : v = []
    · have h5 : A + (9 + k.length + v.length) ≠ s.base + (i + 1) * s.elem := fun h5 => h4 ⟨e, h5⟩
      rw [e, List.length_nil] at h5 h3
      omega
    · have := List.length_pos_iff.mpr e
      omega

/-- **C86, keys.** The slice that `key` makes always points into the slot of its leaf. -/
theorem C86_key_pointer (hk : k.length < 2 ^ 32) (hv : v.length < 2 ^ 32) (h : s.Holds i A (newLeaf k v).mem.length) : s.In i (A + (newLeaf k v).keySlice.off) := by
  rw [(C86_inside hk hv).2.1]
  obtain ⟨h1, h2, h3⟩ := h
  rw [newLeaf_size] at *
  exact ⟨h1, by dsimp only; omega, by dsimp only; omega⟩

/-- **C86, beyond the slot.** In the other case it points to the beginning of the next slot, which holds something else, or, from the last slot, to the limit of the span, which is in no slot at all. -/
theorem C86_beyond (hk : k.length < 2 ^ 32) (h : s.Holds i A (newLeaf k []).mem.length) (he : A + (newLeaf k []).mem.length = s.base + (i + 1) * s.elem) :
    (i + 1 < s.n → s.In (i + 1) (A + (newLeaf k []).valueSlice.off)) ∧ (i + 1 = s.n → A + (newLeaf k []).valueSlice.off = s.limit ∧ ∀ j, ¬ s.In j (A + (newLeaf k []).valueSlice.off)) := by
  rw [(C86_inside hk (by simp)).2.2.1]
  obtain ⟨h1, h2, h3⟩ := h
  rw [newLeaf_size] at *
  simp only [List.length_nil] at *
  have hm : (i + 1 + 1) * s.elem = (i + 1) * s.elem + s.elem := by rw [Nat.add_mul (i + 1) 1, Nat.one_mul]
  have hi : (i + 1) * s.elem = i * s.elem + s.elem := by rw [Nat.add_mul i 1, Nat.one_mul]
  refine ⟨fun hn => ⟨hn, by omega, by omega⟩, fun hn => ⟨by unfold Span.limit; rw [← hn]; omega, ?_⟩⟩
  rintro j ⟨h4, -, h6⟩
  have := Nat.mul_le_mul_right s.elem (show j + 1 ≤ i + 1 by omega)
  omega

/-- **C86, alignment.** If the block is aligned to 2 bytes or more, the length of the key is never loaded from an aligned address; the length of the value is if the length of the key fits. -/
theorem C86_alignment (hk : k.length < 2 ^ 32) (hv : v.length < 2 ^ 32) (hA : A % 2 = 0) : ∀ x ∈ (newLeaf k v).loads, (A + x) % 4 = 0 ↔ x ≠ 1 ∧ (A + k.length + 1) % 4 = 0 := by
  rw [(C86_inside hk hv).1]
  intro x hx
  rcases List.mem_cons.mp hx with rfl | hx
  · constructor
    · intro h
      omega
    · intro h
      exact absurd rfl h.1
  · rw [List.mem_singleton] at hx
    subst hx
    omega

end

/-- Example: `Put` of a key of 39 bytes with the empty value. Its leaf has 48 bytes and fills a slot of 48 bytes; a span of 8192 bytes has 170 of them. In the last slot, the value points to the limit of the span. -/
theorem C86_example : ∃ (s : Span) (i A : Nat) (k : Bytes), s = ⟨0, 48, 170⟩ ∧ k.length = 39 ∧ s.Holds i A (newLeaf k []).mem.length ∧ A + (newLeaf k []).mem.length = s.base + (i + 1) * s.elem ∧ i + 1 = s.n ∧
    ∀ j, ¬ s.In j (A + (newLeaf k []).valueSlice.off) := by
  have h1 : (List.replicate 39 (7 : UInt8)).length < 2 ^ 32 := by rw [List.length_replicate]; omega
  have h2 : (⟨0, 48, 170⟩ : Span).Holds 169 (169 * 48) (newLeaf (List.replicate 39 7) []).mem.length := by
    rw [newLeaf_size, List.length_replicate]
    exact ⟨by decide, by decide, by decide⟩
  have h3 : 169 * 48 + (newLeaf (List.replicate 39 7) []).mem.length = (⟨0, 48, 170⟩ : Span).base + (169 + 1) * (⟨0, 48, 170⟩ : Span).elem := by
    rw [newLeaf_size, List.length_replicate]
    rfl
  exact ⟨_, 169, 169 * 48, List.replicate 39 7, rfl, List.length_replicate, h2, h3, rfl, ((C86_beyond h1 h2 h3).2 rfl).2⟩

end Art.Props
