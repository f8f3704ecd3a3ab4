import Verif.Surf.AliasBuilt
import Verif.Props.SurfGet
import Mathlib.Data.Finset.Card
import Mathlib.Data.Finset.Prod

/-!
# C77: the slices `Get` returns are the filter's own memory

`Get` returns a part of the filter's value bytes, not a copy, and the capacity of that part reaches to the end of all values. The theorems say what the filter answers after the caller has written
into the returned slice or appended to it.
-/

set_option linter.unusedSimpArgs false

namespace Surf.Props

open Surf

/-! ## Specification: writing into memory -/

/-- The memory `bs` after `xs` has been stored at `off` -/
def overwrite (bs : Bytes) (off : Nat) (xs : Bytes) : Bytes := bs.take off ++ xs ++ bs.drop (off + xs.length)

/-- The filter after `xs` has been stored at `off` in one of its two value vectors -/
def poke (s : SuRF) (dense : Bool) (off : Nat) (xs : Bytes) : SuRF :=
  if dense then s.reval { s.ld.values with bytes := overwrite s.ld.values.bytes off xs } s.ls.values
  else s.reval s.ld.values { s.ls.values with bytes := overwrite s.ls.values.bytes off xs }

/-- `copy(v[i:], xs)` with the slice `v` at place `r`: Go stores as many bytes as the slice has room for. -/
def copyInto (s : SuRF) (r : Ref) (i : Nat) (xs : Bytes) : SuRF :=
  poke s r.1 (r.2 * (s.vec r.1).valueSize + i) (xs.take ((s.vec r.1).valueSize - i))

/-- `append(v, xs...)` with the slice `v` at place `r`: stored behind the slice if the capacity is sufficient, elsewhere otherwise. The capacity reaches to the end of the value vector, which was made
with its final length (bits_vec.go:146). -/
def appendTo (s : SuRF) (r : Ref) (xs : Bytes) : SuRF :=
  if (s.vec r.1).valueSize + xs.length ≤ (s.vec r.1).bytes.length - r.2 * (s.vec r.1).valueSize then poke s r.1 ((r.2 + 1) * (s.vec r.1).valueSize) xs else s

/-! ## Lemmas on memory -/

theorem overwrite_length {bs xs : Bytes} {off : Nat} (h : off + xs.length ≤ bs.length) : (overwrite bs off xs).length = bs.length := by
  unfold overwrite
  simp
  omega

theorem overwrite_get {bs xs : Bytes} {off : Nat} (h : off + xs.length ≤ bs.length) (i : Nat) :
    (overwrite bs off xs)[i]? = if off ≤ i ∧ i < off + xs.length then xs[i - off]? else bs[i]? := by
  unfold overwrite
  have h1 : (bs.take off).length = off := by rw [List.length_take]; omega
  by_cases a : i < off
  · rw [if_neg (by omega), List.append_assoc, List.getElem?_append_left (by omega), List.getElem?_take_of_lt a]
  · by_cases b : i < off + xs.length
    · rw [if_pos (by omega), List.append_assoc, List.getElem?_append_right (by omega), h1, List.getElem?_append_left (by omega)]
    · rw [if_neg (by omega), List.append_assoc, List.getElem?_append_right (by omega), h1, List.getElem?_append_right (by omega), List.getElem?_drop]
      congr 1
      omega

theorem slice_some {bs v : Bytes} {a b : Nat} : slice bs a b = some v ↔ a ≤ b ∧ b ≤ bs.length ∧ v = (bs.take b).drop a := by
  unfold slice
  split
  · next h => simp [h.1, h.2, eq_comm]
  · next h =>
    simp only [reduceCtorEq, false_iff]
    intro ⟨h1, h2, _⟩
    exact h ⟨h1, h2⟩

theorem part_get (bs : Bytes) (a n i : Nat) : ((bs.take (a + n)).drop a)[i]? = if i < n then bs[a + i]? else none := by
  rw [List.getElem?_drop]
  by_cases h : i < n
  · rw [if_pos h, List.getElem?_take_of_lt (by omega)]
  · rw [if_neg h, List.getElem?_eq_none]
    rw [List.length_take]
    omega

theorem poke_vec (s : SuRF) (d : Bool) (off : Nat) (xs : Bytes) (d' : Bool) :
    (poke s d off xs).vec d' = if d' = d then { s.vec d with bytes := overwrite (s.vec d).bytes off xs } else s.vec d' := by
  unfold poke SuRF.vec SuRF.reval LoudsDense.reval LoudsSparse.reval
  cases d <;> cases d' <;> rfl

theorem poke_reval (s : SuRF) (d : Bool) (off : Nat) (xs : Bytes) : ∃ x y, poke s d off xs = s.reval x y := by
  unfold poke
  cases d <;> exact ⟨_, _, rfl⟩

theorem poke_getRef (s : SuRF) (d : Bool) (off : Nat) (xs : Bytes) (fp : Bytes → Word) (bmi : Bool) (q : Bytes) : (poke s d off xs).getRef fp bmi q = s.getRef fp bmi q := by
  obtain ⟨x, y, e⟩ := poke_reval s d off xs
  rw [e, SuRF.reval_getRef]

/-! ## Places in a built filter -/

theorem flat_length {vs : Nat} : ∀ l : List Bytes, (∀ v ∈ l, v.length = vs) → l.flatten.length = l.length * vs := by
  intro l
  induction l with
  | nil => simp
  | cons a l ih =>
    intro h
    rw [List.flatten_cons, List.length_append, ih (fun v hv => h v (by simp [hv])), h a (by simp), List.length_cons, Nat.add_mul]
    omega

/-- The leaves whose values are in the dense, or in the sparse vector -/
def leavesOf (t : Grp) (cut ht : Nat) (dense : Bool) : List JItem := if dense then lvs (nodesIn t 0 cut) else lvs (nodesIn t cut (ht - cut))

theorem vec_built {cfg : Config} {fp : Bytes → Word} {s : SuRF} {t : Grp} {cut ht : Nat} (B : Built cfg fp s t cut ht) (d : Bool) :
    (s.vec d).valueSize = cfg.valueSize ∧ (s.vec d).bytes.length = (leavesOf t cut ht d).length * cfg.valueSize := by
  unfold SuRF.vec leavesOf
  cases d
  · simp only [Bool.false_eq_true, if_false]
    rw [B.sv.val]
    refine ⟨rfl, ?_⟩
    rw [flat_length (vs := cfg.valueSize) _ (fun v hv => B.leafVal_length hv), List.length_map]
  · simp only [if_true]
    rw [B.dv.val]
    refine ⟨rfl, ?_⟩
    rw [flat_length (vs := cfg.valueSize) _ (fun v hv => B.leafVal_length hv), List.length_map]

/-- The place of a stored key is that of its leaf. -/
theorem stored_place {cfg : Config} {fp : Bytes → Word} {s : SuRF} {t : Grp} {cut ht : Nat} (B : Built cfg fp s t cut ht) (h0 : t.d = 0) (bmi : Bool) {x : KV} (hx : x ∈ t.kvs) :
    ∃ r : Ref, s.getRef fp bmi x.1 = some (some r) ∧ ∃ j, (leavesOf t cut ht r.1)[r.2]? = some j ∧ leafKV j = x := by
  obtain ⟨b, i, e1, e2⟩ := find_stored cut x (x.1.length + 1) 0 t B.root hx (by omega)
  have e : leafKV (b, i) = x := by simp [leafKV, e2]
  obtain ⟨r, g1, g2⟩ := B.getRef h0 bmi x.1
  have hsuf : sufOK cfg fp (leafWord cfg fp (b, i)) x.1 (b + 1) = true := by
    have := sufOK_self cfg fp x.1 (b + 1)
    unfold leafWord
    rw [e]
    exact this
  rw [g1]
  rcases g2 with ⟨p, rfl, g⟩ | ⟨p, rfl, g⟩ <;>
  · rw [e1] at g
    unfold AnswerRef at g
    dsimp only at g
    rw [if_pos hsuf] at g
    obtain ⟨X, Y, g2, rfl⟩ := g
    refine ⟨_, rfl, (b, i), ?_, e⟩
    simp only [leavesOf, g2]
    simp

section
variable {fp : Bytes → Word} {bmi : Bool} {vs h r : Nat} {keys vals : List Bytes} {hint : Int} {s : SuRF}

/-- **C77, places.** `Get` never panics and returns the bytes at a place that lies within the value vector (or "not found"). -/
theorem C77_slice (hhr : h + r ≤ 64) (hin : Input vs keys vals) (hs : build fp bmi (newBuilder vs h r) keys vals hint = some s) (q : Bytes) :
    ∃ p, s.getRef fp bmi q = some p ∧ s.get fp bmi q = s.read p ∧ ∀ x, p = some x → (s.vec x.1).valueSize = vs ∧ (x.2 + 1) * vs ≤ (s.vec x.1).bytes.length := by
  obtain ⟨cut, ht, B, -⟩ := get_built hhr hin hs
  obtain ⟨p, e1, e2⟩ := B.getRef rfl bmi q
  refine ⟨p, e1, ?_, ?_⟩
  · rw [SuRF.get_ref, e1]
    rfl
  · intro x hx
    obtain ⟨b1, b2⟩ := vec_built B x.1
    refine ⟨b1, ?_⟩
    rw [b2]
    refine Nat.mul_le_mul_right vs ?_
    have key : ∀ (d : Bool) (ns : List Grp) (p' : Option Nat) f, p = p'.map (d, ·) → AnswerRef (newBuilder vs h r) fp q ns f p' → x.1 = d ∧ x.2 + 1 ≤ (lvs ns).length := by
      intro d ns p' f h1 h2
      rw [hx] at h1
      cases p' with
      | none => cases h1
      | some n =>
        rw [Option.map_some, Option.some.injEq] at h1
        subst h1
        cases f with
        | none => cases h2
        | some f =>
          obtain ⟨j, D⟩ := f
          unfold AnswerRef at h2
          dsimp only at h2
          split at h2
          · obtain ⟨X, Y, h2, h3⟩ := h2
            cases h3
            rw [h2]
            simp
          · cases h2
    rcases e2 with ⟨p', h1, h2⟩ | ⟨p', h1, h2⟩
    · obtain ⟨k1, k2⟩ := key _ _ _ _ h1 h2
      rw [k1]
      exact k2
    · obtain ⟨k1, k2⟩ := key _ _ _ _ h1 h2
      rw [k1]
      exact k2

/-- **C77, nothing but values.** Whatever is written into the value vectors of a filter: places (and with them which queries are found), `HasOverlap` and the iterator stay as they were. -/
theorem C77_frame (s : SuRF) (x y : ValueVector) (fp : Bytes → Word) (bmi : Bool) :
    (∀ q, (s.reval x y).getRef fp bmi q = s.getRef fp bmi q) ∧
    (∀ a b incl, (s.reval x y).hasOverlap bmi a b incl = s.hasOverlap bmi a b incl) ∧
    (s.reval x y).newIterator = s.newIterator ∧
    (∀ it : Iterator, it.next bmi (s.reval x y) = it.next bmi s ∧ it.prev bmi (s.reval x y) = it.prev bmi s ∧
      it.seekToFirst bmi (s.reval x y) = it.seekToFirst bmi s ∧ it.seekToLast bmi (s.reval x y) = it.seekToLast bmi s ∧ ∀ k, it.seek bmi (s.reval x y) k = it.seek bmi s k) :=
  ⟨s.reval_getRef x y fp bmi, s.reval_hasOverlap x y bmi, rfl, fun it => ⟨it.reval_next s x y bmi, it.reval_prev s x y bmi, it.reval_seekToFirst s x y bmi, it.reval_seekToLast s x y bmi, it.reval_seek s x y bmi⟩⟩

/-- **C77, places of their own.** Every stored key has a place, and different keys have different places. -/
theorem C77_own (hhr : h + r ≤ 64) (hin : Input vs keys vals) (hs : build fp bmi (newBuilder vs h r) keys vals hint = some s) :
    (∀ k ∈ keys, ∃ p, s.getRef fp bmi k = some (some p)) ∧
    ∀ k ∈ keys, ∀ k' ∈ keys, ∀ p, s.getRef fp bmi k = some (some p) → s.getRef fp bmi k' = some (some p) → k = k' := by
  obtain ⟨cut, ht, B, -⟩ := get_built hhr hin hs
  have hk : ∀ k ∈ keys, ∃ v, (k, v) ∈ keys.zip vals := by
    intro k hk
    rw [← hin.fst, List.mem_map] at hk
    obtain ⟨x, hx, rfl⟩ := hk
    exact ⟨x.2, hx⟩
  refine ⟨?_, ?_⟩
  · intro k hk'
    obtain ⟨v, hx⟩ := hk k hk'
    obtain ⟨p, e, -⟩ := stored_place B rfl bmi hx
    exact ⟨p, e⟩
  · intro k hk1 k' hk2 p e1 e2
    obtain ⟨v, hx⟩ := hk k hk1
    obtain ⟨v', hx'⟩ := hk k' hk2
    obtain ⟨p1, g1, j1, a1, b1⟩ := stored_place B rfl bmi hx
    obtain ⟨p2, g2, j2, a2, b2⟩ := stored_place B rfl bmi hx'
    rw [e1] at g1
    rw [e2] at g2
    cases g1
    cases g2
    rw [a1] at a2
    cases a2
    rw [b1] at b2
    exact congrArg Prod.fst b2

/-- A stored key, its value and its place -/
theorem stored_read (hhr : h + r ≤ 64) (hin : Input vs keys vals) (hs : build fp bmi (newBuilder vs h r) keys vals hint = some s) {n : Nat} {k v : Bytes} (hk : keys[n]? = some k) (hv : vals[n]? = some v)
    {p : Ref} (hp : s.getRef fp bmi k = some (some p)) :
    (s.vec p.1).valueSize = vs ∧ p.2 * vs + vs ≤ (s.vec p.1).bytes.length ∧ v.take vs = ((s.vec p.1).bytes.take (p.2 * vs + vs)).drop (p.2 * vs) := by
  have h1 := C22_stored fp bmi vs h r hhr keys vals hin hint s hs n k v hk hv
  obtain ⟨p', e1, -, e3⟩ := C77_slice hhr hin hs k
  rw [hp] at e1
  cases e1
  obtain ⟨e4, e5⟩ := e3 p rfl
  rw [SuRF.get_ref, hp] at h1
  simp only [Option.bind_some, SuRF.read, ValueVector.get, e4, Option.map_eq_some_iff, Prod.mk.injEq, and_true] at h1
  obtain ⟨w, h1, rfl⟩ := h1
  obtain ⟨-, h2, h3⟩ := slice_some.mp h1
  exact ⟨e4, h2, h3⟩

/-- What is read for a key after a store into the values -/
theorem poke_get (hhr : h + r ≤ 64) (hin : Input vs keys vals) (hs : build fp bmi (newBuilder vs h r) keys vals hint = some s) {n : Nat} {k v : Bytes} (hk : keys[n]? = some k) (hv : vals[n]? = some v)
    {p : Ref} (hp : s.getRef fp bmi k = some (some p)) (d : Bool) (off : Nat) (xs : Bytes) (hx : off + xs.length ≤ (s.vec d).bytes.length) :
    (poke s d off xs).get fp bmi k = some (if p.1 = d then ((overwrite (s.vec d).bytes off xs).take (p.2 * vs + vs)).drop (p.2 * vs) else v.take vs, true) := by
  obtain ⟨h1, h2, h3⟩ := stored_read hhr hin hs hk hv hp
  rw [SuRF.get_ref, poke_getRef, hp]
  simp only [Option.bind_some, SuRF.read, poke_vec]
  by_cases hd : p.1 = d
  · subst hd
    simp only [if_true, ValueVector.get, h1]
    rw [slice_some.mpr ⟨by omega, by rw [overwrite_length hx]; exact h2, rfl⟩]
    rfl
  · simp only [if_neg hd, ValueVector.get, h1]
    rw [slice_some.mpr ⟨by omega, h2, rfl⟩, ← h3]
    rfl

/-- **C77, `copy`.** After `copy(v[i:], xs)` into the slice returned for the stored key `k`, that key has the new value; the values of all other stored keys are as before. -/
theorem C77_copy (hhr : h + r ≤ 64) (hin : Input vs keys vals) (hs : build fp bmi (newBuilder vs h r) keys vals hint = some s) {n : Nat} {k v : Bytes} (hk : keys[n]? = some k) (hv : vals[n]? = some v)
    {p : Ref} (hp : s.getRef fp bmi k = some (some p)) (i : Nat) (hi : i ≤ vs) (xs : Bytes) :
    (copyInto s p i xs).get fp bmi k = some (overwrite (v.take vs) i (xs.take (vs - i)), true) ∧
    ∀ k' ∈ keys, k' ≠ k → (copyInto s p i xs).get fp bmi k' = s.get fp bmi k' := by
  obtain ⟨h1, h2, h3⟩ := stored_read hhr hin hs hk hv hp
  have hl : (xs.take (vs - i)).length ≤ vs - i := by rw [List.length_take]; omega
  have hroom : p.2 * vs + i + (xs.take (vs - i)).length ≤ (s.vec p.1).bytes.length := by omega
  unfold copyInto
  rw [h1]
  generalize xs.take (vs - i) = ys at hl hroom
  have hvl : (v.take vs).length = vs := by
    rw [h3, List.length_drop, List.length_take]
    omega
  refine ⟨?_, ?_⟩
  · rw [poke_get hhr hin hs hk hv hp _ _ _ hroom, if_pos rfl]
    congr 2
    apply List.ext_getElem?
    intro m
    rw [part_get, overwrite_get hroom, overwrite_get (by omega), h3, part_get]
    by_cases a : m < vs
    · rw [if_pos a, if_pos a]
      by_cases b : i ≤ m ∧ m < i + ys.length
      · rw [if_pos (by omega), if_pos b]
        congr 1
        omega
      · rw [if_neg (by omega), if_neg b]
    · rw [if_neg a, if_neg (by omega), if_neg a]
  · intro k' hk' hne
    obtain ⟨n', hn'⟩ := List.getElem?_of_mem hk'
    have hlt := (List.getElem?_eq_some_iff.mp hn').1
    have hv' : vals[n']? = some (vals[n']'(by rw [hin.lens]; exact hlt)) := List.getElem?_eq_getElem _
    obtain ⟨ho1, ho2⟩ := C77_own hhr hin hs
    obtain ⟨p', hp'⟩ := ho1 k' hk'
    have hpp : p ≠ p' := by
      rintro rfl
      exact hne (ho2 k' hk' k (List.mem_of_getElem? hk) p hp' hp)
    obtain ⟨g1, g2, g3⟩ := stored_read hhr hin hs hn' hv' hp'
    rw [poke_get hhr hin hs hn' hv' hp' _ _ _ hroom, C22_stored fp bmi vs h r hhr keys vals hin hint s hs n' k' _ hn' hv']
    by_cases hd : p'.1 = p.1
    · rw [if_pos hd]
      congr 2
      have hne2 : p'.2 ≠ p.2 := by
        intro e
        exact hpp (Prod.ext hd.symm e.symm)
      apply List.ext_getElem?
      intro m
      rw [part_get, overwrite_get hroom, g3, part_get, hd]
      by_cases a : m < vs
      · rw [if_pos a, if_pos a, if_neg]
        rcases Nat.lt_or_gt_of_ne hne2 with lt | lt
        · have := Nat.mul_le_mul_right vs (show p'.2 + 1 ≤ p.2 from lt)
          rw [Nat.add_mul] at this
          omega
        · have := Nat.mul_le_mul_right vs (show p.2 + 1 ≤ p'.2 from lt)
          rw [Nat.add_mul] at this
          omega
      · rw [if_neg a, if_neg a]
    · rw [if_neg hd]

/-- **C77, `append`.** After `append(v, xs...)` to the slice returned for the stored key `k`, where `xs` fits behind the slice, the values that lie behind that of `k` in the same vector have been
overwritten with `xs`, as far as it reaches; all others are as before. -/
theorem C77_append (hhr : h + r ≤ 64) (hin : Input vs keys vals) (hs : build fp bmi (newBuilder vs h r) keys vals hint = some s) {n : Nat} {k v : Bytes} (hk : keys[n]? = some k) (hv : vals[n]? = some v)
    {p : Ref} (hp : s.getRef fp bmi k = some (some p)) (xs : Bytes) (hroom : (p.2 + 1) * vs + xs.length ≤ (s.vec p.1).bytes.length) {n' : Nat} {k' v' : Bytes} (hk' : keys[n']? = some k')
    (hv' : vals[n']? = some v') {p' : Ref} (hp' : s.getRef fp bmi k' = some (some p')) :
    (appendTo s p xs).get fp bmi k' =
      some (if p'.1 = p.1 ∧ p.2 < p'.2 then (xs.drop ((p'.2 - p.2 - 1) * vs)).take vs ++ (v'.take vs).drop (xs.length - (p'.2 - p.2 - 1) * vs) else v'.take vs, true) := by
  obtain ⟨h1, h2, h3⟩ := stored_read hhr hin hs hk hv hp
  obtain ⟨g1, g2, g3⟩ := stored_read hhr hin hs hk' hv' hp'
  have hm : (p.2 + 1) * vs = p.2 * vs + vs := by rw [Nat.add_mul, Nat.one_mul]
  unfold appendTo
  rw [h1, if_pos (by omega), poke_get hhr hin hs hk' hv' hp' _ _ _ hroom]
  have hvl : (v'.take vs).length = vs := by
    rw [g3, List.length_drop, List.length_take]
    omega
  by_cases hd : p'.1 = p.1
  · rw [if_pos hd]
    congr 2
    by_cases hlt : p.2 < p'.2
    · rw [if_pos ⟨hd, hlt⟩]
      obtain ⟨m, hm'⟩ : ∃ m, p'.2 = p.2 + 1 + m := ⟨p'.2 - p.2 - 1, by omega⟩
      rw [show p'.2 - p.2 - 1 = m by omega]
      have hmul : p'.2 * vs = p.2 * vs + vs + m * vs := by rw [hm', Nat.add_mul, hm]
      apply List.ext_getElem?
      intro i
      rw [part_get, overwrite_get hroom, hmul, hm]
      by_cases a : i < vs
      · rw [if_pos a]
        by_cases b : m * vs + i < xs.length
        · rw [if_pos (by omega), List.getElem?_append_left (by rw [List.length_take, List.length_drop]; omega), List.getElem?_take_of_lt a, List.getElem?_drop]
          congr 1
          omega
        · rw [if_neg (by omega), List.getElem?_append_right (by rw [List.length_take, List.length_drop]; omega), List.getElem?_drop, g3, part_get, if_pos (by rw [List.length_take, List.length_drop]; omega), hd, hmul]
          congr 1
          rw [List.length_take, List.length_drop]
          omega
      · rw [if_neg a, List.getElem?_eq_none]
        rw [List.length_append, List.length_take, List.length_drop, List.length_drop, hvl]
        omega
    · rw [if_neg (fun c => hlt c.2)]
      have hle : p'.2 ≤ p.2 := by omega
      apply List.ext_getElem?
      intro i
      rw [part_get, overwrite_get hroom, g3, part_get, hd]
      have := Nat.mul_le_mul_right vs hle
      by_cases a : i < vs
      · rw [if_pos a, if_pos a, if_neg (by omega)]
      · rw [if_neg a, if_neg a]
  · rw [if_neg hd, if_neg (fun c => hd c.1)]

/-- If `xs` does not fit, Go allocates, and the filter is as before. -/
theorem C77_append_new (s : SuRF) (p : Ref) (xs : Bytes) (hroom : (s.vec p.1).bytes.length - p.2 * (s.vec p.1).valueSize < (s.vec p.1).valueSize + xs.length) : appendTo s p xs = s := by
  unfold appendTo
  rw [if_neg (by omega)]

/-- **C77, no gaps.** Every place in the value vectors is that of a stored key. -/
theorem C77_all (hhr : h + r ≤ 64) (hin : Input vs keys vals) (hs : build fp bmi (newBuilder vs h r) keys vals hint = some s) (hvs : 0 < vs) (d : Bool) (n : Nat)
    (hn : (n + 1) * vs ≤ (s.vec d).bytes.length) : ∃ k ∈ keys, s.getRef fp bmi k = some (some (d, n)) := by
  obtain ⟨cut, ht, B, -⟩ := get_built hhr hin hs
  obtain ⟨ho1, ho2⟩ := C77_own hhr hin hs
  have hcount := B.leaves
  have hzip : (keys.zip vals).length = keys.length := by rw [List.length_zip, hin.lens, Nat.min_self]
  rw [hzip] at hcount
  have hnd : keys.Nodup := hin.sorted.imp (fun h e => by rw [e] at h; exact List.lt_irrefl _ h)
  let f : Bytes → Ref := fun k => match s.getRef fp bmi k with
    | some (some p) => p
    | _ => (true, 0)
  have hf : ∀ k ∈ keys, s.getRef fp bmi k = some (some (f k)) := by
    intro k hk
    obtain ⟨p, hp⟩ := ho1 k hk
    simp only [f, hp]
  let T : Finset Ref := (({true} : Finset Bool) ×ˢ Finset.range (leavesOf ⟨keys.zip vals, 0⟩ cut ht true).length) ∪ (({false} : Finset Bool) ×ˢ Finset.range (leavesOf ⟨keys.zip vals, 0⟩ cut ht false).length)
  have hmem : ∀ d n, ((d, n) : Ref) ∈ T ↔ n < (leavesOf ⟨keys.zip vals, 0⟩ cut ht d).length := by
    intro d n
    cases d <;> simp [T]
  have hsub : keys.toFinset.image f ⊆ T := by
    intro p hp
    rw [Finset.mem_image] at hp
    obtain ⟨k, hk, rfl⟩ := hp
    rw [List.mem_toFinset] at hk
    have hk2 := hk
    rw [← hin.fst, List.mem_map] at hk2
    obtain ⟨x, hx, rfl⟩ := hk2
    obtain ⟨q, g1, j, g2, -⟩ := stored_place B rfl bmi hx
    rw [hf _ hk] at g1
    cases g1
    exact (hmem _ _).mpr (List.getElem?_eq_some_iff.mp g2).1
  have hcard : (keys.toFinset.image f).card = keys.length := by
    rw [Finset.card_image_of_injOn, List.toFinset_card_of_nodup hnd]
    intro a ha b hb hab
    have ha' : a ∈ keys := by simpa using ha
    have hb' : b ∈ keys := by simpa using hb
    have h2 := hf b hb'
    rw [← hab] at h2
    exact ho2 a ha' b hb' (f a) (hf a ha') h2
  have hT : T.card ≤ keys.length := by
    refine Nat.le_trans (Finset.card_union_le _ _) ?_
    rw [Finset.card_product, Finset.card_product, Finset.card_singleton, Finset.card_singleton, Finset.card_range, Finset.card_range, ← hcount]
    simp [leavesOf]
  have heq := Finset.eq_of_subset_of_card_le hsub (by rw [hcard]; exact hT)
  obtain ⟨-, b2⟩ := vec_built B d
  rw [b2] at hn
  have hlt : n < (leavesOf ⟨keys.zip vals, 0⟩ cut ht d).length := Nat.le_of_mul_le_mul_right hn hvs
  have : ((d, n) : Ref) ∈ keys.toFinset.image f := by
    rw [heq]
    exact (hmem d n).mpr hlt
  rw [Finset.mem_image] at this
  obtain ⟨k, hk, he⟩ := this
  rw [List.mem_toFinset] at hk
  refine ⟨k, hk, ?_⟩
  rw [hf k hk, he]

/-- **C77, the harm.** Unless the value of `k` is the last in its vector, appending a value to it gives another stored key that value. -/
theorem C77_next (hhr : h + r ≤ 64) (hin : Input vs keys vals) (hs : build fp bmi (newBuilder vs h r) keys vals hint = some s) (hvs : 0 < vs) {n : Nat} {k v : Bytes} (hk : keys[n]? = some k)
    (hv : vals[n]? = some v) {p : Ref} (hp : s.getRef fp bmi k = some (some p)) (xs : Bytes) (hx : xs.length = vs) (hlast : (p.2 + 2) * vs ≤ (s.vec p.1).bytes.length) :
    ∃ k' ∈ keys, k' ≠ k ∧ (appendTo s p xs).get fp bmi k' = some (xs, true) := by
  obtain ⟨k', hk', hp'⟩ := C77_all hhr hin hs hvs p.1 (p.2 + 1) hlast
  obtain ⟨n', hn'⟩ := List.getElem?_of_mem hk'
  have hlt := (List.getElem?_eq_some_iff.mp hn').1
  have hv' : vals[n']? = some (vals[n']'(by rw [hin.lens]; exact hlt)) := List.getElem?_eq_getElem _
  refine ⟨k', hk', ?_, ?_⟩
  · rintro rfl
    rw [hp] at hp'
    simp only [Option.some.injEq] at hp'
    have := congrArg Prod.snd hp'
    simp at this
  · have hroom : (p.2 + 1) * vs + xs.length ≤ (s.vec p.1).bytes.length := by
      rw [hx]
      have : (p.2 + 2) * vs = (p.2 + 1) * vs + vs := by rw [show p.2 + 2 = p.2 + 1 + 1 from rfl, Nat.add_mul (p.2 + 1), Nat.one_mul]
      omega
    rw [C77_append hhr hin hs hk hv hp xs hroom hn' hv' hp']
    rw [if_pos ⟨rfl, by simp⟩]
    simp only [show p.2 + 1 - p.2 - 1 = 0 by omega, Nat.zero_mul, List.drop_zero, Nat.sub_zero]
    rw [List.take_of_length_le (by omega), List.drop_eq_nil_of_le (by rw [List.length_take]; omega), List.append_nil]

end

/-! ## Example -/

/-- The keys "a", "b", "c" with the values 1, 2, 3 -/
def aliasFilter : Option SuRF := build (fun _ => 0) true (newBuilder 1 0 0) [[97], [98], [99]] [[1], [2], [3]] 0

/-- `append(v, 9)` to the value of "a" gives "b" the value 9; `copy` into it changes that of "a" only. -/
theorem C77_witness :
    (aliasFilter.bind fun s => s.getRef (fun _ => 0) true [97]) = some (some (false, 0)) ∧
    (aliasFilter.bind fun s => (appendTo s (false, 0) [9]).get (fun _ => 0) true [98]) = some ([9], true) ∧
    (aliasFilter.bind fun s => (copyInto s (false, 0) 0 [7]).get (fun _ => 0) true [97]) = some ([7], true) ∧
    (aliasFilter.bind fun s => (copyInto s (false, 0) 0 [7]).get (fun _ => 0) true [98]) = some ([2], true) := by
  refine ⟨?_, ?_, ?_, ?_⟩ <;> decide +kernel

theorem aliasFilter_some : aliasFilter.isSome = true := by decide +kernel

theorem aliasFilter_ref : (aliasFilter.bind fun s => s.getRef (fun _ => 0) true [97]) = some (some (false, 0)) := by decide +kernel

/-- The hypotheses of the theorems are met by the example, with the value of "a" at the first of three places. -/
example : ∃ s, build (fun _ => 0) true (newBuilder 1 0 0) [[97], [98], [99]] [[1], [2], [3]] 0 = some s ∧ Input 1 [[97], [98], [99]] [[1], [2], [3]] ∧ s.getRef (fun _ => 0) true [97] = some (some (false, 0)) ∧
    ∃ k' ∈ [[97], [98], [99]], k' ≠ [97] ∧ (appendTo s (false, 0) [9]).get (fun _ => 0) true k' = some ([9], true) := by
  obtain ⟨s, hs⟩ := Option.isSome_iff_exists.mp aliasFilter_some
  have hr := aliasFilter_ref
  rw [hs] at hr
  have hin : Input 1 [[97], [98], [99]] [[1], [2], [3]] := ⟨by decide, by decide, by decide, rfl, by decide, by decide⟩
  refine ⟨s, hs, hin, hr, ?_⟩
  have hlen : (aliasFilter.map fun s => (s.vec false).bytes.length) = some 3 := by decide +kernel
  rw [hs] at hlen
  simp only [Option.map_some, Option.some.injEq] at hlen
  exact C77_next (fp := fun _ => 0) (bmi := true) (h := 0) (r := 0) (by omega) hin hs (by omega) (n := 0) (v := [1]) rfl rfl hr [9] rfl (by rw [hlen]; omega)

end Surf.Props
