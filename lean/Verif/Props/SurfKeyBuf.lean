import Verif.Surf.KeyBufIter
import Verif.Surf.KeyBufNear
import Verif.Props.Marshal

/-!
# C79: the slices `Key` returns are the iterator's own buffers

`Key` (surf.go:186-193) returns a slice of one of two buffers of the iterator, not a copy. The theorems say what becomes of such a slice when the iterator is used further, and what becomes of the iterator when the caller writes
into such a slice.
-/

set_option linter.unusedSimpArgs false

namespace Surf.Props

open Surf

/-! ## Specification -/

/-- The calls of an iterator that change it. -/
inductive Call where
  | next
  | prev
  | first
  | last
  | seek (q : Bytes)
  | key

/-- The call of an iterator whose buffers are lists. -/
def Call.list (bmi : Bool) (f : SuRF) : Call → Iterator → Option Iterator
  | .next, it => it.next bmi f
  | .prev, it => it.prev bmi f
  | .first, it => it.seekToFirst bmi f
  | .last, it => it.seekToLast bmi f
  | .seek q, it => (it.seek bmi f q).map Prod.fst
  | .key, it => it.key.map fun _ => it

/-- The call of an iterator whose buffers are in memory. -/
def Call.mem (g : Nat → Nat → Nat) (bmi : Bool) (f : SuRF) : Call → IterMem → Option IterMem
  | .next, x => x.next g bmi f
  | .prev, x => x.prev g bmi f
  | .first, x => x.seekToFirst g bmi f
  | .last, x => x.seekToLast g bmi f
  | .seek q, x => (x.seek g bmi f q).map Prod.fst
  | .key, x => (x.key g).map Prod.fst

/-- One after another. -/
def calls {σ : Type} (step : Call → σ → Option σ) : List Call → σ → Option σ
  | [], x => some x
  | c :: cs, x => (step c x).bind (calls step cs)

/-- The calls that begin with `Reset`. -/
def Call.resets : Call → Bool
  | .first | .last | .seek _ => true
  | _ => false

/-- What the caller may do to memory with slices it was given: change any bytes of any array, and allocate. -/
def Scribble (m m' : Mem) : Prop := m.length ≤ m'.length ∧ ∀ j, j < m.length → (m'.arr j).length = (m.arr j).length

section
variable {g : Nat → Nat → Nat} {bmi : Bool} {f : SuRF}

/-! ## What the calls do -/

/-- **C79, the same answers.** If no one writes to the buffers, the iterator with memory does what the one with lists does. No call writes to an array other than the two buffers, and the buffers stay where they are or move to new
arrays. -/
theorem C79_call {x : IterMem} (hx : x.Sep) (c : Call) {it : Iterator} (h : c.list bmi f x.view = some it) : ∃ x', c.mem g bmi f x = some x' ∧ x'.view = it ∧ x'.Sep ∧ x.mem.length ≤ x'.mem.length ∧
    (x'.s.id = x.s.id ∨ x.mem.length ≤ x'.s.id) ∧ (x'.k.id = x.k.id ∨ x.mem.length ≤ x'.k.id) ∧ (∀ j, j < x.mem.length → j ≠ x.s.id → j ≠ x.k.id → x'.mem.arr j = x.mem.arr j) ∧
    (match c with
      | .key => x'.s = x.s ∧ x'.mem.arr x.s.id = x.mem.arr x.s.id
      | _ => x'.k = x.k ∧ x'.mem.arr x.k.id = x.mem.arr x.k.id) := by
  have move : ∀ {y : Option IterMem}, IterMem.Follows (Works g) x it y → ∃ x', y = some x' ∧ x'.view = it ∧ x'.Sep ∧ x.mem.length ≤ x'.mem.length ∧
      (x'.s.id = x.s.id ∨ x.mem.length ≤ x'.s.id) ∧ (x'.k.id = x.k.id ∨ x.mem.length ≤ x'.k.id) ∧ (∀ j, j < x.mem.length → j ≠ x.s.id → j ≠ x.k.id → x'.mem.arr j = x.mem.arr j) ∧
      x'.k = x.k ∧ x'.mem.arr x.k.id = x.mem.arr x.k.id := by
    rintro y ⟨x', rfl, e2, e3, e4⟩
    exact ⟨x', rfl, e2, hx.works e3 e4, e3.grows, e3.id, .inl (by rw [e4]), fun j hj h1 _ => e3.other hj h1, e4, e3.other hx.k.id (Ne.symm hx.ne)⟩
  have weak : ∀ {y : Option IterMem}, IterMem.Follows (Moves g) x it y → IterMem.Follows (Works g) x it y := by
    rintro y ⟨x', e1, e2, e3, e4⟩
    exact ⟨x', e1, e2, e3.works, e4⟩
  cases c with
  | next => exact move (weak (IterMem.next_follows hx.s h))
  | prev => exact move (weak (IterMem.prev_follows hx.s h))
  | first => exact move (weak (IterMem.seekToFirst_follows hx.s h))
  | last => exact move (weak (IterMem.seekToLast_follows hx.s h))
  | seek q =>
    obtain ⟨r, h1, rfl⟩ := Option.map_eq_some_iff.mp h
    obtain ⟨x', e1, e2⟩ := IterMem.seek_follows (g := g) hx.s h1
    refine move ⟨x', ?_, e2⟩
    show (x.seek g bmi f q).map Prod.fst = _
    rw [e1]
    rfl
  | key =>
    obtain ⟨k, h1, rfl⟩ := Option.map_eq_some_iff.mp h
    obtain ⟨x', sl, e1, e2, e3, e4, e5, e6⟩ := IterMem.key_follows (g := g) hx h1
    have e1' : Call.key.mem g bmi f x = some x' := by
      show (x.key g).map Prod.fst = _
      rw [e1]
      rfl
    by_cases hc : x.it.d.isComplete = true
    · rw [if_pos hc] at e6
      obtain ⟨rfl, -, -⟩ := e6
      exact ⟨x', e1', rfl, hx, Nat.le_refl _, .inl rfl, .inl rfl, fun _ _ _ _ => rfl, rfl, rfl⟩
    · rw [if_neg hc] at e6
      obtain ⟨a1, a2, a3, a4⟩ := e6
      have hs : x'.mem.arr x.s.id = x.mem.arr x.s.id := a1.works.other hx.s.id hx.ne
      refine ⟨x', e1', ?_, ⟨?_, a3, ?_⟩, a1.works.grows, .inl (by rw [e4]), a2, fun j hj _ h2 => a1.works.other hj h2, e4, hs⟩
      · unfold IterMem.view IterMem.dense DenseMem.view Mem.read
        rw [e3, e4, hs]
      · rw [e4]
        exact ⟨Nat.lt_of_lt_of_le hx.s.id a1.works.grows, by rw [hs]; exact hx.s.len⟩
      · rw [e4]
        rcases a2 with q | q
        · rw [q]
          exact hx.ne
        · have := hx.s.id
          omega

/-- **C79, the same answers**, for any number of calls. -/
theorem C79_same : ∀ (cs : List Call) {x : IterMem} {it : Iterator}, x.Sep → calls (Call.list bmi f) cs x.view = some it → ∃ x', calls (Call.mem g bmi f) cs x = some x' ∧ x'.view = it ∧ x'.Sep := by
  intro cs
  induction cs with
  | nil =>
    intro x it hx h
    cases h
    exact ⟨x, rfl, rfl, hx⟩
  | cons c cs ih =>
    intro x it hx h
    obtain ⟨it', h1, h2⟩ := Option.bind_eq_some_iff.mp h
    obtain ⟨x', e1, rfl, e3, -⟩ := C79_call (g := g) hx c h1
    obtain ⟨x2, a1, a2⟩ := ih e3 h2
    refine ⟨x2, ?_, a2⟩
    show (c.mem g bmi f x).bind _ = _
    rw [e1]
    exact a1

/-- ... from a new iterator. -/
theorem C79_new (cs : List Call) {it : Iterator} (h : calls (Call.list bmi f) cs f.newIterator = some it) : ∃ x, calls (Call.mem g bmi f) cs f.newIterMem = some x ∧ x.view = it ∧ x.Sep :=
  C79_same cs (IterMem.newIterMem_sep f) h

/-- **C79, the key.** The slice `Key` returns reads as the key. If the dense part is complete, it is the buffer of the dense part. Otherwise it is in the buffer of `Key`, or alone in an array of its own. -/
theorem C79_key {x : IterMem} (hx : x.Sep) {k : Bytes} (h : x.view.key = some k) : ∃ x' sl, x.key g = some (x', sl) ∧ x'.mem.read sl = k ∧ x'.view = x.view ∧ x'.mem.Ok sl ∧
    if x.it.d.isComplete then x' = x ∧ sl.id = x.s.id ∧ sl.len ≤ x.s.len
    else sl.id = x'.k.id ∨ (x.mem.length ≤ sl.id ∧ sl.id ≠ x'.s.id ∧ sl.id ≠ x'.k.id) := by
  obtain ⟨x', sl, e1, e2, e3, e4, e5, e6⟩ := IterMem.key_follows (g := g) hx h
  refine ⟨x', sl, e1, e2, ?_, e5, ?_⟩
  · have hs : x'.mem.arr x.s.id = x.mem.arr x.s.id := by
      by_cases hc : x.it.d.isComplete = true
      · rw [if_pos hc] at e6
        rw [e6.1]
      · rw [if_neg hc] at e6
        exact e6.1.works.other hx.s.id hx.ne
    unfold IterMem.view IterMem.dense DenseMem.view Mem.read
    rw [e3, e4, hs]
  · by_cases hc : x.it.d.isComplete = true
    · rw [if_pos hc] at e6 ⊢
      exact e6
    · rw [if_neg hc] at e6 ⊢
      rcases e6.2.2.2 with q | q
      · exact .inl q
      · refine .inr ⟨q.1, ?_, q.2⟩
        rw [e4]
        have := hx.s.id
        omega

/-! ## Keys kept by the caller -/

/-- Bytes in front of `p` replaced: what a slice of an array then reads. -/
theorem read_kept {m m' : Mem} {K : Sl} {c : Bytes} {p : Nat} (hp : p ≤ c.length) (h : m'.arr K.id = c.take p ++ (m.arr K.id).drop p) : m'.read K = (c.take p ++ (m.read K).drop p).take K.len := by
  unfold Mem.read
  rw [h]
  by_cases hk : K.len ≤ p
  · rw [List.take_append_of_le_length (by simp; omega), List.take_append_of_le_length (by simp; omega)]
  · rw [List.take_append, List.take_append, List.length_take, Nat.min_eq_left hp, List.drop_take]
    congr 1
    rw [List.take_take, Nat.min_self]

/-- **C79, a kept key of the dense part.** After `Next`, `Prev`, `SeekToFirst` or `SeekToLast` a kept slice of the buffer reads as the first bytes of the new buffer, followed by what it had behind them; all of the new buffer is
there, unless the buffer moved to a new array. -/
theorem C79_kept {x : IterMem} (hx : x.Sep) (c : Call) (hc : c = .next ∨ c = .prev ∨ c = .first ∨ c = .last) {it : Iterator} (h : c.list bmi f x.view = some it) {K : Sl} (hK : K.id = x.s.id) :
    ∃ x' p, c.mem g bmi f x = some x' ∧ x'.view = it ∧ p ≤ it.d.keyBuf.length ∧ (x'.s.id = x.s.id → p = it.d.keyBuf.length) ∧ x'.mem.read K = (it.d.keyBuf.take p ++ (x.mem.read K).drop p).take K.len := by
  have key : ∀ {y : Option IterMem}, IterMem.Follows (Moves g) x it y →
      ∃ x' p, y = some x' ∧ x'.view = it ∧ p ≤ it.d.keyBuf.length ∧ (x'.s.id = x.s.id → p = it.d.keyBuf.length) ∧ x'.mem.read K = (it.d.keyBuf.take p ++ (x.mem.read K).drop p).take K.len := by
    rintro y ⟨x', rfl, rfl, e3, -⟩
    obtain ⟨p, h1, h2, h3⟩ := e3.base hx.s
    have hl : x'.view.d.keyBuf.length = x'.s.len := Mem.read_length (e3.works.ok hx.s)
    refine ⟨x', p, rfl, rfl, by rw [hl]; exact h1, fun q => (h2 q).trans hl.symm, read_kept (by rw [hl]; exact h1) (by rw [hK]; exact h3)⟩
  rcases hc with rfl | rfl | rfl | rfl
  · exact key (IterMem.next_follows hx.s h)
  · exact key (IterMem.prev_follows hx.s h)
  · exact key (IterMem.seekToFirst_follows hx.s h)
  · exact key (IterMem.seekToLast_follows hx.s h)

/-- **C79, a kept key of dense and sparse part.** After `Key` with the dense part not complete, a kept slice of the buffer of `Key` reads as the first bytes of the key just returned, followed by what it had behind them. -/
theorem C79_kept_key {x : IterMem} (hx : x.Sep) (hc : x.it.d.isComplete = false) {k : Bytes} (h : x.view.key = some k) {K : Sl} (hK : K.id = x.k.id) :
    ∃ x' sl p, x.key g = some (x', sl) ∧ p ≤ k.length ∧ (sl.id = x.k.id → p = k.length) ∧ x'.mem.read K = (k.take p ++ (x.mem.read K).drop p).take K.len := by
  obtain ⟨x', sl, e1, e2, e3, e4, e5, e6⟩ := IterMem.key_follows (g := g) hx h
  rw [if_neg (by rw [hc]; exact Bool.false_ne_true)] at e6
  obtain ⟨p, h1, -, -, h2, h3⟩ := e6.1.base (hx.k.cut (Nat.zero_le _))
  rw [e2] at h3
  have hl : k.length = sl.len := by
    rw [← e2]
    exact Mem.read_length e5
  exact ⟨x', sl, p, e1, by rw [hl]; exact h1, fun q => by rw [hl]; exact h2 q, read_kept (by rw [hl]; exact h1) (by rw [hK]; exact h3)⟩

/-- **C79, a key of its own.** An array that is neither of the buffers is never changed. -/
theorem C79_own : ∀ (cs : List Call) {x : IterMem} {it : Iterator}, x.Sep → calls (Call.list bmi f) cs x.view = some it → ∀ {j : Nat}, j < x.mem.length → j ≠ x.s.id → j ≠ x.k.id →
    ∃ x', calls (Call.mem g bmi f) cs x = some x' ∧ x'.mem.arr j = x.mem.arr j := by
  intro cs
  induction cs with
  | nil =>
    intro x it hx h j _ _ _
    exact ⟨x, rfl, rfl⟩
  | cons c cs ih =>
    intro x it hx h j hj h1 h2
    obtain ⟨it', h3, h4⟩ := Option.bind_eq_some_iff.mp h
    obtain ⟨x', e1, rfl, e3, e4, e5, e6, e7, -⟩ := C79_call (g := g) hx c h3
    obtain ⟨x2, a1, a2⟩ := ih e3 h4 (j := j) (by omega) (by rcases e5 with q | q <;> omega) (by rcases e6 with q | q <;> omega)
    refine ⟨x2, ?_, by rw [a2, e7 j hj h1 h2]⟩
    show (c.mem g bmi f x).bind _ = _
    rw [e1]
    exact a1

/-! ## Keys written to by the caller -/

/-- Moves keep two iterators together that differ in the bytes of the buffer only. -/
theorem C79_blind {c c' : Bytes} (hl : c.length = c'.length) : ∀ (cs : List Call), (∀ a ∈ cs, a.resets = false) → ∀ {it it' : Iterator}, NearI c c' it it' →
    Both (NearI c c') (calls (Call.list bmi f) cs it) (calls (Call.list bmi f) cs it') := by
  intro cs
  induction cs with
  | nil => exact fun _ _ _ h => .some h
  | cons a cs ih =>
    intro ha it it' h
    refine .bind ?_ fun b b' hb => ih (fun y hy => ha y (List.mem_cons_of_mem _ hy)) hb
    have := ha a List.mem_cons_self
    cases a with
    | next => exact Iterator.next_near hl h
    | prev => exact Iterator.prev_near hl h
    | key =>
      show Both _ (it.key.map _) (it'.key.map _)
      have hk := Iterator.key_near hl h
      revert hk
      generalize it.key = u
      generalize it'.key = v
      intro hk
      cases hk with
      | none => exact .none
      | some _ => exact .some h
    | first => cases this
    | last => cases this
    | seek q => cases this

/-- `Seek`, `SeekToFirst` and `SeekToLast` make them the same again. -/
theorem C79_reset {c c' : Bytes} (hl : c.length = c'.length) : ∀ (cs : List Call), (∃ a ∈ cs, a.resets = true) → ∀ {it it' : Iterator}, NearI c c' it it' → calls (Call.list bmi f) cs it' = calls (Call.list bmi f) cs it := by
  intro cs
  induction cs with
  | nil => rintro ⟨a, ha, -⟩; cases ha
  | cons a cs ih =>
    intro ha it it' h
    have hr := Iterator.reset_near h
    have same : a.resets = true → a.list bmi f it' = a.list bmi f it := by
      intro ht
      cases a with
      | next => cases ht
      | prev => cases ht
      | key => cases ht
      | first =>
        show it'.seekToFirst bmi f = it.seekToFirst bmi f
        unfold Iterator.seekToFirst
        rw [hr]
      | last =>
        show it'.seekToLast bmi f = it.seekToLast bmi f
        unfold Iterator.seekToLast
        rw [hr]
      | seek q =>
        show (it'.seek bmi f q).map _ = (it.seek bmi f q).map _
        unfold Iterator.seek
        rw [hr]
    show (a.list bmi f it').bind _ = (a.list bmi f it).bind _
    by_cases ht : a.resets = true
    · rw [same ht]
    · have hrest : ∃ y ∈ cs, y.resets = true := by
        obtain ⟨y, hy, hy2⟩ := ha
        rcases List.mem_cons.mp hy with rfl | hy
        · exact absurd hy2 ht
        · exact ⟨y, hy, hy2⟩
      have h1 := C79_blind (bmi := bmi) (f := f) hl [a] (by simpa using ht) h
      have e : ∀ z : Iterator, calls (Call.list bmi f) [a] z = a.list bmi f z := by
        intro z
        show (a.list bmi f z).bind some = _
        cases a.list bmi f z <;> rfl
      rw [e, e] at h1
      revert h1
      generalize a.list bmi f it = u
      generalize a.list bmi f it' = v
      intro h1
      cases h1 with
      | none => rfl
      | some h1 => exact ih hrest h1

/-- What the caller's writes to memory are to the iterator: other bytes in the buffer of the dense part. -/
theorem scribble_near {x : IterMem} (hx : x.Sep) {m : Mem} (hm : Scribble x.mem m) : ({ x with mem := m } : IterMem).Sep ∧ (x.mem.read x.s).length = (m.read x.s).length ∧
    NearI (x.mem.read x.s) (m.read x.s) x.view ({ x with mem := m } : IterMem).view := by
  have hsep : ({ x with mem := m } : IterMem).Sep :=
    ⟨⟨Nat.lt_of_lt_of_le hx.s.id hm.1, by show x.s.len ≤ (m.arr x.s.id).length; rw [hm.2 _ hx.s.id]; exact hx.s.len⟩,
     ⟨Nat.lt_of_lt_of_le hx.k.id hm.1, by show x.k.len ≤ (m.arr x.k.id).length; rw [hm.2 _ hx.k.id]; exact hx.k.len⟩, hx.ne⟩
  have hl : (x.mem.read x.s).length = (m.read x.s).length := by rw [Mem.read_length hx.s, Mem.read_length hsep.s]
  refine ⟨hsep, hl, ⟨⟨m.read x.s, rfl, ?_⟩, rfl⟩⟩
  exact NearB.start.resolve_right (fun h => h hl)

/-- **C79, writing to a key.** Whatever the caller writes into slices it was given, the calls of the iterator still succeed, and come to the same positions and values. The keys that follow are as they would have been, but for some
of their first bytes, which are as the caller left them in the buffer. -/
theorem C79_written {x : IterMem} (hx : x.Sep) {m : Mem} (hm : Scribble x.mem m) (cs : List Call) (hcs : ∀ a ∈ cs, a.resets = false) {it : Iterator} (h : calls (Call.list bmi f) cs x.view = some it) :
    ∃ y, calls (Call.mem g bmi f) cs { x with mem := m } = some y ∧ y.view.valid = it.valid ∧ y.view.value f = it.value f ∧
      ∀ k, it.key = some k → ∃ k' n fresh, y.view.key = some k' ∧ n ≤ x.s.len ∧ k = (x.mem.read x.s).take n ++ fresh ∧ k' = (m.read x.s).take n ++ fresh := by
  obtain ⟨hsep, hl, hn⟩ := scribble_near hx hm
  have h1 := C79_blind (bmi := bmi) (f := f) hl cs hcs hn
  rw [h] at h1
  revert h1
  generalize e : calls (Call.list bmi f) cs ({ x with mem := m } : IterMem).view = v
  intro h1
  cases h1 with
  | some h1 =>
    obtain ⟨y, e1, rfl, -⟩ := C79_same (g := g) cs hsep e
    obtain ⟨v1, v2⟩ := Iterator.value_near (f := f) h1
    refine ⟨y, e1, v1, v2, ?_⟩
    intro k hk
    have h2 := Iterator.key_near hl h1
    rw [hk] at h2
    revert h2
    generalize y.view.key = kk
    intro h2
    cases h2 with
    | some h2 =>
      obtain ⟨n, fr, a1, a2, a3⟩ := h2
      refine ⟨_, n, fr, rfl, ?_, a2, a3⟩
      rw [Mem.read_length hx.s] at a1
      exact a1

/-- **C79, and seeking again** makes good what the caller has done. -/
theorem C79_seek_again {x : IterMem} (hx : x.Sep) {m : Mem} (hm : Scribble x.mem m) (cs : List Call) (hcs : ∃ a ∈ cs, a.resets = true) {it : Iterator} (h : calls (Call.list bmi f) cs x.view = some it) :
    ∃ y, calls (Call.mem g bmi f) cs { x with mem := m } = some y ∧ y.view = it := by
  obtain ⟨hsep, hl, hn⟩ := scribble_near hx hm
  have h1 := C79_reset (bmi := bmi) (f := f) hl cs hcs hn
  rw [h] at h1
  obtain ⟨y, e1, e2, -⟩ := C79_same (g := g) cs hsep h1
  exact ⟨y, e1, e2⟩

/-- Storing through a slice is such a write. -/
theorem poke_scribble (m : Mem) {K : Sl} (hK : m.Ok K) (w : Bytes) : Scribble m (m.poke K w) := by
  unfold Mem.poke
  refine ⟨by simp, fun j hj => ?_⟩
  by_cases e : j = K.id
  · subst e
    rw [Mem.arr_set_self hK.id, store_length]
    have := hK.len
    rw [List.length_take]
    omega
  · rw [Mem.arr_set_ne e]

/-- So is appending to one. -/
theorem append_scribble (m : Mem) {K : Sl} (hK : m.Ok K) (w : Bytes) : Scribble m (m.append g K w).1 := by
  refine ⟨Mem.append_grows, fun j hj => ?_⟩
  by_cases e : j = K.id
  · subst e
    by_cases q : (m.append g K w).2.id = K.id
    · obtain ⟨h1, h2⟩ := Mem.append_same hK q
      rw [h1, store_length h2]
    · rw [Mem.append_moved hK q]
  · rw [Mem.append_other hj e]

end

/-! ## Examples -/

/-- Go's growth of small byte slices: at least 8 bytes, and at least twice the capacity. -/
def grow (cap n : Nat) : Nat := max 8 (max n (2 * cap))

/-- The loop `for it.SeekToFirst(); it.Valid(); it.Next() { ks = append(ks, it.Key()) }`: the slices, and the iterator at the end -/
def keep (f : SuRF) : Nat → IterMem → List Sl → Option (IterMem × List Sl)
  | 0, x, acc => some (x, acc)
  | n + 1, x, acc =>
    if x.view.valid then
      (x.key grow).bind fun (x, sl) => (x.next grow true f).bind fun x => keep f n x (acc ++ [sl])
    else some (x, acc)

/-- What is in the slices kept by the loop, when it is over -/
def kept (keys vals : List Bytes) (hint : Int) : Option (List Bytes) :=
  (build (fun _ => 0) true (newBuilder 1 0 0) keys vals hint).bind fun f =>
    (f.newIterMem.seekToFirst grow true f).bind fun x => (keep f 10 x []).map fun r => r.2.map r.1.mem.read

/-- **C79, the harm.** With the keys "a", "b", "c\x01", "c\x02", of which the first byte is in a dense level, the slices kept by the loop read "c", "c", "c\x02", "c\x02" when it is over. -/
theorem C79_witness : kept [[97], [98], [99, 1], [99, 2]] [[1], [2], [3], [4]] 10000 = some [[99], [99], [99, 2], [99, 2]] := by decide +kernel

/-- A filter with two dense levels and a sparse one -/
def twoDense : Option SuRF := build (fun _ => 0) true (newBuilder 1 0 0) [[97, 98], [97, 99], [98, 1], [98, 2, 1], [98, 2, 2]] [[1], [2], [3], [4], [5]] 10000

/-- The caller writes "z" into the first byte of the first key, "ab", and calls `Next` some times, then `SeekToFirst`: the keys and values -/
def afterPoke (n : Nat) (again : Bool) : Option (Option Bytes × Option Bytes) :=
  twoDense.bind fun f => (f.newIterMem.seekToFirst grow true f).bind fun x => (x.key grow).bind fun (x, sl) =>
    (calls (Call.mem grow true f) (List.replicate n .next ++ if again then [.first] else []) (x.poke sl [122])).map fun x => (x.view.key, x.view.value f)

/-- The next key reads "zc" instead of "ac", with the right value; the one after next, "b\x01", begins with another byte, and is right; so is the first key after `SeekToFirst`. -/
theorem C79_witness_poke : afterPoke 1 false = some (some [122, 99], some [2]) ∧ afterPoke 2 false = some (some [98, 1], some [3]) ∧ afterPoke 1 true = some (some [97, 98], some [1]) := by
  refine ⟨?_, ?_, ?_⟩ <;> decide +kernel

/-- An iterator of `twoDense` at the first key -/
def atFirst : Option (SuRF × IterMem) := twoDense.bind fun f => (f.newIterMem.seekToFirst grow true f).map fun x => (f, x)

/-- The hypotheses of the theorems are met: the iterator at the first key is complete in the dense part and can go on, and the caller may write to its key. -/
example : ∃ f x, atFirst = some (f, x) ∧ x.Sep ∧ x.view.key = some [97, 98] ∧ x.it.d.isComplete = true ∧ (∃ it, Call.next.list true f x.view = some it) ∧ Scribble x.mem (x.mem.poke x.s [122]) := by
  have h0 : (atFirst.map fun r => (r.2.view.key, r.2.it.d.isComplete, (Call.next.list true r.1 r.2.view).isSome, decide (r.2.s.id < r.2.mem.length ∧ r.2.s.len ≤ (r.2.mem.arr r.2.s.id).length ∧
      r.2.k.id < r.2.mem.length ∧ r.2.k.len ≤ (r.2.mem.arr r.2.k.id).length ∧ r.2.s.id ≠ r.2.k.id))) = some (some [97, 98], true, true, true) := by decide +kernel
  obtain ⟨⟨f, x⟩, h1, h2⟩ := Option.map_eq_some_iff.mp h0
  simp only [Prod.mk.injEq, decide_eq_true_eq] at h2
  obtain ⟨a1, a2, a3, b1, b2, b3, b4, b5⟩ := h2
  exact ⟨f, x, h1, ⟨⟨b1, b2⟩, ⟨b3, b4⟩, b5⟩, a1, a2, Option.isSome_iff_exists.mp a3, poke_scribble _ ⟨b1, b2⟩ _⟩

end Surf.Props
