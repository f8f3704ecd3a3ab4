import Verif.Art.Fuel

/-!
# Rely-guarantee proofs for the programs of `Verif.Art.Prog`

The state is extended by ghosts: the path `E` of every node, the nodes `live` that make up the tree, and `hist`, the maps the tree has stood
for after every step so far, each with the call that committed a change in this step.
-/

set_option linter.unusedSimpArgs false

namespace Art

open Surf Spec

/-- Shared state with ghosts. `owner a` is the call that holds the lock of `a`. -/
structure St where
  heap : Heap
  owner : Addr → Option Nat
  E : Addr → Bytes
  live : Addr → Prop
  hist : List (Option Nat × Map)

/-- The map at the end of the history. -/
def St.Now (s : St) (m : Map) : Prop := ∃ t, s.hist.getLast? = some (t, m)

/-- The call `c` has committed `n` changes. -/
def Tags (c n : Nat) (s : St) : Prop := s.hist.countP (fun e => e.1 == some c) = n

/-- What holds at every instant. -/
structure Inv (s : St) : Prop where
  tree : ∃ m, s.Now m ∧ HT s.E s.live s.heap m
  own : ∀ (a : Addr) n, s.heap[a]? = some n → (s.owner a = none ↔ locked n.version = false)
  lt : ∀ a, s.owner a ≠ none → a < s.heap.length
  held : ∀ (a : Addr) n, s.heap[a]? = some n → s.owner a ≠ none → n.version % 2 = 0
  zero : ∀ n, s.heap[0]? = some n → n.version % 2 = 0
  alive : ∀ (a : Addr) n, s.live a → s.heap[a]? = some n → n.version % 2 = 0
  dead : ∀ (a : Addr) n, s.heap[a]? = some n → a ≠ 0 → ¬ s.live a → s.owner a = none → n.version % 2 = 1
  repl : ∀ (a : Addr) c, a ≠ 0 → ¬ s.live a → s.owner a = some c → ¬ Tags c 0 s

/-- What the call `c` may rely on while others take steps. -/
structure Rely (c : Nat) (s s' : St) : Prop where
  len : s.heap.length ≤ s'.heap.length
  E : ∀ a, a < s.heap.length → s'.E a = s.E a
  node : ∀ (a : Addr) n, s.heap[a]? = some n → ∃ n', s'.heap[a]? = some n' ∧ n'.cap = n.cap ∧ n.version ≤ n'.version ∧
    (n'.version = n.version → locked n.version = false ∨ s.owner a = some c → n' = n ∧ (s'.live a ↔ s.live a)) ∧
    (s.owner a = some c → n'.version = n.version)
  owner : ∀ a, s'.owner a = some c ↔ s.owner a = some c
  hist : ∃ ext, s'.hist = s.hist ++ ext ∧ ∀ e ∈ ext, e.1 ≠ some c

theorem Rely.refl (c : Nat) (s : St) : Rely c s s := by
  refine ⟨Nat.le_refl _, fun _ _ => rfl, ?_, fun _ => Iff.rfl, [], by simp, by simp⟩
  intro a n hn
  exact ⟨n, hn, rfl, Nat.le_refl _, fun _ _ => ⟨rfl, Iff.rfl⟩, fun _ => rfl⟩

theorem Rely.trans {c : Nat} {s s' s'' : St} (h1 : Rely c s s') (h2 : Rely c s' s'') : Rely c s s'' := by
  refine ⟨Nat.le_trans h1.len h2.len, ?_, ?_, ?_, ?_⟩
  · intro a ha
    rw [h2.E a (Nat.lt_of_lt_of_le ha h1.len), h1.E a ha]
  · intro a n hn
    obtain ⟨n', g1, g2, g3, g4, g5⟩ := h1.node a n hn
    obtain ⟨n'', k1, k2, k3, k4, k5⟩ := h2.node a n' g1
    refine ⟨n'', k1, by rw [k2, g2], Nat.le_trans g3 k3, ?_, ?_⟩
    · intro hv ho
      have e1 : n'.version = n.version := by omega
      obtain ⟨e2, e3⟩ := g4 e1 ho
      subst e2
      obtain ⟨e4, e5⟩ := k4 hv (ho.imp id (fun x => (h1.owner a).mpr x))
      exact ⟨e4, e5.trans e3⟩
    · intro ho
      rw [k5 ((h1.owner a).mpr ho), g5 ho]
  · intro a
    rw [h2.owner, h1.owner]
  · obtain ⟨x, e1, e2⟩ := h1.hist
    obtain ⟨y, e3, e4⟩ := h2.hist
    refine ⟨x ++ y, by rw [e3, e1, List.append_assoc], ?_⟩
    intro e he
    rcases List.mem_append.mp he with he | he
    · exact e2 e he
    · exact e4 e he

/-- The call holds no lock. -/
def Free (c : Nat) (s : St) : Prop := ∀ a, s.owner a ≠ some c

theorem Free.mono {c : Nat} {s s' : St} (h : Free c s) (hR : Rely c s s') : Free c s' := fun a ha => h a ((hR.owner a).mp ha)

/-- Locks are ordered along the tree. -/
def St.rank (s : St) (a : Addr) : Nat := if a = 0 then 0 else (s.E a).length + 1

/-- The state after taking the lock of `a`. -/
def St.acquire (s : St) (c : Nat) (a : Addr) (v : Nat) : St :=
  { s with heap := setVer s.heap a (v + 2), owner := upd s.owner a (some c) }

/-- The state after a release that adds `d` to the version. -/
def St.release (s : St) (a : Addr) (v d : Nat) : St :=
  { s with heap := setVer s.heap a (v + d), owner := upd s.owner a none }

/-- The changes of a critical section of the call `c`, which turn the heap into `h'` and the map into `m'`. -/
structure Commit (c : Nat) (s : St) (h' : Heap) (m' : Map) (s' : St) : Prop where
  heap : s'.heap = h'
  owner : s'.owner = s.owner
  hist : s'.hist = s.hist ++ [(some c, m')]
  len : s.heap.length ≤ h'.length
  E : ∀ a, a < s.heap.length → s'.E a = s.E a
  node : ∀ (a : Addr) n, s.heap[a]? = some n → ∃ n', h'[a]? = some n' ∧ n'.cap = n.cap ∧ n'.version = n.version
  keep : ∀ a, a < s.heap.length → s.owner a ≠ some c → h'[a]? = s.heap[a]? ∧ (s'.live a ↔ s.live a)
  mono : ∀ a, a < s.heap.length → s'.live a → s.live a

/-- The call `c` is safe to run the program `p` from `s` on: it keeps the invariant, changes the map only by `eff`, panics only if `pk`, and
when it returns `Q` holds. -/
def wp (c : Nat) (eff : Map → Map → Prop) (pk : Prop) {α : Type} (Q : α → St → Prop) : Prog α → St → Prop
  | .ret a, s => ∀ s', Rely c s s' → Inv s' → Q a s'
  | .panic, s => ∀ s', Rely c s s' → Inv s' → Free c s' ∧ pk
  | .diverge, s => ∀ s', Rely c s s' → Inv s' → Free c s'
  | .wait a k, s => ∀ s', Rely c s s' → Inv s' → Free c s' ∧ ∃ n, s'.heap[a]? = some n ∧
      (locked n.version = false → wp c eff pk Q (k n.version) s')
  | .load a k, s => ∀ s', Rely c s s' → Inv s' → ∃ n, s'.heap[a]? = some n ∧ wp c eff pk Q (k n.version) s'
  | .cas a v k, s => ∀ s', Rely c s s' → Inv s' → v % 4 = 0 ∧ ∃ n, s'.heap[a]? = some n ∧
      (n.version = v → wp c eff pk Q (k true) (s'.acquire c a v)) ∧ (n.version ≠ v → wp c eff pk Q (k false) s')
  | .lock a k, s => ∀ s', Rely c s s' → Inv s' → (∀ b, s'.owner b = some c → s'.rank b < s'.rank a) ∧ ∃ n, s'.heap[a]? = some n ∧
      (locked n.version = false → obsolete n.version = true → wp c eff pk Q (k false) s') ∧
      (locked n.version = false → obsolete n.version = false → wp c eff pk Q (k true) (s'.acquire c a n.version))
  | .unlock a k, s => ∀ s', Rely c s s' → Inv s' → s'.owner a = some c ∧ (a = 0 ∨ s'.live a) ∧ ∃ n, s'.heap[a]? = some n ∧
      wp c eff pk Q k (s'.release a n.version 2)
  | .unlockObsolete a k, s => ∀ s', Rely c s s' → Inv s' → s'.owner a = some c ∧ a ≠ 0 ∧ ¬ s'.live a ∧ ∃ n, s'.heap[a]? = some n ∧
      wp c eff pk Q k (s'.release a n.version 3)
  | .read a v k, s => ∀ s', Rely c s s' → Inv s' → ∃ n, s'.heap[a]? = some n ∧
      ∀ r : Node, r.cap = n.cap → (n.version = v → r = n) → wp c eff pk Q (k r) s'
  | .readRoot k, s => ∀ s', Rely c s s' → Inv s' → ∃ n, s'.heap[0]? = some n ∧ wp c eff pk Q (k n.root) s'
  | .choose k, s => ∀ s', Rely c s s' → Inv s' → ∀ b, wp c eff pk Q (k b) s'
  | .write f k, s => ∀ s', Rely c s s' → Inv s' → Tags c 0 s' ∧ ∃ h' m m' s2, f s'.heap = some h' ∧ s'.Now m ∧ eff m m' ∧ Commit c s' h' m' s2 ∧ Inv s2 ∧
      wp c eff pk Q k s2

section
variable {c : Nat} {eff : Map → Map → Prop} {pk : Prop} {α β : Type} {Q : α → St → Prop}

theorem wp.rely {p : Prog α} {s s1 : St} (h : wp c eff pk Q p s) (hR : Rely c s s1) : wp c eff pk Q p s1 := by
  cases p <;> exact fun s' hR' hI' => h s' (hR.trans hR') hI'

theorem wp.stable {p : Prog α} {s : St} (h : ∀ s', Rely c s s' → Inv s' → wp c eff pk Q p s') : wp c eff pk Q p s := by
  cases p <;> exact fun s' hR' hI' => h s' hR' hI' s' (Rely.refl c s') hI'

theorem wp.bind {f : α → Prog β} {R : β → St → Prop} {p : Prog α} : ∀ {s : St}, wp c eff pk (fun a s => wp c eff pk R (f a) s) p s →
    wp c eff pk R (p.bind f) s := by
  induction p with
  | ret a => intro s h; exact wp.stable h
  | panic => intro s h; exact h
  | diverge => intro s h; exact h
  | wait a k ih =>
    intro s h s' hR hI
    obtain ⟨h1, n, h2, h3⟩ := h s' hR hI
    exact ⟨h1, n, h2, fun hl => ih _ (h3 hl)⟩
  | load a k ih =>
    intro s h s' hR hI
    obtain ⟨n, h1, h2⟩ := h s' hR hI
    exact ⟨n, h1, ih _ h2⟩
  | cas a v k ih =>
    intro s h s' hR hI
    obtain ⟨h0, n, h1, h2, h3⟩ := h s' hR hI
    exact ⟨h0, n, h1, fun e => ih _ (h2 e), fun e => ih _ (h3 e)⟩
  | lock a k ih =>
    intro s h s' hR hI
    obtain ⟨h0, n, h1, h2, h3⟩ := h s' hR hI
    exact ⟨h0, n, h1, fun e e' => ih _ (h2 e e'), fun e e' => ih _ (h3 e e')⟩
  | unlock a k ih =>
    intro s h s' hR hI
    obtain ⟨h0, h1, n, h2, h3⟩ := h s' hR hI
    exact ⟨h0, h1, n, h2, ih h3⟩
  | unlockObsolete a k ih =>
    intro s h s' hR hI
    obtain ⟨h0, h1, h2, n, h3, h4⟩ := h s' hR hI
    exact ⟨h0, h1, h2, n, h3, ih h4⟩
  | read a v k ih =>
    intro s h s' hR hI
    obtain ⟨n, h1, h2⟩ := h s' hR hI
    exact ⟨n, h1, fun r e1 e2 => ih _ (h2 r e1 e2)⟩
  | readRoot k ih =>
    intro s h s' hR hI
    obtain ⟨n, h1, h2⟩ := h s' hR hI
    exact ⟨n, h1, ih _ h2⟩
  | choose k ih =>
    intro s h s' hR hI b
    exact ih _ (h s' hR hI b)
  | write f k ih =>
    intro s h s' hR hI
    obtain ⟨g0, h', m, m', s2, g1, g2, g3, g4, g5, g6⟩ := h s' hR hI
    exact ⟨g0, h', m, m', s2, g1, g2, g3, g4, g5, ih g6⟩

theorem wp.mono {R : α → St → Prop} (hQ : ∀ a s, Inv s → Q a s → R a s) {p : Prog α} : ∀ {s : St}, wp c eff pk Q p s → wp c eff pk R p s := by
  induction p with
  | ret a => intro s h s' hR hI; exact hQ _ _ hI (h s' hR hI)
  | panic => intro s h; exact h
  | diverge => intro s h; exact h
  | wait a k ih =>
    intro s h s' hR hI
    obtain ⟨h1, n, h2, h3⟩ := h s' hR hI
    exact ⟨h1, n, h2, fun hl => ih _ (h3 hl)⟩
  | load a k ih =>
    intro s h s' hR hI
    obtain ⟨n, h1, h2⟩ := h s' hR hI
    exact ⟨n, h1, ih _ h2⟩
  | cas a v k ih =>
    intro s h s' hR hI
    obtain ⟨h0, n, h1, h2, h3⟩ := h s' hR hI
    exact ⟨h0, n, h1, fun e => ih _ (h2 e), fun e => ih _ (h3 e)⟩
  | lock a k ih =>
    intro s h s' hR hI
    obtain ⟨h0, n, h1, h2, h3⟩ := h s' hR hI
    exact ⟨h0, n, h1, fun e e' => ih _ (h2 e e'), fun e e' => ih _ (h3 e e')⟩
  | unlock a k ih =>
    intro s h s' hR hI
    obtain ⟨h0, h1, n, h2, h3⟩ := h s' hR hI
    exact ⟨h0, h1, n, h2, ih h3⟩
  | unlockObsolete a k ih =>
    intro s h s' hR hI
    obtain ⟨h0, h1, h2, n, h3, h4⟩ := h s' hR hI
    exact ⟨h0, h1, h2, n, h3, ih h4⟩
  | read a v k ih =>
    intro s h s' hR hI
    obtain ⟨n, h1, h2⟩ := h s' hR hI
    exact ⟨n, h1, fun r e1 e2 => ih _ (h2 r e1 e2)⟩
  | readRoot k ih =>
    intro s h s' hR hI
    obtain ⟨n, h1, h2⟩ := h s' hR hI
    exact ⟨n, h1, ih _ h2⟩
  | choose k ih =>
    intro s h s' hR hI b
    exact ih _ (h s' hR hI b)
  | write f k ih =>
    intro s h s' hR hI
    obtain ⟨g0, h', m, m', s2, g1, g2, g3, g4, g5, g6⟩ := h s' hR hI
    exact ⟨g0, h', m, m', s2, g1, g2, g3, g4, g5, ih g6⟩

end

/-! ## Stable facts -/

/-- The node `a` has the path `P`. -/
def IsE (a : Addr) (P : Bytes) (s : St) : Prop := a < s.heap.length ∧ s.E a = P

theorem IsE.mono {c a P} {s s' : St} (h : IsE a P s) (hR : Rely c s s') : IsE a P s' :=
  ⟨Nat.lt_of_lt_of_le h.1 hR.len, by rw [hR.E a h.1, h.2]⟩

/-- The node `a` has a higher version than `v`. -/
def Stale (a : Addr) (v : Nat) (s : St) : Prop := ∃ n, s.heap[a]? = some n ∧ v < n.version

theorem Stale.mono {c a v} {s s' : St} (h : Stale a v s) (hR : Rely c s s') : Stale a v s' := by
  obtain ⟨n, h1, h2⟩ := h
  obtain ⟨n', g1, -, g2, -⟩ := hR.node a n h1
  exact ⟨n', g1, by omega⟩

/-- As long as the node `a` has the version `v`, it has the contents `N` and is part of the tree. -/
def Snap (a : Addr) (v : Nat) (N : Node) (s : St) : Prop :=
  ∃ n, s.heap[a]? = some n ∧ n.cap = N.cap ∧ v ≤ n.version ∧ (n.version = v → n = N ∧ (a ≠ 0 → s.live a))

theorem Snap.mono {c a v N} {s s' : St} (h : Snap a v N s) (h4 : v % 4 = 0) (hR : Rely c s s') : Snap a v N s' := by
  obtain ⟨n, h1, h2, h3, h5⟩ := h
  obtain ⟨n', g1, g2, g3, g4, -⟩ := hR.node a n h1
  refine ⟨n', g1, by rw [g2, h2], by omega, ?_⟩
  intro e
  have e1 : n.version = v := by omega
  obtain ⟨e2, e3⟩ := h5 e1
  obtain ⟨e4, e5⟩ := g4 (by omega) (Or.inl (by simp [locked]; omega))
  exact ⟨by rw [e4, e2], fun h0 => e5.mpr (e3 h0)⟩

theorem Snap.stale_or {a v N} {s : St} (h : Snap a v N s) : Stale a v s ∨ (s.heap[a]? = some N ∧ N.version = v ∧ (a ≠ 0 → s.live a)) := by
  obtain ⟨n, h1, h2, h3, h5⟩ := h
  by_cases e : n.version = v
  · obtain ⟨e1, e2⟩ := h5 e
    subst e1
    exact Or.inr ⟨h1, e, e2⟩
  · exact Or.inl ⟨n, h1, by omega⟩

theorem Stale.ne {a v} {s : St} (h : Stale a v s) {n : Node} (hn : s.heap[a]? = some n) : n.version ≠ v := by
  obtain ⟨n', h1, h2⟩ := h
  rw [hn] at h1
  cases h1
  omega

theorem Snap.fresh {a v N} {s : St} (h : Snap a v N s) {n : Node} (hn : s.heap[a]? = some n) (e : n.version = v) :
    n = N ∧ (a ≠ 0 → s.live a) := by
  obtain ⟨n', h1, h2, h3, h5⟩ := h
  rw [hn] at h1
  cases h1
  exact h5 e

/-- The call `c` holds the lock of `a`, which has the contents `N`. -/
def Own (c : Nat) (a : Addr) (N : Node) (s : St) : Prop := s.owner a = some c ∧ s.heap[a]? = some N ∧ (a ≠ 0 → s.live a)

theorem Own.mono {c a N} {s s' : St} (h : Own c a N s) (hR : Rely c s s') : Own c a N s' := by
  obtain ⟨h1, h2, h3⟩ := h
  obtain ⟨n', g1, g2, g3, g4, g5⟩ := hR.node a N h2
  obtain ⟨e1, e2⟩ := g4 (g5 h1) (Or.inr h1)
  subst e1
  exact ⟨(hR.owner a).mpr h1, g1, fun h0 => e2.mpr (h3 h0)⟩

/-- At some instant from `j` on the key had the value `o`. -/
def Was (j : Nat) (K : Bytes) (o : Option Bytes) (s : St) : Prop := ∃ (i : Nat) (t : Option Nat) (m : Map), j ≤ i ∧ s.hist[i]? = some (t, m) ∧ m K = o

theorem Was.mono {c j K o} {s s' : St} (h : Was j K o s) (hR : Rely c s s') : Was j K o s' := by
  obtain ⟨i, t, m, h1, h2, h3⟩ := h
  obtain ⟨ext, e, -⟩ := hR.hist
  refine ⟨i, t, m, h1, ?_, h3⟩
  rw [e, List.getElem?_append_left (List.getElem?_eq_some_iff.mp h2).1]
  exact h2

/-- The history has gone on after `j`. -/
def Since (j : Nat) (s : St) : Prop := j < s.hist.length

theorem Since.mono {c j} {s s' : St} (h : Since j s) (hR : Rely c s s') : Since j s' := by
  obtain ⟨ext, e, -⟩ := hR.hist
  unfold Since at *
  rw [e, List.length_append]
  omega

theorem Since.was {j} {s : St} (h : Since j s) {m : Map} (hm : s.Now m) (K : Bytes) : Was j K (m K) s := by
  obtain ⟨t, e⟩ := hm
  rw [List.getLast?_eq_getElem?] at e
  exact ⟨s.hist.length - 1, t, m, by unfold Since at h; omega, e, rfl⟩

theorem Tags.mono {c n} {s s' : St} (h : Tags c n s) (hR : Rely c s s') : Tags c n s' := by
  obtain ⟨ext, e, he⟩ := hR.hist
  unfold Tags at *
  rw [e, List.countP_append, h]
  have : ext.countP (fun e => e.1 == some c) = 0 := by
    rw [List.countP_eq_zero]
    intro x hx
    simpa using he x hx
  omega

theorem Tags.commit {c n} {s s' : St} {h' : Heap} {m' : Map} (h : Tags c n s) (hC : Commit c s h' m' s') : Tags c (n + 1) s' := by
  unfold Tags at *
  rw [hC.hist, List.countP_append, h]
  simp

theorem Commit.since {c j} {s s' : St} {h' : Heap} {m' : Map} (h : Since j s) (hC : Commit c s h' m' s') : Since j s' := by
  unfold Since at *
  rw [hC.hist, List.length_append]
  omega

/-- A node that is not locked and not obsolete belongs to the tree. -/
theorem Inv.live_of {s : St} (hI : Inv s) {a : Addr} {n : Node} (hn : s.heap[a]? = some n) (h0 : a ≠ 0) (h4 : n.version % 4 = 0) : s.live a := by
  by_contra hl
  have ho := (hI.own a n hn).mpr (by simp [locked]; omega)
  have := hI.dead a n hn h0 hl ho
  omega

end Art
