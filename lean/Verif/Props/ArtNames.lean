import Verif.Art.NamesProg
import Verif.Props.ArtLin

/-!
# C81: the slices `Get` returns are memory of the tree

node.go:150-191: `newLeaf` copies key and value into a block of memory, and `value` returns a slice of this block. Leaves are pointers: whoever writes into the slice writes into the block, whatever node points to it.

The pointers are modelled by *names*: in the run `σ` the value of a leaf is the name of its block (any byte string; different `Put`s use different ones, `Fresh`), and `mem t` says what the blocks contain at the
instant `t`: to begin with what `Put` was given, then what callers have written through the slices `Get` gave them (`Written`). `seen` is the memory as it is: every leaf with the contents of its block. `C81_steps` is the reason why this is a model of pointers:
the steps with names are the steps of the tree on the memory as it is.
-/

set_option linter.unusedSimpArgs false

namespace Art.Props

open Surf Spec

/-! ## Specification -/

/-- The bytes `v` after `xs` has been stored at `i` -/
def patch (v : Bytes) (i : Nat) (xs : Bytes) : Bytes := v.take i ++ xs ++ v.drop (i + xs.length)

/-- No two `Put`s use the same block. -/
def Fresh (σ : Conf) : Prop := ∀ i j k k' n, (σ.procs i).call = some (.put k n) → (σ.procs j).call = some (.put k' n) → i = j

/-- What callers can do to the blocks in the state `σ`: store bytes within a slice that a `Get` has returned, any number of times. -/
inductive Written (σ : Conf) (mem : Bytes → Bytes) : (Bytes → Bytes) → Prop
  | same : Written σ mem mem
  | store {mem' : Bytes → Bytes} {j i : Nat} {k n xs : Bytes} : Written σ mem mem' → σ.procs j = .done (.get k) (some n) → i + xs.length ≤ (mem' n).length →
      Written σ mem (fun x => if x = n then patch (mem' n) i xs else mem' x)

/-- A run with names, and what the blocks contain: callers may store bytes at all instants. -/
structure Shares (T : Nat) (σ : Nat → Conf) (who : Nat → Nat) (mem : Nat → Bytes → Bytes) : Prop where
  run : Run T σ who
  fresh : Fresh (σ T)
  fits : ∀ x, (mem 0 x).length < 2 ^ 32
  store : ∀ t, t < T → Written (σ t) (mem t) (mem (t + 1))

/-- The memory as it is. -/
def seen (h : Heap) (mem : Bytes → Bytes) : Heap := Heap.leaves (named mem) h

/-! ## Lemmas -/

theorem patch_length {v xs : Bytes} {i : Nat} (h : i + xs.length ≤ v.length) : (patch v i xs).length = v.length := by
  unfold patch
  rw [List.length_append, List.length_append, List.length_take, List.length_drop]
  omega

theorem written_length {σ : Conf} {mem mem' : Bytes → Bytes} (h : Written σ mem mem') (x : Bytes) : (mem' x).length = (mem x).length := by
  induction h with
  | same => rfl
  | store _ _ hl ih =>
    rename_i n _ _ _
    dsimp only
    split
    · next e => subst e; rw [patch_length hl, ih]
    · exact ih

theorem leaves_child (f : Leaf → Leaf) (n : Node) (b : UInt8) : (n.leaves f).child b = (n.child b).map (Ref.leaves f) := by
  unfold Node.child
  rw [Node.leaves_findChild]
  cases n.findChild b <;> rfl

theorem leaves_inTree {f : Leaf → Leaf} {h : Heap} {a : Addr} (ha : InTree h a) : InTree (Heap.leaves f h) a := by
  induction ha with
  | root h1 h2 =>
    refine .root (d := Node.leaves f _) (by rw [heap_get, h1]; rfl) ?_
    show Kids.leaves f _ = _
    rw [h2]
    rfl
  | child _ h1 h2 ih => exact .child ih (n := Node.leaves f _) (by rw [heap_get, h1]; rfl) (by rw [leaves_child, h2]; rfl)

theorem leaves_inTree_iff {f : Leaf → Leaf} {h : Heap} {a : Addr} : InTree (Heap.leaves f h) a ↔ InTree h a := by
  constructor
  · intro ha
    induction ha with
    | root h1 h2 =>
      rw [heap_get, Option.map_eq_some_iff] at h1
      obtain ⟨d, h1, rfl⟩ := h1
      have h2 : d.kids.leaves f = _ := h2
      cases hk : d.kids <;> rw [hk] at h2 <;> simp only [Kids.leaves, reduceCtorEq, Kids.dummy.injEq] at h2
      rename_i r
      rcases r with _ | (_ | a) <;> simp only [Option.map_some, Option.map_none, Ref.leaves, Option.some.injEq, Ref.node.injEq, reduceCtorEq] at h2
      subst h2
      exact .root h1 hk
    | child _ h1 h2 ih =>
      rw [heap_get, Option.map_eq_some_iff] at h1
      obtain ⟨n, h1, rfl⟩ := h1
      rw [leaves_child, Option.map_eq_some_iff] at h2
      obtain ⟨r, h2, e⟩ := h2
      cases r <;> simp only [Ref.leaves, reduceCtorEq, Ref.node.injEq] at e
      subst e
      exact .child ih h1 h2
  · exact leaves_inTree

theorem leaves_holds {g : Bytes → Bytes} (hg : ∀ x, (g x).length < 2 ^ 32) {h : Heap} {K v : Bytes} : Holds (Heap.leaves (named g) h) K v ↔ ∃ n, Holds h K n ∧ g n = v := by
  constructor
  · rintro ⟨a, n, l, h1, h2, h3, h4, h5⟩
    rw [heap_get, Option.map_eq_some_iff] at h2
    obtain ⟨n, h2, rfl⟩ := h2
    have key : ∃ l', (n.prefixLeaf = some l' ∨ ∃ b, n.child b = some (.leaf l')) ∧ named g l' = l := by
      rcases h3 with h3 | ⟨b, h3⟩
      · have h3 : n.prefixLeaf.map (named g) = some l := h3
        rw [Option.map_eq_some_iff] at h3
        obtain ⟨l', h3, e⟩ := h3
        exact ⟨l', Or.inl h3, e⟩
      · rw [leaves_child, Option.map_eq_some_iff] at h3
        obtain ⟨r, h3, e⟩ := h3
        cases r <;> simp only [Ref.leaves, reduceCtorEq, Ref.leaf.injEq] at e
        exact ⟨_, Or.inr ⟨b, h3⟩, e⟩
    obtain ⟨l', h6, rfl⟩ := key
    rw [named_key] at h4
    rw [named_value hg] at h5
    exact ⟨_, ⟨a, n, l', leaves_inTree_iff.mp h1, h2, h6, h4, rfl⟩, h5⟩
  · rintro ⟨m, ⟨a, n, l, h1, h2, h3, h4, rfl⟩, h5⟩
    refine ⟨a, n.leaves (named g), named g l, leaves_inTree h1, by rw [heap_get, h2]; rfl, ?_, by rw [named_key, h4], by rw [named_value hg, h5]⟩
    rcases h3 with h3 | ⟨b, h3⟩
    · left
      show n.prefixLeaf.map (named g) = _
      rw [h3]
      rfl
    · exact Or.inr ⟨b, by rw [leaves_child, h3]; rfl⟩

/-! ## Theorems -/

/-- **C81, the block.** The slice `Get` returns lies in the block behind the key and reaches to the end of the block, so that `append` never writes into the block. Storing `xs` at `i` within it gives the block of the same key and the patched value. -/
theorem C81_block {k v xs : Bytes} {i : Nat} (hk : k.length < 2 ^ 32) (hv : v.length < 2 ^ 32) (h : i + xs.length ≤ v.length) :
    (newLeaf k v).mem.drop (k.length + 9) = v ∧ k.length + 9 + (newLeaf k v).valueLen = (newLeaf k v).mem.length ∧
      Leaf.mk (patch (newLeaf k v).mem (k.length + 9 + i) xs) = newLeaf k (patch v i xs) := by
  have hm : (newLeaf k v).mem = ([typeLeaf] ++ putUint32 k.length ++ k ++ putUint32 v.length) ++ v := by simp [newLeaf]
  have hl : ([typeLeaf] ++ putUint32 k.length ++ k ++ putUint32 v.length).length = k.length + 9 := by simp; omega
  refine ⟨?_, ?_, ?_⟩
  · rw [hm, ← hl, List.drop_left']
    rfl
  · rw [newLeaf_valueLen hk hv, hm, List.length_append, hl]
  · have : (newLeaf k (patch v i xs)).mem = ([typeLeaf] ++ putUint32 k.length ++ k ++ putUint32 v.length) ++ patch v i xs := by
      simp [newLeaf, patch_length h]
    have e : patch (newLeaf k v).mem (k.length + 9 + i) xs = (newLeaf k (patch v i xs)).mem := by
      rw [this, hm]
      unfold patch
      rw [← hl, List.take_append, List.take_of_length_le (by omega), show ∀ a b : Nat, a + b - a = b from fun a b => by omega, Nat.add_assoc, List.drop_append,
        List.drop_of_length_le (by omega), List.nil_append, show ∀ a b : Nat, a + b - a = b from fun a b => by omega]
      simp only [List.append_assoc]
    rw [e]

section
variable {T : Nat} {σ : Nat → Conf} {who : Nat → Nat} {mem : Nat → Bytes → Bytes}

theorem Shares.size (h : Shares T σ who mem) (x : Bytes) : ∀ t, t ≤ T → (mem t x).length = (mem 0 x).length := by
  intro t
  induction t with
  | zero => intro _; rfl
  | succ t ih => intro ht; rw [written_length (h.store t (by omega)), ih (by omega)]

theorem Shares.short (h : Shares T σ who mem) {t : Nat} (ht : t ≤ T) (x : Bytes) : (mem t x).length < 2 ^ 32 := by
  rw [h.size x t ht]
  exact h.fits x

/-- **C81, values are never looked at.** Whatever the blocks contain, every step with names is a step of the tree on the memory as it is: with the same accesses, on the leaves with the contents of their blocks. The tree never writes into a block. -/
theorem C81_steps (h : Shares T σ who mem) {t : Nat} (ht : t < T) : (∃ τ, Conf.Sim (mem t) (σ t) τ) ∧
    ∀ τ, Conf.Sim (mem t) (σ t) τ → τ.heap = seen (σ t).heap (mem t) ∧ ∃ τ', Step (who t) τ τ' ∧ τ'.heap = seen (σ (t + 1)).heap (mem t) ∧ Conf.Sim (mem t) (σ (t + 1)) τ' := by
  constructor
  · obtain ⟨τ, -, h1⟩ := run_sim (h.short (t := t) (by omega)) h.run
    exact ⟨_, h1 t (by omega)⟩
  · intro τ hτ
    obtain ⟨τ', h1, h2⟩ := step_sim (h.short (by omega)) (h.run.step t ht) hτ
    exact ⟨hτ.heap, τ', h1, h2.heap, h2⟩

/-- **C81, a whole run.** If no caller writes into what it got, the run with names is a run of the tree: all states are the same but for the names, and every `Get` returns the contents of the block it returned the name of. -/
theorem C81_run (h : Run T σ who) {g : Bytes → Bytes} (hg : ∀ x, (g x).length < 2 ^ 32) :
    ∃ τ, Run T τ who ∧ ∀ t, t ≤ T → (τ t).heap = seen (σ t).heap g ∧
      ∀ j c o, (σ t).procs j = .done c o → (τ t).procs j = .done (c.named g) (o.map g) := by
  obtain ⟨τ, h1, h2⟩ := run_sim hg h
  refine ⟨τ, h1, fun t ht => ⟨(h2 t ht).heap, fun j c o e => ?_⟩⟩
  have := (h2 t ht).procs j
  rw [e] at this
  generalize (τ t).procs j = q at this ⊢
  cases this
  rfl

/-- **C81, what the tree holds.** Under every key the tree holds what the block of its leaf contains now. -/
theorem C81_tree (h : Shares T σ who mem) {t : Nat} (ht : t ≤ T) {m : Map} (hm : Stands (σ t).heap m) : Stands (seen (σ t).heap (mem t)) (fun K => (m K).map (mem t)) := by
  intro K v
  unfold seen
  rw [leaves_holds (h.short ht)]
  show Option.map (mem t) (m K) = some v ↔ _
  rw [Option.map_eq_some_iff]
  exact exists_congr fun n => and_congr_left fun _ => hm K n

theorem run_cut (h : Run T σ who) {t : Nat} (ht : t ≤ T) : Run t σ who := ⟨h.init, fun s hs => h.step s (by omega)⟩

theorem call_stays (h : Run T σ who) {t : Nat} (ht : t ≤ T) {i : Nat} {c : Call} (hc : ((σ t).procs i).call = some c) : ((σ T).procs i).call = some c := by
  have := (h.phase i (t := t) (T - t) (by omega)).2 c hc
  rwa [show t + (T - t) = T by omega] at this

/-- If the key is bound to the name at an instant, and was not before, a `Put` of both has had its effect in between. -/
theorem bound_between (h : Run T σ who) {k n : Bytes} {t0 t1 : Nat} (h01 : t0 ≤ t1) (ht : t1 ≤ T) {m0 m1 : Map} (hm0 : Stands (σ t0).heap m0) (hm1 : Stands (σ t1).heap m1) (e0 : m0 k ≠ some n)
    (e1 : m1 k = some n) : ∃ t m m', t0 ≤ t ∧ t < t1 ∧ Stands (σ t).heap m ∧ Stands (σ (t + 1)).heap m' ∧ m' ≠ m ∧ ((σ t).procs (who t)).call = some (.put k n) := by
  induction t1, h01 using Nat.le_induction generalizing m1 with
  | base => exact absurd (by rw [hm0.unique hm1, e1]) e0
  | succ t h0 ih =>
    obtain ⟨m, hm⟩ := (C14_map h).2 t (by omega)
    by_cases e : m k = some n
    · obtain ⟨t', a, b, g1, g2, g3⟩ := ih (by omega) hm e
      exact ⟨t', a, b, g1, by omega, g3⟩
    · refine ⟨t, m, m1, h0, by omega, hm, hm1, ?_, ?_⟩
      · rintro rfl
        exact e e1
      · rcases C15_only_effects h (by omega) hm hm1 with rfl | ⟨k', v, p, g1, rfl⟩ | ⟨k', p, g1, rfl⟩
        · exact absurd e1 e
        · rw [g1]
          unfold Map.put at e1
          split at e1
          · next e2 =>
            cases e1
            rw [e2]
            rfl
          · exact absurd e1 e
        · unfold Map.delete at e1
          split at e1
          · cases e1
          · exact absurd e1 e

/-- Every name under a key is the one of a `Put` of this key. -/
theorem bound_put (h : Run T σ who) {k n : Bytes} {t : Nat} (ht : t ≤ T) {m : Map} (hm : Stands (σ t).heap m) (e : m k = some n) : ∃ i, ((σ T).procs i).call = some (.put k n) := by
  obtain ⟨t', a, b, -, g1, -, -, -, g2⟩ := bound_between h (Nat.zero_le t) ht (C14_map h).1 hm (by simp [Map.empty]) e
  exact ⟨_, call_stays h (by omega) g2⟩

/-- **C81, whom a write reaches.** A caller that stores `xs` at `i` in the slice that a `Get` of `k` has returned changes the value under `k` if the tree still holds the leaf that this `Get` found, and nothing otherwise. The values under all other
keys stay. -/
theorem C81_write (h : Shares T σ who mem) {t : Nat} (ht : t ≤ T) {j i : Nat} {k n xs : Bytes} (hj : (σ t).procs j = .done (.get k) (some n)) (hi : i + xs.length ≤ (mem t n).length) {m : Map}
    (hm : Stands (σ t).heap m) : Stands (seen (σ t).heap (fun x => if x = n then patch (mem t n) i xs else mem t x))
      (fun K => if K = k ∧ m k = some n then some (patch (mem t n) i xs) else (m K).map (mem t)) := by
  have hs : ∀ x, ((fun x => if x = n then patch (mem t n) i xs else mem t x) x).length < 2 ^ 32 := by
    intro x
    dsimp only
    split
    · rw [patch_length hi]; exact h.short ht n
    · exact h.short ht x
  have hg : ∃ a, ((σ T).procs a).call = some (.put k n) := by
    obtain ⟨t', m', p, g1, -, g2, g3⟩ := C14_get (run_cut h.run ht) hj
    exact bound_put h.run (by omega) g2 g3
  intro K v
  unfold seen
  rw [leaves_holds hs]
  have hK : ∀ K x, m K = some x → x = n → K = k := by
    rintro K x e rfl
    obtain ⟨a, ha⟩ := hg
    obtain ⟨b, hb⟩ := bound_put h.run ht hm e
    have := h.fresh _ _ _ _ _ ha hb
    subst this
    rw [ha] at hb
    cases hb
    rfl
  dsimp only
  split
  · next e =>
    obtain ⟨rfl, e⟩ := e
    constructor
    · intro hv
      cases hv
      exact ⟨n, (hm _ _).mp e, if_pos rfl⟩
    · rintro ⟨x, h1, h2⟩
      rw [← hm, e] at h1
      cases h1
      rw [if_pos rfl] at h2
      rw [h2]
  · next e =>
    rw [Option.map_eq_some_iff]
    refine exists_congr fun x => ?_
    rw [← hm]
    constructor
    · rintro ⟨h1, h2⟩
      refine ⟨h1, ?_⟩
      rw [if_neg]
      · exact h2
      · rintro rfl
        have := hK K _ h1 rfl
        subst this
        exact e ⟨rfl, h1⟩
    · rintro ⟨h1, h2⟩
      refine ⟨h1, ?_⟩
      rw [if_neg] at h2
      · exact h2
      · rintro rfl
        have := hK K _ h1 rfl
        subst this
        exact e ⟨rfl, h1⟩

/-- **C81, old slices.** Once the tree holds another leaf under the key than the one that a `Get` has found, or none, it never holds that leaf again: what is stored through this slice from then on changes nothing in the tree. -/
theorem C81_stale (h : Shares T σ who mem) {t : Nat} {j : Nat} {k n : Bytes} (hj : (σ t).procs j = .done (.get k) (some n)) {m : Map} (hm : Stands (σ t).heap m) (e : m k ≠ some n) {t' : Nat} (htt : t ≤ t')
    (ht' : t' ≤ T) {m' : Map} (hm' : Stands (σ t').heap m') : m' k ≠ some n := by
  intro e'
  obtain ⟨t0, m0, p, g1, g0, g2, g3⟩ := C14_get (run_cut h.run (show t ≤ T by omega)) hj
  obtain ⟨a, ma, ma', -, a2, a3, a4, a5, a6⟩ := bound_between h.run (Nat.zero_le t0) (by omega) (C14_map h.run).1 g2 (by simp [Map.empty]) g3
  obtain ⟨b, mb, mb', b1, b2, b3, b4, b5, b6⟩ := bound_between h.run htt ht' hm hm' e e'
  have hw : who a = who b := h.fresh _ _ _ _ _ (call_stays h.run (by omega) a6) (call_stays h.run (by omega) b6)
  have := C15_at_most_once h.run (by omega) (by omega) hw a3 a4 b3 b4 a5 b5
  omega

/-- The name under a key that a sequence of calls begins with, or the last one to be `Put`. -/
theorem legal_source : ∀ (L : List Op) (m m' : Map) (k n : Bytes), Legal m L m' → m' k = some n →
    (m k = some n ∧ ∀ e ∈ L, (∀ v, e.call = .put k v → v = n) ∧ e.call ≠ .delete k) ∨
      ∃ L1 e L2, L = L1 ++ e :: L2 ∧ e.call = .put k n ∧ ∀ e ∈ L2, (∀ v, e.call ≠ .put k v) ∧ e.call ≠ .delete k := by
  intro L
  induction L with
  | nil =>
    intro m m' k n h e
    have h : m' = m := h
    subst h
    exact Or.inl ⟨e, by simp⟩
  | cons x L ih =>
    intro m m' k n h e
    rcases ih _ _ k n h.2 e with ⟨h1, h2⟩ | ⟨L1, y, L2, h1, h2, h3⟩
    · by_cases hx : ∃ v, x.call = .put k v
      · obtain ⟨v, hv⟩ := hx
        have hvn : v = n := by
          rw [hv] at h1
          have h1 : (m.put k v) k = some n := h1
          simpa [Map.put] using h1
        subst hvn
        by_cases hall : ∃ y ∈ L, y.call = .put k v
        · obtain ⟨L1, L2, y, g1, g2, g3⟩ : ∃ L1 L2 y, L = L1 ++ y :: L2 ∧ y.call = .put k v ∧ ∀ z ∈ L2, z.call ≠ .put k v := by
            clear ih h2 h1 e h
            induction L with
            | nil => simp at hall
            | cons z L ih =>
              by_cases hr : ∃ y ∈ L, y.call = .put k v
              · obtain ⟨L1, L2, y, g1, g2, g3⟩ := ih hr
                exact ⟨z :: L1, L2, y, by rw [g1]; rfl, g2, g3⟩
              · obtain ⟨y, hy, hy2⟩ := hall
                rcases List.mem_cons.mp hy with rfl | hy
                · exact ⟨[], L, y, rfl, hy2, fun z hz e => hr ⟨z, hz, e⟩⟩
                · exact absurd ⟨y, hy, hy2⟩ hr
          refine Or.inr ⟨x :: L1, y, L2, by rw [g1]; rfl, g2, fun z hz => ⟨fun w hw => ?_, (h2 z (by rw [g1]; simp [hz])).2⟩⟩
          have := (h2 z (by rw [g1]; simp [hz])).1 w hw
          subst this
          exact g3 z hz hw
        · refine Or.inr ⟨[], x, L, rfl, hv, fun z hz => ⟨fun w hw => ?_, (h2 z hz).2⟩⟩
          have := (h2 z hz).1 w hw
          subst this
          exact hall ⟨z, hz, hw⟩
      · by_cases hd : x.call = .delete k
        · rw [hd] at h1
          have h1 : (m.delete k) k = some n := h1
          simp [Map.delete] at h1
        · refine Or.inl ⟨?_, ?_⟩
          · cases hc : x.call with
            | get k' => rw [hc] at h1; exact h1
            | put k' v =>
              rw [hc] at h1
              have h1 : (m.put k' v) k = some n := h1
              unfold Map.put at h1
              rw [if_neg] at h1
              · exact h1
              · rintro rfl
                exact hx ⟨v, hc⟩
            | delete k' =>
              rw [hc] at h1
              have h1 : (m.delete k') k = some n := h1
              unfold Map.delete at h1
              rw [if_neg] at h1
              · exact h1
              · rintro rfl
                exact hd hc
          · intro z hz
            rcases List.mem_cons.mp hz with rfl | hz
            · exact ⟨fun v hv => absurd ⟨v, hv⟩ hx, hd⟩
            · exact h2 z hz
    · exact Or.inr ⟨x :: L1, y, L2, by rw [h1]; rfl, h2, h3⟩

theorem legal_split : ∀ (L1 L2 : List Op) (m m' : Map), Legal m (L1 ++ L2) m' → ∃ m1, Legal m L1 m1 ∧ Legal m1 L2 m' := by
  intro L1
  induction L1 with
  | nil => intro L2 m m' h; exact ⟨m, rfl, h⟩
  | cons x L1 ih =>
    intro L2 m m' h
    obtain ⟨m1, h1, h2⟩ := ih _ _ _ h.2
    exact ⟨m1, ⟨h.1, h1⟩, h2⟩

/-- **C81, whose block it is.** The calls have an order – which respects that some returned before others began – in which a `Get` of a key returns the block of the last `Put` of this key before it, with no `Delete` of the key between the two, and nothing if there is no
such `Put`. Two `Get`s with no `Put` or `Delete` of the key between them so return the same memory: each sees what is stored through the other's slice. -/
theorem C81_order (h : Run T σ who) : ∃ L : List Op,
    (L.map Op.id).Nodup ∧
    (∀ i c o, (σ T).procs i = .done c o → ⟨i, c, o⟩ ∈ L) ∧
    L.Pairwise (fun a b => ¬ ∃ t, t ≤ T ∧ (σ t).procs a.id = .idle ∧ ∃ c o, (σ t).procs b.id = .done c o) ∧
    (∀ L1 i k n L2, L = L1 ++ ⟨i, .get k, some n⟩ :: L2 → ∃ A p B, L1 = A ++ p :: B ∧ p.call = .put k n ∧ ∀ e ∈ B, (∀ v, e.call ≠ .put k v) ∧ e.call ≠ .delete k) ∧
    (∀ L1 i k o o' i' B L2, L = L1 ++ ⟨i, .get k, o⟩ :: (B ++ ⟨i', .get k, o'⟩ :: L2) → (∀ e ∈ B, (∀ v, e.call ≠ .put k v) ∧ e.call ≠ .delete k) → o = o') := by
  obtain ⟨L, h1, h2, -, h4, m, h5, -⟩ := C46_linearizable h
  refine ⟨L, h1, h2, h4, ?_, ?_⟩
  · rintro L1 i k n L2 rfl
    obtain ⟨m1, g1, g2⟩ := legal_split _ _ _ _ h5
    rcases legal_source _ _ _ k n g1 (show m1 k = some n from g2.1.symm) with ⟨g3, -⟩ | g3
    · simp [Map.empty] at g3
    · exact g3
  · rintro L1 i k o o' i' B L2 rfl hB
    obtain ⟨m1, g1, g2⟩ := legal_split _ _ _ _ h5
    have e1 : o = m1 k := g2.1
    obtain ⟨m2, g3, g4⟩ := legal_split _ _ _ _ (show Legal m1 (B ++ ⟨i', .get k, o'⟩ :: L2) m from g2.2)
    have e2 : o' = m2 k := g4.1
    rw [e1, e2]
    clear e1 e2 g4 g2 g1 h5 h1 h2 h4
    induction B generalizing m1 with
    | nil => rw [show m2 = m1 from g3]
    | cons x B ih =>
      rw [← ih (fun e he => hB e (List.mem_cons_of_mem _ he)) _ g3.2]
      have hx := hB x List.mem_cons_self
      cases hc : x.call with
      | get k' => rfl
      | put k' v =>
        show _ = (m1.put k' v) k
        unfold Map.put
        rw [if_neg]
        rintro rfl
        exact hx.1 v hc
      | delete k' =>
        show _ = (m1.delete k') k
        unfold Map.delete
        rw [if_neg]
        rintro rfl
        exact hx.2 hc

end

/-! ## Example -/

def lending : List (Nat × Act) :=
  [(0, .call (.put [5] [100]) 9)] ++ goes 0 16 ++ [(1, .call (.put [6] [101]) 9)] ++ goes 1 16 ++ [(2, .call (.get [5]) 9)] ++ goes 2 9 ++ [(3, .call (.put [5] [102]) 9)] ++ goes 3 15

/-- To begin with, the block 100 contains 1, 2; after the step 44, the caller of `Get` stores a 9 at the beginning of it. -/
def lent (t : Nat) (n : Bytes) : Bytes := if n = [100] then (if t ≤ 44 then [1, 2] else [9, 2]) else [7]

/-- The root of the heap is the node 1, with a leaf of the key and the value below `b`. -/
def below (h : Heap) (b : UInt8) (k v : Bytes) : Bool :=
  (match (h[0]?).map Node.kids with | some (.dummy (some (.node 1))) => true | _ => false) &&
    (match (h[1]?).bind (fun n => n.child b) with | some (Ref.leaf l) => l.key == k && l.value == v | _ => false)

theorem below_holds {h : Heap} {b : UInt8} {k v : Bytes} (e : below h b k v = true) : Holds h k v := by
  unfold below at e
  rw [Bool.and_eq_true] at e
  obtain ⟨e1, e2⟩ := e
  split at e1
  next e3 =>
    obtain ⟨d, q1, q2⟩ := Option.map_eq_some_iff.mp e3
    split at e2
    next l e4 =>
      obtain ⟨n, q3, q4⟩ := Option.bind_eq_some_iff.mp e4
      rw [Bool.and_eq_true, beq_iff_eq, beq_iff_eq] at e2
      exact ⟨1, n, l, .root q1 q2, q3, Or.inr ⟨b, q4⟩, e2.1, e2.2⟩
    next => simp at e2
  next => simp at e1

theorem lending_act {σ σ' : Conf} {i j : Nat} {x : Act} (h : act σ i x = some σ') (hj : j ≠ i) : σ'.procs j = σ.procs j := (act_step h).other hj

theorem lending_other : ∀ (xs : List (Nat × Act)) (σ σ' : Conf) (j : Nat), exec xs σ = some σ' → (∀ x ∈ xs, x.1 ≠ j) → σ'.procs j = σ.procs j := by
  intro xs
  induction xs with
  | nil => intro σ σ' j h _; cases h; rfl
  | cons x xs ih =>
    intro σ σ' j h hj
    obtain ⟨i, x⟩ := x
    simp only [exec, Option.bind_eq_some_iff] at h
    obtain ⟨σ1, h1, h2⟩ := h
    rw [ih _ _ _ h2 (fun y hy => hj y (List.mem_cons_of_mem _ hy)), lending_act h1 (hj _ List.mem_cons_self).symm]

/-- What the call `i` is, at the end. -/
def callAt (σ : Conf) (i : Nat) : Option Call := (σ.procs i).call

/-- **C81, example.** The hypotheses of the theorems are met, and a value is changed without any call: after the `Get` of 5 the tree holds 1, 2 under 5 and the block 101 under 6. When the caller has stored a 9 in its slice the tree holds 9, 2 under 5 although no `Put` has begun,
and after the next `Put` the block is not in the tree any more. -/
theorem C81_example : ∃ σ who m m', Shares lending.length σ who lent ∧ (σ 44).procs 2 = .done (.get [5]) (some [100]) ∧ Stands (σ 44).heap m ∧ m [5] = some [100] ∧ m [6] = some [101] ∧
    Holds (seen (σ 44).heap (lent 44)) [5] [1, 2] ∧ Holds (seen (σ 44).heap (lent 45)) [5] [9, 2] ∧ Stands (σ lending.length).heap m' ∧ m' [5] = some [102] := by
  have hsome : (exec lending Conf.init).isSome = true := by decide +kernel
  obtain ⟨σ', h1⟩ := Option.isSome_iff_exists.mp hsome
  obtain ⟨g1, g2⟩ := exec_steps lending _ _ h1
  have hrun : Run lending.length (states lending Conf.init) (fun t => (lending[t]?.map (·.1)).getD 0) := ⟨states_zero _ _, g2⟩
  have hcalls : (exec lending Conf.init).map (fun σ => (callAt σ 0, callAt σ 1, callAt σ 2, callAt σ 3)) =
      some (some (.put [5] [100]), some (.put [6] [101]), some (.get [5]), some (.put [5] [102])) := by decide +kernel
  rw [h1] at hcalls
  simp only [Option.map_some, Option.some.injEq, Prod.mk.injEq] at hcalls
  have hidle : ∀ i, 4 ≤ i → σ'.procs i = .idle := by
    intro i hi
    rw [lending_other lending _ _ i h1]
    · rfl
    · have : ∀ x ∈ lending, x.1 < 4 := by decide +kernel
      intro x hx e
      have := this x hx
      omega
  have hdone : (states lending Conf.init 44).procs 2 = .done (.get [5]) (some [100]) := by
    have : (match (states lending Conf.init 44).procs 2 with | .done (.get k) (some n) => k == [5] && n == [100] | _ => false) = true := by decide +kernel
    split at this
    next k n e =>
      rw [Bool.and_eq_true, beq_iff_eq, beq_iff_eq] at this
      rw [e, this.1, this.2]
    next => simp at this
  obtain ⟨m, hm⟩ := (C14_map hrun).2 44 (by decide +kernel)
  obtain ⟨m', hm'⟩ := (C14_map hrun).2 _ (Nat.le_refl _)
  refine ⟨states lending Conf.init, _, m, m', ⟨hrun, ?_, ?_, ?_⟩, hdone, hm, ?_, ?_, ?_, ?_, hm', ?_⟩
  · rw [g1]
    intro i j k k' n hi hj
    have key : ∀ i k, (σ'.procs i).call = some (.put k n) → (i = 0 ∧ n = [100]) ∨ (i = 1 ∧ n = [101]) ∨ (i = 3 ∧ n = [102]) := by
      intro i k hi
      obtain ⟨c0, c1, c2, c3⟩ := hcalls
      by_cases h4 : 4 ≤ i
      · rw [hidle i h4] at hi
        cases hi
      · have : i = 0 ∨ i = 1 ∨ i = 2 ∨ i = 3 := by omega
        rcases this with rfl | rfl | rfl | rfl
        · rw [show (σ'.procs 0).call = _ from c0] at hi; cases hi; exact Or.inl ⟨rfl, rfl⟩
        · rw [show (σ'.procs 1).call = _ from c1] at hi; cases hi; exact Or.inr (Or.inl ⟨rfl, rfl⟩)
        · rw [show (σ'.procs 2).call = _ from c2] at hi; cases hi
        · rw [show (σ'.procs 3).call = _ from c3] at hi; cases hi; exact Or.inr (Or.inr ⟨rfl, rfl⟩)
    rcases key i k hi with ⟨a, b⟩ | ⟨a, b⟩ | ⟨a, b⟩ <;> rcases key j k' hj with ⟨c, d⟩ | ⟨c, d⟩ | ⟨c, d⟩ <;> first
      | exact a.trans c.symm
      | (rw [b] at d; simp at d)
  · intro x
    unfold lent
    split <;> simp
  · intro t ht
    by_cases e : t = 44
    · subst e
      have := Written.store (i := 0) (xs := [9]) (Written.same (σ := states lending Conf.init 44) (mem := lent 44)) hdone (by decide)
      have e : (fun x => if x = [100] then patch (lent 44 [100]) 0 [9] else lent 44 x) = lent 45 := by
        funext x
        by_cases e : x = [100]
        · subst e; decide
        · simp [lent, e]
      rw [e] at this
      exact this
    · have : lent (t + 1) = lent t := by
        funext x
        unfold lent
        split
        · by_cases h : t < 44
          · rw [if_pos (by omega), if_pos (by omega)]
          · rw [if_neg (by omega), if_neg (by omega)]
        · rfl
      rw [this]
      exact .same
  · exact (hm _ _).mpr (below_holds (b := 5) (by decide +kernel))
  · exact (hm _ _).mpr (below_holds (b := 6) (by decide +kernel))
  · exact below_holds (b := 5) (by decide +kernel)
  · exact below_holds (b := 5) (by decide +kernel)
  · exact (hm' _ _).mpr (below_holds (b := 5) (by decide +kernel))

end Art.Props
