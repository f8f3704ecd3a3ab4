import Verif.Art.Range

/-!
# Properties C09, C12 and C65: node containers and leaves
-/

set_option linter.unusedSimpArgs false

namespace Art.Props

open Surf (Bytes)

/-! ## C12 -/

/-- **C12.** A leaf gives back exactly the key and the value it was made of, and matches exactly its key. -/
theorem C12_leaf (k v : Bytes) (hk : k.length < 2 ^ 32) (hv : v.length < 2 ^ 32) :
    (newLeaf k v).key = k ∧ (newLeaf k v).value = v ∧ ∀ q, (newLeaf k v).matchKey q = true ↔ q = k := by
  refine ⟨newLeaf_key hk, newLeaf_value hk hv, fun q => ?_⟩
  rw [Leaf.matchKey_iff, newLeaf_key hk, eq_comm]

/-- Example: a key of 300 bytes and the empty value. -/
example : (newLeaf (List.replicate 300 7) []).key = List.replicate 300 7 ∧ (newLeaf (List.replicate 300 7) []).value = [] :=
  have h := C12_leaf (List.replicate 300 7) [] (by rw [List.length_replicate]; omega) (by simp)
  ⟨h.1, h.2.1⟩

/-! ## C09 -/

/-- What happens at one branching point: a byte gets a child (new or instead of the old one), or loses it. -/
inductive Op where
  | put (b : UInt8) (r : Ref)
  | del (b : UInt8)

/-- Specification: a branching point is a map from bytes to children. -/
def Op.spec (f : UInt8 → Option Ref) : Op → UInt8 → Option Ref
  | .put b r => fun c => if c = b then some r else f c
  | .del b => fun c => if c = b then none else f c

/-- What `insert` (art.go:181-212) and `remove` (art.go:318-350, node.go:446-491) do with the node of a branching
point (the root, which is never merged with a neighbour). -/
def Op.run (n : Node) : Op → Option Node
  | .put b r =>
    match n.findChild b with
    | some (_, slot, _) => n.setSlot slot r
    | none => do if ← n.isFull then n.growAndInsert b r else n.insertChild b r
  | .del b =>
    match n.findChild b with
    | none => some n
    | some (_, _, pos) => do if ← n.shouldShrink true then n.shrink b else n.removeChild pos

/-- Any number of changes. -/
def runOps (n : Node) : List Op → Option Node
  | [] => some n
  | o :: os => (o.run n).bind (fun n' => runOps n' os)

/-- Any number of changes, specification. -/
def specOps (f : UInt8 → Option Ref) : List Op → UInt8 → Option Ref
  | [] => f
  | o :: os => specOps (o.spec f) os

/-- What holds of every reachable container. -/
structure Good (n : Node) (f : UInt8 → Option Ref) : Prop where
  wf : n.WF
  child : n.child = f
  min : minCount n.cap ≤ cnt n.child

theorem upd_eq (f : UInt8 → Option Ref) (b : UInt8) (x : Option Ref) : upd f b x = fun c => if c = b then x else f c := by
  funext c
  by_cases h : c = b
  · subst h; rw [upd_same, if_pos rfl]
  · rw [upd_other _ _ h, if_neg h]

theorem Good.step {n : Node} {f} (h : Good n f) (o : Op) : ∃ n', o.run n = some n' ∧ Good n' (o.spec f) := by
  obtain ⟨wf, hch, hmin⟩ := h
  subst hch
  cases o with
  | put b r =>
    have hcu := cnt_upd n.child b (some r)
    simp only [Option.isSome_some, Bool.toNat_true] at hcu
    simp only [Op.run, Op.spec]
    rw [← upd_eq]
    match hf : n.findChild b with
    | some (r', slot, pos) =>
      obtain ⟨n', h1, h2, -⟩ := setSlot_spec wf b r hf
      refine ⟨n', h1, h2.wf, h2.child, ?_⟩
      rw [h2.cap, h2.child]
      have : (n.child b).isSome = true := by simp [Node.child, hf]
      simp only [this, Bool.toNat_true] at hcu
      omega
    | none =>
      have hb : n.child b = none := by simp [Node.child, hf]
      simp only [hb, Option.isSome_none, Bool.toNat_false] at hcu
      simp only
      rw [wf.isFull]
      simp only [Option.bind_eq_bind, Option.bind_some, decide_eq_true_eq]
      split
      next hfull =>
        obtain ⟨n', h1, h2, h3, h4, -⟩ := growAndInsert_spec wf b r (by rw [wf.isFull]; simpa using hfull) hb
        refine ⟨n', h1, h4.wf, h4.child, ?_⟩
        rw [h4.child]
        rcases h3 with h3 | h3 | h3 <;> rw [h3.1] <;> simp only [minCount] <;> omega
      next hfull =>
        obtain ⟨n', h1, h2, -⟩ := insertChild_spec wf b r (by rw [wf.isFull]; simpa using hfull) hb
        refine ⟨n', h1, h2.wf, h2.child, ?_⟩
        rw [h2.cap, h2.child]
        omega
  | del b =>
    have hcu := cnt_upd n.child b none
    simp only [Option.isSome_none, Bool.toNat_false] at hcu
    simp only [Op.run, Op.spec]
    rw [← upd_eq]
    match hf : n.findChild b with
    | none =>
      have hb : n.child b = none := by simp [Node.child, hf]
      refine ⟨n, rfl, wf, ?_, hmin⟩
      funext c
      by_cases e : c = b
      · subst e; rw [upd_same, hb]
      · rw [upd_other _ _ e]
    | some (r', slot, pos) =>
      have hb : n.child b = some r' := by simp [Node.child, hf]
      simp only [hb, Option.isSome_some, Bool.toNat_true] at hcu
      simp only
      rw [shouldShrink_spec wf hmin]
      generalize hs : (if n.cap = 4 then _ else _ : Bool) = z
      simp only [Option.bind_eq_bind, Option.bind_some]
      cases z with
      | true =>
        rw [if_pos rfl]
        have h4 : n.cap ≠ 4 := by intro e; simp [e] at hs
        rw [if_neg h4, decide_eq_true_eq] at hs
        obtain ⟨n', h1, h3, h5, -⟩ := shrink_spec wf b h4 hs hb
        refine ⟨n', h1, h5.wf, h5.child, ?_⟩
        rw [h5.child]
        rcases h3 with h3 | h3 | h3 <;> rw [h3.2] at hs <;> rw [h3.1] <;> simp only [minCount] at * <;> omega
      | false =>
        rw [if_neg (by simp)]
        obtain ⟨n', h1, h2, -⟩ := removeChild_spec wf b hf
        refine ⟨n', h1, h2.wf, h2.child, ?_⟩
        rw [h2.cap, h2.child]
        by_cases h4 : n.cap = 4
        · rw [h4]; simp [minCount]
        · rw [if_neg h4, decide_eq_false_iff_not] at hs
          omega

theorem Good.new : Good newNode4 (fun _ => none) := by
  refine ⟨?_, ?_, by simp [newNode4, Node.cap, minCount]⟩
  · show ArrWF 4 0 (zeroBytes 4) (nils 4)
    exact ⟨rfl, rfl, by omega, by simp, by simp⟩
  · funext b
    rfl

theorem good_ops : ∀ (ops : List Op) n f, Good n f → ∃ n', runOps n ops = some n' ∧ Good n' (specOps f ops) := by
  intro ops
  induction ops with
  | nil => intro n f h; exact ⟨n, rfl, h⟩
  | cons o os ih =>
    intro n f h
    obtain ⟨n1, h1, h2⟩ := h.step o
    obtain ⟨n2, h3, h4⟩ := ih n1 _ h2
    exact ⟨n2, by simp [runOps, h1, h3], h4⟩

/-- **C09.** Whatever is put under and removed from the 256 bytes of a branching point, in any order and number, nothing panics and
looking up any byte gives the last child put under it. (`cnt` up to 256: the counter of the last node type wraps.) -/
theorem C09_fanout (ops : List Op) :
    ∃ n, runOps newNode4 ops = some n ∧ ∀ b, (n.findChild b).map (·.1) = specOps (fun _ => none) ops b := by
  obtain ⟨n, h1, h2⟩ := good_ops ops _ _ Good.new
  exact ⟨n, h1, fun b => congrFun h2.child b⟩

/-- All 256 bytes get a child. -/
def fill : List Op := allBytes.map (fun b => .put b (.node b.toNat))

/-- Example: the 256-way node with all children (its counter is 0), and a 16-way node that becomes a 4-way node again. -/
example : ((runOps newNode4 fill).map (fun n => (n.cap, n.numChildren))) = some (256, 0) ∧
    ((runOps newNode4 (fill.take 6 ++ (allBytes.take 4).map .del)).map (fun n => (n.cap, n.numChildren))) = some (4, 2) := by
  decide +kernel

/-! ## C65 -/

/-- **C65.** After any changes that leave a child, `firstChild` and `lastChild` give one. In the two larger kinds of nodes these are the children under the least and the greatest byte. -/
theorem C65_ends (ops : List Op) {n : Node} (hn : runOps newNode4 ops = some n) {b0 : UInt8} (h0 : specOps (fun _ => none) ops b0 ≠ none) :
    (∃ r b, n.firstChild = some (some r) ∧ specOps (fun _ => none) ops b = some r ∧ (48 ≤ n.cap → ∀ b', b' < b → specOps (fun _ => none) ops b' = none)) ∧
    (∃ r b, n.lastChild = some (some r) ∧ specOps (fun _ => none) ops b = some r ∧ (48 ≤ n.cap → ∀ b', b < b' → specOps (fun _ => none) ops b' = none)) := by
  obtain ⟨n', h1, h2⟩ := good_ops ops _ _ Good.new
  rw [hn] at h1
  cases h1
  have hpos : 0 < cnt n.child := by
    rw [cnt_pos_iff, h2.child]
    obtain ⟨r, hr⟩ := Option.ne_none_iff_exists'.mp h0
    exact ⟨b0, r, hr⟩
  rw [← h2.child]
  exact ⟨firstChild_least h2.wf hpos, lastChild_spec h2.wf hpos⟩

/-- Without children `lastChild` panics, as the counter wraps; `firstChild` gives nil. -/
theorem C65_empty : newNode4.firstChild = some none ∧ newNode4.lastChild = none := by decide +kernel

/-- In the two smaller kinds of nodes they are not the children under the least and the greatest byte, but those put first and last. -/
theorem C65_witness_order : ((runOps newNode4 [.put 9 (.node 1), .put 3 (.node 2), .put 7 (.node 3)]).map fun n => (n.firstChild, n.lastChild)) =
    some (some (some (.node 1)), some (some (.node 3))) := by decide +kernel

/-- The hypotheses of `C65_ends` are met: of the full node, the ends are the children under 0 and 255. -/
example : ((runOps newNode4 fill).map fun n => (n.cap, n.firstChild, n.lastChild)) = some (256, some (some (.node 0)), some (some (.node 255))) ∧
    specOps (fun _ => none) fill 7 ≠ none := by
  decide +kernel

end Art.Props
