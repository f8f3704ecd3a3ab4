import Verif.Art.Names
import Verif.Art.NodeLemmas

/-! # No call looks at values

`Prog.Sim f R p p'`: the program `p'` does with the leaves `f l` what `p` does with the leaves `l`. It holds of all programs, so a run can be followed on the heap with all leaves replaced. -/

set_option linter.unusedSimpArgs false

namespace Art

open Surf Spec Props

/-- The two programs do the same, the second one on the heap with all leaves replaced. -/
inductive Prog.Sim (f : Leaf → Leaf) {α : Type} (R : α → α → Prop) : Prog α → Prog α → Prop
  | ret {a a'} : R a a' → Sim f R (.ret a) (.ret a')
  | panic : Sim f R .panic .panic
  | diverge : Sim f R .diverge .diverge
  | wait {a k k'} : (∀ v, Sim f R (k v) (k' v)) → Sim f R (.wait a k) (.wait a k')
  | load {a k k'} : (∀ v, Sim f R (k v) (k' v)) → Sim f R (.load a k) (.load a k')
  | cas {a v k k'} : (∀ b, Sim f R (k b) (k' b)) → Sim f R (.cas a v k) (.cas a v k')
  | lock {a k k'} : (∀ b, Sim f R (k b) (k' b)) → Sim f R (.lock a k) (.lock a k')
  | unlock {a k k'} : Sim f R k k' → Sim f R (.unlock a k) (.unlock a k')
  | unlockObsolete {a k k'} : Sim f R k k' → Sim f R (.unlockObsolete a k) (.unlockObsolete a k')
  | read {a v k k'} : (∀ n, Sim f R (k n) (k' (n.leaves f))) → Sim f R (.read a v k) (.read a v k')
  | readRoot {k k'} : (∀ r, Sim f R (k r) (k' (r.map (Ref.leaves f)))) → Sim f R (.readRoot k) (.readRoot k')
  | choose {k k'} : (∀ b, Sim f R (k b) (k' b)) → Sim f R (.choose k) (.choose k')
  | write {g g' k k'} : (∀ h, g' (Heap.leaves f h) = (g h).map (Heap.leaves f)) → Sim f R k k' → Sim f R (.write g k) (.write g' k')

namespace Prog.Sim

variable {f : Leaf → Leaf}

theorem bind {α β : Type} {R : α → α → Prop} {S : β → β → Prop} {p p' : Prog α} {k k' : α → Prog β} (h : Sim f R p p') (hk : ∀ a a', R a a' → Sim f S (k a) (k' a')) :
    Sim f S (p.bind k) (p'.bind k') := by
  induction h with
  | ret e => exact hk _ _ e
  | panic => exact .panic
  | diverge => exact .diverge
  | wait _ ih => exact .wait ih
  | load _ ih => exact .load ih
  | cas _ ih => exact .cas ih
  | lock _ ih => exact .lock ih
  | unlock _ ih => exact .unlock ih
  | unlockObsolete _ ih => exact .unlockObsolete ih
  | read _ ih => exact .read ih
  | readRoot _ ih => exact .readRoot ih
  | choose _ ih => exact .choose ih
  | write e _ ih => exact .write e ih

theorem ite {α : Type} {R : α → α → Prop} {c : Prop} [Decidable c] {p p' q q' : Prog α} (h1 : Sim f R p p') (h2 : Sim f R q q') : Sim f R (if c then p else q) (if c then p' else q') := by
  split <;> assumption

theorem start {α : Type} {R : α → α → Prop} {k k' : Addr → Nat → Prog α} (h : ∀ a v, Sim f R (k a v) (k' a v)) : Sim f R (Art.start k) (Art.start k') := by
  unfold Art.start
  refine .choose fun b => ite (.readRoot fun r => .wait fun v => ?_) (.wait fun v => .readRoot fun r => ?_)
  all_goals
    rcases r with _ | (_ | a)
    · exact .panic
    · exact .panic
    · exact h a v

end Prog.Sim

open Prog (Sim)

section
variable {f : Leaf → Leaf} (hf : ∀ l, (f l).key = l.key)

theorem leaves_nextNode (n : Node) (key : Bytes) (d : Nat) : nextNode (n.leaves f) key d = (nextNode n key d).map (Ref.leaves f) := by
  unfold nextNode
  split
  · show (n.prefixLeaf.map f).map Ref.leaf = (n.prefixLeaf.map Ref.leaf).map (Ref.leaves f)
    cases n.prefixLeaf <;> rfl
  · cases key[d]? with
    | none => rfl
    | some b =>
      simp only [Node.leaves_findChild]
      cases n.findChild b <;> rfl

include hf in
theorem search_sim {g : Bytes → Bytes} (hg : ∀ l, (f l).value = g l.value) (key : Bytes) : ∀ (fuel depth : Nat) (p : Addr) (pv : Nat) (c : Addr),
    Sim f (fun o o' => o' = o.map (Option.map g)) (search key fuel depth p pv c) (search key fuel depth p pv c) := by
  intro fuel
  induction fuel with
  | zero => intros; exact .diverge
  | succ fuel ih =>
    intro depth p pv c
    unfold search
    refine .wait fun v => .ite (.ret rfl) (.load fun w => .ite (.ret rfl) (.read fun n => ?_))
    rw [Node.leaves_checkPrefix]
    refine .ite (.load fun w => .ret ?_) (.read fun n' => .load fun w => .ite (.ret rfl) ?_)
    · split <;> rfl
    · rw [leaves_nextNode]
      rcases nextNode n' key (n.checkPrefix key depth).1 with _ | (l | a)
      · exact .ret rfl
      · simp only [Option.map_some, Ref.leaves]
        rw [leaves_matchKey hf, hg]
        refine .ret ?_
        split <;> rfl
      · exact ih _ _ _ _

include hf in
theorem get_sim {g : Bytes → Bytes} (hg : ∀ l, (f l).value = g l.value) (key : Bytes) : ∀ fuel, Sim f (fun o o' => o' = o.map g) (get key fuel) (get key fuel) := by
  intro fuel
  induction fuel with
  | zero => exact .diverge
  | succ fuel ih =>
    unfold get
    refine (Sim.start fun a v => search_sim hf hg key fuel 0 0 v a).bind ?_
    rintro o o' rfl
    cases o with
    | none => exact ih
    | some x => exact .ret rfl

include hf in
theorem fullKey_sim : ∀ (fuel : Nat) (c : Addr) (v : Nat), Sim f Eq (fullKey fuel c v) (fullKey fuel c v) := by
  intro fuel
  induction fuel with
  | zero => intros; exact .diverge
  | succ fuel ih =>
    intro c v
    unfold fullKey
    refine .read fun n => ?_
    show Sim f Eq _ (match n.prefixLeaf.map f with | some l => _ | none => _)
    cases n.prefixLeaf with
    | some l =>
      refine .load fun w => .ret ?_
      rw [hf]
    | none =>
      refine .read fun n => ?_
      rw [Node.leaves_firstChild]
      rcases n.firstChild with _ | (_ | (l | a))
      · exact .panic
      · exact .load fun w => .ite (.ret rfl) .panic
      · refine .load fun w => .ite (.ret rfl) (.load fun w => .ret ?_)
        rw [hf]
      · exact .load fun w => .ite (.ret rfl) (.wait fun v => .ite (.ret rfl) (ih _ _))

include hf in
theorem mismatchLoop_sim (key : Bytes) (depth : Nat) (c : Addr) (v : Nat) (p : Addr) (pv : Nat) : ∀ (fuel : Nat) (got : Option Bytes),
    Sim f Eq (mismatchLoop key depth c v p pv fuel got) (mismatchLoop key depth c v p pv fuel got) := by
  intro fuel
  induction fuel with
  | zero => intros; exact .diverge
  | succ fuel ih =>
    intro got
    unfold mismatchLoop
    refine .load fun w => .ite (.ret rfl) (.load fun w => .ite (.ret rfl) ?_)
    cases got with
    | some full =>
      refine .read fun n => ?_
      show Sim f Eq _ (match mismatchLong n key full depth with | some p => _ | none => _)
      cases mismatchLong n key full depth with
      | none => exact .panic
      | some p => exact .ret rfl
    | none =>
      refine (fullKey_sim hf fuel c v).bind ?_
      rintro o _ rfl
      exact ih o

include hf in
theorem prefixMismatch_sim (fuel : Nat) (key : Bytes) (depth : Nat) (c : Addr) (v : Nat) (p : Addr) (pv : Nat) :
    Sim f Eq (prefixMismatch fuel key depth c v p pv) (prefixMismatch fuel key depth c v p pv) := by
  unfold prefixMismatch
  refine .read fun n => ?_
  refine Sim.ite (c := n.prefixLen ≤ maxPrefixLen) (.read fun n => ?_) (mismatchLoop_sim hf _ _ _ _ _ _ _ _)
  show Sim f Eq _ (match mismatchShort n key depth with | some p => _ | none => _)
  cases mismatchShort n key depth with
  | none => exact .panic
  | some p => exact .ret rfl

theorem insertHere_sim {key value value' : Bytes} (hv : f (newLeaf key value) = newLeaf key value') (b : UInt8) (p : Addr) (pv : Nat) (c : Addr) (v : Nat) (loc : Loc) :
    Sim f Eq (insertHere key value b p pv c v loc) (insertHere key value' b p pv c v loc) := by
  unfold insertHere
  refine .read fun n => ?_
  rw [Node.leaves_isFull]
  rcases n.isFull with _ | (_ | _)
  · exact .panic
  · refine .cas fun ok => .ite (.ret rfl) (.load fun w => .ite (.unlock (.ret rfl)) (.write (fun h => ?_) (.unlock (.ret rfl))))
    rw [← hv]
    exact leaves_insertChildAt f h c b (.leaf _)
  · refine .cas fun ok => .ite (.ret rfl) (.cas fun ok => .ite (.unlock (.ret rfl)) (.write (fun h => ?_) (.unlockObsolete (.unlock (.ret rfl)))))
    rw [← hv]
    exact leaves_growAt f h c b (.leaf _) loc

include hf in
theorem insert_sim {key value value' : Bytes} (hv : f (newLeaf key value) = newLeaf key value') : ∀ (fuel depth : Nat) (p : Addr) (pv : Nat) (c : Addr) (loc : Loc),
    Sim f Eq (insert key value fuel depth p pv c loc) (insert key value' fuel depth p pv c loc) := by
  intro fuel
  induction fuel with
  | zero => intros; exact .diverge
  | succ fuel ih =>
    intro depth p pv c loc
    unfold insert
    refine .wait fun v => .ite (.ret rfl) ((prefixMismatch_sim hf fuel key depth c v p pv).bind ?_)
    rintro o _ rfl
    rcases o with _ | ⟨q, full⟩
    · exact .ret rfl
    · refine .read fun n => Sim.ite (c := q ≠ n.prefixLen) ?_ (.read fun n => Sim.ite (c := depth + n.prefixLen = key.length) ?_ ?_)
      · exact .cas fun ok => .ite (.ret rfl) (.cas fun ok => .ite (.unlock (.ret rfl)) (.write (fun h => leaves_insertSplitPrefix h c key full value value' depth q loc hv) (.unlock (.unlock (.ret rfl)))))
      · exact .cas fun ok => .ite (.ret rfl) (.load fun w => .ite (.unlock (.ret rfl)) (.write (fun h => leaves_updatePrefixLeaf f h c key value value' hv) (.unlock (.ret rfl))))
      · show Sim f Eq _ (match key[depth + n.prefixLen]? with | none => _ | some b => _)
        cases key[depth + n.prefixLen]? with
        | none => exact .panic
        | some b =>
          refine .read fun n' => .load fun w => .ite (.ret rfl) ?_
          rw [Node.leaves_findChild]
          rcases n'.findChild b with _ | ⟨l | a, slot, pos⟩
          · exact insertHere_sim hv b p pv c v loc
          · exact .load fun w => .ite (.ret rfl) (.cas fun ok => .ite (.ret rfl) (.write (fun h => leaves_updateOrExpand hf h l key value value' _ _ hv) (.unlock (.ret rfl))))
          · exact .load fun w => .ite (.ret rfl) (ih _ _ _ _ _)

include hf in
theorem put_sim {key value value' : Bytes} (hv : f (newLeaf key value) = newLeaf key value') : ∀ fuel, Sim f Eq (put key value fuel) (put key value' fuel) := by
  intro fuel
  induction fuel with
  | zero => exact .diverge
  | succ fuel ih =>
    unfold put
    refine (Sim.start fun a v => insert_sim hf hv fuel 0 0 v a (0, 0)).bind ?_
    rintro o _ rfl
    cases o with
    | false => exact ih
    | true => exact .ret rfl

theorem compressChild_sim (idx : Nat) (p c : Addr) (v : Nat) (loc : Loc) : Sim f Eq (compressChild idx p c v loc) (compressChild idx p c v loc) := by
  unfold compressChild
  refine .read fun n => ?_
  obtain ⟨ver, num, plen, pre, pl, kids⟩ := n
  cases kids with
  | n4 keys children =>
    show Sim f Eq _ (match (children.map (Option.map (Ref.leaves f)))[idx]?.join, keys[idx]? with | some (.leaf l), _ => _ | some (.node c), some b => _ | _, _ => _)
    rw [List.getElem?_map, Node.join_map]
    dsimp only
    rcases children[idx]?.join with _ | (l | a)
    · exact .panic
    · exact .write (fun h => leaves_storeLoc f h loc (.leaf l)) (.unlockObsolete (.unlock (.ret rfl)))
    · rcases keys[idx]? with _ | b
      · exact .panic
      · exact .lock fun ok => .ite (.unlock (.unlock (.ret rfl))) (.write (fun h => leaves_compressAt h c a b loc) (.unlock (.unlockObsolete (.unlock (.ret rfl)))))
  | _ => exact .panic

theorem removeChildAndShrink_sim (b : UInt8) (p c : Addr) (v : Nat) (loc : Loc) : Sim f Eq (removeChildAndShrink b p c v loc) (removeChildAndShrink b p c v loc) := by
  unfold removeChildAndShrink
  refine .read fun n => ?_
  obtain ⟨ver, num, plen, pre, pl, kids⟩ := n
  cases kids with
  | n4 keys children =>
    cases pl with
    | some l => exact .write (fun h => leaves_storeLoc f h loc (.leaf l)) (.unlockObsolete (.unlock (.ret rfl)))
    | none =>
      refine Sim.ite (c := num = 1) (.write (fun h => ?_) (.unlockObsolete (.unlock (.ret rfl)))) (Sim.ite (c := keys[0]? = some b) (compressChild_sim _ _ _ _ _) (compressChild_sim _ _ _ _ _))
      have := leaves_allocAt f h loc newNode4
      rwa [leaves_newNode4] at this
  | _ => exact .write (fun h => leaves_shrinkAt f h c b loc) (.unlockObsolete (.unlock (.ret rfl)))

include hf in
theorem leaves_prefixMatch (n : Node) (key : Bytes) : prefixMatch (n.leaves f) key = prefixMatch n key := by
  unfold prefixMatch
  show (match n.prefixLeaf.map f with | some l => _ | none => _) = _
  cases n.prefixLeaf with
  | none => rfl
  | some l => exact leaves_matchKey hf l key

include hf in
theorem removeHere_sim (key : Bytes) (p : Addr) (pv : Nat) (c : Addr) (v : Nat) (loc : Loc) : Sim f Eq (removeHere key p pv c v loc) (removeHere key p pv c v loc) := by
  unfold removeHere
  refine .read fun n => .load fun w => .ite (.ret rfl) ?_
  rw [leaves_prefixMatch hf]
  refine .ite (.load fun w => .ret rfl) (.read fun n => ?_)
  rw [Node.leaves_shouldCompress]
  refine .ite (.cas fun ok => .ite (.ret rfl) (.cas fun ok => .ite (.unlock (.ret rfl)) (compressChild_sim _ _ _ _ _))) ?_
  exact .cas fun ok => .ite (.ret rfl) (.write (fun h => leaves_clearPrefixLeaf f h c) (.unlock (.ret rfl)))

include hf in
theorem removeLeaf_sim (key : Bytes) (b : UInt8) (l : Leaf) (pos : Nat) (p : Addr) (pv : Nat) (c : Addr) (v : Nat) (loc : Loc) :
    Sim f Eq (removeLeaf key b l pos p pv c v loc) (removeLeaf key b (f l) pos p pv c v loc) := by
  unfold removeLeaf
  rw [leaves_matchKey hf]
  refine .ite (.load fun w => .ret rfl) (.read fun n => ?_)
  rw [Node.leaves_shouldShrink]
  rcases n.shouldShrink (p == 0) with _ | (_ | _)
  · exact .panic
  · exact .cas fun ok => .ite (.ret rfl) (.write (fun h => leaves_removeChildAt f h c pos) (.unlock (.ret rfl)))
  · exact .cas fun ok => .ite (.ret rfl) (.cas fun ok => .ite (.unlock (.ret rfl)) (removeChildAndShrink_sim _ _ _ _ _))

include hf in
theorem remove_sim (key : Bytes) : ∀ (fuel depth : Nat) (p : Addr) (pv : Nat) (c : Addr) (loc : Loc), Sim f Eq (remove key fuel depth p pv c loc) (remove key fuel depth p pv c loc) := by
  intro fuel
  induction fuel with
  | zero => intros; exact .diverge
  | succ fuel ih =>
    intro depth p pv c loc
    unfold remove
    refine .wait fun v => .ite (.ret rfl) (.load fun w => .ite (.ret rfl) (.read fun n => ?_))
    rw [Node.leaves_checkPrefix]
    refine .ite (.load fun w => .ret rfl) (.ite (removeHere_sim hf _ _ _ _ _ _) ?_)
    cases key[(n.checkPrefix key depth).1]? with
    | none => exact .load fun w => .ret rfl
    | some b =>
      refine .read fun n' => .load fun w => .ite (.ret rfl) ?_
      rw [Node.leaves_findChild]
      rcases n'.findChild b with _ | ⟨l | a, slot, pos⟩
      · exact .ret rfl
      · exact removeLeaf_sim hf _ _ _ _ _ _ _ _ _
      · exact ih _ _ _ _ _

include hf in
theorem delete_sim (key : Bytes) : ∀ fuel, Sim f Eq (delete key fuel) (delete key fuel) := by
  intro fuel
  induction fuel with
  | zero => exact .diverge
  | succ fuel ih =>
    unfold delete
    refine (Sim.start fun a v => remove_sim hf key fuel 0 0 v a (0, 0)).bind ?_
    rintro o _ rfl
    cases o with
    | false => exact ih
    | true => exact .ret rfl

end

/-! ## Runs -/

/-- The leaf whose value is what the name in `l` stands for. -/
def named (g : Bytes → Bytes) (l : Leaf) : Leaf := newLeaf l.key (g l.value)

/-- The call with the value instead of the name. -/
def Props.Call.named (g : Bytes → Bytes) : Call → Call
  | .get k => .get k
  | .put k v => .put k (g v)
  | .delete k => .delete k

theorem leaf_key_lt (l : Leaf) : l.key.length < 2 ^ 32 := by
  have h : l.keyLen < 2 ^ 32 := by
    unfold Leaf.keyLen
    generalize l.mem.drop 1 = m
    match m with
    | a :: b :: c :: d :: _ =>
      simp only [uint32, Option.getD_some]
      have := a.toNat_lt; have := b.toNat_lt; have := c.toNat_lt; have := d.toNat_lt
      omega
    | [] => simp [uint32]
    | [_] => simp [uint32]
    | [_, _] => simp [uint32]
    | [_, _, _] => simp [uint32]
  unfold Leaf.key
  rw [List.length_take]
  omega

theorem named_key (g : Bytes → Bytes) (l : Leaf) : (named g l).key = l.key := newLeaf_key (leaf_key_lt l)

theorem named_value {g : Bytes → Bytes} (hg : ∀ x, (g x).length < 2 ^ 32) (l : Leaf) : (named g l).value = g l.value := newLeaf_value (leaf_key_lt l) (hg _)

theorem named_newLeaf (g : Bytes → Bytes) {k v : Bytes} (hk : k.length < 2 ^ 32) (hv : v.length < 2 ^ 32) : named g (newLeaf k v) = newLeaf k (g v) := by
  unfold named
  rw [newLeaf_key hk, newLeaf_value hk hv]

/-- What corresponds to the call in the run with values. -/
inductive Proc.Sim (g : Bytes → Bytes) : Proc → Proc → Prop
  | idle : Sim g .idle .idle
  | running {c p p'} : Prog.Sim (named g) (fun o o' => o' = o.map g) p p' → Sim g (.running c p) (.running (c.named g) p')
  | done {c o} : Sim g (.done c o) (.done (c.named g) (o.map g))
  | crashed {c} : Sim g (.crashed c) (.crashed (c.named g))

/-- The state with values, for the one with names. -/
structure Conf.Sim (g : Bytes → Bytes) (σ τ : Conf) : Prop where
  heap : τ.heap = Heap.leaves (named g) σ.heap
  owner : τ.owner = σ.owner
  procs : ∀ i, Proc.Sim g (σ.procs i) (τ.procs i)

theorem Conf.Sim.to {g : Bytes → Bytes} {σ τ : Conf} (h : Conf.Sim g σ τ) (i : Nat) {hp : Heap} {p p' : Proc} (e : Proc.Sim g p p') :
    Conf.Sim g (σ.to i hp p) (τ.to i (Heap.leaves (named g) hp) p') := by
  refine ⟨rfl, h.owner, fun j => ?_⟩
  unfold Conf.to
  dsimp only
  split
  · exact e
  · exact h.procs j

theorem Conf.Sim.own {g : Bytes → Bytes} {σ τ : Conf} (h : Conf.Sim g σ τ) (a : Addr) (o : Option Nat) : Conf.Sim g (σ.own a o) (τ.own a o) := by
  refine ⟨h.heap, ?_, h.procs⟩
  show upd τ.owner a o = upd σ.owner a o
  rw [h.owner]

theorem prog_sim {g : Bytes → Bytes} (hg : ∀ x, (g x).length < 2 ^ 32) {c : Call} (hc : c.Fits) (fuel : Nat) :
    Prog.Sim (named g) (fun o o' => o' = o.map g) (c.prog fuel) ((c.named g).prog fuel) := by
  cases c with
  | get k => exact get_sim (named_key g) (named_value hg) k fuel
  | put k v => exact (put_sim (named_key g) (named_newLeaf g hc.1 hc.2) fuel).bind fun _ _ _ => .ret rfl
  | delete k => exact (delete_sim (named_key g) k fuel).bind fun _ _ _ => .ret rfl

theorem named_fits {g : Bytes → Bytes} (hg : ∀ x, (g x).length < 2 ^ 32) {c : Call} (hc : c.Fits) : (c.named g).Fits := by
  cases c with
  | get k => trivial
  | put k v => exact ⟨hc.1, hg v⟩
  | delete k => trivial

theorem faulty_sim {g : Bytes → Bytes} {h : Heap} {p p' : Prog (Option Bytes)} (e : Prog.Sim (named g) (fun o o' => o' = o.map g) p p') (hp : Faulty h p) : Faulty (Heap.leaves (named g) h) p' := by
  cases e <;> simp only [Faulty, heap_get, Option.map_eq_none_iff] at hp ⊢ <;> try exact hp
  next e _ => rw [e, hp]; rfl

/-- Every step with names is one with values. -/
theorem step_sim {g : Bytes → Bytes} (hg : ∀ x, (g x).length < 2 ^ 32) {i : Nat} {σ σ' τ : Conf} (hs : Step i σ σ') (hr : Conf.Sim g σ τ) : ∃ τ', Step i τ τ' ∧ Conf.Sim g σ' τ' := by
  have key : ∀ {c p}, σ.procs i = .running c p → ∃ p', τ.procs i = .running (c.named g) p' ∧ Prog.Sim (named g) (fun o o' => o' = o.map g) p p' := by
    intro c p e
    have h := hr.procs i
    rw [e] at h
    generalize τ.procs i = q at h
    cases h with
    | running h => exact ⟨_, rfl, h⟩
  have hget : ∀ {a : Nat} {n : Node}, σ.heap[a]? = some n → τ.heap[a]? = some (n.leaves (named g)) := by
    intro a n e
    rw [hr.heap, heap_get, e]
    rfl
  have hsv : ∀ a v, setVer τ.heap a v = Heap.leaves (named g) (setVer σ.heap a v) := by
    intro a v
    rw [hr.heap, heap_setVer]
  cases hs with
  | call c fuel e hc =>
    have h := hr.procs i
    rw [e] at h
    generalize hq : τ.procs i = q at h
    cases h
    refine ⟨_, .call (c.named g) fuel hq (named_fits hg hc), ?_⟩
    rw [hr.heap]
    exact hr.to i (.running (prog_sim hg hc fuel))
  | ret e =>
    obtain ⟨p', e', h⟩ := key e
    cases h with
    | ret h =>
      subst h
      refine ⟨_, .ret e', ?_⟩
      rw [hr.heap]
      exact hr.to i .done
  | crash e hp =>
    obtain ⟨p', e', h⟩ := key e
    refine ⟨_, .crash e' (by rw [hr.heap]; exact faulty_sim h hp), ?_⟩
    rw [hr.heap]
    exact hr.to i .crashed
  | wait e hn hl =>
    obtain ⟨p', e', h⟩ := key e
    cases h with
    | wait h =>
      refine ⟨_, .wait e' (hget hn) hl, ?_⟩
      rw [hr.heap]
      exact hr.to i (.running (h _))
  | load e hn =>
    obtain ⟨p', e', h⟩ := key e
    cases h with
    | load h =>
      refine ⟨_, .load e' (hget hn), ?_⟩
      rw [hr.heap]
      exact hr.to i (.running (h _))
  | cas e hn hv =>
    obtain ⟨p', e', h⟩ := key e
    cases h with
    | cas h =>
      refine ⟨_, .cas e' (hget hn) hv, ?_⟩
      rw [hsv]
      exact (hr.to i (.running (h _))).own _ _
  | casFail e hn hv =>
    obtain ⟨p', e', h⟩ := key e
    cases h with
    | cas h =>
      refine ⟨_, .casFail e' (hget hn) hv, ?_⟩
      rw [hr.heap]
      exact hr.to i (.running (h _))
  | lockFail e hn hl ho =>
    obtain ⟨p', e', h⟩ := key e
    cases h with
    | lock h =>
      refine ⟨_, .lockFail e' (hget hn) hl ho, ?_⟩
      rw [hr.heap]
      exact hr.to i (.running (h _))
  | lock e hn hl ho =>
    obtain ⟨p', e', h⟩ := key e
    cases h with
    | lock h =>
      refine ⟨_, .lock e' (hget hn) hl ho, ?_⟩
      rw [hsv]
      exact (hr.to i (.running (h _))).own _ _
  | unlock e hn =>
    obtain ⟨p', e', h⟩ := key e
    cases h with
    | unlock h =>
      refine ⟨_, .unlock e' (hget hn), ?_⟩
      rw [hsv]
      exact (hr.to i (.running h)).own _ _
  | unlockObsolete e hn =>
    obtain ⟨p', e', h⟩ := key e
    cases h with
    | unlockObsolete h =>
      refine ⟨_, .unlockObsolete e' (hget hn), ?_⟩
      rw [hsv]
      exact (hr.to i (.running h)).own _ _
  | read r e hn hcap hv =>
    obtain ⟨p', e', h⟩ := key e
    cases h with
    | read h =>
      refine ⟨_, .read (r.leaves (named g)) e' (hget hn) (by rw [Node.leaves_cap, Node.leaves_cap, hcap]) (fun hh => by rw [hv hh]), ?_⟩
      rw [hr.heap]
      exact hr.to i (.running (h _))
  | readRoot e hn =>
    obtain ⟨p', e', h⟩ := key e
    cases h with
    | readRoot h =>
      refine ⟨_, .readRoot e' (hget hn), ?_⟩
      rw [hr.heap, Node.leaves_root]
      exact hr.to i (.running (h _))
  | choose b e =>
    obtain ⟨p', e', h⟩ := key e
    cases h with
    | choose h =>
      refine ⟨_, .choose b e', ?_⟩
      rw [hr.heap]
      exact hr.to i (.running (h _))
  | write e hw =>
    obtain ⟨p', e', h⟩ := key e
    cases h with
    | write hg' h =>
      refine ⟨_, .write e' (by rw [hr.heap, hg', hw]; rfl), ?_⟩
      exact hr.to i (.running h)

theorem new_leaves (f : Leaf → Leaf) : Heap.leaves f new = new := by
  show [_, Node.leaves f newNode4] = _
  rw [leaves_newNode4]
  rfl

theorem init_sim (g : Bytes → Bytes) : Conf.Sim g Conf.init Conf.init := ⟨(new_leaves _).symm, rfl, fun _ => .idle⟩

/-- Every run with names is one with values. -/
theorem run_sim {g : Bytes → Bytes} (hg : ∀ x, (g x).length < 2 ^ 32) {T : Nat} {σ : Nat → Conf} {who : Nat → Nat} (h : Run T σ who) :
    ∃ τ, Run T τ who ∧ ∀ t, t ≤ T → Conf.Sim g (σ t) (τ t) := by
  classical
  have hex : ∀ t (τ : Conf), ∃ τ', (t < T → Conf.Sim g (σ t) τ → Step (who t) τ τ' ∧ Conf.Sim g (σ (t + 1)) τ') := by
    intro t τ
    by_cases ht : t < T ∧ Conf.Sim g (σ t) τ
    · obtain ⟨τ', h1, h2⟩ := step_sim hg (h.step t ht.1) ht.2
      exact ⟨τ', fun _ _ => ⟨h1, h2⟩⟩
    · exact ⟨τ, fun h1 h2 => absurd ⟨h1, h2⟩ ht⟩
  choose nxt hnxt using hex
  let τ : Nat → Conf := fun t => Nat.rec Conf.init (fun t c => nxt t c) t
  have hsim : ∀ t, t ≤ T → Conf.Sim g (σ t) (τ t) := by
    intro t
    induction t with
    | zero => intro _; rw [h.init]; exact init_sim g
    | succ t ih => intro ht; exact (hnxt t (τ t) (by omega) (ih (by omega))).2
  exact ⟨τ, ⟨rfl, fun t ht => (hnxt t (τ t) ht (hsim t (by omega))).1⟩, hsim⟩

end Art
