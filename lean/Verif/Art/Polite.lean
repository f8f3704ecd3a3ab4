import Verif.Art.Brief

/-!
# What programs read and what critical sections touch

Two conditions on programs. A critical section reads and writes nodes whose locks the call holds, and new nodes (`Local`). A racy read
happens at a version that the call has found on the node before, and that was neither locked nor obsolete, unless the call holds the
lock itself (`Polite`).
-/

set_option linter.unusedSimpArgs false

namespace Art

open Surf Spec Props

/-- `f` reads only nodes of `L`, changes only nodes of `L`, and these neither in version nor in kind; besides it may add nodes. -/
def Local (f : Heap → Option Heap) (L : List Addr) : Prop :=
  ∀ h g : Heap, h.length = g.length → (∀ a ∈ L, h[a]? = g[a]?) →
    (f h = none ∧ f g = none) ∨ ∃ h' g', f h = some h' ∧ f g = some g' ∧ h'.length = g'.length ∧ h.length ≤ h'.length ∧
      (∀ a : Nat, a ∈ L ∨ h.length ≤ a → h'[a]? = g'[a]?) ∧ (∀ a : Nat, a ∉ L → a < h.length → h'[a]? = h[a]? ∧ g'[a]? = g[a]?) ∧
      ∀ (a : Nat) n, h[a]? = some n → ∃ n', h'[a]? = some n' ∧ n'.version = n.version ∧ n'.cap = n.cap

/-- A call that holds the locks of `L` and has found the versions of `K` keeps to the rules. -/
def Polite {α : Type} : Prog α → List Addr → List (Addr × Nat) → Prop
  | .ret _, L, _ => L = []
  | .panic, _, _ => True
  | .diverge, _, _ => True
  | .wait a k, L, K => ∀ v, locked v = false → Polite (k v) L ((a, v) :: K)
  | .load _ k, L, K => ∀ v, Polite (k v) L K
  | .cas a v k, L, K => locked v = false ∧ (a ∉ L → Polite (k true) (a :: L) ((a, v + 2) :: K)) ∧ Polite (k false) L K
  | .lock a k, L, K => (a ∉ L → Polite (k true) (a :: L) K) ∧ Polite (k false) L K
  | .unlock a k, L, K => a ∈ L ∧ Polite k (L.filter (· ≠ a)) K
  | .unlockObsolete a k, L, K => a ∈ L ∧ Polite k (L.filter (· ≠ a)) K
  | .read a v k, L, K => (a, v) ∈ K ∧ (a ∈ L ∨ locked v = false ∧ obsolete v = false) ∧ ∀ r, Polite (k r) L K
  | .readRoot k, L, K => ∀ r, Polite (k r) L K
  | .choose k, L, K => ∀ b, Polite (k b) L K
  | .write f k, L, K => Local f L ∧ Polite k L K

theorem Polite.bind {α β : Type} {f : α → Prog β} : ∀ {p : Prog α} {L : List Addr} {K : List (Addr × Nat)},
    (∀ a K', (∀ x ∈ K, x ∈ K') → Polite (f a) [] K') → Polite p L K → Polite (p.bind f) L K := by
  intro p
  induction p with
  | ret a => intro L K hf h; cases h; exact hf a K fun _ => id
  | panic => intros; trivial
  | diverge => intros; trivial
  | wait a k ih => intro L K hf h v hv; exact ih v (fun x K' hK => hf x K' fun y hy => hK y (List.mem_cons_of_mem _ hy)) (h v hv)
  | load a k ih => intro L K hf h v; exact ih v hf (h v)
  | cas a v k ih =>
    rintro L K hf ⟨hv, h, h'⟩
    exact ⟨hv, fun ha => ih _ (fun x K' hK => hf x K' fun y hy => hK y (List.mem_cons_of_mem _ hy)) (h ha), ih _ hf h'⟩
  | lock a k ih => rintro L K hf ⟨h, h'⟩; exact ⟨fun ha => ih _ hf (h ha), ih _ hf h'⟩
  | unlock a k ih => rintro L K hf ⟨h, h'⟩; exact ⟨h, ih hf h'⟩
  | unlockObsolete a k ih => rintro L K hf ⟨h, h'⟩; exact ⟨h, ih hf h'⟩
  | read a v k ih => rintro L K hf ⟨h1, h2, h3⟩; exact ⟨h1, h2, fun r => ih r hf (h3 r)⟩
  | readRoot k ih => intro L K hf h r; exact ih r hf (h r)
  | choose k ih => intro L K hf h r; exact ih r hf (h r)
  | write g k ih => rintro L K hf ⟨h, h'⟩; exact ⟨h, ih hf h'⟩

/-! ## The functions of the critical sections -/

theorem Node.insertChild_same {n n' : Node} {b : UInt8} {c : Ref} (h : n.insertChild b c = some n') : n'.version = n.version ∧ n'.cap = n.cap := by
  unfold Node.insertChild at h
  split at h <;> simp [Option.bind_eq_some_iff] at h
  · obtain ⟨_, _, _, _, rfl⟩ := h; simp [Node.cap, *]
  · obtain ⟨_, _, _, _, rfl⟩ := h; simp [Node.cap, *]
  · obtain ⟨_, _, _, _, _, _, _, rfl⟩ := h; simp [Node.cap, *]
  · obtain ⟨_, _, rfl⟩ := h; simp [Node.cap, *]

theorem Node.removeChild_same {n n' : Node} {i : Nat} (h : n.removeChild i = some n') : n'.version = n.version ∧ n'.cap = n.cap := by
  unfold Node.removeChild at h
  split at h <;> simp [Option.bind_eq_some_iff] at h
  · obtain ⟨_, _, _, _, _, _, rfl⟩ := h; simp [Node.cap, *]
  · obtain ⟨_, _, _, _, _, _, rfl⟩ := h; simp [Node.cap, *]
  · obtain ⟨_, _, _, _, _, _, _, _, rfl⟩ := h; simp [Node.cap, *]
  · obtain ⟨_, _, rfl⟩ := h; simp [Node.cap, *]
  · subst h; simp

theorem Node.setSlot_same {n n' : Node} {i : Nat} {r : Ref} (h : n.setSlot i r = some n') : n'.version = n.version ∧ n'.cap = n.cap := by
  unfold Node.setSlot at h
  split at h <;> simp at h
  · obtain ⟨_, _, rfl⟩ := h; simp [Node.cap, *]
  · obtain ⟨_, _, rfl⟩ := h; simp [Node.cap, *]
  · obtain ⟨_, _, rfl⟩ := h; simp [Node.cap, *]
  · obtain ⟨_, _, rfl⟩ := h; simp [Node.cap, *]
  · subst h; simp [Node.cap, *]

theorem local_some (L : List Addr) : Local some L := by
  intro h g hl ha
  refine .inr ⟨h, g, rfl, rfl, hl, Nat.le_refl _, ?_, fun a _ _ => ⟨rfl, rfl⟩, fun a n hn => ⟨n, hn, rfl, rfl⟩⟩
  rintro a (h1 | h1)
  · exact ha a h1
  · rw [List.getElem?_eq_none h1, List.getElem?_eq_none (by omega)]

theorem local_none (L : List Addr) : Local (fun _ => none) L := fun _ _ _ _ => .inl ⟨rfl, rfl⟩

/-- One after the other. -/
theorem Local.seq {f f' : Heap → Option Heap} {L : List Addr} (h1 : Local f L) (h2 : Local f' L) : Local (fun h => (f h).bind f') L := by
  intro h g hl ha
  rcases h1 h g hl ha with ⟨e1, e2⟩ | ⟨h', g', e1, e2, a1, a2, a3, a4, a5⟩
  · exact .inl ⟨by simp [e1], by simp [e2]⟩
  · rcases h2 h' g' a1 (fun a ha => a3 a (.inl ha)) with ⟨e3, e4⟩ | ⟨h'', g'', e3, e4, b1, b2, b3, b4, b5⟩
    · exact .inl ⟨by simp [e1, e3], by simp [e2, e4]⟩
    · refine .inr ⟨h'', g'', by simp [e1, e3], by simp [e2, e4], b1, by omega, ?_, ?_, ?_⟩
      · rintro a (q | q)
        · exact b3 a (.inl q)
        · by_cases e : a ∈ L
          · exact b3 a (.inl e)
          · by_cases e' : h'.length ≤ a
            · exact b3 a (.inr e')
            · obtain ⟨c1, c2⟩ := b4 a e (by omega)
              rw [c1, c2]
              exact a3 a (.inr q)
      · intro a q1 q2
        obtain ⟨c1, c2⟩ := b4 a q1 (by omega)
        obtain ⟨d1, d2⟩ := a4 a q1 q2
        exact ⟨c1.trans d1, c2.trans d2⟩
      · intro a n hn
        obtain ⟨n', c1, c2, c3⟩ := a5 a n hn
        obtain ⟨n'', d1, d2, d3⟩ := b5 a n' c1
        exact ⟨n'', d1, d2.trans c2, d3.trans c3⟩

/-- Something that depends on a node whose lock is held. -/
theorem Local.node {f : Node → Heap → Option Heap} {L : List Addr} {a : Addr} (ha : a ∈ L) (h : ∀ n, Local (f n) L) : Local (fun h => (h[a]?).bind fun n => f n h) L := by
  intro x y hl hL
  have e := hL a ha
  cases hx : x[a]? with
  | none => rw [hx] at e; exact .inl ⟨by simp [hx], by simp [← e]⟩
  | some n =>
    rw [hx] at e
    have := h n x y hl hL
    simp only [hx, ← e, Option.bind_some]
    exact this

/-- Something that may panic, whatever the heap. -/
theorem Local.opt {β : Type} {o : Option β} {f : β → Heap → Option Heap} {L : List Addr} (h : ∀ x, o = some x → Local (f x) L) : Local (fun h => o.bind fun x => f x h) L := by
  cases o with
  | none => exact local_none L
  | some x => exact h x rfl

/-- The node at `a`, whose lock is held, is changed by a function that keeps version and kind. -/
theorem local_change {f : Node → Option Node} {L : List Addr} {a : Addr} (ha : a ∈ L) (hf : ∀ n n', f n = some n' → n'.version = n.version ∧ n'.cap = n.cap) :
    Local (fun h => (h[a]?).bind fun n => (f n).bind fun n' => some (h.set a n')) L := by
  intro x y hl hL
  have e := hL a ha
  cases hx : x[a]? with
  | none => rw [hx] at e; exact .inl ⟨by simp [hx], by simp [← e]⟩
  | some n =>
    rw [hx] at e
    simp only [hx, ← e, Option.bind_some]
    cases hn : f n with
    | none => exact .inl ⟨rfl, rfl⟩
    | some n' =>
      have hlt := (List.getElem?_eq_some_iff.mp hx).1
      refine .inr ⟨_, _, rfl, rfl, by simp [hl], by simp, ?_, ?_, ?_⟩
      · intro c hc
        by_cases ec : c = a
        · subst ec
          rw [List.getElem?_set_self hlt, List.getElem?_set_self (by omega)]
        · rw [List.getElem?_set_ne (Ne.symm ec), List.getElem?_set_ne (Ne.symm ec)]
          rcases hc with hc | hc
          · exact hL c hc
          · rw [List.getElem?_eq_none hc, List.getElem?_eq_none (by omega)]
      · intro c hc _
        have ec : c ≠ a := by rintro rfl; exact hc ha
        exact ⟨List.getElem?_set_ne (Ne.symm ec), List.getElem?_set_ne (Ne.symm ec)⟩
      · intro c m hm
        by_cases ec : c = a
        · subst ec
          rw [hx] at hm
          cases hm
          exact ⟨n', List.getElem?_set_self hlt, hf n n' hn⟩
        · exact ⟨m, by rw [List.getElem?_set_ne (Ne.symm ec)]; exact hm, rfl, rfl⟩

theorem local_storeLoc {L : List Addr} {loc : Loc} (h : loc.1 ∈ L) (r : Ref) : Local (storeLoc · loc r) L :=
  local_change (f := fun n => n.setSlot loc.2 r) h fun _ _ => Node.setSlot_same

theorem local_append (L : List Addr) (n : Node) : Local (fun h => some (h ++ [n])) L := by
  intro x y hl ha
  refine .inr ⟨_, _, rfl, rfl, by simp [hl], by simp, ?_, ?_, ?_⟩
  · intro a hc
    by_cases e : a < x.length
    · rcases hc with hc | hc
      · rw [List.getElem?_append_left e, List.getElem?_append_left (by omega)]
        exact ha a hc
      · omega
    · rw [List.getElem?_append_right (by omega), List.getElem?_append_right (by omega), hl]
  · intro a _ hlt
    exact ⟨List.getElem?_append_left hlt, List.getElem?_append_left (by omega)⟩
  · intro a m hm
    exact ⟨m, by rw [List.getElem?_append_left (List.getElem?_eq_some_iff.mp hm).1]; exact hm, rfl, rfl⟩

theorem local_allocAt {L : List Addr} {loc : Loc} (h : loc.1 ∈ L) (n : Node) : Local (allocAt · loc n) L := by
  intro x y hl ha
  have := (local_append L n).seq (local_storeLoc h (.node x.length)) x y hl ha
  simp only [Option.bind_some] at this
  simp only [allocAt, ← hl]
  exact this

theorem local_updatePrefixLeaf {L : List Addr} {a : Addr} (h : a ∈ L) (key value : Bytes) : Local (updatePrefixLeaf · a key value) L :=
  local_change (f := fun n => some { n with prefixLeaf := some (newLeaf key value) }) h (by rintro n _ ⟨⟩; exact ⟨rfl, rfl⟩)

theorem local_clearPrefixLeaf {L : List Addr} {a : Addr} (h : a ∈ L) : Local (clearPrefixLeaf · a) L :=
  local_change (f := fun n => some { n with prefixLeaf := none }) h (by rintro n _ ⟨⟩; exact ⟨rfl, rfl⟩)

theorem local_insertChildAt {L : List Addr} {a : Addr} (h : a ∈ L) (b : UInt8) (c : Ref) : Local (insertChildAt · a b c) L :=
  local_change (f := fun n => n.insertChild b c) h fun _ _ => Node.insertChild_same

theorem local_removeChildAt {L : List Addr} {a : Addr} (h : a ∈ L) (i : Nat) : Local (removeChildAt · a i) L :=
  local_change (f := fun n => n.removeChild i) h fun _ _ => Node.removeChild_same

theorem local_growAt {L : List Addr} {a : Addr} {loc : Loc} (h : a ∈ L) (hloc : loc.1 ∈ L) (b : UInt8) (c : Ref) : Local (growAt · a b c loc) L :=
  Local.node h fun _ => Local.opt fun new _ => local_allocAt hloc new

theorem local_shrinkAt {L : List Addr} {a : Addr} {loc : Loc} (h : a ∈ L) (hloc : loc.1 ∈ L) (b : UInt8) : Local (shrinkAt · a b loc) L :=
  Local.node h fun _ => Local.opt fun new _ => local_allocAt hloc new

theorem local_updateOrExpand {L : List Addr} {loc : Loc} (hloc : loc.1 ∈ L) (l : Leaf) (key value : Bytes) (depth : Nat) : Local (updateOrExpand · l key value depth loc) L := by
  unfold updateOrExpand
  by_cases e : l.matchKey key = true
  · simp only [if_pos e]
    exact local_storeLoc hloc _
  · simp only [if_neg e]
    exact Local.opt fun _ _ => Local.opt fun new _ => local_allocAt hloc new

/-- A node whose lock is held is changed, and more is done with what was found there. -/
theorem Local.change {β : Type} {F : Node → Option (Node × β)} {G : β → Heap → Option Heap} {L : List Addr} {a : Addr} (ha : a ∈ L)
    (hF : ∀ n n' x, F n = some (n', x) → n'.version = n.version ∧ n'.cap = n.cap) (hG : ∀ x, Local (G x) L) :
    Local (fun h => (h[a]?).bind fun n => (F n).bind fun p => G p.2 (h.set a p.1)) L := by
  intro x y hl hL
  have e := hL a ha
  cases hx : x[a]? with
  | none => rw [hx] at e; exact .inl ⟨by simp [hx], by simp [← e]⟩
  | some n =>
    rw [hx] at e
    simp only [hx, ← e, Option.bind_some]
    cases hn : F n with
    | none => exact .inl ⟨rfl, rfl⟩
    | some p =>
      obtain ⟨n', z⟩ := p
      have := (local_change (f := fun m => if m = n then some n' else none) ha (by
        intro m m' hm
        split at hm
        next q => cases hm; subst q; exact hF m _ z hn
        next => simp at hm)).seq (hG z) x y hl hL
      simp only [hx, ← e, Option.bind_some, if_true] at this
      simp only [Option.bind_some]
      exact this

theorem local_insertSplitPrefix {L : List Addr} {a : Addr} {loc : Loc} (h : a ∈ L) (hloc : loc.1 ∈ L) (key full value : Bytes) (depth p : Nat) :
    Local (insertSplitPrefix · a key full value depth p loc) L := by
  have := Local.change (F := fun n => do
      let new ← placeLeaf newNode4 (depth + p) key (newLeaf key value)
      let new := { new with prefixLen := p, pre := Node.pad8 (n.pre.take (min maxPrefixLen p)) }
      let (pos, newLen, tmp) ← splitRest n full depth p
      let new ← new.insertChild pos (.node a)
      return ({ n with prefixLen := newLen, pre := tmp }, new)) (G := fun new h => allocAt h loc new) h (by
    intro n n' x hx
    simp only [Option.bind_eq_bind, Option.bind_eq_some_iff, Option.pure_def, Option.some.injEq, Prod.mk.injEq] at hx
    obtain ⟨_, _, _, _, _, _, rfl, _⟩ := hx
    exact ⟨rfl, rfl⟩) fun new => local_allocAt hloc new
  simpa only [insertSplitPrefix, Option.bind_eq_bind, Option.bind_assoc, Option.pure_def, Option.bind_some] using this

theorem local_compressAt {L : List Addr} {a c : Addr} {loc : Loc} (h : a ∈ L) (hc : c ∈ L) (hloc : loc.1 ∈ L) (b : UInt8) : Local (compressAt · a c b loc) L := by
  unfold compressAt
  refine Local.node h fun n => ?_
  exact Local.change (F := fun child => some ({ child with pre := compressedPrefix n child b, prefixLen := child.prefixLen + n.prefixLen + 1 }, ())) (G := fun _ h => storeLoc h loc (.node c)) hc
    (by rintro m m' x ⟨⟩; exact ⟨rfl, rfl⟩) fun _ => local_storeLoc hloc _

/-! ## The operations -/

section
variable {α : Type} {L : List Addr} {K : List (Addr × Nat)}

theorem polite_ret (x : α) : Polite (.ret x) [] K := rfl
theorem polite_wait {a : Addr} {k : Nat → Prog α} (h : ∀ v, locked v = false → Polite (k v) L ((a, v) :: K)) : Polite (.wait a k) L K := h
theorem polite_load {a : Addr} {k : Nat → Prog α} (h : ∀ v, Polite (k v) L K) : Polite (.load a k) L K := h
theorem polite_read {a : Addr} {v : Nat} {k : Node → Prog α} (h1 : (a, v) ∈ K) (h2 : locked v = false) (h3 : obsolete v = false) (h : ∀ n, Polite (k n) L K) : Polite (.read a v k) L K :=
  ⟨h1, .inr ⟨h2, h3⟩, h⟩
theorem polite_cas {a : Addr} {v : Nat} {k : Bool → Prog α} (hv : locked v = false) (h : a ∉ L → Polite (k true) (a :: L) ((a, v + 2) :: K)) (h' : Polite (k false) L K) : Polite (.cas a v k) L K :=
  ⟨hv, h, h'⟩
theorem polite_write {f : Heap → Option Heap} {k : Prog α} (h : Local f L) (h' : Polite k L K) : Polite (.write f k) L K := ⟨h, h'⟩

theorem polite_start {k : Addr → Nat → Prog α} (hk : ∀ a v K, locked v = false → Polite (k a v) [] K) : Polite (start k) [] K := by
  unfold start
  intro b
  cases b
  · intro v hv r
    dsimp only
    split
    · exact hk _ _ _ hv
    · trivial
  · intro r v hv
    dsimp only
    split
    · exact hk _ _ _ hv
    · trivial

theorem polite_search (key : Bytes) : ∀ (fuel depth : Nat) (parent : Addr) (pv : Nat) (curr : Addr) (K : List (Addr × Nat)), Polite (search key fuel depth parent pv curr) [] K := by
  intro fuel
  induction fuel with
  | zero => intros; trivial
  | succ fuel ih =>
    intro depth parent pv curr K
    unfold search
    refine polite_wait fun v hv => ?_
    split
    · exact polite_ret _
    next ho =>
    have ho : obsolete v = false := by simpa using ho
    refine polite_load fun w => ?_
    split
    · exact polite_ret _
    refine polite_read List.mem_cons_self hv ho fun n => ?_
    split
    · exact polite_load fun _ => polite_ret _
    refine polite_read List.mem_cons_self hv ho fun n' => polite_load fun w => ?_
    split
    · exact polite_ret _
    split
    · exact polite_ret _
    · exact polite_ret _
    · exact ih _ _ _ _ _

theorem polite_fullKey : ∀ (fuel : Nat) (curr : Addr) (v : Nat) (K : List (Addr × Nat)), (curr, v) ∈ K → locked v = false → obsolete v = false → Polite (fullKey fuel curr v) [] K := by
  intro fuel
  induction fuel with
  | zero => intros; trivial
  | succ fuel ih =>
    intro curr v K hK hv ho
    unfold fullKey
    refine polite_read hK hv ho fun n => ?_
    split
    · exact polite_load fun _ => polite_ret _
    refine polite_read hK hv ho fun n => ?_
    split
    · trivial
    refine polite_load fun w => ?_
    split
    · exact polite_ret _
    split
    · trivial
    · exact polite_load fun _ => polite_ret _
    · refine polite_wait fun v' hv' => ?_
      split
      · exact polite_ret _
      next ho' => exact ih _ _ _ List.mem_cons_self hv' (by simpa using ho')

theorem polite_mismatchLoop (key : Bytes) (depth : Nat) (curr : Addr) (v : Nat) (parent : Addr) (pv : Nat) (hv : locked v = false) (ho : obsolete v = false) :
    ∀ (fuel : Nat) (got : Option Bytes) (K : List (Addr × Nat)), (curr, v) ∈ K → Polite (mismatchLoop key depth curr v parent pv fuel got) [] K := by
  intro fuel
  induction fuel with
  | zero => intros; trivial
  | succ fuel ih =>
    intro got K hK
    unfold mismatchLoop
    refine polite_load fun w => ?_
    split
    · exact polite_ret _
    refine polite_load fun w => ?_
    split
    · exact polite_ret _
    split
    · refine polite_read hK hv ho fun n => ?_
      split
      · exact polite_ret _
      · trivial
    · exact Polite.bind (fun got K' hK' => ih got K' (hK' _ hK)) (polite_fullKey _ _ _ _ hK hv ho)

theorem polite_mismatch (fuel : Nat) (key : Bytes) (depth : Nat) (curr : Addr) (v : Nat) (parent : Addr) (pv : Nat) (hv : locked v = false) (ho : obsolete v = false) (hK : (curr, v) ∈ K) :
    Polite (prefixMismatch fuel key depth curr v parent pv) [] K := by
  unfold prefixMismatch
  refine polite_read hK hv ho fun n => ?_
  split
  · refine polite_read hK hv ho fun n => ?_
    split
    · exact polite_ret _
    · trivial
  · exact polite_mismatchLoop _ _ _ _ _ _ hv ho _ _ _ hK

theorem polite_end1 {a : Addr} (x : α) : Polite (.unlock a (.ret x)) [a] K := by simp [Polite]

theorem polite_end2 {a b : Addr} (hab : a ∉ [b]) (x : α) : Polite (.unlock a (.unlock b (.ret x))) [a, b] K := by
  have : b ≠ a := by rintro rfl; simp at hab
  simp [Polite, this]

theorem polite_end2' {a b : Addr} (hab : a ∉ [b]) (x : α) : Polite (.unlockObsolete a (.unlock b (.ret x))) [a, b] K := by
  have : b ≠ a := by rintro rfl; simp at hab
  simp [Polite, this]

theorem polite_end3 {a b c : Addr} (hab : a ∉ [b]) (hc : c ∉ [a, b]) (x : α) : Polite (.unlock c (.unlockObsolete a (.unlock b (.ret x)))) [c, a, b] K := by
  have h1 : b ≠ a := by rintro rfl; simp at hab
  have h2 : a ≠ c := by rintro rfl; simp at hc
  have h3 : b ≠ c := by rintro rfl; simp at hc
  simp [Polite, h1, h2, h3]

theorem polite_insertHere (key value : Bytes) (b : UInt8) (parent : Addr) (pv : Nat) (curr : Addr) (v : Nat) (loc : Loc) (hv : locked v = false) (ho : obsolete v = false) (hp : locked pv = false)
    (hloc : loc.1 = parent) (hK : (curr, v) ∈ K) : Polite (insertHere key value b parent pv curr v loc) [] K := by
  unfold insertHere
  refine polite_read hK hv ho fun n => ?_
  split
  · trivial
  · refine polite_cas hp (fun _ => ?_) (polite_ret _)
    refine polite_cas hv (fun h => ?_) (polite_end1 _)
    exact polite_write (local_growAt (by simp) (by simp [hloc]) _ _) (polite_end2' h _)
  · refine polite_cas hv (fun _ => ?_) (polite_ret _)
    refine polite_load fun w => ?_
    split
    · exact polite_end1 _
    · exact polite_write (local_insertChildAt (by simp) _ _) (polite_end1 _)

theorem polite_insert (key value : Bytes) : ∀ (fuel depth : Nat) (parent : Addr) (pv : Nat) (curr : Addr) (loc : Loc) (K : List (Addr × Nat)), locked pv = false → loc.1 = parent →
    Polite (insert key value fuel depth parent pv curr loc) [] K := by
  intro fuel
  induction fuel with
  | zero => intros; trivial
  | succ fuel ih =>
    intro depth parent pv curr loc K hp hloc
    unfold insert
    refine polite_wait fun v hv => ?_
    split
    · exact polite_ret _
    next ho =>
    have ho : obsolete v = false := by simpa using ho
    refine Polite.bind (fun x K hK => ?_) (polite_mismatch _ _ _ _ _ _ _ hv ho List.mem_cons_self)
    have hK := hK _ List.mem_cons_self
    split
    · exact polite_ret _
    refine polite_read hK hv ho fun n => ?_
    split
    · refine polite_cas hp (fun _ => ?_) (polite_ret _)
      refine polite_cas hv (fun h => ?_) (polite_end1 _)
      exact polite_write (local_insertSplitPrefix (by simp) (by simp [hloc]) _ _ _ _ _) (polite_end2 h _)
    refine polite_read hK hv ho fun n => ?_
    split
    · refine polite_cas hv (fun _ => ?_) (polite_ret _)
      refine polite_load fun w => ?_
      split
      · exact polite_end1 _
      · exact polite_write (local_updatePrefixLeaf (by simp) _ _) (polite_end1 _)
    split
    · trivial
    refine polite_read hK hv ho fun n' => polite_load fun w => ?_
    split
    · exact polite_ret _
    split
    · exact polite_insertHere _ _ _ _ _ _ _ _ hv ho hp hloc hK
    · refine polite_load fun w => ?_
      split
      · exact polite_ret _
      split
      · exact polite_cas hv (fun _ => polite_write (local_updateOrExpand (by simp) _ _ _ _) (polite_end1 _)) (polite_ret _)
      · exact ih _ _ _ _ _ _ hv rfl

theorem polite_compress (idx : Nat) (parent curr : Addr) (v : Nat) (loc : Loc) (hne : curr ∉ [parent]) (hloc : loc.1 = parent) (hK : (curr, v + 2) ∈ K) :
    Polite (compressChild idx parent curr v loc) [curr, parent] K := by
  unfold compressChild
  refine ⟨hK, .inl (by simp), fun r => ?_⟩
  dsimp only
  split
  · split
    · exact polite_write (local_storeLoc (by simp [hloc]) _) (polite_end2' hne _)
    · refine ⟨fun hc => ?_, polite_end2 hne _⟩
      exact polite_write (local_compressAt (by simp) (by simp) (by simp [hloc]) _) (polite_end3 hne hc _)
    · trivial
  · trivial

theorem polite_shrink (b : UInt8) (parent curr : Addr) (v : Nat) (loc : Loc) (hne : curr ∉ [parent]) (hloc : loc.1 = parent) (hK : (curr, v + 2) ∈ K) :
    Polite (removeChildAndShrink b parent curr v loc) [curr, parent] K := by
  unfold removeChildAndShrink
  refine ⟨hK, .inl (by simp), fun r => ?_⟩
  dsimp only
  split
  · split
    · exact polite_write (local_storeLoc (by simp [hloc]) _) (polite_end2' hne _)
    · split
      · exact polite_write (local_allocAt (by simp [hloc]) _) (polite_end2' hne _)
      · split
        · exact polite_compress _ _ _ _ _ hne hloc hK
        · exact polite_compress _ _ _ _ _ hne hloc hK
  · exact polite_write (local_shrinkAt (by simp) (by simp [hloc]) _) (polite_end2' hne _)

theorem polite_removeHere (key : Bytes) (parent : Addr) (pv : Nat) (curr : Addr) (v : Nat) (loc : Loc) (hv : locked v = false) (ho : obsolete v = false) (hp : locked pv = false)
    (hloc : loc.1 = parent) (hK : (curr, v) ∈ K) : Polite (removeHere key parent pv curr v loc) [] K := by
  unfold removeHere
  refine polite_read hK hv ho fun n => polite_load fun w => ?_
  split
  · exact polite_ret _
  split
  · exact polite_load fun _ => polite_ret _
  refine polite_read hK hv ho fun n => ?_
  split
  · refine polite_cas hp (fun _ => ?_) (polite_ret _)
    refine polite_cas hv (fun h => ?_) (polite_end1 _)
    exact polite_compress _ _ _ _ _ h hloc List.mem_cons_self
  · exact polite_cas hv (fun _ => polite_write (local_clearPrefixLeaf (by simp)) (polite_end1 _)) (polite_ret _)

theorem polite_removeLeaf (key : Bytes) (b : UInt8) (l : Leaf) (pos : Nat) (parent : Addr) (pv : Nat) (curr : Addr) (v : Nat) (loc : Loc) (hv : locked v = false) (ho : obsolete v = false)
    (hp : locked pv = false) (hloc : loc.1 = parent) (hK : (curr, v) ∈ K) : Polite (removeLeaf key b l pos parent pv curr v loc) [] K := by
  unfold removeLeaf
  split
  · exact polite_load fun _ => polite_ret _
  refine polite_read hK hv ho fun n => ?_
  split
  · trivial
  · refine polite_cas hp (fun _ => ?_) (polite_ret _)
    refine polite_cas hv (fun h => ?_) (polite_end1 _)
    exact polite_shrink _ _ _ _ _ h hloc List.mem_cons_self
  · exact polite_cas hv (fun _ => polite_write (local_removeChildAt (by simp) _) (polite_end1 _)) (polite_ret _)

theorem polite_remove (key : Bytes) : ∀ (fuel depth : Nat) (parent : Addr) (pv : Nat) (curr : Addr) (loc : Loc) (K : List (Addr × Nat)), locked pv = false → loc.1 = parent →
    Polite (remove key fuel depth parent pv curr loc) [] K := by
  intro fuel
  induction fuel with
  | zero => intros; trivial
  | succ fuel ih =>
    intro depth parent pv curr loc K hp hloc
    unfold remove
    refine polite_wait fun v hv => ?_
    split
    · exact polite_ret _
    next ho =>
    have ho : obsolete v = false := by simpa using ho
    refine polite_load fun w => ?_
    split
    · exact polite_ret _
    refine polite_read List.mem_cons_self hv ho fun n => ?_
    split
    · exact polite_load fun _ => polite_ret _
    split
    · exact polite_removeHere _ _ _ _ _ _ hv ho hp hloc List.mem_cons_self
    split
    · exact polite_load fun _ => polite_ret _
    refine polite_read List.mem_cons_self hv ho fun n' => polite_load fun w => ?_
    split
    · exact polite_ret _
    split
    · exact polite_ret _
    · exact polite_removeLeaf _ _ _ _ _ _ _ _ _ hv ho hp hloc List.mem_cons_self
    · exact ih _ _ _ _ _ _ hv rfl

theorem polite_call (c : Call) (fuel : Nat) (K : List (Addr × Nat)) : Polite (c.prog fuel) [] K := by
  cases c with
  | get k =>
    induction fuel generalizing K with
    | zero => trivial
    | succ fuel ih =>
      show Polite (Art.get k (fuel + 1)) [] K
      unfold Art.get
      refine Polite.bind (fun x K _ => ?_) (polite_start fun a v K _ => polite_search _ _ _ _ _ _ _)
      split
      · exact polite_ret _
      · exact ih K
  | put k v =>
    refine Polite.bind (fun _ _ _ => polite_ret _) ?_
    induction fuel generalizing K with
    | zero => trivial
    | succ fuel ih =>
      unfold Art.put
      refine Polite.bind (fun x K _ => ?_) (polite_start fun a v K hv => polite_insert _ _ _ _ _ _ _ _ _ hv rfl)
      split
      · exact polite_ret _
      · exact ih K
  | delete k =>
    refine Polite.bind (fun _ _ _ => polite_ret _) ?_
    induction fuel generalizing K with
    | zero => trivial
    | succ fuel ih =>
      unfold Art.delete
      refine Polite.bind (fun x K _ => ?_) (polite_start fun a v K hv => polite_remove _ _ _ _ _ _ _ _ hv rfl)
      split
      · exact polite_ret _
      · exact ih K

end

end Art
