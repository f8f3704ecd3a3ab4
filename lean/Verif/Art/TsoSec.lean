import Verif.Art.Tso

/-!
# What the stores of a critical section touch

`Within`: a section loads and stores only nodes that its call has locked; a store to the dummy node (the root pointer) is the last one of its section. So what the section sees,
and what it does, depends on these nodes only (`applyAll_local`), however long its stores stay in the buffer.
-/

set_option linter.unusedSimpArgs false

namespace Art

open Surf Spec Props

/-- The stored field is not the length of the prefix. -/
def Field.Plain : Field → Prop
  | .plen _ => False
  | _ => True

theorem Field.store_cap {x : Field} {n n' : Node} (h : x.store n = some n') :
    n'.cap = n.cap ∧ n'.version = n.version ∧ n'.pre.length = n.pre.length ∧ (x.Plain → n'.prefixLen = n.prefixLen) := by
  obtain ⟨v, num, pl, pr, lf, kids⟩ := n
  cases x <;> cases kids <;> simp only [Field.store, Option.map_eq_some_iff, Option.some.injEq, reduceCtorEq] at h <;>
    first
    | (subst h; exact ⟨rfl, rfl, rfl, fun _ => rfl⟩)
    | (subst h; exact ⟨rfl, rfl, rfl, fun hp => hp.elim⟩)
    | (obtain ⟨y, hy, rfl⟩ := h
       first
       | exact ⟨rfl, rfl, rfl, fun _ => rfl⟩
       | (refine ⟨rfl, rfl, ?_, fun _ => rfl⟩
          simp only [setAt] at hy
          split at hy
          · cases hy; simp
          · cases hy))

theorem storeAt_some {a : Addr} {x : Field} {h h' : Heap} (e : storeAt a x h = some h') : ∃ n n', h[a]? = some n ∧ x.store n = some n' ∧ h' = h.set a n' := by
  unfold storeAt at e
  simp only [Option.bind_eq_some_iff, Option.map_eq_some_iff] at e
  obtain ⟨n, h1, n', h2, h3⟩ := e
  exact ⟨n, n', h1, h2, h3.symm⟩

theorem storeAt_of {a : Addr} {x : Field} {h : Heap} {n n' : Node} (h1 : h[a]? = some n) (h2 : x.store n = some n') : storeAt a x h = some (h.set a n') := by
  unfold storeAt
  rw [h1]
  show (x.store n).map _ = _
  rw [h2]
  rfl

/-- The memory of two machines is the same at the nodes of `L`. -/
def SameOn (L : List Addr) (h h' : Heap) : Prop := ∀ a ∈ L, h[a]? = h'[a]?

theorem storeAt_local {L : List Addr} {a : Addr} {x : Field} {h g : Heap} (hs : SameOn L h g) (ha : a ∈ L) :
    (storeAt a x h = none ∧ storeAt a x g = none) ∨ ∃ h' g', storeAt a x h = some h' ∧ storeAt a x g = some g' ∧ SameOn L h' g' := by
  cases e : g[a]? with
  | none =>
    refine .inl ⟨?_, ?_⟩
    · unfold storeAt; rw [hs a ha, e]; rfl
    · unfold storeAt; rw [e]; rfl
  | some n =>
    have e' : h[a]? = some n := by rw [hs a ha, e]
    cases e2 : x.store n with
    | none =>
      refine .inl ⟨?_, ?_⟩
      · unfold storeAt; rw [e']; show (x.store n).map _ = _; rw [e2]; rfl
      · unfold storeAt; rw [e]; show (x.store n).map _ = _; rw [e2]; rfl
    | some n' =>
      refine .inr ⟨_, _, storeAt_of e' e2, storeAt_of e e2, ?_⟩
      intro b hb
      by_cases eb : a = b
      · subst eb
        rw [List.getElem?_set_self (List.getElem?_eq_some_iff.mp e').1, List.getElem?_set_self (List.getElem?_eq_some_iff.mp e).1]
      · rw [List.getElem?_set_ne eb, List.getElem?_set_ne eb]
        exact hs b hb

/-! ## Where a section stores -/

/-- The rest of a section touches only nodes of `L`; `Q` holds of a place where a pointer is stored late. -/
def Within (L : List Addr) (Q : Loc → Prop) : Sec → Prop
  | .done => True
  | .panic => True
  | .load a k => a ∈ L ∧ ∀ n : Node, n.pre.length = 8 → (a = 0 → n.prefixLen = 0) → Within L Q (k n)
  | .store a x k => a ∈ L ∧ (a = 0 → k = .done ∧ x.Plain) ∧ Within L Q k
  | .link n loc => loc.1 ∈ L ∧ n.pre.length = 8
  | .late loc _ => loc.1 ∈ L ∧ loc.1 ≠ 0 ∧ Q loc

/-- The same of the stores in the buffer; `s` is what is left of the section. -/
def BufIn (L : List Addr) (s : Sec) : List Item → Prop
  | [] => True
  | .store a x :: buf => a ∈ L ∧ (a = 0 → buf = [] ∧ s = .done ∧ x.Plain) ∧ BufIn L s buf
  | .link n loc :: buf => loc.1 ∈ L ∧ n.pre.length = 8 ∧ buf = [] ∧ s = .done

section
variable {L : List Addr} {Q : Loc → Prop}

theorem within_done : Within L Q .done := trivial

theorem within_puts {a : Addr} (ha : a ∈ L) (h0 : a ≠ 0) {k : Sec} (hk : Within L Q k) : ∀ xs, Within L Q (puts a xs k)
  | [] => hk
  | _ :: xs => ⟨ha, fun h => absurd h h0, within_puts ha h0 hk xs⟩

theorem within_linkOr {o : Option Node} {loc : Loc} (hl : loc.1 ∈ L) (ho : ∀ n, o = some n → n.pre.length = 8) : Within L Q (linkOr o loc) := by
  cases o with
  | none => trivial
  | some n => exact ⟨hl, ho n rfl⟩

theorem within_insert {a : Addr} (ha : a ∈ L) (h0 : a ≠ 0) (b : UInt8) (r : Ref) (n : Node) : Within L Q (insertCode a b r n) := by
  unfold insertCode
  split
  · exact within_puts ha h0 within_done _
  · exact within_puts ha h0 within_done _
  · split
    · exact within_puts ha h0 within_done _
    · trivial
  · exact within_puts ha h0 within_done _
  · trivial

theorem within_remove {a : Addr} (ha : a ∈ L) (h0 : a ≠ 0) (i : Nat) (n : Node) : Within L Q (removeCode a i n) := by
  unfold removeCode
  split
  · split
    · apply within_puts ha h0
      split
      · exact within_puts ha h0 (within_puts ha h0 within_done _) _
      · trivial
    · trivial
  · split
    · apply within_puts ha h0
      split
      · exact within_puts ha h0 (within_puts ha h0 within_done _) _
      · trivial
    · trivial
  · split
    · trivial
    · refine ⟨ha, fun h => absurd h h0, ?_⟩
      split
      · trivial
      · exact within_puts ha h0 within_done _
  · exact within_puts ha h0 within_done _
  · trivial

theorem within_split {a : Addr} {loc : Loc} (ha : a ∈ L) (hl : loc.1 ∈ L) (key full value : Bytes) (depth p : Nat) {n : Node} (hn : a = 0 → n.prefixLen = 0) :
    Within L Q (splitCode a key full value depth p loc n) := by
  unfold splitCode
  split
  · trivial
  next new hnew =>
    split
    next pos newLen h1 h2 =>
      have h0 : a ≠ 0 := by
        intro e
        rw [hn e] at h2
        simp [usub] at h2
      refine ⟨ha, fun h => absurd h h0, ha, fun n' hn' _ => ?_⟩
      dsimp only
      split
      · split
        · trivial
        next new' hnew' =>
          refine within_puts ha h0 (show Within L Q (.link new' loc) from ⟨hl, ?_⟩) _
          rw [(insertChild_same hnew').2.1]
          exact pad8_length _
      · trivial
    next => trivial

/-- The code of a section touches only the nodes of the section. -/
theorem code_within {α : Type} (t : Section) (ht : t.Apart) (hL : ∀ x ∈ t.nodes, x ∈ L) {k : MProg α} (hk : t.Next k) :
    Within L (fun loc => loc.1 ∉ t.spoils ∧ ∃ a k', k = .unlock a k' ∧ loc.1 ≠ a) t.code := by
  cases t with
  | prefixLeaf a l => exact ⟨hL a (by simp [Section.nodes]), fun _ => ⟨rfl, trivial⟩, trivial⟩
  | insertChild a b r => exact ⟨hL a (by simp [Section.nodes]), fun n _ _ => within_insert (hL a (by simp [Section.nodes])) ht b r n⟩
  | grow a b r loc =>
    refine ⟨hL a (by simp [Section.nodes]), fun n h8 _ => within_linkOr (hL _ (by simp [Section.nodes])) fun n' h => ?_⟩
    rw [(growAndInsert_ver h).2]
    exact h8
  | expand l key value depth loc =>
    have hl := hL loc.1 (by simp [Section.nodes])
    rw [Section.code]
    split
    · exact ⟨hl, fun _ => ⟨rfl, trivial⟩, trivial⟩
    · refine within_linkOr hl fun n h => ?_
      rw [Option.bind_eq_some_iff] at h
      obtain ⟨m, h1, h2⟩ := h
      rw [(placeLeaf_same h2).2.1, (placeLeaf_same h1).2.1]
      exact pad8_length _
  | split a key full value depth p loc =>
    have ha := hL a (by simp [Section.nodes])
    exact ⟨ha, fun n _ h0 => within_split ha (hL loc.1 (by simp [Section.nodes])) key full value depth p h0⟩
  | removeChild a i => exact ⟨hL a (by simp [Section.nodes]), fun n _ _ => within_remove (hL a (by simp [Section.nodes])) ht i n⟩
  | shrink a b loc =>
    refine ⟨hL a (by simp [Section.nodes]), fun n h8 _ => within_linkOr (hL _ (by simp [Section.nodes])) fun n' h => ?_⟩
    rw [(shrink_ver h).2]
    exact h8
  | move loc r => exact ⟨hL loc.1 (by simp [Section.nodes]), fun _ => ⟨rfl, trivial⟩, trivial⟩
  | fresh loc => exact ⟨hL loc.1 (by simp [Section.nodes]), rfl⟩
  | compress a c b loc =>
    obtain ⟨h1, h2, h3, h4, h5, h6⟩ := ht
    have ha := hL a (by simp [Section.nodes])
    have hc := hL c (by simp [Section.nodes])
    have hl := hL loc.1 (by simp [Section.nodes])
    obtain ⟨k', rfl⟩ := hk
    refine ⟨ha, fun n _ _ => ⟨hc, fun child _ _ => ?_⟩⟩
    have hsp : loc.1 ∉ (Section.compress a c b loc).spoils := by simpa [Section.spoils] using h2
    refine within_puts ha h4 (k := .load a _) ⟨ha, fun n' _ _ => ?_⟩ _
    exact within_puts hc h5 (k := .store c _ (.late loc _)) ⟨hc, fun h => absurd h h5, hl, h6, hsp, c, k', rfl, h3⟩ _

theorem Within.mono {Q' : Loc → Prop} (hQ : ∀ loc, Q loc → Q' loc) : ∀ {s : Sec}, Within L Q s → Within L Q' s := by
  intro s
  induction s with
  | done => intro h; trivial
  | panic => intro h; trivial
  | load a k ih => intro h; exact ⟨h.1, fun n h8 h0 => ih n (h.2 n h8 h0)⟩
  | store a x k ih => intro h; exact ⟨h.1, h.2.1, ih h.2.2⟩
  | link n loc => intro h; exact h
  | late loc r => intro h; exact ⟨h.1, h.2.1, hQ _ h.2.2⟩

theorem BufIn.push_store {a : Addr} {x : Field} {k : Sec} (hs : Within L Q (.store a x k)) : ∀ {buf}, BufIn L (.store a x k) buf → BufIn L k (buf ++ [.store a x])
  | [], _ => ⟨hs.1, fun h => ⟨rfl, (hs.2.1 h).1, (hs.2.1 h).2⟩, trivial⟩
  | .store _ _ :: _, h => ⟨h.1, fun e => absurd (h.2.1 e).2.1 (by simp), BufIn.push_store hs h.2.2⟩
  | .link _ _ :: _, h => absurd h.2.2.2 (by simp)

theorem BufIn.push_link {n : Node} {loc : Loc} (hs : Within L Q (.link n loc)) : ∀ {buf}, BufIn L (.link n loc) buf → BufIn L .done (buf ++ [.link n loc])
  | [], _ => ⟨hs.1, hs.2, rfl, rfl⟩
  | .store _ _ :: _, h => ⟨h.1, fun e => absurd (h.2.1 e).2.1 (by simp), BufIn.push_link hs h.2.2⟩
  | .link _ _ :: _, h => absurd h.2.2.2 (by simp)

theorem BufIn.load {s s' : Sec} (hs : s ≠ .done) : ∀ {buf}, BufIn L s buf → BufIn L s' buf
  | [], _ => trivial
  | .store _ _ :: _, h => ⟨h.1, fun e => absurd (h.2.1 e).2.1 hs, BufIn.load hs h.2.2⟩
  | .link _ _ :: _, h => absurd h.2.2.2 hs

end

theorem applyAll_append (xs ys : List Item) (h : Heap) : applyAll (xs ++ ys) h = (applyAll xs h).bind (applyAll ys) := by
  induction xs generalizing h with
  | nil => rfl
  | cons x xs ih =>
    show (x.apply h).bind (applyAll (xs ++ ys)) = ((x.apply h).bind (applyAll xs)).bind (applyAll ys)
    cases x.apply h with
    | none => rfl
    | some m => exact ih m

/-- While the section is not over, what it sees depends on the nodes of `L` only. -/
theorem applyAll_local {L : List Addr} {s : Sec} (hs : s ≠ .done) : ∀ {buf : List Item}, BufIn L s buf → ∀ {h g : Heap}, SameOn L h g →
    (applyAll buf h = none ∧ applyAll buf g = none) ∨ ∃ h' g', applyAll buf h = some h' ∧ applyAll buf g = some g' ∧ SameOn L h' g'
  | [], _, h, g, e => .inr ⟨h, g, rfl, rfl, e⟩
  | .store a x :: buf, hb, h, g, e => by
    rcases storeAt_local (x := x) e hb.1 with ⟨h1, h2⟩ | ⟨h', g', h1, h2, h3⟩
    · refine .inl ⟨?_, ?_⟩
      · show (storeAt a x h).bind _ = none; rw [h1]; rfl
      · show (storeAt a x g).bind _ = none; rw [h2]; rfl
    · rcases applyAll_local hs hb.2.2 h3 with ⟨e1, e2⟩ | ⟨h2', g2', e1, e2, e3⟩
      · refine .inl ⟨?_, ?_⟩
        · show (storeAt a x h).bind _ = none; rw [h1]; exact e1
        · show (storeAt a x g).bind _ = none; rw [h2]; exact e2
      · refine .inr ⟨h2', g2', ?_, ?_, e3⟩
        · show (storeAt a x h).bind _ = _; rw [h1]; exact e1
        · show (storeAt a x g).bind _ = _; rw [h2]; exact e2
  | .link _ _ :: _, hb, _, _, _ => absurd hb.2.2.2 hs

/-- The dummy node is there, and its prefix is empty. -/
def ZeroOk (h : Heap) : Prop := ∃ n, h[0]? = some n ∧ n.cap = 0 ∧ n.prefixLen = 0

theorem storeAt_keeps {a : Addr} {x : Field} {h h' : Heap} (hx : a = 0 → x.Plain) (e : storeAt a x h = some h') (h8 : All8 h) (h0 : ZeroOk h) :
    All8 h' ∧ ZeroOk h' := by
  obtain ⟨n, n', h1, h2, rfl⟩ := storeAt_some e
  obtain ⟨c1, -, c3, c4⟩ := Field.store_cap h2
  have hlt := (List.getElem?_eq_some_iff.mp h1).1
  constructor
  · intro b m hm
    by_cases eb : a = b
    · subst eb
      rw [List.getElem?_set_self hlt] at hm
      cases hm
      rw [c3]
      exact h8 a n h1
    · rw [List.getElem?_set_ne eb] at hm
      exact h8 b m hm
  · obtain ⟨z, z1, z2, z3⟩ := h0
    by_cases eb : a = 0
    · subst eb
      rw [h1] at z1
      cases z1
      exact ⟨n', List.getElem?_set_self hlt, by rw [c1]; exact z2, by rw [c4 (hx rfl)]; exact z3⟩
    · exact ⟨z, by rw [List.getElem?_set_ne eb]; exact z1, z2, z3⟩

theorem allocAt_some {h h' : Heap} {loc : Loc} {n : Node} (e : allocAt h loc n = some h') :
    storeAt loc.1 (.child loc.2 (some (.node h.length))) (h ++ [n]) = some h' := by
  unfold allocAt at e
  rw [storeLoc_eq] at e
  exact e

theorem allocAt_keeps {h h' : Heap} {loc : Loc} {n : Node} (hn : n.pre.length = 8) (e : allocAt h loc n = some h') (h8 : All8 h) (h0 : ZeroOk h) :
    All8 h' ∧ ZeroOk h' := by
  refine storeAt_keeps (x := .child loc.2 (some (.node h.length))) (fun _ => trivial) (allocAt_some e) ?_ ?_
  · intro a m hm
    by_cases hlt : a < h.length
    · rw [List.getElem?_append_left hlt] at hm
      exact h8 a m hm
    · rw [List.getElem?_append_right (Nat.le_of_not_lt hlt)] at hm
      have : a - h.length = 0 := by
        have := (List.getElem?_eq_some_iff.mp hm).1
        simp at this
        omega
      rw [this] at hm
      cases hm
      exact hn
  · obtain ⟨z, z1, z2⟩ := h0
    exact ⟨z, by rw [List.getElem?_append_left (List.getElem?_eq_some_iff.mp z1).1]; exact z1, z2⟩

theorem applyAll_keeps {L : List Addr} {s : Sec} : ∀ {buf : List Item}, BufIn L s buf → ∀ {h h' : Heap}, applyAll buf h = some h' → All8 h → ZeroOk h → All8 h' ∧ ZeroOk h'
  | [], _, h, h', e, h8, h0 => by cases e; exact ⟨h8, h0⟩
  | .store a x :: buf, hb, h, h', e, h8, h0 => by
    have e : (storeAt a x h).bind (applyAll buf) = some h' := e
    rw [Option.bind_eq_some_iff] at e
    obtain ⟨g, e1, e2⟩ := e
    obtain ⟨g8, g0⟩ := storeAt_keeps (fun e => (hb.2.1 e).2.2) e1 h8 h0
    exact applyAll_keeps hb.2.2 e2 g8 g0
  | .link n loc :: buf, hb, h, h', e, h8, h0 => by
    have e : (allocAt h loc n).bind (applyAll buf) = some h' := e
    rw [Option.bind_eq_some_iff] at e
    obtain ⟨g, e1, e2⟩ := e
    obtain ⟨g8, g0⟩ := allocAt_keeps hb.2.1 e1 h8 h0
    obtain ⟨-, -, rfl, -⟩ := hb
    cases e2
    exact ⟨g8, g0⟩

end Art
