import Verif.Art.TsoSec
import Verif.Art.FineSim

/-!
# Runs of the machine with store buffers are runs in small steps

Every step of `Verif.Art.Tso` is no step of `Verif.Art.Fine`, or one, or up to three. Stores that go into a buffer are no step; a store that reaches memory changes a locked node
(`scribble`); the store of the root pointer, and of a pointer to a new node, is the instant of `commit`; the other sections commit when their first lock is released.
-/

set_option linter.unusedSimpArgs false

namespace Art

open Surf Spec Props

/-- The nodes of `base`, but those of `L` as in `top`. -/
def over (L : List Addr) (base top : Heap) : Heap := overlay (fun a => decide (a ∈ L)) base top

/-- The node at `a` has the type `cap a`. -/
structure CapOk (cap : Addr → Nat) (h : Heap) : Prop where
  zero : cap 0 = 0
  node : ∀ (a : Addr) n, h[a]? = some n → n.cap = cap a

/-- `p` is `Tidy`, given the types of the nodes. -/
def TidyAt (h : Heap) (p : MProg (Option Bytes)) (L : List Addr) : Prop := ∀ cap, CapOk cap h → Tidy cap (fun _ => True) p L

/-- Nodes keep their types. -/
def Caps (h h' : Heap) : Prop := ∀ (a : Addr) n, h[a]? = some n → ∃ n', h'[a]? = some n' ∧ n'.cap = n.cap

theorem Caps.refl (h : Heap) : Caps h h := fun _ n hn => ⟨n, hn, rfl⟩

theorem CapOk.back {cap : Addr → Nat} {h h' : Heap} (hc : CapOk cap h') (hh : Caps h h') : CapOk cap h := by
  refine ⟨hc.zero, fun a n hn => ?_⟩
  obtain ⟨n', h1, h2⟩ := hh a n hn
  rw [← h2]
  exact hc.node a n' h1

theorem TidyAt.caps {h h' : Heap} {p : MProg (Option Bytes)} {L : List Addr} (ht : TidyAt h p L) (hh : Caps h h') : TidyAt h' p L :=
  fun cap hc => ht cap (hc.back hh)

theorem exists_cap {h : Heap} (h0 : ZeroOk h) : ∃ cap, CapOk cap h := by
  refine ⟨fun a => (h[a]?.map Node.cap).getD 0, ?_, ?_⟩
  · obtain ⟨n, h1, h2, -⟩ := h0
    simp [h1, h2]
  · intro a n hn
    simp [hn]

/-- A section before its changes are committed. `h` is memory now, `h0` as it was when the section began. The first part says: whatever other calls make of the nodes not locked by this one,
the stores in the buffer and the rest of the section do what the section was meant to do. -/
structure Before (h : Heap) (L : List Addr) (t : Section) (h0 : Heap) (k : MProg (Option Bytes)) (s : Sec) (buf : List Item) : Prop where
  sem : ∀ N, SameOn L N h → Like t.spoils ((applyAll buf N).bind s.run) (t.fn (over L N h0))
  has : ∀ a ∈ L, h0[a]? ≠ none
  sub : ∀ a ∈ t.spoils, a ∈ L ∧ a ≠ 0
  code : Within L (fun loc => loc.1 ∉ t.spoils ∧ ∃ a k', k = .unlock a k' ∧ loc.1 ≠ a) s
  buf : BufIn L s buf

/-- A section after its changes are committed: memory has to become `h1`, but for the nodes of `O`. -/
inductive After (h : Heap) (L O : List Addr) (h1 : Heap) : Sec → List Item → Prop
  | over : (∀ a ∈ L, a ∉ O → h[a]? = h1[a]?) → After h L O h1 .done []
  | late {b x n n'} : b ∈ L → b ≠ 0 → b ∉ O → h[b]? = some n → x.store n = some n' → h1[b]? = some n' → (∀ a ∈ L, a ∉ O → a ≠ b → h[a]? = h1[a]?) → After h L O h1 (.store b x .done) []
  | stored {b x n n'} : b ∈ L → b ≠ 0 → b ∉ O → h[b]? = some n → x.store n = some n' → h1[b]? = some n' → (∀ a ∈ L, a ∉ O → a ≠ b → h[a]? = h1[a]?) → After h L O h1 .done [.store b x]

/-- A call is as far as in the run of small steps. -/
inductive TMatch (h : Heap) (ow : Addr → Option Nat) (i : Nat) : TProc → FProc → Prop
  | idle : TMatch h ow i .idle .idle
  | done {c o} : TMatch h ow i (.done c o) (.done c o)
  | crashed {c} : TMatch h ow i (.crashed c) (.crashed c)
  | calm {c p L} : (∀ a, ow a = some i ↔ a ∈ L) → TidyAt h p L → TMatch h ow i (.running c p .calm) (.running c p.erase .calm)
  | reading {c p n s L} : (∀ a, ow a = some i ↔ a ∈ L) → TidyAt h p L → TMatch h ow i (.running c p (.reading n s)) (.running c p.erase (.reading n s))
  | opened {c k t s buf h0 L} : (∀ a, ow a = some i ↔ a ∈ L) → TidyAt h k L → Tail (fun _ => True) t.spoils k → Before h L t h0 k s buf →
      TMatch h ow i (.running c k (.inside s buf)) (.running c (.write t.fn k.erase) (.opened h0))
  | closing {c k s buf h1 L O} : (∀ a, ow a = some i ↔ a ∈ L) → TidyAt h k L → Tail (fun _ => True) O k → After h L O h1 s buf →
      TMatch h ow i (.running c k (.inside s buf)) (.running c k.erase (.closing h1))

/-- The states correspond. -/
structure TRel (μ : TConf) (φ : FConf) : Prop where
  heap : φ.heap = μ.heap
  owner : φ.owner = μ.owner
  zero : ZeroOk μ.heap
  pre : All8 μ.heap
  proc : ∀ i, TMatch μ.heap μ.owner i (μ.procs i) (φ.procs i)

/-- Some steps of the call `i`. -/
inductive FSteps (i : Nat) : FConf → FConf → Prop
  | refl (φ) : FSteps i φ φ
  | tail {φ φ' φ''} : FSteps i φ φ' → FStep i φ' φ'' → FSteps i φ φ''

theorem FSteps.one {i : Nat} {φ φ' : FConf} (h : FStep i φ φ') : FSteps i φ φ' := .tail (.refl φ) h

/-- What is known of the states of runs in small steps. -/
structure Facts (φ : FConf) : Prop where
  own : ∀ (a : Addr) n, φ.heap[a]? = some n → (locked n.version = true ↔ ∃ j, φ.owner a = some j)
  lt : ∀ a j, φ.owner a = some j → ∃ n, φ.heap[a]? = some n
  free : ∀ j, (∀ c p w, φ.procs j ≠ .running c p w) → ∀ a, φ.owner a ≠ some j
  cas : ∀ i c a v k w, φ.procs i = .running c (.cas a v k) w → locked v = false
  lock : ∀ i c a k w, φ.procs i = .running c (.lock a k) w → (∃ b, φ.owner b = some i) → a ≠ 0
  sect : ∀ i c f k h0, φ.procs i = .running c (.write f k) (.opened h0) → f (φ.seen i (.opened h0)) ≠ none

/-! ## Other calls -/

theorem SameOn.trans {L : List Addr} {a b c : Heap} (h1 : SameOn L a b) (h2 : SameOn L b c) : SameOn L a c := fun x hx => (h1 x hx).trans (h2 x hx)

theorem Before.other {h h' : Heap} {L : List Addr} {t : Section} {h0 : Heap} {k : MProg (Option Bytes)} {s : Sec} {buf : List Item} (hb : Before h L t h0 k s buf) (hs : SameOn L h' h) :
    Before h' L t h0 k s buf :=
  ⟨fun N hN => hb.sem N (hN.trans hs), hb.has, hb.sub, hb.code, hb.buf⟩

theorem After.other {h h' : Heap} {L O : List Addr} {h1 : Heap} {s : Sec} {buf : List Item} (ha : After h L O h1 s buf) (hs : SameOn L h' h) : After h' L O h1 s buf := by
  cases ha with
  | over e => exact .over fun a h2 h3 => (hs a h2).trans (e a h2 h3)
  | late e1 e2 e3 e4 e5 e6 e7 => exact .late e1 e2 e3 ((hs _ e1).trans e4) e5 e6 fun a h2 h3 h4 => (hs a h2).trans (e7 a h2 h3 h4)
  | stored e1 e2 e3 e4 e5 e6 e7 => exact .stored e1 e2 e3 ((hs _ e1).trans e4) e5 e6 fun a h2 h3 h4 => (hs a h2).trans (e7 a h2 h3 h4)

theorem TMatch.other {h h' : Heap} {ow ow' : Addr → Option Nat} {j : Nat} {P : TProc} {F : FProc} (hm : TMatch h ow j P F)
    (ho : ∀ a, ow' a = some j ↔ ow a = some j) (hh : ∀ a, ow a = some j → h'[a]? = h[a]?) (hc : Caps h h') : TMatch h' ow' j P F := by
  cases hm with
  | idle => exact .idle
  | done => exact .done
  | crashed => exact .crashed
  | calm hL ht => exact .calm (fun a => (ho a).trans (hL a)) (ht.caps hc)
  | reading hL ht => exact .reading (fun a => (ho a).trans (hL a)) (ht.caps hc)
  | opened hL ht h1 h2 => exact .opened (fun a => (ho a).trans (hL a)) (ht.caps hc) h1 (h2.other fun a ha => hh a ((hL a).mpr ha))
  | closing hL ht h1 h2 => exact .closing (fun a => (ho a).trans (hL a)) (ht.caps hc) h1 (h2.other fun a ha => hh a ((hL a).mpr ha))

theorem TConf.to_other (μ : TConf) {i j : Nat} (h : Heap) (P : TProc) (e : j ≠ i) : (μ.to i h P).procs j = μ.procs j := by simp [TConf.to, e]

theorem TConf.to_self (μ : TConf) (i : Nat) (h : Heap) (P : TProc) : (μ.to i h P).procs i = P := by simp [TConf.to]

/-- A step that changes memory, but no locks. -/
theorem TRel.to {μ : TConf} {φ ψ : FConf} {i : Nat} {h : Heap} {P : TProc} (hr : TRel μ φ) (hψ : ψ.heap = h) (hψo : ψ.owner = φ.owner) (hψp : ∀ j, j ≠ i → ψ.procs j = φ.procs j)
    (h0 : ZeroOk h) (h8 : All8 h) (hc : Caps μ.heap h) (hh : ∀ a j, j ≠ i → μ.owner a = some j → h[a]? = μ.heap[a]?) (hi : TMatch h μ.owner i P (ψ.procs i)) :
    TRel (μ.to i h P) ψ := by
  refine ⟨hψ, hψo.trans hr.owner, h0, h8, fun j => ?_⟩
  show TMatch h μ.owner j ((μ.to i h P).procs j) _
  by_cases e : j = i
  · subst e
    rw [TConf.to_self]
    exact hi
  · rw [TConf.to_other _ _ _ e, hψp j e]
    exact (hr.proc j).other (fun _ => Iff.rfl) (fun a ha => hh a j e ha) hc

/-- A step that changes neither memory nor locks. -/
theorem TRel.quiet {μ : TConf} {φ : FConf} {i : Nat} {P : TProc} {F : FProc} (hr : TRel μ φ) (hi : TMatch μ.heap μ.owner i P F) :
    TRel (μ.to i μ.heap P) (φ.to i φ.heap F) := by
  refine hr.to hr.heap rfl (fun j e => φ.to_other _ _ e) hr.zero hr.pre (Caps.refl _) (fun _ _ _ _ => rfl) ?_
  rw [FConf.to_self]
  exact hi

/-- A step that changes neither memory nor locks, and is none of the run in small steps. -/
theorem TRel.still {μ : TConf} {φ : FConf} {i : Nat} {P : TProc} (hr : TRel μ φ) (hi : TMatch μ.heap μ.owner i P (φ.procs i)) : TRel (μ.to i μ.heap P) φ :=
  hr.to hr.heap rfl (fun _ _ => rfl) hr.zero hr.pre (Caps.refl _) (fun _ _ _ _ => rfl) hi

theorem setVer_keeps {h : Heap} {a : Addr} {v : Nat} (h8 : All8 h) (h0 : ZeroOk h) : All8 (setVer h a v) ∧ ZeroOk (setVer h a v) ∧ Caps h (setVer h a v) := by
  refine ⟨?_, ?_, ?_⟩
  · intro b n hn
    rw [getElem?_setVer] at hn
    split at hn
    · rw [Option.map_eq_some_iff] at hn
      obtain ⟨m, h1, rfl⟩ := hn
      exact h8 b m h1
    · exact h8 b n hn
  · obtain ⟨z, z1, z2, z3⟩ := h0
    by_cases e : 0 = a
    · exact ⟨{ z with version := v }, by rw [getElem?_setVer, if_pos e, z1]; rfl, z2, z3⟩
    · exact ⟨z, by rw [getElem?_setVer, if_neg e]; exact z1, z2, z3⟩
  · intro b n hn
    by_cases e : b = a
    · exact ⟨{ n with version := v }, by rw [getElem?_setVer, if_pos e, hn]; rfl, rfl⟩
    · exact ⟨n, by rw [getElem?_setVer, if_neg e]; exact hn, rfl⟩

/-- A step that takes or releases a lock. -/
theorem TRel.lock {μ : TConf} {φ ψ : FConf} {i : Nat} {a : Addr} {v : Nat} {o : Option Nat} {P : TProc} {F : FProc} (hr : TRel μ φ)
    (hψ : ψ.heap = setVer μ.heap a v) (hψo : ψ.owner = upd μ.owner a o) (hψp : ∀ j, j ≠ i → ψ.procs j = φ.procs j) (hψi : ψ.procs i = F)
    (hold : ∀ j, j ≠ i → μ.owner a ≠ some j) (ho : ∀ j, j ≠ i → o ≠ some j) (hi : TMatch (setVer μ.heap a v) (upd μ.owner a o) i P F) :
    TRel ((μ.to i (setVer μ.heap a v) P).own a o) ψ := by
  obtain ⟨k8, k0, kc⟩ := setVer_keeps (a := a) (v := v) hr.pre hr.zero
  refine ⟨hψ, hψo, k0, k8, fun j => ?_⟩
  show TMatch (setVer μ.heap a v) (upd μ.owner a o) j ((μ.to i (setVer μ.heap a v) P).procs j) _
  by_cases e : j = i
  · subst e
    rw [TConf.to_self, hψi]
    exact hi
  · rw [TConf.to_other _ _ _ e, hψp j e]
    refine (hr.proc j).other (fun b => ?_) (fun b hb => ?_) kc
    · by_cases eb : b = a
      · subst eb
        rw [show upd μ.owner b o b = o by simp [upd]]
        exact ⟨fun h => absurd h (ho j e), fun h => absurd h (hold j e)⟩
      · rw [upd_other _ _ eb]
    · rw [getElem?_setVer, if_neg]
      rintro rfl
      exact hold j e hb

theorem held_take {ow : Addr → Option Nat} {i : Nat} {L : List Addr} (hL : ∀ a, ow a = some i ↔ a ∈ L) (b : Addr) : ∀ a, upd ow b (some i) a = some i ↔ a ∈ b :: L := by
  intro a
  rw [List.mem_cons, ← hL]
  unfold upd
  by_cases h : a = b <;> simp [h]

theorem held_free {ow : Addr → Option Nat} {i : Nat} {L : List Addr} (hL : ∀ a, ow a = some i ↔ a ∈ L) (b : Addr) : ∀ a, upd ow b none a = some i ↔ a ∈ L.filter (· ≠ b) := by
  intro a
  rw [List.mem_filter, ← hL]
  unfold upd
  by_cases h : a = b <;> simp [h]

theorem fown_other (φ : FConf) {i j : Nat} (h : Heap) (e : j ≠ i) (P : FProc) (a : Addr) (o : Option Nat) : ((φ.to i h P).own a o).procs j = φ.procs j := φ.to_other h P e

theorem fown_self (φ : FConf) {i : Nat} (h : Heap) (P : FProc) (a : Addr) (o : Option Nat) : ((φ.to i h P).own a o).procs i = P := φ.to_self i h P

/-! ## Before and after -/

theorem getElem?_over (L : List Addr) (base top : Heap) (a : Addr) : (over L base top)[a]? = base[a]?.map fun n => if a ∈ L then top[a]?.getD n else n := by
  unfold over
  rw [getElem?_overlay]
  simp

theorem over_same {L : List Addr} {N h : Heap} (hs : SameOn L N h) : over L N h = N := by
  apply List.ext_getElem?
  intro a
  rw [getElem?_over]
  cases e : N[a]? with
  | none => rfl
  | some n =>
    by_cases ha : a ∈ L
    · simp [ha, ← hs a ha, e]
    · simp [ha]

theorem seen_over {φ : FConf} {i : Nat} {L : List Addr} (hL : ∀ a, φ.owner a = some i ↔ a ∈ L) (h0 : Heap) : φ.seen i (.opened h0) = over L φ.heap h0 := by
  show overlay (φ.mine i) φ.heap h0 = _
  unfold over
  congr
  funext a
  unfold FConf.mine
  rw [Bool.eq_iff_iff]
  simp [hL]

/-- What `commit` makes of memory. -/
theorem commit_heap {φ : FConf} {i : Nat} {L : List Addr} (hL : ∀ a, φ.owner a = some i ↔ a ∈ L) {h1 h' : Heap} (hl : h1.length = h'.length)
    (hm : ∀ a ∈ L, a ≠ 0 → φ.heap[a]? = h'[a]?) (ho : ∀ a : Addr, a ∉ L ∨ a = 0 → h1[a]? = h'[a]?) : overlay (fun a => φ.mine i a && a != 0) h1 φ.heap = h' := by
  apply List.ext_getElem?
  intro a
  rw [getElem?_overlay]
  by_cases e : a ∈ L ∧ a ≠ 0
  · have : (φ.mine i a && a != 0) = true := by simp [FConf.mine, (hL a).mpr e.1, e.2]
    simp only [this, if_true]
    rw [hm a e.1 e.2]
    by_cases hlt : a < h1.length
    · rw [List.getElem?_eq_getElem hlt, List.getElem?_eq_getElem (show a < h'.length by omega)]
      rfl
    · rw [List.getElem?_eq_none (show h1.length ≤ a by omega), List.getElem?_eq_none (show h'.length ≤ a by omega)]
      rfl
  · have : (φ.mine i a && a != 0) = false := by
      rw [Bool.eq_false_iff]
      intro h
      simp only [FConf.mine, Bool.and_eq_true, beq_iff_eq, bne_iff_ne] at h
      exact e ⟨(hL a).mp h.1, h.2⟩
    simp only [this, Bool.false_eq_true, if_false, Option.map_id']
    apply ho
    by_cases ha : a ∈ L
    · right
      by_contra h
      exact e ⟨ha, h⟩
    · exact .inl ha

section
variable {μ : TConf} {φ : FConf} {i : Nat} {c : Call} {k : MProg (Option Bytes)} {t : Section} {s : Sec} {buf : List Item} {h0 : Heap} {L : List Addr}

/-- The section succeeds. -/
theorem Before.result (hr : TRel μ φ) (hf : Facts φ) (hp : φ.procs i = .running c (.write t.fn k.erase) (.opened h0)) (hL : ∀ a, μ.owner a = some i ↔ a ∈ L)
    (hb : Before μ.heap L t h0 k s buf) : ∃ h1 h', t.fn (over L μ.heap h0) = some h1 ∧ (applyAll buf μ.heap).bind s.run = some h' ∧ h1.length = h'.length ∧ ∀ a, a ∉ t.spoils → h1[a]? = h'[a]? := by
  have h := hf.sect i _ _ _ _ hp
  rw [seen_over (L := L) (by rw [hr.owner]; exact hL), hr.heap] at h
  rcases hb.sem μ.heap (fun _ _ => rfl) with ⟨-, e⟩ | ⟨x, y, e1, e2, e3, e4⟩
  · exact absurd e h
  · exact ⟨y, x, e2, e1, e3.symm, fun a ha => (e4 a ha).symm⟩

/-- `commit` of a section. -/
theorem commit_step (hr : TRel μ φ) (hp : φ.procs i = .running c (.write t.fn k.erase) (.opened h0)) (hL : ∀ a, μ.owner a = some i ↔ a ∈ L) {h1 h' : Heap}
    (h1' : t.fn (over L μ.heap h0) = some h1) (hl : h1.length = h'.length) (hm : ∀ a ∈ L, a ≠ 0 → μ.heap[a]? = h'[a]?) (ho : ∀ a : Addr, a ∉ L ∨ a = 0 → h1[a]? = h'[a]?) :
    FStep i φ (φ.to i h' (.running c k.erase (.closing h1))) := by
  have hL' : ∀ a, φ.owner a = some i ↔ a ∈ L := by rw [hr.owner]; exact hL
  have := FStep.commit (h1 := h1) hp (by rw [seen_over hL', hr.heap]; exact h1')
  rw [commit_heap hL' hl (by rw [hr.heap]; exact hm) ho] at this
  exact this

/-- A section whose stores have all reached memory, and of which nothing is left, can be committed. -/
theorem TRel.close (hr : TRel μ φ) (hf : Facts φ) (hp : μ.procs i = .running c k (.inside .done [])) :
    ∃ φ1 h1 L O, FSteps i φ φ1 ∧ TRel μ φ1 ∧ φ1.procs i = .running c k.erase (.closing h1) ∧ (∀ a, μ.owner a = some i ↔ a ∈ L) ∧ TidyAt μ.heap k L ∧ Tail (fun _ => True) O k ∧
      ∀ a ∈ L, a ∉ O → μ.heap[a]? = h1[a]? := by
  have hm := hr.proc i
  rw [hp] at hm
  generalize hq : φ.procs i = F at hm
  cases hm with
  | @opened _ _ t _ _ h0 L hL ht htl hb =>
    obtain ⟨h1, h', e1, e2, e3, e4⟩ := hb.result hr hf hq hL
    cases e2
    have hstep := commit_step (h' := μ.heap) hr hq hL e1 e3 (fun _ _ _ => rfl) (by
      intro a ha
      apply e4
      intro hs
      obtain ⟨s1, s2⟩ := hb.sub a hs
      rcases ha with ha | ha
      · exact ha s1
      · exact s2 ha)
    have hafter : ∀ a ∈ L, a ∉ t.spoils → μ.heap[a]? = h1[a]? := fun a _ ha => (e4 a ha).symm
    refine ⟨_, h1, L, t.spoils, .one hstep, ?_, FConf.to_self _ _ _ _, hL, ht, htl, hafter⟩
    have := hr.to (h := μ.heap) (P := .running c k (.inside .done [])) (i := i) (ψ := φ.to i μ.heap (.running c k.erase (.closing h1))) rfl rfl (fun j e => φ.to_other _ _ e) hr.zero hr.pre (Caps.refl _)
      (fun _ _ _ _ => rfl) (by rw [FConf.to_self]; exact .closing hL ht htl (.over hafter))
    have e : μ.to i μ.heap (.running c k (.inside .done [])) = μ := by
      unfold TConf.to
      rw [← hp]
      congr
      funext j
      by_cases e : j = i <;> simp [e]
    rw [e] at this
    exact this
  | @closing _ _ _ _ h1 L O hL ht htl ha =>
    cases ha with
    | over e => exact ⟨φ, h1, L, O, .refl φ, hr, hq, hL, ht, htl, e⟩

end

/-- A store reaches the memory of a locked node. -/
theorem flush_store {μ : TConf} {φ : FConf} {i : Nat} {c : Call} {p : MProg (Option Bytes)} {q : Prog (Option Bytes)} {w : Phase} {s : Sec} {buf : List Item} {a : Addr} {x : Field} {h : Heap}
    (hr : TRel μ φ) (hq : φ.procs i = .running c q w) (hw : w.inside = true) (ho : μ.owner a = some i) (h0 : a ≠ 0) (he : storeAt a x μ.heap = some h)
    (hm : TMatch h μ.owner i (.running c p (.inside s buf)) (.running c q w)) : ∃ φ', FSteps i φ φ' ∧ TRel (μ.to i h (.running c p (.inside s buf))) φ' := by
  obtain ⟨k8, k0⟩ := storeAt_keeps (fun e => absurd e h0) he hr.pre hr.zero
  obtain ⟨n, n', h1, h2, rfl⟩ := storeAt_some he
  obtain ⟨c1, c2, -⟩ := Field.store_cap h2
  refine ⟨_, .one (.scribble (a := a) (n := n) n' hq hw (by rw [hr.owner]; exact ho) h0 (by rw [hr.heap]; exact h1) c1 c2), ?_⟩
  refine hr.to (by rw [← hr.heap]; rfl) rfl (fun j e => φ.to_other _ _ e) k0 k8 ?_ ?_ (by rw [FConf.to_self]; exact hm)
  · intro b m hm
    by_cases e : a = b
    · subst e
      rw [h1] at hm
      cases hm
      exact ⟨n', List.getElem?_set_self (List.getElem?_eq_some_iff.mp h1).1, c1⟩
    · exact ⟨m, by rw [List.getElem?_set_ne e]; exact hm, rfl⟩
  · intro b j hj hb
    rw [List.getElem?_set_ne]
    rintro rfl
    rw [ho] at hb
    cases hb
    exact hj rfl

theorem storeAt_caps {a : Addr} {x : Field} {h h' : Heap} (e : storeAt a x h = some h') : Caps h h' := by
  obtain ⟨n, n', h1, h2, rfl⟩ := storeAt_some e
  intro b m hm
  by_cases eb : a = b
  · subst eb
    rw [h1] at hm
    cases hm
    exact ⟨n', List.getElem?_set_self (List.getElem?_eq_some_iff.mp h1).1, (Field.store_cap h2).1⟩
  · exact ⟨m, by rw [List.getElem?_set_ne eb]; exact hm, rfl⟩

theorem storeAt_other {a b : Addr} {x : Field} {h h' : Heap} (e : storeAt a x h = some h') (hb : a ≠ b) : h'[b]? = h[b]? := by
  obtain ⟨n, n', h1, h2, rfl⟩ := storeAt_some e
  exact List.getElem?_set_ne hb

/-- The oldest store reaches memory: the rest of the section does the same as before. -/
theorem Before.flush {h h' : Heap} {L : List Addr} {t : Section} {h0 : Heap} {k : MProg (Option Bytes)} {s : Sec} {a : Addr} {x : Field} {buf : List Item}
    (hb : Before h L t h0 k s (.store a x :: buf)) (he : storeAt a x h = some h') : Before h' L t h0 k s buf := by
  refine ⟨fun N' hN => ?_, hb.has, hb.sub, hb.code, hb.buf.2.2⟩
  have ha := hb.buf.1
  obtain ⟨n, n', e1, e2, rfl⟩ := storeAt_some he
  have hlt := (List.getElem?_eq_some_iff.mp e1).1
  have hget : ∀ b, b ≠ a → (h.set a n')[b]? = h[b]? := fun b hb => List.getElem?_set_ne (Ne.symm hb)
  have hN1 : SameOn L (over L N' h) h := by
    intro b hbL
    rw [getElem?_over, hN b hbL]
    by_cases e : b = a
    · subst e
      rw [List.getElem?_set_self hlt, e1]
      simp [hbL]
    · rw [hget b e]
      cases h[b]? <;> simp [hbL]
  have hst : storeAt a x (over L N' h) = some N' := by
    have e1' : (over L N' h)[a]? = some n := by rw [hN1 a ha, e1]
    rw [storeAt_of e1' e2]
    congr 1
    apply List.ext_getElem?
    intro b
    by_cases e : b = a
    · subst e
      rw [List.getElem?_set_self (List.getElem?_eq_some_iff.mp e1').1, hN b ha, List.getElem?_set_self hlt]
    · rw [List.getElem?_set_ne (Ne.symm e)]
      by_cases hbL : b ∈ L
      · rw [hN1 b hbL, hN b hbL, hget b e]
      · rw [getElem?_over]
        cases N'[b]? <;> simp [hbL]
  have hov : over L (over L N' h) h0 = over L N' h0 := by
    apply List.ext_getElem?
    intro b
    rw [getElem?_over, getElem?_over, getElem?_over]
    cases N'[b]? with
    | none => rfl
    | some m =>
      by_cases hbL : b ∈ L
      · have := hb.has b hbL
        cases e : h0[b]? with
        | none => exact absurd e this
        | some z => simp [hbL]
      · simp [hbL]
  have := hb.sem (over L N' h) hN1
  rw [hov] at this
  have e3 : applyAll (.store a x :: buf) (over L N' h) = applyAll buf N' := by
    show (storeAt a x (over L N' h)).bind _ = _
    rw [hst]
    rfl
  rw [e3] at this
  exact this

/-- The release of a lock, after the section. -/
theorem After.release {h : Heap} {L O : List Addr} {h1 : Heap} {a : Addr} {v : Nat} (e : ∀ b ∈ L, b ∉ O → h[b]? = h1[b]?) :
    ∀ b ∈ L.filter (· ≠ a), b ∉ O → (setVer h a v)[b]? = h1[b]? := by
  intro b hb hO
  rw [List.mem_filter] at hb
  have hne : b ≠ a := by simpa using hb.2
  rw [getElem?_setVer, if_neg hne]
  exact e b hb.1 hO

/-- One step of the machine with store buffers is up to three small steps. -/
theorem TRel.step {μ μ' : TConf} {φ : FConf} {i : Nat} (hr : TRel μ φ) (hf : Facts φ) (hs : TStep i μ μ') : ∃ φ', FSteps i φ φ' ∧ TRel μ' φ' := by
  have calm : ∀ {c p}, μ.procs i = .running c p .calm → φ.procs i = .running c p.erase .calm ∧ ∃ L, (∀ a, μ.owner a = some i ↔ a ∈ L) ∧ TidyAt μ.heap p L := by
    intro c p hp
    have := hr.proc i
    rw [hp] at this
    generalize φ.procs i = F at this
    cases this with
    | calm hL ht => exact ⟨rfl, _, hL, ht⟩
  have reading : ∀ {c p n s}, μ.procs i = .running c p (.reading n s) → φ.procs i = .running c p.erase (.reading n s) ∧ ∃ L, (∀ a, μ.owner a = some i ↔ a ∈ L) ∧ TidyAt μ.heap p L := by
    intro c p n s hp
    have := hr.proc i
    rw [hp] at this
    generalize φ.procs i = F at this
    cases this with
    | reading hL ht => exact ⟨rfl, _, hL, ht⟩
  have node : ∀ {a : Addr} {n}, μ.heap[a]? = some n → φ.heap[a]? = some n := by
    intro a n h
    rw [hr.heap]
    exact h
  obtain ⟨cap, hcap⟩ := exists_cap hr.zero
  cases hs with
  | call c fuel h1 h2 =>
    have hq : φ.procs i = .idle := by
      have := hr.proc i
      rw [h1] at this
      generalize φ.procs i = F at this
      cases this
      rfl
    refine ⟨_, .one (.call c fuel hq h2), ?_⟩
    rw [← erase_call]
    refine hr.quiet (.calm (L := []) (fun a => ?_) fun cap hc => tidy_call hc.zero c fuel)
    have := hf.free i (by rw [hq]; simp) a
    rw [hr.owner] at this
    exact ⟨fun h => absurd h this, fun h => absurd h (by simp)⟩
  | @ret c o w h1 h2 =>
    cases w with
    | calm => exact ⟨_, .one (.ret (calm h1).1), hr.quiet .done⟩
    | reading n s => exact h2.elim
    | inside s buf =>
      have : s = .done ∧ buf = [] := by
        cases s <;> cases buf <;> simp [Stage.Over] at h2 ⊢
      obtain ⟨rfl, rfl⟩ := this
      obtain ⟨φ1, g1, L, O, s1, s2, s3, -⟩ := hr.close hf h1
      exact ⟨_, .tail s1 (.ret s3), s2.quiet .done⟩
  | @crash c p h1 h2 h3 =>
    refine ⟨_, .one (.crash (calm h1).1 ?_), hr.quiet .crashed⟩
    show Faulty φ.heap _
    rw [hr.heap]
    exact h3
  | @wait c a k n h1 h2 h3 =>
    obtain ⟨hq, L, hL, ht⟩ := calm h1
    exact ⟨_, .one (.wait hq (node h2) h3), hr.quiet (.calm (p := k n.version) hL fun cap hc => ht cap hc _)⟩
  | @load c a k n h1 h2 =>
    obtain ⟨hq, L, hL, ht⟩ := calm h1
    exact ⟨_, .one (.load hq (node h2)), hr.quiet (.calm (p := k n.version) hL fun cap hc => ht cap hc _)⟩
  | @cas c a v k n h1 h2 h3 =>
    obtain ⟨hq, L, hL, ht⟩ := calm h1
    have hv := hf.cas i _ _ _ _ _ hq
    have hno : ∀ j, μ.owner a ≠ some j := by
      intro j hj
      have := (hf.own a n (node h2)).mpr ⟨j, by rw [hr.owner]; exact hj⟩
      rw [h3, hv] at this
      simp at this
    have hnot : a ∉ L := fun h => hno i ((hL a).mpr h)
    refine ⟨_, .one (.cas hq (node h2) h3), ?_⟩
    refine hr.lock (i := i) (F := .running c (k true).erase .calm) ?_ ?_ (fun j e => fown_other _ _ e _ _ _) (fown_self _ _ _ _ _) (fun j _ => hno j) (fun j e => by simpa using Ne.symm e)
      (.calm (held_take hL a) fun cap hc => (ht cap (hc.back (setVer_keeps hr.pre hr.zero).2.2)).1 hnot)
    · show setVer φ.heap a (v + 2) = _
      rw [hr.heap]
    · show upd φ.owner a (some i) = _
      rw [hr.owner]
  | @casFail c a v k n h1 h2 h3 =>
    obtain ⟨hq, L, hL, ht⟩ := calm h1
    exact ⟨_, .one (.casFail hq (node h2) h3), hr.quiet (.calm (p := k false) hL fun cap hc => (ht cap hc).2)⟩
  | @lockFail c a k n h1 h2 h3 h4 =>
    obtain ⟨hq, L, hL, ht⟩ := calm h1
    exact ⟨_, .one (.lockFail hq (node h2) h3 h4), hr.quiet (.calm (p := k false) hL fun cap hc => (ht cap hc).2.2)⟩
  | @lock c a k n h1 h2 h3 h4 =>
    obtain ⟨hq, L, hL, ht⟩ := calm h1
    have hno : ∀ j, μ.owner a ≠ some j := by
      intro j hj
      have := (hf.own a n (node h2)).mpr ⟨j, by rw [hr.owner]; exact hj⟩
      rw [h3] at this
      simp at this
    have hnot : a ∉ L := fun h => hno i ((hL a).mpr h)
    have ha0 : a ≠ 0 := by
      refine hf.lock i _ _ _ _ hq ?_
      have hne := (ht cap hcap).1
      obtain ⟨b, hb⟩ := List.exists_mem_of_ne_nil L hne
      exact ⟨b, by rw [hr.owner]; exact (hL b).mpr hb⟩
    refine ⟨_, .one (.lock hq (node h2) h3 h4), ?_⟩
    refine hr.lock (i := i) (F := .running c (k true).erase .calm) ?_ ?_ (fun j e => fown_other _ _ e _ _ _) (fown_self _ _ _ _ _) (fun j _ => hno j) (fun j e => by simpa using Ne.symm e)
      (.calm (held_take hL a) fun cap hc => (ht cap (hc.back (setVer_keeps hr.pre hr.zero).2.2)).2.1 hnot ha0)
    · show setVer φ.heap a (n.version + 2) = _
      rw [hr.heap]
    · show upd φ.owner a (some i) = _
      rw [hr.owner]
  | @unlock c a k n h1 h2 =>
    obtain ⟨hq, L, hL, ht⟩ := calm h1
    have hmine := (hL a).mpr (ht cap hcap).1
    refine ⟨_, .one (.unlock hq (node h2)), ?_⟩
    refine hr.lock (i := i) (F := .running c k.erase .calm) ?_ ?_ (fun j e => fown_other _ _ e _ _ _) (fown_self _ _ _ _ _) (fun j e => by rw [hmine]; simpa using Ne.symm e) (fun j e => by simp)
      (.calm (held_free hL a) fun cap hc => (ht cap (hc.back (setVer_keeps hr.pre hr.zero).2.2)).2)
    · show setVer φ.heap a (n.version + 2) = _
      rw [hr.heap]
    · show upd φ.owner a none = _
      rw [hr.owner]
  | @unlockEnd c a k n s s' h1 h2 h3 =>
    cases s with
    | done =>
      cases h2
      obtain ⟨φ1, g1, L, O, s1, s2, s3, hL, ht, htl, haf⟩ := hr.close hf h1
      have hmem := (ht cap hcap).1
      have hmine := (hL a).mpr hmem
      have hh1 : g1[a]? = some n := by rw [← haf a hmem htl.1]; exact h3
      refine ⟨_, .tail s1 (.unlockEnd s3 (by rw [s2.heap]; exact h3) hh1), ?_⟩
      refine s2.lock (i := i) (F := .running c k.erase (.closing g1)) ?_ ?_ (fun j e => fown_other _ _ e _ _ _) (fown_self _ _ _ _ _) (fun j e => by rw [hmine]; simpa using Ne.symm e) (fun j e => by simp)
        (.closing (held_free hL a) (fun cap hc => (ht cap (hc.back (setVer_keeps hr.pre hr.zero).2.2)).2) htl.2 (.over (After.release haf)))
      · show φ1.heap.set a _ = _
        rw [setVer_eq_set h3, s2.heap]
      · show upd φ1.owner a none = _
        rw [s2.owner]
    | late loc r =>
      cases h2
      have hm := hr.proc i
      rw [h1] at hm
      generalize hq : φ.procs i = F at hm
      cases hm with
      | @opened _ _ t _ _ h0 L hL ht htl hb =>
        obtain ⟨g1, h', e1, e2, e3, e4⟩ := hb.result hr hf hq hL
        have e2 : storeLoc μ.heap loc r = some h' := e2
        rw [storeLoc_eq] at e2
        obtain ⟨l1, l2, l3, a', k', l4, l5⟩ := hb.code
        cases l4
        have hmem := (ht cap hcap).1
        have hmine := (hL a).mpr hmem
        obtain ⟨m, m', m1, m2, rfl⟩ := storeAt_some e2
        have hstep := commit_step (h' := μ.heap) hr hq hL e1 (by rw [e3, List.length_set]) (fun _ _ _ => rfl) (by
          intro b hb'
          rw [e4, List.getElem?_set_ne]
          · rintro rfl
            rcases hb' with h | h
            · exact h l1
            · exact l2 h
          · intro hs
            obtain ⟨s1, s2⟩ := hb.sub b hs
            rcases hb' with h | h
            · exact h s1
            · exact s2 h)
        have hg : g1[loc.1]? = some m' := by rw [e4 _ l3, List.getElem?_set_self (List.getElem?_eq_some_iff.mp m1).1]
        have haf : ∀ b ∈ L, b ∉ t.spoils → b ≠ loc.1 → μ.heap[b]? = g1[b]? := by
          intro b _ hb' hne
          rw [e4 b hb', List.getElem?_set_ne (Ne.symm hne)]
        have hga : g1[a]? = some n := by rw [← haf a hmem htl.1 (Ne.symm l5)]; exact h3
        refine ⟨_, .tail (.one hstep) (.unlockEnd (FConf.to_self _ _ _ _) (show μ.heap[a]? = some n from h3) hga), ?_⟩
        refine hr.lock (i := i) (F := .running c k.erase (.closing g1)) ?_ ?_ ?_ ?_ (fun j e => by rw [hmine]; simpa using Ne.symm e) (fun j e => by simp)
          (.closing (held_free hL a) (fun cap hc => (ht cap (hc.back (setVer_keeps hr.pre hr.zero).2.2)).2) htl.2 (.late (b := loc.1) (n := m) (n' := m') ?_ l2 l3 ?_ m2 hg ?_))
        · show μ.heap.set a _ = _
          rw [setVer_eq_set h3]
        · show upd φ.owner a none = _
          rw [hr.owner]
        · intro j e
          exact (fown_other _ _ e _ _ _).trans (FConf.to_other _ _ _ e)
        · exact fown_self _ _ _ _ _
        · rw [List.mem_filter]
          exact ⟨l1, by simpa using l5⟩
        · rw [getElem?_setVer, if_neg l5]
          exact m1
        · intro b hb' hO hne
          rw [List.mem_filter] at hb'
          rw [getElem?_setVer, if_neg (by simpa using hb'.2)]
          exact haf b hb'.1 hO hne
      | closing hL ht htl ha => cases ha
    | panic => cases h2
    | load a k => cases h2
    | store a x k => cases h2
    | link n loc => cases h2
  | @unlockObsolete c a k n w h1 h2 h3 =>
    cases w with
    | calm =>
      obtain ⟨hq, L, hL, ht⟩ := calm h1
      have hmine := (hL a).mpr (ht cap hcap).1
      refine ⟨_, .one (.unlockObsolete n hq (node h3) rfl), ?_⟩
      refine hr.lock (i := i) (F := .running c k.erase .calm) ?_ ?_ (fun j e => fown_other _ _ e _ _ _) (fown_self _ _ _ _ _) (fun j e => by rw [hmine]; simpa using Ne.symm e) (fun j e => by simp)
        (.calm (held_free hL a) fun cap hc => (ht cap (hc.back (setVer_keeps hr.pre hr.zero).2.2)).2)
      · show φ.heap.set a _ = _
        rw [setVer_eq_set h3, hr.heap]
      · show upd φ.owner a none = _
        rw [hr.owner]
    | reading n s => exact h2.elim
    | inside s buf =>
      have : s = .done ∧ buf = [] := by
        cases s <;> cases buf <;> simp [Stage.Over] at h2 ⊢
      obtain ⟨rfl, rfl⟩ := this
      obtain ⟨φ1, g1, L, O, s1, s2, s3, hL, ht, htl, haf⟩ := hr.close hf h1
      have hmem := (ht cap hcap).1
      have hmine := (hL a).mpr hmem
      refine ⟨_, .tail s1 (.unlockObsolete n s3 (by rw [s2.heap]; exact h3) rfl), ?_⟩
      refine s2.lock (i := i) (F := .running c k.erase (.closing g1)) ?_ ?_ (fun j e => fown_other _ _ e _ _ _) (fown_self _ _ _ _ _) (fun j e => by rw [hmine]; simpa using Ne.symm e) (fun j e => by simp)
        (.closing (held_free hL a) (fun cap hc => (ht cap (hc.back (setVer_keeps hr.pre hr.zero).2.2)).2) htl (.over (After.release haf)))
      · show φ1.heap.set a _ = _
        rw [setVer_eq_set h3, s2.heap]
      · show upd φ1.owner a none = _
        rw [s2.owner]
  | @readBegin c a v k n h1 h2 =>
    obtain ⟨hq, L, hL, ht⟩ := calm h1
    exact ⟨_, .one (.readBegin hq (node h2)), hr.quiet (.reading hL ht)⟩
  | @readLook c a v k n s m h1 h2 =>
    obtain ⟨hq, L, hL, ht⟩ := reading h1
    exact ⟨_, .one (.readLook hq (node h2)), hr.quiet (.reading hL ht)⟩
  | @readEnd c a v k n s m r h1 h2 h3 h4 =>
    obtain ⟨hq, L, hL, ht⟩ := reading h1
    exact ⟨_, .one (.readEnd r hq (node h2) h3 h4), hr.quiet (.calm (p := k r) hL fun cap hc => ht cap hc r (h3.trans (hc.node a m h2)))⟩
  | @readRoot c k n h1 h2 =>
    obtain ⟨hq, L, hL, ht⟩ := calm h1
    exact ⟨_, .one (.readRoot hq (node h2)), hr.quiet (.calm (p := k n.root) hL fun cap hc => ht cap hc _)⟩
  | @choose c k b h1 =>
    obtain ⟨hq, L, hL, ht⟩ := calm h1
    exact ⟨_, .one (.choose b hq), hr.quiet (.calm (p := k b) hL fun cap hc => ht cap hc _)⟩
  | @enter c t k h1 =>
    obtain ⟨hq, L, hL, ht⟩ := calm h1
    obtain ⟨t1, t2, t3, t4, -⟩ := ht cap hcap
    refine ⟨_, .one (.enter hq), hr.quiet (.opened (L := L) hL (fun cap hc => (ht cap hc).2.2.2.2) t3 ?_)⟩
    refine ⟨fun N hN => ?_, ?_, ?_, code_within t t2 t1 t4, trivial⟩
    · rw [hr.heap, over_same hN]
      refine code_run t t2 fun x hx n hn => ?_
      rw [hN x (t1 x hx)] at hn
      exact hr.pre x n hn
    · intro a ha
      obtain ⟨n, hn⟩ := hf.lt a i (by rw [hr.owner]; exact (hL a).mpr ha)
      rw [hn]
      simp
    · intro a ha
      cases t with
      | compress a' c' b' loc' =>
        simp only [Section.spoils, List.mem_singleton] at ha
        subst ha
        exact ⟨t1 _ (by simp [Section.nodes]), t2.2.2.2.1⟩
      | _ => simp [Section.spoils] at ha
  | @secLoad c p a k buf h n h1 h2 h3 =>
    have hm := hr.proc i
    rw [h1] at hm
    generalize hq : φ.procs i = F at hm
    refine ⟨φ, .refl φ, hr.still ?_⟩
    rw [hq]
    cases hm with
    | @opened _ _ t _ _ h0 L hL ht htl hb =>
      obtain ⟨k8, kz⟩ := applyAll_keeps hb.buf h2 hr.pre hr.zero
      refine .opened hL ht htl ⟨fun N hN => ?_, hb.has, hb.sub, hb.code.2 n (k8 a n h3) ?_, hb.buf.load (by simp)⟩
      · rcases applyAll_local (s := .load a k) (by simp) hb.buf hN with ⟨-, e⟩ | ⟨N', g', e1, e2, e3⟩
        · rw [h2] at e
          cases e
        · rw [h2] at e2
          cases e2
          have := hb.sem N hN
          rw [e1] at this ⊢
          have e4 : (Sec.load a k).run N' = (k n).run N' := by
            show N'[a]?.bind _ = _
            rw [e3 a hb.code.1, h3]
            rfl
          simp only [Option.bind_some] at this ⊢
          rw [e4] at this
          exact this
      · intro e
        subst e
        obtain ⟨z, z1, -, z2⟩ := kz
        rw [h3] at z1
        cases z1
        exact z2
    | closing hL ht htl ha => cases ha
  | @secStore c p a x k buf h h1 h2 h3 =>
    have hm := hr.proc i
    rw [h1] at hm
    generalize hq : φ.procs i = F at hm
    refine ⟨φ, .refl φ, hr.still ?_⟩
    rw [hq]
    cases hm with
    | @opened _ _ t _ _ h0 L hL ht htl hb =>
      refine .opened hL ht htl ⟨fun N hN => ?_, hb.has, hb.sub, hb.code.2.2, BufIn.push_store hb.code hb.buf⟩
      have := hb.sem N hN
      rw [applyAll_append]
      cases e : applyAll buf N with
      | none => rw [e] at this; exact this
      | some N' =>
        rw [e] at this
        have e4 : ((applyAll [.store a x] N').bind k.run) = (Sec.store a x k).run N' := by
          show (((storeAt a x N').bind fun h => some h).bind k.run) = (storeAt a x N').bind k.run
          cases storeAt a x N' <;> rfl
        simp only [Option.bind_some] at this ⊢
        rw [e4]
        exact this
    | @closing _ _ _ _ g1 L O hL ht htl ha =>
      cases ha with
      | late e1 e2 e3 e4 e5 e6 e7 => exact .closing hL ht htl (.stored e1 e2 e3 e4 e5 e6 e7)
  | @secLink c p n loc buf h h1 h2 h3 =>
    have hm := hr.proc i
    rw [h1] at hm
    generalize hq : φ.procs i = F at hm
    refine ⟨φ, .refl φ, hr.still ?_⟩
    rw [hq]
    cases hm with
    | @opened _ _ t _ _ h0 L hL ht htl hb =>
      refine .opened hL ht htl ⟨fun N hN => ?_, hb.has, hb.sub, trivial, BufIn.push_link hb.code hb.buf⟩
      have := hb.sem N hN
      rw [applyAll_append]
      cases e : applyAll buf N with
      | none => rw [e] at this; exact this
      | some N' =>
        rw [e] at this
        have e4 : ((applyAll [.link n loc] N').bind Sec.done.run) = (Sec.link n loc).run N' := by
          show (((allocAt N' loc n).bind fun h => some h).bind fun h => some h) = allocAt N' loc n
          cases allocAt N' loc n <;> rfl
        simp only [Option.bind_some] at this ⊢
        rw [e4]
        exact this
    | closing hL ht htl ha => cases ha
  | @secCrash c p s buf h h1 h2 h3 =>
    exfalso
    have hm := hr.proc i
    rw [h1] at hm
    generalize hq : φ.procs i = F at hm
    cases hm with
    | @opened _ _ t _ _ h0 L hL ht htl hb =>
      obtain ⟨g1, h', e1, e2, e3, e4⟩ := hb.result hr hf hq hL
      rw [h2] at e2
      have e2 : s.run h = some h' := e2
      cases s with
      | done => exact h3
      | panic => cases e2
      | load a k =>
        have e2 : h[a]?.bind _ = some h' := e2
        rw [show h[a]? = none from h3] at e2
        cases e2
      | store a x k =>
        have e2 : (storeAt a x h).bind _ = some h' := e2
        rw [show storeAt a x h = none from h3] at e2
        cases e2
      | link n loc =>
        have e2 : allocAt h loc n = some h' := e2
        rw [show allocAt h loc n = none from h3] at e2
        cases e2
      | late loc r => exact h3
    | @closing _ _ _ _ g1 L O hL ht htl ha =>
      cases ha with
      | over => exact h3
      | late e1 e2 e3 e4 e5 e6 e7 =>
        cases h2
        have := storeAt_of e4 e5
        rw [show storeAt _ _ μ.heap = none from h3] at this
        cases this
      | stored => exact h3
  | @flush c p s x buf h h1 h2 =>
    have hm := hr.proc i
    rw [h1] at hm
    generalize hq : φ.procs i = F at hm
    cases hm with
    | @opened _ _ t _ _ h0 L hL ht htl hb =>
      cases x with
      | store a x =>
        have h2 : storeAt a x μ.heap = some h := h2
        by_cases ha : a = 0
        · subst ha
          obtain ⟨rfl, rfl, hx⟩ := hb.buf.2.1 rfl
          obtain ⟨g1, h', e1, e2, e3, e4⟩ := hb.result hr hf hq hL
          have e2 : ((storeAt 0 x μ.heap).bind fun h => some h).bind (fun h => some h) = some h' := e2
          rw [h2] at e2
          cases e2
          have hstep := commit_step (h' := h) hr hq hL e1 e3 (fun b _ hb' => (storeAt_other h2 (Ne.symm hb')).symm) (by
            intro b hb'
            apply e4
            intro hs
            obtain ⟨s1, s2⟩ := hb.sub b hs
            rcases hb' with h | h
            · exact h s1
            · exact s2 h)
          obtain ⟨k8, k0⟩ := storeAt_keeps (fun _ => hx) h2 hr.pre hr.zero
          refine ⟨_, .one hstep, hr.to rfl rfl (fun j e => φ.to_other _ _ e) k0 k8 (storeAt_caps h2) ?_ ?_⟩
          · intro b j hj hb'
            apply storeAt_other h2
            rintro rfl
            have := (hL 0).mpr hb.buf.1
            rw [this] at hb'
            cases hb'
            exact hj rfl
          · rw [FConf.to_self]
            exact .closing hL (ht.caps (storeAt_caps h2)) htl (.over fun b _ hb' => (e4 b hb').symm)
        · exact flush_store hr hq rfl ((hL a).mpr hb.buf.1) ha h2 (.opened hL (ht.caps (storeAt_caps h2)) htl (hb.flush h2))
      | link n loc =>
        have h2 : allocAt μ.heap loc n = some h := h2
        obtain ⟨b1, b2, rfl, rfl⟩ := hb.buf
        obtain ⟨g1, h', e1, e2, e3, e4⟩ := hb.result hr hf hq hL
        have e2 : ((allocAt μ.heap loc n).bind fun h => some h).bind (fun h => some h) = some h' := e2
        rw [h2] at e2
        cases e2
        obtain ⟨k8, k0⟩ := allocAt_keeps b2 h2 hr.pre hr.zero
        have hst := allocAt_some h2
        have hlt : ∀ b, (∃ j, μ.owner b = some j) → b < μ.heap.length := by
          rintro b ⟨j, hj⟩
          obtain ⟨m, hm⟩ := hf.lt b j (by rw [hr.owner]; exact hj)
          rw [hr.heap] at hm
          exact (List.getElem?_eq_some_iff.mp hm).1
        have hother : ∀ b, (∃ j, μ.owner b = some j) → b ≠ loc.1 → h[b]? = μ.heap[b]? := by
          intro b hj hb'
          rw [storeAt_other hst (Ne.symm hb'), List.getElem?_append_left (hlt b hj)]
        have hcaps : Caps μ.heap h := by
          intro b m hm
          exact storeAt_caps hst b m (by rw [List.getElem?_append_left (List.getElem?_eq_some_iff.mp hm).1]; exact hm)
        have hown := (hL loc.1).mpr b1
        obtain ⟨m, m', m1, m2, rfl⟩ := storeAt_some hst
        rw [List.getElem?_append_left (hlt _ ⟨i, hown⟩)] at m1
        obtain ⟨c1, c2, -⟩ := Field.store_cap m2
        have hoth : ∀ (b : Addr) j, j ≠ i → μ.owner b = some j → ((μ.heap ++ [n]).set loc.1 m')[b]? = μ.heap[b]? := by
          intro b j hj hb'
          apply hother b ⟨j, hb'⟩
          rintro rfl
          rw [hown] at hb'
          cases hb'
          exact hj rfl
        have hafter : After ((μ.heap ++ [n]).set loc.1 m') L t.spoils g1 .done [] := .over fun b _ hb' => (e4 b hb').symm
        have hout : ∀ b : Addr, b ∉ L ∨ b = 0 → b ∉ t.spoils := by
          intro b hb' hs
          obtain ⟨s1, s2⟩ := hb.sub b hs
          rcases hb' with h | h
          · exact h s1
          · exact s2 h
        by_cases hz : loc.1 = 0
        · have hstep := commit_step (h' := (μ.heap ++ [n]).set loc.1 m') hr hq hL e1 e3
            (fun b hb' h0' => (hother b ⟨i, (hL b).mpr hb'⟩ (by rw [hz]; exact h0')).symm) (fun b hb' => e4 b (hout b hb'))
          refine ⟨_, .one hstep, hr.to rfl rfl (fun j e => φ.to_other _ _ e) k0 k8 hcaps hoth ?_⟩
          rw [FConf.to_self]
          exact .closing hL (ht.caps hcaps) htl hafter
        · have hstep := commit_step (h' := μ.heap ++ [n]) hr hq hL e1 (by rw [e3, List.length_set])
            (fun b hb' _ => (List.getElem?_append_left (hlt b ⟨i, (hL b).mpr hb'⟩)).symm) (fun b hb' => by
              rw [e4 b (hout b hb'), List.getElem?_set_ne]
              rintro rfl
              rcases hb' with h | h
              · exact h b1
              · exact hz h)
          have hstep2 := FStep.scribble (i := i) (φ := φ.to i (μ.heap ++ [n]) (.running c p.erase (.closing g1))) (a := loc.1) (n := m) m' (FConf.to_self _ _ _ _) rfl
            (show φ.owner loc.1 = some i by rw [hr.owner]; exact hown) hz
            (show (μ.heap ++ [n])[loc.1]? = some m by rw [List.getElem?_append_left (hlt _ ⟨i, hown⟩)]; exact m1) c1 c2
          refine ⟨_, .tail (.one hstep) hstep2, hr.to rfl rfl (fun j e => (FConf.to_other _ _ _ e).trans (FConf.to_other _ _ _ e)) k0 k8 hcaps hoth ?_⟩
          rw [FConf.to_self]
          exact .closing hL (ht.caps hcaps) htl hafter
    | @closing _ _ _ _ g1 L O hL ht htl ha =>
      cases ha with
      | @stored b y n n' e1 e2 e3 e4 e5 e6 e7 =>
        have h2 : storeAt b y μ.heap = some h := h2
        refine flush_store hr hq rfl ((hL b).mpr e1) e2 h2 (.closing hL (ht.caps (storeAt_caps h2)) htl (.over fun a ha hO => ?_))
        by_cases e : a = b
        · subst e
          rw [storeAt_of e4 e5] at h2
          cases h2
          rw [List.getElem?_set_self (List.getElem?_eq_some_iff.mp e4).1, e6]
        · rw [storeAt_other h2 (Ne.symm e)]
          exact e7 a ha hO e

end Art
