import Verif.Art.Polite
import Verif.Art.Fine
import Verif.Props.ArtConc

/-!
# Runs in small steps are runs in large steps

Every run of `Verif.Art.Fine` follows a run of `Verif.Art.System`: the steps within a critical section but one, and within a racy read but
the last, are left out.
-/

set_option linter.unusedSimpArgs false

namespace Art

open Surf Spec Props

/-! ## What holds in a run of large steps -/

/-- The call `j` keeps to the rules. -/
def Keeps (σ : Conf) (j : Nat) : Prop := ∀ c p, σ.procs j = .running c p → ∃ L K, Polite p L K ∧ (∀ a, σ.owner a = some j ↔ a ∈ L) ∧
  ∀ (a : Addr) v, (a, v) ∈ K → ∃ n, σ.heap[a]? = some n ∧ v ≤ n.version

/-- What the simulation needs to know of a state. -/
structure Sane (σ : Conf) : Prop where
  own : ∀ (a : Addr) n, σ.heap[a]? = some n → (locked n.version = true ↔ ∃ i, σ.owner a = some i)
  lt : ∀ a i, σ.owner a = some i → ∃ n, σ.heap[a]? = some n ∧ obsolete n.version = false
  zero : ∀ n, σ.heap[0]? = some n → obsolete n.version = false
  keeps : ∀ j, Keeps σ j
  free : ∀ j, (∀ c p, σ.procs j ≠ .running c p) → ∀ a, σ.owner a ≠ some j

section
variable {σ : Conf} {i : Nat} {c : Call} {q : Prog (Option Bytes)} {h : Heap} {L : List Addr} {K : List (Addr × Nat)}

theorem Keeps.of (hq : Polite q L K) {σ' : Conf} (hp : σ'.procs i = .running c q) (hL : ∀ a, σ'.owner a = some i ↔ a ∈ L)
    (hK : ∀ (a : Addr) v, (a, v) ∈ K → ∃ n, σ'.heap[a]? = some n ∧ v ≤ n.version) : Keeps σ' i := by
  intro c' p' h'
  rw [hp] at h'
  cases h'
  exact ⟨L, K, hq, hL, hK⟩

theorem own_take (hL : ∀ a, σ.owner a = some i ↔ a ∈ L) (b : Addr) (P : Proc) : ∀ a, ((σ.to i h P).own b (some i)).owner a = some i ↔ a ∈ b :: L := by
  intro a
  rw [List.mem_cons, ← hL]
  show upd σ.owner b (some i) a = some i ↔ _
  unfold upd
  by_cases h : a = b <;> simp [h]

theorem own_free (hL : ∀ a, σ.owner a = some i ↔ a ∈ L) (b : Addr) (P : Proc) : ∀ a, ((σ.to i h P).own b none).owner a = some i ↔ a ∈ L.filter (· ≠ b) := by
  intro a
  rw [List.mem_filter, ← hL]
  show upd σ.owner b none a = some i ↔ _
  unfold upd
  by_cases h : a = b <;> simp [h]

theorem own_self (b : Addr) (o : Option Nat) (P : Proc) : ((σ.to i h P).own b o).procs i = P := by
  show (σ.to i h P).procs i = P
  rw [to_self]

end

theorem Keeps.step {σ σ' : Conf} {i : Nat} (hS : Sane σ) (hs : Step i σ σ') (hok : StepOk i σ σ') : Keeps σ' i := by
  have hmono : ∀ {K : List (Addr × Nat)}, (∀ (a : Addr) v, (a, v) ∈ K → ∃ n, σ.heap[a]? = some n ∧ v ≤ n.version) → ∀ (a : Addr) v, (a, v) ∈ K → ∃ n, σ'.heap[a]? = some n ∧ v ≤ n.version := by
    intro K hK a v hav
    obtain ⟨n, h1, h2⟩ := hK a v hav
    obtain ⟨n', h3, -, h4, -⟩ := hok.node a n h1
    exact ⟨n', h3, by omega⟩
  have hold : ∀ {L : List Addr} {a : Addr} {n : Node}, (∀ a, σ.owner a = some i ↔ a ∈ L) → σ.heap[a]? = some n → locked n.version = false → a ∉ L := by
    intro L a n hL hn hl ha
    have := (hS.own a n hn).mpr ⟨i, (hL a).mpr ha⟩
    rw [hl] at this
    simp at this
  cases hs with
  | call c fuel h1 h2 =>
    refine Keeps.of (polite_call c fuel []) (to_self _ _ _ _) (fun a => ?_) (by simp)
    have := hS.free i (by rw [h1]; simp) a
    exact ⟨fun h => absurd h this, fun h => absurd h (by simp)⟩
  | ret h1 =>
    intro c p h
    rw [to_self] at h
    cases h
  | crash h1 h2 =>
    intro c p h
    rw [to_self] at h
    cases h
  | wait h1 h2 h3 =>
    obtain ⟨L, K, hq, hL, hK⟩ := hS.keeps i _ _ h1
    refine Keeps.of (hq _ h3) (to_self _ _ _ _) hL ?_
    intro a v h
    rcases List.mem_cons.mp h with h | h
    · cases h
      exact ⟨_, h2, Nat.le_refl _⟩
    · exact hmono hK a v h
  | load h1 h2 =>
    obtain ⟨L, K, hq, hL, hK⟩ := hS.keeps i _ _ h1
    exact Keeps.of (hq _) (to_self _ _ _ _) hL (hmono hK)
  | @cas c b v k n h1 h2 h3 =>
    obtain ⟨L, K, ⟨hv, hq, -⟩, hL, hK⟩ := hS.keeps i _ _ h1
    refine Keeps.of (hq (hold hL h2 (by rw [h3]; exact hv))) (own_self _ _ _) (own_take hL b _) ?_
    intro a w h
    rcases List.mem_cons.mp h with h | h
    · cases h
      refine ⟨{ n with version := v + 2 }, ?_, Nat.le_refl _⟩
      show (setVer σ.heap b (v + 2))[b]? = _
      rw [getElem?_setVer, if_pos rfl, h2]
      rfl
    · exact hmono hK a w h
  | casFail h1 h2 h3 =>
    obtain ⟨L, K, ⟨hv, -, hq⟩, hL, hK⟩ := hS.keeps i _ _ h1
    exact Keeps.of hq (to_self _ _ _ _) hL (hmono hK)
  | lockFail h1 h2 h3 h4 =>
    obtain ⟨L, K, ⟨-, hq⟩, hL, hK⟩ := hS.keeps i _ _ h1
    exact Keeps.of hq (to_self _ _ _ _) hL (hmono hK)
  | @lock c b k n h1 h2 h3 h4 =>
    obtain ⟨L, K, ⟨hq, -⟩, hL, hK⟩ := hS.keeps i _ _ h1
    exact Keeps.of (hq (hold hL h2 h3)) (own_self _ _ _) (own_take hL b _) (hmono hK)
  | @unlock c b k n h1 h2 =>
    obtain ⟨L, K, ⟨-, hq⟩, hL, hK⟩ := hS.keeps i _ _ h1
    exact Keeps.of hq (own_self _ _ _) (own_free hL b _) (hmono hK)
  | @unlockObsolete c b k n h1 h2 =>
    obtain ⟨L, K, ⟨-, hq⟩, hL, hK⟩ := hS.keeps i _ _ h1
    exact Keeps.of hq (own_self _ _ _) (own_free hL b _) (hmono hK)
  | read r h1 h2 h3 h4 =>
    obtain ⟨L, K, ⟨-, -, hq⟩, hL, hK⟩ := hS.keeps i _ _ h1
    exact Keeps.of (hq _) (to_self _ _ _ _) hL (hmono hK)
  | readRoot h1 h2 =>
    obtain ⟨L, K, hq, hL, hK⟩ := hS.keeps i _ _ h1
    exact Keeps.of (hq _) (to_self _ _ _ _) hL (hmono hK)
  | choose b h1 =>
    obtain ⟨L, K, hq, hL, hK⟩ := hS.keeps i _ _ h1
    exact Keeps.of (hq _) (to_self _ _ _ _) hL (hmono hK)
  | write h1 h2 =>
    obtain ⟨L, K, ⟨-, hq⟩, hL, hK⟩ := hS.keeps i _ _ h1
    exact Keeps.of hq (to_self _ _ _ _) hL (hmono hK)

/-- A lock of another call stays. -/
theorem StepOk.owned {i j : Nat} {σ σ' : Conf} (h : StepOk i σ σ') (hij : j ≠ i) (a : Addr) : σ'.owner a = some j ↔ σ.owner a = some j := by
  rcases h.owner a with e | ⟨e1, e2⟩ | ⟨e1, e2⟩
  · rw [e]
  · rw [e1, e2]
    simp [Ne.symm hij]
  · rw [e1, e2]
    simp [Ne.symm hij]

theorem Keeps.other {σ σ' : Conf} {i j : Nat} (hk : Keeps σ j) (hs : Step i σ σ') (hok : StepOk i σ σ') (hij : j ≠ i) : Keeps σ' j := by
  intro c p hp
  rw [hs.other hij] at hp
  obtain ⟨L, K, hq, hL, hK⟩ := hk c p hp
  refine ⟨L, K, hq, fun a => (hok.owned hij a).trans (hL a), ?_⟩
  intro a v hav
  obtain ⟨n, h1, h2⟩ := hK a v hav
  obtain ⟨n', h3, -, h4, -⟩ := hok.node a n h1
  exact ⟨n', h3, by omega⟩

theorem Run.sane {T : Nat} {σ : Nat → Conf} {who : Nat → Nat} (h : Run T σ who) : ∀ t, t ≤ T → Sane (σ t) := by
  intro t
  induction t with
  | zero =>
    intro _
    have hi := h.init
    obtain ⟨s, hs⟩ := h.si 0 (Nat.zero_le _)
    refine ⟨fun a n hn => C17_locked_iff h (Nat.zero_le _) hn, ?_, ?_, ?_, ?_⟩
    · intro a i ho
      rw [hi] at ho
      simp [Conf.init] at ho
    · intro n hn
      have := hs.inv.zero n (by rw [hs.heap]; exact hn)
      simp [obsolete, this]
    · intro j c p hp
      rw [hi] at hp
      simp [Conf.init] at hp
    · intro j _ a
      rw [hi]
      simp [Conf.init]
  | succ t ih =>
    intro ht
    have hS := ih (by omega)
    have hok := h.stepOk (show t < T by omega)
    have hst := h.step t (by omega)
    obtain ⟨s, hs⟩ := h.si (t + 1) ht
    refine ⟨fun a n hn => C17_locked_iff h ht hn, ?_, ?_, ?_, ?_⟩
    · intro a i ho
      have ho' : s.owner a ≠ none := by rw [hs.owner, ho]; simp
      have hlt := hs.inv.lt a ho'
      refine ⟨s.heap[a], by rw [← hs.heap]; exact List.getElem?_eq_getElem hlt, ?_⟩
      have := hs.inv.held a _ (List.getElem?_eq_getElem hlt) ho'
      simp [obsolete, this]
    · intro n hn
      have := hs.inv.zero n (by rw [hs.heap]; exact hn)
      simp [obsolete, this]
    · intro j
      by_cases e : j = who t
      · subst e
        exact Keeps.step hS hst hok
      · exact (hS.keeps j).other hst hok e
    · intro j hj a
      exact C17_released (h.mono ht) hj a

/-! ## The relation between the states -/

/-- Nobody is changing the node `a` of version `v`, and it is not obsolete. -/
def Steady (φ : FConf) (a : Addr) (v : Nat) : Prop :=
  obsolete v = false ∧ ∀ i c p w, φ.owner a = some i → φ.procs i = .running c p w → w.inside = false

/-- What the middle of something says of memory. -/
def PhaseOk (σ : Conf) (i : Nat) (p : Prog (Option Bytes)) : Phase → Prop
  | .calm => True
  | .opened h0 => (∃ f k, p = .write f k) ∧ ∀ a, σ.owner a = some i → h0[a]? = σ.heap[a]?
  | .closing h1 => ∀ a, σ.owner a = some i → h1[a]? = σ.heap[a]?
  | .reading n s => ∃ a v k m, p = .read a v k ∧ σ.heap[a]? = some m ∧ n.cap = m.cap ∧ (m.version = v → s = true ∧ n = m)

/-- A call is as far as in the run of large steps. -/
inductive Match (σ : Conf) (i : Nat) : FProc → Proc → Prop
  | idle : Match σ i .idle .idle
  | running {c p w} : PhaseOk σ i p w → Match σ i (.running c p w) (.running c p)
  | done {c o} : Match σ i (.done c o) (.done c o)
  | crashed {c} : Match σ i (.crashed c) (.crashed c)

/-- The nodes are those of the run of large steps, but for those being changed and the obsolete ones. -/
structure Mirror (φ : FConf) (σ : Conf) : Prop where
  owner : φ.owner = σ.owner
  length : φ.heap.length = σ.heap.length
  node : ∀ (a : Addr) n, σ.heap[a]? = some n → ∃ m, φ.heap[a]? = some m ∧ m.version = n.version ∧ m.cap = n.cap ∧ (a = 0 ∨ Steady φ a n.version → m = n)
  proc : ∀ i, Match σ i (φ.procs i) (σ.procs i)

theorem getElem?_overlay (S : Addr → Bool) (base top : Heap) (a : Addr) :
    (overlay S base top)[a]? = base[a]?.map fun n => if S a then top[a]?.getD n else n := by
  unfold overlay
  rw [List.getElem?_mapIdx]

theorem length_overlay (S : Addr → Bool) (base top : Heap) : (overlay S base top).length = base.length := by
  simp [overlay]

theorem StepOk.refl (i : Nat) (σ : Conf) : StepOk i σ σ :=
  ⟨fun _ n h => ⟨n, h, rfl, Nat.le_refl _, .inl rfl⟩, fun _ => .inl rfl, fun _ n _ h h' => ⟨h', n, h, rfl⟩⟩

/-- What the middle of something says stays true when others take steps. -/
theorem PhaseOk.other {σ σ' : Conf} {i j : Nat} {c : Call} {p : Prog (Option Bytes)} {w : Phase} (h : PhaseOk σ j p w) (hS : Sane σ) (hp : σ.procs j = .running c p)
    (hok : StepOk i σ σ') (hij : j ≠ i) : PhaseOk σ' j p w := by
  have hkeep : ∀ a, σ'.owner a = some j → σ'.heap[a]? = σ.heap[a]? := by
    intro a ho
    rw [hok.owned hij] at ho
    obtain ⟨n, hn, -⟩ := hS.lt a j ho
    obtain ⟨n', h1, -, -, h2⟩ := hok.node a n hn
    rw [h1, hn]
    rcases h2 with h2 | h2 | h2
    · rw [h2]
    · rw [ho] at h2
      exact absurd (Option.some.inj h2) hij
    · rw [ho] at h2
      exact absurd h2.1 (by simp)
  cases w with
  | calm => trivial
  | opened h0 => exact ⟨h.1, fun a ho => (h.2 a ((hok.owned hij a).mp ho)).trans (hkeep a ho).symm⟩
  | closing h1 => exact fun a ho => (h a ((hok.owned hij a).mp ho)).trans (hkeep a ho).symm
  | reading n s =>
    obtain ⟨a, v, k, m, rfl, hm, hc, hv⟩ := h
    obtain ⟨m', h1, h2, h3, h4⟩ := hok.node a m hm
    refine ⟨a, v, k, m', rfl, h1, hc.trans h2.symm, fun e => ?_⟩
    obtain ⟨L, K, ⟨hK, hr, -⟩, hL, hk⟩ := hS.keeps j _ _ hp
    obtain ⟨m2, e2, hle⟩ := hk a v hK
    rw [hm] at e2
    cases e2
    have e3 : m.version = v := by omega
    rcases h4 with h4 | h4 | h4
    · rw [h4]
      exact hv e3
    · have hl := (hS.own a m hm).mpr ⟨i, h4⟩
      rcases hr with hr | hr
      · rw [← hL, h4] at hr
        exact absurd (Option.some.inj hr).symm hij
      · rw [e3, hr.1] at hl
        exact absurd hl (by simp)
    · have := h4.2.2.2
      have e4 : m'.version = m.version + 2 := by rw [this]
      omega

/-- A step: what is to be shown. -/
theorem Mirror.next {φ φ' : FConf} {σ σ' : Conf} {i : Nat} (h : Mirror φ σ) (hS : Sane σ) (hok : StepOk i σ σ')
    (hφ : ∀ j, j ≠ i → φ'.procs j = φ.procs j) (hσ : ∀ j, j ≠ i → σ'.procs j = σ.procs j) (hi : Match σ' i (φ'.procs i) (σ'.procs i))
    (ho : φ'.owner = σ'.owner) (hl : φ'.heap.length = σ'.heap.length)
    (hn : ∀ (a : Addr) n, σ'.heap[a]? = some n → ∃ m, φ'.heap[a]? = some m ∧ m.version = n.version ∧ m.cap = n.cap ∧ (a = 0 ∨ Steady φ' a n.version → m = n)) :
    Mirror φ' σ' := by
  refine ⟨ho, hl, hn, fun j => ?_⟩
  by_cases e : j = i
  · rw [e]
    exact hi
  · rw [hφ j e, hσ j e]
    have := h.proc j
    generalize h1 : φ.procs j = P at this
    generalize h2 : σ.procs j = Q at this
    cases this with
    | idle => exact .idle
    | running hw => exact .running (hw.other hS h2 hok e)
    | done => exact .done
    | crashed => exact .crashed

theorem Mirror.running {φ : FConf} {σ : Conf} {i : Nat} {c : Call} {p : Prog (Option Bytes)} {w : Phase} (h : Mirror φ σ) (hp : φ.procs i = .running c p w) :
    σ.procs i = .running c p ∧ PhaseOk σ i p w := by
  have := h.proc i
  rw [hp] at this
  generalize σ.procs i = Q at this
  cases this with
  | running hw => exact ⟨rfl, hw⟩

theorem Mirror.get {φ : FConf} {σ : Conf} (h : Mirror φ σ) {a : Addr} {m : Node} (hm : φ.heap[a]? = some m) :
    ∃ n, σ.heap[a]? = some n ∧ m.version = n.version ∧ m.cap = n.cap ∧ (a = 0 ∨ Steady φ a n.version → m = n) := by
  have hlt : a < σ.heap.length := by rw [← h.length]; exact (List.getElem?_eq_some_iff.mp hm).1
  obtain ⟨m', h1, h2⟩ := h.node a _ (List.getElem?_eq_getElem hlt)
  rw [hm] at h1
  cases h1
  exact ⟨_, List.getElem?_eq_getElem hlt, h2⟩

/-- The nodes locked by a call outside of a critical section are as they should be. -/
theorem Mirror.mine {φ : FConf} {σ : Conf} {i : Nat} {c : Call} {p : Prog (Option Bytes)} {w : Phase} (h : Mirror φ σ) (hS : Sane σ) (hp : φ.procs i = .running c p w)
    (hw : w.inside = false) {a : Addr} (ho : σ.owner a = some i) : φ.heap[a]? = σ.heap[a]? := by
  obtain ⟨n, hn, hob⟩ := hS.lt a i ho
  obtain ⟨m, h1, -, -, h2⟩ := h.node a n hn
  rw [h1, hn, h2 (.inr ⟨hob, ?_⟩)]
  intro i' c' p' w' h3 h4
  rw [h.owner, ho] at h3
  cases h3
  rw [hp] at h4
  cases h4
  exact hw

/-- A node that nobody has locked and that is not obsolete is as it should be. -/
theorem Mirror.unlocked {φ : FConf} {σ : Conf} (h : Mirror φ σ) (hS : Sane σ) {a : Addr} {n : Node} (hn : σ.heap[a]? = some n)
    (h1 : locked n.version = false) (h2 : obsolete n.version = false) : φ.heap[a]? = some n := by
  obtain ⟨m, e, -, -, h3⟩ := h.node a n hn
  rw [e, h3 (.inr ⟨h2, ?_⟩)]
  intro i c p w h4 _
  have := (hS.own a n hn).mpr ⟨i, by rw [← h.owner]; exact h4⟩
  rw [h1] at this
  exact absurd this (by simp)

/-- A node that is read, and whose version is the one the reader has found before, is as it should be. -/
theorem Mirror.read {φ : FConf} {σ : Conf} {i : Nat} {c : Call} {a : Addr} {v : Nat} {k : Node → Prog (Option Bytes)} {w : Phase} (h : Mirror φ σ) (hS : Sane σ)
    (hp : φ.procs i = .running c (.read a v k) w) (hw : w.inside = false) {n : Node} (hn : σ.heap[a]? = some n) (hv : n.version = v) : φ.heap[a]? = some n := by
  obtain ⟨L, K, ⟨-, hr, -⟩, hL, -⟩ := hS.keeps i _ _ (h.running hp).1
  rcases hr with hr | hr
  · rw [h.mine hS hp hw ((hL a).mpr hr), hn]
  · exact h.unlocked hS hn (by rw [hv]; exact hr.1) (by rw [hv]; exact hr.2)

theorem FConf.to_other (φ : FConf) {i j : Nat} (h : Heap) (P : FProc) (e : j ≠ i) : (φ.to i h P).procs j = φ.procs j := by
  simp [FConf.to, e]

theorem FConf.to_self (φ : FConf) (i : Nat) (h : Heap) (P : FProc) : (φ.to i h P).procs i = P := by
  simp [FConf.to]

theorem to_other (σ : Conf) {i j : Nat} (h : Heap) (P : Proc) (e : j ≠ i) : (σ.to i h P).procs j = σ.procs j := by
  simp [Conf.to, e]

/-- A step that changes neither memory nor locks. -/
theorem Mirror.same {φ : FConf} {σ : Conf} {i : Nat} {P : FProc} {Q : Proc} (h : Mirror φ σ) (hS : Sane σ) (hm : Match (σ.to i σ.heap Q) i P Q)
    (hw : ∀ c p w, φ.procs i = .running c p w → w.inside = true → (∃ a, σ.owner a = some i) → ∃ c' p' w', P = .running c' p' w' ∧ w'.inside = true) :
    Mirror (φ.to i φ.heap P) (σ.to i σ.heap Q) := by
  refine h.next (i := i) hS ?_ (fun j e => φ.to_other _ _ e) (fun j e => to_other σ _ _ e) (by rw [FConf.to_self, Art.to_self]; exact hm) h.owner h.length ?_
  · exact ⟨fun _ n h => ⟨n, h, rfl, Nat.le_refl _, .inl rfl⟩, fun _ => .inl rfl, fun _ n _ h h' => ⟨h', n, h, rfl⟩⟩
  · intro a n hn
    obtain ⟨m, h1, h2, h3, h4⟩ := h.node a n hn
    refine ⟨m, h1, h2, h3, fun h5 => h4 (h5.imp_right ?_)⟩
    rintro ⟨h6, h7⟩
    refine ⟨h6, fun j c p w h8 h9 => ?_⟩
    by_cases e : j = i
    · subst e
      cases hin : w.inside with
      | false => rfl
      | true =>
        obtain ⟨c', p', w', e1, e2⟩ := hw c p w h9 hin ⟨a, by rw [← h.owner]; exact h8⟩
        have := h7 j c' p' w' h8 (by rw [FConf.to_self]; exact e1)
        rw [e2] at this
        exact absurd this (by simp)
    · exact h7 j c p w h8 (by rw [φ.to_other _ _ e]; exact h9)

theorem to_id {σ : Conf} {i : Nat} {Q : Proc} (h : σ.procs i = Q) : σ.to i σ.heap Q = σ := by
  subst h
  unfold Conf.to
  congr
  funext j
  by_cases e : j = i <;> simp [e]

/-- A step that sets the node `a`, and takes or releases its lock. -/
theorem Mirror.lock {φ : FConf} {σ : Conf} {i : Nat} {c : Call} {p q : Prog (Option Bytes)} {w : Phase} (h : Mirror φ σ) (hS : Sane σ) (hp : φ.procs i = .running c p w)
    {a : Addr} {r s : Node} {o : Option Nat} (hs : ∃ n, σ.heap[a]? = some n) (hok : StepOk i σ ((σ.to i (σ.heap.set a s) (.running c q)).own a o))
    (hm : PhaseOk ((σ.to i (σ.heap.set a s) (.running c q)).own a o) i q w)
    (hv : r.version = s.version) (hc : r.cap = s.cap) (hr : a = 0 ∨ obsolete s.version = false → r = s) :
    Mirror ((φ.to i (φ.heap.set a r) (.running c q w)).own a o) ((σ.to i (σ.heap.set a s) (.running c q)).own a o) := by
  refine h.next (i := i) hS hok (fun j e => φ.to_other (φ.heap.set a r) (.running c q w) e) (fun j e => to_other σ (σ.heap.set a s) (.running c q) e) ?_ ?_ ?_ ?_
  · show Match _ i ((φ.to i (φ.heap.set a r) (.running c q w)).procs i) ((σ.to i (σ.heap.set a s) (.running c q)).procs i)
    rw [FConf.to_self, Art.to_self]
    exact .running hm
  · show upd φ.owner a o = upd σ.owner a o
    rw [h.owner]
  · show (φ.heap.set a r).length = (σ.heap.set a s).length
    simp [h.length]
  · intro b n hn
    have hn' : (σ.heap.set a s)[b]? = some n := hn
    show ∃ m, (φ.heap.set a r)[b]? = some m ∧ _
    obtain ⟨n0, hn0⟩ := hs
    have hlt := (List.getElem?_eq_some_iff.mp hn0).1
    by_cases e : a = b
    · subst e
      rw [List.getElem?_set_self hlt] at hn'
      cases hn'
      refine ⟨r, List.getElem?_set_self (by rw [h.length]; exact hlt), hv, hc, fun h5 => hr (h5.imp_right fun h6 => h6.1)⟩
    · rw [List.getElem?_set_ne e] at hn'
      obtain ⟨m, h1, h2, h3, h4⟩ := h.node b n hn'
      refine ⟨m, by rw [List.getElem?_set_ne e]; exact h1, h2, h3, fun h5 => h4 (h5.imp_right ?_)⟩
      rintro ⟨h6, h7⟩
      refine ⟨h6, fun j c' p' w' h8 h9 => ?_⟩
      have h8' : upd φ.owner a o b = some j := by rw [upd_other _ _ (Ne.symm e)]; exact h8
      by_cases e' : j = i
      · subst e'
        rw [hp] at h9
        cases h9
        exact h7 j c q w h8' (φ.to_self j (φ.heap.set a r) (.running c q w))
      · exact h7 j c' p' w' h8' ((φ.to_other (φ.heap.set a r) (.running c q w) e').trans h9)

/-- A step that changes the nodes locked by `i` only, and no version. -/
theorem Mirror.change {φ : FConf} {σ : Conf} {i : Nat} {c : Call} {p q : Prog (Option Bytes)} {w w' : Phase} (h : Mirror φ σ) (hS : Sane σ) (hp : φ.procs i = .running c p w)
    {h' g' : Heap} (hok : StepOk i σ (σ.to i g' (.running c q))) (hm : PhaseOk (σ.to i g' (.running c q)) i q w') (hl : h'.length = g'.length)
    (hmine : ∀ a, σ.owner a = some i → ∀ n, g'[a]? = some n → ∃ m, h'[a]? = some m ∧ m.version = n.version ∧ m.cap = n.cap ∧ (a = 0 ∨ w'.inside = false → m = n))
    (hother : ∀ a : Nat, σ.owner a ≠ some i → h'[a]? = g'[a]? ∨ h'[a]? = φ.heap[a]? ∧ g'[a]? = σ.heap[a]?) :
    Mirror (φ.to i h' (.running c q w')) (σ.to i g' (.running c q)) := by
  refine h.next (i := i) hS hok (fun j e => φ.to_other _ _ e) (fun j e => to_other σ _ _ e) ?_ h.owner hl ?_
  · rw [FConf.to_self, Art.to_self]
    exact .running hm
  · intro a n hn
    have hn' : g'[a]? = some n := hn
    show ∃ m, h'[a]? = some m ∧ _
    by_cases e : σ.owner a = some i
    · obtain ⟨m, h1, h2, h3, h4⟩ := hmine a e n hn'
      refine ⟨m, h1, h2, h3, fun h5 => h4 (h5.imp_right fun h6 => ?_)⟩
      exact h6.2 i c q w' (by show φ.owner a = _; rw [h.owner, e]) (FConf.to_self _ _ _ _)
    · rcases hother a e with h1 | ⟨h1, h2⟩
      · exact ⟨n, by rw [h1]; exact hn', rfl, rfl, fun _ => rfl⟩
      · rw [h2] at hn'
        obtain ⟨m, h3, h4, h5, h6⟩ := h.node a n hn'
        refine ⟨m, by rw [h1]; exact h3, h4, h5, fun h7 => h6 (h7.imp_right ?_)⟩
        rintro ⟨h8, h9⟩
        refine ⟨h8, fun j c' p' x h10 h11 => ?_⟩
        by_cases e' : j = i
        · subst e'
          rw [h.owner] at h10
          exact absurd h10 e
        · exact h9 j c' p' x h10 (by rw [φ.to_other _ _ e']; exact h11)

theorem setVer_eq_set {h : Heap} {a : Addr} {n : Node} (hn : h[a]? = some n) (v : Nat) : setVer h a v = h.set a { n with version := v } := by
  apply List.ext_getElem?
  intro b
  rw [getElem?_setVer]
  by_cases e : a = b
  · subst e
    rw [List.getElem?_set_self (List.getElem?_eq_some_iff.mp hn).1, if_pos rfl, hn]
    rfl
  · rw [List.getElem?_set_ne e, if_neg (fun h => e h.symm)]

/-- One small step is no large step or one. -/
theorem Mirror.step {φ φ' : FConf} {σ : Conf} {i : Nat} (h : Mirror φ σ) (hS : Sane σ) (hf : FStep i φ φ') :
    Mirror φ' σ ∨ ∃ σ', Step i σ σ' ∧ (StepOk i σ σ' → Sane σ' → Mirror φ' σ') := by
  have hseen : ∀ {c p w}, φ.procs i = .running c p w → (∀ a, σ.owner a = some i → (φ.seen i w)[a]? = σ.heap[a]?) ∧ (φ.seen i w).length = σ.heap.length := by
    intro c p w hp
    have hov : ∀ x : Heap, (∀ a, σ.owner a = some i → x[a]? = σ.heap[a]?) → ∀ a, σ.owner a = some i → (overlay (φ.mine i) φ.heap x)[a]? = σ.heap[a]? := by
      intro x hx a ho
      obtain ⟨n, hn, -⟩ := hS.lt a i ho
      obtain ⟨m, hm, -⟩ := h.node a n hn
      rw [getElem?_overlay, hm, hn]
      simp [FConf.mine, h.owner, ho, hx a ho, hn]
    obtain ⟨-, hw⟩ := h.running hp
    cases w with
    | calm => exact ⟨fun a => h.mine hS hp rfl, h.length⟩
    | reading n s => exact ⟨fun a => h.mine hS hp rfl, h.length⟩
    | opened h0 => exact ⟨hov _ hw.2, by rw [FConf.seen, length_overlay]; exact h.length⟩
    | closing h1 => exact ⟨hov _ hw, by rw [FConf.seen, length_overlay]; exact h.length⟩
  have calm : ∀ {c p}, φ.procs i = .running c p .calm → ∀ {c' q}, Match (σ.to i σ.heap (.running c' q)) i (.running c' q .calm) (.running c' q) →
      Mirror (φ.to i φ.heap (.running c' q .calm)) (σ.to i σ.heap (.running c' q)) := by
    intro c p hp c' q hm
    refine h.same hS hm ?_
    intro c2 p2 w2 h1 h2
    rw [hp] at h1
    cases h1
    cases h2
  cases hf with
  | call c fuel h1 h2 =>
    have hp : σ.procs i = .idle := by
      have := h.proc i
      rw [h1] at this
      generalize σ.procs i = Q at this
      cases this
      rfl
    refine .inr ⟨_, .call c fuel hp h2, fun _ _ => h.same hS (.running trivial) ?_⟩
    intro c' p w h3
    rw [h1] at h3
    cases h3
  | ret h1 =>
    refine .inr ⟨_, .ret (h.running h1).1, fun _ hS' => h.same hS .done ?_⟩
    rintro c' p w h3 h4 ⟨a, ha⟩
    exact absurd ha (hS'.free i (by rw [Art.to_self]; simp) a)
  | @crash c p w h1 h2 =>
    obtain ⟨hp, hw⟩ := h.running h1
    have : Faulty σ.heap p := by
      obtain ⟨hs1, hs2⟩ := hseen h1
      have hnone : ∀ a : Nat, (φ.seen i w)[a]? = none → σ.heap[a]? = none := by
        intro a ha
        rw [List.getElem?_eq_none_iff] at ha ⊢
        omega
      cases p with
      | write f k =>
        obtain ⟨L, K, ⟨hf, -⟩, hL, -⟩ := hS.keeps i _ _ hp
        rcases hf _ σ.heap hs2 (fun a ha => hs1 a ((hL a).mpr ha)) with ⟨-, e⟩ | ⟨x, y, e, -⟩
        · exact e
        · rw [show f _ = none from h2] at e
          cases e
      | panic => trivial
      | diverge => exact h2
      | ret _ => exact h2
      | choose _ => exact h2
      | wait a k => exact hnone _ h2
      | load a k => exact hnone _ h2
      | cas a v k => exact hnone _ h2
      | lock a k => exact hnone _ h2
      | unlock a k => exact hnone _ h2
      | unlockObsolete a k => exact hnone _ h2
      | read a v k => exact hnone _ h2
      | readRoot k => exact hnone _ h2
    refine .inr ⟨_, .crash hp this, fun _ hS' => h.same hS .crashed ?_⟩
    rintro c' p' w' h3 h4 ⟨a, ha⟩
    exact absurd ha (hS'.free i (by rw [Art.to_self]; simp) a)
  | @wait c a k n h1 h2 h3 =>
    obtain ⟨m, e1, e2, -⟩ := h.get h2
    rw [e2] at h3 ⊢
    exact .inr ⟨_, .wait (h.running h1).1 e1 h3, fun _ _ => calm h1 (.running trivial)⟩
  | @load c a k n h1 h2 =>
    obtain ⟨m, e1, e2, -⟩ := h.get h2
    rw [e2]
    exact .inr ⟨_, .load (h.running h1).1 e1, fun _ _ => calm h1 (.running trivial)⟩
  | @cas c a v k n h1 h2 h3 =>
    obtain ⟨m, e1, e2, e3, -⟩ := h.get h2
    obtain ⟨hp, -⟩ := h.running h1
    obtain ⟨L, K, ⟨hv, -⟩, -⟩ := hS.keeps i _ _ hp
    have e4 : m.version = v := by omega
    refine .inr ⟨_, .cas hp e1 e4, fun hok _ => ?_⟩
    rw [setVer_eq_set h2]
    rw [setVer_eq_set e1] at hok ⊢
    refine h.lock hS h1 ⟨m, e1⟩ hok trivial rfl e3 fun h5 => ?_
    have : φ.heap[a]? = some m := by
      rcases h5 with h5 | h5
      · obtain ⟨x, f1, -, -, f2⟩ := h.node a m e1
        rw [f1, f2 (.inl h5)]
      · refine h.unlocked hS e1 (by rw [e4]; exact hv) ?_
        simp only [obsolete, beq_eq_false_iff_ne, ne_eq] at h5 ⊢
        omega
    rw [h2] at this
    cases this
    rfl
  | @casFail c a v k n h1 h2 h3 =>
    obtain ⟨m, e1, e2, e3, -⟩ := h.get h2
    exact .inr ⟨_, .casFail (h.running h1).1 e1 (by omega), fun _ _ => calm h1 (.running trivial)⟩
  | @lockFail c a k n h1 h2 h3 h4 =>
    obtain ⟨m, e1, e2, e3, -⟩ := h.get h2
    rw [e2] at h3 h4
    exact .inr ⟨_, .lockFail (h.running h1).1 e1 h3 h4, fun _ _ => calm h1 (.running trivial)⟩
  | @lock c a k n h1 h2 h3 h4 =>
    obtain ⟨m, e1, e2, e3, -⟩ := h.get h2
    rw [e2] at h3 h4 ⊢
    have := h.unlocked hS e1 h3 h4
    rw [h2] at this
    cases this
    refine .inr ⟨_, .lock (h.running h1).1 e1 h3 h4, fun hok _ => ?_⟩
    rw [setVer_eq_set h2]
    rw [setVer_eq_set e1] at hok ⊢
    exact h.lock hS h1 ⟨n, e1⟩ hok trivial rfl rfl fun _ => rfl
  | @unlock c a k n h1 h2 =>
    obtain ⟨hp, -⟩ := h.running h1
    obtain ⟨L, K, ⟨ha, -⟩, hL, -⟩ := hS.keeps i _ _ hp
    have e1 := (h.mine hS h1 rfl ((hL a).mpr ha)).symm.trans h2
    refine .inr ⟨_, .unlock hp e1, fun hok _ => ?_⟩
    rw [setVer_eq_set h2]
    rw [setVer_eq_set e1] at hok ⊢
    exact h.lock hS h1 ⟨n, e1⟩ hok trivial rfl rfl fun _ => rfl
  | @unlockEnd c a k n h1 r hp h2 h3 =>
    obtain ⟨hp', hw⟩ := h.running hp
    obtain ⟨L, K, ⟨ha, -⟩, hL, -⟩ := hS.keeps i _ _ hp'
    have e0 := hw a ((hL a).mpr ha)
    rw [h3] at e0
    obtain ⟨m, e1, e2, e3, -⟩ := h.get h2
    rw [← e0] at e1
    cases e1
    refine .inr ⟨_, .unlock hp' e0.symm, fun hok _ => ?_⟩
    rw [setVer_eq_set e0.symm] at hok ⊢
    refine h.lock hS hp ⟨r, e0.symm⟩ hok ?_ (by simp [e2]) rfl fun _ => by rw [e2]
    intro b hb
    have hb' : upd σ.owner a none b = some i := hb
    show h1[b]? = (σ.heap.set a _)[b]?
    by_cases e : b = a
    · subst e
      rw [upd_same] at hb'
      cases hb'
    · rw [upd_other _ _ e] at hb'
      rw [List.getElem?_set_ne (Ne.symm e)]
      exact hw b hb'
  | @unlockObsolete c a k n w r hp h2 h3 =>
    obtain ⟨hp', hw⟩ := h.running hp
    obtain ⟨L, K, ⟨ha, -⟩, hL, -⟩ := hS.keeps i _ _ hp'
    obtain ⟨m, e1, e2, e3, -⟩ := h.get h2
    have hown := (hL a).mpr ha
    have hlk := (hS.own a m e1).mpr ⟨i, hown⟩
    obtain ⟨m', f1, hob⟩ := hS.lt a i hown
    rw [e1] at f1
    cases f1
    refine .inr ⟨_, .unlockObsolete hp' e1, fun hok hS' => ?_⟩
    rw [setVer_eq_set e1] at hok hS' ⊢
    have hbad : obsolete (m.version + 3) = true := by
      simp only [obsolete, beq_eq_false_iff_ne, ne_eq, beq_iff_eq] at hob ⊢
      omega
    refine h.lock hS hp ⟨m, e1⟩ hok ?_ (by simp [e2]) (h3.trans e3) fun h5 => ?_
    · have hk : ∀ b, upd σ.owner a none b = some i → (σ.heap.set a { m with version := m.version + 3 })[b]? = σ.heap[b]? ∧ σ.owner b = some i := by
        intro b hb'
        by_cases e : b = a
        · subst e
          rw [upd_same] at hb'
          cases hb'
        · rw [upd_other _ _ e] at hb'
          exact ⟨List.getElem?_set_ne (Ne.symm e), hb'⟩
      cases w with
      | calm => trivial
      | opened h0 =>
        obtain ⟨⟨f, k', e⟩, -⟩ := hw
        cases e
      | closing h1 => exact fun b hb => (hw b (hk b hb).2).trans (hk b hb).1.symm
      | reading n s =>
        obtain ⟨_, _, _, _, e, -⟩ := hw
        cases e
    · rcases h5 with h5 | h5
      · subst h5
        have := hS'.zero { m with version := m.version + 3 } (List.getElem?_set_self (List.getElem?_eq_some_iff.mp e1).1)
        rw [show obsolete _ = _ from hbad] at this
        cases this
      · rw [show obsolete _ = _ from hbad] at h5
        cases h5
  | @readBegin c a v k n h1 h2 =>
    obtain ⟨m, e1, e2, e3, -⟩ := h.get h2
    obtain ⟨hp, -⟩ := h.running h1
    left
    rw [← to_id hp]
    refine h.same hS (.running ⟨a, v, k, m, rfl, e1, e3, fun hv => ?_⟩) ?_
    · have := h.read hS h1 rfl e1 hv
      rw [h2] at this
      exact ⟨rfl, Option.some.inj this⟩
    · intro c2 p2 w2 h3 h4
      rw [h1] at h3
      cases h3
      cases h4
  | @readLook c a v k n s m h1 h2 =>
    obtain ⟨hp, a', v', k', x, e, e1, e2, e3⟩ := h.running h1
    cases e
    left
    rw [← to_id hp]
    refine h.same hS (.running ⟨a, v, k, x, rfl, e1, e2, fun hv => ?_⟩) ?_
    · have := h.read hS h1 rfl e1 hv
      rw [h2] at this
      cases this
      obtain ⟨rfl, rfl⟩ := e3 hv
      simp
    · intro c2 p2 w2 h3 h4
      rw [h1] at h3
      cases h3
      cases h4
  | @readEnd c a v k n s m r h1 h2 h3 h4 =>
    obtain ⟨hp, a', v', k', x, e, e1, e2, e3⟩ := h.running h1
    cases e
    obtain ⟨y, f1, f2, f3, -⟩ := h.get h2
    rw [e1] at f1
    cases f1
    refine .inr ⟨_, .read r hp e1 (h3.trans f3) ?_, fun _ _ => h.same hS (.running trivial) ?_⟩
    · intro hv
      have := h.read hS h1 rfl e1 hv
      rw [h2] at this
      cases this
      obtain ⟨rfl, rfl⟩ := e3 hv
      exact h4 rfl rfl
    · intro c2 p2 w2 h3 h4
      rw [h1] at h3
      cases h3
      cases h4
  | @readRoot c k n h1 h2 =>
    obtain ⟨m, e1, e2, e3, e4⟩ := h.get h2
    cases e4 (.inl rfl)
    exact .inr ⟨_, .readRoot (h.running h1).1 e1, fun _ _ => calm h1 (.running trivial)⟩
  | choose b h1 => exact .inr ⟨_, .choose b (h.running h1).1, fun _ _ => calm h1 (.running trivial)⟩
  | @enter c f k h1 =>
    obtain ⟨hp, -⟩ := h.running h1
    left
    rw [← to_id hp]
    refine h.same hS (.running ⟨⟨f, k, rfl⟩, fun a ho => h.mine hS h1 rfl ho⟩) ?_
    intro _ _ _ _ _ _
    exact ⟨_, _, _, rfl, rfl⟩
  | @scribble c p w a n r h1 h2 h3 h4 h5 h6 h7 =>
    obtain ⟨hp, hw⟩ := h.running h1
    left
    rw [← to_id hp]
    refine h.change hS h1 (by rw [to_id hp]; exact .refl i σ) (by rw [to_id hp]; exact hw) (by simp [h.length]) ?_ ?_
    · intro b hb n' hn'
      by_cases e : a = b
      · subst e
        obtain ⟨m, e1, e2, e3, -⟩ := h.get h5
        rw [hn'] at e1
        cases e1
        refine ⟨r, List.getElem?_set_self (List.getElem?_eq_some_iff.mp h5).1, h7.trans e2, h6.trans e3, ?_⟩
        rintro (h8 | h8)
        · exact absurd h8 h4
        · rw [h2] at h8
          cases h8
      · obtain ⟨m, e1, e2, e3, e4⟩ := h.node b n' hn'
        refine ⟨m, by rw [List.getElem?_set_ne e]; exact e1, e2, e3, ?_⟩
        rintro (h8 | h8)
        · exact e4 (.inl h8)
        · rw [h2] at h8
          cases h8
    · intro b hb
      refine .inr ⟨List.getElem?_set_ne ?_, rfl⟩
      rintro rfl
      rw [h.owner] at h3
      exact hb h3
  | @commit c f k h0 h1 hp h2 =>
    obtain ⟨hp', hw⟩ := h.running hp
    obtain ⟨L, K, ⟨hf, -⟩, hL, -⟩ := hS.keeps i _ _ hp'
    obtain ⟨hs1, hs2⟩ := hseen hp
    rcases hf _ σ.heap hs2 (fun a ha => hs1 a ((hL a).mpr ha)) with ⟨e, -⟩ | ⟨x, g, e1, e2, e3, e4, e5, e6, e7⟩
    · rw [h2] at e
      cases e
    rw [h2] at e1
    cases e1
    refine .inr ⟨_, .write hp' e2, fun hok _ => ?_⟩
    refine h.change hS hp hok ?_ ?_ ?_ ?_
    · intro a ha
      exact e5 a (.inl ((hL a).mp ha))
    · rw [length_overlay]
      exact e3
    · intro a ha n hn
      have f1 := e5 a (.inl ((hL a).mp ha))
      have f2 := hs1 a ha
      obtain ⟨n0, f3, -⟩ := hS.lt a i ha
      obtain ⟨m0, f4, f5, f6, -⟩ := h.node a n0 f3
      rw [f3] at f2
      obtain ⟨n1, f7, f8, f9⟩ := e7 a n0 f2
      rw [f7, hn] at f1
      cases f1
      rw [getElem?_overlay, f7]
      by_cases e : a = 0
      · subst e
        exact ⟨n, by simp, rfl, rfl, fun _ => rfl⟩
      · refine ⟨m0, by simp [FConf.mine, h.owner, ha, e, f4], by omega, f6.trans f9.symm, ?_⟩
        rintro (h8 | h8)
        · exact absurd h8 e
        · cases h8
    · intro a ha
      have : φ.mine i a = false := by simp [FConf.mine, h.owner, ha]
      have f0 : (overlay (fun a => φ.mine i a && a != 0) h1 φ.heap)[a]? = h1[a]? := by
        rw [getElem?_overlay]
        simp [this]
      by_cases e : a < σ.heap.length
      · obtain ⟨f1, f2⟩ := e6 a (fun q => ha ((hL a).mpr q)) (by omega)
        refine .inr ⟨?_, f2⟩
        rw [f0, f1, FConf.seen, getElem?_overlay]
        simp [this]
      · refine .inl ?_
        rw [f0]
        exact e5 a (.inr (by omega))
  | @settle c p h1 hp =>
    obtain ⟨hp', hw⟩ := h.running hp
    left
    rw [← to_id hp']
    refine h.change hS hp (by rw [to_id hp']; exact .refl i σ) trivial (by rw [length_overlay]; exact h.length) ?_ ?_
    · intro a ha n hn
      obtain ⟨m, e1, -⟩ := h.node a n hn
      refine ⟨n, ?_, rfl, rfl, fun _ => rfl⟩
      rw [getElem?_overlay, e1]
      simp [FConf.mine, h.owner, ha, hw a ha, hn]
    · intro a ha
      refine .inr ⟨?_, rfl⟩
      rw [getElem?_overlay]
      simp [FConf.mine, h.owner, ha]

end Art
