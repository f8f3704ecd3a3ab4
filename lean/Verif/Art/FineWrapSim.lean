import Verif.Art.FineWrap
import Verif.Art.WrapSim
import Verif.Props.ArtFine

/-! # A run of small steps with wrapping arithmetic is a run of small steps over the natural numbers -/

set_option linter.unusedSimpArgs false

namespace Art.U32

open Surf (Word Bytes)
open Spec Props

/-! ## What is known of the run over the natural numbers -/

/-- All calls have short keys, and are near to a program with wrapping arithmetic. -/
def Good (φ : FConf) : Prop := ∀ i c p w, φ.procs i = .running c p w → Small c ∧ ∃ p', Near Any p p'

theorem hit {g : Nat → Nat} : ∀ {T : Nat}, g 0 = 0 → (∀ t, t < T → g (t + 1) = g t ∨ g (t + 1) = g t + 1) → ∀ u, u ≤ g T → ∃ t, t ≤ T ∧ g t = u := by
  intro T
  induction T with
  | zero => intro h0 _ u hu; exact ⟨0, Nat.le_refl _, by omega⟩
  | succ T ih =>
    intro h0 hg u hu
    by_cases e : u = g (T + 1)
    · exact ⟨T + 1, Nat.le_refl _, e.symm⟩
    · have := hg T (Nat.lt_succ_self _)
      obtain ⟨t, h1, h2⟩ := ih h0 (fun t ht => hg t (by omega)) u (by omega)
      exact ⟨t, by omega, h2⟩

/-- The run of large steps that the run of small steps follows, and how long prefixes are there. -/
theorem coarse {T : Nat} {φ : Nat → FConf} {who : Nat → Nat} (h : Art.FRun T φ who) (hg : ∀ t, t ≤ T → Good (φ t)) :
    ∃ N σ who', Art.Run N σ who' ∧ Mirror (φ T) (σ N) ∧ Fine (σ N).heap := by
  obtain ⟨g, σ, who', h1, h2, h3, h4⟩ := refines h
  refine ⟨g T, σ, who', h1, (h4 T (Nat.le_refl _)).2, ?_⟩
  have hgood : ∀ u, u ≤ g T → ∀ i c p, (σ u).procs i = .running c p → Small c ∧ ∃ p', Near Any p p' := by
    intro u hu i c p hp
    obtain ⟨t, ht, rfl⟩ := hit h2 (fun t ht => (h3 t ht).imp_right And.left) u hu
    have := match_plain ((h4 t ht).2.proc i)
    rw [hp] at this
    cases e : (φ t).procs i with
    | running c' p' w =>
      rw [e] at this
      cases this
      exact hg t ht i _ _ _ e
    | idle => rw [e] at this; cases this
    | done _ _ => rw [e] at this; cases this
    | crashed _ => rw [e] at this; cases this
  have : ∀ u, u ≤ g T → Fine (σ u).heap := by
    intro u
    induction u with
    | zero => intro _; rw [h1.init]; exact fine_init
    | succ u ih =>
      intro hu
      exact fine_step (who := who') ⟨h1.init, fun t ht => h1.step t (by omega)⟩ (fun t ht i c p hp => (hgood t (by omega) i c p hp).1)
        (fun i c p hp => (hgood u (by omega) i c p hp).2) (ih (by omega))
  exact this _ (Nat.le_refl _)

theorem extend {T : Nat} {φ : Nat → FConf} {who : Nat → Nat} (h : Art.FRun T φ who) {i : Nat} {x : FConf} (hs : Art.FStep i (φ T) x) :
    Art.FRun (T + 1) (fun u => if u ≤ T then φ u else x) (fun u => if u < T then who u else i) := by
  refine ⟨by simp [h.init], ?_⟩
  intro t ht
  by_cases e : t < T
  · have : t ≤ T := by omega
    have : t + 1 ≤ T := by omega
    simp only [*, if_true]
    exact h.step t e
  · have : t = T := by omega
    subst this
    simp only [Nat.le_refl, if_true, Nat.lt_irrefl, if_false]
    rw [if_neg (by omega)]
    exact hs

/-- The same after one more step. -/
theorem coarse_next {T : Nat} {φ : Nat → FConf} {who : Nat → Nat} (h : Art.FRun T φ who) (hg : ∀ t, t ≤ T → Good (φ t)) {i : Nat} {x : FConf} (hs : Art.FStep i (φ T) x) (hx : Good x) :
    ∃ N σ who', Art.Run N σ who' ∧ Mirror x (σ N) ∧ Fine (σ N).heap := by
  have := coarse (extend h hs) (by
    intro t ht
    by_cases e : t ≤ T
    · simp only [e, if_true]
      exact hg t e
    · simp only [e, if_false]
      exact hx)
  simpa using this

theorem Good.to {φ : FConf} (h : Good φ) {i : Nat} {g : Heap} {c : Call} {p p' : Prog (Option Bytes)} {w : Phase} (hc : Small c) (hn : Near Any p p') : Good (φ.to i g (.running c p w)) := by
  intro j c' q w' hj
  by_cases e : j = i
  · rw [e, FConf.to_self] at hj
    cases hj
    exact ⟨hc, _, hn⟩
  · rw [FConf.to_other _ _ _ e] at hj
    exact h j _ _ _ hj

theorem keeps_owned : ∀ {p : Prog (Option Bytes)} {L : List Addr} {K : List (Addr × Nat)}, Polite p L K → ∀ {a : Addr}, a ∈ keeps p → a ∈ L := by
  intro p
  induction p with
  | unlock b k ih =>
    intro L K hp a ha
    rcases List.mem_cons.mp ha with rfl | ha
    · exact hp.1
    · exact List.mem_of_mem_filter (ih hp.2 ha)
  | unlockObsolete b k ih =>
    intro L K hp a ha
    exact List.mem_of_mem_filter (ih hp.2 ha)
  | _ => intro L K hp a ha; cases ha

/-- What a critical section makes of its nodes has no long prefixes. -/
theorem made_low {T : Nat} {φ : Nat → FConf} {who : Nat → Nat} (h : Art.FRun T φ who) (hg : ∀ t, t ≤ T → Good (φ t)) {i : Nat} {c : Call} {f : Heap → Option Heap} {k : Prog (Option Bytes)} {h0 h1 : Heap}
    (hp : (φ T).procs i = .running c (.write f k) (.opened h0)) (hf : f ((φ T).seen i (.opened h0)) = some h1) {a : Addr} (ho : (φ T).owner a = some i) {m : Node} (hm : h1[a]? = some m) :
    m.prefixLen < 2 ^ 31 := by
  obtain ⟨hc, p', hn⟩ := hg T (Nat.le_refl _) i _ _ _ hp
  obtain ⟨N, σ, who', r1, r2, r3⟩ := coarse_next h hg (.commit hp hf) (by
    cases hn with
    | write _ _ g3 => exact (hg T (Nat.le_refl _)).to hc g3)
  have := (r2.running (FConf.to_self _ _ _ _)).2 a (by rw [← r2.owner]; exact ho)
  rw [hm] at this
  exact r3.low a m this.symm

/-- Nor has what a critical section at its end has made of its nodes. -/
theorem left_low {T : Nat} {φ : Nat → FConf} {who : Nat → Nat} (h : Art.FRun T φ who) (hg : ∀ t, t ≤ T → Good (φ t)) {i : Nat} {c : Call} {p : Prog (Option Bytes)} {h1 : Heap}
    (hp : (φ T).procs i = .running c p (.closing h1)) {a : Addr} (ho : (φ T).owner a = some i) {m : Node} (hm : h1[a]? = some m) :
    m.prefixLen < 2 ^ 31 := by
  obtain ⟨N, σ, who', r1, r2, r3⟩ := coarse h hg
  have := (r2.running hp).2 a (by rw [← r2.owner]; exact ho)
  rw [hm] at this
  exact r3.low a m this.symm

/-- Nor had its nodes at its beginning. -/
theorem begun_low {T : Nat} {φ : Nat → FConf} {who : Nat → Nat} (h : Art.FRun T φ who) (hg : ∀ t, t ≤ T → Good (φ t)) {i : Nat} {c : Call} {p : Prog (Option Bytes)} {h0 : Heap}
    (hp : (φ T).procs i = .running c p (.opened h0)) {a : Addr} (ho : (φ T).owner a = some i) {m : Node} (hm : h0[a]? = some m) :
    m.prefixLen < 2 ^ 31 := by
  obtain ⟨N, σ, who', r1, r2, r3⟩ := coarse h hg
  have := (r2.running hp).2.2 a (by rw [← r2.owner]; exact ho)
  rw [hm] at this
  exact r3.low a m this.symm

theorem overlay_low {S : Addr → Bool} {base top : Heap} (hb : ∀ (a : Addr) n, S a = false → base[a]? = some n → n.prefixLen < 2 ^ 31)
    (hb' : ∀ (a : Addr) n, S a = true → top[a]? = none → base[a]? = some n → n.prefixLen < 2 ^ 31)
    (ht : ∀ (a : Addr) n, S a = true → top[a]? = some n → n.prefixLen < 2 ^ 31) : Low (overlay S base top) := by
  intro a n hn
  rw [getElem?_overlay] at hn
  obtain ⟨m, h1, h2⟩ := Option.map_eq_some_iff.mp hn
  by_cases e : S a = true
  · rw [if_pos e] at h2
    cases e' : top[a]? with
    | none => rw [e'] at h2; rw [← h2]; exact hb' a m e e' h1
    | some x => rw [e'] at h2; rw [← h2]; exact ht a x e e'
  · rw [if_neg e] at h2
    rw [← h2]
    exact hb a m (by simpa using e) h1

theorem mine_owner {φ : FConf} {i : Nat} {a : Addr} (h : φ.mine i a = true) : φ.owner a = some i := by
  simpa [FConf.mine] using h

theorem seen_low {T : Nat} {φ : Nat → FConf} {who : Nat → Nat} (h : Art.FRun T φ who) (hg : ∀ t, t ≤ T → Good (φ t)) (hl : Low (φ T).heap) {i : Nat} {c : Call} {p : Prog (Option Bytes)} {w : Phase}
    (hp : (φ T).procs i = .running c p w) : Low ((φ T).seen i w) := by
  cases w with
  | calm => exact hl
  | reading n s => exact hl
  | opened h0 => exact overlay_low (fun a n _ => hl a n) (fun a n _ _ => hl a n) (fun a n e e' => begun_low h hg hp (mine_owner e) e')
  | closing h1 => exact overlay_low (fun a n _ => hl a n) (fun a n _ _ => hl a n) (fun a n e e' => left_low h hg hp (mine_owner e) e')

theorem Low.set {h : Heap} (hl : Low h) {a : Addr} {r : Node} (hr : r.prefixLen < 2 ^ 31) : Low (h.set a r) := by
  intro b n hn
  by_cases e : b = a
  · subst e
    by_cases hb : b < h.length
    · rw [List.getElem?_set_self hb] at hn
      cases hn
      exact hr
    · rw [List.getElem?_eq_none (by simpa using hb)] at hn
      cases hn
  · rw [List.getElem?_set_ne (Ne.symm e)] at hn
    exact hl b n hn

theorem Low.setVer {h : Heap} (hl : Low h) (a : Addr) (v : Nat) : Low (Art.setVer h a v) := by
  intro b n' hb
  rw [getElem?_setVer] at hb
  split at hb
  · obtain ⟨n, h1, rfl⟩ := Option.map_eq_some_iff.mp hb
    exact hl b n h1
  · exact hl b n' hb

/-- No store of a critical section makes a prefix long. -/
theorem stored_low {T : Nat} {φ : Nat → FConf} {who : Nat → Nat} (h : Art.FRun T φ who) (hg : ∀ t, t ≤ T → Good (φ t)) (hl : Low (φ T).heap) {ψ : FConf} {i : Nat}
    {c : Call} {p p' : Prog (Option Bytes)} {w : Phase} (hp : (φ T).procs i = .running c p w) (hn : Near Any p p') (he : ∀ w, (φ T).seen i w = ψ.seen i w) {a : Addr} (ho : (φ T).owner a = some i)
    {n : Node} (hn' : (φ T).heap[a]? = some n) {l : Nat} (hs : Stored ψ i p' w a n l) : l < 2 ^ 31 := by
  rcases hs with hs | ⟨f, k, h0, h1, m, rfl, rfl, h2, h3, rfl⟩ | ⟨h1, m, rfl, h3, rfl⟩
  · exact Nat.lt_of_le_of_lt hs (hl a n hn')
  · have hsl := seen_low h hg hl hp
    cases hn with
    | write g1 _ _ =>
      rw [← he, ← g1 _ hsl] at h2
      exact made_low h hg hp h2 ho h3
  · exact left_low h hg hp ho h3

/-! ## The two runs -/

/-- What the two runs have of a call. -/
inductive FPRel : FProc → FProc → Prop
  | idle : FPRel .idle .idle
  | running {c p p' w} : Small c → Near Any p p' → FPRel (.running c p w) (.running c p' w)
  | done {c o} : FPRel (.done c o) (.done c o)
  | crashed {c} : FPRel (.crashed c) (.crashed c)

/-- The states of the two systems. -/
structure FRel (φ ψ : FConf) : Prop where
  heap : φ.heap = ψ.heap
  owner : φ.owner = ψ.owner
  procs : ∀ i, FPRel (φ.procs i) (ψ.procs i)

theorem FRel.to {φ ψ : FConf} (h : FRel φ ψ) (i : Nat) (g : Heap) {p p' : FProc} (hp : FPRel p p') : FRel (φ.to i g p) (ψ.to i g p') := by
  refine ⟨rfl, h.owner, fun j => ?_⟩
  show FPRel (if j = i then p else φ.procs j) (if j = i then p' else ψ.procs j)
  split
  · exact hp
  · exact h.procs j

theorem FRel.own {φ ψ : FConf} (h : FRel φ ψ) (a : Addr) (o : Option Nat) : FRel (φ.own a o) (ψ.own a o) :=
  ⟨h.heap, by show upd φ.owner a o = upd ψ.owner a o; rw [h.owner], h.procs⟩

theorem FRel.running {φ ψ : FConf} (h : FRel φ ψ) {i : Nat} {c : Call} {p' : Prog (Option Bytes)} {w : Phase} (hp : ψ.procs i = .running c p' w) :
    ∃ p, φ.procs i = .running c p w ∧ Small c ∧ Near Any p p' := by
  have := h.procs i
  rw [hp] at this
  generalize hq : φ.procs i = q at this
  cases this with
  | running h1 h2 => exact ⟨_, rfl, h1, h2⟩

theorem FRel.good {φ ψ : FConf} (h : FRel φ ψ) : Good φ := by
  intro i c p w hp
  have := h.procs i
  rw [hp] at this
  generalize ψ.procs i = q at this
  cases this with
  | running h1 h2 => exact ⟨h1, _, h2⟩

theorem FRel.mine {φ ψ : FConf} (h : FRel φ ψ) (i : Nat) : φ.mine i = ψ.mine i := by
  funext a
  unfold FConf.mine
  rw [h.owner]

theorem FRel.seen {φ ψ : FConf} (h : FRel φ ψ) (i : Nat) (w : Phase) : φ.seen i w = ψ.seen i w := by
  cases w <;> simp [FConf.seen, h.mine, h.heap]

/-- The next state of the run over the natural numbers. -/
theorem fstep_rel {T : Nat} {φ : Nat → FConf} {who : Nat → Nat} (hrun : Art.FRun T φ who) (hg : ∀ t, t ≤ T → Good (φ t)) {ψ ψ' : FConf} (hrel : FRel (φ T) ψ) (hl : Low (φ T).heap) {i : Nat}
    (hs : FStep (fun _ l => l < 2 ^ 31) i ψ ψ') : ∃ φ', Art.FStep i (φ T) φ' ∧ FRel φ' ψ' ∧ Low φ'.heap := by
  have hh := hrel.heap
  cases hs with
  | call c fuel h1 h2 =>
    have h3 : (φ T).procs i = .idle := by
      have := hrel.procs i
      rw [h1] at this
      generalize hq : (φ T).procs i = q at this
      cases this
      rfl
    exact ⟨_, .call c fuel h3 (small_fits h2), by rw [← hh]; exact hrel.to i _ (.running h2 (near_prog h2 fuel)), hl⟩
  | ret h1 =>
    obtain ⟨p, hp, hc, hn⟩ := hrel.running h1
    cases hn
    exact ⟨_, .ret hp, by rw [← hh]; exact hrel.to i _ .done, hl⟩
  | crash h1 h2 =>
    obtain ⟨p, hp, hc, hn⟩ := hrel.running h1
    rw [← hrel.seen] at h2
    exact ⟨_, .crash hp (near_faulty hn (seen_low hrun hg hl hp) h2), by rw [← hh]; exact hrel.to i _ .crashed, hl⟩
  | wait h1 h2 h3 =>
    obtain ⟨p, hp, hc, hn⟩ := hrel.running h1
    rw [← hh] at h2
    cases hn with
    | wait g => exact ⟨_, .wait hp h2 h3, by rw [← hh]; exact hrel.to i _ (.running hc (g _)), hl⟩
  | load h1 h2 =>
    obtain ⟨p, hp, hc, hn⟩ := hrel.running h1
    rw [← hh] at h2
    cases hn with
    | load g => exact ⟨_, .load hp h2, by rw [← hh]; exact hrel.to i _ (.running hc (g _)), hl⟩
  | cas h1 h2 h3 =>
    obtain ⟨p, hp, hc, hn⟩ := hrel.running h1
    rw [← hh] at h2
    cases hn with
    | cas g => exact ⟨_, .cas hp h2 h3, by rw [← hh]; exact (hrel.to i _ (.running hc (g _))).own _ _, hl.setVer _ _⟩
  | casFail h1 h2 h3 =>
    obtain ⟨p, hp, hc, hn⟩ := hrel.running h1
    rw [← hh] at h2
    cases hn with
    | cas g => exact ⟨_, .casFail hp h2 h3, by rw [← hh]; exact hrel.to i _ (.running hc (g _)), hl⟩
  | lockFail h1 h2 h3 h4 =>
    obtain ⟨p, hp, hc, hn⟩ := hrel.running h1
    rw [← hh] at h2
    cases hn with
    | lock g _ _ => exact ⟨_, .lockFail hp h2 h3 h4, by rw [← hh]; exact hrel.to i _ (.running hc g), hl⟩
  | lock h1 h2 h3 h4 =>
    obtain ⟨p, hp, hc, hn⟩ := hrel.running h1
    rw [← hh] at h2
    cases hn with
    | lock _ g1 g2 =>
      obtain ⟨f, b, k1, e⟩ := g1
      obtain ⟨N, σ, who', r1, r2, -⟩ := coarse hrun hg
      obtain ⟨s, hsi⟩ := r1.si N (Nat.le_refl _)
      obtain ⟨n', q1, q2, -⟩ := r2.get h2
      have := hsi.procs i
      rw [(r2.running hp).1] at this
      obtain ⟨j, -, -, hw⟩ := this
      have h0 := lock_ne_zero hw hsi.inv e (by rw [hsi.heap]; exact q1) (by rw [← q2]; exact h3) (by rw [← q2]; exact h4)
      exact ⟨_, .lock hp h2 h3 h4, by rw [← hh]; exact (hrel.to i _ (.running hc (g2 h0))).own _ _, hl.setVer _ _⟩
  | unlock h1 h2 =>
    obtain ⟨p, hp, hc, hn⟩ := hrel.running h1
    rw [← hh] at h2
    cases hn with
    | unlock g => exact ⟨_, .unlock hp h2, by rw [← hh]; exact (hrel.to i _ (.running hc g)).own _ _, hl.setVer _ _⟩
  | @unlockEnd c a k n h1' r h1 h2 h3 =>
    obtain ⟨p, hp, hc, hn⟩ := hrel.running h1
    rw [← hh] at h2
    cases hn with
    | unlock g =>
      obtain ⟨N, σ, who', r1, r2, r3⟩ := coarse hrun hg
      obtain ⟨L, K, hq, hL, -⟩ := (r1.sane N (Nat.le_refl _)).keeps i _ _ (r2.running hp).1
      exact ⟨_, .unlockEnd hp h2 h3, by rw [← hh]; exact (hrel.to i _ (.running hc g)).own _ _,
        hl.set (show r.prefixLen < 2 ^ 31 from left_low hrun hg hp (by rw [r2.owner]; exact (hL a).mpr hq.1) h3)⟩
  | @unlockObsolete c a k n w r h1 h2 h3 h4 =>
    obtain ⟨p, hp, hc, hn⟩ := hrel.running h1
    rw [← hh] at h2
    cases hn with
    | unlockObsolete g =>
      obtain ⟨N, σ, who', r1, r2, r3⟩ := coarse hrun hg
      obtain ⟨L, K, hq, hL, -⟩ := (r1.sane N (Nat.le_refl _)).keeps i _ _ (r2.running hp).1
      exact ⟨_, .unlockObsolete r hp h2 h3, by rw [← hh]; exact (hrel.to i _ (.running hc g)).own _ _,
        hl.set (stored_low hrun hg hl hp (.unlockObsolete g) (hrel.seen i) (by rw [r2.owner]; exact (hL a).mpr hq.1) h2 h4)⟩
  | readBegin h1 h2 =>
    obtain ⟨p, hp, hc, hn⟩ := hrel.running h1
    rw [← hh] at h2
    cases hn with
    | read g => exact ⟨_, .readBegin hp h2, by rw [← hh]; exact hrel.to i _ (.running hc (.read g)), hl⟩
  | readLook h1 h2 =>
    obtain ⟨p, hp, hc, hn⟩ := hrel.running h1
    rw [← hh] at h2
    cases hn with
    | read g => exact ⟨_, .readLook hp h2, by rw [← hh]; exact hrel.to i _ (.running hc (.read g)), hl⟩
  | readEnd r h1 h2 h3 h4 h5 =>
    obtain ⟨p, hp, hc, hn⟩ := hrel.running h1
    rw [← hh] at h2
    cases hn with
    | read g => exact ⟨_, .readEnd r hp h2 h3 h4, by rw [← hh]; exact hrel.to i _ (.running hc (g r h5)), hl⟩
  | readRoot h1 h2 =>
    obtain ⟨p, hp, hc, hn⟩ := hrel.running h1
    rw [← hh] at h2
    cases hn with
    | readRoot g => exact ⟨_, .readRoot hp h2, by rw [← hh]; exact hrel.to i _ (.running hc (g _)), hl⟩
  | choose b h1 =>
    obtain ⟨p, hp, hc, hn⟩ := hrel.running h1
    cases hn with
    | choose g => exact ⟨_, .choose b hp, by rw [← hh]; exact hrel.to i _ (.running hc (g b)), hl⟩
  | enter h1 =>
    obtain ⟨p, hp, hc, hn⟩ := hrel.running h1
    cases hn with
    | write g1 g2 g3 => exact ⟨_, .enter hp, by rw [← hh]; exact hrel.to i _ (.running hc (.write g1 g2 g3)), hl⟩
  | @scribble c p' w a n r h1 h2 h3 h4 h5 h6 h7 h8 =>
    obtain ⟨p, hp, hc, hn⟩ := hrel.running h1
    rw [← hh] at h5
    rw [← hrel.owner] at h3
    exact ⟨_, .scribble r hp h2 h3 h4 h5 h6 h7, by rw [← hh]; exact hrel.to i _ (.running hc hn), hl.set (stored_low hrun hg hl hp hn (hrel.seen i) h3 h5 h8)⟩
  | @commit c f' k' h0 h1' h1 h2 =>
    obtain ⟨p, hp, hc, hn⟩ := hrel.running h1
    cases hn with
    | @write f _ k _ g1 g2 g3 =>
      have hsl := seen_low hrun hg hl hp
      rw [← hrel.seen, ← g1 _ hsl] at h2
      have hstep : Art.FStep i (φ T) _ := .commit hp h2
      refine ⟨_, hstep, by rw [← hh, ← hrel.mine]; exact hrel.to i _ (.running hc g3), ?_⟩
      obtain ⟨N, σ, who', r1, r2, r3⟩ := coarse hrun hg
      obtain ⟨N', σ', who2, q1, q2, q3⟩ := coarse_next hrun hg hstep ((hg T (Nat.le_refl _)).to hc g3)
      obtain ⟨L, K, ⟨-, hq⟩, hL, -⟩ := (r1.sane N (Nat.le_refl _)).keeps i _ _ (r2.running hp).1
      have hS' := q1.sane N' (Nat.le_refl _)
      have hzero : ∀ d, ((φ T).seen i (.opened h0))[0]? = some d → d.prefixLen = 0 := by
        intro d hd
        have hd' : (overlay ((φ T).mine i) (φ T).heap h0)[0]? = some d := hd
        rw [getElem?_overlay] at hd'
        obtain ⟨m, e1, e2⟩ := Option.map_eq_some_iff.mp hd'
        obtain ⟨m', e3, -, -, e4⟩ := r2.get e1
        rw [← e4 (.inl rfl)] at e3
        by_cases e : (φ T).mine i 0 = true
        · rw [if_pos e] at e2
          have := (r2.running hp).2.2 0 (by rw [← r2.owner]; exact mine_owner e)
          rw [this, e3] at e2
          exact e2 ▸ r3.zero m e3
        · rw [if_neg e] at e2
          exact e2 ▸ r3.zero m e3
      have hchg := g2 _ _ hzero h2
      intro a n hn
      have hn0 := hn
      have hn1 : (overlay (fun a => (φ T).mine i a && a != 0) h1' (φ T).heap)[a]? = some n := hn
      rw [getElem?_overlay] at hn1
      obtain ⟨x, e1, e2⟩ := Option.map_eq_some_iff.mp hn1
      obtain ⟨n', e3, e4, -, e5⟩ := q2.get hn0
      by_cases ha : a = 0
      · have := e5 (.inl ha)
        rw [← this] at e3
        exact q3.low a n e3
      by_cases e : (φ T).mine i a = true
      · rw [if_pos (by simp [e, ha])] at e2
        cases e' : (φ T).heap[a]? with
        | some y => rw [e'] at e2; rw [← e2]; exact hl a y e'
        | none =>
          rw [e'] at e2
          have : n = x := e2.symm
          subst this
          exact made_low hrun hg hp h2 (mine_owner e) e1
      · rw [if_neg (by simp [e])] at e2
        subst e2
        rcases hchg.node a x e1 with ⟨y, y1, y2, -⟩ | ⟨-, y⟩ | ⟨-, y⟩
        · rw [y2]
          exact hsl a y y1
        · have := (hL a).mpr (keeps_owned hq y)
          rw [← r2.owner] at this
          exact absurd (by simp [FConf.mine, this]) e
        · have hst := e5 (.inr ⟨by rw [← e4, y]; decide, fun j c p w o1 _ => by
            rw [q2.owner] at o1
            have := (hS'.own a n' e3).mpr ⟨j, o1⟩
            rw [← e4, y] at this
            cases this⟩)
          rw [← hst] at e3
          exact q3.low a x e3
  | settle h1 =>
    obtain ⟨p, hp, hc, hn⟩ := hrel.running h1
    exact ⟨_, .settle hp, by rw [← hh, ← hrel.mine]; exact hrel.to i _ (.running hc hn), seen_low hrun hg hl hp⟩

theorem FStep.mono {B B' : Addr → Nat → Prop} {i : Nat} {σ σ' : FConf} (h : FStep B i σ σ') (hB : ∀ a l, B a l → B' a l) : FStep B' i σ σ' := by
  cases h with
  | call c fuel h1 h2 => exact .call c fuel h1 h2
  | ret h1 => exact .ret h1
  | crash h1 h2 => exact .crash h1 h2
  | wait h1 h2 h3 => exact .wait h1 h2 h3
  | load h1 h2 => exact .load h1 h2
  | cas h1 h2 h3 => exact .cas h1 h2 h3
  | casFail h1 h2 h3 => exact .casFail h1 h2 h3
  | lockFail h1 h2 h3 h4 => exact .lockFail h1 h2 h3 h4
  | lock h1 h2 h3 h4 => exact .lock h1 h2 h3 h4
  | unlock h1 h2 => exact .unlock h1 h2
  | unlockEnd h1 h2 h3 => exact .unlockEnd h1 h2 h3
  | unlockObsolete r h1 h2 h3 h4 => exact .unlockObsolete r h1 h2 h3 h4
  | readBegin h1 h2 => exact .readBegin h1 h2
  | readLook h1 h2 => exact .readLook h1 h2
  | readEnd r h1 h2 h3 h4 h5 => exact .readEnd r h1 h2 h3 h4 (hB _ _ h5)
  | readRoot h1 h2 => exact .readRoot h1 h2
  | choose b h1 => exact .choose b h1
  | enter h1 => exact .enter h1
  | scribble r h1 h2 h3 h4 h5 h6 h7 h8 => exact .scribble r h1 h2 h3 h4 h5 h6 h7 h8
  | commit h1 h2 => exact .commit h1 h2
  | settle h1 => exact .settle h1

/-- Every run of small steps with wrapping arithmetic is a run of small steps over the natural numbers. -/
theorem fsimulate {who : Nat → Nat} {ψ : Nat → FConf} : ∀ T, FRun T ψ who → ∃ φ, Art.FRun T φ who ∧ (∀ t, t ≤ T → FRel (φ t) (ψ t)) ∧ (∀ t, t ≤ T → Low (φ t).heap) := by
  intro T
  induction T with
  | zero =>
    intro h
    refine ⟨fun _ => FConf.init, ⟨rfl, fun t ht => absurd ht (Nat.not_lt_zero _)⟩, ?_, fun t _ => fine_init.low⟩
    intro t ht
    have : t = 0 := by omega
    subst this
    rw [h.init]
    exact ⟨rfl, rfl, fun i => .idle⟩
  | succ T ih =>
    intro h
    obtain ⟨φ, h1, h2, h3⟩ := ih ⟨h.init, fun t ht => h.step t (by omega)⟩
    obtain ⟨φ', g1, g2, g3⟩ := fstep_rel h1 (fun t ht => (h2 t ht).good) (h2 T (Nat.le_refl _)) (h3 T (Nat.le_refl _)) ((h.step T (Nat.lt_succ_self _)).mono (by
      rintro a l ⟨t', n, e1, e2, rfl⟩
      rw [← (h2 t' e1).heap] at e2
      exact h3 t' e1 a n e2))
    refine ⟨fun t => if t ≤ T then φ t else φ', ⟨by simp [h1.init], ?_⟩, ?_, ?_⟩
    · intro t ht
      by_cases e : t < T
      · have : t ≤ T := by omega
        have : t + 1 ≤ T := by omega
        simp only [*, if_true]
        exact h1.step t e
      · have : t = T := by omega
        subst this
        simp only [Nat.le_refl, if_true]
        rw [if_neg (by omega)]
        exact g1
    · intro t ht
      by_cases e : t ≤ T
      · simp only [e, if_true]
        exact h2 t e
      · have : t = T + 1 := by omega
        subst this
        simp only [e, if_false]
        exact g2
    · intro t ht
      by_cases e : t ≤ T
      · simp only [e, if_true]
        exact h3 t e
      · simp only [e, if_false]
        exact g3

end Art.U32
