import Verif.Art.Spin

/-! Runs of the system with the loops of lock.go. -/

set_option linter.unusedSimpArgs false

namespace Art

open Surf Spec

/-- Steps of calls for which `P` holds. -/
inductive SPath (P : Nat → Prop) : SConf → SConf → Prop
  | refl {s} : SPath P s s
  | step {s s' x i e} : P i → SStep i s e s' → SPath P s' x → SPath P s x

theorem SPath.trans {P : Nat → Prop} {s x y : SConf} (h : SPath P s x) (h' : SPath P x y) : SPath P s y := by
  induction h with
  | refl => exact h'
  | step h1 h2 _ ih => exact .step h1 h2 (ih h')

theorem SPath.mono {P Q : Nat → Prop} {s x : SConf} (h : SPath P s x) (hpq : ∀ i, P i → Q i) : SPath Q s x := by
  induction h with
  | refl => exact .refl
  | step h1 h2 _ ih => exact .step (hpq _ h1) h2 ih

theorem SRun.extend {T : Nat} {s : Nat → SConf} {who : Nat → Nat} {ev : Nat → Ev} (h : SRun T s who ev) {i : Nat} {e : Ev} {x : SConf} (hs : SStep i (s T) e x) :
    ∃ s' who' ev', SRun (T + 1) s' who' ev' ∧ (∀ u, u ≤ T → s' u = s u) ∧ s' (T + 1) = x ∧ (∀ u, u < T → who' u = who u ∧ ev' u = ev u) ∧ who' T = i ∧ ev' T = e := by
  refine ⟨fun u => if u ≤ T then s u else x, fun u => if u < T then who u else i, fun u => if u < T then ev u else e, ⟨?_, ?_⟩, ?_, ?_, ?_, ?_, ?_⟩
  · simp [h.init]
  · intro t ht
    by_cases hlt : t < T
    · have h1 : t ≤ T := by omega
      have h2 : t + 1 ≤ T := by omega
      simp only [h1, h2, hlt, if_true]
      exact h.step t hlt
    · have : t = T := by omega
      subst this
      simp only [Nat.le_refl, if_true, Nat.lt_irrefl, if_false]
      rw [if_neg (by omega)]
      exact hs
  · intro u hu; simp [hu]
  · simp
  · intro u hu; simp [hu]
  · simp
  · simp

theorem SRun.append {P : Nat → Prop} {x y : SConf} (hp : SPath P x y) : ∀ {T : Nat} {s : Nat → SConf} {who : Nat → Nat} {ev : Nat → Ev}, SRun T s who ev → s T = x →
    ∃ d s' who' ev', SRun (T + d) s' who' ev' ∧ (∀ u, u ≤ T → s' u = s u) ∧ s' (T + d) = y ∧ (∀ u, u < T → who' u = who u ∧ ev' u = ev u) ∧ ∀ u, T ≤ u → u < T + d → P (who' u) := by
  induction hp with
  | refl => intro T s who ev h e; exact ⟨0, s, who, ev, h, fun _ _ => rfl, e, fun _ _ => ⟨rfl, rfl⟩, fun u _ _ => by omega⟩
  | step h1 h2 _ ih =>
    intro T s who ev h e
    subst e
    obtain ⟨s1, who1, ev1, k1, k2, k3, k4, k5, -⟩ := h.extend h2
    obtain ⟨d, s2, who2, ev2, g1, g2, g3, g4, g5⟩ := ih k1 k3
    refine ⟨d + 1, s2, who2, ev2, by rwa [show T + (d + 1) = T + 1 + d by omega], fun u hu => by rw [g2 u (by omega), k2 u hu], by rwa [show T + (d + 1) = T + 1 + d by omega], fun u hu => ?_, fun u h3 h4 => ?_⟩
    · rw [(g4 u (by omega)).1, (g4 u (by omega)).2]
      exact k4 u hu
    · by_cases e : u = T
      · subst e
        rw [(g4 u (by omega)).1, k5]
        exact h1
      · exact g5 u (by omega) (by omega)

/-- A position other than the first is one within `waitUnlock` or `lock`. -/
def SConf.Placed (s : SConf) : Prop := ∀ i, (∀ m, s.pos i = .spin m → m ≤ spinCount ∧ ∃ a n, Awaits s.conf i a ∧ s.conf.heap[a]? = some n) ∧
  ∀ v, s.pos i = .got v → ∃ c a k n, s.conf.procs i = .running c (.lock a k) ∧ s.conf.heap[a]? = some n

end Art
