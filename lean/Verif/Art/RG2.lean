import Verif.Art.RG

/-! # Steps of one call, seen by the invariant, by the call and by the others -/

set_option linter.unusedSimpArgs false

namespace Art

open Surf Spec

theorem upd_eq {α : Type} (f : Addr → α) (a b : Addr) (x : α) : upd f a x b = if b = a then x else f b := rfl

/-! ## Taking a lock -/

section acquire
variable {c : Nat} {s : St} {a : Addr} {n : Node}

theorem acquire_get (hn : s.heap[a]? = some n) : (s.acquire c a n.version).heap[a]? = some { n with version := n.version + 2 } := by
  show (setVer s.heap a (n.version + 2))[a]? = _
  rw [getElem?_setVer, if_pos rfl, hn]
  rfl

theorem acquire_get_ne {b : Addr} (v : Nat) (hb : b ≠ a) : (s.acquire c a v).heap[b]? = s.heap[b]? := by
  show (setVer s.heap a _)[b]? = _
  rw [getElem?_setVer, if_neg hb]

theorem acquire_len (v : Nat) : (s.acquire c a v).heap.length = s.heap.length := length_setVer _ _ _

theorem Inv.unowned (hI : Inv s) (hn : s.heap[a]? = some n) (h4 : n.version % 4 = 0) : s.owner a = none :=
  (hI.own a n hn).mpr (by simp [locked]; omega)

theorem Inv.acquire (hI : Inv s) (hn : s.heap[a]? = some n) (h4 : n.version % 4 = 0) : Inv (s.acquire c a n.version) := by
  obtain ⟨m, hm, ht⟩ := hI.tree
  refine ⟨⟨m, hm, ht.setVer _ _⟩, ?_, ?_, ?_, ?_, ?_, ?_, ?_⟩
  · intro b k hk
    show upd s.owner a (some c) b = none ↔ _
    rw [upd_eq]
    by_cases e : b = a
    · subst e
      rw [acquire_get hn] at hk
      cases hk
      simp [locked]
      omega
    · rw [acquire_get_ne _ e] at hk
      rw [if_neg e]
      exact hI.own b k hk
  · intro b hb
    rw [acquire_len]
    change upd s.owner a (some c) b ≠ none at hb
    rw [upd_eq] at hb
    by_cases e : b = a
    · subst e
      exact (List.getElem?_eq_some_iff.mp hn).1
    · rw [if_neg e] at hb
      exact hI.lt b hb
  · intro b k hk hb
    change upd s.owner a (some c) b ≠ none at hb
    rw [upd_eq] at hb
    by_cases e : b = a
    · subst e
      rw [acquire_get hn] at hk
      cases hk
      simp only
      omega
    · rw [acquire_get_ne _ e] at hk
      rw [if_neg e] at hb
      exact hI.held b k hk hb
  · intro k hk
    by_cases e : (0 : Addr) = a
    · subst e
      rw [acquire_get hn] at hk
      cases hk
      simp only
      omega
    · rw [acquire_get_ne _ e] at hk
      exact hI.zero k hk
  · intro b k hb hk
    by_cases e : b = a
    · subst e
      rw [acquire_get hn] at hk
      cases hk
      simp only
      omega
    · rw [acquire_get_ne _ e] at hk
      exact hI.alive b k hb hk
  · intro b k hk hb hl ho
    change upd s.owner a (some c) b = none at ho
    rw [upd_eq] at ho
    by_cases e : b = a
    · rw [if_pos e] at ho
      simp at ho
    · rw [acquire_get_ne _ e] at hk
      rw [if_neg e] at ho
      exact hI.dead b k hk hb hl ho
  · intro b c' hb hl ho
    change upd s.owner a (some c) b = some c' at ho
    rw [upd_eq] at ho
    by_cases e : b = a
    · subst e
      exact absurd (hI.live_of hn hb h4) hl
    · rw [if_neg e] at ho
      exact hI.repl b c' hb hl ho

theorem acquire_rely {c' : Nat} (hcc : c' ≠ c) (hI : Inv s) (hn : s.heap[a]? = some n) (h4 : n.version % 4 = 0) :
    Rely c' s (s.acquire c a n.version) := by
  have ho := hI.unowned hn h4
  refine ⟨Nat.le_of_eq (acquire_len _).symm, fun _ _ => rfl, ?_, ?_, [], by simp [St.acquire], by simp⟩
  · intro b k hk
    by_cases e : b = a
    · subst e
      rw [hn] at hk
      cases hk
      refine ⟨_, acquire_get hn, rfl, Nat.le_add_right _ _, ?_, ?_⟩
      · intro e
        simp only at e
        omega
      · intro h
        rw [ho] at h
        simp at h
    · rw [acquire_get_ne _ e]
      exact ⟨k, hk, rfl, Nat.le_refl _, fun _ _ => ⟨rfl, Iff.rfl⟩, fun _ => rfl⟩
  · intro b
    show upd s.owner a (some c) b = some c' ↔ _
    rw [upd_eq]
    by_cases e : b = a
    · subst e
      rw [if_pos rfl, ho]
      simp [Ne.symm hcc]
    · rw [if_neg e]

theorem IsE.acquire {b : Addr} {P : Bytes} (h : IsE b P s) (v : Nat) : IsE b P (s.acquire c a v) :=
  ⟨by rw [acquire_len]; exact h.1, h.2⟩

theorem Stale.acquire {b : Addr} {w : Nat} (h : Stale b w s) (hn : s.heap[a]? = some n) : Stale b w (s.acquire c a n.version) := by
  obtain ⟨k, h1, h2⟩ := h
  by_cases e : b = a
  · subst e
    rw [hn] at h1
    cases h1
    exact ⟨_, acquire_get hn, by simp only; omega⟩
  · exact ⟨k, by rw [acquire_get_ne _ e]; exact h1, h2⟩

theorem Snap.acquire {b : Addr} {w : Nat} {N : Node} (h : Snap b w N s) (hn : s.heap[a]? = some n) : Snap b w N (s.acquire c a n.version) := by
  obtain ⟨k, h1, h2, h3, h4⟩ := h
  by_cases e : b = a
  · subst e
    rw [hn] at h1
    cases h1
    exact ⟨_, acquire_get hn, h2, by simp only; omega, fun e => by simp only at e; omega⟩
  · exact ⟨k, by rw [acquire_get_ne _ e]; exact h1, h2, h3, h4⟩

theorem Own.acquire {b : Addr} {N : Node} (h : Own c b N s) (hb : b ≠ a) (v : Nat) : Own c b N (s.acquire c a v) := by
  obtain ⟨h1, h2, h3⟩ := h
  refine ⟨?_, by rw [acquire_get_ne _ hb]; exact h2, h3⟩
  show upd s.owner a (some c) b = _
  rw [upd_eq, if_neg hb]
  exact h1

theorem own_acquire (hn : s.heap[a]? = some n) (hl : a ≠ 0 → s.live a) : Own c a { n with version := n.version + 2 } (s.acquire c a n.version) := by
  refine ⟨?_, acquire_get hn, hl⟩
  show upd s.owner a (some c) a = _
  rw [upd_eq, if_pos rfl]

end acquire

/-! ## Releasing a lock -/

section release
variable {c : Nat} {s : St} {a : Addr} {n : Node} {d : Nat}

theorem release_get (hn : s.heap[a]? = some n) : (s.release a n.version d).heap[a]? = some { n with version := n.version + d } := by
  show (setVer s.heap a (n.version + d))[a]? = _
  rw [getElem?_setVer, if_pos rfl, hn]
  rfl

theorem release_get_ne {b : Addr} (v : Nat) (hb : b ≠ a) : (s.release a v d).heap[b]? = s.heap[b]? := by
  show (setVer s.heap a _)[b]? = _
  rw [getElem?_setVer, if_neg hb]

theorem release_len (v : Nat) : (s.release a v d).heap.length = s.heap.length := length_setVer _ _ _

theorem Inv.mod4 (hI : Inv s) (hn : s.heap[a]? = some n) (ho : s.owner a ≠ none) : n.version % 4 = 2 := by
  have h1 := hI.held a n hn ho
  have h2 : locked n.version = true := by
    by_contra h
    exact ho ((hI.own a n hn).mpr (by simpa using h))
  simp [locked] at h2
  omega

theorem Inv.release (hI : Inv s) (hn : s.heap[a]? = some n) (ho : s.owner a ≠ none)
    (hd : d = 2 ∧ (a = 0 ∨ s.live a) ∨ d = 3 ∧ a ≠ 0 ∧ ¬ s.live a) : Inv (s.release a n.version d) := by
  obtain ⟨m, hm, ht⟩ := hI.tree
  have h42 := hI.mod4 hn ho
  refine ⟨⟨m, hm, ht.setVer _ _⟩, ?_, ?_, ?_, ?_, ?_, ?_, ?_⟩
  · intro b k hk
    show upd s.owner a none b = none ↔ _
    rw [upd_eq]
    by_cases e : b = a
    · subst e
      rw [release_get hn] at hk
      cases hk
      simp [locked]
      rcases hd with ⟨rfl, -⟩ | ⟨rfl, -⟩ <;> omega
    · rw [release_get_ne _ e] at hk
      rw [if_neg e]
      exact hI.own b k hk
  · intro b hb
    rw [release_len]
    change upd s.owner a none b ≠ none at hb
    rw [upd_eq] at hb
    by_cases e : b = a
    · rw [if_pos e] at hb
      exact absurd rfl hb
    · rw [if_neg e] at hb
      exact hI.lt b hb
  · intro b k hk hb
    change upd s.owner a none b ≠ none at hb
    rw [upd_eq] at hb
    by_cases e : b = a
    · rw [if_pos e] at hb
      exact absurd rfl hb
    · rw [release_get_ne _ e] at hk
      rw [if_neg e] at hb
      exact hI.held b k hk hb
  · intro k hk
    by_cases e : (0 : Addr) = a
    · subst e
      rw [release_get hn] at hk
      cases hk
      rcases hd with ⟨rfl, -⟩ | ⟨-, h0, -⟩
      · simp only
        omega
      · exact absurd rfl h0
    · rw [release_get_ne _ e] at hk
      exact hI.zero k hk
  · intro b k hb hk
    by_cases e : b = a
    · subst e
      rw [release_get hn] at hk
      cases hk
      rcases hd with ⟨rfl, -⟩ | ⟨-, -, h0⟩
      · simp only
        omega
      · exact absurd hb h0
    · rw [release_get_ne _ e] at hk
      exact hI.alive b k hb hk
  · intro b k hk hb hl ho
    change upd s.owner a none b = none at ho
    rw [upd_eq] at ho
    by_cases e : b = a
    · subst e
      rw [release_get hn] at hk
      cases hk
      rcases hd with ⟨-, h0⟩ | ⟨rfl, -⟩
      · rcases h0 with h0 | h0
        · exact absurd h0 hb
        · exact absurd h0 hl
      · simp only
        omega
    · rw [release_get_ne _ e] at hk
      rw [if_neg e] at ho
      exact hI.dead b k hk hb hl ho
  · intro b c' hb hl ho
    change upd s.owner a none b = some c' at ho
    rw [upd_eq] at ho
    by_cases e : b = a
    · rw [if_pos e] at ho
      simp at ho
    · rw [if_neg e] at ho
      exact hI.repl b c' hb hl ho

theorem release_rely {c' : Nat} (hcc : c' ≠ c) (hd : 0 < d) (hn : s.heap[a]? = some n) (ho : s.owner a = some c) :
    Rely c' s (s.release a n.version d) := by
  refine ⟨Nat.le_of_eq (release_len _).symm, fun _ _ => rfl, ?_, ?_, [], by simp [St.release], by simp⟩
  · intro b k hk
    by_cases e : b = a
    · subst e
      rw [hn] at hk
      cases hk
      refine ⟨_, release_get hn, rfl, Nat.le_add_right _ _, ?_, ?_⟩
      · intro e
        simp only at e
        omega
      · intro h
        rw [ho] at h
        simp [Ne.symm hcc] at h
    · rw [release_get_ne _ e]
      exact ⟨k, hk, rfl, Nat.le_refl _, fun _ _ => ⟨rfl, Iff.rfl⟩, fun _ => rfl⟩
  · intro b
    show upd s.owner a none b = some c' ↔ _
    rw [upd_eq]
    by_cases e : b = a
    · subst e
      rw [if_pos rfl, ho]
      simp [Ne.symm hcc]
    · rw [if_neg e]

end release

/-! ## Critical sections -/

theorem commit_intro {c : Nat} {s : St} (hI : Inv s) {h' : Heap} {S : List Addr} (hf : Frame s.heap h' S) (hS : ∀ a ∈ S, s.owner a = some c)
    {E' : Addr → Bytes} {live' : Addr → Prop} {m' : Map} (ht : HT E' live' h' m') (hE : ∀ a, a < s.heap.length → E' a = s.E a)
    (hl : ∀ a, a < s.heap.length → live' a → s.live a) (hl' : ∀ a, a < s.heap.length → s.owner a ≠ some c → s.live a → live' a)
    (hnew : ∀ a, s.heap.length ≤ a → a < h'.length → live' a) :
    Commit c s h' m' ⟨h', s.owner, E', live', s.hist ++ [(some c, m')]⟩ ∧ Inv ⟨h', s.owner, E', live', s.hist ++ [(some c, m')]⟩ := by
  have hold : ∀ (a : Addr) n', a < s.heap.length → h'[a]? = some n' → ∃ n, s.heap[a]? = some n ∧ n'.version = n.version := by
    intro a n' ha hn'
    obtain ⟨k, h1, h2, -⟩ := hf.ver a _ (List.getElem?_eq_getElem ha)
    rw [hn'] at h1
    cases h1
    exact ⟨_, List.getElem?_eq_getElem ha, h2⟩
  constructor
  · refine ⟨rfl, rfl, rfl, hf.len, hE, ?_, ?_, hl⟩
    · intro a n hn
      obtain ⟨k, h1, h2, h3⟩ := hf.ver a n hn
      exact ⟨k, h1, h3, h2⟩
    · intro a ha ho
      exact ⟨hf.keep a ha (fun hh => ho (hS a hh)), ⟨hl a ha, hl' a ha ho⟩⟩
  · obtain ⟨d, hd, -⟩ : ∃ d, s.heap[0]? = some d ∧ True := by
      obtain ⟨m, -, root, ht0⟩ := hI.tree
      obtain ⟨d, hd, -⟩ := ht0.dummy
      exact ⟨d, hd, trivial⟩
    refine ⟨⟨m', ⟨some c, by simp⟩, ht⟩, ?_, ?_, ?_, ?_, ?_, ?_, ?_⟩
    · intro a n' hn'
      by_cases ha : a < s.heap.length
      · obtain ⟨n, h1, h2⟩ := hold a n' ha hn'
        rw [h2]
        exact hI.own a n h1
      · have h0 := (hf.new a n' (Nat.le_of_not_lt ha) hn').1
        rw [h0]
        constructor
        · intro _
          rfl
        · intro _
          by_contra hh
          exact ha (hI.lt a hh)
    · intro a ha
      exact Nat.lt_of_lt_of_le (hI.lt a ha) hf.len
    · intro a n' hn' ho
      have ha : a < s.heap.length := hI.lt a ho
      obtain ⟨n, h1, h2⟩ := hold a n' ha hn'
      rw [h2]
      exact hI.held a n h1 ho
    · intro n' hn'
      obtain ⟨n, h1, h2⟩ := hold 0 n' (List.getElem?_eq_some_iff.mp hd).1 hn'
      rw [h2]
      exact hI.zero n h1
    · intro a n' hla hn'
      by_cases ha : a < s.heap.length
      · obtain ⟨n, h1, h2⟩ := hold a n' ha hn'
        rw [h2]
        exact hI.alive a n (hl a ha hla) h1
      · have h0 := (hf.new a n' (Nat.le_of_not_lt ha) hn').1
        rw [h0]
    · intro a n' hn' h0 hla ho
      by_cases ha : a < s.heap.length
      · obtain ⟨n, h1, h2⟩ := hold a n' ha hn'
        rw [h2]
        refine hI.dead a n h1 h0 (fun hh => hla (hl' a ha ?_ hh)) ho
        rw [ho]
        simp
      · exact absurd (hnew a (Nat.le_of_not_lt ha) (List.getElem?_eq_some_iff.mp hn').1) hla
    · intro a c' h0 hla ho
      have ho' : s.owner a = some c' := ho
      by_cases e : c' = c
      · subst e
        unfold Tags
        simp [List.countP_append]
      · have ha : a < s.heap.length := hI.lt a (by rw [ho']; simp)
        have := hI.repl a c' h0 (fun hh => hla (hl' a ha (by rw [ho']; simpa using e) hh)) ho'
        unfold Tags at *
        simp only [List.countP_append]
        omega

theorem Commit.rely {c c' : Nat} (hcc : c' ≠ c) {s s' : St} {h' : Heap} {m' : Map} (hI : Inv s) (hC : Commit c s h' m' s') : Rely c' s s' := by
  refine ⟨by rw [hC.heap]; exact hC.len, hC.E, ?_, by intro a; rw [hC.owner], [(some c, m')], hC.hist, by simp [Ne.symm hcc]⟩
  intro a n hn
  obtain ⟨n', h1, h2, h3⟩ := hC.node a n hn
  rw [hC.heap]
  refine ⟨n', h1, h2, Nat.le_of_eq h3.symm, ?_, fun _ => h3⟩
  intro _ ho
  have hne : s.owner a ≠ some c := by
    rcases ho with ho | ho
    · rw [(hI.own a n hn).mpr ho]
      simp
    · rw [ho]
      simp [hcc]
  obtain ⟨h4, h5⟩ := hC.keep a (List.getElem?_eq_some_iff.mp hn).1 hne
  rw [hn, h1] at h4
  exact ⟨by simpa using h4, h5⟩

/-! ## The locks of a call -/

/-- The locks the call `c` holds. -/
def Owns (c : Nat) (L : List Addr) (s : St) : Prop := ∀ a, s.owner a = some c ↔ a ∈ L

theorem Owns.mono {c L} {s s' : St} (h : Owns c L s) (hR : Rely c s s') : Owns c L s' := fun a => (hR.owner a).trans (h a)

theorem Owns.free {c} {s : St} (h : Owns c [] s) : Free c s := fun a ha => by simpa using (h a).mp ha

theorem Owns.acquire {c L} {s : St} (h : Owns c L s) (a : Addr) (v : Nat) : Owns c (a :: L) (s.acquire c a v) := by
  intro b
  show upd s.owner a (some c) b = some c ↔ _
  rw [upd_eq]
  by_cases e : b = a
  · simp [e]
  · rw [if_neg e, h b]
    simp [e]

theorem Owns.release {c L} {s : St} {a : Addr} (h : Owns c (a :: L) s) (ha : a ∉ L) (v d : Nat) : Owns c L (s.release a v d) := by
  intro b
  show upd s.owner a none b = some c ↔ _
  rw [upd_eq]
  by_cases e : b = a
  · subst e
    simp [ha]
  · rw [if_neg e, h b]
    simp [e]

/-- The call `c` holds the lock of `a`, which is part of the tree if `l`. -/
def Held (c : Nat) (a : Addr) (l : Prop) (s : St) : Prop := s.owner a = some c ∧ (∃ n, s.heap[a]? = some n) ∧ (s.live a ↔ l)

theorem Held.mono {c a l} {s s' : St} (h : Held c a l s) (hR : Rely c s s') : Held c a l s' := by
  obtain ⟨h1, ⟨n, h2⟩, h3⟩ := h
  obtain ⟨n', g1, g2, g3, g4, g5⟩ := hR.node a n h2
  obtain ⟨e1, e2⟩ := g4 (g5 h1) (Or.inr h1)
  exact ⟨(hR.owner a).mpr h1, ⟨n', g1⟩, e2.trans h3⟩

theorem Held.release {c a b l} {s : St} (h : Held c b l s) (hb : b ≠ a) (v d : Nat) : Held c b l (s.release a v d) := by
  obtain ⟨h1, h2, h3⟩ := h
  refine ⟨?_, by rw [release_get_ne _ hb]; exact h2, h3⟩
  show upd s.owner a none b = _
  rw [upd_eq, if_neg hb]
  exact h1

/-! ## Ends of critical sections -/

section
variable {c : Nat} {eff : Map → Map → Prop} {pk : Prop} {α : Type} {Q : α → St → Prop} {x : α} {k : Nat}

theorem wp_unlock {L : List Addr} {p : Prog α} {s : St} {a : Addr} {l : Prop} (hO : Owns c (a :: L) s) (ha : a ∉ L) (hH : Held c a l s)
    (hl : a = 0 ∨ l) (hT : Tags c k s)
    (next : ∀ s' v, Rely c s s' → Owns c L (s'.release a v 2) → Tags c k (s'.release a v 2) → wp c eff pk Q p (s'.release a v 2)) :
    wp c eff pk Q (.unlock a p) s := by
  intro s' hR hI
  obtain ⟨h1, ⟨n, h2⟩, h3⟩ := hH.mono hR
  exact ⟨h1, hl.imp id h3.mpr, n, h2, next s' _ hR ((hO.mono hR).release ha _ _) (show Tags c k s' from hT.mono hR)⟩

theorem wp_unlockObsolete {L : List Addr} {p : Prog α} {s : St} {a : Addr} (hO : Owns c (a :: L) s) (ha : a ∉ L) (hH : Held c a False s)
    (h0 : a ≠ 0) (hT : Tags c k s)
    (next : ∀ s' v, Rely c s s' → Owns c L (s'.release a v 3) → Tags c k (s'.release a v 3) → wp c eff pk Q p (s'.release a v 3)) :
    wp c eff pk Q (.unlockObsolete a p) s := by
  intro s' hR hI
  obtain ⟨h1, ⟨n, h2⟩, h3⟩ := hH.mono hR
  exact ⟨h1, h0, h3.mp, n, h2, next s' _ hR ((hO.mono hR).release ha _ _) (show Tags c k s' from hT.mono hR)⟩

variable (hQ : ∀ s, Owns c [] s → Tags c k s → Q x s)
include hQ

theorem wp_done {s : St} (hO : Owns c [] s) (hT : Tags c k s) : wp c eff pk Q (.ret x) s :=
  fun _ hR _ => hQ _ (hO.mono hR) (hT.mono hR)

theorem wp_fin1 {s : St} {a : Addr} {l : Prop} (hO : Owns c [a] s) (hH : Held c a l s) (hl : a = 0 ∨ l) (hT : Tags c k s) :
    wp c eff pk Q (.unlock a (.ret x)) s :=
  wp_unlock hO (by simp) hH hl hT (fun _ _ _ hO' hT' => wp_done hQ hO' hT')

theorem wp_fin2 {s : St} {a p : Addr} {l lp : Prop} (hO : Owns c [a, p] s) (hne : a ≠ p) (hH : Held c a l s) (hl : a = 0 ∨ l)
    (hHp : Held c p lp s) (hlp : p = 0 ∨ lp) (hT : Tags c k s) :
    wp c eff pk Q (.unlock a (.unlock p (.ret x))) s :=
  wp_unlock hO (by simp [hne]) hH hl hT
    (fun _ _ hR hO' hT' => wp_fin1 hQ hO' ((hHp.mono hR).release hne.symm _ _) hlp hT')

theorem wp_finR {s : St} {a p : Addr} {lp : Prop} (hO : Owns c [a, p] s) (hne : a ≠ p) (hH : Held c a False s) (h0 : a ≠ 0)
    (hHp : Held c p lp s) (hlp : p = 0 ∨ lp) (hT : Tags c k s) :
    wp c eff pk Q (.unlockObsolete a (.unlock p (.ret x))) s :=
  wp_unlockObsolete hO (by simp [hne]) hH h0 hT
    (fun _ _ hR hO' hT' => wp_fin1 hQ hO' ((hHp.mono hR).release hne.symm _ _) hlp hT')

theorem wp_finC {s : St} {d a p : Addr} {l lp : Prop} (hO : Owns c [d, a, p] s) (hne : a ≠ p) (hd : d ≠ a) (hdp : d ≠ p) (hHd : Held c d l s)
    (hl : d = 0 ∨ l) (hH : Held c a False s) (h0 : a ≠ 0) (hHp : Held c p lp s) (hlp : p = 0 ∨ lp) (hT : Tags c k s) :
    wp c eff pk Q (.unlock d (.unlockObsolete a (.unlock p (.ret x)))) s :=
  wp_unlock hO (by simp [hd, hdp]) hHd hl hT
    (fun _ _ hR hO' hT' => wp_finR hQ hO' hne ((hH.mono hR).release hd.symm _ _) h0 ((hHp.mono hR).release hdp.symm _ _) hlp hT')

end

end Art
