import Verif.Art.Walk2

/-! # Operations that run alone: the steps of programs -/

set_option linter.unusedSimpArgs false

namespace Art

open Surf Spec

/-! ## Versions -/

theorem getElem?_setVer (h : Heap) (a : Addr) (v : Nat) (c : Nat) :
    (setVer h a v)[c]? = if c = a then h[c]?.map (fun n => { n with version := v }) else h[c]? := by
  rw [setVer, List.getElem?_modify]
  by_cases e : a = c
  · subst e; simp
  · simp [e, Ne.symm e]

theorem length_setVer (h : Heap) (a : Addr) (v : Nat) : (setVer h a v).length = h.length := by simp [setVer]

theorem ver_setVer (h : Heap) (a : Addr) (v : Nat) (c : Addr) :
    ver (setVer h a v) c = if c = a then (ver h c).map (fun _ => v) else ver h c := by
  simp only [ver, getElem?_setVer]
  split
  · rw [Option.map_map, Option.map_map]; rfl
  · rfl

theorem ver_setVer_same {h : Heap} {a : Addr} {w : Nat} (v : Nat) (e : ver h a = some w) : ver (setVer h a v) a = some v := by
  simp [ver_setVer, e]

theorem ver_setVer_ne {h : Heap} {a c : Addr} (v : Nat) (e : c ≠ a) : ver (setVer h a v) c = ver h c := by
  simp [ver_setVer, e]

theorem ver_of_get {h : Heap} {a : Addr} {n : Node} (e : h[a]? = some n) : ver h a = some n.version := by simp [ver, e]

theorem get_of_ver {h : Heap} {a : Addr} {v : Nat} (e : ver h a = some v) : ∃ n, h[a]? = some n ∧ n.version = v := by
  simpa [ver] using e

theorem Frame.ver_eq {h h' : Heap} {S : List Addr} (hf : Frame h h' S) {a : Addr} {v : Nat} (e : Art.ver h a = some v) : Art.ver h' a = some v := by
  obtain ⟨n, h1, h2⟩ := get_of_ver e
  obtain ⟨n', h3, h4, -⟩ := hf.ver a n h1
  rw [ver_of_get h3, h4, h2]

theorem Frame.ver_new {h h' : Heap} {S : List Addr} (hf : Frame h h' S) {a : Addr} (h1 : h.length ≤ a) (h2 : a < h'.length) : Art.ver h' a = some 0 := by
  obtain ⟨h3, -⟩ := hf.new a _ h1 (List.getElem?_eq_getElem h2)
  rw [ver_of_get (List.getElem?_eq_getElem h2), h3]

/-- Node contents without the version. -/
theorem view_setVer (h : Heap) (a : Addr) (v : Nat) (c : Addr) : view (setVer h a v) c = view h c := by
  unfold view
  rw [getElem?_setVer]
  by_cases e : c = a
  · rw [if_pos e]
    cases h[c]? with
    | none => rfl
    | some n => rfl
  · rw [if_neg e]

theorem NodeOK.setVer {p : Bytes} {r : Prop} {n : Node} (h : NodeOK p r n) (v : Nat) : NodeOK p r { n with version := v } :=
  ⟨h.wf, h.plen_le, h.pre, h.min, h.two⟩

theorem HTr.setVer {E : Addr → Bytes} {live : Addr → Prop} {h : Heap} {root : Addr} {m : Map} (ht : HTr E live h root m) (a : Addr) (v : Nat) :
    HTr E live (setVer h a v) root m := by
  refine ⟨ht.tree.congr (fun _ => Iff.rfl) (fun _ _ => rfl) (fun c _ => view_setVer h a v c), ?_, ht.zero, ?_⟩
  · obtain ⟨d, h1, h2⟩ := ht.dummy
    by_cases e : (0 : Addr) = a
    · refine ⟨{ d with version := v }, ?_, h2⟩
      rw [getElem?_setVer, if_pos e, h1]; rfl
    · exact ⟨d, by rw [getElem?_setVer, if_neg e, h1], h2⟩
  · intro c hc
    obtain ⟨n, h1, h2⟩ := ht.node c hc
    by_cases e : c = a
    · refine ⟨{ n with version := v }, ?_, h2.setVer v⟩
      rw [getElem?_setVer, if_pos e, h1]; rfl
    · exact ⟨n, by rw [getElem?_setVer, if_neg e, h1], h2⟩

theorem HT.setVer {E : Addr → Bytes} {live : Addr → Prop} {h : Heap} {m : Map} (ht : HT E live h m) (a : Addr) (v : Nat) :
    HT E live (setVer h a v) m := by
  obtain ⟨root, hr⟩ := ht
  exact ⟨root, hr.setVer a v⟩

/-- A node after a change of versions. -/
theorem get_setVer {h : Heap} {c : Addr} {n : Node} (e : h[c]? = some n) (a : Addr) (v : Nat) :
    ∃ w, (Art.setVer h a v)[c]? = some { n with version := w } := by
  rw [getElem?_setVer]
  split
  · exact ⟨v, by rw [e]; rfl⟩
  · exact ⟨n.version, e⟩

theorem findChild_setVer (n : Node) (v : Nat) (b : UInt8) : Node.findChild { n with version := v } b = n.findChild b := rfl

theorem At.setVer {E : Addr → Bytes} {live : Addr → Prop} {h : Heap} {root : Addr} {loc : Loc} {c : Addr} (hat : At E live h root loc c)
    (a : Addr) (v : Nat) : At E live (Art.setVer h a v) root loc c := by
  cases hat with
  | root i => exact .root i
  | child hp hnp hf =>
    obtain ⟨w, hw⟩ := get_setVer hnp a v
    exact .child hp hw hf

/-! ## Runs -/

section
variable {α β : Type} {rf : Bool} {h : Heap}

/-- What a continuation makes of an outcome. -/
def Out.andThen (o : Out α) (f : α → Heap → Out β) : Out β :=
  match o with
  | .done a h => f a h
  | .panic => .panic
  | .diverge => .diverge
  | .blocked => .blocked

theorem run_bind (p : Prog α) (f : α → Prog β) : ∀ h, (p.bind f).run rf h = (p.run rf h).andThen (fun a h => (f a).run rf h) := by
  induction p with
  | ret a => intro h; rfl
  | panic => intro h; rfl
  | diverge => intro h; rfl
  | wait a k ih =>
    intro h
    simp only [Prog.bind, Prog.run]
    cases ver h a with
    | none => rfl
    | some v =>
      simp only
      split
      · rfl
      · exact ih v h
  | load a k ih =>
    intro h
    simp only [Prog.bind, Prog.run]
    cases ver h a with
    | none => rfl
    | some v => exact ih v h
  | cas a v k ih =>
    intro h
    simp only [Prog.bind, Prog.run]
    cases ver h a with
    | none => rfl
    | some w =>
      simp only
      split
      · exact ih _ _
      · exact ih _ _
  | lock a k ih =>
    intro h
    simp only [Prog.bind, Prog.run]
    cases ver h a with
    | none => rfl
    | some w =>
      simp only
      split
      · rfl
      · split
        · exact ih _ _
        · exact ih _ _
  | unlock a k ih =>
    intro h
    simp only [Prog.bind, Prog.run]
    cases ver h a with
    | none => rfl
    | some w => exact ih _
  | unlockObsolete a k ih =>
    intro h
    simp only [Prog.bind, Prog.run]
    cases ver h a with
    | none => rfl
    | some w => exact ih _
  | read a v k ih =>
    intro h
    simp only [Prog.bind, Prog.run]
    cases h[a]? with
    | none => rfl
    | some n =>
      simp only
      split
      · exact ih _ _
      · rfl
  | readRoot k ih =>
    intro h
    simp only [Prog.bind, Prog.run]
    cases h[0]? with
    | none => rfl
    | some n => exact ih _ _
  | choose k ih =>
    intro h
    exact ih _ _
  | write g k ih =>
    intro h
    simp only [Prog.bind, Prog.run]
    cases g h with
    | none => rfl
    | some h => exact ih _

theorem run_wait {a : Addr} {v : Nat} (hv : ver h a = some v) (h4 : v % 4 = 0) (k : Nat → Prog α) :
    (Prog.wait a k).run rf h = (k v).run rf h := by
  have : locked v = false := by simp [locked]; omega
  simp [Prog.run, hv, this]

theorem run_load {a : Addr} {v : Nat} (hv : ver h a = some v) (k : Nat → Prog α) : (Prog.load a k).run rf h = (k v).run rf h := by
  simp [Prog.run, hv]

theorem run_cas {a : Addr} {v : Nat} (hv : ver h a = some v) (k : Bool → Prog α) :
    (Prog.cas a v k).run rf h = (k true).run rf (setVer h a (v + 2)) := by
  simp [Prog.run, hv]

theorem run_lock {a : Addr} {v : Nat} (hv : ver h a = some v) (h4 : v % 4 = 0) (k : Bool → Prog α) :
    (Prog.lock a k).run rf h = (k true).run rf (setVer h a (v + 2)) := by
  have h1 : locked v = false := by simp [locked]; omega
  have h2 : obsolete v = false := by simp [obsolete]; omega
  simp [Prog.run, hv, h1, h2]

theorem run_unlock {a : Addr} {v : Nat} (hv : ver h a = some v) (k : Prog α) :
    (Prog.unlock a k).run rf h = k.run rf (setVer h a (v + 2)) := by
  simp [Prog.run, hv]

theorem run_unlockObsolete {a : Addr} {v : Nat} (hv : ver h a = some v) (k : Prog α) :
    (Prog.unlockObsolete a k).run rf h = k.run rf (setVer h a (v + 3)) := by
  simp [Prog.run, hv]

theorem run_read {a : Addr} {n : Node} {v : Nat} (hn : h[a]? = some n) (hv : ver h a = some v) (k : Node → Prog α) :
    (Prog.read a v k).run rf h = (k n).run rf h := by
  have : n.version = v := by simpa [ver, hn] using hv
  simp [Prog.run, hn, this]

theorem run_write {f : Heap → Option Heap} {h' : Heap} (hf : f h = some h') (k : Prog α) : (Prog.write f k).run rf h = k.run rf h' := by
  simp [Prog.run, hf]

theorem run_ret (a : α) : (Prog.ret a).run rf h = .done a h := rfl

end

theorem not_obsolete {v : Nat} (h : v % 4 = 0) : obsolete v = false := by simp [obsolete]; omega

/-! ## Quiet heaps -/

/-- Nobody holds a lock, and no node of the tree is obsolete. -/
def Calm (live : Addr → Prop) (h : Heap) : Prop := ∀ a, a = 0 ∨ live a → ∃ v, ver h a = some v ∧ v % 4 = 0

/-- A heap between two operations, with the map it stands for. -/
def Seq (h : Heap) (m : Map) : Prop := ∃ E live, HT E live h m ∧ Calm live h

theorem Calm.after {live live' : Addr → Prop} {h hf : Heap} (hc : Calm live h) (h0 : 0 < h.length) (hl : ∀ a, live' a → a < h.length → live a)
    (hlt : ∀ a, live' a → a < hf.length)
    (h1 : ∀ a v, a = 0 ∨ live' a → ver h a = some v → ver hf a = some v ∨ ver hf a = some (v + 4))
    (h2 : ∀ a, h.length ≤ a → a < hf.length → ver hf a = some 0) : Calm live' hf := by
  intro a ha
  by_cases hlen : a < h.length
  · obtain ⟨v, hv, h4⟩ := hc a (ha.imp id (fun x => hl a x hlen))
    rcases h1 a v ha hv with h3 | h3
    · exact ⟨v, h3, h4⟩
    · exact ⟨v + 4, h3, by omega⟩
  · have hpos : a ≠ 0 := by
      intro e
      rw [e] at hlen
      exact hlen h0
    exact ⟨0, h2 a (Nat.le_of_not_lt hlen) (hlt a (ha.resolve_left hpos)), rfl⟩

theorem HT.lt {E : Addr → Bytes} {live : Addr → Prop} {h : Heap} {m : Map} (ht : HT E live h m) {a : Addr} (ha : live a) : a < h.length := by
  obtain ⟨root, hr⟩ := ht
  exact hr.lt ha

theorem exists_bound (E : Addr → Bytes) : ∀ k : Nat, ∃ N, ∀ a : Addr, a < k → (E a).length < N := by
  intro k
  induction k with
  | zero => exact ⟨0, fun a ha => absurd ha (Nat.not_lt_zero _)⟩
  | succ k ih =>
    obtain ⟨N, hN⟩ := ih
    refine ⟨max N ((E k).length + 1), ?_⟩
    intro a ha
    rcases Nat.lt_succ_iff_lt_or_eq.mp ha with h1 | h1
    · have := hN a h1; omega
    · rw [h1]; omega

/-! ## Critical sections -/

section
variable {E : Addr → Bytes} {live : Addr → Prop} {h : Heap} {root : Addr} {m : Map} {rf : Bool}

/-- What a critical section has to do. -/
def Commits (live : Addr → Prop) (h : Heap) (m' : Map) (f : Heap → Option Heap) : Prop :=
  ∃ h' E' live' S, f h = some h' ∧ Frame h h' S ∧ HT E' live' h' m' ∧ ∀ a, live' a → a < h.length → live a

theorem section_one (ht : HTr E live h root m) (hc : Calm live h) {c : Addr} {v : Nat} (hv : ver h c = some v) {m' : Map}
    {f : Heap → Option Heap} (hf : Commits live (setVer h c (v + 2)) m' f) :
    ∃ h', (Prog.write f (.unlock c (.ret true))).run rf (setVer h c (v + 2)) = .done true h' ∧ Seq h' m' := by
  obtain ⟨h2, E', live', S, h3, h4, h5, h6⟩ := hf
  have hv2 := h4.ver_eq (ver_setVer_same (v + 2) hv)
  refine ⟨setVer h2 c (v + 2 + 2), ?_, E', live', h5.setVer _ _, ?_⟩
  · rw [run_write h3, run_unlock hv2, run_ret]
  · have hlen := length_setVer h c (v + 2)
    refine hc.after ht.pos (fun a h7 h8 => h6 a h7 (by rw [hlen]; exact h8)) (fun a h7 => (h5.setVer _ _).lt h7) ?_ ?_
    · intro a w ha hw
      by_cases e : a = c
      · subst e
        right
        rw [hv] at hw
        cases hw
        exact ver_setVer_same _ hv2
      · left
        rw [ver_setVer_ne _ e]
        exact h4.ver_eq (by rw [ver_setVer_ne _ e]; exact hw)
    · intro a h7 h8
      rw [length_setVer] at h8
      have hca : a ≠ c := by
        rintro rfl
        obtain ⟨n, hn, -⟩ := get_of_ver hv
        exact absurd (List.getElem?_eq_some_iff.mp hn).1 (Nat.not_lt.mpr h7)
      rw [ver_setVer_ne _ hca]
      exact h4.ver_new (by rw [hlen]; exact h7) h8

theorem section_two (ht : HTr E live h root m) (hc : Calm live h) {p c : Addr} {pv v : Nat} (hpv : ver h p = some pv) (hv : ver h c = some v)
    (hne : c ≠ p) {m' : Map} {f : Heap → Option Heap} (hf : Commits live (setVer (setVer h p (pv + 2)) c (v + 2)) m' f) :
    ∃ h', (Prog.write f (.unlock c (.unlock p (.ret true)))).run rf (setVer (setVer h p (pv + 2)) c (v + 2)) = .done true h' ∧ Seq h' m' := by
  obtain ⟨h2, E', live', S, h3, h4, h5, h6⟩ := hf
  have hv1 : ver (setVer h p (pv + 2)) c = some v := by rw [ver_setVer_ne _ hne]; exact hv
  have hv2 := h4.ver_eq (ver_setVer_same (v + 2) hv1)
  have hp2 : ver h2 p = some (pv + 2) := h4.ver_eq (by rw [ver_setVer_ne _ hne.symm]; exact ver_setVer_same _ hpv)
  have hp3 : ver (setVer h2 c (v + 2 + 2)) p = some (pv + 2) := by rw [ver_setVer_ne _ hne.symm]; exact hp2
  refine ⟨setVer (setVer h2 c (v + 2 + 2)) p (pv + 2 + 2), ?_, E', live', (h5.setVer _ _).setVer _ _, ?_⟩
  · rw [run_write h3, run_unlock hv2, run_unlock hp3, run_ret]
  · have hlen : (setVer (setVer h p (pv + 2)) c (v + 2)).length = h.length := by rw [length_setVer, length_setVer]
    refine hc.after ht.pos (fun a h7 h8 => h6 a h7 (by rw [hlen]; exact h8)) (fun a h7 => ((h5.setVer _ _).setVer _ _).lt h7) ?_ ?_
    · intro a w ha hw
      by_cases e : a = c
      · subst e
        right
        rw [hv] at hw
        cases hw
        rw [ver_setVer_ne _ hne]
        exact ver_setVer_same _ hv2
      · by_cases e' : a = p
        · subst e'
          right
          rw [hpv] at hw
          cases hw
          exact ver_setVer_same _ hp3
        · left
          rw [ver_setVer_ne _ e', ver_setVer_ne _ e]
          exact h4.ver_eq (by rw [ver_setVer_ne _ e, ver_setVer_ne _ e']; exact hw)
    · intro a h7 h8
      rw [length_setVer, length_setVer] at h8
      have hca : ∀ c w, ver h c = some w → a ≠ c := by
        rintro c w hw rfl
        obtain ⟨n, hn, -⟩ := get_of_ver hw
        exact absurd (List.getElem?_eq_some_iff.mp hn).1 (Nat.not_lt.mpr h7)
      rw [ver_setVer_ne _ (hca p _ hpv), ver_setVer_ne _ (hca c _ hv)]
      exact h4.ver_new (by rw [hlen]; exact h7) h8

/-- The node `c` leaves the tree. -/
theorem section_replace (ht : HTr E live h root m) (hc : Calm live h) {p c : Addr} {pv v : Nat} (hpv : ver h p = some pv) (hv : ver h c = some v)
    (hne : c ≠ p) (hc0 : c ≠ 0) {m' : Map} {f : Heap → Option Heap} (hf : Commits (fun a => live a ∧ a ≠ c) (setVer (setVer h p (pv + 2)) c (v + 2)) m' f) :
    ∃ h', (Prog.write f (.unlockObsolete c (.unlock p (.ret true)))).run rf (setVer (setVer h p (pv + 2)) c (v + 2)) = .done true h' ∧ Seq h' m' := by
  obtain ⟨h2, E', live', S, h3, h4, h5, h6⟩ := hf
  have hv1 : ver (setVer h p (pv + 2)) c = some v := by rw [ver_setVer_ne _ hne]; exact hv
  have hv2 := h4.ver_eq (ver_setVer_same (v + 2) hv1)
  have hp2 : ver h2 p = some (pv + 2) := h4.ver_eq (by rw [ver_setVer_ne _ hne.symm]; exact ver_setVer_same _ hpv)
  have hp3 : ver (setVer h2 c (v + 2 + 3)) p = some (pv + 2) := by rw [ver_setVer_ne _ hne.symm]; exact hp2
  refine ⟨setVer (setVer h2 c (v + 2 + 3)) p (pv + 2 + 2), ?_, E', live', (h5.setVer _ _).setVer _ _, ?_⟩
  · rw [run_write h3, run_unlockObsolete hv2, run_unlock hp3, run_ret]
  · have hlen : (setVer (setVer h p (pv + 2)) c (v + 2)).length = h.length := by rw [length_setVer, length_setVer]
    have hcl : c < h.length := by
      obtain ⟨n, hn, -⟩ := get_of_ver hv
      exact (List.getElem?_eq_some_iff.mp hn).1
    refine hc.after ht.pos (fun a h7 h8 => (h6 a h7 (by rw [hlen]; exact h8)).1) (fun a h7 => ((h5.setVer _ _).setVer _ _).lt h7) ?_ ?_
    · intro a w ha hw
      by_cases e : a = c
      · subst e
        exfalso
        rcases ha with ha | ha
        · exact hc0 ha
        · exact (h6 a ha (by rw [hlen]; exact hcl)).2 rfl
      · by_cases e' : a = p
        · subst e'
          right
          rw [hpv] at hw
          cases hw
          exact ver_setVer_same _ hp3
        · left
          rw [ver_setVer_ne _ e', ver_setVer_ne _ e]
          exact h4.ver_eq (by rw [ver_setVer_ne _ e, ver_setVer_ne _ e']; exact hw)
    · intro a h7 h8
      rw [length_setVer, length_setVer] at h8
      have hca : ∀ c w, ver h c = some w → a ≠ c := by
        rintro c w hw rfl
        obtain ⟨n, hn, -⟩ := get_of_ver hw
        exact absurd (List.getElem?_eq_some_iff.mp hn).1 (Nat.not_lt.mpr h7)
      rw [ver_setVer_ne _ (hca p _ hpv), ver_setVer_ne _ (hca c _ hv)]
      exact h4.ver_new (by rw [hlen]; exact h7) h8

/-- The node `c` leaves the tree, and its child `x` changes. -/
theorem section_compress (ht : HTr E live h root m) (hc : Calm live h) {p c x : Addr} {pv v xv : Nat} (hpv : ver h p = some pv) (hv : ver h c = some v)
    (hxv : ver h x = some xv)
    (hne : c ≠ p) (hxc : x ≠ c) (hxp : x ≠ p) (hc0 : c ≠ 0) {m' : Map} {f : Heap → Option Heap}
    (hf : Commits (fun a => live a ∧ a ≠ c) (setVer (setVer (setVer h p (pv + 2)) c (v + 2)) x (xv + 2)) m' f) :
    ∃ h', (Prog.write f (.unlock x (.unlockObsolete c (.unlock p (.ret true))))).run rf
      (setVer (setVer (setVer h p (pv + 2)) c (v + 2)) x (xv + 2)) = .done true h' ∧ Seq h' m' := by
  obtain ⟨h2, E', live', S, h3, h4, h5, h6⟩ := hf
  have hv1 : ver (setVer h p (pv + 2)) c = some v := by rw [ver_setVer_ne _ hne]; exact hv
  have hx1 : ver (setVer (setVer h p (pv + 2)) c (v + 2)) x = some xv := by rw [ver_setVer_ne _ hxc, ver_setVer_ne _ hxp]; exact hxv
  have hx2 := h4.ver_eq (ver_setVer_same (xv + 2) hx1)
  have hv2 : ver h2 c = some (v + 2) := h4.ver_eq (by rw [ver_setVer_ne _ hxc.symm]; exact ver_setVer_same _ hv1)
  have hv3 : ver (setVer h2 x (xv + 2 + 2)) c = some (v + 2) := by rw [ver_setVer_ne _ hxc.symm]; exact hv2
  have hp2 : ver h2 p = some (pv + 2) := h4.ver_eq (by
    rw [ver_setVer_ne _ hxp.symm, ver_setVer_ne _ hne.symm]; exact ver_setVer_same _ hpv)
  have hp3 : ver (setVer (setVer h2 x (xv + 2 + 2)) c (v + 2 + 3)) p = some (pv + 2) := by
    rw [ver_setVer_ne _ hne.symm, ver_setVer_ne _ hxp.symm]; exact hp2
  refine ⟨setVer (setVer (setVer h2 x (xv + 2 + 2)) c (v + 2 + 3)) p (pv + 2 + 2), ?_, E', live', ((h5.setVer _ _).setVer _ _).setVer _ _, ?_⟩
  · rw [run_write h3, run_unlock hx2, run_unlockObsolete hv3, run_unlock hp3, run_ret]
  · have hlen : (setVer (setVer (setVer h p (pv + 2)) c (v + 2)) x (xv + 2)).length = h.length := by
      rw [length_setVer, length_setVer, length_setVer]
    have hcl : c < h.length := by
      obtain ⟨n, hn, -⟩ := get_of_ver hv
      exact (List.getElem?_eq_some_iff.mp hn).1
    refine hc.after ht.pos (fun a h7 h8 => (h6 a h7 (by rw [hlen]; exact h8)).1) (fun a h7 => (((h5.setVer _ _).setVer _ _).setVer _ _).lt h7) ?_ ?_
    · intro a w ha hw
      by_cases e : a = c
      · subst e
        exfalso
        rcases ha with ha | ha
        · exact hc0 ha
        · exact (h6 a ha (by rw [hlen]; exact hcl)).2 rfl
      · by_cases e' : a = p
        · subst e'
          right
          rw [hpv] at hw
          cases hw
          exact ver_setVer_same _ hp3
        · rw [ver_setVer_ne _ e', ver_setVer_ne _ e]
          by_cases e'' : a = x
          · subst e''
            right
            rw [hxv] at hw
            cases hw
            exact ver_setVer_same _ hx2
          · left
            rw [ver_setVer_ne _ e'']
            exact h4.ver_eq (by rw [ver_setVer_ne _ e'', ver_setVer_ne _ e, ver_setVer_ne _ e']; exact hw)
    · intro a h7 h8
      rw [length_setVer, length_setVer, length_setVer] at h8
      have hca : ∀ c w, ver h c = some w → a ≠ c := by
        rintro c w hw rfl
        obtain ⟨n, hn, -⟩ := get_of_ver hw
        exact absurd (List.getElem?_eq_some_iff.mp hn).1 (Nat.not_lt.mpr h7)
      rw [ver_setVer_ne _ (hca p _ hpv), ver_setVer_ne _ (hca c _ hv), ver_setVer_ne _ (hca x _ hxv)]
      exact h4.ver_new (by rw [hlen]; exact h7) h8

end

end Art
