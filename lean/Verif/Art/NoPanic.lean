import Verif.Art.Firm

/-!
# When `Put` cannot panic

As long as no prefix gets longer, a `Put` whose reads give the prefix length that is there does not panic. Nothing is needed about who takes a
step: `Rel` is what every step of every call keeps.
-/

set_option linter.unusedSimpArgs false

namespace Art

open Surf Spec Props

/-- What all steps keep, as long as no prefix gets longer. -/
structure Rel (s s' : St) : Prop where
  len : s.heap.length ≤ s'.heap.length
  E : ∀ a, a < s.heap.length → s'.E a = s.E a
  node : ∀ (a : Addr) n, s.heap[a]? = some n → ∃ n', s'.heap[a]? = some n' ∧ n'.cap = n.cap ∧ n.version ≤ n'.version ∧ n'.prefixLen ≤ n.prefixLen ∧
    (n'.version = n.version → locked n.version = false → n' = n ∧ (s'.live a ↔ s.live a))

theorem Rel.refl (s : St) : Rel s s :=
  ⟨Nat.le_refl _, fun _ _ => rfl, fun _ n hn => ⟨n, hn, rfl, Nat.le_refl _, Nat.le_refl _, fun _ _ => ⟨rfl, Iff.rfl⟩⟩⟩

theorem Rel.trans {s s' s'' : St} (h1 : Rel s s') (h2 : Rel s' s'') : Rel s s'' := by
  refine ⟨Nat.le_trans h1.len h2.len, ?_, ?_⟩
  · intro a ha
    rw [h2.E a (Nat.lt_of_lt_of_le ha h1.len), h1.E a ha]
  · intro a n hn
    obtain ⟨n', g1, g2, g3, g4, g5⟩ := h1.node a n hn
    obtain ⟨n'', k1, k2, k3, k4, k5⟩ := h2.node a n' g1
    refine ⟨n'', k1, by rw [k2, g2], Nat.le_trans g3 k3, Nat.le_trans k4 g4, ?_⟩
    intro hv hl
    have e1 : n'.version = n.version := by omega
    obtain ⟨e2, e3⟩ := g5 e1 hl
    subst e2
    obtain ⟨e4, e5⟩ := k5 hv hl
    exact ⟨e4, e5.trans e3⟩

theorem Rely.rel {c : Nat} {s s' : St} (h : Rely c s s')
    (hd : ∀ (a : Addr) n n', s.heap[a]? = some n → s'.heap[a]? = some n' → n'.prefixLen ≤ n.prefixLen) : Rel s s' := by
  refine ⟨h.len, h.E, ?_⟩
  intro a n hn
  obtain ⟨n', g1, g2, g3, g4, -⟩ := h.node a n hn
  exact ⟨n', g1, g2, g3, hd a n n' hn g1, fun e1 e2 => g4 e1 (Or.inl e2)⟩

/-- What holds at every instant. -/
def Good (s : St) : Prop := Inv s ∧ Firm s

/-- A read gives the prefix length that is there, some 8 bytes for the prefix, and a first child if there is one. -/
structure Sees (n r : Node) : Prop where
  len : r.prefixLen = n.prefixLen
  pre : r.pre.length = n.pre.length
  first : n.First → r.First

theorem Sees.refl (n : Node) : Sees n n := ⟨rfl, rfl, id⟩

/-- The program does not panic from `s` on, and when it returns `Q` holds. -/
def np {α : Type} (Q : α → St → Prop) : Prog α → St → Prop
  | .ret a, s => ∀ s', Rel s s' → Good s' → Q a s'
  | .panic, s => ∀ s', Rel s s' → Good s' → False
  | .diverge, _ => True
  | .wait a k, s => ∀ s', Rel s s' → Good s' → ∀ n, s'.heap[a]? = some n → locked n.version = false → np Q (k n.version) s'
  | .load a k, s => ∀ s', Rel s s' → Good s' → ∀ n, s'.heap[a]? = some n → np Q (k n.version) s'
  | .cas _ _ k, s => ∀ b, np Q (k b) s
  | .lock _ k, s => ∀ b, np Q (k b) s
  | .unlock _ k, s => np Q k s
  | .unlockObsolete _ k, s => np Q k s
  | .read a v k, s => ∀ s', Rel s s' → Good s' → ∀ n r, s'.heap[a]? = some n → r.cap = n.cap → (n.version = v → r = n) → Sees n r → np Q (k r) s'
  | .readRoot k, s => ∀ s', Rel s s' → Good s' → ∀ n, s'.heap[0]? = some n → np Q (k n.root) s'
  | .choose k, s => ∀ b, np Q (k b) s
  | .write _ k, s => np Q k s

section
variable {α β : Type} {Q : α → St → Prop}

theorem np.rel {p : Prog α} {s s1 : St} (h : np Q p s) (hR : Rel s s1) : np Q p s1 := by
  induction p with
  | diverge => trivial
  | ret => exact fun s' hR' hG => h s' (hR.trans hR') hG
  | panic => exact fun s' hR' hG => h s' (hR.trans hR') hG
  | wait => exact fun s' hR' hG => h s' (hR.trans hR') hG
  | load => exact fun s' hR' hG => h s' (hR.trans hR') hG
  | read => exact fun s' hR' hG => h s' (hR.trans hR') hG
  | readRoot => exact fun s' hR' hG => h s' (hR.trans hR') hG
  | cas _ _ _ ih => exact fun b => ih b (h b)
  | lock _ _ ih => exact fun b => ih b (h b)
  | choose _ ih => exact fun b => ih b (h b)
  | unlock _ _ ih => exact ih h
  | unlockObsolete _ _ ih => exact ih h
  | write _ _ ih => exact ih h

theorem np.stable {p : Prog α} {s : St} (h : ∀ s', Rel s s' → Good s' → np Q p s') : np Q p s := by
  induction p with
  | diverge => trivial
  | ret => exact fun s' hR hG => h s' hR hG s' (Rel.refl _) hG
  | panic => exact fun s' hR hG => h s' hR hG s' (Rel.refl _) hG
  | wait => exact fun s' hR hG => h s' hR hG s' (Rel.refl _) hG
  | load => exact fun s' hR hG => h s' hR hG s' (Rel.refl _) hG
  | read => exact fun s' hR hG => h s' hR hG s' (Rel.refl _) hG
  | readRoot => exact fun s' hR hG => h s' hR hG s' (Rel.refl _) hG
  | cas _ _ _ ih => exact fun b => ih b (fun s' hR hG => h s' hR hG b)
  | lock _ _ ih => exact fun b => ih b (fun s' hR hG => h s' hR hG b)
  | choose _ ih => exact fun b => ih b (fun s' hR hG => h s' hR hG b)
  | unlock _ _ ih => exact ih (fun s' hR hG => h s' hR hG)
  | unlockObsolete _ _ ih => exact ih (fun s' hR hG => h s' hR hG)
  | write _ _ ih => exact ih (fun s' hR hG => h s' hR hG)

theorem np.bind {f : α → Prog β} {R : β → St → Prop} {p : Prog α} : ∀ {s : St}, np (fun a s => np R (f a) s) p s → np R (p.bind f) s := by
  induction p with
  | ret a => intro s h; exact np.stable h
  | panic => intro s h; exact h
  | diverge => intro s h; trivial
  | wait a k ih => intro s h s' hR hG n hn hl; exact ih _ (h s' hR hG n hn hl)
  | load a k ih => intro s h s' hR hG n hn; exact ih _ (h s' hR hG n hn)
  | cas a v k ih => intro s h b; exact ih _ (h b)
  | lock a k ih => intro s h b; exact ih _ (h b)
  | choose k ih => intro s h b; exact ih _ (h b)
  | unlock a k ih => intro s h; exact ih h
  | unlockObsolete a k ih => intro s h; exact ih h
  | write f k ih => intro s h; exact ih h
  | read a v k ih => intro s h s' hR hG n r h1 h2 h3 h4; exact ih _ (h s' hR hG n r h1 h2 h3 h4)
  | readRoot k ih => intro s h s' hR hG n hn; exact ih _ (h s' hR hG n hn)

theorem np.mono {R : α → St → Prop} (hQ : ∀ a s, Good s → Q a s → R a s) {p : Prog α} : ∀ {s : St}, np Q p s → np R p s := by
  induction p with
  | ret a => intro s h s' hR hG; exact hQ _ _ hG (h s' hR hG)
  | panic => intro s h; exact h
  | diverge => intro s h; trivial
  | wait a k ih => intro s h s' hR hG n hn hl; exact ih _ (h s' hR hG n hn hl)
  | load a k ih => intro s h s' hR hG n hn; exact ih _ (h s' hR hG n hn)
  | cas a v k ih => intro s h b; exact ih _ (h b)
  | lock a k ih => intro s h b; exact ih _ (h b)
  | choose k ih => intro s h b; exact ih _ (h b)
  | unlock a k ih => intro s h; exact ih h
  | unlockObsolete a k ih => intro s h; exact ih h
  | write f k ih => intro s h; exact ih h
  | read a v k ih => intro s h s' hR hG n r h1 h2 h3 h4; exact ih _ (h s' hR hG n r h1 h2 h3 h4)
  | readRoot k ih => intro s h s' hR hG n hn; exact ih _ (h s' hR hG n hn)

end

/-! ## Facts that last -/

theorem IsE.rel {a P} {s s' : St} (h : IsE a P s) (hR : Rel s s') : IsE a P s' :=
  ⟨Nat.lt_of_lt_of_le h.1 hR.len, by rw [hR.E a h.1, h.2]⟩

theorem Stale.rel {a v} {s s' : St} (h : Stale a v s) (hR : Rel s s') : Stale a v s' := by
  obtain ⟨n, h1, h2⟩ := h
  obtain ⟨n', g1, -, g2, -⟩ := hR.node a n h1
  exact ⟨n', g1, by omega⟩

theorem Got.rel {a v N r} {s s' : St} (h : Got a v N r s) (hR : Rel s s') : Got a v N r s' := h.imp (fun x => x.rel hR) id

theorem Snap.rel {a v N} {s s' : St} (h : Snap a v N s) (h4 : v % 4 = 0) (hR : Rel s s') : Snap a v N s' := by
  obtain ⟨n, h1, h2, h3, h5⟩ := h
  obtain ⟨n', g1, g2, g3, -, g4⟩ := hR.node a n h1
  refine ⟨n', g1, by rw [g2, h2], by omega, ?_⟩
  intro e
  have e1 : n.version = v := by omega
  obtain ⟨e2, e3⟩ := h5 e1
  obtain ⟨e4, e5⟩ := g4 (by omega) (by simp [locked]; omega)
  exact ⟨by rw [e4, e2], fun h0 => e5.mpr (e3 h0)⟩

/-- The prefix of the node fits between `depth` and the end of its path. -/
def Low (a : Addr) (depth : Nat) (s : St) : Prop := a ≠ 0 ∧ ∃ n, s.heap[a]? = some n ∧ depth + n.prefixLen ≤ (s.E a).length

theorem Low.rel {a depth} {s s' : St} (h : Low a depth s) (hR : Rel s s') : Low a depth s' := by
  obtain ⟨h0, n, h1, h2⟩ := h
  obtain ⟨n', g1, -, -, g2, -⟩ := hR.node a n h1
  exact ⟨h0, n', g1, by rw [hR.E a (List.getElem?_eq_some_iff.mp h1).1]; omega⟩

/-- The prefix of the node is not longer than `p`. -/
def Short (a : Addr) (p : Nat) (s : St) : Prop := ∃ n, s.heap[a]? = some n ∧ n.prefixLen ≤ p

theorem Short.rel {a p} {s s' : St} (h : Short a p s) (hR : Rel s s') : Short a p s' := by
  obtain ⟨n, h1, h2⟩ := h
  obtain ⟨n', g1, -, -, g2, -⟩ := hR.node a n h1
  exact ⟨n', g1, by omega⟩

theorem Short.sees {a p} {s : St} (h : Short a p s) {n r : Node} (hn : s.heap[a]? = some n) (hs : Sees n r) : r.prefixLen ≤ p := by
  obtain ⟨n', h1, h2⟩ := h
  rw [hn] at h1
  cases h1
  rw [hs.len]
  exact h2

theorem Low.sees {a depth} {s : St} (h : Low a depth s) {n r : Node} (hn : s.heap[a]? = some n) (hs : Sees n r) : depth + r.prefixLen ≤ (s.E a).length := by
  obtain ⟨h0, n', h1, h2⟩ := h
  rw [hn] at h1
  cases h1
  rw [hs.len]
  exact h2

/-! ## `fullKey` and `prefixMismatch` -/

theorem np_fullKey : ∀ (fuel : Nat) (curr : Addr) (v : Nat) (N : Node) (P : Bytes) (s0 s : St), Rel s0 s → Snap curr v N s → v % 4 = 0 →
    IsE curr P s → curr ≠ 0 → P ≠ [] →
    np (fun r s' => Rel s0 s' ∧ ∀ full, r = some full → P <+: full) (fullKey fuel curr v) s := by
  intro fuel
  induction fuel with
  | zero => intro curr v N P s0 s hR0 hC h4 hE h0 hP; trivial
  | succ fuel ih =>
    intro curr v N P s0 s hR0 hC h4 hE h0 hP
    unfold fullKey
    intro s1 hR hG n0 r hn0 hr1 hr2 hr3
    replace hR0 := hR0.trans hR; replace hC := hC.rel h4 hR; replace hE := hE.rel hR
    clear hR
    beta_reduce
    have hg := hC.got hn0 hr2
    clear hn0 hr1 hr2 hr3 n0 hG
    -- a leaf found in the node, when the node is checked
    have leaf : ∀ (l : Leaf) (s : St), Rel s0 s → Snap curr v N s → IsE curr P s → (Stale curr v s ∨ N.view.Stored l) →
        np (fun r s' => Rel s0 s' ∧ ∀ full, r = some full → P <+: full)
          (.load curr fun w => .ret (if w = v then some l.key else none)) s := by
      intro l s hR0 hC hE hst s2 hR hG n0 hn0
      replace hR0 := hR0.trans hR; replace hC := hC.rel h4 hR; replace hE := hE.rel hR
      replace hst := hst.imp (fun x => Stale.rel x hR) id
      clear hR
      beta_reduce
      by_cases hw : n0.version = v
      · obtain ⟨e, hl⟩ := hC.fresh hn0 hw
        subst e
        obtain ⟨m, hm, root, ht⟩ := hG.1.tree
        have hlv := ht.tree.leaves curr (hl h0)
        rw [view_eq hn0] at hlv
        have hs : n0.view.Stored l := hst.resolve_left (fun x => x.ne hn0 hw)
        have hp := hlv.prefix hs
        rw [hE.2] at hp
        intro s3 hR hG3
        refine ⟨hR0.trans hR, ?_⟩
        intro full hf
        rw [if_pos hw] at hf
        cases hf
        exact hp
      · intro s3 hR hG3
        refine ⟨hR0.trans hR, ?_⟩
        intro full hf
        rw [if_neg hw] at hf
        simp at hf
    cases hpl : r.prefixLeaf with
    | some l =>
      simp only
      refine leaf l s1 hR0 hC hE (hg.imp id ?_)
      rintro rfl
      exact Or.inl hpl
    | none =>
      simp only
      intro s2 hR hG n0 r' hn0 hr1 hr2 hr3
      replace hR0 := hR0.trans hR; replace hC := hC.rel h4 hR; replace hE := hE.rel hR; replace hg := hg.rel hR
      clear hR
      beta_reduce
      have hg' := hC.got hn0 hr2
      obtain ⟨y, hfc⟩ : r'.First := hr3.first ((hG.2.node curr n0 h0 hn0).2 (by rw [hE.2]; exact hP))
      clear hn0 hr1 hr2 n0 hr3 hG
      rw [hfc]
      simp only
      intro s3 hR hG n0 hn0
      replace hR0 := hR0.trans hR; replace hC := hC.rel h4 hR; replace hE := hE.rel hR
      replace hg := hg.rel hR; replace hg' := hg'.rel hR
      clear hR
      beta_reduce
      by_cases hw : n0.version = v
      swap
      · rw [if_pos hw]
        intro s4 hR hG4
        exact ⟨hR0.trans hR, by simp⟩
      rw [if_neg (by simp [hw])]
      have e1 := hg.eq hn0 hw
      have e2 := hg'.eq hn0 hw
      obtain ⟨e3, hl⟩ := hC.fresh hn0 hw
      subst e1; subst e2; subst e3
      clear hg hg'
      obtain ⟨m, hm, root, ht⟩ := hG.1.tree
      obtain ⟨nn, hnn, -, hok⟩ := ht.view_live (hl h0)
      rw [hn0] at hnn; cases hnn
      obtain ⟨b, hb⟩ : ∃ b, n0.child b = some y := by
        have h2 := hok.two (by
          rintro rfl
          exact hP (by rw [← hE.2, ht.tree.root_E]))
        rw [hpl] at h2
        obtain ⟨z, b, q1, q2⟩ := firstChild_spec hok.wf (by simp at h2; omega)
        rw [hfc] at q1
        simp at q1
        exact ⟨b, by rw [q1]; exact q2⟩
      cases y with
      | leaf l =>
        simp only
        exact leaf l s3 hR0 hC hE (Or.inr (Or.inr ⟨b, hb⟩))
      | node d =>
        simp only
        obtain ⟨k1, k2, k3, k4, nc, k5, k6⟩ := ht.child_node (hl h0) hn0 hb
        have hEd : IsE d (s3.E d) s3 := ⟨ht.lt k1, rfl⟩
        have hd0 : d ≠ 0 := ht.ne_zero k1
        rw [hE.2] at k3
        generalize s3.E d = Pd at hEd k3
        intro s4 hR hG4 nd hnd hlk
        replace hR0 := hR0.trans hR; replace hEd := hEd.rel hR
        clear hR
        beta_reduce
        by_cases hob : obsolete nd.version = true
        · rw [if_pos hob]
          intro s5 hR hG5
          exact ⟨hR0.trans hR, by simp⟩
        rw [if_neg hob]
        have hm4 := mod4_of hlk hob
        have hld := hG4.1.live_of hnd hd0 hm4
        refine np.mono ?_ (ih d nd.version nd Pd s0 s4 hR0 ⟨nd, hnd, rfl, Nat.le_refl _, fun _ => ⟨rfl, fun _ => hld⟩⟩ hm4 hEd hd0 (by
          rintro rfl
          simp at k3))
        rintro a s5 - ⟨z1, z2⟩
        exact ⟨z1, fun full hf => (prefix_of_snoc k3).trans (z2 full hf)⟩

section
variable {key : Bytes} {depth : Nat} {curr : Addr} {v : Nat} {parent : Addr} {pv : Nat} {N : Node} {P : Bytes}

/-- What `prefixMismatch` is called with. -/
structure Arg (key : Bytes) (depth : Nat) (curr : Addr) (v : Nat) (N : Node) (P : Bytes) (s : St) : Prop where
  snap : Snap curr v N s
  v4 : v % 4 = 0
  e : IsE curr P s
  low : Low curr depth s
  le : depth ≤ key.length

theorem Arg.rel {s s' : St} (h : Arg key depth curr v N P s) (hR : Rel s s') : Arg key depth curr v N P s' :=
  ⟨h.snap.rel h.v4 hR, h.v4, h.e.rel hR, h.low.rel hR, h.le⟩

theorem np_mismatchLoop (s0 : St) : ∀ (fuel : Nat) (got : Option Bytes) (s : St), Rel s0 s → Arg key depth curr v N P s → P ≠ [] →
      (∀ full, got = some full → P <+: full) →
      np (fun r s' => Rel s0 s' ∧ ∀ p full, r = some (p, full) → depth + p ≤ key.length) (mismatchLoop key depth curr v parent pv fuel got) s := by
  intro fuel
  induction fuel with
  | zero => intro got s hR0 hA hP hfull; trivial
  | succ fuel ih =>
    intro got s hR0 hA hP hfull
    unfold mismatchLoop
    intro s1 hR hG n0 hn0
    replace hR0 := hR0.trans hR; replace hA := hA.rel hR
    clear hR
    beta_reduce
    split
    · intro s2 hR hG2
      exact ⟨hR0.trans hR, by simp⟩
    intro s2 hR hG n0 hn0
    replace hR0 := hR0.trans hR; replace hA := hA.rel hR
    clear hR
    beta_reduce
    split
    · intro s2 hR hG2
      exact ⟨hR0.trans hR, by simp⟩
    cases got with
    | none =>
      simp only
      refine np.bind (np.mono ?_ (np_fullKey fuel curr v N P s2 s2 (Rel.refl s2) hA.snap hA.v4 hA.e hA.low.1 hP))
      rintro got s3 - ⟨z1, z2⟩
      exact ih got s3 (hR0.trans z1) (hA.rel z1) hP z2
    | some full =>
      simp only
      intro s3 hR hG n0 r hn0 hr1 hr2 hr3
      replace hR0 := hR0.trans hR; replace hA := hA.rel hR
      clear hR
      beta_reduce
      have hlow := hA.low.sees hn0 hr3
      rw [hA.e.2] at hlow
      have hle := hA.le
      have hpl := (hfull full rfl).length_le
      obtain ⟨k, q1, q2, -⟩ := agree_spec (min key.length (depth + r.prefixLen) - depth) (full.drop depth) (key.drop depth)
        (by rw [List.length_drop]; omega) (by rw [List.length_drop]; omega)
      have hm : mismatchLong r key full depth = some k := q1
      rw [hm]
      intro s4 hR hG4
      refine ⟨hR0.trans hR, ?_⟩
      intro p' full' he
      cases he
      omega

theorem np_prefixMismatch (fuel : Nat) (s : St) (hA : Arg key depth curr v N P s) :
      np (fun r s' => Rel s s' ∧ ∀ p full, r = some (p, full) → depth + p ≤ key.length) (prefixMismatch fuel key depth curr v parent pv) s := by
  unfold prefixMismatch
  intro s1 hR0 hG n0 r hn0 hr1 hr2 hr3
  replace hA := hA.rel hR0
  beta_reduce
  have hlow := hA.low.sees hn0 hr3
  rw [hA.e.2] at hlow
  have hle := hA.le
  by_cases h8 : r.prefixLen ≤ maxPrefixLen
  · rw [if_pos h8]
    have h8' : r.prefixLen ≤ 8 := h8
    have hsh : Short curr 8 s1 := ⟨n0, hn0, by rw [← hr3.len]; exact h8'⟩
    intro s2 hR hG2 n1 r' hn1 hr1' hr2' hr3'
    replace hR0 := hR0.trans hR; replace hsh := hsh.rel hR
    have h8'' := hsh.sees hn1 hr3'
    have hpre : r'.pre.length = 8 := by rw [hr3'.pre]; exact hG2.2.pre8 _ _ hn1
    clear hR
    beta_reduce
    obtain ⟨k, q1, q2, -⟩ := agree_spec (min (key.length - depth) r'.prefixLen) r'.pre (key.drop depth)
      (by rw [hpre]; omega) (by rw [List.length_drop]; omega)
    have hm : mismatchShort r' key depth = some k := by
      simp [mismatchShort, usub_eq hle, q1]
    rw [hm]
    intro s3 hR hG3
    refine ⟨hR0.trans hR, ?_⟩
    intro p' full' he
    cases he
    omega
  · rw [if_neg h8]
    have h8' : 8 < r.prefixLen := Nat.lt_of_not_le h8
    refine np_mismatchLoop s fuel none s1 hR0 hA ?_ (by simp)
    rintro rfl
    simp at hlow
    omega

end

/-! ## `Put` -/

theorem np_insertHere (key value : Bytes) (b : UInt8) (parent : Addr) (pv : Nat) (curr : Addr) (v : Nat) (loc : Loc) (h0 : curr ≠ 0) (s : St) :
    np (fun _ _ => True) (insertHere key value b parent pv curr v loc) s := by
  intro s1 hR hG n r hn hr1 hr2 hr3
  beta_reduce
  have hc := (hG.2.node curr n h0 hn).1
  rw [← hr1] at hc
  cases hf : r.isFull with
  | none =>
    unfold Node.isFull at hf
    unfold Node.cap at hc
    split at hf <;> simp_all
  | some full =>
    cases full
    · intro ok
      dsimp only
      split
      · exact fun _ _ _ => trivial
      intro s2 _ _ n2 _
      dsimp only
      split
      · exact fun _ _ _ => trivial
      · exact fun _ _ _ => trivial
    · intro ok
      dsimp only
      split
      · exact fun _ _ _ => trivial
      intro ok
      dsimp only
      split
      · exact fun _ _ _ => trivial
      · exact fun _ _ _ => trivial

theorem np_insert (key value : Bytes) : ∀ (fuel depth : Nat) (parent : Addr) (pv : Nat) (curr : Addr) (loc : Loc) (s : St), Low curr depth s →
    depth ≤ key.length → np (fun _ _ => True) (insert key value fuel depth parent pv curr loc) s := by
  intro fuel
  induction fuel with
  | zero => intro depth parent pv curr loc s hL hd; trivial
  | succ fuel ih =>
    intro depth parent pv curr loc s hL hd
    unfold insert
    intro s1 hR hG N hN hlk
    replace hL := hL.rel hR
    clear hR
    beta_reduce
    by_cases hob : obsolete N.version = true
    · rw [if_pos hob]
      exact fun _ _ _ => trivial
    rw [if_neg hob]
    have h4 := mod4_of hlk hob
    have hlive := hG.1.live_of hN hL.1 h4
    have hA : Arg key depth curr N.version N (s1.E curr) s1 :=
      ⟨⟨N, hN, rfl, Nat.le_refl _, fun _ => ⟨rfl, fun _ => hlive⟩⟩, h4, ⟨(List.getElem?_eq_some_iff.mp hN).1, rfl⟩, hL, hd⟩
    generalize hv : N.version = v at hA
    generalize s1.E curr = P at hA
    clear hL hG hN hlk hob h4 hlive hd
    refine np.bind (np.mono ?_ (np_prefixMismatch fuel s1 hA))
    rintro (_ | ⟨p, full⟩) s2 - ⟨z1, z2⟩
    · exact fun _ _ _ => trivial
    replace hA := hA.rel z1
    replace z2 := z2 p full rfl
    clear z1
    dsimp only
    intro s3 hR hG n0 n1 hn0 hr1 hr2 hr3
    replace hA := hA.rel hR
    clear hR
    beta_reduce
    split
    · intro ok
      dsimp only
      split
      · exact fun _ _ _ => trivial
      intro ok
      dsimp only
      split
      · exact fun _ _ _ => trivial
      · exact fun _ _ _ => trivial
    rename_i hp
    have hsh : Short curr p s3 := ⟨n0, hn0, by rw [← hr3.len]; omega⟩
    clear hn0 hr1 hr2 hr3 hp hG n0 n1
    intro s4 hR hG n0 n2 hn0 hr1 hr2 hr3
    replace hA := hA.rel hR; replace hsh := hsh.rel hR
    clear hR
    have hp2 := hsh.sees hn0 hr3
    have hg2 := hA.snap.got hn0 hr2
    beta_reduce
    split
    · intro ok
      dsimp only
      split
      · exact fun _ _ _ => trivial
      intro s5 _ _ n2 _
      dsimp only
      split
      · exact fun _ _ _ => trivial
      · exact fun _ _ _ => trivial
    rename_i hne
    clear hn0 hr1 hr2 hr3 hG n0 hsh
    cases hb : key[depth + n2.prefixLen]? with
    | none =>
      simp only [List.getElem?_eq_none_iff] at hb
      omega
    | some b =>
      have hlt := (List.getElem?_eq_some_iff.mp hb).1
      simp only
      intro s5 hR hG n0 n3 hn0 hr1 hr2 hr3
      replace hA := hA.rel hR; replace hg2 := hg2.rel hR
      clear hR
      have hg3 := hA.snap.got hn0 hr2
      clear hn0 hr1 hr2 hr3 hG n0
      beta_reduce
      intro s6 hR hG n0 hn0
      replace hA := hA.rel hR; replace hg2 := hg2.rel hR; replace hg3 := hg3.rel hR
      clear hR
      beta_reduce
      split
      · exact fun _ _ _ => trivial
      rename_i hw
      replace hw : n0.version = v := by simpa using hw
      have e2 := hg2.eq hn0 hw
      have e3 := hg3.eq hn0 hw
      obtain ⟨e4, hl⟩ := hA.snap.fresh hn0 hw
      have h0 := hA.low.1
      replace hl := hl h0
      cases hf : n3.findChild b with
      | none => exact np_insertHere _ _ _ _ _ _ _ _ h0 _
      | some x =>
        obtain ⟨next, slot, pos⟩ := x
        simp only
        intro s7 hR hG7 np7 hn7
        beta_reduce
        split
        · exact fun _ _ _ => trivial
        cases next with
        | leaf l =>
          intro ok
          dsimp only
          split
          · exact fun _ _ _ => trivial
          · exact fun _ _ _ => trivial
        | node c =>
          refine ih _ _ _ _ _ _ (Low.rel ?_ hR) (by omega)
          obtain ⟨m, hm, root, ht⟩ := hG.1.tree
          have hc : n0.child b = some (.node c) := by
            rw [e4, ← e3]
            unfold Node.child
            rw [hf]
            rfl
          obtain ⟨k1, k2, k3, k4, nc, k5, k6⟩ := ht.child_node hl hn0 hc
          obtain ⟨-, n', q1, q2⟩ := hA.low
          rw [hn0] at q1
          cases q1
          refine ⟨ht.ne_zero k1, nc, k5, ?_⟩
          have e5 : n2.prefixLen = n0.prefixLen := by rw [e2, e4]
          rw [e5, ← k6]
          omega

theorem np_start {α : Type} {Q : α → St → Prop} {k : Addr → Nat → Prog α} (h : ∀ a v s, Low a 0 s → np Q (k a v) s) (s : St) : np Q (start k) s := by
  have root : ∀ s', Good s' → ∀ n, s'.heap[0]? = some n → ∃ r, n.root = some (.node r) ∧ Low r 0 s' := by
    intro s' hG n hn
    obtain ⟨m, hm, r, ht⟩ := hG.1.tree
    obtain ⟨d, h1, h2⟩ := ht.dummy
    rw [hn] at h1
    cases h1
    refine ⟨r, by unfold Node.root; rw [h2], ht.ne_zero ht.tree.root_live, ?_⟩
    obtain ⟨nr, g1, g2, -⟩ := ht.view_live ht.tree.root_live
    refine ⟨nr, g1, ?_⟩
    have := ht.tree.root_plen
    rw [g2] at this
    change nr.prefixLen = 0 at this
    omega
  intro b
  cases b
  · intro s1 hR hG n0 hn0 _ s2 hR2 hG2 n hn
    obtain ⟨r, e, hL⟩ := root s2 hG2 n hn
    simp only [e]
    exact h _ _ _ hL
  · intro s2 hR2 hG2 n hn
    obtain ⟨r, e, hL⟩ := root s2 hG2 n hn
    simp only [e]
    intro s1 hR hG n0 hn0 _
    exact h _ _ _ (hL.rel hR)

theorem np_put (key value : Bytes) : ∀ (fuel : Nat) (s : St), np (fun _ _ => True) (put key value fuel) s := by
  intro fuel
  induction fuel with
  | zero => intro s; trivial
  | succ fuel ih =>
    intro s
    refine np.bind (np.mono (Q := fun _ _ => True) ?_ (np_start (fun a v s hL => np_insert key value fuel 0 0 v a (0, 0) s hL (Nat.zero_le _)) s))
    rintro (_ | _) s2 - -
    · exact ih s2
    · exact fun _ _ _ => trivial

theorem np_call_put (k x : Bytes) (fuel : Nat) (s : St) : np (fun _ _ => True) ((Call.put k x).prog fuel) s := by
  refine np.bind (np.mono (Q := fun _ _ => True) ?_ (np_put k x fuel s))
  intro _ _ _ _ _ _ _
  trivial

end Art
