import Verif.Art.ConcLock

/-! # Concurrent `Put`: `insert` -/

set_option linter.unusedSimpArgs false

namespace Art

open Surf Spec

theorem set_length {h h' : Heap} {a : Addr} {n : Node} (e : some (h.set a n) = some h') : h'.length = h.length := by
  cases e
  simp

theorem insertChildAt_length {h h' : Heap} {a : Addr} {b : UInt8} {r : Ref} (e : insertChildAt h a b r = some h') : h'.length = h.length := by
  simp only [insertChildAt, Option.bind_eq_bind, Option.bind_eq_some_iff, Option.pure_def] at e
  obtain ⟨n, -, n', -, e⟩ := e
  exact set_length e

theorem removeChildAt_length {h h' : Heap} {a : Addr} {i : Nat} (e : removeChildAt h a i = some h') : h'.length = h.length := by
  simp only [removeChildAt, Option.bind_eq_bind, Option.bind_eq_some_iff, Option.pure_def] at e
  obtain ⟨n, -, n', -, e⟩ := e
  exact set_length e

theorem updatePrefixLeaf_length {h h' : Heap} {a : Addr} {k v : Bytes} (e : updatePrefixLeaf h a k v = some h') : h'.length = h.length := by
  simp only [updatePrefixLeaf, Option.bind_eq_bind, Option.bind_eq_some_iff, Option.pure_def] at e
  obtain ⟨n, -, e⟩ := e
  exact set_length e

theorem clearPrefixLeaf_length {h h' : Heap} {a : Addr} (e : clearPrefixLeaf h a = some h') : h'.length = h.length := by
  simp only [clearPrefixLeaf, Option.bind_eq_bind, Option.bind_eq_some_iff, Option.pure_def] at e
  obtain ⟨n, -, e⟩ := e
  exact set_length e

section
variable {c : Nat} {key value : Bytes} {pk : Prop} (hkl : key.length < 2 ^ 32) (hvl : value.length < 2 ^ 32)

/-- The change made by `Put`. -/
def putEff (key value : Bytes) (m m' : Map) : Prop := m' = m.put key value

/-- What an attempt at `Put` ends with. -/
def putQ (c : Nat) (b : Bool) (s : St) : Prop := Owns c [] s ∧ Tags c (if b then 1 else 0) s

theorem Sect.same {c : Nat} {eff : Map → Map → Prop} {f : Heap → Option Heap} {s : St} {m m' : Map} {h' : Heap} {S : List Addr} (hm : s.Now m)
    (he : eff m m') (hf : f s.heap = some h') (hF : Frame s.heap h' S) (hS : ∀ a ∈ S, s.owner a = some c) (ht : HT s.E s.live h' m')
    (hlen : h'.length = s.heap.length) : Sect c eff f [] s :=
  ⟨m, h', s.E, s.live, m', S, hm, he, hf, hF, hS, ht, fun _ _ => rfl, fun _ _ => by simp, by simp,
    fun a h1 h2 => absurd h2 (by rw [hlen]; exact Nat.not_lt.mpr h1)⟩

theorem Sect.replace {c : Nat} {eff : Map → Map → Prop} {f : Heap → Option Heap} {s : St} {m m' : Map} {h' : Heap} {S : List Addr} (hm : s.Now m)
    (he : eff m m') (hf : f s.heap = some h') (hF : Frame s.heap h' S) (hS : ∀ a ∈ S, s.owner a = some c) {P : Bytes} {d : Addr}
    (ht : HT (upd s.E s.heap.length P) (fun a => a = s.heap.length ∨ (s.live a ∧ a ≠ d)) h' m')
    (hlen : h'.length = s.heap.length + 1) (hd : s.owner d = some c) : Sect c eff f [d] s := by
  refine ⟨m, h', _, _, m', S, hm, he, hf, hF, hS, ht, ?_, ?_, by simpa using hd, ?_⟩
  · intro a ha
    rw [upd_eq, if_neg (Nat.ne_of_lt ha)]
  · intro a ha
    have : a ≠ s.heap.length := Nat.ne_of_lt ha
    simp [this]
  · intro a h1 h2
    left
    rw [hlen] at h2
    exact Nat.le_antisymm (Nat.le_of_lt_succ h2) h1

include hkl hvl

theorem wp_insertHere (hpk : pk) {b : UInt8} {s : St} {parent : Addr} {pv : Nat} {Np : Node} {Pp : Bytes} {depth : Nat} {curr : Addr} {Pc : Bytes} {loc : Loc}
    {v : Nat} {N : Node} (hK : Know s parent pv Np Pp depth curr Pc loc v N) (hO : Owns c [] s) (hT : Tags c 0 s)
    (hb : N.findChild b = none) (hX : Stale parent pv s ∨ Pc ++ [b] <+: key) :
    wp c (putEff key value) pk (putQ c) (insertHere key value b parent pv curr v loc) s := by
  have hchild : N.child b = none := by simp [Node.child, hb]
  have hnk : (newLeaf key value).key = key := newLeaf_key hkl
  have hnv : (newLeaf key value).value = value := newLeaf_value hkl hvl
  unfold insertHere
  intro s1 hR hI
  replace hK := hK.mono hR; replace hO := hO.mono hR; replace hT := hT.mono hR; replace hX := hX.imp (fun y => Stale.mono y hR) id
  clear hR
  obtain ⟨n0, hn0, -⟩ := hK.node_get
  refine ⟨n0, hn0, ?_⟩
  intro r hr1 hr2
  beta_reduce
  have hg := hK.sc.got hn0 hr2
  clear hn0 hr1 hr2 n0 hI
  cases hfull : r.isFull with
  | none => intro s3 hR hI; exact ⟨(hO.mono hR).free, hpk⟩
  | some f =>
    cases f with
    | true =>
      simp only
      refine wp_lock2 (X := r = N ∧ Pc ++ [b] <+: key) hK hO hT ?_ (fun s h1 h2 => ⟨h1, h2⟩) ?_
      · rcases hX with hX | hX
        · exact Or.inl hX
        · rcases hg with hg | hg
          · exact Or.inr (Or.inl hg)
          · exact Or.inr (Or.inr ⟨hg, hX⟩)
      · rintro s2 hO hT hp hc hC hok hdep ⟨rfl, hX⟩
        refine Sect.wp (dead := [curr]) ?_ hO hT ?_ ?_
        · intro s3 hR hI
          replace hp := hp.mono hR; replace hc := hc.mono hR; replace hC := hC.mono hR
          obtain ⟨m, hm, root, ht⟩ := hI.tree
          have hl := hc.2.2 hC.c0
          obtain ⟨hat, -⟩ := hC.at_ ht hp.2.1 hp.2.2 (fun _ => rfl) hl
          have hEc := hC.ec.2
          obtain ⟨h', g1, g2, g3, g4⟩ := ht.grow_commit hl hc.2.1 hat hfull (b := b) hchild (l := newLeaf key value) (by rw [hnk, hEc]; exact hX)
          rw [hnk, hnv] at g4
          refine Sect.replace hm (show putEff key value m (m.put key value) from rfl) g1 g2 ?_ g4 g3 hc.1
          rw [hC.loc1]
          simpa using hp.1
        · intro a ha
          simp at ha
          rcases ha with rfl | rfl
          · exact ⟨_, hc⟩
          · exact ⟨_, hp⟩
        · intro s3 hO hT hH
          have hne := hC.ne
          refine wp_finR (k := 1) (fun s h1 h2 => ⟨h1, h2⟩) hO hne ((hH curr (by simp)).congr (by simp)) hC.c0 (hH parent (by simp)) ?_ hT
          by_cases h0 : parent = 0
          · exact Or.inl h0
          · exact Or.inr ⟨h0, by simpa using hne.symm⟩
    | false =>
      simp only
      refine wp_lock1 (X := r = N) hK hO hT hg (fun s h1 h2 => ⟨h1, h2⟩) ?_
      rintro s0 s2 hR hh rfl hO hT hc hK rfl
      replace hX := hX.imp (fun y => (Stale.mono y hR).acquire (c := c) hh) id
      refine wp_checkParent hK hO hT hc hX (fun s h1 h2 => ⟨h1, h2⟩) ?_
      intro s3 hO hT hc hC hdep hX
      refine Sect.wp (dead := []) ?_ hO hT ?_ ?_
      · intro s3 hR hI
        replace hc := hc.mono hR; replace hC := hC.mono hR
        obtain ⟨m, hm, root, ht⟩ := hI.tree
        have hl := hc.2.2 hC.c0
        have hEc := hC.ec.2
        obtain ⟨h', g1, g2, g3⟩ := ht.insertChild_commit hl hc.2.1 hfull (b := b) hchild (l := newLeaf key value) (by rw [hnk, hEc]; exact hX)
        rw [hnk, hnv] at g3
        exact Sect.same hm rfl g1 g2 (by simpa using hc.1) ⟨_, g3⟩ (insertChildAt_length g1)
      · intro a ha
        simp at ha
        subst ha
        exact ⟨_, hc⟩
      · intro s3 hO hT hH
        exact wp_fin1 (k := 1) (fun s h1 h2 => ⟨h1, h2⟩) hO (hH curr (by simp)) (Or.inr ⟨hC.c0, by simp⟩) hT

theorem wp_insert (hpk : pk) : ∀ (fuel depth : Nat) (parent : Addr) (pv : Nat) (curr : Addr) (loc : Loc) (Np : Node) (Pp Pc : Bytes) (s : St),
    Ctx s parent pv Np Pp depth curr Pc loc → Owns c [] s → Tags c 0 s → Pc.take depth <+: key →
    wp c (putEff key value) pk (putQ c) (insert key value fuel depth parent pv curr loc) s := by
  intro fuel
  induction fuel with
  | zero => intro depth parent pv curr loc Np Pp Pc s hC hO hT hp s' hR hI; exact (hO.mono hR).free
  | succ fuel ih =>
    intro depth parent pv curr loc Np Pp Pc s hC hO hT hp
    have hno : ∀ s, Owns c [] s → Tags c 0 s → putQ c false s := fun s h1 h2 => ⟨h1, h2⟩
    have hyes : ∀ s, Owns c [] s → Tags c 1 s → putQ c true s := fun s h1 h2 => ⟨h1, h2⟩
    unfold insert
    intro s1 hR hI
    replace hC := hC.mono hR; replace hO := hO.mono hR; replace hT := hT.mono hR
    clear hR
    have hn' := List.getElem?_eq_getElem hC.ec.1
    generalize s1.heap[curr]'hC.ec.1 = N at hn'
    refine ⟨hO.free, N, hn', ?_⟩
    intro hlk
    beta_reduce
    by_cases hob : obsolete N.version = true
    · rw [if_pos hob]
      exact wp_done hno hO hT
    rw [if_neg hob]
    have hK := hC.wait hI hn' (mod4_of hlk hob)
    clear hC hn' hlk hob hI
    generalize N.version = v at hK
    refine wp.bind (wp.mono ?_ (wp_prefixMismatch hpk hp fuel s1 hK hO))
    rintro res s2 - ⟨hR, hres⟩
    replace hK := hK.mono hR; replace hO := hO.mono hR; replace hT := hT.mono hR
    clear hR
    cases res with
    | none => exact wp_done hno hO hT
    | some y =>
      obtain ⟨p, full⟩ := y
      have hM := hres p full rfl
      clear hres
      simp only
      -- the prefix length
      intro s3 hR hI
      replace hK := hK.mono hR; replace hO := hO.mono hR; replace hT := hT.mono hR; replace hM := hM.mono hR
      clear hR
      obtain ⟨n0, hn0, -⟩ := hK.node_get
      refine ⟨n0, hn0, ?_⟩
      intro r hr1 hr2
      beta_reduce
      have hg := hK.sc.got hn0 hr2
      clear hn0 hr1 hr2 n0 hI
      by_cases hpn : p = r.prefixLen
      swap
      · rw [if_pos hpn]
        refine wp_lock2 (X := r = N ∧ MisOk (fun _ => Pc) curr N key depth p full) hK hO hT ?_ hno ?_
        · rcases hM with hM | hM | hM
          · exact Or.inl hM
          · exact Or.inr (Or.inl hM)
          · rcases hg with hg | hg
            · exact Or.inr (Or.inl hg)
            · exact Or.inr (Or.inr ⟨hg, hM⟩)
        · rintro s4 hO hT hp' hc hC hok hdep ⟨rfl, g1, g2, g3, g4⟩
          refine Sect.wp (dead := []) ?_ hO hT ?_ ?_
          · intro s5 hR hI
            replace hp' := hp'.mono hR; replace hc := hc.mono hR; replace hC := hC.mono hR
            obtain ⟨m, hm, root, ht⟩ := hI.tree
            have hl := hc.2.2 hC.c0
            have hpl : p < r.prefixLen := by omega
            rcases hC.pf with ⟨h1, h2, h3⟩ | ⟨h1, h2, b, slot, pos, h3, h4, h5⟩
            · exfalso
              rw [h3] at hdep
              simp at hdep
              omega
            · have hEp := hC.ep.2
              have hEc := hC.ec.2
              obtain ⟨h', r1, r2, r3, r4⟩ := ht.split_commit (hp'.2.2 h1) hp'.2.1 (b := b) h4 hc.2.1 (value := value) hkl hvl
                (depth := depth) (pl := p) (full := full) (by rw [hEp]; exact h2) hpl (by rw [hEc]; exact g2) (by rw [hEc]; exact g3 hpl)
                (by rw [hEc]; exact g4)
              rw [← h3] at r1
              refine ⟨m, h', _, _, _, _, hm, rfl, r1, r2, ?_, r4, ?_, ?_, by simp, ?_⟩
              · intro a ha
                simp at ha
                rcases ha with rfl | rfl
                · exact hp'.1
                · exact hc.1
              · intro a ha
                rw [upd_eq, if_neg (Nat.ne_of_lt ha)]
              · intro a ha
                have : a ≠ s5.heap.length := Nat.ne_of_lt ha
                simp [this]
              · intro a q1 q2
                left
                rw [r3] at q2
                exact Nat.le_antisymm (Nat.le_of_lt_succ q2) q1
          · intro a ha
            simp at ha
            rcases ha with rfl | rfl
            · exact ⟨_, hc⟩
            · exact ⟨_, hp'⟩
          · intro s5 hO hT hH
            refine wp_fin2 (k := 1) hyes hO hC.ne (hH curr (by simp)) (Or.inr ⟨hC.c0, by simp⟩) (hH parent (by simp)) ?_ hT
            by_cases h0 : parent = 0
            · exact Or.inl h0
            · exact Or.inr ⟨h0, by simp⟩
      rw [if_neg (by simp [hpn])]
      -- the path of the node is known to be the start of the key
      have hX : Stale curr v s3 ∨ (r = N ∧ (Stale parent pv s3 ∨ Pc <+: key)) := by
        rcases hg with hg | hg
        · exact Or.inl hg
        · rcases hM with hM | hM | hM
          · exact Or.inr ⟨hg, Or.inl hM⟩
          · exact Or.inl hM
          · refine Or.inr ⟨hg, ?_⟩
            rcases hK.d with hd | hd
            · exact Or.inl hd
            · right
              have h2 := hM.2.1
              simp only at h2
              rw [hpn, hg, hd, List.take_length] at h2
              exact h2
      clear hM hpn hg hp
      intro s4 hR hI
      replace hK := hK.mono hR; replace hO := hO.mono hR; replace hT := hT.mono hR
      replace hX := hX.imp (fun y => Stale.mono y hR) (And.imp id (Or.imp (fun y => Stale.mono y hR) id))
      clear hR
      obtain ⟨n0, hn0, -⟩ := hK.node_get
      refine ⟨n0, hn0, ?_⟩
      intro r' hr1 hr2
      beta_reduce
      have hg' := hK.sc.got hn0 hr2
      clear hn0 hr1 hr2 n0 hI
      by_cases hlen : depth + r'.prefixLen = key.length
      · rw [if_pos hlen]
        refine wp_lock1 (X := r' = N ∧ (Stale parent pv s4 ∨ Pc <+: key)) hK hO hT ?_ hno ?_
        · rcases hg' with hg' | hg'
          · exact Or.inl hg'
          · rcases hX with hX | ⟨-, hX⟩
            · exact Or.inl hX
            · exact Or.inr ⟨hg', hX⟩
        rintro s0 s5 hR hh rfl hO hT hc hK ⟨rfl, hY⟩
        clear hX
        replace hX := hY.imp (fun y => (Stale.mono y hR).acquire (c := c) hh) id
        refine wp_checkParent hK hO hT hc hX hno ?_
        intro s6 hO hT hc hC hdep hX
        refine Sect.wp (dead := []) ?_ hO hT ?_ ?_
        · intro s7 hR hI
          replace hc := hc.mono hR; replace hC := hC.mono hR
          obtain ⟨m, hm, root, ht⟩ := hI.tree
          have hl := hc.2.2 hC.c0
          have hEc := hC.ec.2
          obtain ⟨h', q1, q2, q3⟩ := ht.updatePrefixLeaf_commit hl (key := key) (value := value) (by
            rw [hEc]
            exact hX.eq_of_length (by omega)) hkl hvl
          exact Sect.same hm rfl q1 q2 (by simpa using hc.1) ⟨_, q3⟩ (updatePrefixLeaf_length q1)
        · intro a ha
          simp at ha
          subst ha
          exact ⟨_, hc⟩
        · intro s3 hO hT hH
          exact wp_fin1 (k := 1) hyes hO (hH curr (by simp)) (Or.inr ⟨hC.c0, by simp⟩) hT
      rw [if_neg hlen]
      cases hkb : key[depth + r'.prefixLen]? with
      | none => intro s3 hR hI; exact ⟨(hO.mono hR).free, hpk⟩
      | some b =>
        simp only
        intro s5 hR hI
        replace hK := hK.mono hR; replace hO := hO.mono hR; replace hT := hT.mono hR; replace hg' := hg'.mono hR
        replace hX := hX.imp (fun y => Stale.mono y hR) (And.imp id (Or.imp (fun y => Stale.mono y hR) id))
        clear hR
        obtain ⟨n0, hn0, -⟩ := hK.node_get
        refine ⟨n0, hn0, ?_⟩
        intro r'' hr1 hr2
        beta_reduce
        have hg'' := hK.sc.got hn0 hr2
        clear hn0 hr1 hr2 n0 hI
        -- check of the node
        intro s6 hR hI
        replace hK := hK.mono hR; replace hO := hO.mono hR; replace hT := hT.mono hR; replace hg' := hg'.mono hR; replace hg'' := hg''.mono hR
        replace hX := hX.imp (fun y => Stale.mono y hR) (And.imp id (Or.imp (fun y => Stale.mono y hR) id))
        clear hR
        obtain ⟨n0, hn0, -⟩ := hK.node_get
        refine ⟨n0, hn0, ?_⟩
        beta_reduce
        by_cases hw : n0.version = v
        swap
        · rw [if_pos hw]
          exact wp_done hno hO hT
        rw [if_neg (by simp [hw])]
        have e1 := hg'.eq hn0 hw
        have e2 := hg''.eq hn0 hw
        obtain ⟨-, hX⟩ := hX.resolve_left (fun y => y.ne hn0 hw)
        clear hg' hg''
        rw [e1] at hkb hlen ⊢
        rw [e2]
        clear e1 e2 r' r''
        have hX : Stale parent pv s6 ∨ (depth + N.prefixLen = Pc.length ∧ Pc ++ [b] <+: key) := by
          rcases hK.d with hd | hd
          · exact Or.inl hd
          · refine hX.imp id (fun h1 => ⟨hd, ?_⟩)
            rw [hd] at hkb
            exact snoc_get h1 hkb
        cases hfc : N.findChild b with
        | none =>
          simp only
          exact wp_insertHere hkl hvl hpk hK hO hT hfc (hX.imp id And.right)
        | some y =>
          obtain ⟨next, slot, pos⟩ := y
          simp only
          have hctx : ∀ d, next = .node d → ∃ Pd, Ctx s6 curr v N Pc (Pc.length + 1) d Pd (curr, slot) ∧ Pd.take (Pc.length + 1) = Pc ++ [b] := by
            rintro d rfl
            exact hK.child hI hn0 hw hfc
          clear hn0 hw n0 hI
          intro s7 hR hI
          replace hK := hK.mono hR; replace hO := hO.mono hR; replace hT := hT.mono hR
          replace hX := hX.imp (fun y => Stale.mono y hR) id
          obtain ⟨n0, hn0⟩ := hK.parent_get
          refine ⟨n0, hn0, ?_⟩
          beta_reduce
          by_cases hw : n0.version = pv
          swap
          · rw [if_pos hw]
            exact wp_done hno hO hT
          rw [if_neg (by simp [hw])]
          obtain ⟨hdep, hX⟩ := hX.resolve_left (fun y => y.ne hn0 hw)
          rw [hdep]
          clear hn0 hw n0 hI
          cases next with
          | leaf l =>
            simp only
            refine wp_lock1 (X := True) hK hO hT (Or.inr trivial) hno ?_
            rintro s8 s9 - - - hO hT hc hK -
            refine Sect.wp (dead := []) ?_ hO hT ?_ ?_
            · intro s7 hR hI
              replace hc := hc.mono hR; replace hK := hK.mono hR
              obtain ⟨m, hm, root, ht⟩ := hI.tree
              have hl := hc.2.2 hK.ctx.c0
              have hEc := hK.ctx.ec.2
              obtain ⟨h', E', live', q1, q2, q3, q4, q5⟩ := ht.updateOrExpand_commit hl hc.2.1 (b := b) (l := l) (slot := slot) (pos := pos) hfc
                (key := key) (value := value) (by rw [hEc]; exact hX) hkl hvl
              rw [hEc] at q1
              refine ⟨m, h', E', live', _, _, hm, rfl, q1, q2, by simpa using hc.1, q3, fun a ha => (q4 a ha).1, ?_, by simp, q5⟩
              intro a ha
              simp [(q4 a ha).2]
            · intro a ha
              simp at ha
              subst ha
              exact ⟨_, hc⟩
            · intro s3 hO hT hH
              exact wp_fin1 (k := 1) hyes hO (hH curr (by simp)) (Or.inr ⟨hK.ctx.c0, by simp⟩) hT
          | node d =>
            simp only
            obtain ⟨Pd, q1, q2⟩ := hctx d rfl
            exact ih _ _ _ _ _ _ _ _ s7 (q1.mono hR) hO hT (by rw [q2]; exact hX)

theorem wp_put (hpk : pk) : ∀ (fuel : Nat) (s : St), Owns c [] s → Tags c 0 s →
    wp c (putEff key value) pk (fun _ s => Owns c [] s ∧ Tags c 1 s) (put key value fuel) s := by
  intro fuel
  induction fuel with
  | zero => intro s hO hT s' hR hI; exact (hO.mono hR).free
  | succ fuel ih =>
    intro s hO hT
    rw [put]
    refine wp.bind (wp.mono (Q := putQ c) ?_ ?_)
    · rintro (_ | _) s1 - ⟨h1, h2⟩
      · exact ih s1 h1 h2
      · intro s2 hR hI
        exact ⟨h1.mono hR, Tags.mono h2 hR⟩
    · refine wp_start hO ?_
      intro s1 r v Np Pp hR hC
      exact wp_insert hkl hvl hpk fuel 0 0 v r (0, 0) Np Pp [] s1 hC (hO.mono hR) (hT.mono hR) (by simp)

end

end Art
