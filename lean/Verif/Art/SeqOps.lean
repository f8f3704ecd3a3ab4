import Verif.Art.Seq

/-! # Operations that run alone: `Get` and `Put` -/

set_option linter.unusedSimpArgs false

namespace Art

open Surf Spec

variable {E : Addr → Bytes} {live : Addr → Prop} {h : Heap} {root : Addr} {m : Map} {rf : Bool}

/-! ## Get -/

theorem run_search (ht : HTr E live h root m) (hc : Calm live h) (key : Bytes) {N : Nat} (hN : ∀ a, live a → (E a).length < N) :
    ∀ (fuel depth : Nat) (parent : Addr) (pv : Nat) (curr : Addr) (n : Node), live curr → h[curr]? = some n →
      depth + n.prefixLen = (E curr).length → ver h parent = some pv → depth ≤ key.length →
      ((E curr).take depth <+: key ∨ m key = none) → N ≤ fuel + (E curr).length →
      (search key fuel depth parent pv curr).run rf h = .done (some (m key)) h := by
  intro fuel
  induction fuel with
  | zero =>
    intro depth parent pv curr n hl hn hd hpv hdk hp hf
    have := hN curr hl
    omega
  | succ fuel ih =>
    intro depth parent pv curr n hl hn hd hpv hdk hp hf
    obtain ⟨v, hv, h4⟩ := hc curr (Or.inr hl)
    obtain ⟨n', hn', -, hok⟩ := ht.view_live hl
    rw [hn] at hn'
    cases hn'
    obtain ⟨hcp1, hcp2⟩ := checkPrefix_spec (key := key) hd hok.pre hdk
    rw [search, run_wait hv h4, if_neg (by simp [not_obsolete h4]), run_load hpv, if_neg (by simp), run_read hn hv]
    by_cases e : (n.checkPrefix key depth).2 = false
    · rw [if_pos e, run_load hv, if_pos rfl, run_ret]
      have : m key = none := by
        rcases hp with hp | hp
        · exact ht.absent hl hn hd hp (hcp1 e)
        · exact hp
      rw [this]
    · rw [if_neg e, run_read hn hv, run_load hv, if_neg (by simp)]
      obtain ⟨h5, h6⟩ := hcp2 (by simpa using e)
      rw [h5]
      have hp' : E curr <+: key ∨ m key = none := by
        by_cases hh : E curr <+: key
        · exact Or.inl hh
        · rcases hp with hp | hp
          · exact Or.inr (ht.absent hl hn hd hp hh)
          · exact Or.inr hp
      cases hx : nextNode n key (E curr).length with
      | none =>
        simp only
        rw [run_ret]
        rcases hp' with hp' | hp'
        · have := ht.next_spec hl hn hp'
          rw [hx] at this
          simp only at this
          rw [this]
        · rw [hp']
      | some r =>
        cases r with
        | leaf l =>
          simp only
          rw [run_ret]
          rcases hp' with hp' | hp'
          · have := ht.next_spec hl hn hp'
            rw [hx] at this
            simp only at this
            rw [this]
          · by_cases hm : l.matchKey key = true
            · have := ht.next_leaf hl hn hx hm
              rw [if_pos hm, this]
            · rw [if_neg hm, hp']
        | node c =>
          simp only
          obtain ⟨b, h7, h8, h9⟩ := next_node hx
          obtain ⟨h10, -, h11, h12, nc, h13, h14⟩ := ht.child_node hl hn h7
          refine ih _ _ _ _ nc h10 h13 h14 hv (by omega) ?_ ?_
          · rw [h12]
            rcases hp' with hp' | hp'
            · exact Or.inl (snoc_get hp' h8)
            · exact Or.inr hp'
          · have := h11.length_le
            simp at this
            omega

theorem run_start {α : Type} (ht : HTr E live h root m) (hc : Calm live h) (k : Addr → Nat → Prog α) :
    ∃ v, ver h 0 = some v ∧ v % 4 = 0 ∧ (start k).run rf h = (k root v).run rf h := by
  obtain ⟨v, hv, h4⟩ := hc 0 (Or.inl rfl)
  obtain ⟨d, hd, hk⟩ := ht.dummy
  have hr : d.root = some (.node root) := by simp [Node.root, hk]
  have hloc : locked v = false := by simp [locked]; omega
  refine ⟨v, hv, h4, ?_⟩
  unfold start
  simp only [Prog.run]
  cases rf with
  | true => simp [Prog.run, hd, hr, hv, hloc]
  | false => simp [Prog.run, hd, hr, hv, hloc]

theorem HTr.root_facts (ht : HTr E live h root m) : ∃ n, live root ∧ h[root]? = some n ∧ n.prefixLen = 0 ∧ E root = [] ∧ root ≠ 0 := by
  obtain ⟨n, h1, h2, -⟩ := ht.view_live ht.tree.root_live
  refine ⟨n, ht.tree.root_live, h1, ?_, ht.tree.root_E, ht.ne_zero ht.tree.root_live⟩
  have := ht.tree.root_plen
  rw [h2] at this
  exact this

/-- `Get` running alone. -/
theorem run_get (hs : Seq h m) (key : Bytes) : ∃ N, ∀ fuel ≥ N, (get key fuel).run rf h = .done (m key) h := by
  obtain ⟨E, live, ⟨root, ht⟩, hc⟩ := hs
  obtain ⟨N, hN⟩ := exists_bound E h.length
  obtain ⟨n, hl, hn, hp, hE, -⟩ := ht.root_facts
  refine ⟨N + 1, ?_⟩
  intro fuel hf
  obtain ⟨k, rfl⟩ : ∃ k, fuel = k + 1 := ⟨fuel - 1, by omega⟩
  rw [get, run_bind]
  obtain ⟨v, hv, h4, hrun⟩ := run_start (rf := rf) ht hc (fun r v => search key k 0 0 v r)
  rw [hrun, run_search ht hc key (fun a ha => hN a (ht.lt ha)) k 0 0 v root n hl hn (by rw [hp, hE]; rfl) hv (Nat.zero_le _) (Or.inl (by simp))
    (by omega)]
  rfl

/-! ## Put -/

theorem run_fullKey (ht : HTr E live h root m) (hc : Calm live h) {N : Nat} (hN : ∀ a, live a → (E a).length < N) :
    ∀ (fuel : Nat) (curr : Addr) (v : Nat), live curr → curr ≠ root → ver h curr = some v → N ≤ fuel + (E curr).length →
      ∃ full, (fullKey fuel curr v).run rf h = .done (some full) h ∧ E curr <+: full := by
  intro fuel
  induction fuel with
  | zero =>
    intro curr v hl hr hv hf
    have := hN curr hl
    omega
  | succ fuel ih =>
    intro curr v hl hr hv hf
    obtain ⟨n, hn, hvw, hok⟩ := ht.view_live hl
    have hlv := ht.tree.leaves curr hl
    rw [hvw] at hlv
    rw [fullKey, run_read hn hv]
    cases hpl : n.prefixLeaf with
    | some l =>
      refine ⟨l.key, ?_, ?_⟩
      · simp only
        rw [run_load hv, run_ret, if_pos rfl]
      · rw [hlv.pleaf l hpl]; exact List.prefix_rfl
    | none =>
      have h2 := hok.two hr
      simp [hpl] at h2
      obtain ⟨r, b, h3, h5⟩ := firstChild_spec hok.wf (by omega)
      simp only
      rw [run_read hn hv, h3]
      simp only
      rw [run_load hv, if_neg (by simp)]
      cases r with
      | leaf l =>
        refine ⟨l.key, ?_, ?_⟩
        · simp only
          rw [run_load hv, run_ret, if_pos rfl]
        · exact prefix_of_snoc (hlv.leaf b l h5)
      | node c =>
        obtain ⟨h10, hcr, h11, h12, nc, h13, h14⟩ := ht.child_node hl hn h5
        obtain ⟨cv, hcv, hc4⟩ := hc c (Or.inr h10)
        simp only
        rw [run_wait hcv hc4, if_neg (by simp [not_obsolete hc4])]
        obtain ⟨full, h15, h16⟩ := ih c cv h10 hcr hcv (by
          have := h11.length_le
          simp at this
          omega)
        exact ⟨full, h15, (prefix_of_snoc h11).trans h16⟩

/-- What `prefixMismatch` returns. -/
def MisOk (E : Addr → Bytes) (curr : Addr) (n : Node) (key : Bytes) (depth p : Nat) (full : Bytes) : Prop :=
  p ≤ n.prefixLen ∧ (E curr).take (depth + p) <+: key ∧ (p < n.prefixLen → ¬ (E curr).take (depth + p + 1) <+: key) ∧
    (8 < n.prefixLen → E curr <+: full)

theorem run_prefixMismatch (ht : HTr E live h root m) (hc : Calm live h) {N : Nat} (hN : ∀ a, live a → (E a).length < N) {fuel : Nat}
    {key : Bytes} {depth : Nat} {curr parent : Addr} {v pv : Nat} {n : Node} (hl : live curr) (hn : h[curr]? = some n)
    (hd : depth + n.prefixLen = (E curr).length) (hv : ver h curr = some v) (hpv : ver h parent = some pv) (hp : (E curr).take depth <+: key)
    (hf : N + 2 ≤ fuel + (E curr).length) :
    ∃ p full, (prefixMismatch fuel key depth curr v parent pv).run rf h = .done (some (p, full)) h ∧ MisOk E curr n key depth p full := by
  obtain ⟨n', hn', hvw, hok⟩ := ht.view_live hl
  rw [hn] at hn'
  cases hn'
  have hlt := hN curr hl
  rw [prefixMismatch, run_read hn hv]
  by_cases h8 : n.prefixLen ≤ maxPrefixLen
  · rw [if_pos h8, run_read hn hv]
    have h8' : n.prefixLen ≤ 8 := h8
    obtain ⟨k, h1, h2, h3, h4⟩ := mismatchShort_spec hd hok.pre h8' hp
    refine ⟨k, [], ?_, h2, h3, h4, fun hh => absurd hh (by omega)⟩
    rw [h1]
    rfl
  · rw [if_neg h8]
    have h8' : 8 < n.prefixLen := Nat.lt_of_not_le h8
    have hr : curr ≠ root := by
      rintro rfl
      have := ht.tree.root_plen
      rw [hvw] at this
      simp [Node.view] at this
      omega
    obtain ⟨k, rfl⟩ : ∃ k, fuel = k + 2 := ⟨fuel - 2, by omega⟩
    obtain ⟨full, h5, h6⟩ := run_fullKey (rf := rf) ht hc hN (k + 1) curr v hl hr hv (by omega)
    obtain ⟨j, h1, h2, h3, h4⟩ := mismatchLong_spec (full := full) hd h6 hp
    refine ⟨j, full, ?_, h2, h3, h4, fun _ => h6⟩
    rw [mismatchLoop, run_load hv, if_neg (by simp), run_load hpv, if_neg (by simp)]
    rw [run_bind, h5]
    simp only [Out.andThen]
    rw [mismatchLoop, run_load hv, if_neg (by simp), run_load hpv, if_neg (by simp), run_read hn hv, h1]
    rfl

/-- Where an operation stands. -/
structure Here (E : Addr → Bytes) (live : Addr → Prop) (h : Heap) (root : Addr) (depth : Nat) (curr : Addr) (loc : Loc) (n : Node) : Prop where
  alive : live curr
  get : h[curr]? = some n
  depth : depth + n.prefixLen = (E curr).length
  at_ : At E live h root loc curr

theorem Here.ne_parent (ht : HTr E live h root m) {depth : Nat} {curr : Addr} {loc : Loc} {n : Node} (hh : Here E live h root depth curr loc n) :
    curr ≠ loc.1 := by
  have hat := hh.at_
  cases hat with
  | root i => exact ht.ne_zero ht.tree.root_live
  | @child p b slot pos np c hp hnp hf =>
    refine ht.tree.child_ne hp (b := b) ?_
    rw [view_eq hnp]
    show Option.map _ _ = _
    rw [hf]
    rfl

theorem run_insertHere (ht : HTr E live h root m) (hc : Calm live h) {key value : Bytes} (hkl : key.length < 2 ^ 32) (hvl : value.length < 2 ^ 32)
    {depth : Nat} {curr : Addr} {loc : Loc} {n : Node} (hh : Here E live h root depth curr loc n) {b : UInt8} (hb : n.child b = none)
    (hkey : E curr ++ [b] <+: key) {v pv : Nat} (hv : ver h curr = some v) (hpv : ver h loc.1 = some pv) :
    ∃ h', (insertHere key value b loc.1 pv curr v loc).run rf h = .done true h' ∧ Seq h' (m.put key value) := by
  have hne := hh.ne_parent ht
  obtain ⟨n', hn', hvw, hok⟩ := ht.view_live hh.alive
  rw [hh.get] at hn'
  cases hn'
  rw [insertHere, run_read hh.get hv]
  have hlk : E curr ++ [b] <+: (newLeaf key value).key := by rw [newLeaf_key hkl]; exact hkey
  have hmp : m.put (newLeaf key value).key (newLeaf key value).value = m.put key value := by
    rw [newLeaf_key hkl, newLeaf_value hkl hvl]
  cases hfull : n.isFull with
  | none => have := hok.wf.isFull; rw [hfull] at this; simp at this
  | some f =>
    cases f with
    | true =>
      simp only
      have hv1 : ver (setVer h loc.1 (pv + 2)) curr = some v := by rw [ver_setVer_ne _ hne]; exact hv
      rw [run_cas hpv, if_neg (by simp), run_cas hv1, if_neg (by simp)]
      refine section_replace ht hc hpv hv hne (ht.ne_zero hh.alive) ?_
      have ht2 := (ht.setVer loc.1 (pv + 2)).setVer curr (v + 2)
      obtain ⟨w1, hw1⟩ := get_setVer hh.get loc.1 (pv + 2)
      obtain ⟨w2, hw2⟩ := get_setVer hw1 curr (v + 2)
      obtain ⟨h', g1, g2, g3, g4⟩ := ht2.grow_commit hh.alive hw2 ((hh.at_.setVer _ _).setVer _ _) hfull (b := b) hb hlk
      rw [hmp] at g4
      refine ⟨h', _, _, _, g1, g2, g4, ?_⟩
      rintro a (rfl | ha) hlt
      · exact absurd hlt (Nat.lt_irrefl _)
      · exact ha
    | false =>
      simp only
      have hp1 : ver (setVer h curr (v + 2)) loc.1 = some pv := by rw [ver_setVer_ne _ hne.symm]; exact hpv
      rw [run_cas hv, if_neg (by simp), run_load hp1, if_neg (by simp)]
      refine section_one ht hc hv ?_
      obtain ⟨w1, hw1⟩ := get_setVer hh.get curr (v + 2)
      obtain ⟨h', g1, g2, g3⟩ := (ht.setVer curr (v + 2)).insertChild_commit hh.alive hw1 hfull (b := b) hb hlk
      rw [hmp] at g3
      exact ⟨h', _, _, _, g1, g2, ⟨_, g3⟩, fun a ha _ => ha⟩

theorem run_insert (ht : HTr E live h root m) (hc : Calm live h) {key value : Bytes} (hkl : key.length < 2 ^ 32) (hvl : value.length < 2 ^ 32)
    {N : Nat} (hN : ∀ a, live a → (E a).length < N) :
    ∀ (fuel depth : Nat) (pv : Nat) (curr : Addr) (loc : Loc) (n : Node), Here E live h root depth curr loc n →
      ver h loc.1 = some pv → (E curr).take depth <+: key → N + 3 ≤ fuel + (E curr).length →
      ∃ h', (insert key value fuel depth loc.1 pv curr loc).run rf h = .done true h' ∧ Seq h' (m.put key value) := by
  intro fuel
  induction fuel with
  | zero =>
    intro depth pv curr loc n hh hpv hp hf
    have := hN curr hh.alive
    omega
  | succ fuel ih =>
    intro depth pv curr loc n hh hpv hp hf
    obtain ⟨v, hv, h4⟩ := hc curr (Or.inr hh.alive)
    obtain ⟨n', hn', hvw, hok⟩ := ht.view_live hh.alive
    rw [hh.get] at hn'
    cases hn'
    have hne := hh.ne_parent ht
    have hn := hh.get
    obtain ⟨p, full, g1, g2, g3, g4, g5⟩ := run_prefixMismatch (rf := rf) (key := key) (fuel := fuel) ht hc hN hh.alive hn hh.depth hv hpv hp (by omega)
    rw [insert, run_wait hv h4, if_neg (by simp [not_obsolete h4]), run_bind, g1]
    simp only [Out.andThen]
    rw [run_read hn hv]
    by_cases hpn : p = n.prefixLen
    · rw [if_neg (by simp [hpn]), run_read hn hv]
      have hEk : E curr <+: key := by
        have : (E curr).take (depth + p) = E curr := by
          rw [hpn, hh.depth, List.take_length]
        rw [this] at g3
        exact g3
      rw [hh.depth]
      by_cases hlen : (E curr).length = key.length
      · rw [if_pos hlen]
        have hp1 : ver (setVer h curr (v + 2)) loc.1 = some pv := by rw [ver_setVer_ne _ hne.symm]; exact hpv
        rw [run_cas hv, if_neg (by simp), run_load hp1, if_neg (by simp)]
        refine section_one ht hc hv ?_
        obtain ⟨h', q1, q2, q3⟩ := (ht.setVer curr (v + 2)).updatePrefixLeaf_commit hh.alive (hEk.eq_of_length hlen) hkl hvl
        exact ⟨h', _, _, _, q1, q2, ⟨_, q3⟩, fun a ha _ => ha⟩
      · rw [if_neg hlen]
        have hlt : (E curr).length < key.length := by have := hEk.length_le; omega
        have hkb := List.getElem?_eq_getElem hlt
        have hsn := snoc_get hEk hkb
        rw [hkb]
        generalize key[(E curr).length] = b at hsn
        simp only
        rw [run_read hn hv, run_load hv, if_neg (by simp)]
        cases hfc : n.findChild b with
        | none =>
          simp only
          exact run_insertHere ht hc hkl hvl hh (by simp [Node.child, hfc]) hsn hv hpv
        | some x =>
          obtain ⟨next, slot, pos⟩ := x
          simp only
          rw [run_load hpv, if_neg (by simp)]
          cases next with
          | leaf l =>
            simp only
            rw [run_cas hv, if_neg (by simp)]
            refine section_one ht hc hv ?_
            obtain ⟨w1, hw1⟩ := get_setVer hn curr (v + 2)
            obtain ⟨h', E', live', q1, q2, q3, q4, q5⟩ :=
              (ht.setVer curr (v + 2)).updateOrExpand_commit hh.alive hw1 (b := b) (by rw [findChild_setVer]; exact hfc) hsn hkl hvl
            exact ⟨h', E', live', _, q1, q2, q3, fun a ha hl => ((q4 a hl).2).mp ha⟩
          | node c =>
            simp only
            have hcc : n.child b = some (.node c) := by simp [Node.child, hfc]
            obtain ⟨h10, hcr, h11, h12, nc, h13, h14⟩ := ht.child_node hh.alive hn hcc
            refine ih ((E curr).length + 1) v c (curr, slot) nc ⟨h10, h13, h14, .child hh.alive hn hfc⟩ hv (by rw [h12]; exact hsn) ?_
            have := h11.length_le
            simp at this
            omega
    · rw [if_pos hpn]
      have hr : curr ≠ root := by
        rintro rfl
        have := ht.tree.root_plen
        rw [hvw] at this
        simp [Node.view] at this
        omega
      obtain ⟨b, slot, pos, np, e, q1, q2, q3⟩ := hh.at_.parent hr
      have hv1 : ver (setVer h loc.1 (pv + 2)) curr = some v := by rw [ver_setVer_ne _ hne]; exact hv
      rw [run_cas hpv, if_neg (by simp), run_cas hv1, if_neg (by simp)]
      refine section_two ht hc hpv hv hne ?_
      have hcc : np.child b = some (.node curr) := by simp [Node.child, q3]
      obtain ⟨-, -, -, -, nc, h13, h14⟩ := ht.child_node q1 q2 hcc
      rw [hn] at h13
      cases h13
      have hdp := hh.depth
      obtain ⟨w1, hw1⟩ := get_setVer hn loc.1 (pv + 2)
      obtain ⟨w2, hw2⟩ := get_setVer hw1 curr (v + 2)
      obtain ⟨u1, hu1⟩ := get_setVer q2 loc.1 (pv + 2)
      obtain ⟨u2, hu2⟩ := get_setVer hu1 curr (v + 2)
      obtain ⟨h', r1, r2, r3, r4⟩ := ((ht.setVer loc.1 (pv + 2)).setVer curr (v + 2)).split_commit q1 hu2 (b := b) q3 hw2 (value := value) hkl hvl
        (depth := depth) (pl := p) (full := full) (by omega) (show p < n.prefixLen by omega) g3 (g4 (by omega)) g5
      rw [← e] at r1
      refine ⟨h', _, _, _, r1, r2, r4, ?_⟩
      rintro a (rfl | ha) hlt
      · exact absurd hlt (Nat.lt_irrefl _)
      · exact ha

/-- `Put` running alone. -/
theorem run_put (hs : Seq h m) {key value : Bytes} (hkl : key.length < 2 ^ 32) (hvl : value.length < 2 ^ 32) :
    ∃ N, ∀ fuel ≥ N, ∃ h', (put key value fuel).run rf h = .done () h' ∧ Seq h' (m.put key value) := by
  obtain ⟨E, live, ⟨root, ht⟩, hc⟩ := hs
  obtain ⟨N, hN⟩ := exists_bound E h.length
  obtain ⟨n, hl, hn, hp, hE, -⟩ := ht.root_facts
  refine ⟨N + 4, ?_⟩
  intro fuel hf
  obtain ⟨k, rfl⟩ : ∃ k, fuel = k + 1 := ⟨fuel - 1, by omega⟩
  rw [put, run_bind]
  obtain ⟨v, hv, h4, hrun⟩ := run_start (rf := rf) ht hc (fun r v => insert key value k 0 0 v r (0, 0))
  obtain ⟨h', g1, g2⟩ := run_insert (rf := rf) ht hc hkl hvl (fun a ha => hN a (ht.lt ha)) k 0 v root (0, 0) n
    ⟨hl, hn, by rw [hp, hE]; rfl, .root 0⟩ hv (by simp) (by omega)
  rw [hrun, g1]
  exact ⟨h', rfl, g2⟩

end Art
