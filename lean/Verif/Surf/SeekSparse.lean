import Verif.Surf.SeekDense

/-!
# Seek in the sparse part, and as a whole

`SearchGreaterThan` is called with the size of the whole node after the terminator has been skipped; the proofs here are for searches that do not miss a label in a node with a terminator.
-/

set_option linter.unusedSimpArgs false

namespace Surf

section
variable {cfg : Config} {fp : Bytes → Word} {ls : LoudsSparse} {ds pre post : List Grp} {t : Grp} {ip iq : List Item}

theorem SView.skip_none (h : SView cfg fp ls ds (pre ++ t :: post)) (ht : t.Good) (hn : ∀ i ∈ t.items, i.term = false) : ls.labelVec.skipTerminator (itemN pre) t.items.length = some (itemN pre, t.items.length) ∧ t.body = t.items := by
  obtain ⟨z, e1, e2, e3⟩ := h.skip ht
  have hz : z = [] := by
    cases z with
    | nil => rfl
    | cons a z =>
      have h1 := e2 a (by simp)
      rw [hn a (by rw [e1]; simp)] at h1
      simp at h1
  rw [hz, List.nil_append] at e1
  rw [hz] at e3
  exact ⟨by rw [e3, ← e1]; rfl, e1.symm⟩

/-- `Search` without result stays at the first label. -/
theorem SView.search_none (h : SView cfg fp ls ds (pre ++ t :: post)) (ht : t.Good) (hn : ∀ i ∈ t.items, i.term = false) (c : UInt8) (hm : ∀ i ∈ t.items, i.label ≠ c) :
    ls.labelVec.search c (itemN pre) t.items.length = some (itemN pre, false) := by
  obtain ⟨e3, e4⟩ := h.skip_none ht hn
  obtain ⟨s1, s2⟩ := h.labels_slice (z := []) (b := t.items) (w := []) (by simp)
  rw [List.length_nil, Nat.add_zero] at s1 s2
  unfold LabelVector.search
  rw [e3]
  simp only [Option.bind_eq_bind, Option.bind_some]
  rw [Nat.min_eq_left s2, s1]
  simp only [Option.bind_some]
  rw [indexByte_none]
  · rfl
  · intro x hx
    rw [List.mem_map] at hx
    obtain ⟨j, hj, rfl⟩ := hx
    exact hm j hj

/-- `SearchGreaterThan` finds the first greater label. -/
theorem SView.greater (h : SView cfg fp ls ds (pre ++ t :: post)) (ht : t.Good) (hn : ∀ i ∈ t.items, i.term = false) (e : t.items = ip ++ iq) {c : UInt8} (h1 : ∀ i ∈ ip, i.label < c) (h2 : ∀ i ∈ iq, c < i.label) :
    ls.labelVec.searchGreaterThan c (itemN pre) t.items.length = some (if iq = [] then (itemN pre + (ip.length - 1), false) else (itemN pre + ip.length, true)) := by
  obtain ⟨e3, -⟩ := h.skip_none ht hn
  have hl : ∀ k (hk : k < t.items.length), ls.labelVec.labels[itemN pre + k]? = some (t.items[k]).label := by
    intro k hk
    have e5 : t.items = t.items.take k ++ t.items[k] :: t.items.drop (k + 1) := by simp
    have := h.label e5
    rw [List.length_take, Nat.min_eq_left (by omega)] at this
    exact this
  have hlow : ∀ k, k < ip.length → (ls.labelVec.labels[itemN pre + k]?).map (fun l => decide (c < l)) = some false := by
    intro k hk
    have hk' : k < t.items.length := by rw [e, List.length_append]; omega
    rw [hl k hk']
    have : t.items[k] ∈ ip := by
      simp only [e]
      rw [List.getElem_append_left hk]
      exact List.getElem_mem _
    have := h1 _ this
    rw [UInt8.lt_iff_toNat_lt] at this
    simp only [Option.map_some, Option.some.injEq, decide_eq_false_iff_not, UInt8.lt_iff_toNat_lt]
    omega
  have hhigh : ∀ k, ip.length ≤ k → k < t.items.length → (ls.labelVec.labels[itemN pre + k]?).map (fun l => decide (c < l)) = some true := by
    intro k hk hk'
    rw [hl k hk']
    have : t.items[k] ∈ iq := by
      simp only [e]
      rw [List.getElem_append_right hk]
      exact List.getElem_mem _
    have := h2 _ this
    simp only [Option.map_some, Option.some.injEq, decide_eq_true_eq]
    exact this
  obtain ⟨r, r1, r2, r3, r4⟩ := sortSearch_spec (fun k => (ls.labelVec.labels[itemN pre + k]?).map (fun l => decide (c < l))) t.items.length
    (fun k hk => by
      by_cases hc : k < ip.length
      · exact ⟨_, hlow k hc⟩
      · exact ⟨_, hhigh k (by omega) hk⟩)
    (fun a b hab hb ha => by
      by_cases hc : a < ip.length
      · have := hlow a hc
        rw [this] at ha
        simp at ha
      · exact hhigh b (by omega) hb)
  have hlen : t.items.length = ip.length + iq.length := by rw [e, List.length_append]
  have hr : r = ip.length := by
    rcases Nat.lt_trichotomy r ip.length with hlt | heq | hgt
    · have h5 := r4 r (Nat.le_refl _) (by omega)
      rw [hlow r hlt] at h5
      simp at h5
    · exact heq
    · have h5 := r3 ip.length hgt
      rw [hhigh ip.length (Nat.le_refl _) (by omega)] at h5
      simp at h5
  subst hr
  unfold LabelVector.searchGreaterThan
  rw [e3]
  simp only [Option.bind_eq_bind, Option.bind_some]
  rw [r1]
  simp only [Option.bind_some]
  have hne : t.items.length ≠ 0 := fun e => ht.items_ne (List.eq_nil_of_length_eq_zero e)
  by_cases hq : iq = []
  · rw [if_pos hq]
    rw [hq, List.length_nil] at hlen
    rw [if_pos (by omega)]
    unfold usub
    rw [if_pos (by omega)]
    simp only [Option.bind_some, Option.pure_def]
    congr 2
    omega
  · have : iq.length ≠ 0 := fun e => hq (List.eq_nil_of_length_eq_zero e)
    rw [if_neg (by omega), if_neg hq]
    rfl

end

section
variable {cfg : Config} {fp : Bytes → Word} {s : SuRF} {t0 t : Grp} {cut h : Nat} {R r W : List Frame} {ip iq : List Item} {i : Item}

/-- The search for `q` does not miss a label in a node of the sparse part that has an end item. -/
def Clear (t0 : Grp) (cut : Nat) (q : Bytes) : Prop :=
  ∀ W t c v, Way t0 W t → cut ≤ W.length → q = str W ++ t.pre ++ c :: v → (∃ i ∈ t.items, i.term = true) → ∃ i ∈ t.items, i.term = false ∧ i.label = c

/-- The comparison of the suffix of a leaf of the sparse part. -/
theorem Built.s_compare (B : Built cfg fp s t0 cut h) (w : Way t0 W t) (hl : cut ≤ W.length) (e : t.items = ip ++ i :: iq) (hc : i.child = false) {x : KV} (hx : i.kvs = [x]) (q : Bytes) (level : Nat) :
    (s.ls.suffixPos (spos t0 cut W ip.length)).bind (fun sp => s.ls.suffixes.compare q sp level) = some (sufCmp cfg (cfg.suffix fp x.1 (t.bd + 1)) q level) := by
  obtain ⟨post, ep, hok, hv⟩ := B.s_at w hl
  obtain ⟨X, Y, f1, f2⟩ := lvs_split (pre := nodesIn t0 cut (W.length - cut) ++ left W) (post := post) e hc
  have hsv := hv.suf
  rw [f1, List.map_append, List.map_cons] at hsv
  have := SV.compare B.cfgok hsv (leafWord_high B.cfgok _) q level
  rw [List.length_map] at this
  unfold spos
  rw [hv.leafPos e hc, ← f2]
  simp only [Option.bind_some]
  rw [this]
  simp [leafWord, leafKV, hx]

theorem Built.s_size (B : Built cfg fp s t0 cut h) (w : Way t0 W t) (hl : cut ≤ W.length) : s.ls.nodeSize (spos t0 cut W 0) = some t.items.length := by
  obtain ⟨post, ep, hok, hv⟩ := B.s_at w hl
  refine hv.size hok ?_
  cases w with
  | nil =>
    right
    have : cut = 0 := by simpa using hl
    subst this
    simp [nodesIn, left]
  | cons w e hc => exact .inl (Way.two B.root (.cons w e hc)).2

/-- What the sparse part of `Seek` comes to. -/
def SSeek (cfg : Config) (fp : Bytes → Word) (t0 : Grp) (cut h : Nat) (q : Bytes) (R : List Frame) (it : SparseIter) : Prop :=
  ∃ P, Cut cfg fp t0 q P ∧ (SGo t0 cut h true it R P ∨ (SClean (h - cut) it ∧ ∃ T, Way t0 R T ∧ P = before R ++ T.kvs))

theorem Built.s_seekLoop (B : Built cfg fp s t0 cut h) (bmi : Bool) (hd : t0.d = 0) (hR : R.length = cut) (q : Bytes) (hns : Clear t0 cut q) : ∀ (n : Nat) (r : List Frame) (t : Grp) (it : SparseIter), r.length + n = h - cut → Way t0 (r ++ R) t →
    SSize (h - cut) it → SOn t0 cut R it.posInTrie it.prefixLen r → it.level = r.length → it.keyBuf = str r → it.atTerminator = false → it.startDepth = (str R).length →
    str (r ++ R) <+: q → (∀ x ∈ before (r ++ R), Passed cfg fp t0 q x) → (∀ x ∈ after (r ++ R), Stays cfg fp t0 q x) →
    ∃ it' fl, SparseIter.seekLoop bmi s.ls q n it t.d (num t0 (r ++ R)) (spos t0 cut (r ++ R) 0) = some (it', fl) ∧ SSeek cfg fp t0 cut h q R it' := by
  intro n
  induction n with
  | zero =>
    intro r t it hn w
    have := B.way_lt w
    simp only [List.length_append] at this
    omega
  | succ n ih =>
    intro r t it hn w hsz hon hlev hbuf hk hst hq hb ha
    have hl : cut ≤ (r ++ R).length := by simp [hR]
    have hg := w.good B.root
    have hsl := w.str_len B.root hd
    obtain ⟨cmp, c1, c2⟩ := prefixCmp_of hq t.pre
    rw [hsl] at c1
    obtain ⟨pid, p1, p2⟩ := B.s_pre w hl
    rw [SparseIter.seekLoop, p1]
    simp only [Option.bind_eq_bind, Option.bind_some]
    rw [p2]
    simp only [Option.bind_some]
    rw [c1]
    simp only [Option.bind_some]
    have hpl := hg.toOK.pre_length.2
    have hbl := w.bd_len B.root hd
    have hstay : (Div q (str (r ++ R) ++ t.pre) ∨ q <+: str (r ++ R) ++ t.pre) → ∃ it' fl,
        ((s.ls.labelVec.getLabel (spos t0 cut (r ++ R) 0)).bind fun l => (it.append s.ls l (spos t0 cut (r ++ R) 0) (num t0 (r ++ R))).bind fun it => (it.move bmi s.ls true).bind fun it => pure (it, false)) = some (it', fl) ∧
        SSeek cfg fp t0 cut h q R it' := by
      intro hs
      cases e : t.items with
      | nil => exact absurd e hg.toOK.items_ne
      | cons j jq =>
        have e' : t.items = [] ++ j :: jq := e
        have hlab := B.s_label w hl e'
        rw [List.length_nil] at hlab
        rw [hlab]
        simp only [Option.bind_some]
        obtain ⟨it1, a1, a2, a3, a4⟩ := B.s_append w hR hsz hon hlev hbuf j.label 0
        rw [a1]
        simp only [Option.bind_some]
        obtain ⟨it2, b1, b2⟩ := B.s_move bmi true hR w e' a2 (a3.trans hk) (a4.trans hst)
        rw [b1]
        refine ⟨_, _, rfl, _, ?_, .inl b2⟩
        simp only [if_true]
        refine cut_at w (ip := []) (iq := t.items) rfl hb ha (by simp) (fun i hi x hx => B.stays_node hd w hs x ?_)
        rw [← t.items_flat]
        exact List.mem_flatMap.mpr ⟨i, hi, hx⟩
    rcases c2 with ⟨c2, c3⟩ | ⟨c2, c3⟩ | ⟨c2, c3⟩
    · rw [if_pos c2]
      have hp := B.passed_node hd w c3
      cases r with
      | nil =>
        rw [List.length_nil] at hlev
        rw [if_pos hlev]
        rw [List.nil_append] at w hb ha
        refine ⟨_, _, rfl, before R ++ t.kvs, ⟨?_, after R, w.kvs, ha⟩, .inr ⟨⟨⟨hsz.p, hsz.l, hsz.d⟩, rfl, hk, hlev, hbuf⟩, t, w, rfl⟩⟩
        intro x hx
        rw [List.mem_append] at hx
        rcases hx with hx | hx
        · exact hb x hx
        · exact hp x hx
      | cons f r =>
        rw [List.cons_append] at w
        cases w with
        | cons w' e hc =>
        rw [if_neg (by rw [hlev]; simp)]
        rw [List.length_cons] at hlev
        have hlev' : dec32 it.level = r.length := by
          unfold dec32
          rw [if_neg (by omega)]
          omega
        obtain ⟨o1, o2, o3⟩ := hon
        obtain ⟨it', a1, a2⟩ := B.s_next bmi hR (it := { it with level := dec32 it.level }) w' e
          ⟨⟨hsz.p, hsz.l, hsz.d⟩, o1, o2, by show it.prefixLen[r.length]? = _; rw [o3]; simp [str]; omega, by show _ <+: it.keyBuf; rw [hbuf]; simp [str]⟩ hlev' hst
        rw [a1]
        refine ⟨_, _, rfl, _, ?_, a2⟩
        refine cut_at w' (ip := f.ip ++ [f.i]) (iq := f.iq) (by rw [e]; simp) (fun x hx => hb x (by simp [before, hx])) (fun x hx => ha x (by simp [after, hx])) ?_ ?_
        · intro i hi x hx
          rw [List.mem_append, List.mem_singleton] at hi
          rcases hi with hi | rfl
          · exact hb x (by rw [List.cons_append]; unfold before; exact List.mem_append_right _ (List.mem_flatMap.mpr ⟨i, hi, hx⟩))
          · exact hp x hx
        · intro i hi x hx
          exact ha x (by rw [List.cons_append]; unfold after; exact List.mem_append_left _ (List.mem_flatMap.mpr ⟨i, hi, hx⟩))
    · rw [if_neg (by omega)]
      by_cases hlen : t.d + t.pre.length ≥ q.length
      · rw [if_pos (.inl hlen)]
        apply hstay
        right
        have : str (r ++ R) ++ t.pre = q := c3.eq_of_length_le (by rw [hbl]; omega)
        rw [this]
        exact List.prefix_rfl
      · rw [if_neg (by simp only [not_or]; exact ⟨hlen, by omega⟩), hpl]
        obtain ⟨v, rfl⟩ := c3
        cases v with
        | nil => rw [List.append_nil, hbl] at hlen; omega
        | cons c v =>
          have hqc : (str (r ++ R) ++ t.pre ++ c :: v)[t.bd]? = some c := by
            rw [List.getElem?_append_right (by omega), hbl]
            simp
          obtain ⟨post, ep, hok, hv⟩ := B.s_at w hl
          unfold SparseIter.seekLabel
          rw [B.s_size w hl]
          simp only [Option.bind_eq_bind, Option.bind_some]
          rw [hqc]
          simp only [Option.bind_some]
          rcases label_cases hg.toOK c with ⟨ip, iq, e, g1, g2⟩ | ⟨ip, i, iq, e, g0, rfl, g1, g2⟩
          · have hnt : ∀ j ∈ t.items, j.term = false := by
              intro j hj
              by_contra hjt
              obtain ⟨k, hk, hkt, hkc⟩ := hns (r ++ R) t c v w hl rfl ⟨j, hj, by simpa using hjt⟩
              rw [e, List.mem_append] at hk
              rcases hk with hk | hk
              · have := g1 k hk hkt
                rw [hkc] at this
                exact absurd this (UInt8.lt_irrefl _)
              · have := (g2 k hk).2
                rw [hkc] at this
                exact absurd this (UInt8.lt_irrefl _)
            have g1' : ∀ j ∈ ip, j.label < c := fun j hj => g1 j hj (hnt j (by rw [e]; simp [hj]))
            have hm : ∀ j ∈ t.items, j.label ≠ c := by
              intro j hj hjc
              rw [e, List.mem_append] at hj
              rcases hj with hj | hj
              · have := g1' j hj
                rw [hjc] at this
                exact absurd this (UInt8.lt_irrefl _)
              · have := (g2 j hj).2
                rw [hjc] at this
                exact absurd this (UInt8.lt_irrefl _)
            have hsn := hv.search_none hg hnt c hm
            have hgt := hv.greater hg hnt e g1' (fun j hj => (g2 j hj).2)
            change s.ls.labelVec.search c (spos t0 cut (r ++ R) 0) t.items.length = some (spos t0 cut (r ++ R) 0, false) at hsn
            change s.ls.labelVec.searchGreaterThan c (spos t0 cut (r ++ R) 0) t.items.length = some (if iq = [] then (spos t0 cut (r ++ R) (ip.length - 1), false) else (spos t0 cut (r ++ R) ip.length, true)) at hgt
            rw [hsn]
            simp only [Option.bind_some, Bool.not_false, if_true]
            unfold SparseIter.moveToLeftInNextSubTrie
            rw [hgt]
            simp only [Option.bind_eq_bind, Option.bind_some]
            have hbi : ∀ j ∈ ip, ∀ x ∈ j.kvs, Passed cfg fp t0 (str (r ++ R) ++ t.pre ++ c :: v) x := fun j hj => B.passed_item hd w (by rw [e]; simp [hj]) (g1 j hj)
            have hai : ∀ j ∈ iq, ∀ x ∈ j.kvs, Stays cfg fp t0 (str (r ++ R) ++ t.pre ++ c :: v) x := fun j hj => B.stays_item hd w (by rw [e]; simp [hj]) (g2 j hj).1 (g2 j hj).2
            have hcut := cut_at w e hb ha hbi hai
            cases iq with
            | nil =>
              rw [if_pos rfl]
              rw [List.append_nil] at e
              have hne : ip ≠ [] := by rw [← e]; exact hg.toOK.items_ne
              obtain ⟨jp, j, ej⟩ : ∃ jp j, ip = jp ++ [j] := ⟨_, _, (List.dropLast_concat_getLast hne).symm⟩
              have e' : t.items = jp ++ j :: [] := by rw [e, ej]
              have hjl : ip.length - 1 = jp.length := by rw [ej]; simp
              simp only [hjl]
              rw [B.s_label w hl e']
              simp only [Option.bind_some]
              obtain ⟨it1, a1, a2, a3, a4⟩ := B.s_append w hR hsz hon hlev hbuf j.label jp.length
              rw [a1]
              simp only [Option.bind_some, Bool.false_eq_true, if_false]
              obtain ⟨it2, b1, b2⟩ := B.s_next bmi hR w e' a2.toSPos a2.lev (a4.trans hst)
              rw [b1]
              rw [ej] at hcut
              exact ⟨_, _, rfl, _, hcut, b2⟩
            | cons j jq =>
              rw [if_neg (by simp)]
              simp only
              rw [B.s_label w hl e]
              simp only [Option.bind_some]
              obtain ⟨it1, a1, a2, a3, a4⟩ := B.s_append w hR hsz hon hlev hbuf j.label ip.length
              rw [a1]
              simp only [Option.bind_some, if_true]
              obtain ⟨it2, b1, b2⟩ := B.s_move bmi true hR w e a2 (a3.trans hk) (a4.trans hst)
              rw [b1]
              exact ⟨_, _, rfl, _, hcut, .inl b2⟩
          · have hi : i ∈ t.items := by rw [e]; simp
            have hsh := hv.search_hit hg e g0
            change s.ls.labelVec.search i.label (spos t0 cut (r ++ R) 0) t.items.length = some (spos t0 cut (r ++ R) ip.length, true) at hsh
            rw [hsh]
            simp only [Option.bind_some, Bool.not_true, Bool.false_eq_true, if_false]
            obtain ⟨it1, a1, a2, a3, a4⟩ := B.s_append w hR hsz hon hlev hbuf i.label ip.length
            rw [a1]
            simp only [Option.bind_some]
            rw [B.s_hasChild w hl e]
            simp only [Option.bind_some]
            have hbi : ∀ j ∈ ip, ∀ x ∈ j.kvs, Passed cfg fp t0 (str (r ++ R) ++ t.pre ++ i.label :: v) x := fun j hj => B.passed_item hd w (by rw [e]; simp [hj]) (g1 j hj)
            have hai : ∀ j ∈ iq, ∀ x ∈ j.kvs, Stays cfg fp t0 (str (r ++ R) ++ t.pre ++ i.label :: v) x := fun j hj => B.stays_item hd w (by rw [e]; simp [hj]) (g2 j hj).1 (g2 j hj).2
            cases hc : i.child with
            | false =>
              simp only [Bool.not_false, if_true]
              unfold SparseIter.compareSuffixGreaterThan
              have hx := (hg.toOK.leafKV hi hc).1
              generalize hx0 : leafKV (t.bd, i) = x at hx
              have hform : x.1.take (t.bd + 1) <+: str (r ++ R) ++ t.pre ++ i.label :: v := by
                rw [← (w.leaf_key B hd e hx).2.1 g0]
                exact ⟨v, by simp⟩
              have hL : Leaf t0 x t.bd false := ⟨r ++ R, t, ip, i, iq, w, e, hx, rfl, g0⟩
              have hcmp := B.s_compare w hl e hc hx (str (r ++ R) ++ t.pre ++ i.label :: v) (t.bd + 1)
              rw [Option.bind_eq_some_iff] at hcmp
              obtain ⟨sp, k1, k2⟩ := hcmp
              rw [k1]
              simp only [Option.bind_eq_bind, Option.bind_some]
              rw [k2]
              simp only [Option.bind_some]
              generalize hz : sufCmp cfg (cfg.suffix fp x.1 (t.bd + 1)) (str (r ++ R) ++ t.pre ++ i.label :: v) (t.bd + 1) = z
              by_cases hz0 : z < 0
              · rw [if_pos hz0]
                obtain ⟨it2, b1, b2⟩ := B.s_next bmi hR w e a2.toSPos a2.lev (a4.trans hst)
                rw [b1]
                refine ⟨_, _, rfl, _, cut_at w (ip := ip ++ [i]) (iq := iq) (by rw [e]; simp) hb ha ?_ hai, b2⟩
                intro j hj
                rw [List.mem_append, List.mem_singleton] at hj
                rcases hj with hj | rfl
                · exact hbi j hj
                · intro y hy
                  rw [hx, List.mem_singleton] at hy
                  subst hy
                  exact ⟨t.bd, false, hL, .inr (.inr ⟨rfl, hform, by rw [hz]; exact hz0⟩)⟩
              · rw [if_neg hz0]
                refine ⟨_, _, rfl, _, cut_at w e hb ha hbi ?_, .inl ⟨r, t, ip, i, iq, ⟨w, hR, e, hc, rfl, ?_, ⟨a2.toSPos.same rfl rfl rfl rfl, a2.lev, a2.buf⟩, a4.trans hst⟩, rfl⟩⟩
                · intro j hj
                  rw [List.mem_cons] at hj
                  rcases hj with rfl | hj
                  · intro y hy
                    rw [hx, List.mem_singleton] at hy
                    subst hy
                    exact ⟨t.bd, false, hL, .inr (.inr ⟨rfl, hform, by rw [hz]; omega⟩)⟩
                  · exact hai j hj
                · show it1.atTerminator = _
                  rw [a3, hk, g0]
            | true =>
              simp only [Bool.not_true, Bool.false_eq_true, if_false, Option.pure_def, Option.bind_some]
              rw [B.s_child w hl e hc]
              simp only [Option.bind_some]
              have w' := w.down e hc
              rw [B.s_first w' (by simp only [List.length_cons]; omega) bmi]
              simp only [Option.bind_some]
              have hdn := a2.down (iq := iq)
              refine ih (⟨t, ip, i, iq⟩ :: r) _ { it1 with level := it1.level + 1 } (by simp; omega) w' ⟨a2.sz.p, a2.sz.l, a2.sz.d⟩ hdn.1 (by simp [a2.lev]) hdn.2 (a3.trans hk) (a4.trans hst) ?_ ?_ ?_
              · exact ⟨v, by simp [str]⟩
              · intro x hx
                simp only [List.cons_append, before] at hx
                rw [List.mem_append, List.mem_flatMap] at hx
                rcases hx with hx | ⟨j, hj, hx⟩
                · exact hb x hx
                · exact hbi j hj x hx
              · intro x hx
                simp only [List.cons_append, after] at hx
                rw [List.mem_append, List.mem_flatMap] at hx
                rcases hx with ⟨j, hj, hx⟩ | hx
                · exact hai j hj x hx
                · exact ha x hx
    · rw [if_neg (by omega), if_pos (.inr c2)]
      exact hstay c3

/-- **Seek.** The iterator goes to the first pair that is not passed over. -/
theorem Built.i_seek (B : Built cfg fp s t0 cut h) (bmi : Bool) (hd : t0.d = 0) (q : Bytes) (hns : Clear t0 cut q) {it : Iterator} (hr : Ready cut h it) :
    ∃ it' fl b, it.seek bmi s q = some (it', fl) ∧ Cut cfg fp t0 q b ∧ ((b = t0.kvs ∧ Done cut h it') ∨ ∃ y, At t0 cut h it' b y) := by
  unfold Iterator.seek
  rw [B.hs, B.ht, if_neg (by have := B.lt; omega)]
  obtain ⟨d1, fl, a1, a2⟩ := B.d_seek hd q (it := it.reset.d) hr.p hr.l rfl rfl
  rw [a1]
  simp only [Option.bind_eq_bind, Option.bind_some]
  rcases a2 with ⟨P, a2, a3⟩ | ⟨R, T, a2, a3, a4, a5⟩
  · obtain ⟨it', c1, c2⟩ := B.incr bmi (it := { it.reset with d := d1 }) a2 (.inl hr.clean)
    refine ⟨it', fl, P.1, ?_, a3, c2⟩
    rcases a2 with ⟨r, t, ip, i, iq, h1, -⟩ | ⟨R, T, h1, h2, -⟩ | ⟨⟨h1, -⟩, -⟩
    · rw [if_pos (by simp [DenseIter.isComplete, h1.valid, h1.comp])]
      simp only [h1.valid, h1.comp.2.1, Bool.not_true, Bool.false_eq_true, if_false, if_true] at c1
      rw [Option.some.injEq] at c1
      rw [c1]
      rfl
    · rw [if_neg (by simp [DenseIter.isComplete, h1.valid, h1.comp]), if_neg (by simp [h1.comp]), if_pos (by simp [h1.comp])]
      simp only [h1.valid, h1.comp.2.1, Bool.not_true, Bool.false_eq_true, if_false, if_true] at c1
      rw [c1]
      rfl
    · rw [if_pos (by simp [h1])]
      simp only [h1, Bool.not_false, if_true] at c1
      rw [Option.some.injEq] at c1
      rw [c1]
      rfl
  · rw [if_neg (by simp [DenseIter.isComplete, a2.valid, a2.comp]), if_pos (by simp [a2.comp])]
    have hcl := hr.clean
    have hloop := B.s_seekLoop bmi hd a2.len q hns (h - cut) [] T { it.reset.s with startNodeID := d1.sendOutNodeID, startDepth := d1.sendOutDepth, level := 0 } (by simp) a2.way ⟨hcl.sz.p, hcl.sz.l, hcl.sz.d⟩ trivial rfl rfl rfl a2.depth a3 a4 a5
    obtain ⟨s1, fl1, b1, P, b2, b3⟩ := hloop
    have hseek : SparseIter.seek bmi s.ls { it.reset.s with startNodeID := d1.sendOutNodeID, startDepth := d1.sendOutDepth } q = some (s1, fl1) := by
      unfold SparseIter.seek LoudsSparse.sparseLevels
      simp only [B.hs, B.start, a2.node, Option.bind_eq_bind]
      rw [B.s_first a2.way (by rw [a2.len]) bmi]
      simp only [Option.bind_some, a2.depth]
      rw [← b1, ← a2.way.str_len B.root hd, a2.node, a2.depth]
      rfl
    unfold Iterator.passToSparse
    simp only
    rw [hseek]
    simp only [Option.bind_some]
    rcases b3 with ⟨r, t, ip, i, iq, c1, c2⟩ | ⟨c1, T', w', rfl⟩
    · rw [c1.valid]
      simp only [Bool.not_true, Bool.false_eq_true, if_false]
      have hst : Stand t0 cut h ⟨d1, s1⟩ (r ++ R) t ip i iq := .inr ⟨R, r, T, _, _, _, rfl, a2, rfl, fun _ => ⟨rfl, rfl⟩, c1⟩
      obtain ⟨y, hy⟩ := hst.kv B
      exact ⟨_, _, P, rfl, b2, .inr ⟨y, _, _, _, _, _, hst, c2, hy⟩⟩
    · have eT := w'.inj a2.way
      subst eT
      rw [c1.valid]
      simp only [Bool.not_false, if_true]
      unfold Iterator.incrDense
      rw [a2.valid]
      simp only [Bool.not_true, Bool.false_eq_true, if_false]
      by_cases hc : cut = 0
      · unfold DenseIter.next
        rw [B.ht, if_pos hc]
        simp only [Option.bind_eq_bind, Option.bind_some, a2.valid, a2.comp.2.1, Bool.not_true, Bool.false_eq_true, if_false, if_true]
        have hR : R = [] := List.eq_nil_of_length_eq_zero (by rw [a2.len, hc])
        have hT : T' = t0 := by
          have := a2.way
          rw [hR] at this
          cases this
          rfl
        refine ⟨_, _, _, rfl, b2, .inl ⟨?_, ⟨a2.szp, a2.szl, c1.sz⟩, c1.valid, .inr ⟨hc, a2.valid, a2.comp.1, a2.comp.2.1, a2.comp.2.2⟩⟩⟩
        rw [hR, hT]
        rfl
      · obtain ⟨d', e1, e2⟩ := B.d_next_send a2 (by omega)
        rw [e1]
        simp only [Option.bind_eq_bind, Option.bind_some]
        obtain ⟨it', f1, f2⟩ := B.incr bmi (it := { d := d', s := s1 }) e2 (.inl c1)
        simp only [Option.pure_def] at f1 ⊢
        rw [f1]
        exact ⟨_, _, _, rfl, b2, f2⟩

end

end Surf
