import Verif.Surf.SeekSpec

/-!
# Seek in the dense part
-/

set_option linter.unusedSimpArgs false

namespace Surf

section
variable {cfg : Config} {fp : Bytes → Word} {s : SuRF} {t0 t : Grp} {cut h : Nat} {R r W : List Frame} {ip iq : List Item} {i : Item}

/-- The pairs `b` are those passed over by a search for `q`. -/
def Cut (cfg : Config) (fp : Bytes → Word) (t0 : Grp) (q : Bytes) (b : List KV) : Prop :=
  (∀ x ∈ b, Passed cfg fp t0 q x) ∧ ∃ c, t0.kvs = b ++ c ∧ ∀ x ∈ c, Stays cfg fp t0 q x

theorem cut_at {q : Bytes} (w : Way t0 W t) (e : t.items = ip ++ iq) (hb : ∀ x ∈ before W, Passed cfg fp t0 q x) (ha : ∀ x ∈ after W, Stays cfg fp t0 q x)
    (h1 : ∀ i ∈ ip, ∀ x ∈ i.kvs, Passed cfg fp t0 q x) (h2 : ∀ i ∈ iq, ∀ x ∈ i.kvs, Stays cfg fp t0 q x) : Cut cfg fp t0 q (sbef W ip) := by
  refine ⟨?_, _, sbef_kvs w e, ?_⟩
  · intro x hx
    unfold sbef at hx
    rw [List.mem_append, List.mem_flatMap] at hx
    rcases hx with hx | ⟨i, hi, hx⟩
    · exact hb x hx
    · exact h1 i hi x hx
  · intro x hx
    rw [List.mem_append, List.mem_flatMap] at hx
    rcases hx with ⟨i, hi, hx⟩ | hx
    · exact h2 i hi x hx
    · exact ha x hx

/-- The items of a node, by how their labels compare with a byte. -/
theorem label_cases (ht : t.OK) (c : UInt8) :
    (∃ ip iq, t.items = ip ++ iq ∧ (∀ i ∈ ip, i.term = false → i.label < c) ∧ ∀ i ∈ iq, i.term = false ∧ c < i.label) ∨
    (∃ ip i iq, t.items = ip ++ i :: iq ∧ i.term = false ∧ i.label = c ∧ (∀ j ∈ ip, j.term = false → j.label < c) ∧ ∀ j ∈ iq, j.term = false ∧ c < j.label) := by
  have key : ∀ (b a : List Item), t.items = a ++ b → (∀ i ∈ a, i.term = false → i.label < c) →
      (∃ ip iq, t.items = ip ++ iq ∧ (∀ i ∈ ip, i.term = false → i.label < c) ∧ ∀ i ∈ iq, i.term = false ∧ c < i.label) ∨
      (∃ ip i iq, t.items = ip ++ i :: iq ∧ i.term = false ∧ i.label = c ∧ (∀ j ∈ ip, j.term = false → j.label < c) ∧ ∀ j ∈ iq, j.term = false ∧ c < j.label) := by
    intro b
    induction b with
    | nil =>
      intro a e ha
      exact .inl ⟨a, [], e, ha, by simp⟩
    | cons i b ih =>
      intro a e ha
      by_cases h1 : i.term = false → i.label < c
      · refine ih (a ++ [i]) (by rw [e]; simp) ?_
        intro j hj
        rw [List.mem_append, List.mem_singleton] at hj
        rcases hj with hj | rfl
        · exact ha j hj
        · exact h1
      · push Not at h1
        obtain ⟨h1, h2⟩ := h1
        by_cases h3 : i.label = c
        · refine .inr ⟨a, i, b, e, h1, h3, ha, fun j hj => ?_⟩
          have := sorted_after ht e j hj
          refine ⟨this.1, ?_⟩
          rw [← h3, UInt8.lt_iff_toNat_lt]
          exact this.2 h1
        · refine .inl ⟨a, i :: b, e, ha, fun j hj => ?_⟩
          have h4 : c < i.label := by
            rw [UInt8.lt_iff_toNat_lt]
            have : i.label.toNat ≠ c.toNat := fun hc => h3 (UInt8.toNat_inj.mp hc)
            rw [UInt8.lt_iff_toNat_lt] at h2
            omega
          rw [List.mem_cons] at hj
          rcases hj with rfl | hj
          · exact ⟨h1, h4⟩
          · have := sorted_after ht e j hj
            refine ⟨this.1, ?_⟩
            have := this.2 h1
            rw [UInt8.lt_iff_toNat_lt] at *
            omega
  exact key t.items [] rfl (by simp)

/-- What the dense part of `Seek` comes to. -/
def DSeek (cfg : Config) (fp : Bytes → Word) (t0 : Grp) (cut : Nat) (q : Bytes) (it : DenseIter) : Prop :=
  (∃ P, DNext t0 cut it P ∧ Cut cfg fp t0 q P.1) ∨
  (∃ R T, DSend t0 cut it R T false true true ∧ str R <+: q ∧ (∀ x ∈ before R, Passed cfg fp t0 q x) ∧ ∀ x ∈ after R, Stays cfg fp t0 q x)

/-- `Seek` stops before the first key of a node. -/
theorem Built.d_seekFirst (B : Built cfg fp s t0 cut h) {it : DenseIter} (w : Way t0 r t) (hl : r.length < cut) (h1 : it.posInTrie.length = cut) (h2 : it.prefixLen.length = cut)
    (hon : DOn t0 it.posInTrie it.prefixLen r) (hlev : it.level = r.length) (hbuf : it.keyBuf = str r) (hk : it.atPrefixKey = false) (eq : Bool) :
    ∃ it', it.seekFirst s.ld (num t0 r) eq = some (it', eq) ∧ DNext t0 cut it' (cur cut r t.bd []) := by
  have hg := w.good B.root
  obtain ⟨jp, j, jq, ej, hj, hjp, hcase⟩ : ∃ jp j jq, t.items = jp ++ j :: jq ∧ j.term = false ∧ (∀ x ∈ jp, x.term = true) ∧
      ((t.hasEnd = false ∧ jp = []) ∨ (t.hasEnd = true ∧ ∃ z, jp = [z] ∧ z.term = true ∧ z.child = false)) := by
    rcases hg.toOK.endItem_cases with ⟨h1, -⟩ | ⟨h1, z, js, h2, h3, h4, -⟩
    · cases hit : t.items with
      | nil => exact absurd hit hg.toOK.items_ne
      | cons j jq => exact ⟨[], j, jq, rfl, hasEnd_false h1 j (by rw [hit]; simp), by simp, Or.inl ⟨h1, rfl⟩⟩
    · obtain ⟨j, jq, rfl, hj⟩ := hg.end_two h2 h3
      exact ⟨[z], j, jq, h2, hj, by simp [h3], Or.inr ⟨h1, z, rfl, h3, h4⟩⟩
  have happ : ∃ it', (if num t0 r * 256 > 0 then (s.ld.nextPos (num t0 r * 256 - 1)).bind (it.append s.ld) else it.setToFirstInRoot s.ld) = some it' ∧
      DAt t0 cut it' r t j.label.toNat ∧ it'.atPrefixKey = it.atPrefixKey := by
    cases r with
    | nil =>
      have hn : num t0 [] = 0 := rfl
      cases w
      rw [hn, if_neg (by omega)]
      exact B.d_first (by simpa using hl) h1 h2 hlev hbuf ej hjp hj
    | cons f r =>
      have hpos := num_pos (t0 := t0) f r
      obtain ⟨pre, post, e1, e2, e3, hv, e4⟩ := B.d_at w hl
      have hne : pre ≠ [] := by
        rintro rfl
        simp at e2
        omega
      have hnx := hv.next_first hne ej hj hjp (fun x hx hxt => (sorted_after hg.toOK ej x hx).2 hj)
      rw [e2] at hnx
      rw [if_pos (by omega), hnx]
      exact B.d_append w hl h1 h2 hon hlev hbuf j.label.toNat_lt
  obtain ⟨it', a1, a2, a3⟩ := happ
  have hpush : ∀ f : DenseIter → Option (DenseIter × Bool),
      (if num t0 r * 256 > 0 then (s.ld.nextPos (num t0 r * 256 - 1)).bind (fun p => (it.append s.ld p).bind f) else (it.setToFirstInRoot s.ld).bind f) = f it' := by
    intro f
    have := congrArg (·.bind f) a1
    simp only [Option.bind_some] at this
    rw [← this]
    split <;> simp [Option.bind_assoc]
  unfold DenseIter.seekFirst
  simp only [show denseFanout = 256 from rfl, Option.bind_eq_bind]
  rw [hpush, B.d_end w hl]
  simp only [Option.bind_some, Option.pure_def]
  rw [hk] at a3
  rcases hcase with ⟨c1, rfl⟩ | ⟨c1, z, rfl, c2, c3⟩
  · obtain ⟨d', b1, b2⟩ := B.d_moveLeft w hl ej hj a2 a3
    rw [c1]
    simp only [Bool.false_eq_true, if_false]
    rw [b1]
    exact ⟨_, rfl, b2⟩
  · rw [c1]
    simp only [if_true]
    refine ⟨_, rfl, Or.inl ⟨_, _, [], z, j :: jq, ⟨w, hl, ej, c3, rfl, ⟨rfl, rfl, rfl⟩, Or.inr ⟨c2, rfl, j, jq, rfl, ?_⟩⟩, rfl⟩⟩
    exact ⟨⟨a2.szp, a2.szl, a2.on, a2.pos, a2.len, a2.key⟩, a2.lev, a2.buf⟩

/-- The comparison of the suffix of a leaf of the dense part. -/
theorem Built.d_compare (B : Built cfg fp s t0 cut h) (w : Way t0 r t) (hl : r.length < cut) (e : t.items = ip ++ i :: iq) (hc : i.child = false) {x : KV} (hx : i.kvs = [x])
    {p : Nat} {b : Bool} (hp : ∀ pre post, pre.length = num t0 r → (∀ x ∈ pre, x.OK) → DView cfg fp s.ld (pre ++ t :: post) → s.ld.suffixPos p b = some ((lvs pre).length + leafN ip)) (q : Bytes) (level : Nat) :
    (s.ld.suffixPos p b).bind (fun sp => s.ld.suffixes.compare q sp level) = some (sufCmp cfg (cfg.suffix fp x.1 (t.bd + 1)) q level) := by
  obtain ⟨pre, post, e1, e2, e3, hv, -⟩ := B.d_at w hl
  obtain ⟨X, Y, f1, f2⟩ := lvs_split (pre := pre) (post := post) e hc
  have hsv := hv.suf
  rw [f1, List.map_append, List.map_cons] at hsv
  have := SV.compare B.cfgok hsv (leafWord_high B.cfgok _) q level
  rw [List.length_map] at this
  rw [hp pre post e2 e3 hv, ← f2]
  simp only [Option.bind_some]
  rw [this]
  simp [leafWord, leafKV, hx]

/-- The loop of `Seek`. -/
theorem Built.d_seekLoop (B : Built cfg fp s t0 cut h) (hd : t0.d = 0) (q : Bytes) : ∀ (n : Nat) (r : List Frame) (t : Grp) (it : DenseIter), r.length + n = cut → Way t0 r t →
    it.posInTrie.length = cut → it.prefixLen.length = cut → DOn t0 it.posInTrie it.prefixLen r → it.level = r.length → it.keyBuf = str r → it.atPrefixKey = false →
    str r <+: q → (∀ x ∈ before r, Passed cfg fp t0 q x) → (∀ x ∈ after r, Stays cfg fp t0 q x) →
    ∃ it' fl, DenseIter.seekLoop s.ld q n it t.d (num t0 r) = some (it', fl) ∧ DSeek cfg fp t0 cut q it' := by
  intro n
  induction n with
  | zero =>
    intro r t it hn w h1 h2 hon hlev hbuf hk hq hb ha
    refine ⟨_, _, rfl, .inr ⟨r, t, ⟨w, by omega, h1, h2, rfl, ⟨rfl, rfl, rfl⟩, hon, fun h0 => ?_, rfl, ?_, hbuf, hk⟩, hq, hb, ha⟩⟩
    · show dec32 it.level = _
      unfold dec32
      rw [if_neg (by omega)]
      omega
    · exact (w.str_len B.root hd).symm
  | succ n ih =>
    intro r t it hn w h1 h2 hon hlev hbuf hk hq hb ha
    have hl : r.length < cut := by omega
    have hg := w.good B.root
    have hsl := w.str_len B.root hd
    obtain ⟨cmp, c1, c2⟩ := prefixCmp_of hq t.pre
    rw [hsl] at c1
    rw [DenseIter.seekLoop, B.d_pre w hl]
    simp only [Option.bind_eq_bind, Option.bind_some]
    rw [c1]
    simp only [Option.bind_some]
    have hstay : (Div q (str r ++ t.pre) ∨ q <+: str r ++ t.pre) → ∃ it' fl, it.seekFirst s.ld (num t0 r) (cmp == 0) = some (it', fl) ∧ DSeek cfg fp t0 cut q it' := by
      intro hs
      obtain ⟨it', a1, a2⟩ := B.d_seekFirst w hl h1 h2 hon hlev hbuf hk (cmp == 0)
      refine ⟨it', _, a1, .inl ⟨_, a2, ?_⟩⟩
      refine cut_at w (ip := []) (iq := t.items) rfl hb ha (by simp) (fun i hi x hx => B.stays_node hd w hs x ?_)
      rw [← t.items_flat]
      exact List.mem_flatMap.mpr ⟨i, hi, hx⟩
    have hpl := hg.toOK.pre_length.2
    have hbl := w.bd_len B.root hd
    rcases c2 with ⟨c2, c3⟩ | ⟨c2, c3⟩ | ⟨c2, c3⟩
    · rw [if_pos c2]
      have hp := B.passed_node hd w c3
      cases w with
      | nil =>
        rw [if_pos (show num t0 [] = 0 from rfl)]
        refine ⟨_, _, rfl, .inl ⟨(t0.kvs, []), .inr (.inr ⟨⟨rfl, h1, h2⟩, rfl⟩), hp, [], by simp, by simp⟩⟩
      | @cons r f w' e hc =>
        have hpos := num_pos (t0 := t0) f r
        rw [if_neg (by omega)]
        simp only [List.length_cons] at hl hlev
        have hlev' : dec32 it.level = r.length := by
          unfold dec32
          rw [if_neg (by omega)]
          omega
        have hg' := (w'.good B.root).toOK
        have hft := child_nonterm hg' (by rw [e]; simp) hc
        obtain ⟨o1, o2, o3⟩ := hon
        obtain ⟨it', a1, a2⟩ := B.d_next (it := { it with level := dec32 it.level }) w' (by omega) (ip := f.ip ++ [f.i]) (iq := f.iq) (by rw [e]; simp) f.i.label.toNat_lt
          (fun x hx hxt => by
            rw [List.mem_append, List.mem_singleton] at hx
            rcases hx with hx | rfl
            · exact Nat.le_of_lt (sorted_before hg' e x hx hxt)
            · exact Nat.le_refl _)
          (fun x hx => ⟨(sorted_after hg' e x hx).1, (sorted_after hg' e x hx).2 hft⟩)
          ⟨h1, h2, o1, o2, by show it.prefixLen[r.length]? = _; rw [o3]; simp [str]; omega,
            by show _ <+: it.keyBuf; rw [hbuf]; simp [str]⟩ hlev' hk
        rw [a1]
        refine ⟨_, _, rfl, .inl ⟨_, a2, ?_⟩⟩
        refine cut_at w' (ip := f.ip ++ [f.i]) (iq := f.iq) (by rw [e]; simp) (fun x hx => hb x (by simp [before, hx])) (fun x hx => ha x (by simp [after, hx])) ?_ ?_
        · intro i hi x hx
          rw [List.mem_append, List.mem_singleton] at hi
          rcases hi with hi | rfl
          · exact hb x (by unfold before; exact List.mem_append_right _ (List.mem_flatMap.mpr ⟨i, hi, hx⟩))
          · exact hp x hx
        · intro i hi x hx
          exact ha x (by unfold after; exact List.mem_append_left _ (List.mem_flatMap.mpr ⟨i, hi, hx⟩))
    · rw [if_neg (by omega)]
      by_cases hlen : t.d + t.pre.length ≥ q.length
      · rw [if_pos (.inl hlen)]
        apply hstay
        right
        have : str r ++ t.pre = q := c3.eq_of_length_le (by rw [hbl]; omega)
        rw [this]
        exact List.prefix_rfl
      · rw [if_neg (by simp only [not_or]; exact ⟨hlen, by omega⟩), hpl]
        obtain ⟨v, rfl⟩ := c3
        cases v with
        | nil => rw [List.append_nil, hbl] at hlen; omega
        | cons c v =>
          have hqc : (str r ++ t.pre ++ c :: v)[t.bd]? = some c := by
            rw [List.getElem?_append_right (by omega), hbl]
            simp
          have hclt : c.toNat < 256 := c.toNat_lt
          obtain ⟨it1, a1, a2, a3⟩ := B.d_append w hl h1 h2 hon hlev hbuf hclt
          rw [hk] at a3
          unfold DenseIter.seekLabel
          rw [hqc]
          simp only [Option.bind_eq_bind, Option.bind_some, show denseFanout = 256 from rfl]
          rw [a1]
          simp only [Option.bind_some]
          rw [B.d_label w hl hclt]
          simp only [Option.bind_some]
          rcases label_cases hg.toOK c with ⟨ip, iq, e, g1, g2⟩ | ⟨ip, i, iq, e, g0, rfl, g1, g2⟩
          · have hany : (t.items.any fun i => !i.term && i.label.toNat == c.toNat) = false := by
              rw [List.any_eq_false]
              intro j hj
              simp only [Bool.and_eq_true, Bool.not_eq_true', beq_iff_eq, not_and]
              intro hjt
              rw [e, List.mem_append] at hj
              rcases hj with hj | hj
              · have := g1 j hj hjt
                rw [UInt8.lt_iff_toNat_lt] at this
                omega
              · have := (g2 j hj).2
                rw [UInt8.lt_iff_toNat_lt] at this
                omega
            rw [hany]
            simp only [Bool.not_false, if_true]
            obtain ⟨it', b1, b2⟩ := B.d_next w hl e hclt (fun j hj hjt => by have := g1 j hj hjt; rw [UInt8.lt_iff_toNat_lt] at this; omega)
              (fun j hj => ⟨(g2 j hj).1, by have := (g2 j hj).2; rwa [UInt8.lt_iff_toNat_lt] at this⟩) a2.toDPos a2.lev a3
            rw [b1]
            refine ⟨_, _, rfl, .inl ⟨_, b2, cut_at w e hb ha ?_ ?_⟩⟩
            · intro j hj
              exact B.passed_item hd w (by rw [e]; simp [hj]) (g1 j hj)
            · intro j hj
              exact B.stays_item hd w (by rw [e]; simp [hj]) (g2 j hj).1 (g2 j hj).2
          · have hi : i ∈ t.items := by rw [e]; simp
            have hany : (t.items.any fun j => !j.term && j.label.toNat == i.label.toNat) = true := by
              rw [List.any_eq_true]
              exact ⟨i, hi, by simp [g0]⟩
            rw [hany]
            simp only [Bool.not_true, Bool.false_eq_true, if_false]
            rw [B.d_hasChild w hl e g0]
            simp only [Option.bind_some]
            have hbi : ∀ j ∈ ip, ∀ x ∈ j.kvs, Passed cfg fp t0 (str r ++ t.pre ++ i.label :: v) x := fun j hj => B.passed_item hd w (by rw [e]; simp [hj]) (g1 j hj)
            have hai : ∀ j ∈ iq, ∀ x ∈ j.kvs, Stays cfg fp t0 (str r ++ t.pre ++ i.label :: v) x := fun j hj => B.stays_item hd w (by rw [e]; simp [hj]) (g2 j hj).1 (g2 j hj).2
            cases hc : i.child with
            | false =>
              simp only [Bool.not_false, if_true]
              unfold DenseIter.compareSuffixGreaterThan
              have hx := (hg.toOK.leafKV hi hc).1
              generalize hx0 : leafKV (t.bd, i) = x at hx
              have hform : x.1.take (t.bd + 1) <+: str r ++ t.pre ++ i.label :: v := by
                rw [← (w.leaf_key B hd e hx).2.1 g0]
                exact ⟨v, by simp⟩
              have hL : Leaf t0 x t.bd false := ⟨r, t, ip, i, iq, w, e, hx, rfl, g0⟩
              have hcmp := B.d_compare w hl e hc hx (p := num t0 r * 256 + i.label.toNat) (b := false) (fun pre post y1 y2 y3 => by rw [← y1]; exact y3.leafPos y2 hg.toOK e g0 hc) (str r ++ t.pre ++ i.label :: v) (t.bd + 1)
              rw [Option.bind_eq_some_iff] at hcmp
              obtain ⟨sp, k1, k2⟩ := hcmp
              rw [k1]
              simp only [Option.bind_eq_bind, Option.bind_some]
              rw [k2]
              simp only [Option.bind_some]
              generalize hz : sufCmp cfg (cfg.suffix fp x.1 (t.bd + 1)) (str r ++ t.pre ++ i.label :: v) (t.bd + 1) = z
              by_cases hz0 : z < 0
              · rw [if_pos hz0]
                obtain ⟨it', b1, b2⟩ := B.d_next w hl (ip := ip ++ [i]) (iq := iq) (by rw [e]; simp) hclt
                  (fun j hj hjt => by
                    rw [List.mem_append, List.mem_singleton] at hj
                    rcases hj with hj | rfl
                    · have := g1 j hj hjt
                      rw [UInt8.lt_iff_toNat_lt] at this
                      omega
                    · exact Nat.le_refl _)
                  (fun j hj => ⟨(g2 j hj).1, by have := (g2 j hj).2; rwa [UInt8.lt_iff_toNat_lt] at this⟩) a2.toDPos a2.lev a3
                rw [b1]
                refine ⟨_, _, rfl, .inl ⟨_, b2, cut_at w (ip := ip ++ [i]) (iq := iq) (by rw [e]; simp) hb ha ?_ hai⟩⟩
                intro j hj
                rw [List.mem_append, List.mem_singleton] at hj
                rcases hj with hj | rfl
                · exact hbi j hj
                · intro y hy
                  rw [hx, List.mem_singleton] at hy
                  subst hy
                  exact ⟨t.bd, false, hL, .inr (.inr ⟨rfl, hform, by rw [hz]; exact hz0⟩)⟩
              · rw [if_neg hz0]
                refine ⟨_, _, rfl, .inl ⟨_, .inl ⟨r, t, ip, i, iq, Built.d_leaf w hl e g0 hc a2 a3, rfl⟩, cut_at w e hb ha hbi ?_⟩⟩
                intro j hj
                rw [List.mem_cons] at hj
                rcases hj with rfl | hj
                · intro y hy
                  rw [hx, List.mem_singleton] at hy
                  subst hy
                  exact ⟨t.bd, false, hL, .inr (.inr ⟨rfl, hform, by rw [hz]; omega⟩)⟩
                · exact hai j hj
            | true =>
              simp only [Bool.not_true, Bool.false_eq_true, if_false, Option.pure_def, Option.bind_some]
              rw [B.d_child w hl e hc]
              simp only [Option.bind_some]
              have hdn := a2.down (ip := ip) (iq := iq)
              refine ih (⟨t, ip, i, iq⟩ :: r) _ { it1 with level := it1.level + 1 } (by simp; omega) (w.down e hc) a2.szp a2.szl hdn.1 (by simp [a2.lev]) hdn.2 a3 ?_ ?_ ?_
              · exact ⟨v, by simp [str]⟩
              · intro x hx
                simp only [before] at hx
                rw [List.mem_append, List.mem_flatMap] at hx
                rcases hx with hx | ⟨j, hj, hx⟩
                · exact hb x hx
                · exact hbi j hj x hx
              · intro x hx
                simp only [after] at hx
                rw [List.mem_append, List.mem_flatMap] at hx
                rcases hx with ⟨j, hj, hx⟩ | hx
                · exact hai j hj x hx
                · exact ha x hx
    · rw [if_neg (by omega), if_pos (.inr c2)]
      exact hstay c3

theorem Built.d_seek (B : Built cfg fp s t0 cut h) (hd : t0.d = 0) (q : Bytes) {it : DenseIter} (h1 : it.posInTrie.length = cut) (h2 : it.prefixLen.length = cut) (hbuf : it.keyBuf = []) (hk : it.atPrefixKey = false) :
    ∃ it' fl, it.seek s.ld q = some (it', fl) ∧ DSeek cfg fp t0 cut q it' := by
  have := B.d_seekLoop hd q cut [] t0 { it with level := 0 } (by simp) .nil h1 h2 trivial rfl hbuf hk (List.nil_prefix) (by simp [before]) (by simp [after])
  unfold DenseIter.seek
  rw [B.ht]
  rw [hd] at this
  exact this

end

end Surf
