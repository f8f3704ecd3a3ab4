import Verif.Art.Absent
import Verif.Props.ArtSeq

/-!
# Properties C60 and C61: which `Delete` calls never return, and what shapes the tree

Both are said in terms of the stored keys alone: `Parts m p` says that keys stored in the map `m` part after the bytes `p` (`Art/Absent.lean`).
-/

set_option linter.unusedSimpArgs false

namespace Art.Props

open Surf Spec

/-! ## C60 -/

/-- The position `i` of the stored key `l` is compared on the way down to it: it is a place where keys part, or one of the eight bytes behind such a place. -/
def Compared (m : Map) (l : Bytes) (i : Nat) : Prop := ∃ p, Parts m p ∧ p <+: l ∧ p.length ≤ i ∧ i ≤ p.length + 8

/-- The stored key `l` is taken for `k`: it is no prefix of another stored key, and `k` goes on behind every place where `l` parts from other stored keys and agrees with `l` in
the compared positions up to there. -/
def TakenFor (m : Map) (k l : Bytes) : Prop :=
  m l ≠ none ∧ (∀ l', m l' ≠ none → l <+: l' → l' = l) ∧
  ∀ p, Parts m p → p <+: l → p.length < k.length ∧ ∀ i, i ≤ p.length → Compared m l i → k[i]? = l[i]?

theorem takenFor_iff {m : Map} {k l : Bytes} : TakenFrom m k 0 l ↔ TakenFor m k l := by
  unfold TakenFrom TakenFor Compared
  constructor
  · rintro ⟨h1, h2, h3⟩
    exact ⟨h1, h2, fun p hp hpl => ⟨(h3 p hp hpl (Nat.zero_le _)).1, fun i hi => (h3 p hp hpl (Nat.zero_le _)).2 i (Nat.zero_le _) hi⟩⟩
  · rintro ⟨h1, h2, h3⟩
    exact ⟨h1, h2, fun p hp hpl _ => ⟨(h3 p hp hpl).1, fun i _ hi => (h3 p hp hpl).2 i hi⟩⟩

/-- **C60**: a `Delete` of a key that is not there, running alone, never returns if some stored key is taken for it; otherwise it returns, and leaves everything as it is. -/
theorem C60_delete {cs : List (Call × Option Bytes)} {h : Heap} (hh : History cs h) {k : Bytes} (hk : mapOf cs k = none) :
    ((∃ l, TakenFor (mapOf cs) k l) → ∀ rf fuel, (delete k fuel).run rf h = .diverge) ∧
    ((¬ ∃ l, TakenFor (mapOf cs) k l) → ∀ rf, ∃ N, ∀ fuel ≥ N, (delete k fuel).run rf h = .done () h) := by
  have hs := history_seq hh
  have hiff : (∃ l, TakenFor (mapOf cs) k l) ↔ ∃ l, TakenFrom (mapOf cs) k 0 l := exists_congr fun l => takenFor_iff.symm
  rw [hiff]
  exact ⟨fun hl rf => (run_delete_exact hs hk).1 hl, fun hl rf => (run_delete_exact hs hk).2 hl⟩

/-- So the call returns exactly if no stored key is taken for the key. -/
theorem C60_returns {cs : List (Call × Option Bytes)} {h : Heap} (hh : History cs h) {k : Bytes} (hk : mapOf cs k = none) :
    (∃ o h', (Call.delete k).Returns h o h') ↔ ¬ ∃ l, TakenFor (mapOf cs) k l := by
  obtain ⟨h1, h2⟩ := C60_delete hh hk
  constructor
  · rintro ⟨o, h', rf, fuel, hr⟩ hl
    rw [Call.prog, run_bind, h1 hl] at hr
    simp [Out.andThen] at hr
  · intro hl
    obtain ⟨N, hN⟩ := h2 hl true
    refine ⟨none, h, true, N, ?_⟩
    rw [Call.prog, run_bind, hN N (Nat.le_refl _)]
    rfl

/-- If no stored key begins with the first byte of the key, the call returns. -/
theorem C60_first {cs : List (Call × Option Bytes)} {h : Heap} (hh : History cs h) {k : Bytes} (hk : mapOf cs k = none)
    (hf : ∀ l, mapOf cs l ≠ none → l.head? ≠ k.head?) : ∃ o h', (Call.delete k).Returns h o h' := by
  rw [C60_returns hh hk]
  rintro ⟨l, h1, h2, h3⟩
  obtain ⟨h4, h5⟩ := h3 [] (.inl rfl) List.nil_prefix
  have := h5 0 (Nat.le_refl _) ⟨[], .inl rfl, List.nil_prefix, Nat.le_refl _, by simp⟩
  apply hf l h1
  rw [List.head?_eq_getElem?, List.head?_eq_getElem?, this]

/-- With a single stored key, the call does not return exactly if the two keys begin with the same byte. -/
theorem C60_single {cs : List (Call × Option Bytes)} {h : Heap} (hh : History cs h) {k l : Bytes} (hl : ∀ K, mapOf cs K ≠ none ↔ K = l) (hne : k ≠ l) :
    (∃ o h', (Call.delete k).Returns h o h') ↔ ¬ (k ≠ [] ∧ k.head? = l.head?) := by
  have hk : mapOf cs k = none := by
    by_contra hc
    exact hne ((hl k).mp hc)
  have hparts : ∀ p, Parts (mapOf cs) p ↔ p = [] := by
    intro p
    constructor
    · rintro (rfl | ⟨K, K', h1, h2, h3, -⟩)
      · rfl
      · exact absurd (((hl K).mp h1).trans ((hl K').mp h2).symm) h3
    · rintro rfl
      exact .inl rfl
  rw [C60_returns hh hk]
  apply not_congr
  constructor
  · rintro ⟨l', h1, h2, h3⟩
    rw [hl] at h1
    subst h1
    obtain ⟨h4, h5⟩ := h3 [] (.inl rfl) List.nil_prefix
    have := h5 0 (Nat.le_refl _) ⟨[], .inl rfl, List.nil_prefix, Nat.le_refl _, by simp⟩
    refine ⟨by rintro rfl; simp at h4, ?_⟩
    rw [List.head?_eq_getElem?, List.head?_eq_getElem?, this]
  · rintro ⟨h1, h2⟩
    refine ⟨l, (hl l).mpr rfl, fun l' h3 _ => (hl l').mp h3, ?_⟩
    intro p hp _
    rw [hparts] at hp
    subst hp
    refine ⟨List.length_pos_iff.mpr h1, ?_⟩
    rintro i hi -
    have : i = 0 := by simpa using hi
    subst this
    rw [← List.head?_eq_getElem?, ← List.head?_eq_getElem?, h2]

/-! ## C61 -/

section
variable {E : Addr → Bytes} {live : Addr → Prop} {h : Heap} {root : Addr} {m : Map}

theorem inTree_live (ht : HTr E live h root m) {a : Addr} (ha : InTree h a) : live a := by
  induction ha with
  | root h1 h2 =>
    obtain ⟨d, g1, g2⟩ := ht.dummy
    rw [h1] at g1
    cases g1
    rw [h2] at g2
    cases g2
    exact ht.tree.root_live
  | child _ h1 h2 ih => exact (ht.child_node ih h1 h2).1

theorem live_inTree (ht : HTr E live h root m) : ∀ (k : Nat) {a : Addr}, live a → (E a).length ≤ k → InTree h a := by
  intro k
  induction k with
  | zero =>
    intro a ha hk
    have : a = root := ht.tree.inj a root ha ht.tree.root_live (by rw [ht.tree.root_E]; exact List.length_eq_zero_iff.mp (by omega))
    obtain ⟨d, g1, g2⟩ := ht.dummy
    rw [this]
    exact .root g1 g2
  | succ k ih =>
    intro a ha hk
    by_cases hr : a = root
    · obtain ⟨d, g1, g2⟩ := ht.dummy
      rw [hr]
      exact .root g1 g2
    · obtain ⟨p, b, hp, hb⟩ := ht.tree.exists_parent ha hr
      obtain ⟨-, h2, -⟩ := ht.tree.child p b a hp hb
      have := h2.length_le
      rw [List.length_append, List.length_singleton] at this
      obtain ⟨n, hn, hv, -⟩ := ht.view_live hp
      rw [hv] at hb
      exact .child (ih hp (by omega)) hn hb

end

/-- The item of a node with the path `p` under the byte `b` is what the map `m` says. (`E` gives the paths of the nodes.) -/
def ItemIs (m : Map) (h : Heap) (E : Addr → Bytes) (p : Bytes) (b : UInt8) : Option Ref → Prop
  | none => ∀ K, p ++ [b] <+: K → m K = none
  | some (.leaf l) => p ++ [b] <+: l.key ∧ m l.key = some l.value ∧ ∀ K, p ++ [b] <+: K → m K ≠ none → K = l.key
  | some (.node c) => InTree h c ∧ p ++ [b] <+: E c ∧ (∀ K, p ++ [b] <+: K → m K ≠ none → E c <+: K) ∧
      ∃ n, h[c]? = some n ∧ n.prefixLen + p.length + 1 = (E c).length ∧ n.pre = Node.pad8 ((E c).drop (p.length + 1))

/-- Every inner node of the tree is at a place where keys of the map part, and at every such place there is one (`E` gives the places); and its prefix, its prefix leaf and what it has under
each byte follow from the map. -/
def HasShape (m : Map) (h : Heap) : Prop :=
  ∃ E : Addr → Bytes, (∀ p, Parts m p ↔ ∃ a, InTree h a ∧ E a = p) ∧ (∀ a a', InTree h a → InTree h a' → E a = E a' → a = a') ∧
    (∀ d r, h[0]? = some d → d.kids = .dummy (some (.node r)) → E r = [] ∧ ∃ n, h[r]? = some n ∧ n.prefixLen = 0 ∧ n.pre = Node.pad8 []) ∧
    ∀ a n, InTree h a → h[a]? = some n → m (E a) = n.prefixLeaf.map Leaf.value ∧ (∀ l, n.prefixLeaf = some l → l.key = E a) ∧ ∀ b, ItemIs m h E (E a) b (n.child b)

theorem hasShape {E : Addr → Bytes} {live : Addr → Prop} {h : Heap} {root : Addr} {m : Map} (ht : HTr E live h root m) : HasShape m h := by
  refine ⟨E, fun p => ⟨fun hp => ?_, ?_⟩, fun a a' ha ha' => ht.tree.inj a a' (inTree_live ht ha) (inTree_live ht ha'), ?_, ?_⟩
  · obtain ⟨a, ha, e⟩ := ht.node_at hp
    exact ⟨a, live_inTree ht _ ha (Nat.le_refl _), e⟩
  · rintro ⟨a, ha, rfl⟩
    exact ht.parts (inTree_live ht ha)
  · intro d r hd hk
    obtain ⟨d', g1, g2⟩ := ht.dummy
    rw [hd] at g1
    cases g1
    rw [hk] at g2
    cases g2
    obtain ⟨n, hn, -, hok⟩ := ht.view_live ht.tree.root_live
    have hle := hok.plen_le
    have hpre := hok.pre
    rw [ht.tree.root_E] at hle hpre
    refine ⟨ht.tree.root_E, n, hn, by simpa using hle, ?_⟩
    rw [hpre]
    simp
  · intro a n ha hn
    have hl := inTree_live ht ha
    have hv := view_eq hn
    have hlv := ht.tree.leaves a hl
    rw [hv] at hlv
    refine ⟨?_, hlv.pleaf, ?_⟩
    · have := ht.tree.lookup_end hl
      rw [hv] at this
      exact this
    · intro b
      cases hb : n.child b with
      | none => exact fun K hK => ht.tree.lookup_none hl hK (by rw [hv]; exact hb)
      | some r =>
        cases r with
        | leaf l =>
          refine ⟨hlv.leaf b l hb, ht.stored_value hl hn (Or.inr ⟨b, hb⟩), ?_⟩
          intro K hK hm
          have := ht.tree.lookup_leaf hl hK (by rw [hv]; exact hb)
          by_contra hne
          rw [if_neg (fun e => hne e.symm)] at this
          exact hm this
        | node c =>
          obtain ⟨h1, h2, h3, h4, nc, h5, h6⟩ := ht.child_node hl hn hb
          obtain ⟨n', g1, -, g2⟩ := ht.view_live h1
          rw [h5] at g1
          cases g1
          refine ⟨.child ha hn hb, h3, ?_, nc, h5, by omega, ?_⟩
          · intro K hK hm
            by_contra hcon
            exact hm (ht.tree.lookup_node hl hK (by rw [hv]; exact hb) hcon)
          · rw [g2.pre]
            congr 2
            omega

/-- **C61**: after any history, the shape of the tree follows from the stored keys. -/
theorem C61_shape {cs : List (Call × Option Bytes)} {h : Heap} (hh : History cs h) : HasShape (mapOf cs) h := by
  obtain ⟨E, live, ⟨root, ht⟩, hc⟩ := history_seq hh
  exact hasShape ht

/-- Two items agree, given which nodes belong together. -/
def Alike (R : Addr → Addr → Prop) : Option Ref → Option Ref → Prop
  | none, none => True
  | some (.leaf l), some (.leaf l') => l.key = l'.key ∧ l.value = l'.value
  | some (.node c), some (.node c') => R c c'
  | _, _ => False

/-- Two maps that agree part in the same places. -/
theorem item_alike {m : Map} {h h' : Heap} {E E' : Addr → Bytes} (hE : ∀ p, Parts m p ↔ ∃ a, InTree h a ∧ E a = p) (hE' : ∀ p, Parts m p ↔ ∃ a, InTree h' a ∧ E' a = p)
    {p : Bytes} {b : UInt8} {r r' : Option Ref} (h1 : ItemIs m h E p b r) (h2 : ItemIs m h' E' p b r') :
    Alike (fun a a' => InTree h a ∧ InTree h' a' ∧ E a = E' a') r r' := by
  -- below a node there are two keys that part at its path
  have two : ∀ {q : Bytes}, p ++ [b] <+: q → Parts m q → ∃ K K', m K ≠ none ∧ m K' ≠ none ∧ K ≠ K' ∧ q <+: K ∧ q <+: K' ∧ ∀ b, ¬ (q ++ [b] <+: K ∧ q ++ [b] <+: K') := by
    rintro q hq (rfl | hp)
    · have := hq.length_le
      simp at this
    · exact hp
  rcases r with _ | ⟨l⟩ | ⟨c⟩ <;> rcases r' with _ | ⟨l'⟩ | ⟨c'⟩ <;> simp only [Alike]
  · have := h1 _ h2.1
    rw [h2.2.1] at this
    simp at this
  · obtain ⟨K, -, k1, -, -, k2, -⟩ := two h2.2.1 ((hE' _).mpr ⟨c', h2.1, rfl⟩)
    exact k1 (h1 K (h2.2.1.trans k2))
  · have := h2 _ h1.1
    rw [h1.2.1] at this
    simp at this
  · have e := h1.2.2 l'.key h2.1 (by rw [h2.2.1]; simp)
    refine ⟨e.symm, ?_⟩
    have := h2.2.1
    rw [e, h1.2.1] at this
    simpa using this
  · obtain ⟨K, K', k1, k2, k3, k4, k5, -⟩ := two h2.2.1 ((hE' _).mpr ⟨c', h2.1, rfl⟩)
    exact k3 ((h1.2.2 K (h2.2.1.trans k4) k1).trans (h1.2.2 K' (h2.2.1.trans k5) k2).symm)
  · obtain ⟨K, -, k1, -, -, k2, -⟩ := two h1.2.1 ((hE _).mpr ⟨c, h1.1, rfl⟩)
    exact k1 (h2 K (h1.2.1.trans k2))
  · obtain ⟨K, K', k1, k2, k3, k4, k5, -⟩ := two h1.2.1 ((hE _).mpr ⟨c, h1.1, rfl⟩)
    exact k3 ((h2.2.2 K (h1.2.1.trans k4) k1).trans (h2.2.2 K' (h1.2.1.trans k5) k2).symm)
  · refine ⟨h1.1, h2.1, ?_⟩
    obtain ⟨K, K', k1, k2, k3, k4, k5, k6⟩ := two h1.2.1 ((hE _).mpr ⟨c, h1.1, rfl⟩)
    obtain ⟨J, J', j1, j2, j3, j4, j5, j6⟩ := two h2.2.1 ((hE' _).mpr ⟨c', h2.1, rfl⟩)
    have a1 := h2.2.2.1 K (h1.2.1.trans k4) k1
    have a2 := h2.2.2.1 K' (h1.2.1.trans k5) k2
    have b1 := h1.2.2.1 J (h2.2.1.trans j4) j1
    have b2 := h1.2.2.1 J' (h2.2.1.trans j5) j2
    rcases prefix_cases k4 a1 with g | g
    · by_contra hne
      obtain ⟨x, hx⟩ := snoc_of_prefix g hne
      exact k6 x ⟨hx.trans a1, hx.trans a2⟩
    · by_contra hne
      obtain ⟨x, hx⟩ := snoc_of_prefix g (Ne.symm hne)
      exact j6 x ⟨hx.trans b1, hx.trans b2⟩

/-- **C61**, the tree does not remember how it was built: after two histories with the same map the inner nodes correspond to each other one to one, with the same prefixes and prefix leaves, and
under each byte nothing, the same leaf, or corresponding nodes. (Only the kinds of the nodes may be different.) -/
theorem C61_history {cs cs' : List (Call × Option Bytes)} {h h' : Heap} (hh : History cs h) (hh' : History cs' h') (hm : ∀ k, mapOf cs k = mapOf cs' k) :
    ∃ R : Addr → Addr → Prop, (∀ a, InTree h a → ∃ a', InTree h' a' ∧ R a a') ∧ (∀ a', InTree h' a' → ∃ a, InTree h a ∧ R a a') ∧
      (∀ a a' b b', R a a' → R b b' → (a = b ↔ a' = b')) ∧
      ∀ a a' n n', R a a' → h[a]? = some n → h'[a']? = some n' → n.prefixLen = n'.prefixLen ∧ n.pre = n'.pre ∧
        n.prefixLeaf.map (fun l => (l.key, l.value)) = n'.prefixLeaf.map (fun l => (l.key, l.value)) ∧ ∀ b, Alike R (n.child b) (n'.child b) := by
  have hm' : mapOf cs' = mapOf cs := (funext hm).symm
  obtain ⟨E, e1, e2, e3, e4⟩ := C61_shape hh
  obtain ⟨E', f1, f2, f3, f4⟩ := C61_shape hh'
  rw [hm'] at f1 f4
  generalize mapOf cs = m at *
  refine ⟨fun a a' => InTree h a ∧ InTree h' a' ∧ E a = E' a', ?_, ?_, ?_, ?_⟩
  · intro a ha
    obtain ⟨a', ha', e⟩ := (f1 _).mp ((e1 (E a)).mpr ⟨a, ha, rfl⟩)
    exact ⟨a', ha', ha, ha', e.symm⟩
  · intro a' ha'
    obtain ⟨a, ha, e⟩ := (e1 _).mp ((f1 (E' a')).mpr ⟨a', ha', rfl⟩)
    exact ⟨a, ha, ha, ha', e⟩
  · rintro a a' b b' ⟨h1, h2, h3⟩ ⟨g1, g2, g3⟩
    constructor
    · rintro rfl
      exact f2 a' b' h2 g2 (h3.symm.trans g3)
    · rintro rfl
      exact e2 a b h1 g1 (h3.trans g3.symm)
  · rintro a a' n n' ⟨ha, ha', hE⟩ hn hn'
    obtain ⟨p1, p2, p3⟩ := e4 a n ha hn
    obtain ⟨q1, q2, q3⟩ := f4 a' n' ha' hn'
    have hpre : n.prefixLen = n'.prefixLen ∧ n.pre = n'.pre := by
      cases ha with
      | root d1 d2 =>
        obtain ⟨r1, n0, r2, r3, r4⟩ := e3 _ _ d1 d2
        rw [hn] at r2
        cases r2
        cases ha' with
        | root d1' d2' =>
          obtain ⟨r1', n0', r2', r3', r4'⟩ := f3 _ _ d1' d2'
          rw [hn'] at r2'
          cases r2'
          exact ⟨r3.trans r3'.symm, r4.trans r4'.symm⟩
        | @child q nq b _ c1 c2 c3 =>
          have := (f4 q nq c1 c2).2.2 b
          rw [c3] at this
          have := this.2.1.length_le
          rw [← hE, r1] at this
          simp at this
      | @child q nq b _ c1 c2 c3 =>
        have i1 := (e4 q nq c1 c2).2.2 b
        rw [c3] at i1
        obtain ⟨q', hq', eq'⟩ := (f1 _).mp ((e1 (E q)).mpr ⟨q, c1, rfl⟩)
        have hex : ∃ nq', h'[q']? = some nq' := by
          cases hq' with
          | root d1 d2 =>
            obtain ⟨-, n0, r2, -⟩ := f3 _ _ d1 d2
            exact ⟨n0, r2⟩
          | @child q nq b _ c1 c2 c3 =>
            have := (f4 q nq c1 c2).2.2 b
            rw [c3] at this
            obtain ⟨n0, r2, -⟩ := this.2.2.2
            exact ⟨n0, r2⟩
        obtain ⟨nq', hnq'⟩ := hex
        have i2 := (f4 q' nq' hq' hnq').2.2 b
        rw [eq'] at i2
        have hal := item_alike e1 f1 i1 i2
        cases hr : nq'.child b with
        | none =>
          rw [hr] at hal
          exact hal.elim
        | some r =>
          cases r with
          | leaf l =>
            rw [hr] at hal
            exact hal.elim
          | node c =>
            rw [hr] at hal i2
            obtain ⟨-, k1, k2⟩ := hal
            have : c = a' := f2 c a' k1 ha' (k2.symm.trans hE)
            subst this
            obtain ⟨-, -, -, n1, s1, s2, s3⟩ := i1
            obtain ⟨-, -, -, n2, t1, t2, t3⟩ := i2
            rw [hn] at s1
            cases s1
            rw [hn'] at t1
            cases t1
            rw [← k2] at t2 t3
            exact ⟨by omega, s3.trans t3.symm⟩
    refine ⟨hpre.1, hpre.2, ?_, ?_⟩
    · rw [hE, q1] at p1
      cases hl : n.prefixLeaf with
      | none =>
        cases hl' : n'.prefixLeaf with
        | none => rfl
        | some l' =>
          rw [hl, hl'] at p1
          simp at p1
      | some l =>
        cases hl' : n'.prefixLeaf with
        | none =>
          rw [hl, hl'] at p1
          simp at p1
        | some l' =>
          rw [hl, hl'] at p1
          simp only [Option.map_some, Option.some.injEq] at p1 ⊢
          rw [p2 l hl, q2 l' hl', hE, p1]
    · intro b
      have := q3 b
      rw [← hE] at this
      exact item_alike e1 f1 (p3 b) this

/-! ## Examples -/

/-- "aaaaaaaaaaaa1" -/
def long1 : Bytes := List.replicate 12 97 ++ [49]
/-- "aaaaaaaaaaaa2" -/
def long2 : Bytes := List.replicate 12 97 ++ [50]

def longCalls : List (Call × Option Bytes) := [(.put long1 [1], none), (.put long2 [2], none)]

def longTree : Heap :=
  match ((Call.put long1 [1]).prog 10).run true new with
  | .done _ h =>
    match ((Call.put long2 [2]).prog 10).run true h with
    | .done _ h => h
    | _ => []
  | _ => []

def longTree1 : Heap :=
  match ((Call.put long1 [1]).prog 10).run true new with
  | .done _ h => h
  | _ => []

theorem longTree_history : History longCalls longTree :=
  .call (cs := [(.put long1 [1], none)]) (.call (cs := []) (h' := longTree1) .new (by decide) ⟨true, 10, by decide +kernel⟩) (by decide) ⟨true, 10, by decide +kernel⟩

theorem long_keys {K : Bytes} : mapOf longCalls K ≠ none ↔ K = long1 ∨ K = long2 := by
  simp only [mapOf, longCalls, List.foldl, Call.effect, Map.put, Map.empty]
  by_cases h2 : K = long2
  · simp [h2]
  · by_cases h1 : K = long1
    · simp [h1]
      split <;> simp
    · simp [h1, h2]

theorem long_parts {p : Bytes} (hp : Parts (mapOf longCalls) p) : p = [] ∨ p = List.replicate 12 97 := by
  have fin : ∀ {p : Bytes}, p <+: long1 → p <+: long2 → (∀ b, ¬ (p ++ [b] <+: long1 ∧ p ++ [b] <+: long2)) → p = List.replicate 12 97 := by
    intro p h1 h2 h3
    have e := List.prefix_iff_eq_take.mp h1
    have hl := h1.length_le
    have hall : ∀ j, j ≤ 13 → long1.take j <+: long2 → ¬ (long1.take j ++ [97] <+: long1 ∧ long1.take j ++ [97] <+: long2) → long1.take j = List.replicate 12 97 := by decide
    rw [e]
    exact hall _ hl (by rw [← e]; exact h2) (by rw [← e]; exact h3 97)
  rcases hp with hp | ⟨K, K', k1, k2, k3, k4, k5, k6⟩
  · exact .inl hp
  · right
    rw [long_keys] at k1 k2
    rcases k1 with rfl | rfl <;> rcases k2 with rfl | rfl
    · exact absurd rfl k3
    · exact fin k4 k5 k6
    · exact fin k5 k4 (fun b hb => k6 b hb.symm)
    · exact absurd rfl k3

/-- `Delete("aaaaaaaaaxyz1...")` never returns: the bytes "xyz" are not compared. -/
example : ∀ rf fuel, (delete (List.replicate 9 97 ++ [120, 121, 122, 49, 46, 46, 46]) fuel).run rf longTree = .diverge := by
  refine (C60_delete longTree_history (by decide)).1 ⟨long1, long_keys.mpr (.inl rfl), ?_, ?_⟩
  · intro l' hl' hp
    rcases long_keys.mp hl' with rfl | rfl
    · rfl
    · exact absurd hp (by decide)
  · intro p hp hpl
    rcases long_parts hp with rfl | rfl
    · refine ⟨by decide, ?_⟩
      rintro i hi -
      have : i = 0 := by simpa using hi
      subst this
      rfl
    · refine ⟨by decide, ?_⟩
      rintro i hi ⟨p0, q1, q2, q3, q4⟩
      have hi' : i ≤ 12 := by simpa using hi
      have hc : i ≤ 8 ∨ i = 12 := by
        rcases long_parts q1 with rfl | rfl
        · left
          simpa using q4
        · right
          have : 12 ≤ i := by simpa using q3
          omega
      have hall : ∀ i, i ≤ 12 → (i ≤ 8 ∨ i = 12) → (List.replicate 9 97 ++ [120, 121, 122, 49, 46, 46, 46] : Bytes)[i]? = long1[i]? := by decide
      exact hall i hi' hc

/-- `Delete("aaaaaaaaxyz11...")` returns: its ninth byte is compared. -/
example : ∃ o h', (Call.delete (List.replicate 8 97 ++ [120, 121, 122, 49, 49, 46, 46, 46])).Returns longTree o h' := by
  rw [C60_returns longTree_history (by decide)]
  rintro ⟨l, h1, -, h3⟩
  have hp : Parts (mapOf longCalls) (List.replicate 12 97) :=
    .inr ⟨long1, long2, long_keys.mpr (.inl rfl), long_keys.mpr (.inr rfl), by decide, by decide, by decide, by
      rintro b ⟨g1, g2⟩
      have := snoc_inj g1 (show List.replicate 12 97 ++ [49] <+: long1 by decide)
      subst this
      exact absurd g2 (by decide)⟩
  rcases long_keys.mp h1 with rfl | rfl
  · have := (h3 _ hp (by decide)).2 8 (by decide) ⟨[], .inl rfl, List.nil_prefix, by decide, by decide⟩
    exact absurd this (by decide)
  · have := (h3 _ hp (by decide)).2 8 (by decide) ⟨[], .inl rfl, List.nil_prefix, by decide, by decide⟩
    exact absurd this (by decide)

theorem hello_keys {K : Bytes} : mapOf [(.put [104, 101, 108, 108, 111] [1], none)] K ≠ none ↔ K = [104, 101, 108, 108, 111] := by
  simp only [mapOf, List.foldl, Call.effect, Map.put, Map.empty]
  by_cases h1 : K = [104, 101, 108, 108, 111]
  · simp [h1]
  · simp [h1]

/-- With "hello" alone in the tree, `Delete("hfoo")` does not return and `Delete("world")` does. -/
example : (¬ ∃ o h', (Call.delete [104, 102, 111, 111]).Returns helloTree o h') ∧ ∃ o h', (Call.delete [119, 111, 114, 108, 100]).Returns helloTree o h' := by
  rw [C60_single helloTree_history (fun K => hello_keys) (by decide), C60_single helloTree_history (fun K => hello_keys) (by decide)]
  decide

/-- The same keys, put in the other order, with a third one that is deleted again, give the same tree. -/
def longCalls2 : List (Call × Option Bytes) := [(.put long2 [2], none), (.put [97, 98] [3], none), (.put long1 [1], none), (.delete [97, 98], none)]

def step (c : Call) (h : Heap) : Heap :=
  match (c.prog 10).run true h with
  | .done _ h => h
  | _ => []

def longTree2 : Heap := step (.delete [97, 98]) (step (.put long1 [1]) (step (.put [97, 98] [3]) (step (.put long2 [2]) new)))

theorem longTree2_history : History longCalls2 longTree2 :=
  .call (cs := [(.put long2 [2], none), (.put [97, 98] [3], none), (.put long1 [1], none)])
    (.call (cs := [(.put long2 [2], none), (.put [97, 98] [3], none)]) (h' := step (.put long1 [1]) (step (.put [97, 98] [3]) (step (.put long2 [2]) new)))
      (.call (cs := [(.put long2 [2], none)]) (h' := step (.put [97, 98] [3]) (step (.put long2 [2]) new))
        (.call (cs := []) (h' := step (.put long2 [2]) new) .new (by decide) ⟨true, 10, by decide +kernel⟩)
        (by decide) ⟨true, 10, by decide +kernel⟩)
      (by decide) ⟨true, 10, by decide +kernel⟩)
    (by decide) ⟨true, 10, by decide +kernel⟩

example : ∃ R : Addr → Addr → Prop, (∀ a, InTree longTree a → ∃ a', InTree longTree2 a' ∧ R a a') ∧ (∀ a', InTree longTree2 a' → ∃ a, InTree longTree a ∧ R a a') := by
  obtain ⟨R, h1, h2, -⟩ := C61_history longTree_history longTree2_history (by
    intro k
    simp only [mapOf, longCalls, longCalls2, List.foldl, Call.effect, Map.put, Map.delete, Map.empty]
    by_cases e1 : k = long1
    · subst e1
      decide
    · by_cases e2 : k = long2
      · subst e2
        decide
      · by_cases e3 : k = [97, 98]
        · subst e3
          decide
        · simp [e1, e2, e3])
  exact ⟨R, h1, h2⟩

end Art.Props
