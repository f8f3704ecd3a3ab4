import Verif.Art.Cont

/-! # Every operation on a node container has its effect on the map of the children -/

set_option linter.unusedSimpArgs false

namespace Art

open Surf

/-! ## `findChild` -/

theorem findChild_n4 {n : Node} {keys children} (h : n.kids = .n4 keys children) (b : UInt8) :
    n.findChild b = (arrChild n.numChildren.toNat keys children b).map (fun p => (p.1, p.2, p.2)) := by
  unfold Node.findChild arrChild
  rw [h]
  simp only
  cases (keys.take n.numChildren.toNat).findIdx? (· == b) with
  | none => rfl
  | some i => simp only [Option.bind_some, Option.map_map]; rfl

theorem findChild_n16 {n : Node} {keys children} (h : n.kids = .n16 keys children) (b : UInt8) :
    n.findChild b = (arrChild n.numChildren.toNat keys children b).map (fun p => (p.1, p.2, p.2)) := by
  unfold Node.findChild arrChild
  rw [h, List.findIdx?_take]
  simp only
  cases keys.findIdx? (· == b) with
  | none => rfl
  | some i =>
    simp only [Option.bind_some, Option.guard]
    split
    next hi => simp [hi, Function.comp_def]
    next hi => simp [hi]

theorem findChild_n48 {n : Node} {index children slots} (h : n.kids = .n48 index children slots) (b : UInt8) :
    n.findChild b = (idxChild index children b).map (fun p => (p.1, p.2, b.toNat)) := by
  unfold Node.findChild idxChild
  rw [h]
  simp only
  cases index[b.toNat]? with
  | none => rfl
  | some i => cases i with
    | zero => rfl
    | succ i => simp only [Option.map_map]; rfl

theorem findChild_n256 {n : Node} {children} (h : n.kids = .n256 children) (b : UInt8) :
    n.findChild b = (children[b.toNat]?.join).map (fun c => (c, b.toNat, b.toNat)) := by
  unfold Node.findChild
  rw [h]

theorem child_n4 {n : Node} {keys children} (h : n.kids = .n4 keys children) :
    n.child = fun b => (arrChild n.numChildren.toNat keys children b).map (·.1) := by
  funext b
  simp [Node.child, findChild_n4 h, Function.comp_def]

theorem child_n16 {n : Node} {keys children} (h : n.kids = .n16 keys children) :
    n.child = fun b => (arrChild n.numChildren.toNat keys children b).map (·.1) := by
  funext b
  simp [Node.child, findChild_n16 h, Function.comp_def]

theorem child_n48 {n : Node} {index children slots} (h : n.kids = .n48 index children slots) :
    n.child = fun b => (idxChild index children b).map (·.1) := by
  funext b
  simp [Node.child, findChild_n48 h, Function.comp_def]

theorem child_n256 {n : Node} {children} (h : n.kids = .n256 children) :
    n.child = fun b => children[b.toNat]?.join := by
  funext b
  simp [Node.child, findChild_n256 h, Function.comp_def]

/-! ## Counting the children -/

/-- The counter of a well-formed node is the number of its children (256 counts as 0). -/
theorem Node.WF.num {n : Node} (h : n.WF) :
    n.numChildren = UInt8.ofNat (cnt n.child) ∧ (n.cap < 256 → n.numChildren.toNat = cnt n.child) ∧ cnt n.child ≤ n.cap := by
  unfold Node.WF at h
  split at h
  next keys children e =>
    rw [child_n4 e, h.cnt_eq]
    exact ⟨by simp, fun _ => rfl, by simpa [Node.cap, e] using h.num_le⟩
  next keys children e =>
    rw [child_n16 e, h.cnt_eq]
    exact ⟨by simp, fun _ => rfl, by simpa [Node.cap, e] using h.num_le⟩
  next index children slots e =>
    rw [child_n48 e, h.count]
    refine ⟨by simp, fun _ => rfl, ?_⟩
    rw [Node.cap, e]
    simp only
    by_contra hc
    -- more than 48 bytes with different slots
    have hnd : ((allBytes.filter (fun b => ((idxChild index children b).map (·.1)).isSome)).map (fun b => index[b.toNat]?.getD 0)).Nodup := by
      refine List.Nodup.map_on ?_ (nodup_allBytes.filter _)
      intro x hx y hy exy
      rw [List.mem_filter] at hx hy
      obtain ⟨r, hr⟩ := Option.isSome_iff_exists.mp hx.2
      obtain ⟨r', hr'⟩ := Option.isSome_iff_exists.mp hy.2
      obtain ⟨i, hi, -⟩ := (h.child_iff x r).mp hr
      obtain ⟨j, hj, -⟩ := (h.child_iff y r').mp hr'
      rw [hi, hj] at exy
      simp at exy
      subst exy
      exact UInt8.toNat_inj.mp (h.inj _ _ _ hi hj)
    have hsub : ((allBytes.filter (fun b => ((idxChild index children b).map (·.1)).isSome)).map (fun b => index[b.toNat]?.getD 0)) ⊆
        List.range' 1 48 := by
      intro k hk
      rw [List.mem_map] at hk
      obtain ⟨x, hx, rfl⟩ := hk
      rw [List.mem_filter] at hx
      obtain ⟨r, hr⟩ := Option.isSome_iff_exists.mp hx.2
      obtain ⟨i, hi, hc⟩ := (h.child_iff x r).mp hr
      have := (List.getElem?_eq_some_iff.mp hc).1
      rw [h.lenC] at this
      rw [List.mem_range'_1, hi]
      simp
      omega
    have := (hnd.subperm hsub).length_le
    rw [List.length_map, List.length_range', ← List.countP_eq_length_filter] at this
    have hct := h.count
    unfold cnt at hct
    rw [hct] at this
    omega
  next children e =>
    rw [child_n256 e]
    refine ⟨h.2, fun hlt => by simp [Node.cap, e] at hlt, ?_⟩
    rw [Node.cap, e]
    exact cnt_le _
  next => exact h.elim

theorem Node.WF.cap_cases {n : Node} (h : n.WF) : n.cap = 4 ∨ n.cap = 16 ∨ n.cap = 48 ∨ n.cap = 256 := by
  unfold Node.WF at h
  unfold Node.cap
  split at h <;> simp_all

/-- `isFull` is right. -/
theorem Node.WF.isFull {n : Node} (h : n.WF) : n.isFull = some (decide (n.cap < 256 ∧ cnt n.child = n.cap)) := by
  obtain ⟨-, h2, -⟩ := h.num
  have hx := h
  unfold Node.WF at hx
  unfold Node.isFull
  have key : ∀ c : Nat, c < 256 → n.numChildren.toNat = cnt n.child →
      (n.numChildren == UInt8.ofNat c) = decide (cnt n.child = c) := by
    intro c hc e
    rw [← e, Bool.eq_iff_iff]
    simp only [beq_iff_eq, decide_eq_true_eq]
    constructor
    · intro e2
      rw [e2]
      simp [Nat.mod_eq_of_lt hc]
    · intro e2
      rw [← e2]
      simp
  split at hx
  next e => rw [e]; have hc : n.cap = 4 := by simp [Node.cap, e]
            simp only [hc, key 4 (by omega) (h2 (by omega))]; simpa using key 4 (by omega) (h2 (by omega))
  next e => rw [e]; have hc : n.cap = 16 := by simp [Node.cap, e]
            simp only [hc]; simpa using key 16 (by omega) (h2 (by omega))
  next e => rw [e]; have hc : n.cap = 48 := by simp [Node.cap, e]
            simp only [hc]; simpa using key 48 (by omega) (h2 (by omega))
  next e => rw [e]; have hc : n.cap = 256 := by simp [Node.cap, e]
            simp [hc]
  next => exact hx.elim

/-! ## `insertChild` -/

/-- The new node `n'` has the children `f`, the head of `n` and capacity `c`. -/
structure Changed (n n' : Node) (f : UInt8 → Option Ref) (c : Nat) : Prop where
  wf : n'.WF
  child : n'.child = f
  head : n.SameHead n'
  cap : n'.cap = c

theorem toNat_add_one {x : UInt8} (h : x.toNat < 255) : (x + 1).toNat = x.toNat + 1 := by
  rw [UInt8.toNat_add]
  simp
  omega

theorem Changed.n4 {n n' : Node} {keys children num f} (e : n'.kids = .n4 keys children) (en : n'.numChildren.toNat = num)
    (hd : n.SameHead n') (h : ArrWF 4 num keys children) (hm : ∀ c, (arrChild num keys children c).map (·.1) = f c) :
    Changed n n' f 4 := by
  subst en
  refine ⟨?_, ?_, hd, by simp [Node.cap, e]⟩
  · unfold Node.WF; rw [e]; exact h
  · rw [child_n4 e]; exact funext hm

theorem Changed.n16 {n n' : Node} {keys children num f} (e : n'.kids = .n16 keys children) (en : n'.numChildren.toNat = num)
    (hd : n.SameHead n') (h : ArrWF 16 num keys children) (hm : ∀ c, (arrChild num keys children c).map (·.1) = f c) :
    Changed n n' f 16 := by
  subst en
  refine ⟨?_, ?_, hd, by simp [Node.cap, e]⟩
  · unfold Node.WF; rw [e]; exact h
  · rw [child_n16 e]; exact funext hm

theorem Changed.n48 {n n' : Node} {index children slots num f} (e : n'.kids = .n48 index children slots)
    (en : n'.numChildren.toNat = num) (hd : n.SameHead n') (h : IdxWF num index children slots)
    (hm : ∀ c, (idxChild index children c).map (·.1) = f c) : Changed n n' f 48 := by
  subst en
  refine ⟨?_, ?_, hd, by simp [Node.cap, e]⟩
  · unfold Node.WF; rw [e]; exact h
  · rw [child_n48 e]; exact funext hm

theorem Changed.n256 {n n' : Node} {children f} (e : n'.kids = .n256 children)
    (en : n'.numChildren = UInt8.ofNat (cnt f)) (hd : n.SameHead n') (h : children.length = 256)
    (hm : ∀ c : UInt8, children[c.toNat]?.join = f c) : Changed n n' f 256 := by
  refine ⟨?_, ?_, hd, by simp [Node.cap, e]⟩
  · unfold Node.WF; rw [e]; exact ⟨h, by rw [en, funext hm]⟩
  · rw [child_n256 e]; exact funext hm

theorem set256 {children : List (Option Ref)} (h : children.length = 256) (b : UInt8) (x : Option Ref) (c : UInt8) :
    (children.set b.toNat x)[c.toNat]?.join = upd (fun c : UInt8 => children[c.toNat]?.join) b x c := by
  by_cases hc : c = b
  · subst hc
    rw [upd_same, List.getElem?_set_self (by rw [h]; exact c.toNat_lt)]
    rfl
  · rw [upd_other _ _ hc, List.getElem?_set_ne]
    exact fun e' => hc (UInt8.toNat_inj.mp e'.symm)

theorem insertChild_spec {n : Node} (h : n.WF) (b : UInt8) (r : Ref) (hf : n.isFull = some false) (hb : n.child b = none) :
    ∃ n', n.insertChild b r = some n' ∧ Changed n n' (upd n.child b (some r)) n.cap ∧ n'.version = n.version := by
  have hnum := h.num
  have hfull : n.cap < 256 → cnt n.child < n.cap := by
    intro hc
    rw [h.isFull] at hf
    simp only [Option.some.injEq, decide_eq_false_iff_not, not_and] at hf
    have := hf hc
    have := hnum.2.2
    omega
  have hx := h
  unfold Node.WF at hx
  unfold Node.insertChild
  split at hx
  next keys children e =>
    rw [e]
    have hcap : n.cap = 4 := by simp [Node.cap, e]
    have hlt : n.numChildren.toNat < 4 := by have := hfull (by omega); have := hnum.2.1 (by omega); omega
    rw [child_n4 e] at hb ⊢
    simp only [Option.map_eq_none_iff] at hb
    obtain ⟨h1, h2⟩ := hx.insert b r hlt hb
    refine ⟨{ n with
      numChildren := n.numChildren + 1
      kids := .n4 (keys.set n.numChildren.toNat b) (children.set n.numChildren.toNat (some r)) }, ?_, ?_, rfl⟩
    · simp only
      rw [setAt_eq (by rw [hx.lenK]; omega), setAt_eq (by rw [hx.lenC]; omega)]
      rfl
    · rw [hcap]
      exact Changed.n4 rfl (toNat_add_one (by omega)) ⟨rfl, rfl, rfl⟩ h1 h2
  next keys children e =>
    rw [e]
    have hcap : n.cap = 16 := by simp [Node.cap, e]
    have hlt : n.numChildren.toNat < 16 := by have := hfull (by omega); have := hnum.2.1 (by omega); omega
    rw [child_n16 e] at hb ⊢
    simp only [Option.map_eq_none_iff] at hb
    obtain ⟨h1, h2⟩ := hx.insert b r hlt hb
    refine ⟨{ n with
      numChildren := n.numChildren + 1
      kids := .n16 (keys.set n.numChildren.toNat b) (children.set n.numChildren.toNat (some r)) }, ?_, ?_, rfl⟩
    · simp only
      rw [setAt_eq (by rw [hx.lenK]; omega), setAt_eq (by rw [hx.lenC]; omega)]
      rfl
    · rw [hcap]
      exact Changed.n16 rfl (toNat_add_one (by omega)) ⟨rfl, rfl, rfl⟩ h1 h2
  next index children slots e =>
    rw [e]
    have hcap : n.cap = 48 := by simp [Node.cap, e]
    have hlt : n.numChildren.toNat < 48 := by have := hfull (by omega); have := hnum.2.1 (by omega); omega
    rw [child_n48 e] at hb ⊢
    simp only [Option.map_eq_none_iff] at hb
    obtain ⟨pos, slots', ha, hp, h1, h2⟩ := hx.insert b r hlt hb
    refine ⟨{ n with
      numChildren := n.numChildren + 1
      kids := .n48 (index.set b.toNat (pos + 1)) (children.set pos (some r)) slots' }, ?_, ?_, rfl⟩
    · simp only
      rw [ha]
      simp only [Option.bind_eq_bind, Option.bind_some]
      rw [setAt_eq (by rw [hx.lenC]; omega), Option.bind_some, setAt_eq (by rw [hx.lenI]; exact b.toNat_lt)]
      rfl
    · rw [hcap]
      exact Changed.n48 rfl (toNat_add_one (by omega)) ⟨rfl, rfl, rfl⟩ h1 h2
  next children e =>
    rw [e]
    have hcap : n.cap = 256 := by simp [Node.cap, e]
    rw [child_n256 e] at hb ⊢
    refine ⟨{ n with
      numChildren := n.numChildren + 1
      kids := .n256 (children.set b.toNat (some r)) }, ?_, ?_, rfl⟩
    · simp only
      rw [setAt_eq (by rw [hx.1]; exact b.toNat_lt)]
      rfl
    · rw [hcap]
      refine Changed.n256 rfl ?_ ⟨rfl, rfl, rfl⟩ (by simp [hx.1]) (set256 hx.1 b (some r))
      have := cnt_upd (fun c : UInt8 => children[c.toNat]?.join) b (some r)
      simp only [hb, Option.isSome_none, Option.isSome_some, Bool.toNat_false, Bool.toNat_true, Nat.add_zero] at this
      rw [this]
      simp only [hx.2]
      simp [UInt8.ofNat_add]
  next => exact hx.elim

/-! ## `removeChild` -/

theorem toNat_sub_one {x : UInt8} (h : 0 < x.toNat) : (x - 1).toNat = x.toNat - 1 := by
  have := x.toNat_lt
  rw [UInt8.toNat_sub]
  simp
  omega

theorem removeChild_spec {n : Node} (h : n.WF) (b : UInt8) {r : Ref} {slot pos : Nat} (hb : n.findChild b = some (r, slot, pos)) :
    ∃ n', n.removeChild pos = some n' ∧ Changed n n' (upd n.child b none) n.cap ∧ n'.version = n.version := by
  have hx := h
  unfold Node.WF at hx
  unfold Node.removeChild
  split at hx
  next keys children e =>
    rw [findChild_n4 e, Option.map_eq_some_iff] at hb
    obtain ⟨⟨r', i⟩, hb, heq⟩ := hb
    simp only [Prod.mk.injEq] at heq
    obtain ⟨rfl, rfl, rfl⟩ := heq
    rw [e]
    have hcap : n.cap = 4 := by simp [Node.cap, e]
    obtain ⟨keys', children', e1, e2, e3, h1, h2⟩ := hx.remove hb
    have hpos := ((hx.find_iff b r' i).mp hb).1
    rw [child_n4 e]
    refine ⟨{ n with
      numChildren := n.numChildren - 1
      kids := .n4 keys' (children'.set (n.numChildren.toNat - 1) none) }, ?_, ?_, rfl⟩
    · simp only [e1, e2, Option.bind_eq_bind, Option.bind_some]
      rw [toNat_sub_one (by omega), setAt_eq e3]
      rfl
    · rw [hcap]
      exact Changed.n4 rfl (toNat_sub_one (by omega)) ⟨rfl, rfl, rfl⟩ h1 h2
  next keys children e =>
    rw [findChild_n16 e, Option.map_eq_some_iff] at hb
    obtain ⟨⟨r', i⟩, hb, heq⟩ := hb
    simp only [Prod.mk.injEq] at heq
    obtain ⟨rfl, rfl, rfl⟩ := heq
    rw [e]
    have hcap : n.cap = 16 := by simp [Node.cap, e]
    obtain ⟨keys', children', e1, e2, e3, h1, h2⟩ := hx.remove hb
    have hpos := ((hx.find_iff b r' i).mp hb).1
    rw [child_n16 e]
    refine ⟨{ n with
      numChildren := n.numChildren - 1
      kids := .n16 keys' (children'.set (n.numChildren.toNat - 1) none) }, ?_, ?_, rfl⟩
    · simp only [e1, e2, Option.bind_eq_bind, Option.bind_some]
      rw [toNat_sub_one (by omega), setAt_eq e3]
      rfl
    · rw [hcap]
      exact Changed.n16 rfl (toNat_sub_one (by omega)) ⟨rfl, rfl, rfl⟩ h1 h2
  next index children slots e =>
    rw [findChild_n48 e, Option.map_eq_some_iff] at hb
    obtain ⟨⟨r', i⟩, hb, heq⟩ := hb
    simp only [Prod.mk.injEq] at heq
    obtain ⟨rfl, rfl, rfl⟩ := heq
    rw [e]
    have hcap : n.cap = 48 := by simp [Node.cap, e]
    obtain ⟨e1, e2, e3, h1, h2⟩ := hx.remove hb
    rw [child_n48 e]
    refine ⟨{ n with
      numChildren := n.numChildren - 1
      kids := .n48 (index.set b.toNat 0) (children.set i none) (freeSlot slots i) }, ?_, ?_, rfl⟩
    · simp only [e1, Option.bind_eq_bind, Option.bind_some, usub]
      rw [if_pos (by omega), Nat.add_sub_cancel, Option.bind_some, setAt_eq (by rw [hx.lenI]; exact b.toNat_lt), Option.bind_some,
        setAt_eq (by rw [hx.lenC]; omega)]
      rfl
    · rw [hcap]
      exact Changed.n48 rfl (toNat_sub_one (by omega)) ⟨rfl, rfl, rfl⟩ h1 h2
  next children e =>
    rw [findChild_n256 e, Option.map_eq_some_iff] at hb
    obtain ⟨r', hb, heq⟩ := hb
    simp only [Prod.mk.injEq] at heq
    obtain ⟨rfl, rfl, rfl⟩ := heq
    rw [e]
    have hcap : n.cap = 256 := by simp [Node.cap, e]
    rw [child_n256 e]
    refine ⟨{ n with
      numChildren := n.numChildren - 1
      kids := .n256 (children.set b.toNat none) }, ?_, ?_, rfl⟩
    · simp only
      rw [setAt_eq (by rw [hx.1]; exact b.toNat_lt)]
      rfl
    · rw [hcap]
      refine Changed.n256 rfl ?_ ⟨rfl, rfl, rfl⟩ (by simp [hx.1]) (set256 hx.1 b none)
      have := cnt_upd (fun c : UInt8 => children[c.toNat]?.join) b none
      simp only [hb, Option.isSome_none, Option.isSome_some, Bool.toNat_false, Bool.toNat_true, Nat.add_zero] at this
      simp only [hx.2]
      rw [← this]
      simp [UInt8.ofNat_add]
  next => exact hx.elim

/-! ## Storing through `nodeLoc` -/

theorem setSlot_spec {n : Node} (h : n.WF) (b : UInt8) {r : Ref} {slot pos : Nat} (q : Ref)
    (hb : n.findChild b = some (r, slot, pos)) :
    ∃ n', n.setSlot slot q = some n' ∧ Changed n n' (upd n.child b (some q)) n.cap ∧ n'.version = n.version := by
  have hx := h
  unfold Node.WF at hx
  unfold Node.setSlot
  split at hx
  next keys children e =>
    rw [findChild_n4 e, Option.map_eq_some_iff] at hb
    obtain ⟨⟨r', i⟩, hb, heq⟩ := hb
    simp only [Prod.mk.injEq] at heq
    obtain ⟨rfl, rfl, rfl⟩ := heq
    rw [e]
    have hcap : n.cap = 4 := by simp [Node.cap, e]
    obtain ⟨e1, h1, h2⟩ := hx.replace q hb
    rw [child_n4 e]
    refine ⟨{ n with kids := .n4 keys (children.set i (some q)) }, by simp only [setAt_eq e1]; rfl, ?_, rfl⟩
    rw [hcap]
    exact Changed.n4 rfl rfl ⟨rfl, rfl, rfl⟩ h1 h2
  next keys children e =>
    rw [findChild_n16 e, Option.map_eq_some_iff] at hb
    obtain ⟨⟨r', i⟩, hb, heq⟩ := hb
    simp only [Prod.mk.injEq] at heq
    obtain ⟨rfl, rfl, rfl⟩ := heq
    rw [e]
    have hcap : n.cap = 16 := by simp [Node.cap, e]
    obtain ⟨e1, h1, h2⟩ := hx.replace q hb
    rw [child_n16 e]
    refine ⟨{ n with kids := .n16 keys (children.set i (some q)) }, by simp only [setAt_eq e1]; rfl, ?_, rfl⟩
    rw [hcap]
    exact Changed.n16 rfl rfl ⟨rfl, rfl, rfl⟩ h1 h2
  next index children slots e =>
    rw [findChild_n48 e, Option.map_eq_some_iff] at hb
    obtain ⟨⟨r', i⟩, hb, heq⟩ := hb
    simp only [Prod.mk.injEq] at heq
    obtain ⟨rfl, rfl, rfl⟩ := heq
    rw [e]
    have hcap : n.cap = 48 := by simp [Node.cap, e]
    obtain ⟨e1, h1, h2⟩ := hx.replace q hb
    rw [child_n48 e]
    refine ⟨{ n with kids := .n48 index (children.set i (some q)) slots }, by simp only [setAt_eq e1]; rfl, ?_, rfl⟩
    rw [hcap]
    exact Changed.n48 rfl rfl ⟨rfl, rfl, rfl⟩ h1 h2
  next children e =>
    rw [findChild_n256 e, Option.map_eq_some_iff] at hb
    obtain ⟨r', hb, heq⟩ := hb
    simp only [Prod.mk.injEq] at heq
    obtain ⟨rfl, rfl, rfl⟩ := heq
    rw [e]
    have hcap : n.cap = 256 := by simp [Node.cap, e]
    rw [child_n256 e]
    refine ⟨{ n with kids := .n256 (children.set b.toNat (some q)) },
      by simp only [setAt_eq (show b.toNat < children.length by rw [hx.1]; exact b.toNat_lt)]; rfl, ?_, rfl⟩
    rw [hcap]
    refine Changed.n256 rfl ?_ ⟨rfl, rfl, rfl⟩ (by simp [hx.1]) (set256 hx.1 b _)
    have := cnt_upd (fun c : UInt8 => children[c.toNat]?.join) b (some q)
    simp only [hb, Option.isSome_some, Bool.toNat_true] at this
    simp only [hx.2]
    congr 1
    omega
  next => exact hx.elim

/-! ## `growAndInsert` -/

theorem ArrWF.pad {cap num keys children} (h : ArrWF cap num keys children) (k : Nat) :
    ArrWF (cap + k) num (keys ++ zeroBytes k) (children ++ nils k) ∧
    ∀ c, (arrChild num (keys ++ zeroBytes k) (children ++ nils k) c).map (·.1) = (arrChild num keys children c).map (·.1) := by
  have hK := h.lenK
  have hC := h.lenC
  have hN := h.num_le
  have gk : ∀ i : Nat, i < num → (keys ++ zeroBytes k)[i]? = keys[i]? := fun i hi => List.getElem?_append_left (by omega)
  have gc : ∀ i : Nat, i < num → (children ++ nils k)[i]? = children[i]? := fun i hi => List.getElem?_append_left (by omega)
  have hW : ArrWF (cap + k) num (keys ++ zeroBytes k) (children ++ nils k) := by
    refine ⟨by simp [zeroBytes, hK], by simp [nils, hC], by omega, ?_, ?_⟩
    · rw [List.take_append_of_le_length (by omega)]
      exact h.nodup
    · intro i hi
      rw [gc i hi]
      exact h.isc i hi
  refine ⟨hW, ?_⟩
  intro c
  apply hW.ext h
  intro r
  constructor
  · rintro ⟨i, h1, h2, h3⟩
    exact ⟨i, h1, by rw [← gk i h1]; exact h2, by rw [← gc i h1]; exact h3⟩
  · rintro ⟨i, h1, h2, h3⟩
    exact ⟨i, h1, by rw [gk i h1]; exact h2, by rw [gc i h1]; exact h3⟩

theorem indexKeys_spec : ∀ (ks : Bytes) (start : Nat) (index : List Nat), index.length = 256 → ks.Nodup →
    ∃ R, Node.indexKeys ks start index = some R ∧ R.length = 256 ∧
      (∀ i c, ks[i]? = some c → R[c.toNat]? = some (start + i + 1)) ∧
      (∀ c : UInt8, c ∉ ks → R[c.toNat]? = index[c.toNat]?) := by
  intro ks
  induction ks with
  | nil => intro start index hl _; exact ⟨index, rfl, hl, by simp, by simp⟩
  | cons k ks ih =>
    intro start index hl hn
    rw [List.nodup_cons] at hn
    obtain ⟨R, h1, h2, h3, h4⟩ := ih (start + 1) (index.set k.toNat (start + 1)) (by simp [hl]) hn.2
    refine ⟨R, ?_, h2, ?_, ?_⟩
    · unfold Node.indexKeys
      rw [setAt_eq (by rw [hl]; exact k.toNat_lt), Option.bind_eq_bind, Option.bind_some, h1]
    · intro i c hc
      cases i with
      | zero =>
        simp at hc
        subst hc
        rw [h4 k hn.1, List.getElem?_set_self (by rw [hl]; exact k.toNat_lt)]
      | succ i =>
        rw [List.getElem?_cons_succ] at hc
        rw [h3 i c hc]
        simp only [Option.some.injEq]
        omega
    · intro c hc
      rw [List.mem_cons, not_or] at hc
      rw [h4 c hc.2, List.getElem?_set_ne]
      exact fun e => hc.1 (UInt8.toNat_inj.mp e.symm)

theorem ofNat_toNat_lt {c : Nat} (h : c < 256) : (UInt8.ofNat c).toNat = c := by simp; omega

/-- A full node16 becomes a node48 with the first 16 slots in use. -/
theorem ArrWF.toIdx {keys children} (h : ArrWF 16 16 keys children) :
    ∃ index, Node.indexKeys keys 0 (List.replicate 256 0) = some index ∧
      IdxWF 16 index (children ++ nils 32) node48GrowSlots ∧
      ∀ c, (idxChild index (children ++ nils 32) c).map (·.1) = (arrChild 16 keys children c).map (·.1) := by
  have hK := h.lenK
  have hC := h.lenC
  have hnd : keys.Nodup := by have := h.nodup; rwa [List.take_of_length_le (by omega)] at this
  obtain ⟨R, h1, h2, h3, h4⟩ := indexKeys_spec keys 0 (List.replicate 256 0) List.length_replicate hnd
  have inv : ∀ b i : Nat, R[b]? = some (i + 1) ↔ (b < 256 ∧ keys[i]? = some (UInt8.ofNat b)) := by
    intro b i
    constructor
    · intro e
      have hb : b < 256 := by have := (List.getElem?_eq_some_iff.mp e).1; omega
      refine ⟨hb, ?_⟩
      by_cases hm : UInt8.ofNat b ∈ keys
      · rw [List.mem_iff_getElem?] at hm
        obtain ⟨j, hj⟩ := hm
        have := h3 j _ hj
        rw [ofNat_toNat_lt hb, e] at this
        simp at this
        rw [this]
        exact hj
      · have := h4 _ hm
        rw [ofNat_toNat_lt hb, e] at this
        rw [List.getElem?_replicate, if_pos hb] at this
        cases this
    · rintro ⟨hb, e⟩
      have := h3 i _ e
      rw [ofNat_toNat_lt hb] at this
      simpa using this
  have gc : ∀ i : Nat, i < 16 → (children ++ nils 32)[i]? = children[i]? := fun i hi => List.getElem?_append_left (by omega)
  have hkl : ∀ (i : Nat) (c : UInt8), keys[i]? = some c → i < 16 := by
    intro i c e
    have := (List.getElem?_eq_some_iff.mp e).1
    omega
  have hmap : ∀ c, (idxChild R (children ++ nils 32) c).map (·.1) = (arrChild 16 keys children c).map (·.1) := by
    intro c
    apply Option.ext
    intro r
    rw [h.child_iff, Option.map_eq_some_iff]
    constructor
    · rintro ⟨⟨r', i⟩, e, rfl⟩
      unfold idxChild at e
      split at e
      next j ej =>
        rw [Option.map_eq_some_iff] at e
        obtain ⟨c', e1, e2⟩ := e
        cases e2
        obtain ⟨-, ek⟩ := (inv _ _).mp ej
        simp only [UInt8.ofNat_toNat] at ek
        rw [gc _ (hkl _ _ ek)] at e1
        exact ⟨i, hkl _ _ ek, ek, by simpa [Option.join_eq_some_iff] using e1⟩
      next => simp at e
    · rintro ⟨i, e1, e2, e3⟩
      have : R[c.toNat]? = some (i + 1) := (inv _ _).mpr ⟨c.toNat_lt, by simpa using e2⟩
      refine ⟨(r, i), ?_, rfl⟩
      unfold idxChild
      rw [this]
      simp [gc i e1, e3]
  refine ⟨R, h1, ⟨h2, by simp [nils, hC], ?_, ?_, ?_, ?_, ?_⟩, hmap⟩
  · intro b i e
    obtain ⟨-, ek⟩ := (inv _ _).mp e
    rw [gc _ (hkl _ _ ek)]
    exact h.isc i (hkl _ _ ek)
  · intro b b' i e e'
    obtain ⟨hb, ek⟩ := (inv _ _).mp e
    obtain ⟨hb', ek'⟩ := (inv _ _).mp e'
    rw [ek] at ek'
    simp only [Option.some.injEq] at ek'
    have := congrArg UInt8.toNat ek'
    rwa [ofNat_toNat_lt hb, ofNat_toNat_lt hb'] at this
  · intro i hi
    have hs : ∀ i, i < 48 → (node48GrowSlots.getLsbD (47 - i) = true ↔ i < 16) := by decide
    rw [hs i hi]
    constructor
    · intro hlt
      refine ⟨(keys[i]'(by omega)).toNat, (inv _ _).mpr ⟨UInt8.toNat_lt _, ?_⟩⟩
      rw [UInt8.ofNat_toNat, List.getElem?_eq_getElem]
    · rintro ⟨b, e⟩
      exact hkl _ _ ((inv _ _).mp e).2
  · have : ∀ j, j < 64 → 48 ≤ j → node48GrowSlots.getLsbD j = true := by decide
    exact fun j h1 h2 => this j h2 h1
  · rw [funext hmap]
    exact h.cnt_eq

theorem mapM_some {α β : Type} (f : α → Option β) (d : β) (l : List α) (h : ∀ x ∈ l, (f x).isSome) :
    l.mapM f = some (l.map (fun x => (f x).getD d)) := by
  induction l with
  | nil => rfl
  | cons x l ih =>
    rw [List.mapM_cons, ih (fun y hy => h y (List.mem_cons_of_mem _ hy))]
    obtain ⟨y, hy⟩ := Option.isSome_iff_exists.mp (h x List.mem_cons_self)
    simp [hy]

theorem growAndInsert_spec {n : Node} (h : n.WF) (b : UInt8) (r : Ref) (hf : n.isFull = some true) (hb : n.child b = none) :
    ∃ n', n.growAndInsert b r = some n' ∧ n.cap < n'.cap ∧
      (n'.cap = 16 ∧ n.cap = 4 ∨ n'.cap = 48 ∧ n.cap = 16 ∨ n'.cap = 256 ∧ n.cap = 48) ∧
      Changed n n' (upd n.child b (some r)) n'.cap ∧ n'.version = 0 := by
  have hnum := h.num
  rw [h.isFull] at hf
  simp only [Option.some.injEq, decide_eq_true_eq] at hf
  obtain ⟨hc256, hfull⟩ := hf
  have key : ∀ m : Node, m.WF → m.child = n.child → n.SameHead m → m.version = 0 → n.cap < m.cap →
      (m.cap = 16 ∧ n.cap = 4 ∨ m.cap = 48 ∧ n.cap = 16 ∨ m.cap = 256 ∧ n.cap = 48) →
      ∃ n', m.insertChild b r = some n' ∧ n.cap < n'.cap ∧
        (n'.cap = 16 ∧ n.cap = 4 ∨ n'.cap = 48 ∧ n.cap = 16 ∨ n'.cap = 256 ∧ n.cap = 48) ∧
        Changed n n' (upd n.child b (some r)) n'.cap ∧ n'.version = 0 := by
    intro m hm hc hh hv hcap hk
    obtain ⟨n', e1, e2, e3⟩ := insertChild_spec hm b r (by rw [hm.isFull, hc]; simp; omega) (by rw [hc]; exact hb)
    refine ⟨n', e1, by rw [e2.cap]; exact hcap, by rw [e2.cap]; exact hk, ⟨e2.wf, by rw [e2.child, hc], ?_, rfl⟩, by rw [e3, hv]⟩
    exact ⟨by rw [e2.head.1, hh.1], by rw [e2.head.2.1, hh.2.1], by rw [e2.head.2.2, hh.2.2]⟩
  have hx := h
  unfold Node.WF at hx
  unfold Node.growAndInsert
  split at hx
  next keys children e =>
    have hcap : n.cap = 4 := by simp [Node.cap, e]
    rw [e]
    simp only
    have hp := hx.pad 12
    have hC : Changed n (Node.copyNode { kids := .n16 (keys ++ zeroBytes 12) (children ++ nils 12) } n) n.child 16 := by
      refine Changed.n16 rfl rfl ⟨rfl, rfl, rfl⟩ hp.1 ?_
      intro c
      rw [child_n4 e]
      exact hp.2 c
    exact key _ hC.wf hC.child hC.head rfl (by rw [hC.cap, hcap]; omega) (by rw [hC.cap, hcap]; simp)
  next keys children e =>
    have hcap : n.cap = 16 := by simp [Node.cap, e]
    have h16 : n.numChildren.toNat = 16 := by rw [hnum.2.1 hc256, hfull, hcap]
    rw [h16] at hx
    rw [e]
    simp only
    obtain ⟨index, e1, h1, h2⟩ := hx.toIdx
    rw [e1, Option.bind_eq_bind, Option.bind_some]
    have hC : Changed n (Node.copyNode { kids := .n48 index (children ++ nils 32) node48GrowSlots } n) n.child 48 := by
      refine Changed.n48 rfl h16 ⟨rfl, rfl, rfl⟩ h1 ?_
      intro c
      rw [child_n16 e, h16]
      exact h2 c
    exact key _ hC.wf hC.child hC.head rfl (by rw [hC.cap, hcap]; omega) (by rw [hC.cap, hcap]; simp)
  next index children slots e =>
    have hcap : n.cap = 48 := by simp [Node.cap, e]
    rw [e]
    simp only
    have e1 : Node.spreadChildren index children = some (index.map (fun idx =>
        (if idx > 0 then children[idx - 1]? else some none).getD none)) := by
      apply mapM_some
      intro idx hidx
      split
      next hp =>
        obtain ⟨b', hb'⟩ := List.mem_iff_getElem?.mp hidx
        obtain ⟨r', hr'⟩ := hx.isc b' (idx - 1) (by rw [hb']; congr 1; omega)
        simp [hr']
      next => rfl
    rw [e1, Option.bind_eq_bind, Option.bind_some]
    have hC : Changed n (Node.copyNode { kids := .n256 (index.map (fun idx =>
        (if idx > 0 then children[idx - 1]? else some none).getD none)) } n) n.child 256 := by
      refine Changed.n256 rfl hnum.1 ⟨rfl, rfl, rfl⟩ (by simp [hx.lenI]) ?_
      intro c
      rw [child_n48 e, List.getElem?_map]
      unfold idxChild
      have hcl : c.toNat < index.length := by rw [hx.lenI]; exact c.toNat_lt
      obtain ⟨idx, hi⟩ : ∃ idx, index[c.toNat]? = some idx := ⟨_, List.getElem?_eq_getElem hcl⟩
      simp only [hi]
      cases idx with
      | zero => rfl
      | succ i =>
        obtain ⟨r', hr'⟩ := hx.isc c.toNat i hi
        simp [hr']
    exact key _ hC.wf hC.child hC.head rfl (by rw [hC.cap, hcap]; omega) (by rw [hC.cap, hcap]; simp)
  next children e => simp [Node.cap, e] at hc256
  next => exact hx.elim

/-! ## `firstChild` -/

theorem firstChild_spec {n : Node} (h : n.WF) (hpos : 0 < cnt n.child) :
    ∃ r b, n.firstChild = some (some r) ∧ n.child b = some r := by
  have hnum := h.num
  have hx := h
  unfold Node.WF at hx
  unfold Node.firstChild
  have arr : ∀ {cap num keys children}, ArrWF cap num keys children → 0 < num →
      ∃ r b, children[0]? = some (some r) ∧ (arrChild num keys children b).map (·.1) = some r := by
    intro cap num keys children hw hn
    obtain ⟨r, hr⟩ := hw.isc 0 hn
    have hl : 0 < keys.length := by have := hw.lenK; have := hw.num_le; omega
    exact ⟨r, keys[0], hr, (hw.child_iff _ _).mpr ⟨0, hn, List.getElem?_eq_getElem hl, hr⟩⟩
  split at hx
  next keys children e =>
    rw [e, child_n4 e]
    rw [← hnum.2.1 (by simp [Node.cap, e])] at hpos
    exact arr hx hpos
  next keys children e =>
    rw [e, child_n16 e]
    rw [← hnum.2.1 (by simp [Node.cap, e])] at hpos
    exact arr hx hpos
  next index children slots e =>
    rw [e, child_n48 e]
    rw [child_n48 e, cnt_pos_iff] at hpos
    obtain ⟨b, r, hb⟩ := hpos
    obtain ⟨i, hi, -⟩ := (hx.child_iff b r).mp hb
    simp only
    cases hf : index.find? (· != 0) with
    | none =>
      rw [List.find?_eq_none] at hf
      exact absurd (hf _ (List.mem_of_getElem? hi)) (by simp)
    | some p =>
      have hp := List.find?_some hf
      have hm := List.mem_of_find?_eq_some hf
      simp at hp
      obtain ⟨b', hb'⟩ := List.mem_iff_getElem?.mp hm
      have hb2 : b' < 256 := by have := (List.getElem?_eq_some_iff.mp hb').1; have := hx.lenI; omega
      obtain ⟨r', hr'⟩ := hx.isc b' (p - 1) (by rw [hb']; congr 1; omega)
      refine ⟨r', UInt8.ofNat b', ?_, (hx.child_iff _ _).mpr ⟨p - 1, ?_, hr'⟩⟩
      · simp only [usub]
        rw [if_pos (by omega)]
        simp [hr']
      · rw [ofNat_toNat_lt hb2, hb']
        congr 1
        omega
  next children e =>
    rw [e, child_n256 e]
    rw [child_n256 e, cnt_pos_iff] at hpos
    obtain ⟨b, r, hb⟩ := hpos
    simp only [Option.join_eq_some_iff] at hb
    simp only
    cases hf : children.findSome? id with
    | none =>
      rw [List.findSome?_eq_none_iff] at hf
      have := hf _ (List.mem_of_getElem? hb)
      simp at this
    | some r' =>
      obtain ⟨x, hx1, hx2⟩ := List.exists_of_findSome?_eq_some hf
      simp only [id] at hx2
      subst hx2
      obtain ⟨b', hb'⟩ := List.mem_iff_getElem?.mp hx1
      have hb2 : b' < 256 := by have := (List.getElem?_eq_some_iff.mp hb').1; have := hx.1; omega
      refine ⟨r', UInt8.ofNat b', rfl, ?_⟩
      rw [ofNat_toNat_lt hb2, hb']
      rfl
  next => exact hx.elim

/-! ## Shrinking -/

theorem writeItems_spec : ∀ (items : List (UInt8 × Option Ref)) (idx : Nat) (K : Bytes) (C : List (Option Ref)),
    idx + items.length ≤ K.length → idx + items.length ≤ C.length →
    Node.writeItems items idx K C =
      some (K.take idx ++ items.map (·.1) ++ K.drop (idx + items.length), C.take idx ++ items.map (·.2) ++ C.drop (idx + items.length)) := by
  intro items
  induction items with
  | nil => intro idx K C _ _; simp [Node.writeItems]
  | cons p items ih =>
    intro idx K C hK hC
    obtain ⟨k, c⟩ := p
    simp only [List.length_cons] at hK hC
    unfold Node.writeItems
    rw [setAt_eq (by omega), Option.bind_eq_bind, Option.bind_some, setAt_eq (by omega), Option.bind_eq_bind, Option.bind_some,
      ih (idx + 1) _ _ (by simp; omega) (by simp; omega)]
    have aux : ∀ {α : Type} (l : List α) (x : α), idx < l.length → (l.set idx x).take (idx + 1) = l.take idx ++ [x] := by
      intro α l x h
      rw [List.take_succ, List.take_set_of_le (Nat.le_refl _), List.getElem?_set_self h]
      rfl
    have aux2 : ∀ {α : Type} (l : List α) (x : α), (l.set idx x).drop (idx + 1 + items.length) = l.drop (idx + (items.length + 1)) := by
      intro α l x
      rw [List.drop_set_of_lt (by omega)]
      congr 1
      omega
    simp only [aux _ _ (show idx < K.length by omega), aux _ _ (show idx < C.length by omega), aux2, List.map_cons, List.length_cons,
      List.append_assoc, List.singleton_append]

/-- A list of items with distinct bytes, written into empty arrays. -/
theorem ArrWF.of_items {items : List (UInt8 × Option Ref)} {cap : Nat} (hlen : items.length ≤ cap) (hnd : (items.map (·.1)).Nodup)
    (hs : ∀ p ∈ items, p.2.isSome) :
    ∃ keys children, Node.writeItems items 0 (zeroBytes cap) (nils cap) = some (keys, children) ∧
      ArrWF cap items.length keys children ∧
      ∀ c r, (arrChild items.length keys children c).map (·.1) = some r ↔ (c, some r) ∈ items := by
  refine ⟨_, _, writeItems_spec items 0 _ _ (by simp [zeroBytes]; omega) (by simp [nils]; omega), ?_⟩
  simp only [List.take_zero, List.nil_append, Nat.zero_add]
  have gk : ∀ i : Nat, i < items.length → (items.map (·.1) ++ (zeroBytes cap).drop items.length)[i]? = items[i]?.map (·.1) := by
    intro i hi
    rw [List.getElem?_append_left (by simp; omega), List.getElem?_map]
  have gc : ∀ i : Nat, i < items.length → (items.map (·.2) ++ (nils cap).drop items.length)[i]? = items[i]?.map (·.2) := by
    intro i hi
    rw [List.getElem?_append_left (by simp; omega), List.getElem?_map]
  have hW : ArrWF cap items.length (items.map (·.1) ++ (zeroBytes cap).drop items.length) (items.map (·.2) ++ (nils cap).drop items.length) := by
    refine ⟨by simp [zeroBytes]; omega, by simp [nils]; omega, hlen, ?_, ?_⟩
    · rw [List.take_append_of_le_length (by simp), List.take_of_length_le (by simp)]
      exact hnd
    · intro i hi
      rw [gc i hi, List.getElem?_eq_getElem hi]
      obtain ⟨r, hr⟩ := Option.isSome_iff_exists.mp (hs _ (List.getElem_mem hi))
      exact ⟨r, by simp [hr]⟩
  refine ⟨hW, ?_⟩
  intro c r
  rw [hW.child_iff]
  constructor
  · rintro ⟨i, h1, h2, h3⟩
    rw [gk i h1] at h2
    rw [gc i h1] at h3
    rw [List.getElem?_eq_getElem h1] at h2 h3
    simp only [Option.map_some, Option.some.injEq] at h2 h3
    rw [← h2, ← h3]
    exact List.getElem_mem h1
  · intro hm
    obtain ⟨i, hi⟩ := List.mem_iff_getElem?.mp hm
    have h1 := (List.getElem?_eq_some_iff.mp hi).1
    exact ⟨i, h1, by rw [gk i h1, hi]; rfl, by rw [gc i h1, hi]; rfl⟩

/-- The items of a map, as a list. -/
theorem cnt_items {items : List (UInt8 × Option Ref)} {f : UInt8 → Option Ref} (hnd : (items.map (·.1)).Nodup)
    (hs : ∀ p ∈ items, p.2.isSome) (h : ∀ c r, (c, some r) ∈ items ↔ f c = some r) : cnt f = items.length := by
  rw [cnt_of_list f _ hnd, List.length_map]
  intro b
  rw [Option.isSome_iff_exists, List.mem_map]
  constructor
  · rintro ⟨r, hr⟩
    exact ⟨(b, some r), (h b r).mpr hr, rfl⟩
  · rintro ⟨⟨b', o⟩, hp, rfl⟩
    obtain ⟨r, hr⟩ := Option.isSome_iff_exists.mp (hs _ hp)
    simp only at hr
    subst hr
    exact ⟨r, (h _ _).mp hp⟩

theorem IdxWF.empty : IdxWF 0 (List.replicate 256 0) (nils 48) node48EmptySlots ∧
    ∀ c, idxChild (List.replicate 256 0) (nils 48) c = none := by
  have g : ∀ b i : Nat, (List.replicate 256 0)[b]? ≠ some (i + 1) := by
    intro b i e
    rw [List.getElem?_replicate] at e
    split at e <;> simp at e
  have hno : ∀ c, idxChild (List.replicate 256 0) (nils 48) c = none := by
    intro c
    unfold idxChild
    split
    next e => exact absurd e (g _ _)
    next => rfl
  refine ⟨⟨List.length_replicate, by simp [nils], fun b i e => absurd e (g b i), fun b _ i e => absurd e (g b i), ?_, ?_, ?_⟩, hno⟩
  · intro i hi
    have hs : ∀ i, i < 48 → node48EmptySlots.getLsbD (47 - i) = false := by decide
    rw [hs i hi]
    constructor
    · intro hc
      cases hc
    · rintro ⟨b, hb⟩
      exact absurd hb (g b i)
  · have : ∀ j, j < 64 → 48 ≤ j → node48EmptySlots.getLsbD j = true := by decide
    exact fun j h1 h2 => this j h2 h1
  · simp only [hno]
    simp [cnt]

theorem cnt_mono {f g : UInt8 → Option Ref} (h : ∀ b, (f b).isSome → (g b).isSome) : cnt f ≤ cnt g := by
  apply List.countP_mono_left
  intro b _ hb
  exact h b hb

theorem shrink256Loop_spec {old : List (Option Ref)} (hl : old.length = 256) (key : UInt8) {f : UInt8 → Option Ref}
    (hf : ∀ c : UInt8, f c = if c = key then none else old[c.toNat]?.join) (hcnt : cnt f < 48) :
    ∀ (bs : List UInt8) (num : Nat) (index : List Nat) (children : List (Option Ref)) (slots : Word),
      bs.Nodup → IdxWF num index children slots →
      (∀ c, (idxChild index children c).map (·.1) = if c ∈ bs then none else f c) →
      ∃ index' children' slots', Node.shrink256Loop old key bs index children slots = some (index', children', slots') ∧
        IdxWF (cnt f) index' children' slots' ∧ ∀ c, (idxChild index' children' c).map (·.1) = f c := by
  intro bs
  induction bs with
  | nil =>
    intro num index children slots _ hW hm
    have hm' : ∀ c, (idxChild index children c).map (·.1) = f c := by intro c; rw [hm c]; simp
    have : num = cnt f := by rw [← hW.count, funext hm']
    subst this
    exact ⟨index, children, slots, rfl, hW, hm'⟩
  | cons b bs ih =>
    intro num index children slots hnd hW hm
    rw [List.nodup_cons] at hnd
    unfold Node.shrink256Loop
    have hbl : b.toNat < old.length := by rw [hl]; exact b.toNat_lt
    obtain ⟨o, ho⟩ : ∃ o, old[b.toNat]? = some o := ⟨_, List.getElem?_eq_getElem hbl⟩
    rw [ho]
    have skip : f b = none → ∀ c, (idxChild index children c).map (·.1) = if c ∈ bs then none else f c := by
      intro hfb c
      rw [hm c]
      by_cases hcb : c = b
      · subst hcb
        simp [hnd.1, hfb]
      · simp [hcb]
    cases o with
    | none =>
      simp only
      exact ih num index children slots hnd.2 hW (skip (by rw [hf, ho]; simp))
    | some r =>
      simp only
      split
      next e => exact ih num index children slots hnd.2 hW (skip (by rw [hf, if_pos e]))
      next e =>
        have hfb : f b = some r := by rw [hf, if_neg e, ho]; rfl
        have hlt : num < 48 := by
          rw [← hW.count]
          refine Nat.lt_of_le_of_lt (cnt_mono ?_) hcnt
          intro c
          rw [hm c]
          split <;> simp
        obtain ⟨pos, slots', h1, h2, h3, h4⟩ := hW.insert b r hlt (by
          have := hm b
          simp only [List.mem_cons_self, if_true, Option.map_eq_none_iff] at this
          exact this)
        rw [h1]
        simp only [Option.bind_eq_bind, Option.bind_some]
        rw [setAt_eq (by rw [hW.lenI]; exact b.toNat_lt), Option.bind_some, setAt_eq (by rw [hW.lenC]; omega), Option.bind_some]
        apply ih _ _ _ _ hnd.2 h3
        intro c
        rw [h4 c]
        by_cases hcb : c = b
        · subst hcb
          rw [upd_same]
          simp [hnd.1, hfb]
        · rw [upd_other _ _ hcb, hm c]
          simp [hcb]

/-- The least number of children a node of each type (but node4) can have before it is replaced. -/
def minCount : Nat → Nat
  | 16 => 4
  | 48 => 13
  | 256 => 38
  | _ => 0

theorem shrink_spec {n : Node} (h : n.WF) (b : UInt8) {r : Ref} (h4 : n.cap ≠ 4) (hcnt : cnt n.child = minCount n.cap)
    (hb : n.child b = some r) :
    ∃ n', n.shrink b = some n' ∧ (n'.cap = 4 ∧ n.cap = 16 ∨ n'.cap = 16 ∧ n.cap = 48 ∨ n'.cap = 48 ∧ n.cap = 256) ∧
      Changed n n' (upd n.child b none) n'.cap ∧ n'.version = 0 := by
  have hnum := h.num
  have hcu := cnt_upd n.child b none
  simp only [hb, Option.isSome_some, Option.isSome_none, Bool.toNat_true, Bool.toNat_false, Nat.add_zero] at hcu
  have hx := h
  unfold Node.WF at hx
  unfold Node.shrink
  split at hx
  next keys children e => exact absurd (by simp [Node.cap, e]) h4
  next keys children e =>
    have hcap : n.cap = 16 := by simp [Node.cap, e]
    rw [e]
    simp only
    have hK := hx.lenK
    have hC := hx.lenC
    have hN := hx.num_le
    generalize hit : ((keys.zip children).take n.numChildren.toNat).filter (fun p => p.1 != b) = items
    have hmem : ∀ c o, (c, o) ∈ items ↔ c ≠ b ∧ ∃ i, i < n.numChildren.toNat ∧ keys[i]? = some c ∧ children[i]? = some o := by
      intro c o
      rw [← hit, List.mem_filter, List.mem_iff_getElem?]
      constructor
      · rintro ⟨⟨i, hi⟩, hne⟩
        rw [List.getElem?_take] at hi
        split at hi
        next hlt =>
          rw [List.getElem?_zip_eq_some] at hi
          exact ⟨by simpa using hne, i, hlt, hi.1, hi.2⟩
        next => simp at hi
      · rintro ⟨hne, i, h1, h2, h3⟩
        refine ⟨⟨i, ?_⟩, by simpa using hne⟩
        rw [List.getElem?_take, if_pos h1, List.getElem?_zip_eq_some]
        exact ⟨h2, h3⟩
    have hnd : (items.map (·.1)).Nodup := by
      rw [← hit]
      have e1 : (((keys.zip children).take n.numChildren.toNat).filter (fun p => p.1 != b)).map (·.1) =
          (((keys.zip children).take n.numChildren.toNat).map (·.1)).filter (· != b) := by
        rw [List.filter_map]; rfl
      rw [e1, List.map_take, List.map_fst_zip (by omega)]
      exact hx.nodup.filter _
    have hs : ∀ p ∈ items, p.2.isSome := by
      rintro ⟨c, o⟩ hp
      obtain ⟨-, i, h1, -, h3⟩ := (hmem c o).mp hp
      obtain ⟨r', hr'⟩ := hx.isc i h1
      rw [hr'] at h3
      simp only [Option.some.injEq] at h3
      simp [← h3]
    have hf : ∀ c r', (c, some r') ∈ items ↔ upd n.child b none c = some r' := by
      intro c r'
      rw [hmem]
      by_cases hc : c = b
      · simp [hc]
      · rw [upd_other _ _ hc, child_n16 e, hx.child_iff]
        simp [hc]
    have hlen := cnt_items hnd hs hf
    have h3 : items.length = 3 := by rw [hcap] at hcnt; simp only [minCount] at hcnt; omega
    obtain ⟨keys', children', e1, h1, h2⟩ := ArrWF.of_items (cap := 4) (by omega) hnd hs
    rw [e1, Option.bind_eq_bind, Option.bind_some]
    refine ⟨_, rfl, Or.inl ⟨rfl, hcap⟩, ?_, rfl⟩
    refine Changed.n4 rfl (by rw [h3]; rfl) ⟨rfl, rfl, rfl⟩ h1 ?_
    intro c
    apply Option.ext
    intro r'
    rw [h2, hf]
  next index children slots e =>
    have hcap : n.cap = 48 := by simp [Node.cap, e]
    rw [e]
    simp only
    let g : UInt8 → UInt8 × Option Ref := fun c => (c, (idxChild index children c).map (·.1))
    have hsome : ∀ c : UInt8, index[c.toNat]?.getD 0 ≠ 0 → ∃ i r', index[c.toNat]? = some (i + 1) ∧ children[i]? = some (some r') ∧
        (idxChild index children c).map (·.1) = some r' := by
      intro c hc
      have hcl : c.toNat < index.length := by rw [hx.lenI]; exact c.toNat_lt
      rw [List.getElem?_eq_getElem hcl] at hc ⊢
      simp only [Option.getD_some] at hc
      obtain ⟨i, hi⟩ : ∃ i, index[c.toNat] = i + 1 := ⟨index[c.toNat] - 1, by omega⟩
      have hi' : index[c.toNat]? = some (i + 1) := by rw [List.getElem?_eq_getElem hcl, hi]
      obtain ⟨r', hr'⟩ := hx.isc _ _ hi'
      exact ⟨i, r', by rw [hi], hr', (hx.child_iff c r').mpr ⟨i, hi', hr'⟩⟩
    have e0 : Node.items48 index children b =
        some ((allBytes.filter (fun c => c != b && index[c.toNat]?.getD 0 != 0)).map g) := by
      unfold Node.items48
      rw [mapM_some _ (b, none)]
      · congr 1
        apply List.map_congr_left
        intro c hc
        rw [List.mem_filter] at hc
        simp only [Bool.and_eq_true, bne_iff_ne] at hc
        obtain ⟨i, r', h1, h2, h3⟩ := hsome c hc.2.2
        simp only [h1, Option.bind_eq_bind, Option.bind_some, usub, Nat.le_add_left, if_true, Nat.add_sub_cancel, h2, Option.pure_def,
          Option.getD_some, g, h3]
      · intro c hc
        rw [List.mem_filter] at hc
        simp only [Bool.and_eq_true, bne_iff_ne] at hc
        obtain ⟨i, r', h1, h2, h3⟩ := hsome c hc.2.2
        simp only [h1, Option.bind_eq_bind, Option.bind_some, usub, Nat.le_add_left, if_true, Nat.add_sub_cancel, h2, Option.pure_def,
          Option.isSome_some]
    rw [e0, Option.bind_eq_bind, Option.bind_some]
    generalize hit : (allBytes.filter (fun c => c != b && index[c.toNat]?.getD 0 != 0)).map g = items
    have hnd : (items.map (·.1)).Nodup := by
      rw [← hit, List.map_map]
      have : ((·.1) ∘ g : UInt8 → UInt8) = id := by funext c; rfl
      rw [this, List.map_id]
      exact nodup_allBytes.filter _
    have hs : ∀ p ∈ items, p.2.isSome := by
      intro p hp
      rw [← hit, List.mem_map] at hp
      obtain ⟨c, hc, rfl⟩ := hp
      rw [List.mem_filter] at hc
      simp only [Bool.and_eq_true, bne_iff_ne] at hc
      obtain ⟨i, r', h1, h2, h3⟩ := hsome c hc.2.2
      simp only [g, h3, Option.isSome_some]
    have hf : ∀ c r', (c, some r') ∈ items ↔ upd n.child b none c = some r' := by
      intro c r'
      rw [← hit, List.mem_map]
      constructor
      · rintro ⟨c', hc, hg⟩
        simp only [g, Prod.mk.injEq] at hg
        obtain ⟨rfl, hg⟩ := hg
        rw [List.mem_filter] at hc
        simp only [Bool.and_eq_true, bne_iff_ne] at hc
        rw [upd_other _ _ hc.2.1, child_n48 e]
        exact hg
      · intro hu
        by_cases hc : c = b
        · simp [hc] at hu
        · rw [upd_other _ _ hc, child_n48 e] at hu
          refine ⟨c, ?_, by simp only [g, hu]⟩
          obtain ⟨i, hi, -⟩ := (hx.child_iff c r').mp hu
          rw [List.mem_filter]
          refine ⟨mem_allBytes c, ?_⟩
          simp [hi, hc]
    have hlen := cnt_items hnd hs hf
    have h3 : items.length = 12 := by rw [hcap] at hcnt; simp only [minCount] at hcnt; omega
    obtain ⟨keys', children', e1, h1, h2⟩ := ArrWF.of_items (cap := 16) (by omega) hnd hs
    rw [e1, Option.bind_eq_bind, Option.bind_some]
    refine ⟨_, rfl, Or.inr (Or.inl ⟨rfl, hcap⟩), ?_, rfl⟩
    refine Changed.n16 rfl (by rw [h3]; rfl) ⟨rfl, rfl, rfl⟩ h1 ?_
    intro c
    apply Option.ext
    intro r'
    rw [h2, hf]
  next old e =>
    have hcap : n.cap = 256 := by simp [Node.cap, e]
    have hc37 : cnt (upd n.child b none) = 37 := by rw [hcap] at hcnt; simp only [minCount] at hcnt; omega
    rw [e]
    simp only
    obtain ⟨index', children', slots', e1, h1, h2⟩ := shrink256Loop_spec hx.1 b (f := upd n.child b none)
      (by intro c; rw [child_n256 e]; rfl) (by omega) allBytes 0 (List.replicate 256 0) (nils 48) node48EmptySlots nodup_allBytes
      IdxWF.empty.1 (by intro c; rw [IdxWF.empty.2 c]; simp [mem_allBytes])
    rw [e1, Option.bind_eq_bind, Option.bind_some]
    refine ⟨_, rfl, Or.inr (Or.inr ⟨rfl, hcap⟩), ?_, rfl⟩
    exact Changed.n48 rfl (by rw [hc37]; rfl) ⟨rfl, rfl, rfl⟩ h1 h2
  next => exact hx.elim

end Art
