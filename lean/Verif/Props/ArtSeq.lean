import Verif.Art.Fuel
import Verif.Art.Count

/-!
# The tree used by one thread: C01 - C08, C10, C11, C13

The specification is a map (`Spec.Map`). A call returns if its program returns for some amount of fuel; the order of evaluation that Go
leaves open (`rootFirst`) may be different for every call.
-/

set_option linter.unusedSimpArgs false

namespace Art.Props

open Surf Spec

/-! ## Specification -/

/-- A call. -/
inductive Call where
  | get (key : Bytes)
  | put (key value : Bytes)
  | delete (key : Bytes)
deriving DecidableEq

/-- Keys and values are shorter than 2^32 bytes (`newLeaf` keeps the lengths in 32 bits). -/
def Call.Fits : Call → Prop
  | .put key value => key.length < 2 ^ 32 ∧ value.length < 2 ^ 32
  | _ => True

/-- The effect of a call on a map. -/
def Call.effect : Call → Map → Map
  | .get _, m => m
  | .put k v, m => m.put k v
  | .delete k, m => m.delete k

/-- What a call returns; only `Get` returns something. -/
def Call.answer : Call → Map → Option Bytes
  | .get k, m => m k
  | _, _ => none

/-- The program of a call. -/
def Call.prog : Call → Nat → Prog (Option Bytes)
  | .get k, fuel => Art.get k fuel
  | .put k v, fuel => (Art.put k v fuel).bind fun _ => .ret none
  | .delete k, fuel => (Art.delete k fuel).bind fun _ => .ret none

/-- The call, running alone on the heap `h`, returns `o` and leaves the heap `h'`. -/
def Call.Returns (c : Call) (h : Heap) (o : Option Bytes) (h' : Heap) : Prop :=
  ∃ rf fuel, (c.prog fuel).run rf h = .done o h'

/-- Single-threaded histories, from `New()` on: the calls with what they returned, and the heap they lead to. -/
inductive History : List (Call × Option Bytes) → Heap → Prop
  | new : History [] new
  | call {cs h c o h'} : History cs h → c.Fits → c.Returns h o h' → History (cs ++ [(c, o)]) h'

/-- The map after some calls. -/
def mapOf (cs : List (Call × Option Bytes)) : Map := cs.foldl (fun m c => c.1.effect m) Map.empty

/-! ## Proofs -/

theorem seq_new : Seq new Map.empty := by
  have hcn : ∀ b, newNode4.child b = none := fun b => rfl
  have hv1 : view new 1 = newNode4.view := rfl
  refine ⟨fun _ => [], fun a => a = 1, ⟨1, ?_, ⟨_, rfl, rfl⟩, by simp, ?_⟩, ?_⟩
  · refine ⟨rfl, rfl, rfl, ?_, ?_, ?_, ?_, ?_⟩
    · rintro a b rfl rfl _; rfl
    · rintro n b c rfl hc
      rw [hv1] at hc
      simp [Node.view, hcn] at hc
    · rintro n rfl
      rw [hv1]
      refine ⟨?_, ?_⟩
      · intro b l hl; simp [Node.view, hcn] at hl
      · intro l hl; simp [Node.view, newNode4] at hl
    · rintro n k rfl rfl hne; exact absurd rfl hne
    · intro K v
      constructor
      · intro e; simp [Map.empty] at e
      · rintro ⟨n, l, rfl, hs, -⟩
        rw [hv1] at hs
        rcases hs with hs | ⟨b, hs⟩
        · simp [Node.view, newNode4] at hs
        · simp [Node.view, hcn] at hs
  · rintro a rfl
    refine ⟨newNode4, rfl, ?_, by simp [newNode4], rfl, ?_, fun hh => absurd rfl hh⟩
    · exact newNode4_wf 0 (zeroBytes 8)
    · exact Nat.zero_le _
  · rintro a (rfl | rfl)
    · exact ⟨0, rfl, rfl⟩
    · exact ⟨0, rfl, rfl⟩

theorem prog_mono (c : Call) : ∀ fuel, Prog.Le (c.prog fuel) (c.prog (fuel + 1)) := by
  intro fuel
  cases c with
  | get k => exact get_mono k fuel
  | put k v => exact (put_mono k v fuel).bind fun _ => .refl _
  | delete k => exact (delete_mono k fuel).bind fun _ => .refl _

/-- What a call does on a heap that stands for a map. -/
theorem call_spec {h : Heap} {m : Map} (hs : Seq h m) {c : Call} (hf : c.Fits) (rf : Bool) :
    (∃ N h', Seq h' (c.effect m) ∧ (∀ k, (c = .get k ∨ (c = .delete k ∧ m k = none)) → h' = h) ∧
      ∀ fuel ≥ N, (c.prog fuel).run rf h = .done (c.answer m) h') ∨
    (∃ k, c = .delete k ∧ m k = none ∧ ∀ fuel, (c.prog fuel).run rf h = .diverge) := by
  cases c with
  | get k =>
    obtain ⟨N, hN⟩ := run_get (rf := rf) hs k
    exact Or.inl ⟨N, h, hs, fun _ _ => rfl, hN⟩
  | put k v =>
    obtain ⟨N, hN⟩ := run_put (rf := rf) hs hf.1 hf.2
    obtain ⟨h', g1, g2⟩ := hN N (Nat.le_refl _)
    refine Or.inl ⟨N, h', g2, by simp, ?_⟩
    intro fuel hfu
    have := run_fuel_le (put_mono k v) (rf := rf) (h := h) hfu (by rw [g1]; simp)
    rw [Call.prog, run_bind, this, g1]
    rfl
  | delete k =>
    by_cases hk : m k = none
    · rcases run_delete_absent (rf := rf) hs hk with ⟨N, hN⟩ | hd
      · refine Or.inl ⟨N, h, ?_, fun _ _ => rfl, ?_⟩
        · have : m.delete k = m := by
            funext k'
            simp only [Map.delete]
            split
            next e => rw [e, hk]
            next => rfl
          show Seq h (m.delete k)
          rw [this]
          exact hs
        · intro fuel hfu
          rw [Call.prog, run_bind, hN fuel hfu]
          rfl
      · refine Or.inr ⟨k, rfl, hk, fun fuel => ?_⟩
        rw [Call.prog, run_bind, hd fuel]
        rfl
    · obtain ⟨N, hN⟩ := run_delete (rf := rf) hs hk
      obtain ⟨h', g1, g2⟩ := hN N (Nat.le_refl _)
      refine Or.inl ⟨N, h', g2, ?_, ?_⟩
      · rintro k' (e | ⟨e, hk'⟩)
        · simp at e
        · simp only [Call.delete.injEq] at e
          rw [← e] at hk'
          exact absurd hk' hk
      · intro fuel hfu
        have := run_fuel_le (delete_mono k) (rf := rf) (h := h) hfu (by rw [g1]; simp)
        rw [Call.prog, run_bind, this, g1]
        rfl

theorem returns_spec {h : Heap} {m : Map} (hs : Seq h m) {c : Call} (hf : c.Fits) {o : Option Bytes} {h' : Heap} (hr : c.Returns h o h') :
    o = c.answer m ∧ Seq h' (c.effect m) ∧ ∀ k, (c = .get k ∨ (c = .delete k ∧ m k = none)) → h' = h := by
  obtain ⟨rf, fuel, hr⟩ := hr
  rcases call_spec hs hf rf with ⟨N, h'', g1, g2, g3⟩ | ⟨k, -, -, g3⟩
  · have h1 := run_fuel_le (prog_mono c) (rf := rf) (h := h) (Nat.le_max_left fuel N) (by rw [hr]; simp)
    rw [g3 _ (Nat.le_max_right _ _), hr] at h1
    cases h1
    exact ⟨rfl, g1, g2⟩
  · rw [g3] at hr
    simp at hr

theorem mapOf_snoc (cs : List (Call × Option Bytes)) (c : Call × Option Bytes) : mapOf (cs ++ [c]) = c.1.effect (mapOf cs) := by
  simp [mapOf]

theorem history_seq {cs h} (hh : History cs h) : Seq h (mapOf cs) := by
  induction hh with
  | new => exact seq_new
  | call _ hf hr ih =>
    rw [mapOf_snoc]
    exact (returns_spec ih hf hr).2.1

/-! ## The properties -/

/-- C06: every single-threaded history gives the outputs of a map: after any history, a call that returns gives the answer of the map. -/
theorem C06_refinement {cs : List (Call × Option Bytes)} {h : Heap} (hh : History cs h) {c : Call} (hf : c.Fits) {o : Option Bytes} {h' : Heap}
    (hr : c.Returns h o h') : o = c.answer (mapOf cs) := (returns_spec (history_seq hh) hf hr).1

/-- C06, all outputs of a history at once. -/
theorem C06_outputs {cs : List (Call × Option Bytes)} {h : Heap} (hh : History cs h) :
    ∀ (i : Nat) c o, cs[i]? = some (c, o) → o = c.answer (mapOf (cs.take i)) := by
  induction hh with
  | new => intro i c o e; simp at e
  | @call cs h c o h' hh hf hr ih =>
    intro i c' o' e
    rw [List.getElem?_append] at e
    split at e
    next hlt =>
      rw [List.take_append_of_le_length (by omega)]
      exact ih i c' o' e
    next hge =>
      have : i - cs.length = 0 := by
        by_contra h0
        have hl : 1 ≤ i - cs.length := by omega
        rw [List.getElem?_eq_none (by simpa using hl)] at e
        simp at e
      rw [this] at e
      simp at e
      obtain ⟨rfl, rfl⟩ := e
      have hi : i = cs.length := by omega
      rw [hi, List.take_left']
      · exact C06_refinement hh hf hr
      · rfl

/-- C06: `Get` and `Put` do return, and so does `Delete` of a key that is there. -/
theorem C06_returns {cs : List (Call × Option Bytes)} {h : Heap} (hh : History cs h) {c : Call} (hf : c.Fits)
    (hd : ∀ k, c = .delete k → mapOf cs k ≠ none) (rf : Bool) :
    ∃ N h', ∀ fuel ≥ N, (c.prog fuel).run rf h = .done (c.answer (mapOf cs)) h' := by
  rcases call_spec (history_seq hh) hf rf with ⟨N, h', -, -, g⟩ | ⟨k, g1, g2, -⟩
  · exact ⟨N, h', g⟩
  · exact absurd g2 (hd k g1)

/-- C07: no call of a single-threaded history panics (nor waits for a lock), with any amount of fuel. -/
theorem C07_no_panic {cs : List (Call × Option Bytes)} {h : Heap} (hh : History cs h) {c : Call} (hf : c.Fits) (rf : Bool) (fuel : Nat) :
    (c.prog fuel).run rf h ≠ .panic ∧ (c.prog fuel).run rf h ≠ .blocked := by
  rcases call_spec (history_seq hh) hf rf with ⟨N, h', -, -, g⟩ | ⟨k, -, -, g⟩
  · have h1 := g _ (Nat.le_max_right fuel N)
    by_cases hd : (c.prog fuel).run rf h = .diverge
    · rw [hd]; simp
    · rw [← run_fuel_le (prog_mono c) (rf := rf) (h := h) (Nat.le_max_left fuel N) hd, h1]
      simp
  · rw [g]; simp

/-- C01: after `Put(k, v)`, which returns, `Get(k)` returns `v`. -/
theorem C01_put_get {cs : List (Call × Option Bytes)} {h : Heap} (hh : History cs h) {k v : Bytes} (hk : k.length < 2 ^ 32)
    (hv : v.length < 2 ^ 32) (rf rf' : Bool) :
    ∃ N h', ∀ fuel ≥ N, (put k v fuel).run rf h = .done () h' ∧ (get k fuel).run rf' h' = .done (some v) h' := by
  obtain ⟨N, hN⟩ := run_put (rf := rf) (history_seq hh) hk hv
  obtain ⟨h', g1, g2⟩ := hN N (Nat.le_refl _)
  obtain ⟨N', hN'⟩ := run_get (rf := rf') g2 k
  refine ⟨max N N', h', ?_⟩
  intro fuel hfu
  refine ⟨?_, ?_⟩
  · rw [run_fuel_le (put_mono k v) (rf := rf) (h := h) (Nat.le_trans (Nat.le_max_left N N') hfu) (by rw [g1]; simp), g1]
  · rw [hN' fuel (Nat.le_trans (Nat.le_max_right N N') hfu)]
    simp [Map.put]

/-- What `Get` returns. -/
def Gets (h : Heap) (k : Bytes) (o : Option Bytes) : Prop := (Call.get k).Returns h o h

theorem gets_iff {h : Heap} {m : Map} (hs : Seq h m) (k : Bytes) (o : Option Bytes) : Gets h k o ↔ o = m k := by
  constructor
  · intro hg
    exact (returns_spec hs (c := .get k) trivial hg).1
  · rintro rfl
    obtain ⟨N, hN⟩ := run_get (rf := true) hs k
    exact ⟨true, N, hN N (Nat.le_refl _)⟩

/-- C02: `Put(k, v)` does not change what `Get(k')` returns. -/
theorem C02_put_frame {cs : List (Call × Option Bytes)} {h : Heap} (hh : History cs h) {k v k' : Bytes} (hk : k.length < 2 ^ 32)
    (hv : v.length < 2 ^ 32) (hne : k' ≠ k) {o : Option Bytes} {h' : Heap} (hr : (Call.put k v).Returns h o h') (x : Option Bytes) :
    Gets h' k' x ↔ Gets h k' x := by
  have hs := history_seq hh
  have := (returns_spec hs (c := .put k v) ⟨hk, hv⟩ hr).2.1
  rw [gets_iff this, gets_iff hs]
  simp [Call.effect, Map.put, hne]

/-- C03: `Delete(k)` of a key that is there returns, and after it `Get(k)` reports not found. -/
theorem C03_delete_get {cs : List (Call × Option Bytes)} {h : Heap} (hh : History cs h) {k v : Bytes} (hk : Gets h k (some v)) (rf rf' : Bool) :
    ∃ N h', ∀ fuel ≥ N, (delete k fuel).run rf h = .done () h' ∧ (get k fuel).run rf' h' = .done none h' := by
  have hs := history_seq hh
  have hk' := (gets_iff hs k _).mp hk
  obtain ⟨N, hN⟩ := run_delete (rf := rf) hs (key := k) (by rw [← hk']; simp)
  obtain ⟨h', g1, g2⟩ := hN N (Nat.le_refl _)
  obtain ⟨N', hN'⟩ := run_get (rf := rf') g2 k
  refine ⟨max N N', h', ?_⟩
  intro fuel hfu
  refine ⟨?_, ?_⟩
  · rw [run_fuel_le (delete_mono k) (rf := rf) (h := h) (Nat.le_trans (Nat.le_max_left N N') hfu) (by rw [g1]; simp), g1]
  · rw [hN' fuel (Nat.le_trans (Nat.le_max_right N N') hfu)]
    simp [Map.delete]

/-- C04: `Delete(k)` does not change what `Get(k')` returns. -/
theorem C04_delete_frame {cs : List (Call × Option Bytes)} {h : Heap} (hh : History cs h) {k k' : Bytes} (hne : k' ≠ k) {o : Option Bytes}
    {h' : Heap} (hr : (Call.delete k).Returns h o h') (x : Option Bytes) : Gets h' k' x ↔ Gets h k' x := by
  have hs := history_seq hh
  have := (returns_spec hs (c := .delete k) trivial hr).2.1
  rw [gets_iff this, gets_iff hs]
  simp [Call.effect, Map.delete, hne]

/-- C05, without the claim that the call returns: a `Delete(k)` of a key that is not there leaves the heap as it is if it returns; and if
it does not return, it goes on forever (it does not panic). The full claim is false, see `C05_violated`. -/
theorem C05_delete_absent_partial {cs : List (Call × Option Bytes)} {h : Heap} (hh : History cs h) {k : Bytes} (hk : Gets h k none) :
    (∀ o h', (Call.delete k).Returns h o h' → h' = h) ∧
    ∀ rf, (∃ N, ∀ fuel ≥ N, (delete k fuel).run rf h = .done () h) ∨ ∀ fuel, (delete k fuel).run rf h = .diverge := by
  have hs := history_seq hh
  have hk' := (gets_iff hs k _).mp hk
  refine ⟨?_, fun rf => run_delete_absent hs hk'.symm⟩
  intro o h' hr
  exact (returns_spec hs (c := .delete k) trivial hr).2.2 k (Or.inr ⟨rfl, hk'.symm⟩)

/-- C08: `Put` is through at the first attempt: the descent `insert` returns true. -/
theorem C08_put_once {cs : List (Call × Option Bytes)} {h : Heap} (hh : History cs h) {k v : Bytes} (hk : k.length < 2 ^ 32)
    (hv : v.length < 2 ^ 32) (rf : Bool) :
    ∃ N, ∀ fuel ≥ N, ∃ h', (start fun r pv => insert k v fuel 0 0 pv r (0, 0)).run rf h = .done true h' ∧
      (put k v (fuel + 1)).run rf h = .done () h' := by
  obtain ⟨E, live, ⟨root, ht⟩, hc⟩ := history_seq hh
  obtain ⟨N, hN⟩ := exists_bound E h.length
  obtain ⟨n, hl, hn, hp, hE, -⟩ := ht.root_facts
  refine ⟨N + 3, ?_⟩
  intro fuel hf
  obtain ⟨pv, hpv, h4, hrun⟩ := run_start (rf := rf) ht hc (fun r pv => insert k v fuel 0 0 pv r (0, 0))
  obtain ⟨h', g1, g2⟩ := run_insert (rf := rf) ht hc hk hv (fun a ha => hN a (ht.lt ha)) fuel 0 pv root (0, 0) n
    ⟨hl, hn, by rw [hp, hE]; rfl, .root 0⟩ hpv (by simp) (by omega)
  refine ⟨h', by rw [hrun, g1], ?_⟩
  rw [put, run_bind, hrun, g1]
  rfl

/-- C08: `Get` is through at the first attempt: `search` does not ask for a restart. -/
theorem C08_get_once {cs : List (Call × Option Bytes)} {h : Heap} (hh : History cs h) (k : Bytes) (rf : Bool) :
    ∃ N x, ∀ fuel ≥ N, (start fun r pv => search k fuel 0 0 pv r).run rf h = .done (some x) h ∧
      (get k (fuel + 1)).run rf h = .done x h := by
  obtain ⟨E, live, ⟨root, ht⟩, hc⟩ := history_seq hh
  obtain ⟨N, hN⟩ := exists_bound E h.length
  obtain ⟨n, hl, hn, hp, hE, -⟩ := ht.root_facts
  refine ⟨N, mapOf cs k, ?_⟩
  intro fuel hf
  obtain ⟨v, hv, h4, hrun⟩ := run_start (rf := rf) ht hc (fun r v => search k fuel 0 0 v r)
  have g := run_search (rf := rf) ht hc k (fun a ha => hN a (ht.lt ha)) fuel 0 0 v root n hl hn (by rw [hp, hE]; rfl) hv (Nat.zero_le _)
    (Or.inl (by simp)) (by omega)
  refine ⟨by rw [hrun, g], ?_⟩
  rw [get, run_bind, hrun, g]
  rfl

/-- The nodes that can be reached from the root of the tree. -/
inductive InTree (h : Heap) : Addr → Prop
  | root {d r} : h[0]? = some d → d.kids = .dummy (some (.node r)) → InTree h r
  | child {a : Addr} {n b c} : InTree h a → h[a]? = some n → n.child b = some (.node c) → InTree h c

/-- C11: the tree has at most one inner node more than there are keys in it: for different inner nodes `L` there are as many different
keys, but one. -/
theorem C11_space {cs : List (Call × Option Bytes)} {h : Heap} (hh : History cs h) (L : List Addr) (hn : L.Nodup) (hL : ∀ a ∈ L, InTree h a) :
    ∃ Ks : List Bytes, Ks.Nodup ∧ (∀ K ∈ Ks, ∃ v, Gets h K (some v)) ∧ L.length ≤ Ks.length + 1 := by
  have hs := history_seq hh
  obtain ⟨E, live, ⟨root, ht⟩, hc⟩ := hs
  have hlive : ∀ a, InTree h a → live a := by
    intro a ha
    induction ha with
    | root h1 h2 =>
      obtain ⟨d, g1, g2⟩ := ht.dummy
      rw [h1] at g1
      cases g1
      rw [h2] at g2
      cases g2
      exact ht.tree.root_live
    | child _ h1 h2 ih => exact (ht.child_node ih h1 h2).1
  obtain ⟨Ks, g1, g2, g3⟩ := ht.count L hn (fun a ha => hlive a (hL a ha))
  refine ⟨Ks, g1, ?_, g3⟩
  intro K hK
  obtain ⟨v, hv⟩ := Option.ne_none_iff_exists'.mp (g2 K hK)
  exact ⟨v, (gets_iff (history_seq hh) K _).mpr hv.symm⟩

/-- C10: a key that was not put (or was deleted) is not found, however much it agrees with the bytes that compressed edges keep; and its
`Delete` does not touch anything. -/
theorem C10_optimistic {cs : List (Call × Option Bytes)} {h : Heap} (hh : History cs h) {k : Bytes} (hk : mapOf cs k = none) :
    (∀ o h', (Call.get k).Returns h o h' → o = none ∧ h' = h) ∧ (∀ o h', (Call.delete k).Returns h o h' → h' = h) := by
  have hs := history_seq hh
  refine ⟨?_, ?_⟩
  · intro o h' hr
    have := returns_spec hs (c := .get k) trivial hr
    exact ⟨by rw [this.1]; exact hk, this.2.2 k (Or.inl rfl)⟩
  · intro o h' hr
    exact (returns_spec hs (c := .delete k) trivial hr).2.2 k (Or.inr ⟨rfl, hk⟩)

/-- C13: `Get` returns and leaves the heap as it is (so later calls cannot tell). -/
theorem C13_get_readonly {cs : List (Call × Option Bytes)} {h : Heap} (hh : History cs h) (k : Bytes) (rf : Bool) :
    (∃ N o, ∀ fuel ≥ N, (get k fuel).run rf h = .done o h) ∧ ∀ fuel o h', (get k fuel).run rf h = .done o h' → h' = h := by
  have hs := history_seq hh
  refine ⟨?_, ?_⟩
  · obtain ⟨N, hN⟩ := run_get (rf := rf) hs k
    exact ⟨N, _, hN⟩
  · intro fuel o h' hr
    exact (returns_spec hs (c := .get k) trivial ⟨rf, fuel, hr⟩).2.2 k (Or.inl rfl)

/-! ## Examples and the counterexample -/

/-- The heap after some calls, each with 30 units of fuel. -/
def runCalls (h : Heap) : List Call → Option (List (Call × Option Bytes) × Heap)
  | [] => some ([], h)
  | c :: cs =>
    match (c.prog 30).run true h with
    | .done o h' => (runCalls h' cs).map fun x => ((c, o) :: x.1, x.2)
    | _ => none

theorem history_of_run : ∀ (cs : List Call) (h : Heap) (pre rest : List (Call × Option Bytes)) (h' : Heap), (∀ c ∈ cs, c.Fits) → History pre h →
    runCalls h cs = some (rest, h') → History (pre ++ rest) h' := by
  intro cs
  induction cs with
  | nil =>
    intro h pre rest h' _ hh e
    simp only [runCalls, Option.some.injEq, Prod.mk.injEq] at e
    obtain ⟨rfl, rfl⟩ := e
    simpa using hh
  | cons c cs ih =>
    intro h pre rest h' hf hh e
    unfold runCalls at e
    split at e
    next o h1 hr =>
      rw [Option.map_eq_some_iff] at e
      obtain ⟨⟨x, y⟩, e1, e2⟩ := e
      cases e2
      have := ih h1 (pre ++ [(c, o)]) x y (fun c hc => hf c (by simp [hc])) (.call hh (hf c (by simp)) ⟨true, 30, hr⟩) e1
      simpa using this
    next => simp at e

instance (c : Call) : Decidable c.Fits := by
  cases c <;> unfold Call.Fits <;> infer_instance

/-- A history that makes nodes split, grow, shrink, and merge over a compressed edge of 11 bytes. -/
def sample : List Call :=
  let k (j : UInt8) : Bytes := [3, 7, 7, 7, 7, 7, 7, 7, 7, 7, 7, j]
  [.put (k 0) [0], .put (k 1) [1], .put (k 2) [2], .put (k 3) [3], .put (k 4) [4], .put [3, 7] [5], .put [] [6], .put (k 2) [7],
    .get (k 2), .delete (k 0), .delete (k 1), .delete (k 4), .delete (k 3), .get [3, 7], .delete [3, 7], .put [3, 7, 8] [8], .get (k 2)]

theorem sample_runs : (runCalls new sample).isSome = true := by decide +kernel

theorem sample_history : ∃ h, History ((runCalls new sample).get sample_runs).1 h :=
  ⟨_, history_of_run sample new [] _ _ (by decide) .new (Option.some_get sample_runs).symm⟩

/-- The outputs in this history. -/
example : ((runCalls new sample).get sample_runs).1.map (·.2) =
    [none, none, none, none, none, none, none, none, some [7], none, none, none, none, some [5], none, none, some [7]] := by decide +kernel

/-- A key that agrees with a stored key in the 8 bytes kept for a compressed edge, and in the byte after the edge, but not in between: it is
not found (C10). -/
example : ((runCalls new [.put [3, 7, 7, 7, 7, 7, 7, 7, 7, 7, 7, 1] [1], .put [3, 7, 7, 7, 7, 7, 7, 7, 7, 7, 7, 2] [2],
    .get [3, 7, 7, 7, 7, 7, 7, 7, 7, 9, 7, 2]]).map fun x => x.1.map (·.2)) = some [none, none, none] := by decide +kernel

/-- The tree that holds just "hello". -/
def helloTree : Heap :=
  match (put [104, 101, 108, 108, 111] [1] 10).run true new with
  | .done _ h => h
  | _ => []

theorem helloTree_history : History [(.put [104, 101, 108, 108, 111] [1], none)] helloTree :=
  .call (cs := []) .new (by decide) ⟨true, 10, by decide +kernel⟩

theorem hello_remove (rf : Bool) (fuel : Nat) :
    (start fun r v => remove [104, 102, 111, 111] (fuel + 1) 0 0 v r (0, 0)).run rf helloTree = .done false helloTree := by
  cases rf <;> rfl

/-- C05 is false: on the tree that holds just "hello", `Delete("hfoo")` never returns (art.go:318 negates the result of the version
check, so the call is restarted forever). -/
theorem C05_violated : ∃ cs h k, History cs h ∧ mapOf cs k = none ∧ ∀ rf fuel, (delete k fuel).run rf h = .diverge := by
  refine ⟨_, _, [104, 102, 111, 111], helloTree_history, by decide, ?_⟩
  intro rf fuel
  induction fuel with
  | zero => rfl
  | succ fuel ih =>
    cases fuel with
    | zero => cases rf <;> rfl
    | succ fuel =>
      rw [delete, run_bind, hello_remove]
      exact ih

/-- So the claim C05 does not hold for all histories. -/
theorem C05_false : ¬ ∀ cs h k, History cs h → mapOf cs k = none → ∃ o h', (Call.delete k).Returns h o h' := by
  intro hall
  obtain ⟨cs, h, k, h1, h2, h3⟩ := C05_violated
  obtain ⟨o, h', rf, fuel, hr⟩ := hall cs h k h1 h2
  rw [Call.prog, run_bind, h3] at hr
  simp [Out.andThen] at hr

end Art.Props
