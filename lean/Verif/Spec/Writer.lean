/-!
# Specification of `io.Writer` (independent of the model)

A writer is an arbitrary state machine: given its state and the bytes handed to `Write`, it says how many bytes it took,
whether it fails and with which error, and its next state.
-/

namespace Spec

/-- An `io.Writer` with states `σ` and errors `ε`. -/
abbrev Writer (σ ε : Type) := σ → List UInt8 → Nat × Option ε × σ

/-- The contract of `io.Writer`: it takes at most the bytes offered, and all of them if it returns no error. -/
def Writer.Lawful {σ ε : Type} (w : Writer σ ε) : Prop :=
  ∀ s p, (w s p).1 ≤ p.length ∧ ((w s p).2.1 = none → (w s p).1 = p.length)

/-- A record of one `Write` call: what was offered, how much was taken, and the error returned. -/
structure Call (ε : Type) where
  offered : List UInt8
  taken : Nat
  err : Option ε

/-- All the bytes the writer took, in order. -/
def reached {ε : Type} (log : List (Call ε)) : List UInt8 := log.flatMap (fun c => c.offered.take c.taken)

/-- Code that writes and returns an error or nothing; the state records the writer's state and all calls so far. -/
abbrev WriterM (σ ε : Type) := ExceptT ε (StateM (σ × List (Call ε)))

/-- One call of `Write`; the caller returns the error at once (`if _, err := w.Write(p); err != nil { return err }`). -/
def Writer.call {σ ε : Type} (w : Writer σ ε) (p : List UInt8) : WriterM σ ε Unit :=
  ExceptT.mk fun (s, log) =>
    let (n, e, s') := w s p
    (match e with | none => .ok () | some e => .error e, (s', log ++ [⟨p, n, e⟩]))

end Spec
