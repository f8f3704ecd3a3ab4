import Verif.Surf.Receive
import Verif.Surf.Alias

/-!
# A restored filter shares the memory of the slice it was restored from

`Verif.Surf.Receive` gives the restored filter copies of what it finds in the slice. In Go its vectors are parts of the slice (bits_vec.go:198, `buf[cursor : cursor+sz]`), with a capacity that reaches to that of the slice.
Here the places of the values in the slice are kept. What the filter holds of the rest of the slice (bits, look-up tables, labels, prefixes) lies in front of the values, and is never handed out.
-/

namespace Surf

/-- A restored filter: `s` as it was when it was restored, the memory of the slice up to its capacity, and where in it the dense and the sparse values begin. -/
structure Shared where
  s : SuRF
  mem : Bytes
  dense : Nat
  sparse : Nat

/-- surf.go:78-84 `Unmarshal(b)` of a new `SuRF`; the values begin 8 bytes into their sections (bits_vec.go:190-202). -/
def Shared.receive (b : Buf) : Option Shared := do
  let (ld, b1) ← LoudsDense.receive {} b
  let (ls, b2) ← LoudsSparse.receive {} b1
  let (dv, b3) ← ValueVector.receive b2
  let (sv, _) ← ValueVector.receive b3
  return ⟨{ ld := { ld with values := dv }, ls := { ls with values := sv } }, b.data ++ b.spare, b.data.length - b2.data.length + 8, b.data.length - b3.data.length + 8⟩

namespace Shared

/-- Where the values of a vector begin. -/
def base (x : Shared) (dense : Bool) : Nat := if dense then x.dense else x.sparse

/-- A value vector as it is in memory now. -/
def vec (x : Shared) (dense : Bool) : ValueVector := { x.s.vec dense with bytes := (x.mem.drop (x.base dense)).take (x.s.vec dense).bytes.length }

/-- The filter as it is now. -/
def filter (x : Shared) : SuRF := x.s.reval (x.vec true) (x.vec false)

/-- Where in memory a slice returned by `Get` begins (bits_vec.go:155-158). -/
def off (x : Shared) (p : Ref) : Nat := x.base p.1 + p.2 * (x.s.vec p.1).valueSize

end Shared

end Surf
