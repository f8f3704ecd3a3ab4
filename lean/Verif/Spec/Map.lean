import Verif.Surf.Vec

/-! # Specification: a finite map from keys to values -/

namespace Spec

open Surf (Bytes)

/-- What a key-value store holds. -/
abbrev Map := Bytes → Option Bytes

/-- The empty store. -/
def Map.empty : Map := fun _ => none

/-- Put a value under a key. -/
def Map.put (m : Map) (k v : Bytes) : Map := fun k' => if k' = k then some v else m k'

/-- Delete a key. -/
def Map.delete (m : Map) (k : Bytes) : Map := fun k' => if k' = k then none else m k'

end Spec
