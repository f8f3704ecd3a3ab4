/-!
# Model of `surf/bits.go`, `surf/bits_amd64.s`

`none` is a Go run-time panic (index out of range).
-/

namespace Surf

/-- `uint64` words of a bit vector. -/
abbrev Word := BitVec 64
/-- `[]byte` -/
abbrev Bytes := List UInt8

/-- bits.go:10 `wordSize` -/
def wordSize : Nat := 64

/-- The 64 bits of a word, least significant first. (Not in the code: the reading of a word as a bit sequence.) -/
def wbits (w : Word) : List Bool := (List.range 64).map w.getLsbD

/-- The bit sequence of a slice of words. (Not in the code: specification view.) -/
def bitsOf (ws : List Word) : List Bool := ws.flatMap wbits

/-- Go standard library `bits.OnesCount64`, by its documented meaning. -/
def onesCount (w : Word) : Nat := (wbits w).count true

/-- Go standard library `bits.TrailingZeros64`, by its documented meaning (64 for 0). -/
def trailingZeros (w : Word) : Nat := (wbits w).findIdx (· == true)

/-- Go standard library `bits.LeadingZeros64`, by its documented meaning (64 for 0). -/
def leadingZeros (w : Word) : Nat := (wbits w).reverse.findIdx (· == true)

/-- bits.go:24-26 `findFirstSet`. The Go `int` argument is carried as its 64-bit pattern. -/
def findFirstSet (x : Word) : Nat := trailingZeros (x &&& (-x)) + 1

/-- bits.go:28-39 `selectInByte`: the `for ; j != 0; j--` loop is the recursion on `j`,
`r` is the accumulator. `i` is non-negative, so `i >>= s` is a logical shift. -/
def selectInByteLoop (i : Word) (r : Nat) : Nat → Nat
  | 0 => if i = 0#64 then 8 else r + findFirstSet i - 1
  | j + 1 => selectInByteLoop (i >>> findFirstSet i) (r + findFirstSet i) j

/-- bits.go:28-39 `selectInByte` -/
def selectInByte (i : Word) (j : Nat) : Nat := selectInByteLoop i 0 j

/-- bits.go:14-22 the table `selectInByteLut [256][8]int` filled by `init`; indexing past 256 or 8 panics. -/
def selectInByteLut (i : Word) (j : Word) : Option Nat :=
  if i.toNat < 256 ∧ j.toNat < 8 then some (selectInByte i j.toNat) else none

/-- bits.go:43 -/
def onesStep4 : Word := 0x1111111111111111#64
/-- bits.go:44 -/
def onesStep8 : Word := 0x0101010101010101#64
/-- bits.go:45 -/
def msbsStep8 : Word := 0x80#64 * onesStep8

/-- bits.go:49-52: the number of set bits of each byte -/
def bytePopcounts (x : Word) : Word :=
  let s := x
  let s := s - ((s &&& (0xa#64 * onesStep4)) >>> 1)
  let s := (s &&& (0x3#64 * onesStep4)) + ((s >>> 2) &&& (0x3#64 * onesStep4))
  (s + (s >>> 4)) &&& (0xf#64 * onesStep8)

/-- bits.go:57-59: `select64Broadword` once `byteSums` and the number `m` of whole bytes to skip are known -/
def selectFromByte (x byteSums k : Word) (m : Nat) : Option Nat :=
  let place := m * 8
  let byteRank := k - (((byteSums <<< 8) >>> place) &&& 0xff#64)
  match selectInByteLut ((x >>> place) &&& 0xff#64) byteRank with
  | some r => some (place + r)
  | none => none

/-- bits.go:55-56: one flag per byte, set when the bits up to this byte do not suffice -/
def geqFlags (byteSums k : Word) : Word :=
  let step8 := k * onesStep8
  ((step8 ||| msbsStep8) - byteSums) &&& msbsStep8

/-- bits.go:41-60 `select64Broadword`. `nth : int64` is taken as a natural number (rank ≥ 1 at all call sites);
`k := uint64(nth-1)`. -/
def select64Broadword (x : Word) (nth : Nat) : Option Nat :=
  let k : Word := BitVec.ofNat 64 nth - 1#64
  let byteSums := bytePopcounts x * onesStep8
  selectFromByte x byteSums k (onesCount (geqFlags byteSums k))

/-- x86 `PDEP src mask`, by its documented meaning: bit `p` of the result is the bit of `src` indexed by the
number of set mask bits below `p`, if `mask` has bit `p`, else 0. -/
def pdep (src mask : Word) : Word :=
  (List.range 64).foldl (fun acc p =>
    if mask.getLsbD p && src.getLsbD (((wbits mask).take p).count true) then acc ||| (1#64 <<< p) else acc) 0

/-- bits_amd64.s:3-21 `select64`: with BMI2, `DEC k; 1<<k; PDEP; TZCNT`; otherwise the portable version.
(x86 `SHLQ` masks the count to 6 bits: rank-1 ≤ 63 at all valid calls.) -/
def select64 (hasBMI2 : Bool) (x : Word) (k : Nat) : Option Nat :=
  if hasBMI2 then some (trailingZeros (pdep (1#64 <<< ((k - 1) % 64)) x))
  else select64Broadword x k

/-- bits.go:71-73: the loop summing `OnesCount64(bs[off+i])` for `i < lastWord` -/
def popcountLoop (bs : List Word) (off : Nat) : Nat → Option Nat
  | 0 => some 0
  | i + 1 => do
    let p ← popcountLoop bs off i
    let w ← bs[off + i]?
    return p + onesCount w

/-- bits.go:62-76 `popcountBlock` -/
def popcountBlock (bs : List Word) (off nbits : Nat) : Option Nat :=
  if nbits = 0 then some 0 else do
    let lastWord := (nbits - 1) / 64
    let lastBits := (nbits - 1) % 64
    let p ← popcountLoop bs off lastWord
    let w ← bs[off + lastWord]?
    let last := w <<< (64 - 1 - lastBits)
    return p + onesCount last

/-- bits.go:78-82 `readBit` -/
def readBit (bs : List Word) (pos : Nat) : Option Bool := do
  let w ← bs[pos / 64]?
  return (w &&& (1#64 <<< (pos % 64))) != 0#64

/-- bits.go:84-88 `setBit` (returns the updated slice) -/
def setBit (bs : List Word) (pos : Nat) : Option (List Word) := do
  let w ← bs[pos / 64]?
  return bs.set (pos / 64) (w ||| (1#64 <<< (pos % 64)))

/-- bits.go:90-92 `align`: `(off + 7) & ^7` for non-negative `off` -/
def align (off : Nat) : Nat := (off + 7) / 8 * 8

end Surf
