import Verif.Model.Format
/-
`operator<<` on a stream whose device may refuse characters (a full disk, a closed pipe, a buffer of fixed size).
-/
namespace BN

/-- A device: whether it takes the character that is offered after the characters it already took. -/
abbrev Device := List Char → Char → Bool

/-- An output stream: flags, `good()`, whether `exceptions()` asks for an exception when a write fails, and what its device took. -/
structure Ostream where
  fmt : Fmt := {}
  good : Bool := true
  raises : Bool := false
  written : List Char := []
  deriving DecidableEq, Repr

namespace Ostream

/-- The characters of one formatted output go to the device one after the other; the first one that is refused sets `badbit`
and ends the output ([ostream.formatted.reqmts], [facet.num.put.virtuals] stage 4). -/
def send (dev : Device) : Ostream → List Char → Ostream
  | s, [] => s
  | s, c :: cs => if dev s.written c then send dev { s with written := s.written ++ [c] } cs else { s with good := false }

/-- One formatted output.  The sentry keeps a stream that is not `good()` from writing; the error is the stream at the time when
`std::ios_base::failure` is thrown. -/
def formatted (dev : Device) (s : Ostream) (piece : Fmt → List Char × Fmt) : Except Ostream Ostream :=
  if s.good then
    let s' := send dev { s with fmt := (piece s.fmt).2 } (piece s.fmt).1
    if s'.raises && !s'.good then .error s' else .ok s'
  else .ok s

end Ostream

namespace Bignum

/-- The output loop, bn_type_impl.h:39-42 -/
def writeDigits (dev : Device) (L : Limits) : Ostream → List Nat → Except Ostream Ostream
  | s, [] => .ok s
  | s, d :: ds => do
    let s ← s.formatted dev (putDigit L · d)
    writeDigits dev L s ds

/-- `operator<<`, bn_type_impl.h:18-45 -/
def writeTo (dev : Device) (L : Limits) (s : Ostream) (b : Bignum) : Except Ostream Ostream := do
  match b.desc with
  | .posInf => s.formatted dev (·.putText ['+', 'I', 'N', 'F'])                  -- lines 22-24
  | .negInf => s.formatted dev (·.putText ['-', 'I', 'N', 'F'])                  -- lines 25-27
  | .nan => s.formatted dev (·.putText ['N', 'a', 'N'])                          -- lines 28-30
  | .neg =>
    let s ← s.formatted dev (·.putText ['-'])                                    -- lines 19-21
    if b.digits.length = 0 then s.formatted dev (·.putText ['0'])                -- lines 34-36
    else writeDigits dev L s b.digits.reverse
  | .pos =>
    if b.digits.length = 0 then s.formatted dev (·.putText ['0'])
    else writeDigits dev L s b.digits.reverse

/-- `os << b1 << b2 << …` -/
def writeAll (dev : Device) (L : Limits) : Ostream → List Bignum → Except Ostream Ostream
  | s, [] => .ok s
  | s, b :: bs => do
    let s ← writeTo dev L s b
    writeAll dev L s bs

end Bignum
end BN
