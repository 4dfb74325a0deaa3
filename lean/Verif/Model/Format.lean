import Verif.Model.Type
/-
`operator<<` on a stream with formatting flags: the manipulators `std::dec/oct/hex`, `std::showbase`, `std::uppercase`,
`std::left/right/internal`, `std::setfill` and `std::setw`.  C locale (no digit grouping).
-/
namespace BN

/-- `ios_base::basefield` -/
inductive Radix where
  | dec | oct | hex
  deriving DecidableEq, Repr

def Radix.base : Radix → Nat
  | .dec => 10
  | .oct => 8
  | .hex => 16

/-- `ios_base::adjustfield`; no flag set means `right`. -/
inductive Adjust where
  | right | left | internal
  deriving DecidableEq, Repr

/-- The part of the state of a stream that controls formatted output of integers, characters and strings.  (`std::showpos` has no effect
on unsigned integers.) -/
structure Fmt where
  radix : Radix := .dec
  showbase : Bool := false
  upper : Bool := false
  adjust : Adjust := .right
  fill : Char := ' '
  width : Nat := 0
  deriving DecidableEq, Repr

namespace Fmt

/-- `std::uppercase` on one character of a numeral -/
def letter (f : Fmt) (c : Char) : Char := if f.upper then c.toUpper else c

/-- What stage 1 of [facet.num.put.virtuals] puts before the digits of an unsigned integer: `%#o`, `%#x`, `%#X`. -/
def prefixOf (f : Fmt) (v : Nat) : List Char :=
  if f.showbase ∧ v ≠ 0 then
    match f.radix with
    | .dec => []
    | .oct => ['0']
    | .hex => ['0', f.letter 'x']
  else []

/-- The fill characters needed for a text of `n` characters -/
def padding (f : Fmt) (n : Nat) : List Char := List.replicate (f.width - n) f.fill

/-- Formatted output of a character or a string ([ostream.formatted.reqmts]): padded to the width, which is then set to zero. -/
def putText (f : Fmt) (t : List Char) : List Char × Fmt :=
  (if f.adjust = .left then t ++ f.padding t.length else f.padding t.length ++ t, { f with width := 0 })

/-- Formatted output of an unsigned integer ([facet.num.put.virtuals], stages 1 to 4). -/
def putInt (f : Fmt) (v : Nat) : List Char × Fmt :=
  let p := f.prefixOf v
  let t := (Nat.toDigits f.radix.base v).map f.letter
  let pad := f.padding (p.length + t.length)
  (match f.adjust with
    | .left => p ++ t ++ pad
    | .right => pad ++ p ++ t
    | .internal => if p.length = 2 then p ++ pad ++ t else pad ++ p ++ t, { f with width := 0 })

end Fmt

namespace Bignum

/-- `ostr << digit`: 8-bit digits are characters (see `showDigit`). -/
def putDigit (L : Limits) (f : Fmt) (d : Nat) : List Char × Fmt :=
  if L.single.raw.bits = 8 then f.putText [Char.ofNat d] else f.putInt d

/-- The output loop, bn_type_impl.h:39-42, over the digits from the most significant one on -/
def putDigits (L : Limits) : Fmt → List Nat → List Char × Fmt
  | f, [] => ([], f)
  | f, d :: ds =>
    let (t, f') := putDigit L f d
    let (u, f'') := putDigits L f' ds
    (t ++ u, f'')

/-- `operator<<`, bn_type_impl.h:18-45, on a stream in formatting state `f`: the characters written and the state afterwards -/
def put (L : Limits) (f : Fmt) (b : Bignum) : List Char × Fmt :=
  match b.desc with
  | .posInf => f.putText ['+', 'I', 'N', 'F']                                    -- lines 22-24
  | .negInf => f.putText ['-', 'I', 'N', 'F']                                    -- lines 25-27
  | .nan => f.putText ['N', 'a', 'N']                                            -- lines 28-30
  | .neg =>
    let (s, f') := f.putText ['-']                                               -- lines 19-21
    let (t, f'') := if b.digits.length = 0 then f'.putText ['0'] else putDigits L f' b.digits.reverse
    (s ++ t, f'')
  | .pos => if b.digits.length = 0 then f.putText ['0'] else putDigits L f b.digits.reverse

end Bignum
end BN
