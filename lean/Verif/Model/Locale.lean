import Verif.Model.Format
/-
`operator<<` on a stream with a locale that groups the digits of integers (`os.imbue(std::locale("de_DE"))`).
-/
namespace BN

/-- The facet `std::numpunct<char>`: `grouping()` as a list of group sizes from the right, the last one repeating (0 stands for
values that end the grouping: not positive or `CHAR_MAX`), and `thousands_sep()`. -/
structure Punct where
  grouping : List Nat
  sep : Char

/-- The classic locale "C". -/
def Punct.classic : Punct := ⟨[], ','⟩

/-- Insertion of separators ([facet.num.put.virtuals], stage 2; `std::__add_grouping` of libstdc++). -/
def insertSep (sep : Char) (g : List Nat) (t : List Char) : List Char :=
  match g with
  | [] => t
  | n :: rest =>
    if 0 < n ∧ n < t.length then
      insertSep sep (if rest = [] then [n] else rest) (t.take (t.length - n)) ++ sep :: t.drop (t.length - n)
    else t
termination_by t.length
decreasing_by simp; omega

/-- Formatted output of an unsigned integer; the base prefix is not grouped. -/
def Fmt.putIntL (l : Punct) (f : Fmt) (v : Nat) : List Char × Fmt :=
  let p := f.prefixOf v
  let t := insertSep l.sep l.grouping ((Nat.toDigits f.radix.base v).map f.letter)
  let pad := f.padding (p.length + t.length)
  (match f.adjust with
    | .left => p ++ t ++ pad
    | .right => pad ++ p ++ t
    | .internal => if p.length = 2 then p ++ pad ++ t else pad ++ p ++ t, { f with width := 0 })

namespace Bignum

/-- `ostr << digit`: characters are not grouped. -/
def putDigitL (L : Limits) (l : Punct) (f : Fmt) (d : Nat) : List Char × Fmt :=
  if L.single.raw.bits = 8 then f.putText [Char.ofNat d] else f.putIntL l d

/-- The output loop, bn_type_impl.h:39-42 -/
def putDigitsL (L : Limits) (l : Punct) : Fmt → List Nat → List Char × Fmt
  | f, [] => ([], f)
  | f, d :: ds =>
    let (t, f') := putDigitL L l f d
    let (u, f'') := putDigitsL L l f' ds
    (t ++ u, f'')

/-- `operator<<`, bn_type_impl.h:18-45; strings and characters are not grouped. -/
def putL (L : Limits) (l : Punct) (f : Fmt) (b : Bignum) : List Char × Fmt :=
  match b.desc with
  | .posInf => f.putText ['+', 'I', 'N', 'F']
  | .negInf => f.putText ['-', 'I', 'N', 'F']
  | .nan => f.putText ['N', 'a', 'N']
  | .neg =>
    let (s, f') := f.putText ['-']
    let (t, f'') := if b.digits.length = 0 then f'.putText ['0'] else putDigitsL L l f' b.digits.reverse
    (s ++ t, f'')
  | .pos => if b.digits.length = 0 then f.putText ['0'] else putDigitsL L l f b.digits.reverse

end Bignum
end BN
