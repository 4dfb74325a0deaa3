import Verif.Model.IntType
/-
The client tests/integer_test.cpp and stream input of digits.
-/
namespace BN
namespace BNInt

/-- The ten arithmetic operators in the order of tests/integer_test.cpp:45-54. -/
def testOps : List BinOp := [.add, .sub, .mul, .div, .mod, .and, .or, .xor, .shl, .shr]

/-- The six comparisons in the order of tests/integer_test.cpp:55-60. -/
def testCmps : List CmpOp := [.gt, .lt, .ge, .le, .eq, .ne]

/-- What tests/integer_test.cpp:45-77 prints after the equal signs, for `basicInt = n` and `testInt = t`
(`unsigned` is `uint32_t`): first with the plain integer on the left, then on the right. -/
structure TestOutput where
  left : List Nat
  leftCmp : List Bool
  right : List Nat
  rightCmp : List Bool
  deriving DecidableEq, Repr

def integerTest (n t : Nat) : Res TestOutput := do
  let l ← testOps.mapM fun op => binR 32 op n t
  let lc := testCmps.map fun op => cmpR 32 op n t
  let r ← testOps.mapM fun op => bin 32 op t n
  let rc := testCmps.map fun op => cmp 32 op t n
  .ok ⟨l, lc, r, rc⟩

/-- White space of the C locale ([istream.formatted.reqmts]). -/
def isSpace (c : Char) : Bool := c = ' ' ∨ (9 ≤ c.toNat ∧ c.toNat ≤ 13)

/-- A stream extraction: the value of the object afterwards, whether it failed, the unread input. -/
structure Extraction where
  value : Nat
  fail : Bool
  rest : List Char
  deriving DecidableEq, Repr

/-- The value of a sequence of decimal digits. -/
def decimal (cs : List Char) : Nat := cs.foldl (fun acc c => acc * 10 + (c.toNat - 48)) 0

/-- `inStr >> bni.num` into an object holding `old`, bn_int_type_impl.h:241-244, default formatting flags.
For `numType = uint8_t` this extracts one character. For the wider types it extracts a decimal numeral with
an optional sign ([facet.num.get.virtuals]): no digits give 0 and a failure, too large a value gives the
maximum and a failure, a minus sign negates modulo 2^w. At the end of the input the object is left alone. -/
def extract (w : Nat) (old : Nat) (input : List Char) : Extraction :=
  let s := input.dropWhile isSpace
  match s with
  | [] => ⟨old, true, []⟩
  | c :: cs =>
    if w = 8 then ⟨c.toNat, false, cs⟩
    else
      let body := if c = '-' ∨ c = '+' then cs else s
      let ds := body.takeWhile Char.isDigit
      let rest := body.dropWhile Char.isDigit
      if ds = [] then ⟨0, true, rest⟩
      else if 2 ^ w ≤ decimal ds then ⟨2 ^ w - 1, true, rest⟩
      else ⟨if c = '-' then (2 ^ w - decimal ds) % 2 ^ w else decimal ds, false, rest⟩

/-- `outStr << bni.num`, bn_int_type_impl.h:236-239: a character for `uint8_t`, else a decimal numeral. -/
def put (w : Nat) (a : Nat) : List Char := if w = 8 then [Char.ofNat a] else Nat.toDigits 10 a

end BNInt
end BN
