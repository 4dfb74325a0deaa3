import Verif.Model.Type
import Verif.Model.Assert
/-
Specification vocabulary: what the property theorems talk about.  Nothing here is taken from the code.
-/
namespace BN

/-- The natural number denoted by a little-endian digit list in base `B`. -/
def natOf (B : Nat) : List Nat → Nat
  | [] => 0
  | d :: ds => d + B * natOf B ds

/-- Every digit is a digit of base `B`. -/
def InRange (B : Nat) (l : List Nat) : Prop := ∀ d ∈ l, d < B

/-- The most significant digit (the last of the list) is not zero; the empty list qualifies. -/
def NoLeadingZero (l : List Nat) : Prop := l.getLast? ≠ some 0

/-- A well-formed magnitude: digits in range, and no leading zero except for the one-digit zero
(division and addition produce `[0]`, everything else represents zero by no digits). -/
def WFDigits (B : Nat) (l : List Nat) : Prop := InRange B l ∧ (NoLeadingZero l ∨ l = [0])

/-- The descriptor of an ordinary number. -/
def Signed (d : Desc) : Prop := d = .pos ∨ d = .neg

/-- A well-formed finite number. -/
def WF (L : Limits) (b : Bignum) : Prop := Signed b.desc ∧ WFDigits L.base b.digits

/-- Magnitude. -/
def Bignum.mag (L : Limits) (b : Bignum) : Nat := natOf L.base b.digits

/-- The integer denoted by a number with a sign descriptor. -/
def Bignum.toInt (L : Limits) (b : Bignum) : Int :=
  if b.desc = .neg then - (b.mag L : Int) else (b.mag L : Int)

/-- Built-in digit types with a strictly wider double type: the ones shipped with the library
(`bignum_lowp/medp/highp`) and the further instances of the public template. -/
inductive Native : Limits → Prop
  | lowp : Native .lowp
  | medp : Native .medp
  | highp : Native .highp
  | wide8_32 : Native (.pair 8 32)
  | wide8_64 : Native (.pair 8 64)
  | wide16_64 : Native (.pair 16 64)

/-- A custom base `max + 1` in `BNIntType<uint<w>_t, id>`: at least binary, and the digit type has room
for the sum of two digits and a carry. -/
def Custom (L : Limits) : Prop :=
  ∃ w max, (w = 8 ∨ w = 16 ∨ w = 32 ∨ w = 64) ∧ 1 ≤ max ∧ 2 * max + 1 < 2 ^ w ∧ L = .custom w max

/-- The digit types for which the addition/subtraction theorems hold. -/
def Supported (L : Limits) : Prop := Native L ∨ Custom L

/-- With every sufficiently large budget the computation has outcome `o`: it terminates with `o`. -/
def Evaluates {α : Type} (run : Nat → α) (o : α) : Prop := ∃ n₀, ∀ n, n₀ ≤ n → run n = o

/-- No budget suffices. -/
def Diverges (run : Nat → Out) : Prop := ∀ n, run n = .timeout

/-- Memory is always available. -/
def Env.Ample (env : Env) : Prop := ∀ n, env.alloc n = true

/-- A release build with ample memory. -/
def releaseEnv : Env := ⟨fun _ => true, false⟩

end BN
