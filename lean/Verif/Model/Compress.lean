import Verif.Model.Type
/-
The client program tests/compress_test.cpp: text is pushed into a base-256 number, its bits are extracted
by repeated division by two, and put together again by repeated multiplication by two.
Only the computations are modelled, not the progress messages.
-/
namespace BN
namespace Compress

/-- `bn_limits_base256`, compress_test.cpp:34-53 -/
abbrev L : Limits := .base256

/-- `(uint16_t)c` for a plain `char` given by its byte (`char` is signed, as on x86), compress_test.cpp:94-95 -/
def charDigit (c : Nat) : Nat := ((cU 16).wrap ((⟨8, true⟩ : CTy).wrap c)).toNat

/-- The member function left `*this` behind or threw to the caller. -/
def leave : Out → Res Bignum
  | .ok b => .ok b
  | .threw e _ => .error (.exn e)
  | .ub k => .error (.ub k)
  | .timeout => .error .timeout

/-- The loop over the characters, compress_test.cpp:92-96 -/
def pushChars (env : Env) : List Nat → Bignum → Res Bignum
  | [], b => .ok b
  | c :: cs, b => do
    let b' ← b.pushBack env (charDigit c)
    pushChars env cs b'

/-- `(inNum.numData[0] % bn_base256_single{2}) ? 1 : 0`, compress_test.cpp:105, 120 -/
def lowBit (b : Bignum) : Res Nat := do
  let d ← Vec.rd b.digits 0
  let r ← Val.bin .mod (L.digit d) (L.toSingle 2)
  .ok (if r.truthy then 1 else 0)

/-- `digit = digit | (remainder << numBitsUsed)` on `uint16_t`, compress_test.cpp:106, 121 -/
def packBit (digit remainder numBitsUsed : Nat) : Res Nat := do
  let s ← CVal.bin .shl ⟨cU 16, remainder⟩ ⟨cU 64, numBitsUsed⟩
  let r ← CVal.bin .or ⟨cU 16, digit⟩ s
  .ok ((cU 16).wrap r.val).toNat

/-- Variables of `compress`, compress_test.cpp:90, 100-101 and the parameter `outNum`. -/
structure St where
  inNum : Bignum
  outNum : Bignum
  digit : Nat
  numBitsUsed : Nat

/-- `inNum.size() != 1 || inNum.numData[0] > bn_base256_single{1}`, compress_test.cpp:103 -/
def cond (s : St) : Res Bool :=
  if s.inNum.digits.length ≠ 1 then .ok true
  else do
    let d ← Vec.rd s.inNum.digits 0
    .ok (Val.cmp .gt (L.digit d) (L.toSingle 1))

/-- `if (++numBitsUsed == sizeof(uint16_t) * CHAR_BIT) {...}`, compress_test.cpp:108-113:
the new `outNum`, `digit` and `numBitsUsed`. -/
def flush (env : Env) (outNum : Bignum) (digit numBitsUsed : Nat) : Res (Bignum × Nat × Nat) :=
  if numBitsUsed + 1 = 16 then do
    let o ← outNum.pushBack env digit
    .ok (o, 0, 0)
  else .ok (outNum, digit, numBitsUsed + 1)

/-- Body of the loop, compress_test.cpp:105-115 -/
def body (env : Env) (fuel : Nat) (divisor : Bignum) (s : St) : Res St := do
  let remainder ← lowBit s.inNum
  let digit ← packBit s.digit remainder s.numBitsUsed
  let (outNum, digit, numBitsUsed) ← flush env s.outNum digit s.numBitsUsed
  let inNum ← leave (s.inNum.divAssign L env fuel (.other divisor))
  .ok ⟨inNum, outNum, digit, numBitsUsed⟩

/-- `compress`, compress_test.cpp:84-133, called with an empty `outNum` (lines 224-225):
`outNum` and `numLastBits`. -/
def compress (env : Env) (fuel : Nat) (text : List Nat) : Res (Bignum × Nat) := do
  let inNum ← pushChars env text ⟨.pos, []⟩                                      -- lines 90-96
  let inNum ← inNum.pushBack env 0                                               -- line 97
  let divisor ← Bignum.ofList env .pos [2]                                       -- line 99
  let s ← loopWhile cond (body env fuel divisor) fuel ⟨inNum, ⟨.pos, []⟩, 0, 0⟩  -- lines 103-116
  let remainder ← lowBit s.inNum                                                 -- lines 120-123
  let digit ← packBit s.digit remainder s.numBitsUsed
  let outNum ← s.outNum.pushBack env digit
  .ok (outNum, s.numBitsUsed + 1)

/-- `(uint16_t)(((int)x >> numBitsUsed) & 1)`, compress_test.cpp:151 -/
def getBit (x numBitsUsed : Nat) : Res Nat := do
  let s ← CVal.bin .shr ⟨cInt, x⟩ ⟨cU 64, numBitsUsed⟩
  let r ← CVal.bin .and s ⟨cInt, 1⟩
  .ok ((cU 16).wrap r.val).toNat

/-- Variables of `decompress`, compress_test.cpp:143-146 -/
structure Dst where
  outNum : Bignum
  iter : Nat
  numBitsUsed : Nat

/-- Body of the loop, compress_test.cpp:150-159 -/
def dbody {F : Type} (o : FloatOps F) (env : Env) (fuel : Nat) (inNum divisor : Bignum) (s : Dst) : Res Dst := do
  let numBitsUsed := s.numBitsUsed - 1                                           -- line 150
  let x ← Vec.rd inNum.digits (s.iter - 1)
  let bit ← getBit x numBitsUsed
  let digit ← Bignum.ofList env .pos [bit]                                       -- line 151
  let p ← s.outNum.mul o L env fuel divisor                                      -- line 153
  let outNum ← p.add L env fuel digit
  if numBitsUsed = 0 then .ok ⟨outNum, s.iter - 1, 16⟩                           -- lines 155-159
  else .ok ⟨outNum, s.iter, numBitsUsed⟩

/-- `decompress`, compress_test.cpp:138-174: the bytes written by the loop `std::cout << (char)c`
(lines 165-168), least significant digit first. -/
def decompress {F : Type} (o : FloatOps F) (env : Env) (fuel : Nat) (inNum : Bignum) (numLastBits : Nat) : Res (List Nat) := do
  let outNum ← Bignum.ofList env .pos [0]                                        -- line 143
  let divisor ← Bignum.ofList env .pos [2]                                       -- line 144
  let s ← loopWhile (fun s => .ok (decide (0 < s.iter) && decide (0 < s.numBitsUsed)))
    (dbody o env fuel inNum divisor) fuel ⟨outNum, inNum.digits.length, numLastBits⟩   -- lines 145-160
  .ok (s.outNum.digits.map (· % 256))

/-- `main` for one file, compress_test.cpp:224-231 -/
def roundTrip {F : Type} (o : FloatOps F) (env : Env) (fuel : Nat) (text : List Nat) : Res (List Nat) := do
  let (num, lastBits) ← compress env fuel text
  decompress o env fuel num lastBits

end Compress
end BN
