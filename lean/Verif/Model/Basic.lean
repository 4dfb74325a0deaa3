/-
Outcomes and loops shared by the whole model.
-/
namespace BN

/-- Kinds of undefined behaviour that the modelled code can reach. -/
inductive UB where
  | outOfBounds      -- `std::vector::operator[]` with index ≥ size(), or erase/insert outside [begin,end]
  | emptyPop         -- `pop_back()` on an empty vector
  | divByZero        -- integer `/` or `%` by zero
  | signedOverflow   -- overflow of a signed (promoted) operation
  | badShift         -- shift amount negative or ≥ width, or unrepresentable left shift
  | floatToInt       -- double → integer conversion out of range
  deriving DecidableEq, Repr

/-- C++ exceptions that can leave the modelled code. -/
inductive Exn where
  | badAlloc         -- std::bad_alloc / std::length_error from a container
  | stdException     -- a plain `std::exception` object (result of `throw e;` in the handlers)
  | bnUnderflow      -- `BNUnderflow`, bn_except.h:117-128
  | bnError          -- the enumerator `BN_ERROR` thrown by `bn_runtime_assert`, bn_except.cpp:26-28
  deriving DecidableEq, Repr

/-- Everything other than a normal result. `timeout` = the loop/recursion budget ran out. -/
inductive Fault where
  | ub (k : UB)
  | exn (e : Exn)
  | timeout
  deriving DecidableEq, Repr

abbrev Res (α : Type) := Except Fault α

/-- Surroundings of a call.
`alloc n` says whether a container of `n` elements can be obtained (simplification: depends on the
size only).  `debug` is whether the macro `BN_DEBUG` is defined (bn_subtraction_impl.h:18). -/
structure Env where
  alloc : Nat → Bool
  debug : Bool

/-- `while (true) { body; if (brk) break; }`, at most `fuel` iterations. -/
def loopForever {σ : Type} (body : σ → Res (σ × Bool)) : Nat → σ → Res σ
  | 0, _ => .error .timeout
  | n + 1, s => do
    let (s', brk) ← body s
    if brk then .ok s' else loopForever body n s'

/-- `while (cond) { body; }`, at most `fuel` evaluations of the condition. -/
def loopWhile {σ : Type} (cond : σ → Res Bool) (body : σ → Res σ) : Nat → σ → Res σ
  | 0, _ => .error .timeout
  | n + 1, s => do
    if ← cond s then
      let s' ← body s
      loopWhile cond body n s'
    else .ok s

end BN
