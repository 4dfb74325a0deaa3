import Verif.Model.Vec
/-
impl/bn_compare_impl.h.  The loops `i = size(); while (i--) {...}` visit indices size-1, ..., 0; the
functions below take the current value of `i`.  Digits are compared with the element type's own
comparison, which for unsigned integers and for `BNIntType` is the comparison of the stored naturals
(see `Props/IntType`).
-/
namespace BN

/-- loop of `abs_val_is_eq`, bn_compare_impl.h:19-25 -/
def eqLoop (a b : List Nat) : Nat → Res Bool
  | 0 => .ok true
  | i + 1 => do
    let x ← Vec.rd a i
    let y ← Vec.rd b i
    if x ≠ y then .ok false else eqLoop a b i

/-- `abs_val_is_eq`, bn_compare_impl.h:7-26 -/
def absEq (a b : List Nat) : Res Bool :=
  if a.length ≠ b.length then .ok false else eqLoop a b a.length

/-- loop of `abs_val_is_gt`, bn_compare_impl.h:46-52: there is no test for a smaller digit. -/
def gtLoop (a b : List Nat) : Nat → Res Bool
  | 0 => .ok false
  | i + 1 => do
    let x ← Vec.rd a i
    let y ← Vec.rd b i
    if x > y then .ok true else gtLoop a b i

/-- `abs_val_is_gt`, bn_compare_impl.h:31-53 -/
def absGt (a b : List Nat) : Res Bool :=
  if a.length > b.length then .ok true
  else if a.length < b.length then .ok false
  else gtLoop a b a.length

/-- loop of `abs_val_is_ge`, bn_compare_impl.h:73-82 -/
def geLoop (a b : List Nat) : Nat → Res Bool
  | 0 => .ok true
  | i + 1 => do
    let x ← Vec.rd a i
    let y ← Vec.rd b i
    if x > y then .ok true
    else if x < y then .ok false
    else geLoop a b i

/-- `abs_val_is_ge`, bn_compare_impl.h:58-83 -/
def absGe (a b : List Nat) : Res Bool :=
  if a.length > b.length then .ok true
  else if a.length < b.length then .ok false
  else geLoop a b a.length

/-- loop of `abs_val_is_lt`, bn_compare_impl.h:103-109: there is no test for a larger digit. -/
def ltLoop (a b : List Nat) : Nat → Res Bool
  | 0 => .ok false
  | i + 1 => do
    let x ← Vec.rd a i
    let y ← Vec.rd b i
    if x < y then .ok true else ltLoop a b i

/-- `abs_val_is_lt`, bn_compare_impl.h:88-110 -/
def absLt (a b : List Nat) : Res Bool :=
  if a.length < b.length then .ok true
  else if a.length > b.length then .ok false
  else ltLoop a b a.length

/-- loop of `abs_val_is_le`, bn_compare_impl.h:130-139 -/
def leLoop (a b : List Nat) : Nat → Res Bool
  | 0 => .ok true
  | i + 1 => do
    let x ← Vec.rd a i
    let y ← Vec.rd b i
    if x < y then .ok true
    else if x > y then .ok false
    else leLoop a b i

/-- `abs_val_is_le`, bn_compare_impl.h:115-140 -/
def absLe (a b : List Nat) : Res Bool :=
  if a.length < b.length then .ok true
  else if a.length > b.length then .ok false
  else leLoop a b a.length

end BN
