import Verif.Model.Program
/-
The storage of a number's vector. The other modules let every growing call ask for memory; here a vector has a capacity and asks only
when the capacity is exceeded, and it is recorded how often its elements went to other storage (which invalidates references to digits).
-/
namespace BN
open Bignum

/-- A number together with the capacity of its vector and how often its digits have changed their storage. -/
structure Held where
  num : Bignum
  room : Nat
  moves : Nat
  deriving DecidableEq, Repr

/-- What a member function leaves. After an exception the storage is not recorded. -/
inductive OutH where
  | ok (self : Held)
  | threw (e : Exn) (self : Bignum)
  | ub (k : UB)
  | timeout
  deriving DecidableEq, Repr

/-- The number that is left. -/
def OutH.out : OutH → Out
  | .ok h => .ok h.num
  | .threw e b => .threw e b
  | .ub k => .ub k
  | .timeout => .timeout

/-- The capacity a vector of `len` elements asks for when it needs room for `n`: the growth policy of the library. -/
abbrev Growth := Nat → Nat → Nat

/-- Room for `n` elements in a vector of `len`: the capacity and the number of moves afterwards. -/
def roomFor (g : Growth) (env : Env) (len n room moves : Nat) : Res (Nat × Nat) :=
  if n ≤ room then .ok (room, moves)
  else if env.alloc (g len n) then .ok (g len n, moves + 1)
  else .error (.exn .badAlloc)

/-- `if (outIter == outNum.size()) outNum.push_back(0)`, bn_addition_impl.h:26-28 -/
def growToH (g : Growth) (env : Env) (out : List Nat) (i room moves : Nat) : Res (List Nat × Nat × Nat) :=
  if i = out.length then do
    let r ← roomFor g env out.length (out.length + 1) room moves
    .ok (out ++ [0], r)
  else .ok (out, room, moves)

/-- One iteration of `abs_val_add`, bn_addition_impl.h:25-52. `addBody` finds the vector long enough and does not make it grow again. -/
def addBodyH (g : Growth) (L : Limits) (env : Env) (src : Src) (s : AddSt × Nat × Nat) : Res ((AddSt × Nat × Nat) × Bool) := do
  let b ← growToH g env s.1.out s.1.outIter s.2.1 s.2.2
  let t ← addBody L env src { s.1 with out := b.1 }
  .ok ((t.1, b.2), t.2)

/-- `abs_val_add`, bn_addition_impl.h:7-54 -/
def absAddH (g : Growth) (L : Limits) (env : Env) (fuel : Nat) (out : List Nat) (room moves : Nat) (src : Src) : Res (List Nat × Nat × Nat) := do
  let s ← loopForever (addBodyH g L env src) fuel (⟨out, 0, 0, L.toSingle 0⟩, room, moves)
  .ok (s.1.out, s.2)

/-- `abs_val_sub` writes and removes digits in place, bn_subtraction_impl.h:13-72. -/
def subInPlace (L : Limits) (env : Env) (fuel : Nat) (x : Held) (src : Src) : Res Held := do
  let d ← absSub L env fuel x.num.digits src
  .ok ⟨⟨x.num.desc, d⟩, x.room, x.moves⟩

/-- `Bignum tempNum = num; abs_val_sub(tempNum.numData, numData); ...; *this = std::move(tempNum);`: the number takes the storage of
the copy, bn_type_impl.h:478-483, 494-499, 542-547, 568-573. -/
def subFromCopy (L : Limits) (env : Env) (fuel : Nat) (x : Held) (num : Bignum) (sign : Desc) : Res Held := do
  let tempNum ← num.copy env
  let d ← absSub L env fuel tempNum.digits (.other x.num.digits)
  .ok ⟨⟨sign, d⟩, num.digits.length, x.moves + 1⟩

/-- `try` block of `operator+=`, bn_type_impl.h:464-505 -/
def addTryH (g : Growth) (L : Limits) (env : Env) (fuel : Nat) (x : Held) (r : Rhs) : Res Held :=
  let this := x.num
  let num := r.get this
  let sum : Res Held := do
    let d ← absAddH g L env fuel this.digits x.room x.moves r.src
    .ok ⟨⟨this.desc, d.1⟩, d.2.1, d.2.2⟩
  if this.desc = .pos ∧ num.desc = .pos then sum
  else if this.desc = .pos ∧ num.desc = .neg then do
    let ge ← absGe this.digits num.digits
    if ge then subInPlace L env fuel x r.src else subFromCopy L env fuel x num .neg
  else if this.desc = .neg ∧ num.desc = .pos then do
    let ge ← absGe this.digits num.digits
    if ge then subInPlace L env fuel x r.src else subFromCopy L env fuel x num .pos
  else sum

/-- `container_t temp = abs_val_is_gt(numData, num.numData) ? numData : num.numData; ...; numData = std::move(temp);`,
bn_type_impl.h:549-559 -/
def subMixed (L : Limits) (env : Env) (fuel : Nat) (x : Held) (num : Bignum) : Res Held := do
  let gt ← absGt x.num.digits num.digits
  let temp ← Vec.copy env (if gt then x.num.digits else num.digits)
  let d ← absSub L env fuel temp (.other num.digits)
  .ok ⟨⟨x.num.desc, d⟩, temp.length, x.moves + 1⟩

/-- `try` block of `operator-=`, bn_type_impl.h:533-574 -/
def subTryH (L : Limits) (env : Env) (fuel : Nat) (x : Held) (r : Rhs) : Res Held :=
  let this := x.num
  let num := r.get this
  if this.desc = .pos ∧ num.desc = .pos then do
    let ge ← absGe this.digits num.digits
    if ge then subInPlace L env fuel x r.src else subFromCopy L env fuel x num .neg
  else if this.desc = .pos ∧ num.desc = .neg then subMixed L env fuel x num
  else if this.desc = .neg ∧ num.desc = .pos then subMixed L env fuel x num
  else do
    let ge ← absGe this.digits num.digits
    if ge then subInPlace L env fuel x r.src else subFromCopy L env fuel x num .pos

/-- The handlers of `operator+=` and `operator-=`, bn_type_impl.h:507-514, 576-583 -/
def handleH (this : Bignum) (d : Desc) : Res Held → OutH
  | .ok h => .ok h
  | .error (.exn .bnError) => .threw .bnError this
  | .error (.exn _) => .threw .stdException ⟨if d = .pos then .posInf else .negInf, []⟩
  | .error (.ub k) => .ub k
  | .error .timeout => .timeout

/-- A vector operation that changes nothing when it throws. -/
def strongH (this : Bignum) : Res Held → OutH
  | .ok h => .ok h
  | .error (.exn e) => .threw e this
  | .error (.ub k) => .ub k
  | .error .timeout => .timeout

/-- Calls on one number. -/
inductive Call1 where
  | clear
  | setDescriptor (d : Desc)
  | setAt (k digit : Nat)
  | popBack
  | pop (pos : Nat)
  | pushBack (digit : Nat)
  | push (digit pos : Nat)
  | resize (n digit : Nat)
  /-- `x += num`, `x -= num` -/
  | add (r : Rhs)
  | sub (r : Rhs)

/-- A call on the number alone, as in the other modules. -/
def Call1.plain (L : Limits) (env : Env) (fuel : Nat) (b : Bignum) : Call1 → Out
  | .clear => .ok b.clear
  | .setDescriptor d => .ok (b.setDescriptor d)
  | .setAt k digit => strong b (b.setAt k digit)
  | .popBack => strong b b.popBack
  | .pop pos => strong b (b.pop pos)
  | .pushBack digit => strong b (b.pushBack env digit)
  | .push digit pos => strong b (b.push env digit pos)
  | .resize n digit => strong b (b.resize env n digit)
  | .add r => addAssign L env fuel b r
  | .sub r => subAssign L env fuel b r

/-- A call that needs room for `n` digits and then does `f`. -/
def inRoom (g : Growth) (env : Env) (x : Held) (n : Nat) (f : Res Bignum) : OutH :=
  strongH x.num (do
    let r ← roomFor g env x.num.digits.length n x.room x.moves
    let b ← f
    .ok ⟨b, r.1, r.2⟩)

/-- A call that leaves the storage alone. -/
def inStorage (x : Held) (f : Res Bignum) : OutH := strongH x.num (do let b ← f; .ok ⟨b, x.room, x.moves⟩)

/-- A call on a number with storage. Once there is room the vector operation itself no
longer asks for memory. -/
def Call1.call (g : Growth) (L : Limits) (env : Env) (fuel : Nat) (x : Held) : Call1 → OutH
  | .clear => inStorage x (.ok x.num.clear)                                      -- bn_type_impl.h:257-260
  | .setDescriptor d => inStorage x (.ok (x.num.setDescriptor d))                -- 134-147
  | .setAt k digit => inStorage x (x.num.setAt k digit)                          -- 266-270
  | .popBack => inStorage x x.num.popBack                                        -- 231-233
  | .pop pos => inStorage x (x.num.pop pos)                                      -- 249-251
  | .pushBack digit => inRoom g env x (x.num.digits.length + 1) (x.num.pushBack ⟨fun _ => true, env.debug⟩ digit)   -- 223-225
  | .push digit pos =>                                                           -- 239-243
    if x.num.digits.length < pos then .ub .outOfBounds
    else inRoom g env x (x.num.digits.length + 1) (x.num.push ⟨fun _ => true, env.debug⟩ digit pos)
  | .resize n digit => inRoom g env x n (x.num.resize ⟨fun _ => true, env.debug⟩ n digit)                         -- 188-192
  | .add r =>                                                                    -- 454-516
    if !isComputable x.num.desc then .ok ⟨notComputable x.num r, x.room, x.moves⟩
    else handleH x.num (r.get x.num).desc (addTryH g L env fuel x r)
  | .sub r =>                                                                    -- 523-585
    if !isComputable x.num.desc then .ok ⟨notComputable x.num r, x.room, x.moves⟩
    else handleH x.num (r.get x.num).desc (subTryH L env fuel x r)

/-- Calls one after the other; `env k` is the environment of the `k`-th. -/
def calls (g : Growth) (L : Limits) (fuel : Nat) : (Nat → Env) → Held → List Call1 → OutH
  | _, x, [] => .ok x
  | env, x, c :: cs =>
    match c.call g L (env 0) fuel x with
    | .ok y => calls g L fuel (fun k => env (k + 1)) y cs
    | .threw e b => .threw e b
    | .ub k => .ub k
    | .timeout => .timeout

end BN
