import Verif.Model.Program
/-
Client code with conditions and loops.
-/
namespace BN

/-- The comparison operators. -/
inductive Compare where
  | eq | ne | gt | ge | lt | le
  deriving DecidableEq, Repr

/-- `a == b` and so on, bn_type_impl.h:285-378 -/
def Compare.eval : Compare → Bignum → Bignum → Res Bool
  | .eq => Bignum.eq
  | .ne => Bignum.ne
  | .gt => Bignum.gt
  | .ge => Bignum.ge
  | .lt => Bignum.lt
  | .le => Bignum.le

/-- Client programs: statements on named objects, `if (x_i cmp x_j) p else q` and `while (x_i cmp x_j) p`. -/
inductive Prog where
  | skip
  | op (op : Op)
  | seq (p q : Prog)
  | ite (k : Compare) (i j : Nat) (p q : Prog)
  | loop (k : Compare) (i j : Nat) (p : Prog)

/-- One step of the control flow. A configuration is what remains to be executed and the state; `stmt` is the meaning of
statements, `test` of conditions. The program has ended when nothing remains. -/
inductive Flow {S : Type} (stmt : S → Op → S → Prop) (test : S → Compare → Nat → Nat → Bool → Prop) : List Prog × S → List Prog × S → Prop
  | skip {ps s} : Flow stmt test (.skip :: ps, s) (ps, s)
  | op {ps s s' op} (h : stmt s op s') : Flow stmt test (.op op :: ps, s) (ps, s')
  | seq {ps s p q} : Flow stmt test (.seq p q :: ps, s) (p :: q :: ps, s)
  | then {ps s k i j p q} (h : test s k i j true) : Flow stmt test (.ite k i j p q :: ps, s) (p :: ps, s)
  | else {ps s k i j p q} (h : test s k i j false) : Flow stmt test (.ite k i j p q :: ps, s) (q :: ps, s)
  | again {ps s k i j p} (h : test s k i j true) : Flow stmt test (.loop k i j p :: ps, s) (p :: .loop k i j p :: ps, s)
  | leave {ps s k i j p} (h : test s k i j false) : Flow stmt test (.loop k i j p :: ps, s) (ps, s)

/-- The state of a running program: its objects and the number of statements executed. -/
abbrev Running := Store × Nat

/-- A statement ends with a store: it returns or its exception is caught. The `k`-th statement executed meets the
environment `env k`. -/
def Running.stmt {F : Type} (o : FloatOps F) (L : Limits) (env : Nat → Env) (s : Running) (op : Op) (s' : Running) : Prop :=
  s'.2 = s.2 + 1 ∧ ∃ n₀, ∀ n, n₀ ≤ n → op.step o L (env s.2) n s.1 = some s'.1

/-- A condition returns. -/
def Running.test (s : Running) (k : Compare) (i j : Nat) (r : Bool) : Prop := k.eval (s.1 i) (s.1 j) = .ok r

/-- One step of a program over Bignum objects. A statement with undefined behaviour or without end has no next
configuration. -/
def ProgStep {F : Type} (o : FloatOps F) (L : Limits) (env : Nat → Env) : List Prog × Running → List Prog × Running → Prop :=
  Flow (Running.stmt o L env) Running.test

end BN
