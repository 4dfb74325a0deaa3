import Verif.Model.Program
/-
Client code in several threads. The library keeps no data of its own between calls: every `static` of
/repo/include and /repo/src is a `constexpr` constant. So threads meet in the objects they use and
nowhere else. A statement is not atomic: it reads its operands when it begins and writes its objects
when it ends, and other threads may begin and end statements in between.
-/
namespace BN

/-- The objects a statement writes. -/
def Op.targets : Op → List Nat
  | .make i _ _ => [i]
  | .copy i _ => [i]
  | .move i j => [i, j]
  | .setDescriptor i _ => [i]
  | .resize i _ _ => [i]
  | .pushFront i _ => [i]
  | .popFront i => [i]
  | .pushBack i _ => [i]
  | .popBack i => [i]
  | .push i _ _ => [i]
  | .pop i _ => [i]
  | .setAt i _ _ => [i]
  | .clear i => [i]
  | .arith _ i _ => [i]
  | .binary _ i _ _ => [i]

/-- The objects a statement reads or writes. -/
def Op.operands : Op → List Nat
  | .copy i j => [i, j]
  | .arith _ i j => [i, j]
  | .binary _ i j l => [i, j, l]
  | op => op.targets

/-- A thread: from its local state and the objects, the next statement (with the allocator it meets) and the
next local state, or nothing when it has ended. Conditions of loops and branches are part of `next`. -/
structure Thread (σ : Type) where
  next : σ → Store → Option (Env × Op × σ)

/-- The objects, the local states of the threads, and the statements that have begun and not ended: what
they will have written, and the local state afterwards. -/
structure Machine (σ : Type) where
  store : Store
  loc : Nat → σ
  busy : Nat → Option (Op × Store × σ)

variable {σ F : Type}

/-- Change of one place of a table indexed by threads. -/
def putAt {α : Type} (f : Nat → α) (t : Nat) (x : α) : Nat → α := fun u => if u = t then x else f u

/-- A turn of thread `t`: it ends the statement it is in, or begins the next one. Undefined behaviour and
endless loops of a statement leave no machine. -/
def turn (o : FloatOps F) (L : Limits) (fuel : Nat) (T : Nat → Thread σ) (t : Nat) (m : Machine σ) : Option (Machine σ) :=
  match m.busy t with
  | some (op, s1, q) =>
    some ⟨fun i => if i ∈ op.targets then s1 i else m.store i, putAt m.loc t q, putAt m.busy t none⟩
  | none =>
    match (T t).next (m.loc t) m.store with
    | none => some m
    | some (env, op, q) => (op.step o L env fuel m.store).map fun s1 => { m with busy := putAt m.busy t (some (op, s1, q)) }

/-- A schedule: whose turn it is. -/
def turns (o : FloatOps F) (L : Limits) (fuel : Nat) (T : Nat → Thread σ) : List Nat → Machine σ → Option (Machine σ)
  | [], m => some m
  | t :: w, m => (turn o L fuel T t m).bind (turns o L fuel T w)

/-- All threads before their first statement. -/
def Machine.start (s : Store) (q : Nat → σ) : Machine σ := ⟨s, q, fun _ => none⟩

/-- A thread without branches: the local state is the number of the statement, `env k` the environment of statement `k`. -/
def listed (env : Nat → Env) (ops : List Op) : Thread Nat := ⟨fun k _ => (ops[k]?).map fun op => (env k, op, k + 1)⟩

end BN
