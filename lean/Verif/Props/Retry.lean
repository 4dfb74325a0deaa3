import Verif.Props.Moments
import Verif.Props.Exceptions
import Verif.Props.Special
/-
C140: statements that failed for lack of memory and are executed again.
-/
namespace BN
open Bignum
variable {F : Type}

/-- The outcome is an exception. -/
def Res.threw {α : Type} : Res α → Bool
  | .error (.exn _) => true
  | _ => false

def Out.isThrow : Out → Bool
  | .threw _ _ => true
  | _ => false

/-- The statement ends with an exception. -/
def Op.throwsM (o : FloatOps F) (L : Limits) (E : Moments) (n : Nat) (s : Store) : Op → Bool
  | .make _ d l => Res.threw (ofList (E [0]) d l)
  | .copy i j => i ≠ j && (copyAssign (E [0]) (s i) (s j)).isThrow
  | .resize i m digit => Res.threw ((s i).resize (E [0]) m digit)
  | .pushFront i digit => Res.threw ((s i).pushFront (E [0]) digit)
  | .popFront i => Res.threw (s i).popFront
  | .pushBack i digit => Res.threw ((s i).pushBack (E [0]) digit)
  | .popBack i => Res.threw (s i).popBack
  | .push i digit pos => Res.threw ((s i).push (E [0]) digit pos)
  | .pop i pos => Res.threw ((s i).pop pos)
  | .setAt i k digit => Res.threw ((s i).setAt k digit)
  | .arith k i j => (k.assignM o L E n (s i) (rhsOf s i j)).isThrow
  | .binary k _ j l => Res.threw (k.binaryM o L E n (s j) (s l))
  | .move _ _ => false
  | .setDescriptor _ _ => false
  | .clear _ => false

/-- Every statement but `x op= y` and `x = y`. -/
def Op.Repeatable : Op → Prop
  | .arith _ _ _ => False
  | .copy i j => i = j
  | _ => True

/-- `for (;;) { try { statement; break; } catch (...) {} }`; attempt `i` meets the allocator `E i`. -/
def retry (o : FloatOps F) (L : Limits) (n : Nat) (op : Op) : Nat → (Nat → Moments) → Store → Option Store
  | 0, _, _ => none
  | k + 1, E, s =>
    if op.throwsM o L (E 0) n s then (op.stepM o L (E 0) n s).bind (retry o L n op k fun i => E (i + 1))
    else op.stepM o L (E 0) n s

/-- A program in which every statement is repeated until it returns. -/
def runRetry (o : FloatOps F) (L : Limits) (n k : Nat) : (Nat → Nat → Moments) → Store → List Op → Option Store
  | _, s, [] => some s
  | E, s, op :: ops => (retry o L n op k (E 0) s).bind fun s' => runRetry o L n k (fun i => E (i + 1)) s' ops

theorem Store.set_self (s : Store) (i : Nat) : s.set i (s i) = s := by
  funext j
  unfold Store.set
  split
  · rename_i h; rw [h]
  · rfl

theorem strong_threw {s : Store} {i : Nat} {r : Res Bignum} (h : Res.threw r = true) : (strong (s i) r).store s i = some s := by
  rcases r with (k | e | _) | b <;> simp only [Res.threw, Bool.false_eq_true] at h
  · simp only [strong, Out.store, Store.set_self]

theorem Scarce.eq_of_not_threw {α : Type} {r r' : Res α} (h : Scarce r r') (hr : Res.threw r = false) : r = r' := by
  rcases h with h | h
  · exact h
  · rw [h] at hr; cases hr

theorem binaryM_scarce (o : FloatOps F) (L : Limits) {E : Moments} {d : Bool} (hE : E.OfBuild d) (n : Nat) (k : Arith) (x y : Bignum)
    (h : Res.threw (k.binaryM o L E n x y) = false) : k.binaryM o L E n x y = k.binary o L releaseEnv n x y := by
  unfold Arith.binaryM Arith.binary viaCopy at *
  have hs : Scarce (x.copy (E [0])) (x.copy releaseEnv) := scarce_copy (Env.le_full (E [0])) x
  rcases hs with hs | hs
  · rw [hs] at h ⊢
    cases hx : x.copy releaseEnv with
    | error f => rfl
    | ok z =>
      rw [hx, ok_bind] at h
      rw [ok_bind, ok_bind]
      rcases C111_any_moment o L k (E := E.at 1) (fun p => hE (1 :: p)) n z (.other y) with h' | h' | h'
      · rw [h']
      · rw [h'] at h; cases h
      · rw [h'] at h; cases h
  · rw [hs] at h
    cases h

/-- An attempt that throws changes nothing. -/
theorem stepM_threw (o : FloatOps F) (L : Limits) (E : Moments) (n : Nat) (s : Store) {op : Op} (hop : op.Repeatable)
    (h : op.throwsM o L E n s = true) : op.stepM o L E n s = some s := by
  cases op <;> simp only [Op.throwsM, Bool.false_eq_true, Op.Repeatable] at h hop <;> try exact strong_threw h
  · simp [hop] at h

/-- An attempt that does not throw does what the statement does with unlimited memory. -/
theorem stepM_returned (o : FloatOps F) (L : Limits) {E : Moments} {d : Bool} (hE : E.OfBuild d) (n : Nat) (s : Store) {op : Op}
    (hop : op.Repeatable) (h : op.throwsM o L E n s = false) : op.stepM o L E n s = op.step o L releaseEnv n s := by
  have he := Env.le_full (E [0])
  have key : ∀ {i : Nat} {r r' : Res Bignum}, Scarce r r' → Res.threw r = false → (strong (s i) r).store s i = (strong (s i) r').store s i :=
    fun h1 h2 => by rw [h1.eq_of_not_threw h2]
  cases op with
  | make i d l => exact key (.ite (.refl _) (.bind (scarce_resize he _ _ _) fun _ => .refl _)) h
  | resize i m digit => exact key (.bind (scarce_resize he _ _ _) fun _ => .refl _) h
  | pushFront i digit => exact key (.bind (scarce_insert he _ _ _) fun _ => .refl _) h
  | pushBack i digit => exact key (.bind (scarce_pushBack he _ _) fun _ => .refl _) h
  | push i digit pos => exact key (.bind (scarce_insert he _ _ _) fun _ => .refl _) h
  | binary k i j l =>
    simp only [Op.stepM, Op.step]
    rw [binaryM_scarce o L hE n k _ _ h]
  | arith k i j => exact hop.elim
  | copy i j =>
    have : i = j := hop
    simp only [Op.stepM, Op.step, if_pos this]
  | _ => rfl

/-- Room for two digits. -/
def twoDigits : Env := ⟨fun n => decide (n ≤ 2), false⟩

/-- Two objects, 95 and 5. -/
def store95 : Store := fun i => if i = 0 then ⟨.pos, [5, 9]⟩ else ⟨.pos, [5]⟩

theorem binaryM_95 (o : FloatOps F) : Arith.add.binaryM o .base10 (fun _ => twoDigits) 9 ⟨.pos, [5, 9]⟩ ⟨.pos, [5]⟩ = .error (.exn .stdException) := by
  have h : addTryM .base10 (fun _ => twoDigits) 9 ⟨.pos, [5, 9]⟩ (.other ⟨.pos, [5]⟩) = .error (.exn .badAlloc) := by decide +kernel
  show (match handle ⟨.pos, [5, 9]⟩ .pos (addTryM .base10 (fun _ => twoDigits) 9 ⟨.pos, [5, 9]⟩ (.other ⟨.pos, [5]⟩)) with
    | .ok b => .ok b | .threw e _ => .error (.exn e) | .ub k => .error (.ub k) | .timeout => .error .timeout : Res Bignum) = _
  rw [h]
  rfl

theorem binaryM_95' (o : FloatOps F) : Arith.add.binaryM o .base10 (fun _ => releaseEnv) 9 ⟨.pos, [5, 9]⟩ ⟨.pos, [5]⟩ = .ok ⟨.pos, [0, 0, 1]⟩ := by
  have h : addTryM .base10 (fun _ => releaseEnv) 9 ⟨.pos, [5, 9]⟩ (.other ⟨.pos, [5]⟩) = .ok ⟨.pos, [0, 0, 1]⟩ := by decide +kernel
  show (match handle ⟨.pos, [5, 9]⟩ .pos (addTryM .base10 (fun _ => releaseEnv) 9 ⟨.pos, [5, 9]⟩ (.other ⟨.pos, [5]⟩)) with
    | .ok b => .ok b | .threw e _ => .error (.exn e) | .ub k => .error (.ub k) | .timeout => .error .timeout : Res Bignum) = _
  rw [h]
  rfl

/-- `x = x op y`, construction, moves and the member functions other than `x op= y` and `x = y` are all or nothing: whichever requests
for memory are refused, every object is as before or as with unlimited memory. -/
theorem C140_all_or_nothing (o : FloatOps F) (L : Limits) {E : Moments} {d : Bool} (hE : E.OfBuild d) (n : Nat) (s : Store) {op : Op}
    (hop : op.Repeatable) : op.stepM o L E n s = some s ∨ op.stepM o L E n s = op.step o L releaseEnv n s := by
  cases h : op.throwsM o L E n s with
  | true => exact .inl (stepM_threw o L E n s hop h)
  | false => exact .inr (stepM_returned o L hE n s hop h)

example (o : FloatOps F) (s : Store) := C140_all_or_nothing o .base10 (E := fun _ => twoDigits) (d := false) (fun _ => rfl) 9 s
  (op := .binary .add 0 0 1) trivial

/-- A program of such statements that goes on after exceptions ends as the statements that did not throw end with unlimited memory. -/
theorem C140_skipped (o : FloatOps F) (L : Limits) (n : Nat) {d : Bool} : ∀ (ops : List Op) (E : Nat → Moments) (s s' : Store),
    (∀ op ∈ ops, op.Repeatable) → (∀ k, (E k).OfBuild d) → runM o L n E s ops = some s' →
    ∃ kept : List Op, kept.Sublist ops ∧ run o L n (fun _ => releaseEnv) s kept = some s' := by
  intro ops
  induction ops with
  | nil => intro E s s' _ _ h; exact ⟨[], .refl _, h⟩
  | cons op ops ih =>
    intro E s s' hop hE h
    unfold runM at h
    cases hs : op.stepM o L (E 0) n s with
    | none => rw [hs] at h; cases h
    | some t =>
      rw [hs] at h
      obtain ⟨kept, k1, k2⟩ := ih _ t s' (fun op h => hop op (.tail _ h)) (fun k => hE (k + 1)) h
      rcases C140_all_or_nothing o L (hE 0) n s (hop op (.head _)) with h' | h'
      · rw [hs] at h'
        obtain rfl := Option.some.inj h'
        exact ⟨kept, k1.cons _, k2⟩
      · refine ⟨op :: kept, k1.cons_cons _, ?_⟩
        rw [hs] at h'
        unfold run
        rw [← h']
        exact k2

example (o : FloatOps F) := C140_skipped o .base10 9 [.binary .add 0 0 1, .clear 1] (fun _ _ => twoDigits) store95 (store95.set 1 ⟨.pos, []⟩)
  (d := false) (by simp [Op.Repeatable]) (fun _ _ => rfl) (by
    have h := binaryM_95 o
    simp only [runM, Op.stepM, store95, if_true, one_ne_zero, if_false] at h ⊢
    rw [h]
    simp only [strong, Out.store, Op.step, clear, Option.bind_some, Option.some.injEq]
    rw [show (⟨.pos, [5, 9]⟩ : Bignum) = store95 0 from rfl, Store.set_self])

/-- A statement repeated until it returns does what it does with unlimited memory. -/
theorem C140_retry (o : FloatOps F) (L : Limits) (n : Nat) {d : Bool} {op : Op} (hop : op.Repeatable) : ∀ (k : Nat) (E : Nat → Moments)
    (s s' : Store), (∀ i, (E i).OfBuild d) → retry o L n op k E s = some s' → op.step o L releaseEnv n s = some s' := by
  intro k
  induction k with
  | zero => intro E s s' _ h; cases h
  | succ k ih =>
    intro E s s' hE h
    unfold retry at h
    cases ht : op.throwsM o L (E 0) n s with
    | true =>
      rw [ht, if_pos rfl, stepM_threw o L (E 0) n s hop ht] at h
      exact ih _ s s' (fun i => hE (i + 1)) h
    | false =>
      rw [ht, if_neg (by simp), stepM_returned o L (hE 0) n s hop ht] at h
      exact h

/-- 95 + 5 is refused first, granted later. -/
theorem retry_95 (o : FloatOps F) : retry o .base10 9 (.binary .add 0 0 1) 2 (fun i _ => if i = 0 then twoDigits else releaseEnv) store95 =
    some (store95.set 0 ⟨.pos, [0, 0, 1]⟩) := by
  have h := binaryM_95 o
  have h' := binaryM_95' o
  have e : (Op.binary .add 0 0 1).throwsM o .base10 (fun _ => twoDigits) 9 store95 = true := by
    show Res.threw (Arith.add.binaryM o .base10 (fun _ => twoDigits) 9 ⟨.pos, [5, 9]⟩ ⟨.pos, [5]⟩) = _
    rw [h]; rfl
  have e' : (Op.binary .add 0 0 1).throwsM o .base10 (fun _ => releaseEnv) 9 store95 = false := by
    show Res.threw (Arith.add.binaryM o .base10 (fun _ => releaseEnv) 9 ⟨.pos, [5, 9]⟩ ⟨.pos, [5]⟩) = _
    rw [h']; rfl
  rw [retry]
  simp only [if_true]
  rw [e, if_pos rfl, stepM_threw o .base10 _ 9 store95 (by trivial) e]
  show retry _ _ _ _ 1 (fun _ _ => releaseEnv) store95 = _
  rw [retry, e', if_neg (by simp)]
  show (strong ⟨.pos, [5, 9]⟩ (Arith.add.binaryM o .base10 (fun _ => releaseEnv) 9 ⟨.pos, [5, 9]⟩ ⟨.pos, [5]⟩)).store store95 0 = _
  rw [h']
  rfl

theorem ofBuild_95 (i : Nat) : Moments.OfBuild (fun _ => if i = 0 then twoDigits else releaseEnv) false := by
  intro p
  show (if i = 0 then twoDigits else releaseEnv).debug = false
  split <;> rfl

example (o : FloatOps F) := C140_retry o .base10 9 (op := .binary .add 0 0 1) (d := false) trivial 2 _ store95 _ ofBuild_95 (retry_95 o)

/-- The repetition ends as soon as an attempt does not throw. -/
theorem C140_retry_ends (o : FloatOps F) (L : Limits) (n : Nat) {d : Bool} {op : Op} (hop : op.Repeatable) : ∀ (k : Nat) (E : Nat → Moments)
    (s : Store), (∀ i, (E i).OfBuild d) → (∃ i < k, op.throwsM o L (E i) n s = false) → retry o L n op k E s = op.step o L releaseEnv n s := by
  intro k
  induction k with
  | zero => rintro E s _ ⟨i, h, _⟩; omega
  | succ k ih =>
    rintro E s hE ⟨i, hi, h⟩
    unfold retry
    cases ht : op.throwsM o L (E 0) n s with
    | true =>
      rw [if_pos rfl, stepM_threw o L (E 0) n s hop ht]
      obtain ⟨i, rfl⟩ : ∃ j, i = j + 1 := ⟨i - 1, by have : i ≠ 0 := (by rintro rfl; rw [h] at ht; cases ht); omega⟩
      exact ih _ s (fun i => hE (i + 1)) ⟨i, by omega, h⟩
    | false =>
      rw [if_neg (by simp), stepM_returned o L (hE 0) n s hop ht]

example (o : FloatOps F) := C140_retry_ends o .base10 9 (op := .binary .add 0 0 1) (d := false) trivial 2
  (fun i _ => if i = 0 then twoDigits else releaseEnv) store95 ofBuild_95 ⟨1, by omega, by
    show Res.threw (Arith.add.binaryM o .base10 (fun _ => releaseEnv) 9 ⟨.pos, [5, 9]⟩ ⟨.pos, [5]⟩) = _
    rw [binaryM_95' o]; rfl⟩

/-- A program whose statements are repeated until they return computes what it computes with unlimited memory. -/
theorem C140_programs (o : FloatOps F) (L : Limits) (n k : Nat) {d : Bool} : ∀ (ops : List Op) (E : Nat → Nat → Moments) (s s' : Store),
    (∀ op ∈ ops, op.Repeatable) → (∀ i j, (E i j).OfBuild d) → runRetry o L n k E s ops = some s' →
    run o L n (fun _ => releaseEnv) s ops = some s' := by
  intro ops
  induction ops with
  | nil => intro E s s' _ _ h; exact h
  | cons op ops ih =>
    intro E s s' hop hE h
    unfold runRetry at h
    unfold run
    cases hs : retry o L n op k (E 0) s with
    | none => rw [hs] at h; cases h
    | some t =>
      rw [hs] at h
      rw [C140_retry o L n (hop op (.head _)) k (E 0) s t (fun i => hE 0 i) hs]
      exact ih _ t s' (fun op h => hop op (.tail _ h)) (fun i j => hE (i + 1) j) h

example (o : FloatOps F) := C140_programs o .base10 9 2 (d := false) [.binary .add 0 0 1]
  (fun _ i _ => if i = 0 then twoDigits else releaseEnv) store95 (store95.set 0 ⟨.pos, [0, 0, 1]⟩) (by simp [Op.Repeatable])
  (fun _ => ofBuild_95) (by simp only [runRetry]; rw [retry_95 o]; rfl)

theorem assignM_threw_inf (o : FloatOps F) (L : Limits) (k : Arith) {E : Moments} {d : Bool} (hE : E.OfBuild d) (n : Nat) (x y : Bignum)
    {e : Exn} {b : Bignum} (h : k.assignM o L E n x (.other y) = .threw e b) : ¬ Finite b := by
  rcases C111_any_moment o L k hE n x (.other y) with h' | h' | h'
  · rw [h] at h'
    have := (C40_throw_leaves_infinity o L releaseEnv n x y e b (by cases k <;> simp only [Arith.assign] at h' <;> simp [← h'])).2.1
    rw [this]
    unfold Finite Signed
    split <;> simp
  · rw [h] at h'
    cases h'
    simp [Finite, Signed]
  · rw [h] at h'
    cases h'
    simp [Finite, Signed]

/-- `x op= y` cannot be repeated: after an attempt that threw, the next one returns at once and leaves zero, whatever x and y were. -/
theorem C140_compound (o : FloatOps F) (L : Limits) (k : Arith) {E E' : Moments} {d : Bool} (hE : E.OfBuild d)
    (n : Nat) (x y : Bignum) {e : Exn} {b : Bignum} (h : k.assignM o L E n x (.other y) = .threw e b) :
    k.assignM o L E' n b (.other y) = .ok ⟨y.desc, []⟩ ∧ (⟨y.desc, []⟩ : Bignum).toInt L = 0 := by
  have hc := not_computable_iff.2 (assignM_threw_inf o L k hE n x y h)
  refine ⟨?_, toInt_eq_zero.2 rfl⟩
  unfold Arith.assignM
  simp [hc, notComputable, Rhs.get]

/-- 95 += 5 with room for two digits throws; repeated, it leaves zero. -/
example (o : FloatOps F) := C140_compound o .base10 .add (E := fun _ => twoDigits) (E' := fun _ => releaseEnv) (d := false) (fun _ => rfl) 9
  ⟨.pos, [5, 9]⟩ ⟨.pos, [5]⟩ (e := .stdException) (b := ⟨.posInf, []⟩) (by
    have h : addTryM .base10 (fun _ => twoDigits) 9 ⟨.pos, [5, 9]⟩ (.other ⟨.pos, [5]⟩) = .error (.exn .badAlloc) := by decide +kernel
    show handle ⟨.pos, [5, 9]⟩ .pos (addTryM .base10 (fun _ => twoDigits) 9 ⟨.pos, [5, 9]⟩ (.other ⟨.pos, [5]⟩)) = _
    rw [h]
    rfl)

end BN
