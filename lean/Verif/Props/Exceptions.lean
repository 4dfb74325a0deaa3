import Verif.Lemmas.Samples
import Verif.Props.Special
import Verif.Props.DebugBuild
/-
C100: the types of the exceptions that reach a caller.
-/
namespace BN
open Bignum

/-- `catch (const std::exception&)` matches: everything but the enumerator `BN_ERROR` (bn_except.cpp:26-28). -/
def Exn.IsStd (e : Exn) : Prop := e ≠ .bnError

/-- Only a failed allocation can have caused it. -/
theorem soft_only_alloc {α : Type} {env : Env} {r : Res α} (h : ∀ e, r = .error (.exn e) → e = .badAlloc ∧ ∃ n, env.alloc n = false)
    {β : Type} {f : α → β} : ∀ e, (r >>= fun x => (.ok (f x) : Res β)) = .error (.exn e) → e = .badAlloc ∧ ∃ n, env.alloc n = false := by
  intro e he
  cases r with
  | ok x => cases he
  | error k => rw [error_bind] at he; cases he; exact h e rfl

theorem alloc_copy (env : Env) (v : List Nat) : ∀ e, Vec.copy env v = .error (.exn e) → e = .badAlloc ∧ ∃ n, env.alloc n = false := by
  intro e he
  unfold Vec.copy at he
  split at he
  · cases he
  · split at he
    · cases he
    · cases he; exact ⟨rfl, _, eq_false_of_ne_true ‹_›⟩

/-! ### C100 -/

/-- The compound operators: whatever went wrong inside (failed allocations, the debug check), the caller meets a plain
`std::exception`, so handlers for `std::bad_alloc` or `BNUnderflow` never match.  All operands, aliased or not. -/
theorem C100_compound {F : Type} (o : FloatOps F) (L : Limits) (env : Env) (fuel : Nat) (k : Arith) (x : Bignum) (r : Rhs) (e : Exn) (s : Bignum)
    (h : k.assign o L env fuel x r = .threw e s) : e = .stdException := by
  cases r with
  | other y =>
    refine (C40_throw_leaves_infinity o L env fuel x y e s ?_).1
    cases k
    · exact .inl h
    · exact .inr (.inl h)
    · exact .inr (.inr (.inl h))
    · exact .inr (.inr (.inr h))
  | self =>
    refine (C40_throw_leaves_infinity_self o L env fuel x e s ?_).1
    cases k
    · exact .inl h
    · exact .inr (.inl h)
    · exact .inr (.inr (.inl h))
    · exact .inr (.inr (.inr h))

/-- An allocation that fails (5 + 7 in base 10 needs a second digit) and the debug check (21 - 19) look the same to the caller; the binary operator lets the failed
copy through. -/
example {F : Type} (o : FloatOps F) :
    Arith.assign o .base10 ⟨fun n => decide (n ≤ 1), false⟩ 9 .add ⟨.pos, [5]⟩ (.other ⟨.pos, [7]⟩) = .threw .stdException ⟨.posInf, []⟩ ∧
    Arith.assign o .base10 ⟨fun _ => true, true⟩ 9 .sub ⟨.pos, [1, 2]⟩ (.other ⟨.pos, [9, 1]⟩) = .threw .stdException ⟨.posInf, []⟩ ∧
    Arith.binary o .base10 ⟨fun _ => false, false⟩ 9 .add ⟨.pos, [5]⟩ ⟨.pos, [7]⟩ = .error (.exn .badAlloc) := by
  refine ⟨?_, ?_, rfl⟩
  · show Bignum.addAssign .base10 _ _ _ _ = _
    decide +kernel
  · show Bignum.subAssign .base10 _ _ _ _ = _
    decide +kernel

/-- The binary operators: a plain `std::exception`, or `std::bad_alloc` when the copy of the left operand cannot be made. -/
theorem C100_binary {F : Type} (o : FloatOps F) (L : Limits) (env : Env) (fuel : Nat) (k : Arith) (x y : Bignum) (e : Exn)
    (h : k.binary o L env fuel x y = .error (.exn e)) :
    e = .stdException ∨ (e = .badAlloc ∧ x.digits ≠ [] ∧ env.alloc x.digits.length = false) := by
  unfold Arith.binary viaCopy Bignum.copy at h
  by_cases h0 : x.digits = []
  · rw [show Vec.copy env x.digits = .ok x.digits by unfold Vec.copy; rw [if_pos h0, h0]] at h
    simp only [ok_bind] at h
    split at h
    · cases h
    · rename_i hh; cases h; exact .inl (C100_compound o L env fuel k _ _ _ _ hh)
    · cases h
    · cases h
  · by_cases hal : env.alloc x.digits.length = true
    · rw [show Vec.copy env x.digits = .ok x.digits by unfold Vec.copy; rw [if_neg h0, if_pos hal]] at h
      simp only [ok_bind] at h
      split at h
      · cases h
      · rename_i hh; cases h; exact .inl (C100_compound o L env fuel k _ _ _ _ hh)
      · cases h
      · cases h
    · rw [show Vec.copy env x.digits = .error (.exn .badAlloc) by unfold Vec.copy; rw [if_neg h0, if_neg hal]] at h
      cases h
      exact .inr ⟨rfl, h0, by simpa using hal⟩

example {F : Type} (o : FloatOps F) := C100_binary o .base10 ⟨fun n => decide (n < 2), false⟩ 9 .add Sample.n199 Sample.n23 .badAlloc
  (by rfl)

/-- Constructors, copies and the operations on digits throw nothing but `std::bad_alloc`, and only when an allocation fails. -/
theorem C100_containers (env : Env) (b : Bignum) (e : Exn) (d : Desc) (l : List Nat) (n x : Nat)
    (h : ofList env d l = .error (.exn e) ∨ b.copy env = .error (.exn e) ∨ b.resize env n x = .error (.exn e) ∨
      b.pushFront env x = .error (.exn e) ∨ b.pushBack env x = .error (.exn e) ∨ b.push env x n = .error (.exn e) ∨
      b.popFront = .error (.exn e) ∨ b.popBack = .error (.exn e) ∨ b.pop n = .error (.exn e)) :
    e = .badAlloc ∧ ∃ m, env.alloc m = false := by
  have resize : ∀ v m, ∀ e, Vec.resize env v m x = .error (.exn e) → e = .badAlloc ∧ ∃ n, env.alloc n = false := by
    intro v m e he
    unfold Vec.resize at he
    split at he
    · cases he
    · split at he
      · cases he
      · cases he; exact ⟨rfl, _, eq_false_of_ne_true ‹_›⟩
  have insert : ∀ v m, ∀ e, Vec.insert env v m x = .error (.exn e) → e = .badAlloc ∧ ∃ n, env.alloc n = false := by
    intro v m e he
    unfold Vec.insert at he
    split at he
    · cases he
    · split at he
      · cases he
      · cases he; exact ⟨rfl, _, eq_false_of_ne_true ‹_›⟩
  have erase : ∀ v m, ∀ e, Vec.erase v m = .error (.exn e) → e = .badAlloc ∧ ∃ n, env.alloc n = false := by
    intro v m e he
    unfold Vec.erase at he
    split at he <;> cases he
  rcases h with h | h | h | h | h | h | h | h | h
  · unfold ofList at h
    split at h
    · cases h
    · have hc : ∀ (l : List Nat) (a c : Nat) (v : List Nat), ctorLoop l a c v ≠ .error (.exn e) := by
        intro l
        induction l with
        | nil => intro a c v hh; cases hh
        | cons y ys ih =>
          intro a c v hh
          unfold ctorLoop at hh
          cases a with
          | succ a => exact ih _ _ _ hh
          | zero =>
            cases c with
            | zero => cases hh
            | succ c =>
              simp only at hh
              unfold Vec.wr at hh
              split at hh
              · rw [ok_bind] at hh; exact ih _ _ _ hh
              · cases hh
      revert h
      simp only
      generalize hr : Vec.resize env [] (l.length - countLeading l) 0 = r
      intro h
      cases r with
      | error k =>
        rw [error_bind] at h; cases h
        unfold Vec.resize at hr
        split at hr
        · cases hr
        · split at hr
          · cases hr
          · cases hr; exact ⟨rfl, _, eq_false_of_ne_true ‹_›⟩
      | ok v =>
        rw [ok_bind] at h
        cases hcc : ctorLoop l (countLeading l) v.length v with
        | ok w => rw [hcc] at h; cases h
        | error k => rw [hcc, error_bind] at h; cases h; exact absurd hcc (hc _ _ _ _)
  · exact soft_only_alloc (alloc_copy env _) e h
  · exact soft_only_alloc (resize _ _) e h
  · exact soft_only_alloc (insert _ _) e h
  · refine soft_only_alloc (r := Vec.pushBack env b.digits x) ?_ e h
    intro e he
    unfold Vec.pushBack at he
    split at he
    · cases he
    · cases he; exact ⟨rfl, _, eq_false_of_ne_true ‹_›⟩
  · exact soft_only_alloc (insert _ _) e h
  · exact soft_only_alloc (erase _ _) e h
  · refine soft_only_alloc (r := Vec.popBack b.digits) ?_ e h
    intro e he
    unfold Vec.popBack at he
    split at he <;> cases he
  · exact soft_only_alloc (erase _ _) e h

example := C100_containers ⟨fun n => decide (n < 2), false⟩ Sample.n199 .badAlloc .pos [1, 2] 0 0 (.inl (by decide))

theorem inRange_sum (l : List Nat) (n : Nat) : InRange (l.sum + n + 1) l := by
  intro x hx
  have : x ≤ l.sum := by
    induction l with
    | nil => simp at hx
    | cons y ys ih =>
      rw [List.sum_cons]
      rcases List.mem_cons.1 hx with rfl | h
      · omega
      · have := ih h; omega
  omega

/-- The comparisons always give an answer: no exception, no undefined behaviour, whatever the digits and descriptors. -/
theorem C100_comparisons (a b : Bignum) :
    (∃ r, a.eq b = .ok r) ∧ (∃ r, a.ne b = .ok r) ∧ (∃ r, a.gt b = .ok r) ∧ (∃ r, a.ge b = .ok r) ∧
    (∃ r, a.lt b = .ok r) ∧ ∃ r, a.le b = .ok r := by
  have ha := inRange_sum a.digits b.digits.sum
  have hb : InRange (a.digits.sum + b.digits.sum + 1) b.digits := by
    have := inRange_sum b.digits a.digits.sum
    rwa [Nat.add_comm b.digits.sum] at this
  have hgt : ∃ r, absGt a.digits b.digits = .ok r := ⟨_, absGt_eq _ _⟩
  have hlt : ∃ r, absLt a.digits b.digits = .ok r := ⟨_, (absLt_eq _ _).trans (absGt_eq _ _)⟩
  have hge : ∃ r, absGe a.digits b.digits = .ok r := ⟨_, absGe_eq ha hb⟩
  have hle : ∃ r, absLe a.digits b.digits = .ok r := ⟨_, absLe_eq ha hb⟩
  have ite : ∀ {p : Prop} [Decidable p] {x y : Res Bool}, (∃ r, x = .ok r) → (∃ r, y = .ok r) → ∃ r, (if p then x else y) = .ok r := by
    intro p _ x y hx hy
    by_cases hp : p
    · rwa [if_pos hp]
    · rwa [if_neg hp]
  refine ⟨?_, ?_, ?_, ?_, ?_, ?_⟩
  · exact ite ⟨_, rfl⟩ ⟨_, absEq_eq _ _⟩
  · exact ite ⟨_, rfl⟩ ⟨!(decide (a.digits = b.digits)), by rw [absEq_eq, ok_bind]⟩
  · exact ite ⟨_, rfl⟩ (ite ⟨_, rfl⟩ (ite hle hgt))
  · exact ite ⟨_, rfl⟩ (ite ⟨_, rfl⟩ (ite hlt hge))
  · exact ite ⟨_, rfl⟩ (ite ⟨_, rfl⟩ (ite hgt hlt))
  · exact ite ⟨_, rfl⟩ (ite ⟨_, rfl⟩ (ite hgt hle))

/-- So everything but `operator[]` can be caught as a `std::exception`. -/
theorem C100_std_partial {F : Type} (o : FloatOps F) (L : Limits) (env : Env) (fuel : Nat) (k : Arith) (x y : Bignum) (r : Rhs) (e : Exn) (s : Bignum)
    (h : k.assign o L env fuel x r = .threw e s ∨ k.binary o L env fuel x y = .error (.exn e)) : e.IsStd := by
  rcases h with h | h
  · rw [C100_compound o L env fuel k x r e s h]; exact fun h => by cases h
  · rcases C100_binary o L env fuel k x y e h with rfl | ⟨rfl, -⟩
    · exact fun h => by cases h
    · exact fun h => by cases h

example {F : Type} (o : FloatOps F) := C100_std_partial o .base10 ⟨fun n => decide (n < 2), false⟩ 9 .add Sample.n199 Sample.n23 .self
  .badAlloc Sample.n1 (.inr (by rfl))

/-- `operator[]`, reading and writing: throws exactly when the index is out of range, and what it throws is no `std::exception`. -/
theorem C100_subscript (b : Bignum) (i d : Nat) :
    (b.digits.length ≤ i → b.at_ i = .error (.exn .bnError) ∧ b.setAt i d = .error (.exn .bnError)) ∧
    (i < b.digits.length → ∀ e, b.at_ i ≠ .error (.exn e) ∧ b.setAt i d ≠ .error (.exn e)) := by
  unfold at_ setAt
  refine ⟨fun h => ?_, fun h e => ?_⟩
  · rw [if_neg (by omega), if_neg (by omega)]; exact ⟨rfl, rfl⟩
  · rw [if_pos h, if_pos h]
    unfold Vec.rd Vec.wr
    rw [if_pos h]
    refine ⟨?_, by rw [ok_bind]; simp⟩
    rw [List.getElem?_eq_getElem h]; simp

theorem C100_refuted : ∃ (b : Bignum) (i : Nat) (e : Exn), WF .base10 b ∧ b.at_ i = .error (.exn e) ∧ ¬ e.IsStd :=
  ⟨⟨.pos, [7]⟩, 1, .bnError, by simp [WF, Signed, WFDigits, InRange, NoLeadingZero, Limits.base, Limits.base10, Limits.custom], rfl, fun h => h rfl⟩

end BN
