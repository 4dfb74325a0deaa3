import Verif.Lemmas.Requests
import Verif.Lemmas.Samples
import Verif.Props.Cost
/-
C121: how often the operators ask for memory.
-/
namespace BN
open Bignum

variable {F : Type}

/-- The requests for memory, by place and size, of `x op= num` in a build: all at different places; if the allocator
grants them all, the operator ends as with unlimited memory, and if it refuses any of them, the operator throws a
`std::exception` and leaves an infinity. -/
def Requests (o : FloatOps F) (L : Limits) (k : Arith) (d : Bool) (n : Nat) (x : Bignum) (r : Rhs) (R : List (List Nat × Nat)) : Prop :=
  (R.map Prod.fst).Nodup ∧ ∀ E : Moments, E.OfBuild d →
    ((∀ q ∈ R, (E q.1).alloc q.2 = true) → k.assignM o L E n x r = k.assign o L ⟨fun _ => true, d⟩ n x r) ∧
    ((∃ q ∈ R, (E q.1).alloc q.2 = false) →
      ∃ i, (i = .posInf ∨ i = .negInf) ∧ k.assignM o L E n x r = .threw .stdException ⟨i, []⟩)

theorem requests_handle {o : FloatOps F} {L : Limits} {k : Arith} {d : Bool} {n : Nat} {x : Bignum} {r : Rhs} {y : Bignum} {t : Desc}
    {f : Moments → Res Bignum} {a : Res Bignum} {N : Nat} (hf : ∀ E, k.assignM o L E n x r = handle y t (f E))
    (h : Asks d (fun _ => True) N f a) : ∃ R, R.length = N ∧ Requests o L k d n x r R := by
  obtain ⟨R, h1, -, h3, h4⟩ := h
  refine ⟨R, h1, h3, fun E hE => ⟨fun hg => ?_, fun hr => ?_⟩⟩
  · have hfull := (h4 (fullEnv d).always fun _ => rfl).1 fun _ _ => rfl
    rw [← C111_one_answer_per_size o L k (env := ⟨fun _ => true, d⟩) (fun _ _ _ _ => rfl) n x r, hf, (h4 E hE).1 hg,
      show (fun _ => (⟨fun _ => true, d⟩ : Env)) = (fullEnv d).always from rfl, hf, hfull]
  · refine ⟨if t = .pos then .posInf else .negInf, by split <;> simp, ?_⟩
    rw [hf, (h4 E hE).2 hr]
    rfl

/-- C121: the requests of an operator are a matter of the operands. -/
theorem C121_criterion (o : FloatOps F) (L : Limits) (k : Arith) (d : Bool) (n : Nat) (x : Bignum) (r : Rhs) :
    ∃ R, Requests o L k d n x r R := by
  have fixed : ∀ b, (∀ E : Moments, k.assignM o L E n x r = .ok b) → ∃ R, Requests o L k d n x r R := fun b hb =>
    ⟨[], by simp, fun E _ => ⟨fun _ => by
      rw [← C111_one_answer_per_size o L k (env := ⟨fun _ => true, d⟩) (fun _ _ _ _ => rfl) n x r, hb, hb], fun ⟨_, h, _⟩ => by cases h⟩⟩
  by_cases hc : (!isComputable x.desc) = true
  · exact fixed _ fun E => by unfold Arith.assignM; rw [if_pos hc]
  cases k with
  | add =>
    obtain ⟨N, h⟩ := asks_addTry (d := d) L n x r
    obtain ⟨R, -, hR⟩ := requests_handle (o := o) (k := .add) (fun E => by rw [Arith.assignM, if_neg hc]) h
    exact ⟨R, hR⟩
  | sub =>
    obtain ⟨N, -, h⟩ := asks_subTry (d := d) L n x r
    obtain ⟨R, -, hR⟩ := requests_handle (o := o) (k := .sub) (fun E => by rw [Arith.assignM, if_neg hc]) h
    exact ⟨R, hR⟩
  | mul =>
    obtain ⟨N, h⟩ := (asks_mul_any (d := d) o L n x.digits (r.get x).digits).andThen fun l => Except.ok (⟨mulSign x.desc (r.get x).desc, l⟩ : Bignum)
    obtain ⟨R, -, hR⟩ := requests_handle (o := o) (k := .mul) (fun E => by rw [Arith.assignM, if_neg hc]) h
    exact ⟨R, hR⟩
  | div =>
    by_cases h1 : isOneDigit (r.get (⟨mulSign x.desc (r.get x).desc, x.digits⟩ : Bignum)).digits 0 = true
    · exact fixed _ fun E => by simp only [Arith.assignM, if_neg hc]; rw [if_pos h1]
    by_cases h2 : isOneDigit (r.get (⟨mulSign x.desc (r.get x).desc, x.digits⟩ : Bignum)).digits 1 = true
    · exact fixed _ fun E => by simp only [Arith.assignM, if_neg hc]; rw [if_neg h1, if_pos h2]
    by_cases h3 : x.digits = [] ∨ isOneDigit x.digits 0 = true
    · exact fixed _ fun E => by simp only [Arith.assignM, if_neg hc]; rw [if_neg h1, if_neg h2, if_pos h3]
    obtain ⟨N, h⟩ : ∃ N, Asks d (fun _ => True) N (fun E => (do
        if ← absGt x.digits (r.get (⟨mulSign x.desc (r.get x).desc, x.digits⟩ : Bignum)).digits then
          let l ← absDivM L E n x.digits (r.get (⟨mulSign x.desc (r.get x).desc, x.digits⟩ : Bignum)).digits
          .ok ⟨mulSign x.desc (r.get x).desc, l⟩
        else .ok ⟨mulSign x.desc (r.get x).desc, [L.store (L.toSingle 0)]⟩ : Res Bignum)) (do
        if ← absGt x.digits (r.get (⟨mulSign x.desc (r.get x).desc, x.digits⟩ : Bignum)).digits then
          let l ← absDiv L (fullEnv d) n x.digits (r.get (⟨mulSign x.desc (r.get x).desc, x.digits⟩ : Bignum)).digits
          .ok ⟨mulSign x.desc (r.get x).desc, l⟩
        else .ok ⟨mulSign x.desc (r.get x).desc, [L.store (L.toSingle 0)]⟩) := by
      cases absGt x.digits (r.get (⟨mulSign x.desc (r.get x).desc, x.digits⟩ : Bignum)).digits with
      | error e => exact AsksSome.none fun _ _ => rfl
      | ok t => simp only [ok_bind]; exact AsksSome.ite (fun _ => (asks_div L n _ _).andThen _) fun _ => .none fun _ _ => rfl
    obtain ⟨R, -, hR⟩ := requests_handle (o := o) (L := L) (k := .div) (n := n) (x := x) (r := r)
      (y := ⟨mulSign x.desc (r.get x).desc, x.digits⟩) (t := (r.get (⟨mulSign x.desc (r.get x).desc, x.digits⟩ : Bignum)).desc)
      (fun E => by simp only [Arith.assignM, if_neg hc]; rw [if_neg h1, if_neg h2, if_neg h3]) h
    exact ⟨R, hR⟩

/-- The requests are determined: two such lists for operands whose operator does not throw with unlimited memory contain
the same requests. -/
theorem C121_unique {o : FloatOps F} {L : Limits} {k : Arith} {d : Bool} {n : Nat} {x : Bignum} {r : Rhs} {R R' : List (List Nat × Nat)}
    (h : Requests o L k d n x r R) (h' : Requests o L k d n x r R')
    (hf : ∀ e y, k.assign o L ⟨fun _ => true, d⟩ n x r ≠ .threw e y) : R.Perm R' := by
  have key : ∀ {R R' : List (List Nat × Nat)}, Requests o L k d n x r R → Requests o L k d n x r R' → ∀ q ∈ R, q ∈ R' := by
    intro R R' h h' q hq
    by_contra hc
    let E : Moments := fun p => ⟨fun m => decide ((p, m) ≠ q), d⟩
    have hE : E.OfBuild d := fun _ => rfl
    obtain ⟨i, -, e⟩ := (h.2 E hE).2 ⟨q, hq, by simp [E]⟩
    have := (h'.2 E hE).1 fun q' hq' => by
      have : q' ≠ q := fun e => hc (e ▸ hq')
      simp [E, this]
    exact hf _ _ (this.symm.trans e)
  have nd : ∀ {R : List (List Nat × Nat)}, Requests o L k d n x r R → R.Nodup := fun h => List.Nodup.of_map _ h.1
  exact (List.perm_ext_iff_of_nodup (nd h) (nd h')).2 fun q => ⟨key h h' q, key h' h q⟩

example (o : FloatOps F) {R : List (List Nat × Nat)} (h : Requests o .base10 .add false 9 Sample.n199 .self R) :=
  C121_unique h (C121_criterion o .base10 .add false 9 Sample.n199 .self).choose_spec (fun e y h => by
    have : addAssign .base10 ⟨fun _ => true, false⟩ 9 Sample.n199 .self = .ok ⟨.pos, [8, 9, 3]⟩ := by decide
    exact absurd (this.symm.trans h) (by simp))

/-- C121: a product of numbers of p and q digits asks 6·2^k - 1 times, where 2^k is the least power of two that is not
below p + q. -/
theorem C121_product (o : FloatOps F) (L : Limits) (d : Bool) {x : Bignum} {r : Rhs} (hx : Signed x.desc)
    (h1 : 1 ≤ x.digits.length + (r.get x).digits.length) (h2 : x.digits.length + (r.get x).digits.length ≤ 2 ^ 32) {n : Nat} (hn : 32 < n) :
    ∃ R, R.length = 6 * 2 ^ Nat.clog 2 (x.digits.length + (r.get x).digits.length) - 1 ∧ Requests o L .mul d n x r R := by
  have hc : ¬ (!isComputable x.desc) = true := by rcases hx with h | h <;> simp [h, isComputable]
  have hk : Nat.clog 2 (x.digits.length + (r.get x).digits.length) ≤ 32 := Nat.clog_le_of_le_pow h2
  have h := asks_mul (d := d) o L hk (clog_table h1 h2 rfl) hn
  exact requests_handle (o := o) (k := .mul) (fun E => by rw [Arith.assignM, if_neg hc])
    (h.andThen fun l => Except.ok (⟨mulSign x.desc (r.get x).desc, l⟩ : Bignum))

/-- 199 · (-23): a table of 8 entries, 47 requests. -/
example {F : Type} (o : FloatOps F) : ∃ R, R.length = 47 ∧ Requests o .base10 .mul false 33 Sample.n199 (.other Sample.m23) R := by
  simpa [Rhs.get, show Nat.clog 2 5 = 3 by decide +kernel] using
    C121_product o .base10 false (x := Sample.n199) (r := .other Sample.m23) (by sample) (by decide) (by decide) (n := 33) (by decide)

/-- C121: a sum of numbers of the same sign asks once for each digit that it is longer than the left operand. -/
theorem C121_sum (o : FloatOps F) (L : Limits) (d : Bool) (n : Nat) {x : Bignum} {r : Rhs} (hx : Signed x.desc) (hr : (r.get x).desc = x.desc) :
    ∃ R, Requests o L .add d n x r R ∧
      ∀ z, addAssign L ⟨fun _ => true, d⟩ n x r = .ok z → R.length + x.digits.length = z.digits.length := by
  have hc : ¬ (!isComputable x.desc) = true := by rcases hx with h | h <;> simp [h, isComputable]
  have ht : ∀ E : Moments, addTryM L E n x r = absAddM L (E.at 0) n x.digits r.src >>= fun l => Except.ok (⟨x.desc, l⟩ : Bignum) := by
    intro E
    unfold addTryM
    rcases hx with h | h
    · rw [if_pos ⟨h, by rw [hr, h]⟩]
    · rw [if_neg (by simp [h]), if_neg (by simp [h]), if_neg (by simp [hr, h])]
  obtain ⟨N, hN, hlen⟩ := asks_add_count (d := d) L n x.digits r.src
  obtain ⟨R, h1, hR⟩ := requests_handle (o := o) (L := L) (k := .add) (n := n) (x := x) (r := r) (y := x) (t := (r.get x).desc)
    (fun E => by rw [Arith.assignM, if_neg hc, ht])
    (((hN.at 0).andThen fun l => Except.ok (⟨x.desc, l⟩ : Bignum)).mono fun _ _ => trivial)
  refine ⟨R, hR, fun z hz => ?_⟩
  rw [addAssign, if_neg hc, ← addTryM_always, ht, Env.always_at, absAddM_always] at hz
  cases hw : absAdd L (fullEnv d) n x.digits r.src with
  | error e =>
    rw [hw] at hz
    cases e with
    | exn e => cases e <;> cases hz
    | ub k => cases hz
    | timeout => cases hz
  | ok w =>
    rw [hw] at hz
    cases hz
    rw [h1]
    exact hlen w hw

example {F : Type} (o : FloatOps F) := C121_sum o .base10 false 9 (x := Sample.n199) (r := .self) (by sample) rfl

/-- C121: a difference asks at most once, and so does a sum of numbers of opposite signs. -/
theorem C121_difference (o : FloatOps F) (L : Limits) (d : Bool) (n : Nat) (x : Bignum) (r : Rhs) :
    (Signed x.desc → ∃ R, R.length ≤ 1 ∧ Requests o L .sub d n x r R) ∧
    (x.desc = .pos ∧ (r.get x).desc = .neg ∨ x.desc = .neg ∧ (r.get x).desc = .pos → ∃ R, R.length ≤ 1 ∧ Requests o L .add d n x r R) := by
  constructor
  · intro hx
    have hc : ¬ (!isComputable x.desc) = true := by rcases hx with h | h <;> simp [h, isComputable]
    obtain ⟨N, hN, h⟩ := asks_subTry (d := d) L n x r
    obtain ⟨R, h1, hR⟩ := requests_handle (o := o) (k := .sub) (fun E => by rw [Arith.assignM, if_neg hc]) h
    exact ⟨R, by omega, hR⟩
  · intro hx
    have hc : ¬ (!isComputable x.desc) = true := by rcases hx with h | h <;> simp [h, isComputable]
    obtain ⟨N, hN, h⟩ := asks_addTry_opposite (d := d) L n hx
    obtain ⟨R, h1, hR⟩ := requests_handle (o := o) (k := .add) (fun E => by rw [Arith.assignM, if_neg hc]) h
    exact ⟨R, by omega, hR⟩

example {F : Type} (o : FloatOps F) := (C121_difference o .base10 true 9 Sample.n23 (.other Sample.n199)).1 (by sample)

end BN
