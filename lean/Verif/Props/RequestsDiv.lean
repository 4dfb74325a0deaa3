import Verif.Lemmas.RequestsDiv
import Verif.Props.Requests
import Verif.Props.Control
/-
C121: how often a division asks for memory.
-/
namespace BN
open Bignum

variable {F : Type}

/-- The requests of a division that gets to comparing its operands. -/
theorem requests_div {o : FloatOps F} {L : Limits} (d : Bool) (n : Nat) {x : Bignum} {r : Rhs} (hx : Signed x.desc) (h0 : (r.get x).digits ≠ [0])
    (h1 : (r.get x).digits ≠ [1]) (hx0 : x.digits ≠ []) (hx1 : x.digits ≠ [0]) {t : Bool} (ht : absGt x.digits (r.get x).digits = .ok t) {N : Nat}
    (hN : if t then Asks d (fun _ => True) N (fun E => absDivM L E n x.digits (r.get x).digits) (absDiv L (fullEnv d) n x.digits (r.get x).digits)
      else N = 0) :
    ∃ R, R.length = N ∧ Requests o L .div d n x r R := by
  have hc : ¬ (!isComputable x.desc) = true := by rcases hx with h | h <;> simp [h, isComputable]
  have hr : (r.get ⟨mulSign x.desc (r.get x).desc, x.digits⟩).digits = (r.get x).digits := by cases r <;> rfl
  refine requests_handle (o := o) (L := L) (k := .div) (n := n) (x := x) (r := r)
      (y := ⟨mulSign x.desc (r.get x).desc, x.digits⟩) (t := (r.get (⟨mulSign x.desc (r.get x).desc, x.digits⟩ : Bignum)).desc)
      (f := fun E => if t then absDivM L E n x.digits (r.get x).digits >>= fun l => .ok ⟨mulSign x.desc (r.get x).desc, l⟩
        else .ok ⟨mulSign x.desc (r.get x).desc, [L.store (L.toSingle 0)]⟩)
      (a := if t then absDiv L (fullEnv d) n x.digits (r.get x).digits >>= fun l => .ok ⟨mulSign x.desc (r.get x).desc, l⟩
        else .ok ⟨mulSign x.desc (r.get x).desc, [L.store (L.toSingle 0)]⟩) (fun E => ?_) ?_
  · simp only [Arith.assignM, if_neg hc]
    rw [if_neg (by rw [isOneDigit_iff, hr]; exact h0), if_neg (by rw [isOneDigit_iff, hr]; exact h1),
      if_neg (by rw [isOneDigit_iff]; simp [hx0, hx1]), hr, ht]
    rfl
  · cases t with
    | true => simp only [if_true] at hN ⊢; exact hN.andThen _
    | false => simp only [Bool.false_eq_true, if_false] at hN ⊢; subst hN; exact .none fun _ _ => rfl

/-- C121: the number of requests of a division (custom bases, a divisor of magnitude 2 or more, a larger dividend). With len(m) for the number of
digits of m, it is one, and for every one in the binary numeral of the quotient, at place i, 2 + i + (len(2^(i+1) b) - len(b)) + len(2^i), and as
many as the quotient has digits more than the largest power of two in it. -/
theorem C121_quotient (o : FloatOps F) {L : Limits} (h : Custom L) (d : Bool) (n : Nat) {x : Bignum} {r : Rhs} (hx : WF L x)
    (hy : WF L (r.get x)) (h2 : 2 ≤ (r.get x).mag L) (hlt : (r.get x).mag L < x.mag L) {len : Nat → Nat}
    (hlen : ∀ m, len m = (Nat.digits L.base m).length) {b m : Nat} (hb : b = (r.get x).mag L) (hm : m = x.mag L / b) {z : Bignum}
    (hz : Arith.assign o L ⟨fun _ => true, d⟩ n .div x r = .ok z) :
    ∃ R, Requests o L .div d n x r R ∧
      R.length + len (2 ^ Nat.log 2 m) = 1 + (m.bitIndices.map fun i => 2 + i + (len (b * 2 ^ (i + 1)) - len b) + len (2 ^ i)).sum + len m := by
  subst hb hm
  have hB := h.supported.base_ge
  have hy0 : (r.get x).digits ≠ [] := by intro e; simp [mag, e] at h2
  have hx0 : x.digits ≠ [] := by intro e; simp [mag, e] at hlt
  have hy1 : (r.get x).digits ≠ [0] := by intro e; simp [mag, e] at h2
  have hy2 : (r.get x).digits ≠ [1] := by intro e; simp [mag, e] at h2
  have hx1 : x.digits ≠ [0] := by intro e; simp [mag, e] at hlt
  have hbz : NZ L.base (r.get x).digits := ⟨hy.2.1, hy.2.2.resolve_right hy1, hy0⟩
  have haz : NZ L.base x.digits := ⟨hx.2.1, hx.2.2.resolve_right hx1, hx0⟩
  obtain ⟨t, ht, ht'⟩ := absGt_mixed hB hx.2 hy.2 (by intro e; simp only [mag] at hlt; omega)
  have htrue : t = true := ht'.2 (.inl hlt)
  subst htrue
  obtain ⟨N, hN, hc⟩ := asksC_div (d := d) h n hbz haz hlt.le
  obtain ⟨R, hR, hreq⟩ := requests_div (o := o) d n hx.1 hy1 hy2 hx0 hx1 ht (N := N) hN
  refine ⟨R, hreq, ?_⟩
  have e : len = lenOf L := funext hlen
  subst e
  rw [hR]
  have hok : ∃ q, absDiv L (fullEnv d) n x.digits (r.get x).digits = .ok q := by
    have hcomp : ¬ (!isComputable x.desc) = true := by rcases hx.1 with h | h <;> simp [h, isComputable]
    have hr : (r.get ⟨mulSign x.desc (r.get x).desc, x.digits⟩).digits = (r.get x).digits := by cases r <;> rfl
    rw [← C111_one_answer_per_size o L .div (env := ⟨fun _ => true, d⟩) (fun _ _ _ _ => rfl) n x r] at hz
    simp only [Arith.assignM, if_neg hcomp] at hz
    rw [if_neg (by rw [isOneDigit_iff, hr]; exact hy1), if_neg (by rw [isOneDigit_iff, hr]; exact hy2),
      if_neg (by rw [isOneDigit_iff]; simp [hx0, hx1]), hr, ht] at hz
    have hz := handle_ok_iff.1 hz
    simp only [ok_bind, if_true] at hz
    rw [show (fun _ => (⟨fun _ => true, d⟩ : Env)) = (fullEnv d).always from rfl, absDivM_always] at hz
    cases hq : absDiv L (fullEnv d) n x.digits (r.get x).digits with
    | ok q => exact ⟨q, rfl⟩
    | error e => rw [hq] at hz; cases hz
  obtain ⟨q, hq⟩ := hok
  exact hc q hq

/-- 199 / 23 = 8: eight requests. -/
example (o : FloatOps F) : ∃ R, R.length = 8 ∧ Requests o .base10 .div false 250 Sample.n199 (.other Sample.n23) R := by
  obtain ⟨R, h1, h2⟩ := C121_quotient o (L := .base10) Sample.base10 false 250 (x := Sample.n199) (r := .other Sample.n23) (by sample) (by sample)
    (by sample) (by sample) (len := fun m => (Nat.digits 10 m).length) (fun _ => rfl) (b := 23) (m := 8) (by decide +kernel) (by decide +kernel)
    (z := ⟨.pos, [8]⟩) (show Bignum.divAssign .base10 _ 250 Sample.n199 (.other Sample.n23) = _ by decide +kernel)
  refine ⟨R, ?_, h1⟩
  have e : (8 : Nat).bitIndices = [3] := by rw [show 8 = 2 ^ 3 by rfl, Nat.bitIndices_two_pow]
  have e' : Nat.log 2 8 = 3 := by rw [show 8 = 2 ^ 3 by rfl, Nat.log_pow (by decide)]
  rw [e, e'] at h2
  norm_num at h2
  omega

/-- C121: a division by a number of no smaller magnitude asks at most once: only if a digit of the dividend exceeds the digit of the divisor at the
same place, in numbers of the same length. -/
theorem C121_quotient_zero (o : FloatOps F) {L : Limits} (h : Custom L) (d : Bool) {n : Nat} (hn : 0 < n) {x : Bignum} {r : Rhs} (hx : WF L x)
    (hy : WF L (r.get x)) (h2 : 2 ≤ (r.get x).mag L) (hle : x.mag L ≤ (r.get x).mag L) :
    ∃ R, R.length ≤ 1 ∧ (R.length = 1 ↔ Mixed L.base (x.mag L) ((r.get x).mag L)) ∧ Requests o L .div d n x r R := by
  have hB := h.supported.base_ge
  have hy0 : (r.get x).digits ≠ [] := by intro e; simp [mag, e] at h2
  have hy1 : (r.get x).digits ≠ [0] := by intro e; simp [mag, e] at h2
  have hy2 : (r.get x).digits ≠ [1] := by intro e; simp [mag, e] at h2
  have hbz : NZ L.base (r.get x).digits := ⟨hy.2.1, hy.2.2.resolve_right hy1, hy0⟩
  have hc : ¬ (!isComputable x.desc) = true := by rcases hx.1 with h | h <;> simp [h, isComputable]
  have hr : (r.get ⟨mulSign x.desc (r.get x).desc, x.digits⟩).digits = (r.get x).digits := by cases r <;> rfl
  by_cases hx0 : x.mag L = 0
  · have hx1 : x.digits = [] ∨ isOneDigit x.digits 0 = true := by
      rw [isOneDigit_iff]
      rcases wf_cases hB hx.2 with ⟨h1, -⟩ | ⟨h1, -⟩
      · exact h1
      · have := h1.pos hB; simp only [mag] at hx0; omega
    refine ⟨[], by simp, ?_, by simp, fun E _ => ⟨fun _ => ?_, by simp⟩⟩
    · refine ⟨by simp, fun hmix => ?_⟩
      have := hmix.1
      rw [hx0, Nat.digits_zero] at this
      exact absurd (List.length_eq_zero_iff.1 this.symm) (Nat.digits_ne_nil_iff_ne_zero.2 (by omega))
    · rw [← C111_one_answer_per_size o L .div (env := ⟨fun _ => true, d⟩) (fun _ _ _ _ => rfl) n x r]
      simp only [Arith.assignM, if_neg hc]
      rw [if_neg (by rw [isOneDigit_iff, hr]; exact hy1), if_neg (by rw [isOneDigit_iff, hr]; exact hy2), if_pos hx1,
        if_neg (by rw [isOneDigit_iff, hr]; exact hy1), if_neg (by rw [isOneDigit_iff, hr]; exact hy2), if_pos hx1]
  · have hx1 : x.digits ≠ [] := by intro e; simp [mag, e] at hx0
    have hx2 : x.digits ≠ [0] := by intro e; simp [mag, e] at hx0
    have haz : NZ L.base x.digits := ⟨hx.2.1, hx.2.2.resolve_right hx2, hx1⟩
    obtain ⟨t, ht, ht'⟩ := absGt_mixed hB hx.2 hy.2 (by intro e; simp only [mag] at hx0; omega)
    have hmix : t = true ↔ Mixed L.base (x.mag L) ((r.get x).mag L) := by
      rw [ht']
      simp only [mag] at hle ⊢
      constructor
      · rintro (h | h)
        · omega
        · exact h
      · exact .inr
    cases t with
    | false =>
      obtain ⟨R, hR, hreq⟩ := requests_div (o := o) (L := L) d n hx.1 hy1 hy2 hx1 hx2 ht (N := 0) rfl
      exact ⟨R, by omega, by rw [← hmix, hR]; simp, hreq⟩
    | true =>
      have hne : x.mag L ≠ (r.get x).mag L := by
        intro e
        obtain ⟨-, i, hi⟩ := hmix.1 rfl
        rw [e] at hi
        exact lt_irrefl _ hi
      have hge : absGe x.digits (r.get x).digits = .ok false := by
        rw [absGe_normal (B := L.base) (by omega) haz.rng hbz.rng haz.nlz hbz.nlz]
        simp only [mag] at hle hne
        simp; omega
      obtain ⟨n, rfl⟩ : ∃ k, n = k + 1 := ⟨n - 1, by omega⟩
      obtain ⟨R, hR, hreq⟩ := requests_div (o := o) (L := L) d (n + 1) hx.1 hy1 hy2 hx1 hx2 ht (N := 1) (by
        simp only [if_true]
        have hrun : ∀ E : Moments, absDivM L E (n + 1) x.digits (r.get x).digits =
            if (E [0]).alloc 1 then .ok [L.store (L.toSingle 0)] else .error (.exn .badAlloc) := by
          intro E
          unfold absDivM
          by_cases hal : (E [0]).alloc 1 = true <;> simp [Vec.copy, hal, loopWhile, hge]
        refine .one [0] 1 trivial fun E _ => ?_
        rw [hrun, ← absDivM_always, hrun]
        rfl)
      exact ⟨R, by omega, by rw [← hmix, hR]; simp, hreq⟩

/-- 23 / 199: no request; 29 / 31: the library allocates its one digit. -/
example (o : FloatOps F) := C121_quotient_zero o (L := .base10) Sample.base10 false (n := 9) (by decide) (x := Sample.n23)
  (r := .other Sample.n199) (by sample) (by sample) (by sample) (by sample)
example (o : FloatOps F) := C121_quotient_zero o (L := .base10) Sample.base10 true (n := 9) (by decide) (x := ⟨.pos, [9, 2]⟩)
  (r := .other ⟨.pos, [1, 3]⟩) (by sample) (by sample) (by sample) (by sample)

/-- C121: a division by 1, -1 or 0 asks for nothing. -/
theorem C121_quotient_one (o : FloatOps F) {L : Limits} (h : Custom L) (d : Bool) (n : Nat) {x : Bignum} {r : Rhs} (hx : Signed x.desc)
    (hy : WF L (r.get x)) (hy0 : (r.get x).digits ≠ []) (h2 : (r.get x).mag L ≤ 1) : Requests o L .div d n x r [] := by
  have hB := h.supported.base_ge
  have hc : ¬ (!isComputable x.desc) = true := by rcases hx with h | h <;> simp [h, isComputable]
  have hr : (r.get ⟨mulSign x.desc (r.get x).desc, x.digits⟩).digits = (r.get x).digits := by cases r <;> rfl
  have hd : (r.get x).digits = [0] ∨ (r.get x).digits = [1] := by
    rcases hy.2.2 with h1 | h1
    · right
      refine wf_unique hB hy.2 (b := [1]) ⟨by intro y hy; simp at hy; omega, .inl (by simp [NoLeadingZero])⟩ hy0 (by simp) ?_
      have := natOf_pos_of_noLeadingZero (B := L.base) (by omega) h1 hy0
      simp only [mag] at h2
      simp; omega
    · exact .inl h1
  refine ⟨by simp, fun E _ => ⟨fun _ => ?_, by simp⟩⟩
  rw [← C111_one_answer_per_size o L .div (env := ⟨fun _ => true, d⟩) (fun _ _ _ _ => rfl) n x r]
  simp only [Arith.assignM, if_neg hc]
  rcases hd with e | e
  · simp only [if_pos (show isOneDigit (r.get ⟨mulSign x.desc (r.get x).desc, x.digits⟩).digits 0 = true by rw [isOneDigit_iff, hr]; exact e)]
  · rw [if_neg (by rw [isOneDigit_iff, hr, e]; simp), if_pos (by rw [isOneDigit_iff, hr]; exact e),
      if_neg (by rw [isOneDigit_iff, hr, e]; simp), if_pos (by rw [isOneDigit_iff, hr]; exact e)]

example (o : FloatOps F) := C121_quotient_one o (L := .base10) Sample.base10 false 9 (x := Sample.n199) (r := .other Sample.n1) (by sample)
  (by sample) (by sample) (by sample)

end BN
