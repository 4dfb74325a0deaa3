import Verif.Lemmas.Samples
import Mathlib.Data.Nat.Log
import Verif.Lemmas.CostMul
import Verif.Lemmas.CostDiv
import Verif.Props.Division
/-
C114–C116: the work the operators do.  A step is one digit (or one entry of a Fourier table) processed, copied or appended; see Model/Cost.
-/
namespace BN
open Bignum

/-- Count digits. -/
def perDigit : Weights := ⟨1, 0, 0⟩
/-- Count subtractions of whole numbers. -/
def perSub : Weights := ⟨0, 1, 0⟩
/-- Count doublings of the multiple of the divisor. -/
def perDouble : Weights := ⟨0, 0, 1⟩

/-! ### C114 -/

/-- The operators that count are the operators of the model: they end in the same way with the same objects, whatever is counted. -/
theorem C114_same_results {F : Type} (w : Weights) (o : FloatOps F) (L : Limits) (env : Env) (n : Nat) (x y : Bignum) :
    (∀ (k : Arith) (r : Rhs), (k.assignC w o L env n x r).1 = k.assign o L env n x r) ∧
    (∀ k : Arith, (k.binaryC w o L env n x y).res = k.binary o L env n x y) ∧ ∀ c : Cmp, (c.runC w x y).res = c.run x y :=
  ⟨fun k r => res_assign w o L env n k x r, fun k => res_binary w o L env n k x y, fun c => res_cmp w c x y⟩

/-- C114: a comparison looks at no more digits than the shorter operand has. -/
theorem C114_compare (c : Cmp) (a b : Bignum) : (c.runC perDigit a b).steps ≤ min a.digits.length b.digits.length := by
  simpa [perDigit] using cmp_le perDigit c a b

/-- C114: `+=` and `-=` take linear time, for all operands (also `x += x`), in both builds, with every allocator, however they end. -/
theorem C114_assign {F : Type} (o : FloatOps F) {L : Limits} (h : Supported L) (env : Env) (n : Nat) {k : Arith} (hk : k = .add ∨ k = .sub)
    (x : Bignum) (r : Rhs) :
    (k.assignC perDigit o L env n x r).2 ≤ 5 * max x.digits.length (r.get x).digits.length + 1 := by
  unfold Arith.assignC
  split
  · exact Nat.zero_le _
  · rcases hk with rfl | rfl
    · simpa [perDigit, Arith.work] using addTry_le perDigit h env n x r
    · simpa [perDigit, Arith.work] using subTry_le perDigit L env n x r

example {F : Type} (o : FloatOps F) := C114_assign o (L := .base10) (.inr Sample.base10) releaseEnv 9 (k := .sub) (.inr rfl)
  Sample.n199 (.other Sample.n23)

/-- The binary operators add the copy of the left operand. -/
theorem C114_binary {F : Type} (o : FloatOps F) (L : Limits) (env : Env) (n : Nat) (k : Arith) (x y : Bignum) :
    (k.binaryC perDigit o L env n x y).steps ≤ x.digits.length + (k.assignC perDigit o L env n x (.other y)).2 ∧
    ∀ z, k.binary o L env n x y = .ok z →
      (k.binaryC perDigit o L env n x y).steps = x.digits.length + (k.assignC perDigit o L env n x (.other y)).2 := by
  have hc : Takes (Bignum.copyC perDigit env x) x.digits.length (fun b => b = x) := by
    unfold Bignum.copyC
    refine (Takes.bind (N := x.digits.length) (M := 0) (P := fun d => d = x.digits) ?_ fun d hd => ⟨le_rfl, ?_⟩)
    · unfold BN.copyC
      rw [show perDigit.digit * x.digits.length = x.digits.length by simp [perDigit]]
      exact .charge (keeps_copy env _)
    · rintro b hb
      cases hb
      exact ⟨by rw [hd], rfl⟩
  have key : Takes (k.binaryC perDigit o L env n x y) (x.digits.length + (k.assignC perDigit o L env n x (.other y)).2) (fun _ => True) := by
    unfold Arith.binaryC
    refine hc.bind ?_
    rintro b rfl
    exact .charge (keeps_true _)
  refine ⟨key.1, fun z hz => ?_⟩
  rw [← res_binary perDigit] at hz
  exact (key.2 z hz).2

theorem handle_ok_iff {x : Bignum} {d : Desc} {r : Res Bignum} {z : Bignum} : handle x d r = .ok z ↔ r = .ok z := by
  unfold handle
  split
  · constructor <;> (intro h; cases h; rfl)
  all_goals constructor <;> intro h <;> cases h

/-- C114, exactly: a sum of numbers of the same sign that returns has taken one step for every digit of the result, however small the number
added: counting up by one takes time proportional to the length of the counter in every step. -/
theorem C114_sum_exact {F : Type} (o : FloatOps F) {L : Limits} {env : Env} {n : Nat} {x : Bignum} {r : Rhs} (hx : Signed x.desc)
    (hs : (r.get x).desc = x.desc) {z : Bignum} (hz : Arith.assign o L env n .add x r = .ok z) :
    (Arith.assignC perDigit o L env n .add x r).2 = z.digits.length := by
  rw [← res_assign perDigit] at hz
  have hcomp : isComputable x.desc = true := by rcases hx with h | h <;> rw [h] <;> rfl
  unfold Arith.assignC at hz ⊢
  simp only [hcomp, Bool.not_true, Bool.false_eq_true, if_false] at hz ⊢
  have hw : Arith.work perDigit o L env n .add x r = (do
      let d ← absAddC perDigit L env n x.digits r.src
      pure ⟨x.desc, d⟩) := by
    unfold Arith.work
    simp only [addTryC]
    rcases hx with h | h <;> rw [hs, h] <;> simp
  rw [hw] at hz ⊢
  have key : Does (do
      let d ← absAddC perDigit L env n x.digits r.src
      pure (⟨x.desc, d⟩ : Bignum)) (fun b k => k = b.digits.length) := by
    refine .bind (absAdd_exact perDigit L env n x.digits r.src) ?_
    rintro l k rfl
    exact .pure (by simp [perDigit])
  revert hz
  generalize (do
      let d ← absAddC perDigit L env n x.digits r.src
      pure (⟨x.desc, d⟩ : Bignum) : Counted Bignum) = c at key
  intro hz
  exact key z (handle_ok_iff.1 hz)

example {F : Type} (o : FloatOps F) : Arith.assignC perDigit o .base10 releaseEnv 9 .add ⟨.pos, [9, 9, 9]⟩ (.other ⟨.pos, [1]⟩) =
    (.ok ⟨.pos, [0, 0, 0, 1]⟩, 4) := by rfl

example {F : Type} (o : FloatOps F) : Arith.assignC perDigit o .base10 releaseEnv 9 .sub ⟨.pos, [0, 0, 1]⟩ (.other ⟨.pos, [1]⟩) =
    (.ok ⟨.pos, [9, 9]⟩, 5) := by rfl

example : ((Cmp.eq).runC perDigit ⟨.pos, [1, 2, 3]⟩ ⟨.pos, [1, 5, 3]⟩).steps = 2 := by rfl

/-! ### C115 -/

theorem clog_table {a b k : Nat} (h1 : 1 ≤ a + b) (h2 : a + b ≤ 2 ^ 32) (hk : k = Nat.clog 2 (a + b)) : fftTableSize a b = 2 ^ k := by
  obtain ⟨j, -, h3, h4, h5⟩ := fftTableSize_eq h1 h2
  rw [h3, hk]
  congr 1
  apply le_antisymm
  · by_contra hc
    have h6 := Nat.le_pow_clog (b := 2) (by omega) (a + b)
    have h7 : 2 ^ (Nat.clog 2 (a + b) + 1) ≤ 2 ^ j := Nat.pow_le_pow_right (by omega) (by omega)
    rw [pow_succ] at h7
    omega
  · exact Nat.clog_le_of_le_pow h4

/-- C115: a product of p and q digits takes between (2k + 8) 2^k and (2k + 9) 2^k steps when it returns, where 2^k is the least power of two
not below p + q, and at most the latter number however it ends. -/
theorem C115_product {F : Type} (o : FloatOps F) (L : Limits) (env : Env) (n : Nat) (x : Bignum) (r : Rhs)
    (h1 : 1 ≤ x.digits.length + (r.get x).digits.length) (h2 : x.digits.length + (r.get x).digits.length ≤ 2 ^ 32) {k : Nat}
    (hk : k = Nat.clog 2 (x.digits.length + (r.get x).digits.length)) :
    (Arith.assignC perDigit o L env n .mul x r).2 ≤ (2 * k + 9) * 2 ^ k ∧
    ∀ z, Signed x.desc → Arith.assign o L env n .mul x r = .ok z →
      (2 * k + 8) * 2 ^ k ≤ (Arith.assignC perDigit o L env n .mul x r).2 := by
  obtain ⟨h3, h4⟩ := mul_steps perDigit o L env n k x.digits (r.get x).digits (clog_table h1 h2 hk)
  have hsteps : (Arith.work perDigit o L env n .mul x r).steps = (mulStrassenC perDigit o L env n x.digits (r.get x).digits).steps := by
    unfold Arith.work
    simp only
    cases hr : (mulStrassenC perDigit o L env n x.digits (r.get x).digits).res with
    | error e => rw [Counted.bind_error hr]
    | ok a => rw [Counted.bind_ok hr]; rfl
  simp only [perDigit, Nat.one_mul] at h3 h4
  constructor
  · unfold Arith.assignC
    split
    · exact Nat.zero_le _
    · simp only [hsteps]; exact h3
  · intro z hx hz
    have hcomp : isComputable x.desc = true := by rcases hx with h | h <;> rw [h] <;> rfl
    rw [← res_assign perDigit] at hz
    unfold Arith.assignC at hz ⊢
    simp only [hcomp, Bool.not_true, Bool.false_eq_true, if_false] at hz ⊢
    rw [hsteps]
    have hr := handle_ok_iff.1 hz
    unfold Arith.work at hr
    simp only at hr
    cases hm : (mulStrassenC perDigit o L env n x.digits (r.get x).digits).res with
    | error e => rw [Counted.bind_error hm] at hr; cases hr
    | ok l => exact h4 l hm

example {F : Type} (o : FloatOps F) := C115_product o .base10 releaseEnv 40 Sample.n199 (.other Sample.n23) (by sample) (by sample) rfl

/-- The bound in terms of the total number of digits s: less than (4 clog s + 18) s steps. -/
theorem C115_quasilinear {F : Type} (o : FloatOps F) (L : Limits) (env : Env) (n : Nat) (x : Bignum) (r : Rhs) {s : Nat}
    (hs : s = x.digits.length + (r.get x).digits.length) (h1 : 1 ≤ s) (h2 : s ≤ 2 ^ 32) :
    (Arith.assignC perDigit o L env n .mul x r).2 < (4 * Nat.clog 2 s + 18) * s := by
  subst hs
  have h3 := (C115_product o L env n x r h1 h2 rfl).1
  generalize hk : Nat.clog 2 (x.digits.length + (r.get x).digits.length) = k at *
  obtain ⟨j, -, h4, -, h5⟩ := fftTableSize_eq h1 h2
  rw [clog_table h1 h2 hk.symm] at h4
  rw [← h4] at h5
  have h6 : (2 * k + 9) * 2 ^ k < (2 * k + 9) * (2 * (x.digits.length + (r.get x).digits.length)) := Nat.mul_lt_mul_of_pos_left h5 (by omega)
  refine lt_of_le_of_lt h3 (lt_of_lt_of_eq h6 (by ring))

/-- Three times four digits: between 112 and 120 steps. -/
example : Nat.clog 2 (3 + 4) = 3 ∧ (2 * 3 + 8) * 2 ^ 3 = 112 ∧ (2 * 3 + 9) * 2 ^ 3 = 120 := by
  refine ⟨?_, rfl, rfl⟩
  simp [Nat.clog_of_two_le]

/-! ### C116 -/

theorem costs_divTry {w : Weights} {L : Limits} (h : Custom L) (env : Env) (fuel : Nat) {d : Desc} {a b : List Nat} (ha : WFDigits L.base a)
    (ha0 : a ≠ [0]) (hb : NZ L.base b) :
    (divTryC w L env fuel ⟨d, a⟩ b).steps ≤ onesOf (natOf L.base a / natOf L.base b) * (w.sub + w.digit * (5 * a.length + 2)) +
        placesOf (natOf L.base a / natOf L.base b) * (w.double + w.digit * (4 * a.length + 2)) + w.digit * (2 * a.length + 1) ∧
    (natOf L.base a ≠ natOf L.base b → ∀ z, (divTryC w L env fuel ⟨d, a⟩ b).res = .ok z →
      onesOf (natOf L.base a / natOf L.base b) * w.sub +
        placesOf (natOf L.base a / natOf L.base b) * (w.double + w.digit * (b.length + 1)) ≤ (divTryC w L env fuel ⟨d, a⟩ b).steps) := by
  have hB := h.supported.base_ge
  have hnl : NoLeadingZero a := ha.2.resolve_right ha0
  have hdiv := costs_absDiv w h env fuel hb ha.1 hnl
  unfold divTryC
  simp only
  constructor
  · refine (Within.bind (P := fun _ => True) (N := w.digit * a.length) (Q := fun _ => True) ⟨(absGt_le w _ _).trans (Nat.mul_le_mul_left _ (by omega)), keeps_true _⟩
      fun g _ => Within.ite (fun _ => Within.bind (M := 0) ⟨hdiv.1, keeps_true _⟩ fun _ _ => .pure trivial) fun _ => .pure trivial).1.trans (le_of_eq (by ring))
  · intro hne
    rcases Nat.lt_or_gt_of_ne hne with hlt | hgt
    · rw [Nat.div_eq_of_lt hlt]
      intro z _
      simp [onesOf, placesOf]
    · refine Does.bind (P := fun g _ => g = true) (Q := fun _ k => onesOf (natOf L.base a / natOf L.base b) * w.sub +
        placesOf (natOf L.base a / natOf L.base b) * (w.double + w.digit * (b.length + 1)) ≤ k) ?_ ?_
      · intro g hg
        rw [res_absGt, absGt_of_lt hB ha.1 hb.rng hb.nlz hgt] at hg
        cases hg; rfl
      · rintro g k rfl
        simp only [if_true]
        refine .bind (P := fun _ m => onesOf (natOf L.base a / natOf L.base b) * w.sub +
          placesOf (natOf L.base a / natOf L.base b) * (w.double + w.digit * (b.length + 1)) ≤ m) (fun l hl => (hdiv.2 l hl).2) ?_
        intro l m hm
        exact .pure (by omega)

theorem div_steps {F : Type} (w : Weights) (o : FloatOps F) {L : Limits} (h : Custom L) (env : Env) (n : Nat) {x : Bignum} {r : Rhs}
    (hx : WF L x) (hy : WFDigits L.base (r.get x).digits) (hy0 : (r.get x).digits ≠ []) {m : Nat} (hm : m = x.mag L / (r.get x).mag L) :
    (Arith.assignC w o L env n .div x r).2 ≤ onesOf m * (w.sub + w.digit * (5 * x.digits.length + 2)) +
        placesOf m * (w.double + w.digit * (4 * x.digits.length + 2)) + w.digit * (2 * x.digits.length + 1) ∧
    (2 ≤ (r.get x).mag L → x.mag L ≠ (r.get x).mag L → ∀ z, Arith.assign o L env n .div x r = .ok z →
      onesOf m * w.sub + placesOf m * (w.double + w.digit * ((r.get x).digits.length + 1)) ≤ (Arith.assignC w o L env n .div x r).2) := by
  subst hm
  have hcomp : isComputable x.desc = true := by rcases hx.1 with h | h <;> rw [h] <;> rfl
  have hr : (r.get ⟨mulSign x.desc (r.get x).desc, x.digits⟩).digits = (r.get x).digits := by cases r <;> rfl
  have e0 : ∀ l : List Nat, isOneDigit l 0 = true ↔ l = [0] := by
    intro l; rcases l with _ | ⟨a, _ | ⟨b, l⟩⟩ <;> simp [isOneDigit]
  have e1 : ∀ l : List Nat, isOneDigit l 1 = true ↔ l = [1] := by
    intro l; rcases l with _ | ⟨a, _ | ⟨b, l⟩⟩ <;> simp [isOneDigit]
  simp only [← res_assign w]
  unfold Arith.assignC
  simp only [hcomp, Bool.not_true, Bool.false_eq_true, if_false, hr, e0, e1, mag]
  by_cases h0 : (r.get x).digits = [0]
  · simp only [h0, if_true]
    exact ⟨Nat.zero_le _, fun h2 => by simp at h2⟩
  by_cases h1 : (r.get x).digits = [1]
  · simp only [h1, if_true]
    exact ⟨Nat.zero_le _, fun h2 => by simp at h2⟩
  simp only [if_neg h0, if_neg h1]
  have hB := h.supported.base_ge
  have hbz : NZ L.base (r.get x).digits := ⟨hy.1, hy.2.resolve_right h0, hy0⟩
  by_cases hx0 : x.digits = [] ∨ x.digits = [0]
  · simp only [if_pos hx0]
    refine ⟨Nat.zero_le _, fun h2 _ _ _ => ?_⟩
    have : natOf L.base x.digits = 0 := by rcases hx0 with e | e <;> simp [e]
    rw [this, Nat.zero_div]
    simp [onesOf, placesOf]
  · simp only [if_neg hx0]
    have hw : ∀ d, Arith.work w o L env n .div ⟨d, x.digits⟩ r = divTryC w L env n ⟨d, x.digits⟩ (r.get x).digits := by
      intro d
      unfold Arith.work
      cases r <;> rfl
    simp only [hw]
    obtain ⟨g1, g2⟩ := costs_divTry (w := w) h env n (d := mulSign x.desc (r.get x).desc) hx.2 (fun e => hx0 (.inr e)) hbz
    exact ⟨g1, fun _ hne z hz => g2 hne z (handle_ok_iff.1 hz)⟩

/-- C116, exactly: a division that returns subtracts once for every one in the binary numeral of the quotient (custom bases, divisors of
magnitude 2 and more, operands of different magnitude). -/
theorem C116_subtractions {F : Type} (o : FloatOps F) {L : Limits} (h : Custom L) (env : Env) (n : Nat) {x : Bignum} {r : Rhs}
    (hx : WF L x) (hy : WF L (r.get x)) (h2 : 2 ≤ (r.get x).mag L) (hne : x.mag L ≠ (r.get x).mag L) {z : Bignum}
    (hz : Arith.assign o L env n .div x r = .ok z) :
    (Arith.assignC perSub o L env n .div x r).2 = (x.mag L / (r.get x).mag L).bitIndices.length := by
  have hy0 : (r.get x).digits ≠ [] := by intro e; simp [mag, e] at h2
  obtain ⟨h3, h4⟩ := div_steps perSub o h env n hx hy.2 hy0 rfl
  have h5 := h4 h2 hne z hz
  rw [show perSub.sub = 1 from rfl, show perSub.digit = 0 from rfl, show perSub.double = 0 from rfl] at h3 h5
  simp only [onesOf] at h3 h5
  omega

example {F : Type} (o : FloatOps F) := C116_subtractions o (L := .base10) Sample.base10 releaseEnv 250 (x := Sample.n199)
  (r := .other Sample.n23) (by sample) (by sample) (by sample) (by sample) (z := ⟨.pos, [8]⟩)
  (show Bignum.divAssign .base10 releaseEnv 250 Sample.n199 (.other Sample.n23) = _ by decide +kernel)

/-- C116, exactly: and for every one it finds the multiple to subtract by doubling the divisor anew, once more than the place of the one. -/
theorem C116_doublings {F : Type} (o : FloatOps F) {L : Limits} (h : Custom L) (env : Env) (n : Nat) {x : Bignum} {r : Rhs}
    (hx : WF L x) (hy : WF L (r.get x)) (h2 : 2 ≤ (r.get x).mag L) (hne : x.mag L ≠ (r.get x).mag L) {z : Bignum}
    (hz : Arith.assign o L env n .div x r = .ok z) :
    (Arith.assignC perDouble o L env n .div x r).2 = ((x.mag L / (r.get x).mag L).bitIndices.map (· + 1)).sum := by
  have hy0 : (r.get x).digits ≠ [] := by intro e; simp [mag, e] at h2
  obtain ⟨h3, h4⟩ := div_steps perDouble o h env n hx hy.2 hy0 rfl
  have h5 := h4 h2 hne z hz
  rw [show perDouble.sub = 0 from rfl, show perDouble.digit = 0 from rfl, show perDouble.double = 1 from rfl] at h3 h5
  simp only [placesOf] at h3 h5
  omega

example {F : Type} (o : FloatOps F) := C116_doublings o (L := .base10) Sample.base10 releaseEnv 250 (x := Sample.n199)
  (r := .other Sample.n23) (by sample) (by sample) (by sample) (by sample) (z := ⟨.pos, [8]⟩)
  (show Bignum.divAssign .base10 releaseEnv 250 Sample.n199 (.other Sample.n23) = _ by decide +kernel)

theorem ones_places_le {m Q : Nat} (hm : m < 2 ^ Q) : onesOf m ≤ Q ∧ 2 * placesOf m ≤ Q * (Q + 1) := by
  have key : ∀ (m : Nat), ∀ Q, m < 2 ^ Q → onesOf m ≤ Q ∧ 2 * placesOf m ≤ Q * (Q + 1) := by
    intro m
    induction m using Nat.strong_induction_on with
    | _ m ih =>
      intro Q hQ
      by_cases h0 : m = 0
      · subst h0; simp [onesOf, placesOf]
      have h1 := Nat.pow_log_le_self 2 h0
      have h2 := Nat.lt_pow_succ_log_self (b := 2) (by omega) m
      have hjQ : Nat.log 2 m < Q := (Nat.pow_lt_pow_iff_right (a := 2) (by omega)).1 (by omega)
      have hp : 0 < 2 ^ Nat.log 2 m := Nat.pow_pos (by omega)
      rw [pow_succ] at h2
      obtain ⟨i1, i2⟩ := ih (m - 2 ^ Nat.log 2 m) (by omega) (Nat.log 2 m) (by omega)
      rw [onesOf_top h0, placesOf_top h0]
      generalize Nat.log 2 m = j at *
      refine ⟨by omega, ?_⟩
      have h3 : (j + 1) * (j + 2) ≤ Q * (Q + 1) := Nat.mul_le_mul (by omega) (by omega)
      have h4 : (j + 1) * (j + 2) = j * (j + 1) + 2 * (j + 1) := by ring
      omega
  exact key m Q hm

/-- C116: the time of a division, however it ends, is at most cubic: with P digits in the dividend and Q bits in the quotient no more than
(2P + 1) Q (Q + 1) + (5P + 2) Q + 2P + 1 digits are handled (any divisor with digits, also `x /= x`). -/
theorem C116_at_most_cubic {F : Type} (o : FloatOps F) {L : Limits} (h : Custom L) (env : Env) (n : Nat) {x : Bignum} {r : Rhs}
    (hx : WF L x) (hy : WF L (r.get x)) (hy0 : (r.get x).digits ≠ []) {P Q : Nat} (hP : P = x.digits.length)
    (hQ : x.mag L / (r.get x).mag L < 2 ^ Q) :
    (Arith.assignC perDigit o L env n .div x r).2 ≤ (2 * P + 1) * (Q * (Q + 1)) + (5 * P + 2) * Q + (2 * P + 1) := by
  subst hP
  obtain ⟨h3, -⟩ := div_steps perDigit o h env n hx hy.2 hy0 rfl
  obtain ⟨h4, h5⟩ := ones_places_le hQ
  simp only [perDigit, Nat.one_mul, Nat.zero_add] at h3
  refine h3.trans ?_
  have h6 : onesOf (x.mag L / (r.get x).mag L) * (5 * x.digits.length + 2) ≤ (5 * x.digits.length + 2) * Q := by
    rw [Nat.mul_comm]; exact Nat.mul_le_mul_left _ h4
  have h7 : placesOf (x.mag L / (r.get x).mag L) * (4 * x.digits.length + 2) ≤ (2 * x.digits.length + 1) * (Q * (Q + 1)) := by
    rw [show placesOf (x.mag L / (r.get x).mag L) * (4 * x.digits.length + 2) = (2 * x.digits.length + 1) * (2 * placesOf (x.mag L / (r.get x).mag L)) by ring]
    exact Nat.mul_le_mul_left _ h5
  omega

example {F : Type} (o : FloatOps F) := C116_at_most_cubic o (L := .base10) Sample.base10 releaseEnv 250 (x := Sample.n199)
  (r := .other Sample.n23) (by sample) (by sample) (by sample) (P := 3) (Q := 4) (by sample) (by sample)

/-- C116: every doubling of the divisor handles all its digits, so the time is at least their number times the doublings. -/
theorem C116_at_least {F : Type} (o : FloatOps F) {L : Limits} (h : Custom L) (env : Env) (n : Nat) {x : Bignum} {r : Rhs}
    (hx : WF L x) (hy : WF L (r.get x)) (h2 : 2 ≤ (r.get x).mag L) (hne : x.mag L ≠ (r.get x).mag L) {z : Bignum}
    (hz : Arith.assign o L env n .div x r = .ok z) :
    ((x.mag L / (r.get x).mag L).bitIndices.map (· + 1)).sum * ((r.get x).digits.length + 1) ≤ (Arith.assignC perDigit o L env n .div x r).2 := by
  have hy0 : (r.get x).digits ≠ [] := by intro e; simp [mag, e] at h2
  obtain ⟨-, h4⟩ := div_steps perDigit o h env n hx hy.2 hy0 rfl
  have h5 := h4 h2 hne z hz
  rw [show perDigit.sub = 0 from rfl, show perDigit.digit = 1 from rfl, show perDigit.double = 0 from rfl, Nat.mul_zero, Nat.zero_add,
    Nat.zero_add, Nat.one_mul] at h5
  exact h5

example {F : Type} (o : FloatOps F) := C116_at_least o (L := .base10) Sample.base10 releaseEnv 250 (x := Sample.n199)
  (r := .other Sample.n23) (by sample) (by sample) (by sample) (by sample) (z := ⟨.pos, [8]⟩)
  (show Bignum.divAssign .base10 releaseEnv 250 Sample.n199 (.other Sample.n23) = _ by decide +kernel)

theorem places_ones : ∀ k : Nat, 2 * placesOf (2 ^ k - 1) = k * (k + 1)
  | 0 => by simp [placesOf]
  | k + 1 => by
    have hp : 0 < 2 ^ k := Nat.pow_pos (by omega)
    have h0 : 2 ^ (k + 1) - 1 ≠ 0 := by rw [pow_succ]; omega
    have hl : Nat.log 2 (2 ^ (k + 1) - 1) = k := by
      rw [Nat.log_eq_iff (by right; exact ⟨by omega, h0⟩)]
      rw [pow_succ]; omega
    rw [placesOf_top h0, hl, show 2 ^ (k + 1) - 1 - 2 ^ k = 2 ^ k - 1 by rw [pow_succ]; omega, Nat.mul_add, places_ones k]
    ring

/-- C116: the cubic bound is met.  Dividing (2^k - 1) 2^k by 2^k to base 2, numbers of 2k and k + 1 digits, takes more than k^3 / 2 steps. -/
theorem C116_cubic {F : Type} (o : FloatOps F) (env : Env) (n : Nat) {x y : Bignum} (hx : WF .base2 x) (hy : WF .base2 y) {k : Nat} (hk : 2 ≤ k)
    (ex : x.mag .base2 = (2 ^ k - 1) * 2 ^ k) (ey : y.mag .base2 = 2 ^ k) {z : Bignum} (hz : Arith.assign o .base2 env n .div x (.other y) = .ok z) :
    x.digits.length ≤ 2 * k ∧ k ^ 3 < 2 * (Arith.assignC perDigit o .base2 env n .div x (.other y)).2 := by
  have hp : 4 ≤ 2 ^ k := by simpa using Nat.pow_le_pow_right (show 0 < 2 by omega) hk
  have hpos : 0 < 2 ^ k := by omega
  have hc : Custom .base2 := ⟨8, 1, by norm_num, by norm_num, by norm_num, rfl⟩
  have hB : Limits.base2.base = 2 := by decide
  have hquot : x.mag .base2 / (Rhs.get (.other y) x).mag .base2 = 2 ^ k - 1 := by
    show x.mag .base2 / y.mag .base2 = _
    rw [ex, ey, Nat.mul_div_cancel _ hpos]
  have hne : x.mag .base2 ≠ y.mag .base2 := by
    rw [ex, ey]
    intro e
    have : (2 ^ k - 1) * 2 ^ k = 1 * 2 ^ k := by omega
    have := Nat.eq_of_mul_eq_mul_right hpos this
    omega
  have h1 := C116_at_least (r := .other y) o hc env n hx hy (by show 2 ≤ y.mag .base2; omega) hne hz
  rw [hquot] at h1
  have h2 := places_ones k
  have hlen : k + 1 ≤ y.digits.length := by
    by_contra hc'
    have h3 := natOf_lt hy.2.1
    rw [hB] at h3
    have h4 : natOf 2 y.digits = 2 ^ k := by rw [← ey, mag, hB]
    have h5 : 2 ^ y.digits.length ≤ 2 ^ k := Nat.pow_le_pow_right (by omega) (by omega)
    omega
  constructor
  · have hx0 : natOf 2 x.digits = (2 ^ k - 1) * 2 ^ k := by rw [← ex, mag, hB]
    rcases hx.2.2 with h | h
    · refine length_lt_of_lt_pow (B := 2) le_rfl h ?_
      rw [hx0, two_mul, pow_add]
      exact Nat.mul_lt_mul_of_pos_right (by omega) hpos
    · rw [h]; simp; omega
  · have h6 : placesOf (2 ^ k - 1) * (k + 1 + 1) ≤ placesOf (2 ^ k - 1) * (y.digits.length + 1) := Nat.mul_le_mul_left _ (by omega)
    have h7 : placesOf (2 ^ k - 1) * (y.digits.length + 1) ≤ (Arith.assignC perDigit o .base2 env n .div x (.other y)).2 := h1
    have h8 : 2 * (placesOf (2 ^ k - 1) * (k + 1 + 1)) = k * (k + 1) * (k + 2) := by rw [← h2]; ring
    have h9 : k ^ 3 < k * (k + 1) * (k + 2) := by
      have : k * (k + 1) * (k + 2) = k ^ 3 + (3 * k ^ 2 + 2 * k) := by ring
      omega
    omega

/-- C116: such quotients exist for every k: k ones followed by k zeros, divided by a one followed by k zeros, return in a release build with
ample memory, after more than k^3 / 2 steps. -/
theorem C116_cubic_for_every_length {F : Type} (o : FloatOps F) {env : Env} (hm : env.Ample) (hd : env.debug = false) {k : Nat} (hk : 2 ≤ k) :
    let x : Bignum := ⟨.pos, List.replicate k 0 ++ List.replicate k 1⟩
    let y : Bignum := ⟨.pos, List.replicate k 0 ++ [1]⟩
    ∃ z n₀, ∀ n, n₀ ≤ n → Arith.assign o .base2 env n .div x (.other y) = .ok z ∧
      k ^ 3 < 2 * (Arith.assignC perDigit o .base2 env n .div x (.other y)).2 := by
  intro x y
  have hc : Custom .base2 := ⟨8, 1, by norm_num, by norm_num, by norm_num, rfl⟩
  have hB : Limits.base2.base = 2 := by decide
  have hpos : 4 ≤ 2 ^ k := by simpa using Nat.pow_le_pow_right (show 0 < 2 by omega) hk
  have ones : ∀ j, natOf 2 (List.replicate j 1) = 2 ^ j - 1 := by
    intro j
    induction j with
    | zero => rfl
    | succ j ih => rw [List.replicate_succ, natOf, ih, pow_succ]; have := Nat.one_le_two_pow (n := j); omega
  have ex : x.mag .base2 = (2 ^ k - 1) * 2 ^ k := by
    simp only [x, mag, hB, natOf_append, natOf_replicate_zero, List.length_replicate, ones]; ring
  have ey : y.mag .base2 = 2 ^ k := by
    simp only [y, mag, hB, natOf_append, natOf_replicate_zero, List.length_replicate, natOf]; ring
  have wx : WF .base2 x := by
    refine ⟨Or.inl rfl, fun d h => ?_, Or.inl ?_⟩
    · rw [hB]
      rcases List.mem_append.1 h with h | h <;> have := List.eq_of_mem_replicate h <;> omega
    · obtain ⟨j, rfl⟩ : ∃ j, k = j + 1 := ⟨k - 1, by omega⟩
      simp only [x, NoLeadingZero, List.replicate_succ' (a := 1), ← List.append_assoc, List.getLast?_append]
      simp
  have wy : WF .base2 y := by
    refine ⟨Or.inl rfl, fun d h => ?_, Or.inl (by simp [y, NoLeadingZero])⟩
    rw [hB]
    rcases List.mem_append.1 h with h | h
    · have := List.eq_of_mem_replicate h; omega
    · have := List.mem_singleton.1 h; omega
  obtain ⟨z, hz, -⟩ := C69_div_rounds (r := .other y) hc hm hd wx wy (by show y.mag .base2 ≠ 0; omega) (by
    show x.mag .base2 ≠ y.mag .base2
    rw [ex, ey]
    intro e
    have := Nat.eq_of_mul_eq_mul_right (show 0 < 2 ^ k by omega) (e.trans (one_mul _).symm)
    omega)
  exact ⟨z, _, fun n hn => ⟨hz n hn, (C116_cubic o env n wx wy hk ex ey (hz n hn)).2⟩⟩

example {F : Type} (o : FloatOps F) := C116_cubic_for_every_length o (env := releaseEnv) (fun _ => rfl) rfl (k := 100) (by norm_num)

/-- 99 / 7 = 14 = 2 + 4 + 8: three subtractions and 2 + 3 + 4 doublings. -/
example {F : Type} (o : FloatOps F) :
    Arith.assignC perSub o .base10 releaseEnv 20 .div ⟨.pos, [9, 9]⟩ (.other ⟨.pos, [7]⟩) = (.ok ⟨.pos, [4, 1]⟩, 3) ∧
    Arith.assignC perDouble o .base10 releaseEnv 20 .div ⟨.pos, [9, 9]⟩ (.other ⟨.pos, [7]⟩) = (.ok ⟨.pos, [4, 1]⟩, 9) := ⟨rfl, rfl⟩

/-- 12 / 4 to base 2. -/
example {F : Type} (o : FloatOps F) : WF .base2 ⟨.pos, [0, 0, 1, 1]⟩ ∧ WF .base2 ⟨.pos, [0, 0, 1]⟩ ∧
    (⟨.pos, [0, 0, 1, 1]⟩ : Bignum).mag .base2 = (2 ^ 2 - 1) * 2 ^ 2 ∧ (⟨.pos, [0, 0, 1]⟩ : Bignum).mag .base2 = 2 ^ 2 ∧
    Arith.assign o .base2 releaseEnv 20 .div ⟨.pos, [0, 0, 1, 1]⟩ (.other ⟨.pos, [0, 0, 1]⟩) = .ok ⟨.pos, [1, 1]⟩ := by
  refine ⟨?_, ?_, by decide, by decide, rfl⟩ <;> simp [WF, Signed, WFDigits, InRange, NoLeadingZero, Limits.base, Limits.base2, Limits.custom]

end BN
