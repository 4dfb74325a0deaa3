import Verif.Props.SafeInt
import Mathlib.Data.Rat.Lemmas
import Mathlib.Data.Rat.Cast.Order
import Mathlib.Tactic.FieldSimp
/-
C162: an exact class of fractions on top of the library.  Numerator and denominator are numbers of the class of C151; every result is reduced by
Euclid's algorithm.  Programs over it compute what they compute over the rational numbers.
-/
namespace BN
open Bignum

/-! ### The class -/

/-- A numerator and a denominator. -/
structure Frac where
  num : Bignum
  den : Bignum

/-- `while (b.size() != 0) { r = rem(a, b); a = b; b = r; } return a;` -/
def safeGcd (L : Limits) (env : Env) (n : Nat) : Nat → Bignum → Bignum → Res Bignum
  | 0, _, _ => .error .timeout
  | k + 1, a, b =>
    if b.size = 0 then .ok a
    else do
      let r ← safeRem L env n a b
      safeGcd L env n k b r

/-- `if (b.size() == 0) throw ...; g = gcd(a, b); a = quo(a, g); b = quo(b, g); if (b.isNegative()) { a = neg(a); b = neg(b); }` -/
def mkFrac (L : Limits) (env : Env) (n : Nat) (a b : Bignum) : Res Frac :=
  if b.size = 0 then .error (.exn .stdException)
  else do
    let g ← safeGcd L env n n a b
    let a ← safeQuo L env n a g
    let b ← safeQuo L env n b g
    if b.isNegative then
      let a ← safeNeg env a
      let b ← safeNeg env b
      .ok ⟨a, b⟩
    else .ok ⟨a, b⟩

def fracAdd (L : Limits) (env : Env) (n : Nat) (x y : Frac) : Res Frac := do
  let a ← safeMul L env n x.num y.den
  let b ← safeMul L env n y.num x.den
  let c ← safeAdd L env n a b
  let d ← safeMul L env n x.den y.den
  mkFrac L env n c d

def fracSub (L : Limits) (env : Env) (n : Nat) (x y : Frac) : Res Frac := do
  let a ← safeMul L env n x.num y.den
  let b ← safeMul L env n y.num x.den
  let c ← safeSub L env n a b
  let d ← safeMul L env n x.den y.den
  mkFrac L env n c d

def fracMul (L : Limits) (env : Env) (n : Nat) (x y : Frac) : Res Frac := do
  let c ← safeMul L env n x.num y.num
  let d ← safeMul L env n x.den y.den
  mkFrac L env n c d

def fracDiv (L : Limits) (env : Env) (n : Nat) (x y : Frac) : Res Frac := do
  let c ← safeMul L env n x.num y.den
  let d ← safeMul L env n x.den y.num
  mkFrac L env n c d

def fracLess (L : Limits) (env : Env) (n : Nat) (x y : Frac) : Res Bool := do
  let a ← safeMul L env n x.num y.den
  let b ← safeMul L env n y.num x.den
  less a b

def fracEq (x y : Frac) : Res Bool := do
  let a ← x.num.eq y.num
  let b ← x.den.eq y.den
  .ok (a && b)

def fracLit (L : Limits) (env : Env) (n : Nat) (z : Int) : Res Frac := do
  let a ← fromLL L env n ⟨cLL, z⟩
  let b ← fromLL L env n ⟨cLL, 1⟩
  .ok ⟨a, b⟩

def fracCopy (env : Env) (x : Frac) : Res Frac := do
  let a ← x.num.copy env
  let b ← x.den.copy env
  .ok ⟨a, b⟩

/-- The class of fractions; it has no remainder. -/
def fracArith (L : Limits) (env : Env) (n : Nat) : IntOps Frac where
  lit := fracLit L env n
  copy := fracCopy env
  add := fracAdd L env n
  sub := fracSub L env n
  mul := fracMul L env n
  quo := fracDiv L env n
  rem _ _ := .error (.exn .stdException)
  lt := fracLess L env n
  eq := fracEq

/-- The rational numbers; dividing by zero throws. -/
def ratArith : IntOps ℚ where
  lit z := .ok z
  copy a := .ok a
  add a b := .ok (a + b)
  sub a b := .ok (a - b)
  mul a b := .ok (a * b)
  quo a b := if b = 0 then .error (.exn .stdException) else .ok (a / b)
  rem _ _ := .error (.exn .stdException)
  lt a b := .ok (decide (a < b))
  eq a b := .ok (decide (a = b))

/-- The object holds the rational number, in lowest terms. -/
def HoldsRat (L : Limits) (x : Frac) (q : ℚ) : Prop := Represents L x.num q.num ∧ Represents L x.den (q.den : Int)

/-! ### The operations are exact -/

section
variable {L : Limits} {env : Env} (hL : Supported L) (hm : env.Ample) (hd : env.debug = false)
include hL hm hd

theorem safeGcd_ok : ∀ (k : Nat) {a b : Bignum} {u v : Int}, v.natAbs < k → Represents L a u → Represents L b v →
    ∃ g z n₀, (∀ n, n₀ ≤ n → ∀ K, k ≤ K → safeGcd L env n K a b = .ok g) ∧ Represents L g z ∧ z.natAbs = Int.gcd u v
  | 0, _, _, _, _, h, _, _ => absurd h (by omega)
  | k + 1, a, b, u, v, hk, ha, hb => by
    by_cases h0 : v = 0
    · have hs : b.size = 0 := (proper_zero hb.1).2 (hb.2.trans h0)
      refine ⟨a, u, 0, fun n _ K hK => ?_, ha, by rw [h0, Int.gcd_zero_right]⟩
      obtain ⟨K, rfl⟩ : ∃ j, K = j + 1 := ⟨K - 1, by omega⟩
      simp only [safeGcd, hs, if_true]
    · have hs : ¬ b.size = 0 := fun e => h0 (hb.2.symm.trans ((proper_zero hb.1).1 e))
      obtain ⟨q, r, -, ⟨n₁, h2⟩, -, h4, -, h6⟩ := safeDiv_ok hL hm hd ha.1 hb.1 (hb.2 ▸ h0)
      rw [ha.2, hb.2] at h6
      have hlt : (u.tmod v).natAbs < v.natAbs := by
        rw [Int.natAbs_tmod]
        exact Nat.mod_lt _ (Int.natAbs_pos.2 h0)
      obtain ⟨g, z, n₀, g1, g2, g3⟩ := safeGcd_ok k (u := v) (v := u.tmod v) (by omega) hb ⟨h4, h6⟩
      refine ⟨g, z, max n₀ n₁, fun n hn K hK => ?_, g2, ?_⟩
      · obtain ⟨K, rfl⟩ : ∃ j, K = j + 1 := ⟨K - 1, by omega⟩
        simp only [safeGcd, hs, if_false]
        rw [show safeRem L env n a b = .ok r from h2 n (by omega), ok_bind]
        exact g1 n (by omega) K (by omega)
      · rw [g3, Int.gcd_comm, Int.gcd, Int.natAbs_tmod, Int.gcd, ← Nat.gcd_rec, Nat.gcd_comm]

theorem safeGcd_eval {a b : Bignum} {u v : Int} (ha : Represents L a u) (hb : Represents L b v) :
    ∃ g z, Evaluates (fun n => safeGcd L env n n a b) (.ok g) ∧ Represents L g z ∧ z.natAbs = Int.gcd u v := by
  obtain ⟨g, z, n₀, h1, h2⟩ := safeGcd_ok hL hm hd (v.natAbs + 1) (Nat.lt_succ_self _) ha hb
  exact ⟨g, z, ⟨max n₀ (v.natAbs + 1), fun n hn => h1 n (by omega) n (by omega)⟩, h2⟩

omit hL hm hd in
/-- The lowest terms of `u / v` are `u / g` and `v / g` up to a common sign, for `g` the greatest common divisor or minus that. -/
theorem lowest {u v z : Int} (hv : v ≠ 0) (hz : z.natAbs = Int.gcd u v) :
    (0 ≤ v.tdiv z → u.tdiv z = ((u : ℚ) / v).num ∧ v.tdiv z = (((u : ℚ) / v).den : Int)) ∧
    (v.tdiv z < 0 → - u.tdiv z = ((u : ℚ) / v).num ∧ - v.tdiv z = (((u : ℚ) / v).den : Int)) := by
  have hg : 0 < Int.gcd u v := Int.gcd_pos_of_ne_zero_right _ hv
  have hz0 : z ≠ 0 := by intro e; rw [e] at hz; simp at hz; omega
  obtain ⟨u', hu⟩ : z ∣ u := Int.natAbs_dvd.1 (by rw [hz]; exact Int.gcd_dvd_left ..)
  obtain ⟨v', hv'⟩ : z ∣ v := Int.natAbs_dvd.1 (by rw [hz]; exact Int.gcd_dvd_right ..)
  have eu : u.tdiv z = u' := by rw [hu, Int.mul_tdiv_cancel_left _ hz0]
  have ev : v.tdiv z = v' := by rw [hv', Int.mul_tdiv_cancel_left _ hz0]
  have hv0 : v' ≠ 0 := by rintro rfl; simp at hv'; exact hv hv'
  have hcop : Nat.Coprime u'.natAbs v'.natAbs := by
    have h1 : Int.gcd u v = z.natAbs * Int.gcd u' v' := by rw [hu, hv', Int.gcd_mul_left]
    have h2 : Int.gcd u' v' = 1 := by
      rw [← hz] at h1
      exact Nat.eq_of_mul_eq_mul_left (show 0 < z.natAbs by omega) (by rw [← h1, Nat.mul_one])
    exact h2
  have hq : (u : ℚ) / v = (u' : ℚ) / v' := by
    have : (z : ℚ) ≠ 0 := by exact_mod_cast hz0
    rw [hu, hv']; push_cast
    rw [mul_div_mul_left _ _ this]
  rw [eu, ev, hq]
  constructor
  · intro h
    exact ⟨(Rat.num_div_eq_of_coprime (by omega) hcop).symm, (Rat.den_div_eq_of_coprime (by omega) hcop).symm⟩
  · intro h
    have hq' : (u' : ℚ) / v' = ((-u' : Int) : ℚ) / ((-v' : Int) : ℚ) := by push_cast; rw [neg_div_neg_eq]
    rw [hq']
    have hc' : Nat.Coprime (-u').natAbs (-v').natAbs := by rwa [Int.natAbs_neg, Int.natAbs_neg]
    exact ⟨(Rat.num_div_eq_of_coprime (by omega) hc').symm, (Rat.den_div_eq_of_coprime (by omega) hc').symm⟩

theorem mkFrac_ok {a b : Bignum} {u v : Int} (ha : Represents L a u) (hb : Represents L b v) (hv : v ≠ 0) :
    ∃ z, Evaluates (fun n => mkFrac L env n a b) (.ok z) ∧ HoldsRat L z ((u : ℚ) / v) := by
  have hs : ¬ b.size = 0 := fun e => hv (hb.2.symm.trans ((proper_zero hb.1).1 e))
  obtain ⟨g, z, g1, g2, g3⟩ := safeGcd_eval hL hm hd ha hb
  have hg : 0 < Int.gcd u v := Int.gcd_pos_of_ne_zero_right _ hv
  have hz0 : g.toInt L ≠ 0 := by rw [g2.2]; intro e; rw [e] at g3; simp at g3; omega
  obtain ⟨p, -, p1, -, p2, -, p3, -⟩ := safeDiv_ok hL hm hd ha.1 g2.1 hz0
  obtain ⟨q, -, q1, -, q2, -, q3, -⟩ := safeDiv_ok hL hm hd hb.1 g2.1 hz0
  rw [ha.2, g2.2] at p3
  rw [hb.2, g2.2] at q3
  obtain ⟨l1, l2⟩ := lowest hv g3
  have hq0 : v.tdiv z ≠ 0 := by
    intro e
    rcases l1 (by omega) with ⟨-, h⟩
    have := ((u : ℚ) / v).den_pos
    omega
  have hneg : q.isNegative = true ↔ v.tdiv z < 0 := by
    rw [← q3]
    have hq1 : 0 < q.mag L := by
      have : q.toInt L ≠ 0 := by rwa [q3]
      unfold Bignum.toInt at this
      split at this <;> omega
    unfold Bignum.isNegative Bignum.toInt
    rcases q2.1 with h | h <;> rw [h] <;> simp <;> omega
  by_cases h : v.tdiv z < 0
  · obtain ⟨p', r1, r2, r3⟩ := safeNeg_ok hm p2
    obtain ⟨q', s1, s2, s3⟩ := safeNeg_ok hm q2
    refine ⟨⟨p', q'⟩, ?_, ⟨r2, by rw [r3, p3, (l2 h).1]⟩, ⟨s2, by rw [s3, q3, (l2 h).2]⟩⟩
    simp only [mkFrac, hs, if_false]
    refine g1.bind (p1.bind (q1.bind ?_))
    simp only [hneg.2 h, if_true, r1, s1, ok_bind]
    exact evaluates_const _
  · refine ⟨⟨p, q⟩, ?_, ⟨p2, by rw [p3, (l1 (by omega)).1]⟩, ⟨q2, by rw [q3, (l1 (by omega)).2]⟩⟩
    simp only [mkFrac, hs, if_false]
    refine g1.bind (p1.bind (q1.bind ?_))
    simp only [mt hneg.1 h]
    exact evaluates_const _

omit hd in
theorem safeMul_rep {a b : Bignum} {u v : Int} (ha : Represents L a u) (hb : Represents L b v) :
    ∃ c, Evaluates (fun n => safeMul L env n a b) (.ok c) ∧ Represents L c (u * v) := by
  obtain ⟨c, h1, h2, h3⟩ := safeMul_ok hL hm ha.1 hb.1
  exact ⟨c, h1, h2, by rw [h3, ha.2, hb.2]⟩

omit hL hm hd in
theorem rat_cross (p q : ℚ) : p = (p.num : ℚ) / ((p.den : Int) : ℚ) ∧ ((p.den : Int) : ℚ) ≠ 0 ∧ ((p.den : Int) * q.den : Int) ≠ 0 := by
  have h1 : (p.den : Int) ≠ 0 := by exact_mod_cast p.den_nz
  have h2 : (q.den : Int) ≠ 0 := by exact_mod_cast q.den_nz
  refine ⟨?_, by exact_mod_cast h1, mul_ne_zero h1 h2⟩
  rw [Int.cast_natCast, Rat.num_div_den]

theorem fracAdd_ok {x y : Frac} {p q : ℚ} (hx : HoldsRat L x p) (hy : HoldsRat L y q) :
    ∃ z, Evaluates (fun n => fracAdd L env n x y) (.ok z) ∧ HoldsRat L z (p + q) := by
  obtain ⟨a, a1, a2⟩ := safeMul_rep hL hm hx.1 hy.2
  obtain ⟨b, b1, b2⟩ := safeMul_rep hL hm hy.1 hx.2
  obtain ⟨c, c1, c2, c3⟩ := safeAdd_ok hL hm hd a2.1 b2.1
  obtain ⟨d, d1, d2⟩ := safeMul_rep hL hm hx.2 hy.2
  obtain ⟨e1, e2, e3⟩ := rat_cross p q
  obtain ⟨f1, f2, -⟩ := rat_cross q p
  obtain ⟨z, z1, z2⟩ := mkFrac_ok hL hm hd ⟨c2, c3.trans (by rw [a2.2, b2.2])⟩ d2 e3
  refine ⟨z, a1.bind (b1.bind (c1.bind (d1.bind z1))), ?_⟩
  have : (((p.num * (q.den : Int) + q.num * (p.den : Int) : Int) : ℚ) / (((p.den : Int) * (q.den : Int) : Int) : ℚ)) = p + q := by
    conv_rhs => rw [e1, f1, div_add_div _ _ e2 f2]
    push_cast; ring
  rwa [this] at z2

theorem fracSub_ok {x y : Frac} {p q : ℚ} (hx : HoldsRat L x p) (hy : HoldsRat L y q) :
    ∃ z, Evaluates (fun n => fracSub L env n x y) (.ok z) ∧ HoldsRat L z (p - q) := by
  obtain ⟨a, a1, a2⟩ := safeMul_rep hL hm hx.1 hy.2
  obtain ⟨b, b1, b2⟩ := safeMul_rep hL hm hy.1 hx.2
  obtain ⟨c, c1, c2, c3⟩ := safeSub_ok hL hm hd a2.1 b2.1
  obtain ⟨d, d1, d2⟩ := safeMul_rep hL hm hx.2 hy.2
  obtain ⟨e1, e2, e3⟩ := rat_cross p q
  obtain ⟨f1, f2, -⟩ := rat_cross q p
  obtain ⟨z, z1, z2⟩ := mkFrac_ok hL hm hd ⟨c2, c3.trans (by rw [a2.2, b2.2])⟩ d2 e3
  refine ⟨z, a1.bind (b1.bind (c1.bind (d1.bind z1))), ?_⟩
  have : (((p.num * (q.den : Int) - q.num * (p.den : Int) : Int) : ℚ) / (((p.den : Int) * (q.den : Int) : Int) : ℚ)) = p - q := by
    conv_rhs => rw [e1, f1, div_sub_div _ _ e2 f2]
    push_cast; ring
  rwa [this] at z2

theorem fracMul_ok {x y : Frac} {p q : ℚ} (hx : HoldsRat L x p) (hy : HoldsRat L y q) :
    ∃ z, Evaluates (fun n => fracMul L env n x y) (.ok z) ∧ HoldsRat L z (p * q) := by
  obtain ⟨c, c1, c2⟩ := safeMul_rep hL hm hx.1 hy.1
  obtain ⟨d, d1, d2⟩ := safeMul_rep hL hm hx.2 hy.2
  obtain ⟨e1, e2, e3⟩ := rat_cross p q
  obtain ⟨f1, f2, -⟩ := rat_cross q p
  obtain ⟨z, z1, z2⟩ := mkFrac_ok hL hm hd c2 d2 e3
  refine ⟨z, c1.bind (d1.bind z1), ?_⟩
  have : (((p.num * q.num : Int) : ℚ) / (((p.den : Int) * (q.den : Int) : Int) : ℚ)) = p * q := by
    conv_rhs => rw [e1, f1, div_mul_div_comm]
    push_cast; rfl
  rwa [this] at z2

theorem fracDiv_ok {x y : Frac} {p q : ℚ} (hx : HoldsRat L x p) (hy : HoldsRat L y q) (hq : q ≠ 0) :
    ∃ z, Evaluates (fun n => fracDiv L env n x y) (.ok z) ∧ HoldsRat L z (p / q) := by
  obtain ⟨c, c1, c2⟩ := safeMul_rep hL hm hx.1 hy.2
  obtain ⟨d, d1, d2⟩ := safeMul_rep hL hm hx.2 hy.1
  obtain ⟨e1, e2, -⟩ := rat_cross p q
  obtain ⟨f1, f2, -⟩ := rat_cross q p
  have h1 : (p.den : Int) ≠ 0 := by exact_mod_cast p.den_nz
  obtain ⟨z, z1, z2⟩ := mkFrac_ok hL hm hd c2 d2 (mul_ne_zero h1 (Rat.num_ne_zero.2 hq))
  refine ⟨z, c1.bind (d1.bind z1), ?_⟩
  have : (((p.num * (q.den : Int) : Int) : ℚ) / (((p.den : Int) * q.num : Int) : ℚ)) = p / q := by
    conv_rhs => rw [e1, f1, div_div_div_eq]
    push_cast; rfl
  rwa [this] at z2

omit hd in
theorem fracDiv_zero {x y : Frac} {p : ℚ} (hx : HoldsRat L x p) (hy : HoldsRat L y 0) :
    Evaluates (fun n => fracDiv L env n x y) (.error (.exn .stdException)) := by
  obtain ⟨c, c1, c2⟩ := safeMul_rep hL hm hx.1 hy.2
  obtain ⟨d, d1, d2⟩ := safeMul_rep hL hm hx.2 hy.1
  have : d.size = 0 := (proper_zero d2.1).2 (by rw [d2.2, Rat.num_zero, mul_zero])
  refine c1.bind (d1.bind ?_)
  simp only [mkFrac, this, if_true]
  exact evaluates_const _

omit hd in
theorem fracLess_ok {x y : Frac} {p q : ℚ} (hx : HoldsRat L x p) (hy : HoldsRat L y q) :
    Evaluates (fun n => fracLess L env n x y) (.ok (decide (p < q))) := by
  obtain ⟨a, a1, a2⟩ := safeMul_rep hL hm hx.1 hy.2
  obtain ⟨b, b1, b2⟩ := safeMul_rep hL hm hy.1 hx.2
  have e : decide (p < q) = decide (a.toInt L < b.toInt L) := by
    rw [decide_eq_decide, a2.2, b2.2, Rat.lt_iff]
  rw [e]
  refine a1.bind (b1.bind ?_)
  rw [C148_less a2.1 b2.1]
  exact evaluates_const _

theorem fracEq_ok {x y : Frac} {p q : ℚ} (hx : HoldsRat L x p) (hy : HoldsRat L y q) : fracEq x y = .ok (decide (p = q)) := by
  have h1 := (C151_operations hL hm hd hx.1.1 hy.1.1).2.2.2.2.2
  have h2 := (C151_operations hL hm hd hx.2.1 hy.2.1).2.2.2.2.2
  unfold fracEq
  rw [h1, ok_bind, h2, ok_bind, hx.1.2, hy.1.2, hx.2.2, hy.2.2]
  congr 1
  rw [Bool.eq_iff_iff, Bool.and_eq_true, decide_eq_true_eq, decide_eq_true_eq, decide_eq_true_eq]
  constructor
  · rintro ⟨k1, k2⟩
    exact Rat.ext k1 (by exact_mod_cast k2)
  · rintro rfl; exact ⟨rfl, rfl⟩

end

/-- C162: the operations on fractions are exact for all rational numbers, in every digit type; only a division by zero throws. -/
theorem C162_operations {L : Limits} (hL : Supported L) {env : Env} (hm : env.Ample) (hd : env.debug = false) {x y : Frac} {p q : ℚ}
    (hx : HoldsRat L x p) (hy : HoldsRat L y q) :
    (∃ z, Evaluates (fun n => fracAdd L env n x y) (.ok z) ∧ HoldsRat L z (p + q)) ∧
    (∃ z, Evaluates (fun n => fracSub L env n x y) (.ok z) ∧ HoldsRat L z (p - q)) ∧
    (∃ z, Evaluates (fun n => fracMul L env n x y) (.ok z) ∧ HoldsRat L z (p * q)) ∧
    (q ≠ 0 → ∃ z, Evaluates (fun n => fracDiv L env n x y) (.ok z) ∧ HoldsRat L z (p / q)) ∧
    (q = 0 → Evaluates (fun n => fracDiv L env n x y) (.error (.exn .stdException))) ∧
    Evaluates (fun n => fracLess L env n x y) (.ok (decide (p < q))) ∧ fracEq x y = .ok (decide (p = q)) :=
  ⟨fracAdd_ok hL hm hd hx hy, fracSub_ok hL hm hd hx hy, fracMul_ok hL hm hd hx hy, fracDiv_ok hL hm hd hx hy,
    fun h => fracDiv_zero hL hm hx (h ▸ hy), fracLess_ok hL hm hx hy, fracEq_ok hL hm hd hx hy⟩

/-- C162: numerator and denominator of every pair of integers whose second is not zero are brought to lowest terms, with a positive denominator. -/
theorem C162_make {L : Limits} (hL : Supported L) {env : Env} (hm : env.Ample) (hd : env.debug = false) {a b : Bignum} (ha : Proper L a) (hb : Proper L b)
    (h0 : b.toInt L ≠ 0) :
    ∃ z, Evaluates (fun n => mkFrac L env n a b) (.ok z) ∧ Proper L z.num ∧ Proper L z.den ∧ 0 < z.den.toInt L ∧
      Int.gcd (z.num.toInt L) (z.den.toInt L) = 1 ∧ z.num.toInt L * b.toInt L = a.toInt L * z.den.toInt L := by
  obtain ⟨z, h1, h2, h3⟩ := mkFrac_ok hL hm hd (a := a) (b := b) ⟨ha, rfl⟩ ⟨hb, rfl⟩ h0
  refine ⟨z, h1, h2.1, h3.1, ?_, ?_, ?_⟩
  · rw [h3.2]; exact_mod_cast Rat.den_pos _
  · rw [h2.2, h3.2]; exact Rat.reduced _
  · rw [h2.2, h3.2]
    set p : ℚ := (a.toInt L : ℚ) / b.toInt L with hp
    obtain ⟨e1, e2, -⟩ := rat_cross p p
    have hb' : (b.toInt L : ℚ) ≠ 0 := by exact_mod_cast h0
    have : (p.num : ℚ) / ((p.den : Int) : ℚ) = (a.toInt L : ℚ) / b.toInt L := by rw [← e1]
    rw [div_eq_div_iff e2 hb'] at this
    exact_mod_cast this

/-- C162: one representation per number: two objects that hold the same rational number are the same. -/
theorem C162_unique {L : Limits} {x y : Frac} {q : ℚ} (hx : HoldsRat L x q) (hy : HoldsRat L y q) : x = y := by
  have h1 := proper_ext hx.1.1 hy.1.1 (hx.1.2.trans hy.1.2.symm)
  have h2 := proper_ext hx.2.1 hy.2.1 (hx.2.2.trans hy.2.2.symm)
  cases x; cases y; simp_all

/-! ### Programs -/

/-- The operations of one class follow those of another, for all large budgets. -/
structure Follows {V W : Type} (R : V → W → Prop) (A : Nat → IntOps V) (B : IntOps W) : Prop where
  lit : ∀ z, -2 ^ 63 ≤ z → z < 2 ^ 63 → Sim R (fun n => (A n).lit z) (B.lit z)
  copy : ∀ x u, R x u → Sim R (fun n => (A n).copy x) (B.copy u)
  add : ∀ x y u v, R x u → R y v → Sim R (fun n => (A n).add x y) (B.add u v)
  sub : ∀ x y u v, R x u → R y v → Sim R (fun n => (A n).sub x y) (B.sub u v)
  mul : ∀ x y u v, R x u → R y v → Sim R (fun n => (A n).mul x y) (B.mul u v)
  quo : ∀ x y u v, R x u → R y v → Sim R (fun n => (A n).quo x y) (B.quo u v)
  rem : ∀ x y u v, R x u → R y v → Sim R (fun n => (A n).rem x y) (B.rem u v)
  lt : ∀ x y u v, R x u → R y v → Sim Eq (fun n => (A n).lt x y) (B.lt u v)
  eq : ∀ x y u v, R x u → R y v → Sim Eq (fun n => (A n).eq x y) (B.eq u v)

section
variable {V W : Type} {R : V → W → Prop} {A : Nat → IntOps V} {B : IntOps W} (h : Follows R A B)
include h

theorem Follows.ex {s : Nat → V} {v : Nat → W} (hs : ∀ i, R (s i) (v i)) : ∀ e : Ex, Sim R (fun n => e.eval (A n) s) (e.eval B v)
  | .lit z hz => h.lit z hz.1 hz.2
  | .var i => h.copy _ _ (hs i)
  | .add a b => Sim.bind (Follows.ex hs a) fun _ _ hx => Sim.bind (Follows.ex hs b) fun _ _ hy => h.add _ _ _ _ hx hy
  | .sub a b => Sim.bind (Follows.ex hs a) fun _ _ hx => Sim.bind (Follows.ex hs b) fun _ _ hy => h.sub _ _ _ _ hx hy
  | .mul a b => Sim.bind (Follows.ex hs a) fun _ _ hx => Sim.bind (Follows.ex hs b) fun _ _ hy => h.mul _ _ _ _ hx hy
  | .quo a b => Sim.bind (Follows.ex hs a) fun _ _ hx => Sim.bind (Follows.ex hs b) fun _ _ hy => h.quo _ _ _ _ hx hy
  | .rem a b => Sim.bind (Follows.ex hs a) fun _ _ hx => Sim.bind (Follows.ex hs b) fun _ _ hy => h.rem _ _ _ _ hx hy

theorem Follows.test {s : Nat → V} {v : Nat → W} (hs : ∀ i, R (s i) (v i)) : ∀ t : Test, Sim Eq (fun n => t.eval (A n) s) (t.eval B v)
  | .lt a b => Sim.bind (Follows.ex h hs a) fun _ _ hx => Sim.bind (Follows.ex h hs b) fun _ _ hy => h.lt _ _ _ _ hx hy
  | .eq a b => Sim.bind (Follows.ex h hs a) fun _ _ hx => Sim.bind (Follows.ex h hs b) fun _ _ hy => h.eq _ _ _ _ hx hy
  | .not t => Sim.bind (Follows.test hs t) fun x z hx => by subst hx; exact Sim.ok rfl
  | .and t u => Sim.bind (Follows.test hs t) fun x z hx => by
    subst hx
    cases x
    · exact Sim.ok rfl
    · exact Follows.test hs u

theorem Follows.cmd : ∀ (N : Nat) (p : Cmd) {s : Nat → V} {v : Nat → W}, (∀ i, R (s i) (v i)) →
    Sim (fun s v => ∀ i, R (s i) (v i)) (fun n => p.exec (A n) N s) (p.exec B N v)
  | 0, _, _, _, _ => evaluates_const _
  | _ + 1, .skip, _, _, hs => Sim.ok hs
  | _ + 1, .assign i e, s, v, hs => Sim.bind (Follows.ex h hs e) fun x z hx => Sim.ok fun j => by
    by_cases h : j = i
    · subst h; simpa using hx
    · simpa [Function.update_of_ne h] using hs j
  | N + 1, .seq p q, s, v, hs => Sim.bind (Follows.cmd N p hs) fun s' v' hs' => Follows.cmd N q hs'
  | N + 1, .ite t p q, s, v, hs => Sim.bind (Follows.test h hs t) fun x z hx => by
    subst hx
    cases x
    · exact Follows.cmd N q hs
    · exact Follows.cmd N p hs
  | N + 1, .loop t p, s, v, hs => Sim.bind (Follows.test h hs t) fun x z hx => by
    subst hx
    cases x
    · exact Sim.ok hs
    · exact Sim.bind (Follows.cmd N p hs) fun s' v' hs' => Follows.cmd N (.loop t p) hs'

end

theorem fracArith_follows {L : Limits} (hL : Supported L) {env : Env} (hm : env.Ample) (hd : env.debug = false) :
    Follows (HoldsRat L) (fracArith L env) ratArith where
  lit z h1 h2 := by
    obtain ⟨x, a1, a2, a3⟩ := C150_from hL hm h1 h2
    obtain ⟨y, b1, b2, b3⟩ := C150_from hL hm (z := 1) (by norm_num) (by norm_num)
    refine ⟨⟨x, y⟩, ⟨65, fun n hn => ?_⟩, ⟨a2, by rw [a3]; simp⟩, ⟨b2, by rw [b3]; simp⟩⟩
    show fracLit L env n z = _
    unfold fracLit
    rw [a1 n (by omega), ok_bind, b1 n (by omega), ok_bind]
  copy x u hx := by
    refine ⟨x, ⟨0, fun n _ => ?_⟩, hx⟩
    show fracCopy env x = _
    unfold fracCopy
    rw [copy_ok hm, ok_bind, copy_ok hm, ok_bind]
  add x y u v hx hy := fracAdd_ok hL hm hd hx hy
  sub x y u v hx hy := fracSub_ok hL hm hd hx hy
  mul x y u v hx hy := fracMul_ok hL hm hd hx hy
  quo x y u v hx hy := by
    by_cases h0 : v = 0
    · subst h0
      simp only [ratArith, if_true, Sim]
      exact fracDiv_zero hL hm hx hy
    · simp only [ratArith, h0, if_false, Sim]
      exact fracDiv_ok hL hm hd hx hy h0
  rem x y u v hx hy := evaluates_const _
  lt x y u v hx hy := ⟨_, fracLess_ok hL hm hx hy, rfl⟩
  eq x y u v hx hy := ⟨_, ⟨0, fun _ _ => fracEq_ok hL hm hd hx hy⟩, rfl⟩

/-- C162: a program over the fractions ends as the program over the rational numbers: with the same values in the variables, with the same
exception, or not within `N`. -/
theorem C162_programs {L : Limits} (hL : Supported L) {env : Env} (hm : env.Ample) (hd : env.debug = false) (p : Cmd) {s : Nat → Frac}
    {v : Nat → ℚ} (hs : ∀ i, HoldsRat L (s i) (v i)) (N : Nat) :
    (∀ v', p.exec ratArith N v = .ok v' →
      ∃ s', Evaluates (fun n => p.exec (fracArith L env n) N s) (.ok s') ∧ ∀ i, HoldsRat L (s' i) (v' i)) ∧
    (∀ e, p.exec ratArith N v = .error e → Evaluates (fun n => p.exec (fracArith L env n) N s) (.error e)) := by
  have h := (fracArith_follows hL hm hd).cmd N p hs
  constructor
  · intro v' e
    rw [e] at h
    exact h
  · intro f e
    rw [e] at h
    exact h

/-! ### Instances -/

/-- -23/199 -/
def Sample.frac : Frac := ⟨Sample.m23, Sample.n199⟩

theorem Sample.frac_holds : HoldsRat .base10 Sample.frac (-23 / 199) := by
  have e : ((-23 : ℚ) / 199) = ((-23 : Int) : ℚ) / ((199 : Int) : ℚ) := by norm_num
  have h1 : ((-23 : ℚ) / 199).num = -23 := by rw [e]; exact Rat.num_div_eq_of_coprime (by norm_num) (by decide)
  have h2 : (((-23 : ℚ) / 199).den : Int) = 199 := by rw [e]; exact Rat.den_div_eq_of_coprime (by norm_num) (by decide)
  exact ⟨⟨Sample.proper23, by rw [h1]; decide⟩, ⟨Sample.proper199, by rw [h2]; decide⟩⟩

example := C162_operations (L := .base10) (.inr Sample.base10) Sample.ample rfl Sample.frac_holds Sample.frac_holds
example := C162_make (L := .base10) (.inr Sample.base10) Sample.ample rfl Sample.proper199 Sample.proper23 (by decide)
example := C162_unique Sample.frac_holds Sample.frac_holds

/-- Newton's iteration for the square root of 2, `x0 = 2; while (1/1000 < x0 * x0 - 2) x0 = (x0 + 2 / x0) / 2;` -/
def Sample.newton : Cmd :=
  .seq (.assign 0 (.lit 2 (by norm_num))) <| .loop (.lt (.quo (.lit 1 (by norm_num)) (.lit 1000 (by norm_num))) (.sub (.mul (.var 0) (.var 0)) (.lit 2 (by norm_num))))
    (.assign 0 (.quo (.add (.var 0) (.quo (.lit 2 (by norm_num)) (.var 0))) (.lit 2 (by norm_num))))

example := C162_programs (L := .base10) (.inr Sample.base10) Sample.ample rfl Sample.newton (fun _ => Sample.frac_holds) 9
example : (Sample.newton.exec ratArith 9 fun _ => -23 / 199).map (· 0) = .ok (577 / 408) := by decide +kernel

end BN
