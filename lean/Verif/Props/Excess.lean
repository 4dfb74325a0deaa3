import Verif.Props.Platform
import Verif.Props.Binary64
import Mathlib.Data.Int.Log
import Mathlib.Algebra.Order.Round
/-
C134: processors that keep intermediate results with more bits than a `double` has (x87, `FLT_EVAL_METHOD` 2).
-/
namespace BN
open Bignum

/-! ### Rounding to p bits and twice -/

/-- x has at most p significant bits. -/
def HasBits (p : Nat) (x : ℝ) : Prop := ∃ m e : ℤ, x = m * 2 ^ e ∧ |m| ≤ 2 ^ p

/-- r is v rounded to p bits; of two nearest numbers either may be taken. -/
def Nearest (p : Nat) (v r : ℝ) : Prop := HasBits p r ∧ ∀ s, HasBits p s → |r - v| ≤ |s - v|

/-- What may become of an exact result v: rounded to 53 bits, kept with 64 bits, or rounded to 64 bits and then, when it is stored, to 53. -/
def Kept (v r : ℝ) : Prop := Nearest 53 v r ∨ Nearest 64 v r ∨ ∃ m, Nearest 64 v m ∧ Nearest 53 m r

/-- Arithmetic in which every single result is kept or rounded, as the compiler likes. `val` is the number a value stands for; the
values may carry more than that (for instance how they were computed), so that equal numbers may be treated differently at
different places. The exponents are not bounded. -/
structure Excess {F : Type} (o : FloatOps F) (val : F → ℝ) : Prop where
  ofNat : ∀ n : ℕ, Kept n (val (o.ofNat n))
  add : ∀ x y, Kept (val x + val y) (val (o.add x y))
  sub : ∀ x y, Kept (val x - val y) (val (o.sub x y))
  mul : ∀ x y, Kept (val x * val y) (val (o.mul x y))
  div : ∀ x y, val y ≠ 0 → Kept (val x / val y) (val (o.div x y))
  mulSub : ∀ x y z w, o.mulSub x y z w = o.sub (o.mul x y) (o.mul z w)
  mulAdd : ∀ x y z w, o.mulAdd x y z w = o.add (o.mul x y) (o.mul z w)
  neg : ∀ x, val (o.neg x) = -val x
  cos : ∀ x, |val x| ≤ 4 → |val (o.cos x) - Real.cos (val x)| ≤ 4 / 2 ^ 53
  sin : ∀ x, |val x| ≤ 4 → |val (o.sin x) - Real.sin (val x)| ≤ 4 / 2 ^ 53
  floor : ∀ x, val (o.floor x) = (⌊val x⌋ : ℤ)
  trunc : ∀ x, o.trunc x = if 0 ≤ val x then ⌊val x⌋ else ⌈val x⌉
  pi : val o.pi = 7074237752028440 / 2 ^ 51
  negTwo : val o.negTwo = -2
  half : val o.half = 1 / 2
  quarter : val o.quarter = 1 / 4

/-! ### Lemmas -/

theorem hasBits_int {p : Nat} {n : ℤ} (h : |n| ≤ 2 ^ p) : HasBits p n := ⟨n, 0, by simp, h⟩

theorem hasBits_mono {p q : Nat} (h : p ≤ q) {x : ℝ} (hx : HasBits p x) : HasBits q x := by
  obtain ⟨m, e, h1, h2⟩ := hx
  exact ⟨m, e, h1, h2.trans (pow_le_pow_right₀ (by norm_num) h)⟩

/-- Rounding with ties upwards. -/
noncomputable def rndP (p : Nat) (x : ℝ) : ℝ := round (x / 2 ^ (Int.log 2 |x| + 1 - p)) * 2 ^ (Int.log 2 |x| + 1 - p)

theorem rndP_spec {p : Nat} (hp : 1 ≤ p) {x : ℝ} (hx : x ≠ 0) : Nearest p x (rndP p x) ∧ |rndP p x - x| ≤ |x| / 2 ^ p := by
  have hu : (0 : ℝ) < 2 ^ (Int.log 2 |x| + 1 - p) := zpow_pos (by norm_num) _
  have hlo : (2 : ℝ) ^ (Int.log 2 |x|) ≤ |x| := by
    exact_mod_cast Int.zpow_log_le_self (b := 2) (R := ℝ) (by norm_num) (abs_pos.2 hx)
  have hhi : |x| < (2 : ℝ) ^ (Int.log 2 |x| + 1) := by
    exact_mod_cast Int.lt_zpow_succ_log_self (b := 2) (R := ℝ) (by norm_num) |x|
  unfold rndP
  generalize hl : Int.log 2 |x| + 1 - (p : ℤ) = l at hu ⊢
  have e1 : (2 : ℝ) ^ (Int.log 2 |x| + 1) = 2 ^ l * 2 ^ p := by
    rw [← zpow_natCast, ← zpow_add₀ (by norm_num)]; congr 1; omega
  have e0 : (2 : ℝ) ^ (Int.log 2 |x|) = 2 ^ l * 2 ^ (p - 1) := by
    rw [← zpow_natCast, ← zpow_add₀ (by norm_num)]; congr 1; omega
  have e2 : (2 : ℝ) ^ p = 2 * 2 ^ (p - 1) := by rw [← pow_succ']; congr 1; omega
  have hd : x = x / 2 ^ l * 2 ^ l := by field_simp
  have habs : |x| = |x / 2 ^ l| * 2 ^ l := by rw [abs_div, abs_of_pos hu]; field_simp
  have herr : ∀ z : ℤ, |(round (x / 2 ^ l) : ℝ) * 2 ^ l - x| ≤ |(z : ℝ) * 2 ^ l - x| := by
    intro z
    have h := round_le (x / 2 ^ l) z
    have k : ∀ w : ℝ, |w * 2 ^ l - x| = |x / 2 ^ l - w| * 2 ^ l := by
      intro w
      rw [← abs_of_pos hu, ← abs_mul, abs_of_pos hu, sub_mul, ← hd, abs_sub_comm]
    rw [k, k]
    exact mul_le_mul_of_nonneg_right h hu.le
  have hbound : |(round (x / 2 ^ l) : ℝ) * 2 ^ l - x| ≤ 2 ^ l / 2 := by
    have h := abs_sub_round (x / 2 ^ l)
    have k : |(round (x / 2 ^ l) : ℝ) * 2 ^ l - x| = |x / 2 ^ l - round (x / 2 ^ l)| * 2 ^ l := by
      rw [← abs_of_pos hu, ← abs_mul, abs_of_pos hu, sub_mul, ← hd, abs_sub_comm]
    rw [k]
    have := mul_le_mul_of_nonneg_right h hu.le
    linarith
  refine ⟨⟨⟨_, _, rfl, ?_⟩, ?_⟩, ?_⟩
  · have h1 : |x / 2 ^ l| < 2 ^ p := by
      rw [abs_div, abs_of_pos hu, div_lt_iff₀ hu]; linarith
    have h2 := abs_sub_round (x / 2 ^ l)
    have h3 : |((round (x / 2 ^ l) : ℤ) : ℝ)| < 2 ^ p + 1 := by
      have := abs_sub_abs_le_abs_sub ((round (x / 2 ^ l) : ℤ) : ℝ) (x / 2 ^ l)
      rw [abs_sub_comm] at this
      linarith
    have h4 : |round (x / 2 ^ l)| < 2 ^ p + 1 := by exact_mod_cast h3
    omega
  · rintro s ⟨m, e, rfl, hm⟩
    by_cases he : l ≤ e
    · obtain ⟨t, ht⟩ := Int.eq_ofNat_of_zero_le (show 0 ≤ e - l by omega)
      have := herr (m * 2 ^ t)
      have k : ((m * 2 ^ t : ℤ) : ℝ) * 2 ^ l = m * 2 ^ e := by
        rw [show e = (t : ℤ) + l by omega, zpow_add₀ (by norm_num), zpow_natCast]; push_cast; ring
      rwa [k] at this
    · -- |s| does not reach the power of two below |x|
      have hmR : |(m : ℝ)| ≤ 2 ^ p := by exact_mod_cast hm
      have he1 : (2 : ℝ) ^ e ≤ 2 ^ (l - 1) := zpow_le_zpow_right₀ (by norm_num) (by omega)
      have he2 : (2 : ℝ) ^ (l - 1) = 2 ^ l / 2 := by rw [zpow_sub₀ (by norm_num)]; norm_num
      have hs : |(m : ℝ) * 2 ^ e| ≤ 2 ^ l * 2 ^ (p - 1) := by
        have hpos : (0 : ℝ) < 2 ^ e := zpow_pos (by norm_num) e
        rw [abs_mul, abs_of_pos hpos]
        calc |(m : ℝ)| * 2 ^ e ≤ 2 ^ p * 2 ^ (l - 1) := mul_le_mul hmR he1 hpos.le (by positivity)
          _ = _ := by rw [he2, e2]; ring
      rw [e0] at hlo
      have hs' := abs_le.1 hs
      rcases le_or_gt 0 x with h0 | h0
      · have h := herr (2 ^ (p - 1))
        rw [abs_of_nonneg h0] at hlo
        refine h.trans ?_
        push_cast
        rw [abs_of_nonpos (by linarith), abs_of_nonpos (by linarith)]
        linarith
      · have h := herr (-2 ^ (p - 1))
        rw [abs_of_neg h0] at hlo
        refine h.trans ?_
        push_cast
        rw [abs_of_nonneg (by linarith), abs_of_nonneg (by linarith)]
        linarith
  · refine hbound.trans ?_
    rw [e0] at hlo
    rw [e2]
    rw [le_div_iff₀ (by positivity)]
    linarith

theorem nearest_zero {p : Nat} {r : ℝ} (h : Nearest p 0 r) : r = 0 := by
  have := h.2 0 ⟨0, 0, by simp, by positivity⟩
  simpa using this

theorem nearest_exact {p : Nat} {v r : ℝ} (hv : HasBits p v) (h : Nearest p v r) : r = v := by
  have := h.2 v hv
  rw [sub_self, abs_zero] at this
  have := abs_eq_zero.1 (le_antisymm this (abs_nonneg _))
  linarith

theorem nearest_err {p : Nat} (hp : 1 ≤ p) {v r : ℝ} (h : Nearest p v r) : |r - v| ≤ |v| / 2 ^ p := by
  by_cases h0 : v = 0
  · subst h0; rw [nearest_zero h]; simp
  · obtain ⟨h1, h2⟩ := rndP_spec hp h0
    exact (h.2 _ h1.1).trans h2

theorem nearest_exists {p : Nat} (hp : 1 ≤ p) (v : ℝ) : ∃ r, Nearest p v r := by
  by_cases h0 : v = 0
  · exact ⟨0, ⟨0, 0, by simp, by positivity⟩, fun s _ => by rw [h0]; simp⟩
  · exact ⟨_, (rndP_spec hp h0).1⟩

theorem kept_err {v r : ℝ} (h : Kept v r) : |r - v| ≤ uro * |v| := by
  have hv := abs_nonneg v
  rcases h with h | h | ⟨m, h1, h2⟩
  · have := nearest_err (by norm_num) h
    unfold uro
    norm_num at this ⊢
    linarith
  · have := nearest_err (by norm_num) h
    unfold uro
    norm_num at this ⊢
    linarith
  · have a := nearest_err (by norm_num) h1
    have b := nearest_err (by norm_num) h2
    have c : |m| ≤ |v| + |v| / 2 ^ 64 := by
      have := abs_sub_abs_le_abs_sub m v
      linarith
    have d : |r - v| ≤ |r - m| + |m - v| := abs_sub_le r m v
    unfold uro
    norm_num at a b c ⊢
    linarith

theorem kept_exact {v r : ℝ} (hv : HasBits 53 v) (h : Kept v r) : r = v := by
  rcases h with h | h | ⟨m, h1, h2⟩
  · exact nearest_exact hv h
  · exact nearest_exact (hasBits_mono (by norm_num) hv) h
  · have := nearest_exact (hasBits_mono (by norm_num) hv) h1
    subst this
    exact nearest_exact hv h2

section
variable {F : Type} {o : FloatOps F} {val : F → ℝ}

/-- The rounding laws hold of such an arithmetic. -/
noncomputable def excessIeee (h : Excess o val) : Ieee o where
  val := val
  fin _ := True
  ofNat_ok n hn := ⟨trivial, by
    refine kept_exact ?_ (h.ofNat n)
    have := hasBits_int (p := 53) (n := (n : ℤ)) (by rw [abs_of_nonneg (by positivity)]; exact_mod_cast hn)
    rwa [Int.cast_natCast] at this⟩
  add_ok x y _ _ _ := ⟨trivial, kept_err (h.add x y)⟩
  sub_ok x y _ _ _ := ⟨trivial, kept_err (h.sub x y)⟩
  mul_ok x y _ _ _ := ⟨trivial, (kept_err (h.mul x y)).trans (le_add_of_nonneg_right eta_pos.le)⟩
  mulSub_ok x y z w _ _ _ _ _ _ := .inl (h.mulSub x y z w)
  mulAdd_ok x y z w _ _ _ _ _ _ := .inl (h.mulAdd x y z w)
  div_ok x y _ _ hy _ := ⟨trivial, (kept_err (h.div x y hy)).trans (le_add_of_nonneg_right eta_pos.le)⟩
  neg_ok x _ := ⟨trivial, h.neg x⟩
  cos_ok x _ hx := ⟨trivial, (h.cos x hx).trans (by norm_num [uro])⟩
  sin_ok x _ hx := ⟨trivial, (h.sin x hx).trans (by norm_num [uro])⟩
  floor_ok x _ := ⟨trivial, h.floor x⟩
  trunc_ok x _ := h.trunc x
  pi_ok := ⟨trivial, by
    rw [h.pi]
    have h1 := Real.pi_gt_d20
    have h2 := Real.pi_lt_d20
    unfold uro
    rw [abs_le]
    norm_num at h1 h2 ⊢
    constructor <;> linarith⟩
  negTwo_ok := ⟨trivial, h.negTwo⟩
  half_ok := ⟨trivial, h.half⟩
  quarter_ok := ⟨trivial, h.quarter⟩
  addInt_ok x y m n _ _ hx hy hb := ⟨trivial, by
    have e : val x + val y = ((m + n : ℤ) : ℝ) := by rw [hx, hy, Int.cast_add]
    exact e ▸ kept_exact (e ▸ hasBits_int hb) (h.add x y)⟩
end

/-! ### A choice at every place -/

/-- A floating-point value by how it was computed. -/
inductive Trace
  | nat (n : ℕ)
  | add (x y : Trace) | sub (x y : Trace) | mul (x y : Trace) | div (x y : Trace) | neg (x : Trace)
  | cos (x : Trace) | sin (x : Trace) | floor (x : Trace)
  | pi | negTwo | half | quarter

/-- What is done with the result of an operation. -/
inductive Way
  | stored | kept | keptThenStored
  deriving DecidableEq

/-- The nearest number of p bits (at ties any fixed one). -/
noncomputable def nearest (p : Nat) (hp : 1 ≤ p) (v : ℝ) : ℝ := (nearest_exists hp v).choose

theorem nearest_spec (p : Nat) (hp : 1 ≤ p) (v : ℝ) : Nearest p v (nearest p hp v) := (nearest_exists hp v).choose_spec

noncomputable def Way.apply : Way → ℝ → ℝ
  | .stored, v => nearest 53 (by norm_num) v
  | .kept, v => nearest 64 (by norm_num) v
  | .keptThenStored, v => nearest 53 (by norm_num) (nearest 64 (by norm_num) v)

theorem Way.apply_kept (w : Way) (v : ℝ) : Kept v (w.apply v) := by
  cases w with
  | stored => exact .inl (nearest_spec 53 (by norm_num) _)
  | kept => exact .inr (.inl (nearest_spec 64 (by norm_num) _))
  | keptThenStored => exact .inr (.inr ⟨_, nearest_spec 64 (by norm_num) _, nearest_spec 53 (by norm_num) _⟩)

/-- The number computed when the compiler treats the result of the computation t as `pick t` says. -/
noncomputable def Trace.val (pick : Trace → Way) (cosR sinR : ℝ → ℝ) : Trace → ℝ
  | .nat n => (pick (.nat n)).apply n
  | .add x y => (pick (.add x y)).apply (x.val pick cosR sinR + y.val pick cosR sinR)
  | .sub x y => (pick (.sub x y)).apply (x.val pick cosR sinR - y.val pick cosR sinR)
  | .mul x y => (pick (.mul x y)).apply (x.val pick cosR sinR * y.val pick cosR sinR)
  | .div x y => (pick (.div x y)).apply (x.val pick cosR sinR / y.val pick cosR sinR)
  | .neg x => -x.val pick cosR sinR
  | .cos x => cosR (x.val pick cosR sinR)
  | .sin x => sinR (x.val pick cosR sinR)
  | .floor x => (⌊x.val pick cosR sinR⌋ : ℤ)
  | .pi => 7074237752028440 / 2 ^ 51
  | .negTwo => -2
  | .half => 1 / 2
  | .quarter => 1 / 4

/-- Arithmetic on traces. -/
noncomputable def traceOps (pick : Trace → Way) (cosR sinR : ℝ → ℝ) : FloatOps Trace where
  ofNat := .nat
  add := .add
  sub := .sub
  mul := .mul
  mulSub x y z w := .sub (.mul x y) (.mul z w)
  mulAdd x y z w := .add (.mul x y) (.mul z w)
  div := .div
  neg := .neg
  cos := .cos
  sin := .sin
  floor := .floor
  trunc x := if 0 ≤ x.val pick cosR sinR then ⌊x.val pick cosR sinR⌋ else ⌈x.val pick cosR sinR⌉
  pi := .pi
  negTwo := .negTwo
  half := .half
  quarter := .quarter

/-- The library's functions are within 4 * 2^-53 on [-4, 4]. -/
def AccurateR (cosR sinR : ℝ → ℝ) : Prop :=
  ∀ x, |x| ≤ 4 → |cosR x - Real.cos x| ≤ 4 / 2 ^ 53 ∧ |sinR x - Real.sin x| ≤ 4 / 2 ^ 53

theorem accurateR_exact : AccurateR Real.cos Real.sin := fun x _ => by
  constructor <;> · simp only [sub_self, abs_zero]; positivity

theorem trace_excess (pick : Trace → Way) {cosR sinR : ℝ → ℝ} (h : AccurateR cosR sinR) :
    Excess (traceOps pick cosR sinR) (Trace.val pick cosR sinR) where
  ofNat _ := Way.apply_kept _ _
  add _ _ := Way.apply_kept _ _
  sub _ _ := Way.apply_kept _ _
  mul _ _ := Way.apply_kept _ _
  div _ _ _ := Way.apply_kept _ _
  mulSub _ _ _ _ := rfl
  mulAdd _ _ _ _ := rfl
  neg _ := rfl
  cos _ hx := (h _ hx).1
  sin _ hx := (h _ hx).2
  floor _ := rfl
  trunc _ := rfl
  pi := rfl
  negTwo := rfl
  half := rfl
  quarter := rfl

/-! ### C134 -/

/-- Above 1 the numbers of p bits are multiples of 2^(1-p). -/
theorem hasBits_above {p : Nat} {s : ℝ} (h : HasBits (p + 1) s) : s ≤ 1 ∨ ∃ z : ℤ, s * 2 ^ p = z := by
  obtain ⟨m, e, rfl, hm⟩ := h
  by_cases h1 : (m : ℝ) * 2 ^ e ≤ 1
  · exact .inl h1
  right
  have hmR : (m : ℝ) ≤ 2 ^ (p + 1) := by exact_mod_cast (le_abs_self m).trans hm
  have hpos : (0 : ℝ) < 2 ^ e := zpow_pos (by norm_num) e
  have he : -(p : ℤ) ≤ e := by
    by_contra hc
    have h2 : (2 : ℝ) ^ e ≤ 2 ^ (-((p + 1 : ℕ) : ℤ)) := zpow_le_zpow_right₀ (by norm_num) (by push_cast; omega)
    have h3 : (m : ℝ) * 2 ^ e ≤ 2 ^ (p + 1) * 2 ^ (-((p + 1 : ℕ) : ℤ)) :=
      (mul_le_mul_of_nonneg_right hmR hpos.le).trans (mul_le_mul_of_nonneg_left h2 (by positivity))
    rw [zpow_neg, zpow_natCast, mul_inv_cancel₀ (by positivity)] at h3
    exact h1 h3
  obtain ⟨t, ht⟩ := Int.eq_ofNat_of_zero_le (show 0 ≤ e + p by omega)
  refine ⟨m * 2 ^ t, ?_⟩
  rw [mul_assoc, ← zpow_natCast, ← zpow_add₀ (by norm_num), ht]
  push_cast
  rw [zpow_natCast]

/-- Two roundings are not one: 1 + 3 * 2^-53 - 2^-65 rounded to 53 bits is 1 + 2^-52, but by way of 64 bits it may become
1 + 2^-51, also with ties to even. -/
theorem C134_values_differ :
    (∀ r, Nearest 53 (1 + 3 / 2 ^ 53 - 1 / 2 ^ 65) r ↔ r = 1 + 1 / 2 ^ 52) ∧
      Nearest 64 (1 + 3 / 2 ^ 53 - 1 / 2 ^ 65) (1 + 3 / 2 ^ 53) ∧ Nearest 53 (1 + 3 / 2 ^ 53) (1 + 1 / 2 ^ 51) ∧
      Kept (1 + 3 / 2 ^ 53 - 1 / 2 ^ 65) (1 + 1 / 2 ^ 51) := by
  have b1 : HasBits 53 (1 + 1 / 2 ^ 52) := ⟨2 ^ 52 + 1, -52, by norm_num, by norm_num⟩
  have b2 : HasBits 53 (1 + 1 / 2 ^ 51) := ⟨2 ^ 51 + 1, -51, by norm_num, by norm_num⟩
  have b3 : HasBits 64 (1 + 3 / 2 ^ 53) := ⟨2 ^ 53 + 3, -53, by norm_num, by norm_num⟩
  -- the numbers of 53 bits lie outside the gap
  have gap : ∀ s, HasBits 53 s → s ≤ 1 + 1 / 2 ^ 52 ∨ 1 + 1 / 2 ^ 51 ≤ s := by
    intro s hs
    rcases hasBits_above (p := 52) hs with h | ⟨z, h⟩
    · left
      have : (0 : ℝ) ≤ 1 / 2 ^ 52 := by positivity
      linarith
    · rcases le_or_gt z (2 ^ 52 + 1) with hz | hz
      · left
        have : (z : ℝ) ≤ 2 ^ 52 + 1 := by exact_mod_cast hz
        norm_num at this h ⊢
        linarith
      · right
        have : (2 : ℝ) ^ 52 + 2 ≤ z := by exact_mod_cast hz
        norm_num at this h ⊢
        linarith
  have gap64 : ∀ s, HasBits 64 s → s ≤ 1 + 3 / 2 ^ 53 - 1 / 2 ^ 63 ∨ 1 + 3 / 2 ^ 53 ≤ s := by
    intro s hs
    rcases hasBits_above (p := 63) hs with h | ⟨z, h⟩
    · left
      norm_num at h ⊢
      linarith
    · rcases le_or_gt z (2 ^ 63 + 3 * 2 ^ 10 - 1) with hz | hz
      · left
        have : (z : ℝ) ≤ 2 ^ 63 + 3 * 2 ^ 10 - 1 := by exact_mod_cast hz
        norm_num at this h ⊢
        linarith
      · right
        have : (2 : ℝ) ^ 63 + 3 * 2 ^ 10 ≤ z := by exact_mod_cast (show 2 ^ 63 + 3 * 2 ^ 10 ≤ z by omega)
        norm_num at this h ⊢
        linarith
  have n64 : Nearest 64 (1 + 3 / 2 ^ 53 - 1 / 2 ^ 65) (1 + 3 / 2 ^ 53) := by
    refine ⟨b3, fun s hs => ?_⟩
    rcases gap64 s hs with h | h
    · refine le_trans ?_ (neg_le_abs _)
      norm_num at h ⊢
      linarith
    · refine le_trans ?_ (le_abs_self _)
      norm_num at h ⊢
      linarith
  have n53 : Nearest 53 (1 + 3 / 2 ^ 53) (1 + 1 / 2 ^ 51) := by
    refine ⟨b2, fun s hs => ?_⟩
    rcases gap s hs with h | h
    · refine le_trans ?_ (neg_le_abs _)
      norm_num at h ⊢
      linarith
    · refine le_trans ?_ (le_abs_self _)
      norm_num at h ⊢
      linarith
  refine ⟨fun r => ⟨fun hr => ?_, ?_⟩, n64, n53, .inr (.inr ⟨_, n64, n53⟩)⟩
  · have h := abs_le.1 (hr.2 _ b1)
    rcases gap r hr.1 with g | g
    · norm_num [abs_of_neg] at h g ⊢
      linarith
    · exfalso
      norm_num [abs_of_neg] at h g
      linarith
  · rintro rfl
    refine ⟨b1, fun s hs => ?_⟩
    rcases gap s hs with h | h
    · refine le_trans ?_ (neg_le_abs _)
      norm_num [abs_of_neg] at h ⊢
      linarith
    · refine le_trans ?_ (le_abs_self _)
      norm_num [abs_of_neg] at h ⊢
      linarith

/-- Whatever the compiler chooses at every operation: products of the preset types are the integers' products. -/
theorem C134_every_choice (pick : Trace → Way) {cosR sinR : ℝ → ℝ} (h : AccurateR cosR sinR) {L : Limits} {K : Nat} (hp : Preset L K)
    {env : Env} (hm : env.Ample) {x y : Bignum} (hx : WF L x) (hy : WF L y) (h1 : 1 ≤ x.size + y.size) (h2 : x.size + y.size ≤ K)
    {n : Nat} (hn : 32 < n) :
    x.mul (traceOps pick cosR sinR) L env n y = .ok ⟨signRule x.desc y.desc, Nat.digits L.base (x.mag L * y.mag L)⟩ :=
  mul_numeral (excessIeee (trace_excess pick h)) hp hm hx hy h1 h2 hn

/-- Sums are stored, all else stays in registers. -/
example := C134_every_choice (fun t => match t with | .add _ _ => .keptThenStored | _ => .kept) accurateR_exact .base10 Sample.ample
  (x := Sample.n199) (y := Sample.m23) (by sample) (by sample) (by decide) (by decide) (n := 33) (by decide)

/-- Products of the preset types end as they do on binary64. -/
theorem C134_products {F : Type} {o : FloatOps F} {val : F → ℝ} (ho : Excess o val) {lib : MathLib} (h : lib.Accurate) (fuse : Fusing) {L : Limits} {K : Nat}
    (hp : Preset L K) (env : Env) {x : Bignum} {r : Rhs} (hx : WF L x) (hy : WF L (r.get x))
    (h1 : 1 ≤ x.size + (r.get x).size) (h2 : x.size + (r.get x).size ≤ K) {n : Nat} (hn : 32 < n) :
    mulAssign o L env n x r = mulAssign (binary64 lib fuse) L env n x r :=
  C108_products_agree (excessIeee ho) (ieee64 lib h fuse) hp env hx hy h1 h2 hn

example := C134_products (trace_excess (fun _ => .kept) accurateR_exact) C113_accurate_library.choose_spec (fun _ _ _ _ => .first) .base10 releaseEnv
  (x := Sample.n199) (r := .other Sample.m23) (by sample) (by sample) (by decide) (by decide) (n := 33) (by decide)

/-- So do programs whose products stay within the lengths. -/
theorem C134_programs {F : Type} {o : FloatOps F} {val : F → ℝ} (ho : Excess o val) {lib : MathLib} (h : lib.Accurate) (fuse : Fusing) {L : Limits} {K : Nat}
    (hp : Preset L K) {n : Nat} (hn : 32 < n) (ops : List Op) (env : Nat → Env) (s : Store)
    (hw : WithinRun (binary64 lib fuse) L K n env s ops) :
    run o L n env s ops = run (binary64 lib fuse) L n env s ops :=
  C108_programs_agree (ieee64 lib h fuse) (excessIeee ho) hp hn ops env s hw

example := C134_programs (trace_excess (fun _ => .kept) accurateR_exact) C113_accurate_library.choose_spec (fun _ _ _ _ => .first) .base10 (n := 40) (by decide)
  [.binary .mul 0 1 2, .arith .sub 0 1] (fun _ => releaseEnv) (fun _ => Sample.n199)
  ⟨⟨by sample, by sample, by decide, by decide⟩, fun _ _ => ⟨trivial, fun _ _ => trivial⟩⟩

end BN
