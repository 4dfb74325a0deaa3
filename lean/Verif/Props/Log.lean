import Verif.Props.Bisect
import Verif.Props.RoundQ
/-
C174: integer logarithms.
-/
namespace BN
open Bignum

/-- `while (x >= b) { x = x / b; ++i; } return { i, x };` -/
def ilog (L : Limits) (env : Env) (n : Nat) (b : Bignum) : Nat → Bignum → Res (Nat × Bignum)
  | 0, _ => .error .timeout
  | k + 1, x => do
    if ← x.ge b then
      let y ← x.div L env n b
      let r ← ilog L env n b k y
      .ok (r.1 + 1, r.2)
    else .ok (0, x)

variable {L : Limits} {env : Env}

theorem pos_ge (hB : 2 ≤ L.base) (a b : Nat) : (numeral L .pos a).ge (numeral L .pos b) = .ok (decide (b ≤ a)) := by
  rw [(C03_ge_le_nonneg L (numeral L .pos a) (numeral L .pos b) ⟨digits_inRange hB _, digits_nlz _ _⟩
    ⟨digits_inRange hB _, digits_nlz _ _⟩ rfl rfl).1, toInt_of_pos rfl, toInt_of_pos rfl, numeral_mag, numeral_mag]
  simp

theorem zero_ge {b : Nat} (hb : b ≠ 0) : (⟨.pos, [0]⟩ : Bignum).ge (numeral L .pos b) = .ok false := by
  have h1 : (numeral L .pos b).digits ≠ [] := mag_ne_nil (L := L) (by rw [numeral_mag]; exact hb)
  have h2 := digits_nlz L.base b
  have e : Bignum.ge ⟨.pos, [0]⟩ (numeral L .pos b) = absGe [0] (numeral L .pos b).digits := by
    simp [Bignum.ge, numeral]
  rw [e]
  change NoLeadingZero (numeral L .pos b).digits at h2
  match hd : (numeral L .pos b).digits, h1, h2 with
  | [d], _, h2 =>
    have : d ≠ 0 := fun h => h2 (by simp [h])
    have hd0 : 0 < d := by omega
    simp [absGe, geLoop, Vec.rd, hd0]
  | d :: d' :: l, _, _ => exact absGe_shorter (by simp)

section
variable (hL : Custom L) (hm : env.Ample) (hd : env.debug = false)
include hL hm hd

theorem ilog_loop {b : Nat} (hb : 2 ≤ b) : ∀ x, 0 < x → ∃ y : Bignum, (∀ n k, x.size + 2 ≤ n → x < k →
    ilog L env n (numeral L .pos b) k (numeral L .pos x) = .ok (Nat.log b x, y)) ∧ WF L y ∧
      y.toInt L = if b ≤ x ∧ x / b ^ (Nat.log b x - 1) = b then 0 else (x / b ^ Nat.log b x : Nat) := by
  have hB := hL.supported.base_ge
  intro x
  induction x using Nat.strong_induction_on with
  | _ x ih =>
    intro x0
    by_cases hx : x < b
    · refine ⟨numeral L .pos x, fun n k _ hk => ?_, numeral_wf hB (.inl rfl) _, ?_⟩
      · obtain ⟨k, rfl⟩ : ∃ j, k = j + 1 := ⟨k - 1, by omega⟩
        rw [ilog, pos_ge hB, ok_bind, if_neg (by simpa using hx), Nat.log_of_lt hx]
      · rw [Nat.log_of_lt hx, if_neg (by omega), toInt_of_pos rfl, numeral_mag]; simp
    · have hlog : Nat.log b x = Nat.log b (x / b) + 1 := Nat.log_of_one_lt_of_le (by omega) (by omega)
      by_cases hxb : x = b
      · subst hxb
        have hl : Nat.log x x = 1 := by rw [hlog, Nat.div_self x0, Nat.log_one_right]
        refine ⟨⟨.pos, [0]⟩, fun n k _ hk => ?_, ⟨.inl rfl, fun y hy => by simp at hy; omega, .inr rfl⟩, ?_⟩
        · obtain ⟨k, rfl⟩ : ∃ j, k = j + 1 + 1 := ⟨k - 2, by omega⟩
          rw [ilog, pos_ge hB, ok_bind, if_pos (by simp), div_numeral_self hL.supported hm hb, ok_bind, ilog, zero_ge (by omega), ok_bind,
            if_neg (by simp), ok_bind, hl]
        · rw [hl, if_pos (by simp)]; simp [Bignum.toInt, Bignum.mag]
      · have hq0 : 0 < x / b := Nat.div_pos (by omega) (by omega)
        have hlt : x / b < x := Nat.div_lt_self x0 (by omega)
        obtain ⟨y, y1, y2, y3⟩ := ih (x / b) hlt hq0
        have z := Nat.size_le_size hlt.le
        refine ⟨y, fun n k hn hk => ?_, y2, ?_⟩
        · obtain ⟨k, rfl⟩ : ∃ j, k = j + 1 := ⟨k - 1, by omega⟩
          rw [ilog, pos_ge hB, ok_bind, if_pos (by simpa using hx), pos_div hL hm hd (by omega) (.inl hxb) (by omega) hn, ok_bind,
            y1 n k (by omega) (by omega), ok_bind, hlog]
        · rw [y3, hlog, Nat.add_sub_cancel, pow_succ', ← Nat.div_div_eq_div_mul]
          by_cases h1 : b ≤ x / b
          · obtain ⟨j, hj⟩ : ∃ j, Nat.log b (x / b) = j + 1 := ⟨Nat.log b (x / b) - 1, by have := Nat.log_pos (show 1 < b by omega) h1; omega⟩
            simp only [h1, show b ≤ x by omega, true_and, hj, Nat.add_sub_cancel, pow_succ' b j, ← Nat.div_div_eq_div_mul]
          · rw [if_neg (by omega), Nat.log_of_lt (by omega), pow_zero, Nat.div_one, if_neg (by omega)]

/-- The count is the logarithm rounded down, for all numbers. What is left is the leading digit in base `b`, but zero if the two
leading digits are one and zero. -/
theorem C174_logarithm {b x : Bignum} (hbw : WF L b) (hb : 2 ≤ b.toInt L) (hxw : WF L x) (hx : 0 < x.toInt L) :
    ∃ y, Evaluates (fun n => ilog L env n b n x) (.ok (Nat.log (b.toInt L).toNat (x.toInt L).toNat, y)) ∧ WF L y ∧
      y.toInt L = if b.toInt L ≤ x.toInt L ∧ x.toInt L / b.toInt L ^ (Nat.log (b.toInt L).toNat (x.toInt L).toNat - 1) = b.toInt L then 0
        else x.toInt L / b.toInt L ^ Nat.log (b.toInt L).toNat (x.toInt L).toNat := by
  have hB := hL.supported.base_ge
  have eb := eq_pos hB hbw (by omega)
  have ex := eq_pos hB hxw hx
  have hbv : b.toInt L = ((b.toInt L).toNat : Int) := by omega
  have hxv : x.toInt L = ((x.toInt L).toNat : Int) := by omega
  have b2 : 2 ≤ (b.toInt L).toNat := by omega
  have x0 : 0 < (x.toInt L).toNat := by omega
  generalize (b.toInt L).toNat = c at *
  generalize (x.toInt L).toNat = v at *
  obtain ⟨y, y1, y2, y3⟩ := ilog_loop hL hm hd b2 v x0
  refine ⟨y, ⟨v.size + 2 + v + 1, fun n hn => ?_⟩, y2, ?_⟩
  · beta_reduce
    rw [eb, ex]
    exact y1 n n (by omega) (by omega)
  · rw [y3, hbv, hxv]
    norm_cast

end

/-- 10 ^ 3 <= 1099 < 10 ^ 4 -/
example := C174_logarithm Sample.base10 Sample.ample rfl (b := ⟨.pos, [0, 1]⟩) (x := ⟨.pos, [9, 9, 0, 1]⟩) (by sample) (by sample) (by sample) (by sample)

end BN
