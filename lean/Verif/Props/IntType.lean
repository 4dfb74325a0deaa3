import Verif.Lemmas.Samples
import Verif.Lemmas.CInt
import Mathlib.Data.Nat.Bitwise
/-
C49–C52: the digit wrapper class `BNIntType<uintN_t, id>`.
-/
namespace BN
open BNInt

/-- The width at which the built-in operators compute on a `w`-bit unsigned operand. -/
def promotedWidth (w : Nat) : Nat := max w 32

/-! ### C49 -/

theorem C49_add {w : Nat} (hw : IsWidth w) {a b : Nat} (ha : a < 2 ^ w) (hb : b < 2 ^ w) :
    bin w .add a b = .ok ((a + b) % 2 ^ w) := by
  rw [bin_eq .add rfl hw ha hb (by intro h; cases h) (by intro h; cases h)]
  refine congrArg Except.ok ?_
  simp only [BinOp.exact]
  rcases hw with rfl | rfl | rfl | rfl <;> omega

example := C49_add (w := 8) (a := 200) (b := 100) (.inl rfl) (by decide) (by decide)

theorem C49_sub {w : Nat} (hw : IsWidth w) {a b : Nat} (ha : a < 2 ^ w) (hb : b < 2 ^ w) :
    bin w .sub a b = .ok ((a + (2 ^ w - b)) % 2 ^ w) := by
  rw [bin_eq .sub rfl hw ha hb (by intro h; cases h) (by intro h; cases h)]
  refine congrArg Except.ok ?_
  simp only [BinOp.exact]
  rcases hw with rfl | rfl | rfl | rfl <;> omega

example := C49_sub (w := 8) (a := 100) (b := 200) (.inl rfl) (by decide) (by decide)

/-- Multiplication away from the 16-bit promotion hazard. -/
theorem C49_mul {w : Nat} (hw : IsWidth w) {a b : Nat} (ha : a < 2 ^ w) (hb : b < 2 ^ w)
    (h16 : w = 16 → a * b < 2 ^ 31) : bin w .mul a b = .ok ((a * b) % 2 ^ w) := by
  rw [bin_eq .mul rfl hw ha hb (by intro h; cases h) (by
    intro _ h; have := h16 h
    have : ((a * b : Nat) : Int) < 2147483648 := by exact_mod_cast this
    simpa using this)]
  refine congrArg Except.ok ?_
  simp only [BinOp.exact]
  rw [show (a : Int) * b = ((a * b : Nat) : Int) by push_cast; rfl]
  rcases hw with rfl | rfl | rfl | rfl <;> omega

example := C49_mul (w := 16) (a := 40000) (b := 50000) (.inr (.inl rfl)) (by decide) (by decide) (by decide)

theorem pattern_nat {t : CTy} {a : Nat} (h : a < 2 ^ t.bits) : t.pattern (a : Int) = a := by
  unfold CTy.pattern
  rw [Int.emod_eq_of_lt (by omega) (by exact_mod_cast h)]
  rfl

/-- The bitwise operators. -/
theorem C49_bitwise {w : Nat} (hw : IsWidth w) {a b : Nat} (ha : a < 2 ^ w) (hb : b < 2 ^ w) :
    bin w .and a b = .ok (a &&& b) ∧ bin w .or a b = .ok (a ||| b) ∧ bin w .xor a b = .ok (a ^^^ b) := by
  have h1 : a &&& b < 2 ^ w := Nat.and_lt_two_pow a hb
  have h2 : a ||| b < 2 ^ w := Nat.or_lt_two_pow ha hb
  have h3 : a ^^^ b < 2 ^ w := Nat.xor_lt_two_pow ha hb
  have fin : ∀ c : Nat, c < 2 ^ w → ((c : Int) % 2 ^ w).toNat = c := by
    intro c hc
    rw [Int.emod_eq_of_lt (by omega) (by exact_mod_cast hc)]; rfl
  rcases hw.promote with ⟨hT, hlt⟩ | ⟨hT, hge⟩
  · have hp : 2 ^ w ≤ 2 ^ 16 := Nat.pow_le_pow_right (by omega) (by rcases pow_lt_of_width hw hlt with rfl | rfl <;> omega)
    have wi : ∀ c : Nat, c < 2 ^ w → cInt.wrap (c : Int) = c := fun c hc => wrapI (by omega) (by omega)
    have pi : ∀ c : Nat, c < 2 ^ w → cInt.pattern (c : Int) = c := fun c hc => pattern_nat (by
      show c < 2 ^ 32
      omega)
    unfold bin CVal.bin
    simp only [hT, wi a ha, wi b hb, pi a ha, pi b hb, ok_bind, wrapU_eq]
    rw [wi _ h1, wi _ h2, wi _ h3, fin _ h1, fin _ h2, fin _ h3]
    exact ⟨rfl, rfl, rfl⟩
  · have wi : ∀ c : Nat, c < 2 ^ w → (cU w).wrap (c : Int) = c := fun c hc => wrapU (by omega) (by exact_mod_cast hc)
    have pi : ∀ c : Nat, c < 2 ^ w → (cU w).pattern (c : Int) = c := fun c hc => pattern_nat hc
    unfold bin CVal.bin
    simp only [hT, wi a ha, wi b hb, pi a ha, pi b hb, ok_bind]
    rw [wi _ h1, wi _ h2, wi _ h3, wi _ h1, wi _ h2, wi _ h3]
    exact ⟨rfl, rfl, rfl⟩

example := C49_bitwise (w := 8) (a := 100) (b := 200) (.inl rfl) (by decide) (by decide)

/-- The unary operators: `~` complements, `-` negates modulo 2^w, `+` is the identity, `!` tests for zero. -/
theorem C49_unary {w : Nat} (hw : IsWidth w) {a : Nat} (ha : a < 2 ^ w) :
    un w .bnot a = .ok (2 ^ w - 1 - a) ∧ un w .neg a = .ok ((2 ^ w - a) % 2 ^ w) ∧
    un w .plus a = .ok a ∧ un w .lnot a = .ok (if a = 0 then 1 else 0) := by
  refine ⟨?_, ?_, ?_, ?_⟩
  · rcases hw with rfl | rfl | rfl | rfl
    · unfold un CVal.un
      rw [show (cU 8).promote = cInt from rfl, ok_bind]
      simp only
      rw [wrapI (by omega) (by omega), wrapU_eq]; refine congrArg Except.ok ?_; omega
    · unfold un CVal.un
      rw [show (cU 16).promote = cInt from rfl, ok_bind]
      simp only
      rw [wrapI (by omega) (by omega), wrapU_eq]; refine congrArg Except.ok ?_; omega
    · unfold un CVal.un
      rw [show (cU 32).promote = cU 32 from rfl, ok_bind]
      simp only
      rw [wrapU_eq, wrapU_eq]; refine congrArg Except.ok ?_; omega
    · unfold un CVal.un
      rw [show (cU 64).promote = cU 64 from rfl, ok_bind]
      simp only
      rw [wrapU_eq, wrapU_eq]; refine congrArg Except.ok ?_; omega
  · rcases hw with rfl | rfl | rfl | rfl
    · unfold un CVal.un
      simp only [show (cU 8).promote = cInt from rfl]
      rw [resI (by omega) (by omega), ok_bind, wrapU_eq]; refine congrArg Except.ok ?_; simp only; omega
    · unfold un CVal.un
      simp only [show (cU 16).promote = cInt from rfl]
      rw [resI (by omega) (by omega), ok_bind, wrapU_eq]; refine congrArg Except.ok ?_; simp only; omega
    · unfold un CVal.un
      simp only [show (cU 32).promote = cU 32 from rfl]
      rw [resU, ok_bind, wrapU_eq]; refine congrArg Except.ok ?_; simp only; omega
    · unfold un CVal.un
      simp only [show (cU 64).promote = cU 64 from rfl]
      rw [resU, ok_bind, wrapU_eq]; refine congrArg Except.ok ?_; simp only; omega
  · unfold un CVal.un
    simp only [ok_bind]
    rw [wrapU (by omega) (by exact_mod_cast ha)]; rfl
  · unfold un CVal.un
    simp only [ok_bind]
    have : 2 ≤ 2 ^ w := by rcases hw with rfl | rfl | rfl | rfl <;> norm_num
    by_cases h : a = 0
    · have h2 : (2 : Int) ≤ 2 ^ w := by exact_mod_cast this
      rw [h, wrapU (by simp) (by simp; omega)]; rfl
    · rw [if_neg (by exact_mod_cast h), wrapU (by simp) (by positivity), if_neg h]; rfl

example := C49_unary (w := 8) (a := 100) (.inl rfl) (by decide)

/-- Compound assignment and the forms with a plain integer on the left give the result of the binary operator. -/
theorem C49_compound (w : Nat) (op : BinOp) (a b : Nat) :
    assignOp w op a b = bin w op a b ∧ binR w op a b = bin w op a b := ⟨rfl, rfl⟩

example : IsWidth 8 ∧ bin 8 .add 200 100 = .ok 44 ∧ bin 8 .sub 3 5 = .ok 254 ∧ bin 64 .mul (2 ^ 40) (2 ^ 40) = .ok 0 ∧
    un 16 .bnot 5 = .ok 65530 := ⟨.inl rfl, by decide +kernel, by decide +kernel, by decide +kernel, by decide +kernel⟩

/-! ### C50 -/

/-- Division and remainder: undefined exactly for a zero divisor, natural quotient/remainder otherwise. -/
theorem C50_div_mod {w : Nat} (hw : IsWidth w) {a b : Nat} (ha : a < 2 ^ w) (hb : b < 2 ^ w) :
    bin w .div a b = (if b = 0 then .error (.ub .divByZero) else .ok (a / b)) ∧
    bin w .mod a b = (if b = 0 then .error (.ub .divByZero) else .ok (a % b)) := by
  have hpos : (0 : Int) < 2 ^ w := by positivity
  by_cases h0 : b = 0
  · subst h0
    simp only [if_true]
    have hz : ∀ t : CTy, t.wrap ((0 : Nat) : Int) = 0 := by
      intro t; unfold CTy.wrap; split
      · exact Int.zero_bmod
      · simp
    constructor <;> · unfold bin CVal.bin; simp only [hz, if_true, error_bind]
  · simp only [h0, if_false]
    constructor
    · rw [bin_eq .div rfl hw ha hb (fun _ => h0) (by intro h; cases h)]
      refine congrArg Except.ok ?_
      simp only [BinOp.exact]
      have : a / b < 2 ^ w := Nat.lt_of_le_of_lt (Nat.div_le_self a b) ha
      rw [show (a : Int) / b = ((a / b : Nat) : Int) by push_cast; rfl]
      rw [Int.emod_eq_of_lt (Int.natCast_nonneg _) (by exact_mod_cast this)]; rfl
    · rw [bin_eq .mod rfl hw ha hb (fun _ => h0) (by intro h; cases h)]
      refine congrArg Except.ok ?_
      simp only [BinOp.exact]
      have : a % b < 2 ^ w := Nat.lt_of_le_of_lt (Nat.mod_le a b) ha
      rw [show (a : Int) % b = ((a % b : Nat) : Int) by push_cast; rfl]
      rw [Int.emod_eq_of_lt (Int.natCast_nonneg _) (by exact_mod_cast this)]; rfl

example := C50_div_mod (w := 8) (a := 200) (b := 0) (.inl rfl) (by decide) (by decide)

theorem resI_overflow {z : Int} (h : 2147483648 ≤ z) : cInt.result z = .error (.ub .signedOverflow) := by
  have h1 : ¬ (z < 2147483648) := by omega
  simp [CTy.result, CTy.fits, cInt, h1]

/-- Multiplication is undefined exactly for 16-bit operands whose product exceeds 2^31 - 1. -/
theorem C50_mul_ub_iff {w : Nat} (hw : IsWidth w) {a b : Nat} (ha : a < 2 ^ w) (hb : b < 2 ^ w) :
    (∃ k, bin w .mul a b = .error (.ub k)) ↔ w = 16 ∧ 2 ^ 31 - 1 < a * b := by
  constructor
  · rintro ⟨k, hk⟩
    by_contra hn
    rw [C49_mul hw ha hb (by intro h; rw [not_and] at hn; have := hn h; omega)] at hk
    cases hk
  · rintro ⟨rfl, h⟩
    refine ⟨.signedOverflow, ?_⟩
    unfold bin CVal.bin
    have hT : (cU 16).promote.common (cU 16).promote = cInt := by decide
    simp only [hT, wrapI (z := (a : Int)) (by omega) (by omega), wrapI (z := (b : Int)) (by omega) (by omega)]
    have h' : (2147483648 : Int) ≤ (a : Int) * b := by exact_mod_cast h
    have : cInt.result ((a : Int) * b) = .error (.ub .signedOverflow) := resI_overflow h'
    rw [this]; rfl

example := C50_mul_ub_iff (w := 16) (a := 65535) (b := 65535) (.inr (.inl rfl)) (by decide) (by decide)

theorem promote_bits {w : Nat} (hw : IsWidth w) : (cU w).promote.bits = promotedWidth w := by
  rcases hw with rfl | rfl | rfl | rfl <;> rfl

/-- Right shift: undefined exactly when the amount reaches the promoted width, else division by 2^s. -/
theorem C50_shr {w : Nat} (hw : IsWidth w) {a s : Nat} (ha : a < 2 ^ w) :
    bin w .shr a s = if promotedWidth w ≤ s then .error (.ub .badShift) else .ok (a / 2 ^ s) := by
  unfold bin CVal.bin
  simp only [promote_bits hw]
  by_cases h : promotedWidth w ≤ s
  · rw [if_pos (by right; exact_mod_cast h), if_pos h]; rfl
  · rw [if_neg (by rintro (h1 | h1) <;> omega), if_neg h]
    have hd : a / 2 ^ s < 2 ^ w := Nat.lt_of_le_of_lt (Nat.div_le_self a _) ha
    have hcast : (a : Int) / 2 ^ (s : Int).toNat = ((a / 2 ^ s : Nat) : Int) := by push_cast; rfl
    rw [hcast, ok_bind]
    generalize a / 2 ^ s = z at *
    have hp : (cU w).promote.wrap (z : Int) = z := by
      rcases hw with rfl | rfl | rfl | rfl
      · exact wrapI (by omega) (by omega)
      · exact wrapI (by omega) (by omega)
      · exact wrapU (by omega) (by exact_mod_cast hd)
      · exact wrapU (by omega) (by exact_mod_cast hd)
    rw [hp]; show Except.ok ((cU w).wrap (z : Int)).toNat = _
    rw [wrapU (by omega) (by exact_mod_cast hd)]; rfl

example := C50_shr (w := 16) (a := 65535) (s := 40) (.inr (.inl rfl)) (by decide)

/-- Left shift: undefined exactly when the amount reaches the promoted width or, for 8/16-bit operands, when
the shifted value does not fit 32 bits; otherwise multiplication by 2^s modulo 2^w. -/
theorem C50_shl {w : Nat} (hw : IsWidth w) {a s : Nat} (ha : a < 2 ^ w) :
    bin w .shl a s = if promotedWidth w ≤ s ∨ (w < 32 ∧ 2 ^ 32 ≤ a * 2 ^ s) then .error (.ub .badShift)
      else .ok (a * 2 ^ s % 2 ^ w) := by
  unfold bin CVal.bin
  simp only [promote_bits hw]
  have hcast : (a : Int) * 2 ^ (s : Int).toNat = ((a * 2 ^ s : Nat) : Int) := by push_cast; rfl
  rw [hcast]
  by_cases h : promotedWidth w ≤ s
  · rw [if_pos (by right; exact_mod_cast h), if_pos (.inl h)]; rfl
  · rw [if_neg (by rintro (h1 | h1) <;> omega)]
    have hmod : ∀ z : Nat, ((z : Int) % 2 ^ w).toNat = z % 2 ^ w := by
      intro z
      have : (z : Int) % 2 ^ w = ((z % 2 ^ w : Nat) : Int) := by push_cast; rfl
      rw [this]; rfl
    by_cases hlt : w < 32
    · have hp : (cU w).promote = cInt := by
        rcases pow_lt_of_width hw hlt with rfl | rfl <;> rfl
      simp only [hp]
      rw [if_pos (by rfl)]
      have hw32 : promotedWidth w = 32 := by unfold promotedWidth; omega
      rw [hw32]
      by_cases hov : 2 ^ 32 ≤ a * 2 ^ s
      · rw [if_pos (by right; exact_mod_cast hov), if_pos (.inr ⟨hlt, hov⟩)]; rfl
      · rw [if_neg (by
          rintro (h1 | h1)
          · omega
          · exact hov (by exact_mod_cast h1)), if_neg (by rintro (h1 | h1); (· rw [hw32] at h; omega); exact hov h1.2), ok_bind]
        rw [wrapU_eq]
        refine congrArg Except.ok ?_
        rw [← hmod]
        refine congrArg Int.toNat ?_
        simp only [CTy.wrap, cInt, if_true]
        generalize a * 2 ^ s = z at *
        rcases pow_lt_of_width hw hlt with rfl | rfl
        · rw [Int.bmod_def]; norm_num; split <;> omega
        · rw [Int.bmod_def]; norm_num; split <;> omega
    · have hp : (cU w).promote = cU w := by
        rcases hw with rfl | rfl | rfl | rfl
        · omega
        · omega
        · rfl
        · rfl
      simp only [hp]
      rw [if_neg (by simp [cU]), if_neg (by rintro (h1 | h1); (· exact h h1); exact hlt h1.1), ok_bind, wrapU_eq, wrapU_eq]
      refine congrArg Except.ok ?_
      rw [← hmod, Int.emod_emod_of_dvd _ (dvd_refl _)]

example : bin 16 .mul 65535 65535 = .error (.ub .signedOverflow) ∧ bin 16 .mul 46341 46340 = .ok (46341 * 46340 % 65536) ∧
    bin 8 .shl 255 24 = .ok 0 ∧ bin 8 .shl 255 25 = .error (.ub .badShift) ∧ bin 8 .shr 255 31 = .ok 0 ∧
    bin 64 .shr 1 64 = .error (.ub .badShift) := by decide +kernel

/-! ### C51 -/

/-- All six comparisons, with a `BNIntType` or a plain integer on either side, compare the stored naturals. -/
theorem C51_comparisons {w : Nat} (hw : IsWidth w) {a b : Nat} (ha : a < 2 ^ w) (hb : b < 2 ^ w) :
    (BNInt.cmp w .eq a b = decide (a = b)) ∧ (BNInt.cmp w .ne a b = decide (a ≠ b)) ∧ (BNInt.cmp w .gt a b = decide (a > b)) ∧
    (BNInt.cmp w .ge a b = decide (a ≥ b)) ∧ (BNInt.cmp w .lt a b = decide (a < b)) ∧ (BNInt.cmp w .le a b = decide (a ≤ b)) ∧
    (∀ op, cmpR w op a b = BNInt.cmp w op a b) := by
  have key : ∀ op, BNInt.cmp w op a b = op.eval a b := by
    intro op
    unfold BNInt.cmp CVal.cmp
    rcases hw.promote with ⟨hT, hlt⟩ | ⟨hT, hge⟩
    · have hp : 2 ^ w ≤ 2 ^ 16 := Nat.pow_le_pow_right (by omega) (by rcases pow_lt_of_width hw hlt with rfl | rfl <;> omega)
      simp only [hT, wrapI (z := (a : Int)) (by omega) (by omega), wrapI (z := (b : Int)) (by omega) (by omega)]
    · simp only [hT]
      rw [wrapU (by omega) (by exact_mod_cast ha), wrapU (by omega) (by exact_mod_cast hb)]
  simp only [key, CmpOp.eval]
  refine ⟨?_, ?_, ?_, ?_, ?_, ?_, fun _ => ?_⟩
  · rw [decide_eq_decide]; omega
  · rw [decide_eq_decide]; omega
  · rw [decide_eq_decide]; omega
  · rw [decide_eq_decide]; omega
  · rw [decide_eq_decide]; omega
  · rw [decide_eq_decide]; omega
  · exact key _

example : BNInt.cmp 64 .gt (2 ^ 63) 5 = true ∧ cmpR 8 .le 255 0 = false := by decide +kernel

/-! ### C52 -/

theorem incNum_eq {w : Nat} (hw : IsWidth w) {a : Nat} (ha : a < 2 ^ w) : incNum w a = .ok ((a + 1) % 2 ^ w) := by
  unfold incNum
  rcases hw with rfl | rfl | rfl | rfl
  · rw [cbin_int .add rfl (by decide) (by omega) (by omega) (by intro h; cases h) (by simp only [BinOp.exact]; omega), ok_bind, wrapU_eq]
    simp only [BinOp.exact]; refine congrArg Except.ok ?_; omega
  · rw [cbin_int .add rfl (by decide) (by omega) (by omega) (by intro h; cases h) (by simp only [BinOp.exact]; omega), ok_bind, wrapU_eq]
    simp only [BinOp.exact]; refine congrArg Except.ok ?_; omega
  · rw [cbin_u .add rfl (w := 32) (by decide) (by omega) (by omega) (by decide), ok_bind, wrapU_eq]
    simp only [BinOp.exact]; refine congrArg Except.ok ?_; omega
  · rw [cbin_u .add rfl (w := 64) (by decide) (by omega) (by omega) (by decide), ok_bind, wrapU_eq]
    simp only [BinOp.exact]; refine congrArg Except.ok ?_; omega

theorem decNum_eq {w : Nat} (hw : IsWidth w) {a : Nat} (ha : a < 2 ^ w) : decNum w a = .ok ((a + 2 ^ w - 1) % 2 ^ w) := by
  unfold decNum
  rcases hw with rfl | rfl | rfl | rfl
  · rw [cbin_int .sub rfl (by decide) (by omega) (by omega) (by intro h; cases h) (by simp only [BinOp.exact]; omega), ok_bind, wrapU_eq]
    simp only [BinOp.exact]; refine congrArg Except.ok ?_; omega
  · rw [cbin_int .sub rfl (by decide) (by omega) (by omega) (by intro h; cases h) (by simp only [BinOp.exact]; omega), ok_bind, wrapU_eq]
    simp only [BinOp.exact]; refine congrArg Except.ok ?_; omega
  · rw [cbin_u .sub rfl (w := 32) (by decide) (by omega) (by omega) (by decide), ok_bind, wrapU_eq]
    simp only [BinOp.exact]; refine congrArg Except.ok ?_; omega
  · rw [cbin_u .sub rfl (w := 64) (by decide) (by omega) (by omega) (by decide), ok_bind, wrapU_eq]
    simp only [BinOp.exact]; refine congrArg Except.ok ?_; omega

/-- Pre/post increment and decrement: stored value and returned value. -/
theorem C52_inc_dec {w : Nat} (hw : IsWidth w) {a : Nat} (ha : a < 2 ^ w) :
    preInc w a = .ok ⟨(a + 1) % 2 ^ w, (a + 1) % 2 ^ w⟩ ∧ postInc w a = .ok ⟨(a + 1) % 2 ^ w, a⟩ ∧
    preDec w a = .ok ⟨(a + 2 ^ w - 1) % 2 ^ w, (a + 2 ^ w - 1) % 2 ^ w⟩ ∧ postDec w a = .ok ⟨(a + 2 ^ w - 1) % 2 ^ w, a⟩ := by
  unfold preInc postInc preDec postDec
  rw [incNum_eq hw ha, decNum_eq hw ha]
  exact ⟨rfl, rfl, rfl, rfl⟩

example := C52_inc_dec (w := 16) (a := 65535) (.inr (.inl rfl)) (by decide)

/-- `++` followed by `--` (and the reverse) restores the value. -/
theorem C52_inc_dec_cancel {w : Nat} (hw : IsWidth w) {a : Nat} (ha : a < 2 ^ w) :
    (∃ s t, preInc w a = .ok s ∧ preDec w s.self = .ok t ∧ t.self = a) ∧
    (∃ s t, preDec w a = .ok s ∧ preInc w s.self = .ok t ∧ t.self = a) := by
  have hpos : 0 < 2 ^ w := Nat.two_pow_pos w
  have h1 := C52_inc_dec hw ha
  refine ⟨⟨_, _, h1.1, (C52_inc_dec hw (Nat.mod_lt _ hpos)).2.2.1, ?_⟩, ⟨_, _, h1.2.2.1, (C52_inc_dec hw (Nat.mod_lt _ hpos)).1, ?_⟩⟩
  · simp only
    rcases hw with rfl | rfl | rfl | rfl <;> omega
  · simp only
    rcases hw with rfl | rfl | rfl | rfl <;> omega

example : postInc 8 255 = .ok ⟨0, 255⟩ ∧ preDec 32 0 = .ok ⟨4294967295, 4294967295⟩ := by decide +kernel

end BN
