import Verif.Lemmas.Samples
import Verif.Props.Subtraction
import Verif.Props.MulColumns
import Verif.Props.MulThreshold
import Verif.Props.Multiplication2
/-
C123: which bases fit a digit type.
-/
namespace BN

open Bignum

/-- Two digits whose sum does not fit the type: the sum wraps around and is not recognised as a carry. -/
theorem addDigit_over {w max : Nat} (hw : IsWidth w) (h1 : 2 ^ w ≤ 2 * max) (h2 : max < 2 ^ w) :
    addDigit (.custom w max) max ((Limits.custom w max).dbl max) ((Limits.custom w max).sgl 0) =
      .ok (2 * max - 2 ^ w, (Limits.custom w max).sgl 0) := by
  rcases hw with rfl | rfl | rfl | rfl
  · unfold addDigit
    lim; cB .add; lim
    rw [emod_of_ge (by omega) (by omega)]
    cB .add; lim; kI; lim
    rw [if_neg (by omega)]
    simp only [Except.ok.injEq, Prod.mk.injEq, and_true]; omega
  · unfold addDigit
    lim; cB .add; lim
    rw [emod_of_ge (by omega) (by omega)]
    cB .add; lim; kI; lim
    rw [if_neg (by omega)]
    simp only [Except.ok.injEq, Prod.mk.injEq, and_true]; omega
  · unfold addDigit
    lim; cB .add; lim
    rw [emod_of_ge (by omega) (by omega)]
    cB .add; lim; kU 32; lim
    rw [if_neg (by omega)]
    simp only [Except.ok.injEq, Prod.mk.injEq, and_true]; omega
  · unfold addDigit
    lim; cB .add; lim
    rw [emod_of_ge (by omega) (by omega)]
    cB .add; lim; kU 64; lim
    rw [if_neg (by omega)]
    simp only [Except.ok.injEq, Prod.mk.injEq, and_true]; omega

/-- A borrow that is not recognised. -/
theorem subDigit_over {w max : Nat} (hw : IsWidth w) (h1 : 2 ^ w ≤ 2 * max) (h2 : max < 2 ^ w) :
    subDigit (.custom w max) 0 ((Limits.custom w max).dbl max) ((Limits.custom w max).dbl 0) =
      .ok (2 ^ w - max, (Limits.custom w max).dbl 0) := by
  have key : ∀ b : Int, (max : Int) < b → 0 < max → (0 - 0 - (max : Int)) % b = b - max := by
    intro b hb h0
    rw [← Int.add_emod_right, Int.emod_eq_of_lt (by omega) (by omega)]; omega
  rcases hw with rfl | rfl | rfl | rfl
  · unfold subDigit
    lim; cB .sub; lim; cB .sub; lim
    rw [key 256 (by omega) (by omega)]
    kI; lim
    rw [if_neg (by omega)]
    simp only [Except.ok.injEq, Prod.mk.injEq, and_true]; omega
  · unfold subDigit
    lim; cB .sub; lim; cB .sub; lim
    rw [key 65536 (by omega) (by omega)]
    kI; lim
    rw [if_neg (by omega)]
    simp only [Except.ok.injEq, Prod.mk.injEq, and_true]; omega
  · unfold subDigit
    lim; cB .sub; lim; cB .sub; lim
    rw [key 4294967296 (by omega) (by omega)]
    kU 32; lim
    rw [if_neg (by omega)]
    simp only [Except.ok.injEq, Prod.mk.injEq, and_true]; omega
  · unfold subDigit
    lim; cB .sub; lim; cB .sub; lim
    rw [key 18446744073709551616 (by omega) (by omega)]
    kU 64; lim
    rw [if_neg (by omega)]
    simp only [Except.ok.injEq, Prod.mk.injEq, and_true]; omega

theorem custom_conv {w max d : Nat} (hw : IsWidth w) (hd : d < 2 ^ w) :
    ((Limits.custom w max).digit d).conv (Limits.custom w max).double = (Limits.custom w max).dbl d := by
  rcases hw with rfl | rfl | rfl | rfl <;> lim

theorem custom_zero {w max : Nat} (hw : IsWidth w) : (Limits.custom w max).toSingle 0 = (Limits.custom w max).sgl 0 ∧
    (Limits.custom w max).toDouble 0 = (Limits.custom w max).dbl 0 ∧ ((Limits.custom w max).sgl 0).truthy = false := by
  rcases hw with rfl | rfl | rfl | rfl <;> exact ⟨rfl, rfl, rfl⟩

/-- `a += a` of the one-digit number whose digit is the largest of a base above `2 ^ (w - 1)`: the value wraps around. -/
theorem add_over {w max : Nat} (hw : IsWidth w) (h1 : 2 ^ w ≤ 2 * max) (h2 : max < 2 ^ w) (env : Env) {fuel : Nat} (hf : 0 < fuel) :
    Bignum.addAssign (.custom w max) env fuel ⟨.pos, [max]⟩ (.other ⟨.pos, [max]⟩) = .ok ⟨.pos, [2 * max - 2 ^ w]⟩ := by
  obtain ⟨k, rfl⟩ : ∃ k, fuel = k + 1 := ⟨fuel - 1, by omega⟩
  rw [addAssign_signed (.inl rfl), addTry_same (.inl rfl) rfl]
  have hd := addDigit_over hw h1 h2
  unfold absAdd
  obtain ⟨z1, z2, z3⟩ := custom_zero (max := max) hw
  have e : addBody (.custom w max) env (.other [max]) ⟨[max], 0, 0, (Limits.custom w max).sgl 0⟩ =
      .ok (⟨[2 * max - 2 ^ w], 1, 1, (Limits.custom w max).sgl 0⟩, true) := by
    simp [addBody, growTo, Src.get, digitOrZero, Vec.rd, Vec.wr, ok_bind, custom_conv hw h2, hd, z3]
  rw [z1]
  simp only [Rhs.src, loopForever, e, ok_bind]
  rfl

theorem subDigit_one {w max : Nat} (hw : IsWidth w) (h1 : 1 ≤ max) (h2 : max < 2 ^ w) :
    subDigit (.custom w max) 1 ((Limits.custom w max).dbl 0) ((Limits.custom w max).dbl 0) =
      .ok (1, (Limits.custom w max).dbl 0) := by
  rcases hw with rfl | rfl | rfl | rfl
  · unfold subDigit
    lim; cB .sub; lim; cB .sub; lim
    kI; lim
    rw [if_neg (by omega)]
    rfl
  · unfold subDigit
    lim; cB .sub; lim; cB .sub; lim
    kI; lim
    rw [if_neg (by omega)]
    rfl
  · unfold subDigit
    lim; cB .sub; lim; cB .sub; lim
    kU 32; lim
    rw [if_neg (by omega)]
    rfl
  · unfold subDigit
    lim; cB .sub; lim; cB .sub; lim
    kU 64; lim
    rw [if_neg (by omega)]
    rfl

/-- `b - m` where `b` is the base and `m` its largest digit: the borrow is lost. -/
theorem sub_over {w max : Nat} (hw : IsWidth w) (h1 : 2 ^ w ≤ 2 * max) (h2 : max < 2 ^ w) (env : Env)
    {fuel : Nat} (hf : 1 < fuel) :
    Bignum.subAssign (.custom w max) env fuel ⟨.pos, [0, 1]⟩ (.other ⟨.pos, [max]⟩) = .ok ⟨.pos, [2 ^ w - max, 1]⟩ := by
  obtain ⟨k, rfl⟩ : ∃ k, fuel = k + 2 := ⟨fuel - 2, by omega⟩
  rw [subAssign_signed (.inl rfl), subTry_same (.inl rfl) rfl]
  have hs := subDigit_over hw h1 h2
  have hs1 := subDigit_one hw (max := max) (by have := Nat.one_le_two_pow (n := w); omega) h2
  obtain ⟨z1, z2, z3⟩ := custom_zero (max := max) hw
  have e0 : subBody (.custom w max) (.other [max]) ⟨[0, 1], 0, 0, (Limits.custom w max).dbl 0⟩ =
      .ok (⟨[2 ^ w - max, 1], 1, 1, (Limits.custom w max).dbl 0⟩, false) := by
    simp [subBody, Src.get, digitOrZero, Vec.rd, Vec.wr, ok_bind, custom_conv hw h2, hs]
  have e1 : subBody (.custom w max) (.other [max]) ⟨[2 ^ w - max, 1], 1, 1, (Limits.custom w max).dbl 0⟩ =
      .ok (⟨[2 ^ w - max, 1], 2, 2, (Limits.custom w max).dbl 0⟩, true) := by
    simp [subBody, Src.get, digitOrZero, Vec.rd, Vec.wr, ok_bind, z2, hs1]
  have e2 : absSub (.custom w max) env (k + 2) [0, 1] (.other [max]) = .ok [2 ^ w - max, 1] := by
    unfold absSub
    rw [subDebugCheck_eq, if_neg (by simp [Src.get]), ok_bind, z2]
    simp only [loopForever, e0, e1, ok_bind]
    rfl
  unfold magDiff
  simp only [Rhs.src, Rhs.get, e2]
  rfl

theorem custom_of {w max : Nat} (hw : IsWidth w) (h0 : 1 ≤ max) (h : 2 * (max + 1) ≤ 2 ^ w) : Supported (.custom w max) := by
  refine .inr ⟨w, max, ?_, h0, by omega, rfl⟩
  rcases hw with rfl | rfl | rfl | rfl <;> norm_num

theorem wf_one {L : Limits} {d : Nat} (h0 : 0 < d) (hd : d < L.base) : WF L ⟨.pos, [d]⟩ := by
  refine ⟨.inl rfl, by simpa [InRange] using hd, .inl ?_⟩
  simp [NoLeadingZero]; omega

/-- Addition is right for all numbers with digits exactly when twice the base still fits the digit type. -/
theorem C123_add {w max : Nat} (hw : IsWidth w) (h0 : 1 ≤ max) (h1 : max < 2 ^ w) {env : Env} (hm : env.Ample) (hd : env.debug = false) :
    (∀ a b : Bignum, WF (.custom w max) a → WF (.custom w max) b → a.digits ≠ [] → b.digits ≠ [] →
      ∃ c, Evaluates (fun n => a.addAssign (.custom w max) env n (.other b)) (.ok c) ∧ WF (.custom w max) c ∧
        c.toInt (.custom w max) = a.toInt (.custom w max) + b.toInt (.custom w max)) ↔ 2 * (max + 1) ≤ 2 ^ w := by
  constructor
  · intro h
    by_contra hc
    have he : 2 ^ w ≤ 2 * max := by rcases hw with rfl | rfl | rfl | rfl <;> omega
    have hb : (Limits.custom w max).base = max + 1 := rfl
    have hwf := wf_one (L := .custom w max) (d := max) (by omega) (by rw [hb]; omega)
    obtain ⟨c, ⟨n, h2⟩, -, h3⟩ := h _ _ hwf hwf (by simp) (by simp)
    have e := (h2 (n + 1) (by omega)).symm.trans (add_over hw he h1 env (fuel := n + 1) (by omega))
    obtain rfl := Out.ok.inj e
    simp [Bignum.toInt, mag, natOf] at h3
    omega
  · intro h a b ha hb ha0 hb0
    exact C09_add_exact (custom_of hw h0 h) hm hd (r := .other b) ha hb fun he => ha0 he.2.1

example := C123_add (w := 8) (max := 199) (.inl rfl) (by norm_num) (by norm_num) Sample.ample rfl

/-- Subtraction of numbers of the same sign likewise. -/
theorem C123_sub {w max : Nat} (hw : IsWidth w) (h0 : 1 ≤ max) (h1 : max < 2 ^ w) {env : Env} (hm : env.Ample) (hd : env.debug = false) :
    (∀ a b : Bignum, WF (.custom w max) a → WF (.custom w max) b → a.digits ≠ [] → b.desc = a.desc →
      ∃ c, Evaluates (fun n => a.subAssign (.custom w max) env n (.other b)) (.ok c) ∧ WF (.custom w max) c ∧
        c.toInt (.custom w max) = a.toInt (.custom w max) - b.toInt (.custom w max)) ↔ 2 * (max + 1) ≤ 2 ^ w := by
  constructor
  · intro h
    by_contra hc
    have he : 2 ^ w ≤ 2 * max := by rcases hw with rfl | rfl | rfl | rfl <;> omega
    have hb : (Limits.custom w max).base = max + 1 := rfl
    have hwf := wf_one (L := .custom w max) (d := max) (by omega) (by rw [hb]; omega)
    have hwa : WF (.custom w max) ⟨.pos, [0, 1]⟩ := by
      refine ⟨.inl rfl, ?_, .inl (by simp [NoLeadingZero])⟩
      simp [InRange, hb]; omega
    obtain ⟨c, ⟨n, h2⟩, -, h3⟩ := h _ _ hwa hwf (by simp) rfl
    have e := (h2 (n + 2) (by omega)).symm.trans (sub_over hw he h1 env (fuel := n + 2) (by omega))
    obtain rfl := Out.ok.inj e
    simp [Bignum.toInt, mag, natOf, hb] at h3
    omega
  · intro h a b ha hb ha0 hs
    obtain ⟨c, h1, h2, -, h3⟩ := C15_sub_same_sign_exact (custom_of hw h0 h) hm hd (r := .other b) ha hb hs fun he => ha0 he.1
    exact ⟨c, h1, h2, h3⟩

example := C123_sub (w := 16) (max := 9999) (.inr (.inl rfl)) (by norm_num) (by norm_num) Sample.ample rfl

/-- Products of one-digit numbers are right exactly when the square of the base fits the digit type. -/
theorem C123_mul {F : Type} {o : FloatOps F} (M : Ieee o) {w max : Nat} (hw : w = 8 ∨ w = 16 ∨ w = 32) (h0 : 1 ≤ max)
    (h1 : 2 * (max + 1) ≤ 2 ^ w) {env : Env} (hm : env.Ample) :
    AllExact o (.custom w max) env 1 1 ↔ (max + 1) * (max + 1) ≤ 2 ^ w := by
  have hW : IsWidth w := by rcases hw with rfl | rfl | rfl <;> simp [IsWidth]
  have hS := custom_of hW h0 h1
  obtain ⟨m, hm2, hm16⟩ : ∃ m, w = 2 * m ∧ m ≤ 16 := by
    rcases hw with rfl | rfl | rfl
    exacts [⟨4, rfl, by norm_num⟩, ⟨8, rfl, by norm_num⟩, ⟨16, rfl, by norm_num⟩]
  have hraw : (Limits.custom w max).double.raw = cU w := by rcases hw with rfl | rfl | rfl <;> rfl
  have hsq : 2 ^ w = 2 ^ m * 2 ^ m := by rw [hm2, two_mul, pow_add]
  have hm65 : 2 ^ m ≤ 65536 := Nat.pow_le_pow_right (by omega) hm16 |>.trans (by norm_num)
  have hiff : (max + 1) * (max + 1) ≤ 2 ^ w ↔ max < 2 ^ m := by
    rw [hsq]
    exact Nat.mul_self_le_mul_self_iff
  have hb : (Limits.custom w max).base = max + 1 := rfl
  have key : ∀ {x : Bignum} {y : Bignum} {D : Nat}, D ≤ 65536 → D ≤ max → x.digits.length = 1 → y.digits.length = 1 → Signed x.desc →
      Signed y.desc → InRange (D + 1) x.digits → InRange (D + 1) y.digits → DecidedByColumns o (.custom w max) env w x (.other y) := by
    intro x y D hD hDm hx1 hy1 hx hy hxd hyd
    have hD2 : D * D ≤ 2 ^ 32 := (Nat.mul_le_mul hD hD).trans (by norm_num)
    have hDR : ((D : ℝ)) ^ 2 ≤ 2 ^ 32 := by rw [pow_two]; exact_mod_cast hD2
    refine C68_general M hS hraw (hm _) hx hy (K := 0) (D := D) (c2 := D ^ 2) (by norm_num) ?_ ?_ ?_ hxd hyd (by omega) ?_ ?_ ?_ ?_
    · show 1 ≤ x.digits.length + y.digits.length; omega
    · show x.digits.length + y.digits.length ≤ _; omega
    · rw [hb]; omega
    · have : D * (D + 1) = D * D + D := by ring
      rw [this]; norm_num; omega
    · apply le_of_eq; ring
    · norm_num; nlinarith
    · unfold errBound
      push_cast
      generalize (D : ℝ) ^ 2 = t at hDR
      norm_num [uro, eta]
      linarith
  rw [hiff]
  constructor
  · intro h
    by_contra hc
    have hwf := wf_one (L := .custom w max) (d := 2 ^ m) (Nat.two_pow_pos m) (by rw [hb]; omega)
    have hr : InRange (2 ^ m + 1) [2 ^ m] := by simp [InRange]
    have h2 := (key (x := ⟨.pos, [2 ^ m]⟩) (y := ⟨.pos, [2 ^ m]⟩) hm65 (by omega) rfl rfl (.inl rfl) (.inl rfl) hr hr).2
      ⟨0, by simp, by rw [columnTotal_zero]; simp only [Rhs.get]; rw [(colSum_single _ _).1, hsq]⟩
    obtain ⟨z, ⟨n, h3⟩, -⟩ := h _ _ hwf hwf rfl rfl
    have := (h3 (n + 33) (by omega)).symm.trans (h2 (n + 33) (by omega))
    cases this
  · intro h x y hx hy hx1 hy1
    obtain ⟨z, h2, -, -, -, h3⟩ := (key (x := x) (y := y) (D := max) (by omega) le_rfl hx1 hy1 hx.1 hy.1 hx.2.1 hy.2.1).1 (by
      intro j hj
      simp only [Rhs.get, hx1, hy1] at hj ⊢
      obtain ⟨a, ha⟩ := List.length_eq_one_iff.1 hx1
      obtain ⟨b, hb'⟩ := List.length_eq_one_iff.1 hy1
      have hxr := hx.2.1
      have hyr := hy.2.1
      rw [ha, hb] at hxr
      rw [hb', hb] at hyr
      have hct := columnTotal_le hxr hyr (B := max + 1) (by omega) 0
      rw [ha, hb', hb]
      obtain rfl | rfl : j = 0 ∨ j = 1 := by omega
      · rw [columnTotal_zero, (colSum_single a b).1, hsq]
        have h5 : a < max + 1 := by simpa [InRange] using hxr
        have h6 : b < max + 1 := by simpa [InRange] using hyr
        exact Nat.mul_lt_mul'' (by omega) (by omega)
      · rw [columnTotal_succ (by omega), (colSum_single a b).2]
        simp at hct
        omega)
    exact ⟨z, ⟨33, fun n hn => h2 n (by omega)⟩, h3⟩

example {F : Type} {o : FloatOps F} (M : Ieee o) := C123_mul M (w := 8) (max := 19) (.inl rfl) (by norm_num) (by norm_num) Sample.ample

end BN
