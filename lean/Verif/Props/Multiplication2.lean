import Verif.Lemmas.Samples
import Verif.Props.Multiplication
/-
Multiplication of the native digit types (C25), of zeros (C26), and the sign of a product (C30).
-/
namespace BN
open Bignum

/-! ### C25 -/

/-- Two one-digit operands give a table of two entries. -/
theorem colSum_single (x y : Nat) : colSum [x] [y] 0 = x * y ∧ colSum [x] [y] 1 = 0 := by
  constructor
  · simp [colSum]
  · simp only [colSum, Finset.sum_range_succ, Finset.sum_range_zero]
    simp

/-- Both computed coefficients of a product of two 32-bit digits. -/
theorem single_coefs {F : Type} {o : FloatOps F} (M : Ieee o) {x y : Nat} (hx : x < 2 ^ 32) (hy : y < 2 ^ 32) {i : Nat} (hi : i < 2) :
    M.fin (coefF o 1 [x] [y] i) ∧ |M.val (coefF o 1 [x] [y] i) - (if i = 0 then x * y else 0 : ℕ)| ≤ 2 ^ 20 := by
  have hxr : InRange (2 ^ 32) [x] := by simpa [InRange] using hx
  have hyr : InRange (2 ^ 32) [y] := by simpa [InRange] using hy
  have hxy : x * y ≤ 2 ^ 64 := by
    calc x * y ≤ 2 ^ 32 * 2 ^ 32 := Nat.mul_le_mul hx.le hy.le
      _ = _ := by norm_num
  have hG := gsz_pack (D := 2 ^ 32 - 1) (a := [x]) (b := [y]) (by simpa using hxr) (by simpa using hyr) (2 ^ 1)
  have hG' : gsz (2 ^ 1) (fun t => sig [x] t + Complex.I * sig [y] t) ≤ 2 ^ 66 := by
    refine le_trans hG ?_
    norm_num
  have hce := coefErr_le (k := 1) (K := 1) le_rfl (by norm_num) (G := 2 ^ 66) (G' := 2 ^ 66) (c2 := 2 ^ 64) (by norm_num) le_rfl
    (by norm_num)
  have hE : coefErr 1 (2 ^ 66) (2 ^ 64) ≤ 2 ^ 19 := by
    refine le_trans hce ?_
    norm_num [uro]
  have hxyR : ((x * y : ℕ) : ℝ) ≤ 2 ^ 64 := by exact_mod_cast hxy
  have hcol : colSum [x] [y] i = if i = 0 then x * y else 0 := by
    rcases Nat.lt_succ_iff_lt_or_eq.1 hi with h | h
    · rw [Nat.lt_one_iff.1 h, (colSum_single x y).1]; rfl
    · rw [h, (colSum_single x y).2]; rfl
  have hcb : ((colSum [x] [y] i : ℕ) : ℝ) ≤ 2 ^ 64 := by
    rw [hcol]; split
    · exact hxyR
    · norm_num
  have hr := coef_ok M (k := 1) (a := [x]) (b := [y]) (by norm_num) (by simp)
    (fun d hd => by have := hxr d hd; omega) (fun d hd => by have := hyr d hd; omega) hG' (by norm_num) (c2 := 2 ^ 64)
    (by norm_num) ?_ hE (i := i) (by simpa using hi) ?_
  · refine ⟨hr.1, ?_⟩
    have := hr.2
    rw [← hcol]
    refine le_trans this ?_
    have hu : uro * (((colSum [x] [y] i : ℕ) : ℝ) + 2 ^ 19) ≤ uro * (2 ^ 64 + 2 ^ 19) :=
      mul_le_mul_of_nonneg_left (by linarith) uro_pos.le
    have h3 : uro * (2 ^ 64 + 2 ^ 19) ≤ 2 ^ 18 := by norm_num [uro]
    have h4 := eta_le
    have h5 := uro_le
    linarith
  · rw [show (2 : ℕ) ^ 1 = 2 by norm_num, Finset.sum_range_succ, Finset.sum_range_one, (colSum_single x y).1, (colSum_single x y).2]
    have : (0 : ℝ) ≤ ((x * y : ℕ) : ℝ) := Nat.cast_nonneg _
    push_cast at *
    nlinarith
  · have : (2 : ℝ) ^ 64 + 2 ^ 19 ≤ 2 ^ 190 := by norm_num
    linarith

/-- The computed coefficient 0 of a product of two 32-bit digits. -/
theorem single_coef {F : Type} {o : FloatOps F} (M : Ieee o) {x y : Nat} (hx : x < 2 ^ 32) (hy : y < 2 ^ 32) :
    M.fin (coefF o 1 [x] [y] 0) ∧ |M.val (coefF o 1 [x] [y] 0) - (x * y : ℕ)| ≤ 2 ^ 20 :=
  single_coefs M hx hy (i := 0) (by norm_num)

theorem round_low {v w : ℝ} (s : ℝ) (hs : s ≤ 2 ^ 20) (hv : 2 ^ 53 + s ≤ v) (hw : |w - v| ≤ uro * v) : 2 ^ 53 + s - 2 ≤ w := by
  have h1 : 0 ≤ (1 - uro) * (v - (2 ^ 53 + s)) := mul_nonneg (by norm_num [uro]) (by linarith)
  have h2 : uro * 2 ^ 53 = 1 + 1 / 2 ^ 10 := by norm_num [uro]
  have h3 : uro * s ≤ uro * 2 ^ 20 := mul_le_mul_of_nonneg_left hs uro_pos.le
  have h4 : uro * 2 ^ 20 ≤ 1 := by norm_num [uro]
  have h5 := (abs_le.1 hw).1
  nlinarith

/-- A large coefficient becomes an even integer. -/
theorem big_coef_even {F : Type} {o : FloatOps F} (M : Ieee o) (hM : M.NoExcess) {c : F} (hf : M.fin c) (h1 : 2 ^ 53 + 2 ^ 10 ≤ M.val c)
    (h2 : M.val c ≤ 2 ^ 100) {z : Nat} (hz : o.trunc (o.add (o.ofNat 0) (o.floor (o.add c o.half))) = (z : Int)) : z % 2 = 0 := by
  obtain ⟨fh, vh⟩ := M.half_ok
  have hb := big_ge
  have hbnd : ∀ v : ℝ, 2 ^ 53 ≤ v → v ≤ 2 ^ 102 → |v| = v ∧ |v| ≤ big := by
    intro v h3 h4
    have h5 : (2 : ℝ) ^ 102 ≤ 2 ^ 190 := by norm_num
    have h6 : (0 : ℝ) ≤ v := le_trans (by norm_num) h3
    rw [abs_of_nonneg h6]; exact ⟨rfl, by linarith⟩
  have hbig1 : (2 : ℝ) ^ 100 + 1 ≤ 2 ^ 101 := by norm_num
  have hbig2 : (2 : ℝ) ^ 101 + 2 ^ 101 = 2 ^ 102 := by norm_num
  have h10 : (2 : ℝ) ^ 10 = 1024 := by norm_num
  obtain ⟨a1, a2⟩ := hbnd (M.val c + M.val o.half) (by rw [vh]; linarith) (by rw [vh]; linarith)
  obtain ⟨f1, e1⟩ := M.add_ok c o.half hf fh a2
  rw [a1] at e1
  have l1 := round_low 1024 (by norm_num) (by rw [vh]; linarith) e1
  have hu100 : uro * (M.val c + M.val o.half) ≤ 2 ^ 100 := by
    have : uro * (M.val c + M.val o.half) ≤ uro * (2 ^ 100 + 1) := mul_le_mul_of_nonneg_left (by rw [vh]; linarith) uro_pos.le
    refine le_trans this ?_
    norm_num [uro]
  have u1 : M.val (o.add c o.half) ≤ 2 ^ 101 + 2 ^ 100 := by
    have := (abs_le.1 e1).2
    rw [vh] at this hu100
    linarith
  obtain ⟨f2, e2⟩ := M.floor_ok _ f1
  have l2 := Int.lt_floor_add_one (M.val (o.add c o.half))
  have u2 := Int.floor_le (M.val (o.add c o.half))
  obtain ⟨f0, e0⟩ := M.ofNat_ok 0 (by norm_num)
  have h100 : (2 : ℝ) ^ 100 ≤ 2 ^ 101 := by norm_num
  obtain ⟨a3, a4⟩ := hbnd (M.val (o.ofNat 0) + M.val (o.floor (o.add c o.half))) (by rw [e0, e2]; push_cast; linarith)
    (by rw [e0, e2]; push_cast; linarith)
  obtain ⟨f3, e3⟩ := M.add_ok _ _ f0 f2 a4
  rw [a3] at e3
  have l3 := round_low 1000 (by norm_num) (by rw [e0, e2]; push_cast; linarith) e3
  have hpos : (0 : ℝ) ≤ M.val (o.add (o.ofNat 0) (o.floor (o.add c o.half))) := le_trans (by norm_num) l3
  obtain ⟨m, hm⟩ := hM _ f3 (by rw [abs_of_nonneg hpos]; linarith)
  rw [M.trunc_ok _ f3, if_pos hpos, hm, Int.floor_intCast] at hz
  omega

/-- Default digit type: if the result of multiplying two one-digit numbers whose product is at least 2^54 is defined at all, it is
even, whatever the operands were. -/
theorem C25_highp_even {F : Type} {o : FloatOps F} (M : Ieee o) (hM : M.NoExcess) {env : Env} (hm : env.Ample) {x y : Nat} (hx : x < 2 ^ 32)
    (hy : y < 2 ^ 32) (hxy : 2 ^ 54 ≤ x * y) {d1 d2 : Desc} (hd1 : Signed d1) {fuel : Nat} (hf : 32 < fuel) {z : Bignum}
    (hz : mulAssign o .highp env fuel ⟨d1, [x]⟩ (.other ⟨d2, [y]⟩) = .ok z) : z.mag .highp % 2 = 0 := by
  obtain ⟨hc1, hc2⟩ := single_coef M hx hy
  have hup : x * y ≤ 2 ^ 64 := by
    calc x * y ≤ 2 ^ 32 * 2 ^ 32 := Nat.mul_le_mul hx.le hy.le
      _ = _ := by norm_num
  have hupR : ((x * y : ℕ) : ℝ) ≤ 2 ^ 64 := by exact_mod_cast hup
  have hxyR : (2 : ℝ) ^ 54 ≤ ((x * y : ℕ) : ℝ) := by exact_mod_cast hxy
  have n1 : (2 : ℝ) ^ 53 + 2 ^ 10 ≤ 2 ^ 54 - 2 ^ 20 := by norm_num
  have n2 : (2 : ℝ) ^ 64 + 2 ^ 20 ≤ 2 ^ 100 := by norm_num
  have hv := abs_le.1 hc2
  have hev := fun (w : Nat) => big_coef_even M hM hc1 (by linarith) (by linarith) (z := w)
  unfold mulAssign at hz
  have hc : isComputable d1 = true := by rcases hd1 with e | e <;> rw [e] <;> rfl
  rw [hc] at hz
  simp only [Bool.not_true, Bool.false_eq_true, if_false, Rhs.get] at hz
  have hs : fftTableSize [x].length [y].length = 2 ^ 1 := (by decide : fftTableSize 1 1 = 2 ^ 1)
  rw [pipeline_split o .highp env fuel (hm _), pipeline_eq o (by norm_num) hs hf, ok_bind, tab_map] at hz
  have e : (tab (2 ^ 1) fun i => (ifftF o 1 (pointF o (2 ^ 1) (fftF o 1 (packF o [x] [y]))) i).re) =
      [coefF o 1 [x] [y] 0, coefF o 1 [x] [y] 1] := rfl
  rw [e, carryLoop] at hz
  rcases carryStep_cases o (.inl .highp) 0 (coefF o 1 [x] [y] 0) with e1 | ⟨w, hw, e1⟩
  · rw [e1] at hz; cases hz
  · have hw2 := hev w hw
    rw [e1, ok_bind] at hz
    simp only at hz
    rcases carryLoop_cases o (.inl .highp) [coefF o 1 [x] [y] 1] (w / Limits.highp.base) with e2 | ⟨ds, e2, -, -⟩
    · rw [e2] at hz; cases hz
    · rw [e2, ok_bind, ok_bind, stripTop_eq, ok_bind] at hz
      cases hz
      unfold Bignum.mag
      rw [natOf_trim, natOf_cons]
      have hB : Limits.highp.base = 2 * 2 ^ 31 := by decide
      rw [hB]
      omega

/-- So an odd product of that size is never computed correctly by the default type. -/
theorem C25_highp_odd_wrong {F : Type} {o : FloatOps F} (M : Ieee o) (hM : M.NoExcess) {env : Env} (hm : env.Ample) {x y : Nat} (hx : x < 2 ^ 32)
    (hy : y < 2 ^ 32) (hxy : 2 ^ 54 ≤ x * y) (hodd : x * y % 2 = 1) {d1 d2 : Desc} (hd1 : Signed d1)
    {fuel : Nat} (hf : 32 < fuel) (z : Bignum) (hz : mulAssign o .highp env fuel ⟨d1, [x]⟩ (.other ⟨d2, [y]⟩) = .ok z) :
    z.mag .highp ≠ x * y := by
  have := C25_highp_even M hM hm hx hy hxy hd1 hf hz
  omega

example : 4294967295 < 2 ^ 32 ∧ 2 ^ 54 ≤ 4294967295 * 4294967295 ∧ 4294967295 * 4294967295 % 2 = 1 := by decide

/-- One carry step with a coefficient that is off by up to 2^20. -/
theorem rough_step {F : Type} {o : FloatOps F} (M : Ieee o) {c V : Nat} {q : F} (hq : M.fin q) (hv : |M.val q - (V : ℕ)| ≤ 2 ^ 20)
    (hc : c ≤ 2 ^ 32) (hlo : 2 ^ 21 < c + V) (hhi : c + V ≤ 2 ^ 63 + 2 ^ 32) :
    ∃ w : Nat, carryStep o .highp c q = .ok (w % 2 ^ 32, w / 2 ^ 32) ∧ w ≤ c + V + 2 ^ 21 ∧ c + V ≤ w + 2 ^ 21 := by
  have hv' := abs_le.1 hv
  obtain ⟨fh, vh⟩ := M.half_ok
  have hb := big_ge
  have hVR : ((V : ℕ) : ℝ) ≤ 2 ^ 63 + 2 ^ 32 := by exact_mod_cast (by omega : V ≤ 2 ^ 63 + 2 ^ 32)
  have hV0 : (0 : ℝ) ≤ (V : ℕ) := Nat.cast_nonneg _
  have hcR : ((c : ℕ) : ℝ) ≤ 2 ^ 32 := by exact_mod_cast hc
  have hc0 : (0 : ℝ) ≤ (c : ℕ) := Nat.cast_nonneg _
  have n1 : (2 : ℝ) ^ 63 + 2 ^ 32 + 2 ^ 20 + 1 ≤ 2 ^ 64 := by norm_num
  have n2 : (2 : ℝ) ^ 64 ≤ 2 ^ 190 := by norm_num
  have n3 : uro * (2 : ℝ) ^ 64 ≤ 2 ^ 12 := by norm_num [uro]
  have ha1 : |M.val q + M.val o.half| ≤ 2 ^ 64 := by
    rw [vh, abs_le]; constructor <;> linarith
  obtain ⟨f1, e1⟩ := M.add_ok q o.half hq fh (by linarith)
  have e1' : |M.val (o.add q o.half) - (M.val q + M.val o.half)| ≤ 2 ^ 12 :=
    le_trans e1 (le_trans (mul_le_mul_of_nonneg_left ha1 uro_pos.le) n3)
  have e1'' := abs_le.1 e1'
  rw [vh] at e1''
  obtain ⟨f2, e2⟩ := M.floor_ok _ f1
  have l2 := Int.lt_floor_add_one (M.val (o.add q o.half))
  have u2 := Int.floor_le (M.val (o.add q o.half))
  obtain ⟨f0, e0⟩ := M.ofNat_ok c (le_trans hc (by norm_num))
  have hsum : |M.val (o.ofNat c) + M.val (o.floor (o.add q o.half)) - ((c + V : ℕ) : ℝ)| ≤ 2 ^ 20 + 2 ^ 12 + 2 := by
    rw [e0, e2, abs_le]; push_cast
    constructor <;> linarith
  have hsum' := abs_le.1 hsum
  have hcv : (((c + V : ℕ) : ℕ) : ℝ) ≤ 2 ^ 63 + 2 ^ 32 := by exact_mod_cast hhi
  have hcv0 : ((2 ^ 21 : ℕ) : ℝ) ≤ ((c + V : ℕ) : ℝ) := by exact_mod_cast hlo.le
  have n4 : (2 : ℝ) ^ 63 + 2 ^ 32 + (2 ^ 20 + 2 ^ 12 + 2) ≤ 2 ^ 64 := by norm_num
  have n5 : (0 : ℝ) ≤ ((2 ^ 21 : ℕ) : ℝ) - (2 ^ 20 + 2 ^ 12 + 2) - 2 ^ 12 := by norm_num
  have ha3 : |M.val (o.ofNat c) + M.val (o.floor (o.add q o.half))| ≤ 2 ^ 64 := by
    rw [abs_le]; constructor <;> linarith
  obtain ⟨f3, e3⟩ := M.add_ok _ _ f0 f2 (by linarith)
  have e3' := abs_le.1 (le_trans e3 (le_trans (mul_le_mul_of_nonneg_left ha3 uro_pos.le) n3))
  have hpos : 0 ≤ M.val (o.add (o.ofNat c) (o.floor (o.add q o.half))) := by linarith
  have ht := M.trunc_ok _ f3
  rw [if_pos hpos] at ht
  have l4 := Int.lt_floor_add_one (M.val (o.add (o.ofNat c) (o.floor (o.add q o.half))))
  have u4 := Int.floor_le (M.val (o.add (o.ofNat c) (o.floor (o.add q o.half))))
  obtain ⟨w, hw⟩ := Int.eq_ofNat_of_zero_le (Int.floor_nonneg.2 hpos)
  rw [hw] at l4 u4 ht
  have n6 : (2 : ℝ) ^ 20 + 2 ^ 12 + 2 + 2 ^ 12 + 1 ≤ 2 ^ 21 := by norm_num
  have hw1 : w ≤ c + V + 2 ^ 21 := by
    have : (w : ℝ) ≤ ((c + V + 2 ^ 21 : ℕ) : ℝ) := by
      push_cast at *
      linarith
    exact_mod_cast this
  have hw2 : c + V ≤ w + 2 ^ 21 := by
    have : ((c + V : ℕ) : ℝ) ≤ ((w + 2 ^ 21 : ℕ) : ℝ) := by
      push_cast at *
      linarith
    exact_mod_cast this
  refine ⟨w, ?_, hw1, hw2⟩
  rcases carryStep_cases o (.inl .highp) c q with h | ⟨z, hz, h⟩
  · exfalso
    have hfit : Limits.highp.double.raw.fits (w : Int) = true := by
      have : w < 2 ^ 64 := by omega
      show (cU 64).fits (w : Int) = true
      simp only [CTy.fits, cU, Bool.false_eq_true, if_false]
      exact decide_eq_true ⟨Int.natCast_nonneg _, by exact_mod_cast this⟩
    unfold carryStep floatToDouble at h
    simp only [ht, if_pos hfit, ok_bind, carryDigit_eq (.inl .highp) hfit] at h
    cases h
  · rw [ht] at hz
    have : w = z := by exact_mod_cast hz
    rw [h, this]; rfl

/-- Between 2^54 and 2^63 the product is always defined, so nothing warns the caller, and it is only an approximation. -/
theorem C25_highp_silent {F : Type} {o : FloatOps F} (M : Ieee o) (hM : M.NoExcess) {env : Env} (hm : env.Ample) {x y : Nat}
    (hx : x < 2 ^ 32) (hy : y < 2 ^ 32) (hlo : 2 ^ 54 ≤ x * y) (hhi : x * y ≤ 2 ^ 63) {d1 d2 : Desc} (hd1 : Signed d1) {fuel : Nat} (hf : 32 < fuel) :
    ∃ z, mulAssign o .highp env fuel ⟨d1, [x]⟩ (.other ⟨d2, [y]⟩) = .ok z ∧ z.mag .highp % 2 = 0 ∧
      z.mag .highp ≤ x * y + 2 ^ 54 ∧ x * y ≤ z.mag .highp + 2 ^ 54 := by
  obtain ⟨a1, a2⟩ := single_coefs M hx hy (i := 0) (by norm_num)
  obtain ⟨b1, b2⟩ := single_coefs M hx hy (i := 1) (by norm_num)
  simp only [if_true, if_neg (Nat.one_ne_zero)] at a2 b2
  obtain ⟨w, hw, hw1, hw2⟩ := rough_step M a1 a2 (c := 0) (by norm_num) (by omega) (by omega)
  obtain ⟨v, hv, hv1, hv2⟩ := rough_step M b1 b2 (c := w / 2 ^ 32) (by omega) (by omega) (by omega)
  have hz : mulAssign o .highp env fuel ⟨d1, [x]⟩ (.other ⟨d2, [y]⟩) = .ok ⟨mulSign d1 d2, trim [w % 2 ^ 32, v % 2 ^ 32]⟩ := by
    unfold mulAssign
    have hc : isComputable d1 = true := by rcases hd1 with e | e <;> rw [e] <;> rfl
    rw [hc]
    simp only [Bool.not_true, Bool.false_eq_true, if_false, Rhs.get]
    have hs : fftTableSize [x].length [y].length = 2 ^ 1 := (by decide : fftTableSize 1 1 = 2 ^ 1)
    rw [pipeline_split o .highp env fuel (hm _), pipeline_eq o (by norm_num) hs hf, ok_bind, tab_map]
    have e : (tab (2 ^ 1) fun i => (ifftF o 1 (pointF o (2 ^ 1) (fftF o 1 (packF o [x] [y]))) i).re) =
        [coefF o 1 [x] [y] 0, coefF o 1 [x] [y] 1] := rfl
    rw [e, carryLoop, hw, ok_bind]
    simp only
    rw [carryLoop, hv, ok_bind]
    simp only [carryLoop, ok_bind]
    rw [stripTop_eq, ok_bind]
    rfl
  refine ⟨_, hz, C25_highp_even M hM hm hx hy hlo hd1 hf hz, ?_⟩
  unfold Bignum.mag
  rw [natOf_trim, natOf_cons, natOf_cons]
  have hB : Limits.highp.base = 2 ^ 32 := by decide
  rw [hB]
  simp only [natOf]
  have : v < 2 ^ 32 := by omega
  rw [Nat.mod_eq_of_lt this]
  omega

/-- The square of 2^31 - 1 is returned without any sign of trouble, and it is wrong. -/
example {F : Type} {o : FloatOps F} (M : Ieee o) (hM : M.NoExcess) : ∃ z, mulAssign o .highp releaseEnv 33 ⟨.pos, [2147483647]⟩ (.other ⟨.pos, [2147483647]⟩) = .ok z ∧
    z.mag .highp ≠ 2147483647 * 2147483647 := by
  obtain ⟨z, hz, -⟩ := C25_highp_silent M hM Sample.ample (x := 2147483647) (y := 2147483647) (by decide) (by decide) (by decide) (by decide)
    (d1 := .pos) (d2 := .pos) (.inl rfl) (fuel := 33) (by decide)
  exact ⟨z, hz, C25_highp_odd_wrong M hM Sample.ample (by decide) (by decide) (by decide) (by decide) (.inl rfl) (by decide) z hz⟩

/-- The second column of the square of two largest 32-bit digits does not fit into 64 bits. -/
theorem double_coef {F : Type} {o : FloatOps F} (M : Ieee o) :
    M.fin (coefF o 2 [4294967295, 4294967295] [4294967295, 4294967295] 1) ∧
      2 ^ 64 + 2 ^ 63 ≤ M.val (coefF o 2 [4294967295, 4294967295] [4294967295, 4294967295] 1) ∧
      M.val (coefF o 2 [4294967295, 4294967295] [4294967295, 4294967295] 1) ≤ 2 ^ 66 := by
  have hr : InRange (2 ^ 32) [4294967295, 4294967295] := by simp [InRange]
  have hG := gsz_pack (D := 2 ^ 32 - 1) (a := [4294967295, 4294967295]) (b := [4294967295, 4294967295]) (by simpa using hr) (by simpa using hr) (2 ^ 2)
  have hG' : gsz (2 ^ 2) (fun t => sig [4294967295, 4294967295] t + Complex.I * sig [4294967295, 4294967295] t) ≤ 2 ^ 68 := by
    refine le_trans hG ?_
    norm_num
  have hce := coefErr_le (k := 2) (K := 2) le_rfl (by norm_num) (G := 2 ^ 68) (G' := 2 ^ 68) (c2 := 2 ^ 66) (by norm_num) le_rfl
    (by norm_num)
  have hE : coefErr 2 (2 ^ 68) (2 ^ 66) ≤ 2 ^ 23 := by
    refine le_trans hce ?_
    norm_num [uro]
  have c0 : colSum [4294967295, 4294967295] [4294967295, 4294967295] 0 = 18446744065119617025 := by decide
  have c1 : colSum [4294967295, 4294967295] [4294967295, 4294967295] 1 = 36893488130239234050 := by decide
  have c2 : colSum [4294967295, 4294967295] [4294967295, 4294967295] 2 = 18446744065119617025 := by decide
  have c3 : colSum [4294967295, 4294967295] [4294967295, 4294967295] 3 = 0 := by decide
  have hr := coef_ok M (k := 2) (a := [4294967295, 4294967295]) (b := [4294967295, 4294967295]) (by norm_num) (by simp)
    (fun d hd => by have := hr d hd; omega) (fun d hd => by have := hr d hd; omega) hG' (by norm_num) (c2 := 2 ^ 66)
    (by norm_num) ?_ hE (i := 1) (by norm_num) ?_
  · refine ⟨hr.1, ?_⟩
    have h := hr.2
    rw [c1] at h
    have hu : uro * (((36893488130239234050 : ℕ) : ℝ) + 2 ^ 23) ≤ 2 ^ 18 := by norm_num [uro]
    have h4 := eta_le
    have h5 := uro_le
    have h6 := abs_le.1 h
    norm_num at h6 hu hE ⊢
    constructor <;> linarith
  · rw [show (2 : ℕ) ^ 2 = 4 by norm_num, Finset.sum_range_succ, Finset.sum_range_succ, Finset.sum_range_succ, Finset.sum_range_one, c0, c1, c2, c3]
    norm_num
  · rw [c1]
    norm_num

/-- A digit and a carry come out only if the value fits into the double type. -/
theorem carryStep_bound {F : Type} (o : FloatOps F) {L : Limits} {D : Nat} (hD : L.double.raw = cU D) {c : Nat} {x : F} {z : Nat} {p : Nat × Nat}
    (hz : o.trunc (o.add (o.ofNat c) (o.floor (o.add x o.half))) = (z : Int)) (h : carryStep o L c x = .ok p) : z < 2 ^ D := by
  by_contra hlt
  have hf : L.double.raw.fits (o.trunc (o.add (o.ofNat c) (o.floor (o.add x o.half)))) = false := by
    rw [hz, hD]
    refine decide_eq_false ?_
    rintro ⟨_, h⟩
    have : z < 2 ^ D := by exact_mod_cast h
    exact hlt this
  have : carryStep o L c x = .error (.ub .floatToInt) := by
    unfold carryStep floatToDouble
    simp only [hf]
    rfl
  rw [this] at h
  cases h

/-- 32-bit digits: the same for two digits 4294967295 each. -/
theorem C25_highp_ub {F : Type} {o : FloatOps F} (M : Ieee o) {env : Env} (hm : env.Ample) {fuel : Nat} (hf : 32 < fuel)
    (d : Desc) (hd : Signed d) : mulAssign o .highp env fuel ⟨d, [4294967295, 4294967295]⟩ .self = .ub .floatToInt := by
  obtain ⟨hc1, hc2, hc3⟩ := double_coef M
  have key : ∀ c : Nat, c ≤ 2 ^ 53 → carryStep o .highp c (coefF o 2 [4294967295, 4294967295] [4294967295, 4294967295] 1) = .error (.ub .floatToInt) := by
    intro c hc
    generalize coefF o 2 [4294967295, 4294967295] [4294967295, 4294967295] 1 = q at hc1 hc2 hc3
    obtain ⟨fh, vh⟩ := M.half_ok
    have hb := big_ge
    have hu := uro_le
    have p64 : (2 : ℝ) ^ 64 = 4 * 2 ^ 62 := by norm_num
    have p63 : (2 : ℝ) ^ 63 = 2 * 2 ^ 62 := by norm_num
    have p66 : (2 : ℝ) ^ 66 = 16 * 2 ^ 62 := by norm_num
    have p67 : (2 : ℝ) ^ 67 = 32 * 2 ^ 62 := by norm_num
    have p53 : (2 : ℝ) ^ 53 ≤ 2 ^ 62 / 2 := by norm_num
    have p20 : (2 : ℝ) ^ 20 + 2 ≤ 2 ^ 62 / 16 := by norm_num
    have p190 : 64 * (2 : ℝ) ^ 62 ≤ 2 ^ 190 := by norm_num
    have pp : (1 : ℝ) ≤ 2 ^ 62 := by norm_num
    have hu0 := uro_pos
    obtain ⟨f1, e1⟩ := M.add_ok q o.half hc1 fh (by rw [vh, abs_le]; constructor <;> linarith)
    have hp1 : 0 ≤ M.val q + 1 / 2 := by linarith
    rw [vh, abs_of_nonneg hp1] at e1
    have e1' := abs_le.1 e1
    have n1 : uro * (M.val q + 1 / 2) ≤ 2 ^ 20 := by
      refine le_trans (mul_le_mul_of_nonneg_left (by linarith : M.val q + 1 / 2 ≤ 2 ^ 66 + 1 / 2) hu0.le) ?_
      norm_num [uro]
    obtain ⟨f2, e2⟩ := M.floor_ok _ f1
    have l2 := Int.lt_floor_add_one (M.val (o.add q o.half))
    have u2 := Int.floor_le (M.val (o.add q o.half))
    obtain ⟨f0, e0⟩ := M.ofNat_ok c hc
    have hcR : ((c : ℕ) : ℝ) ≤ 2 ^ 53 := by exact_mod_cast hc
    have hc0 : (0 : ℝ) ≤ (c : ℕ) := Nat.cast_nonneg _
    have hs1 : 2 ^ 64 + 2 ^ 62 ≤ M.val (o.ofNat c) + M.val (o.floor (o.add q o.half)) := by
      rw [e0, e2]; linarith
    have hs2 : M.val (o.ofNat c) + M.val (o.floor (o.add q o.half)) ≤ 2 ^ 67 := by
      rw [e0, e2]; linarith
    obtain ⟨f3, e3⟩ := M.add_ok _ _ f0 f2 (by rw [abs_of_nonneg (by linarith)]; linarith)
    have hp3 : 0 ≤ M.val (o.ofNat c) + M.val (o.floor (o.add q o.half)) := le_trans (by norm_num) hs1
    rw [abs_of_nonneg hp3] at e3
    have n3 : uro * (M.val (o.ofNat c) + M.val (o.floor (o.add q o.half))) ≤ 2 ^ 20 := by
      refine le_trans (mul_le_mul_of_nonneg_left hs2 hu0.le) ?_
      norm_num [uro]
    have e3' := abs_le.1 e3
    have hbig : (2 : ℝ) ^ 64 ≤ M.val (o.add (o.ofNat c) (o.floor (o.add q o.half))) := by linarith
    have ht := M.trunc_ok _ f3
    rw [if_pos (le_trans (by norm_num) hbig)] at ht
    have hge : (2 : ℤ) ^ 64 ≤ o.trunc (o.add (o.ofNat c) (o.floor (o.add q o.half))) := by
      rw [ht]; exact Int.le_floor.2 (by exact_mod_cast hbig)
    have hfit : Limits.highp.double.raw.fits (o.trunc (o.add (o.ofNat c) (o.floor (o.add q o.half)))) = false := by
      show (cU 64).fits _ = false
      refine decide_eq_false ?_
      rintro ⟨_, h⟩
      exact absurd h (not_lt.2 hge)
    unfold carryStep floatToDouble
    simp only [hfit]
    rfl
  have hu : mulStrassen o .highp env fuel [4294967295, 4294967295] [4294967295, 4294967295] = .error (.ub .floatToInt) := by
    rw [pipeline_split o .highp env fuel (hm _), pipeline_eq o (by norm_num) (k := 2) (by decide) hf, ok_bind, tab_map]
    have e : (tab (2 ^ 2) fun i => (ifftF o 2 (pointF o (2 ^ 2) (fftF o 2 (packF o [4294967295, 4294967295] [4294967295, 4294967295]))) i).re) =
        [coefF o 2 [4294967295, 4294967295] [4294967295, 4294967295] 0, coefF o 2 [4294967295, 4294967295] [4294967295, 4294967295] 1,
          coefF o 2 [4294967295, 4294967295] [4294967295, 4294967295] 2, coefF o 2 [4294967295, 4294967295] [4294967295, 4294967295] 3] := rfl
    rw [e, carryLoop]
    rcases carryStep_cases o (.inl .highp) 0 (coefF o 2 [4294967295, 4294967295] [4294967295, 4294967295] 0) with h | ⟨w, hw, h⟩
    · rw [h]; rfl
    · have hwlt : w < 2 ^ 64 := carryStep_bound o (D := 64) rfl hw h
      rw [h, ok_bind]
      simp only
      have hB : Limits.highp.base = 2 ^ 32 := by decide
      rw [carryLoop, key _ (by rw [hB]; omega)]
      rfl
  unfold mulAssign
  have hc : isComputable d = true := by rcases hd with e | e <;> rw [e] <;> rfl
  rw [hc]
  simp only [Bool.not_true, Bool.false_eq_true, if_false]
  show handle _ _ ((mulStrassen o .highp env fuel [4294967295, 4294967295] [4294967295, 4294967295]) >>= _) = _
  rw [hu]; rfl

example {F : Type} {o : FloatOps F} (M : Ieee o) := C25_highp_ub M Sample.ample (fuel := 33) (by decide) .neg (.inr rfl)

/-- C25 fails for each of the three native digit types: there is a number whose square does not come out. -/
theorem C25_refuted {F : Type} {o : FloatOps F} (M : Ieee o) {env : Env} (hm : env.Ample) {L : Limits} (h : L = .lowp ∨ L = .medp ∨ L = .highp) :
    ∃ x, WF L x ∧ ∀ z, Evaluates (fun n => mulAssign o L env n x (.other x)) (.ok z) → z.toInt L ≠ x.toInt L * x.toInt L := by
  have hself : ∀ (L : Limits) (n : Nat) (x : Bignum), mulAssign o L env n x (.other x) = mulAssign o L env n x .self := by
    intro L n x
    unfold mulAssign notComputable
    rcases x with ⟨d, ds⟩
    cases d <;> rfl
  rcases h with rfl | rfl | rfl
  · refine ⟨⟨.pos, [255, 255]⟩, ⟨.inl rfl, by simp [InRange, Limits.base, Limits.lowp], .inl (by simp [NoLeadingZero])⟩, ?_⟩
    rintro z ⟨n, hn⟩ -
    have h1 := hn (n + 33) (by omega)
    simp only [hself] at h1
    rw [C25_lowp_ub M hm (by omega) _ (.inl rfl)] at h1
    cases h1
  · refine ⟨⟨.pos, [65535, 65535]⟩, ⟨.inl rfl, by simp [InRange, Limits.base, Limits.medp], .inl (by simp [NoLeadingZero])⟩, ?_⟩
    rintro z ⟨n, hn⟩ -
    have h1 := hn (n + 33) (by omega)
    simp only [hself] at h1
    rw [C25_medp_ub M hm (by omega) _ (.inl rfl)] at h1
    cases h1
  · refine ⟨⟨.pos, [4294967295, 4294967295]⟩, ⟨.inl rfl, by simp [InRange, Limits.base, Limits.highp], .inl (by simp [NoLeadingZero])⟩, ?_⟩
    rintro z ⟨n, hn⟩ -
    have h1 := hn (n + 33) (by omega)
    simp only [hself] at h1
    rw [C25_highp_ub M hm (by omega) _ (.inl rfl)] at h1
    cases h1

example {F : Type} {o : FloatOps F} (M : Ieee o) := C25_refuted M Sample.ample (.inr (.inr rfl))

/-- What holds for 8-bit digits: one operand has a single digit. -/
theorem C25_lowp_partial {F : Type} {o : FloatOps F} (M : Ieee o) {env : Env} (hm : env.Ample) {x : Bignum} {r : Rhs}
    (hx : WF .lowp x) (hy : WF .lowp (r.get x)) (h1 : 1 ≤ x.digits.length + (r.get x).digits.length)
    (h2 : x.digits.length + (r.get x).digits.length ≤ 2 ^ 25) (h3 : min x.digits.length (r.get x).digits.length ≤ 1) :
    ∃ z, (∀ n, 32 < n → mulAssign o .lowp env n x r = .ok z) ∧ WF .lowp z ∧ NoLeadingZero z.digits ∧
      z.desc = signRule x.desc (r.get x).desc ∧ z.toInt .lowp = x.toInt .lowp * (r.get x).toInt .lowp := by
  refine C24_exact_general M (.inl .lowp) hm hx hy (K := 25) (D := 255) (N := 1) (c2 := (65025 * 5793 : ℕ)) (by norm_num) h1 h2
    (by decide) hx.2.1 hy.2.1 h3 (by decide) (by norm_num) (by norm_num) (Nat.cast_nonneg _) ?_ (by norm_num) ?_
  · have h3 := Nat.mul_le_mul_left (255 ^ 4) (len_mul_le' h2 h3)
    have h4 : (255 ^ 4 * (1 * (1 * 2 ^ 25)) : ℕ) ≤ (65025 * 5793) ^ 2 := by norm_num
    exact_mod_cast Nat.le_trans h3 h4
  · norm_num [errBound, uro, eta]

example {F : Type} {o : FloatOps F} (M : Ieee o) := C25_lowp_partial M Sample.ample (x := ⟨.neg, [255, 255, 255]⟩) (r := .other ⟨.pos, [255]⟩)
  (by sample) (by sample) (by decide) (by decide) (by decide)

/-- What holds for 16-bit digits: one operand has a single digit and the other one at most 2047. -/
theorem C25_medp_partial {F : Type} {o : FloatOps F} (M : Ieee o) {env : Env} (hm : env.Ample) {x : Bignum} {r : Rhs}
    (hx : WF .medp x) (hy : WF .medp (r.get x)) (h1 : 1 ≤ x.digits.length + (r.get x).digits.length)
    (h2 : x.digits.length + (r.get x).digits.length ≤ 2 ^ 11) (h3 : min x.digits.length (r.get x).digits.length ≤ 1) :
    ∃ z, (∀ n, 32 < n → mulAssign o .medp env n x r = .ok z) ∧ WF .medp z ∧ NoLeadingZero z.digits ∧
      z.desc = signRule x.desc (r.get x).desc ∧ z.toInt .medp = x.toInt .medp * (r.get x).toInt .medp := by
  refine C24_exact_general M (.inl .medp) hm hx hy (K := 11) (D := 65535) (N := 1) (c2 := (65535 ^ 2 * 46 : ℕ)) (by norm_num) h1 h2
    (by decide) hx.2.1 hy.2.1 h3 (by decide) (by norm_num) (by norm_num) (Nat.cast_nonneg _) ?_ (by norm_num) ?_
  · have h3 := Nat.mul_le_mul_left (65535 ^ 4) (len_mul_le' h2 h3)
    have h4 : (65535 ^ 4 * (1 * (1 * 2 ^ 11)) : ℕ) ≤ (65535 ^ 2 * 46) ^ 2 := by norm_num
    exact_mod_cast Nat.le_trans h3 h4
  · norm_num [errBound, uro, eta]

example {F : Type} {o : FloatOps F} (M : Ieee o) := C25_medp_partial M Sample.ample (x := ⟨.neg, [65535, 65535]⟩) (r := .other ⟨.pos, [65535]⟩)
  (by sample) (by sample) (by decide) (by decide) (by decide)

/-- What holds for the default type: every digit of both operands is below 2^14 and there are at most 2048 digits together. -/
theorem C25_highp_partial {F : Type} {o : FloatOps F} (M : Ieee o) {env : Env} (hm : env.Ample) {x : Bignum} {r : Rhs}
    (hx : WF .highp x) (hy : WF .highp (r.get x)) (h1 : 1 ≤ x.digits.length + (r.get x).digits.length)
    (h2 : x.digits.length + (r.get x).digits.length ≤ 2 ^ 11) (hxd : InRange (2 ^ 14) x.digits)
    (hyd : InRange (2 ^ 14) (r.get x).digits) :
    ∃ z, (∀ n, 32 < n → mulAssign o .highp env n x r = .ok z) ∧ WF .highp z ∧ NoLeadingZero z.digits ∧
      z.desc = signRule x.desc (r.get x).desc ∧ z.toInt .highp = x.toInt .highp * (r.get x).toInt .highp := by
  refine C24_exact_general M (.inl .highp) hm hx hy (K := 11) (D := 16383) (N := 2 ^ 10) (c2 := (16383 ^ 2 * 2 ^ 15 : ℕ))
    (by norm_num) h1 h2 (by decide) (by simpa using hxd) (by simpa using hyd) (by omega) (by decide) (by norm_num) (by norm_num) (Nat.cast_nonneg _) ?_
    (by norm_num) ?_
  · have h3 := Nat.mul_le_mul_left (16383 ^ 4) (len_mul_le (n := 2 ^ 10) (by omega : _ ≤ 2 * 2 ^ 10))
    have h4 : (16383 ^ 4 * (2 ^ 10 * (2 ^ 10 * 2 ^ 10)) : ℕ) ≤ (16383 ^ 2 * 2 ^ 15) ^ 2 := by norm_num
    exact_mod_cast Nat.le_trans h3 h4
  · norm_num [errBound, uro, eta]

example {F : Type} {o : FloatOps F} (M : Ieee o) := C25_highp_partial M Sample.ample (x := ⟨.neg, [16383, 16383]⟩) (r := .self)
  (by sample) (by sample) (by decide) (by decide) (by sample) (by sample)

/-- ... or both operands are single digits below 2^22. -/
theorem C25_highp_single_partial {F : Type} {o : FloatOps F} (M : Ieee o) {env : Env} (hm : env.Ample) {x : Bignum} {r : Rhs}
    (hx : WF .highp x) (hy : WF .highp (r.get x)) (h1 : 1 ≤ x.digits.length + (r.get x).digits.length)
    (h2 : x.digits.length ≤ 1) (h3 : (r.get x).digits.length ≤ 1) (hxd : InRange (2 ^ 22) x.digits)
    (hyd : InRange (2 ^ 22) (r.get x).digits) :
    ∃ z, (∀ n, 32 < n → mulAssign o .highp env n x r = .ok z) ∧ WF .highp z ∧ NoLeadingZero z.digits ∧
      z.desc = signRule x.desc (r.get x).desc ∧ z.toInt .highp = x.toInt .highp * (r.get x).toInt .highp := by
  refine C24_exact_general M (.inl .highp) hm hx hy (K := 1) (D := 4194303) (N := 1) (c2 := (4194303 ^ 2 : ℕ))
    (by norm_num) h1 (by omega) (by decide) (by simpa using hxd) (by simpa using hyd) (by omega) (by decide) (by norm_num) (by norm_num) (Nat.cast_nonneg _) ?_
    (by norm_num) ?_
  · have h4 : min x.digits.length (r.get x).digits.length * (x.digits.length * (r.get x).digits.length) ≤ 1 * (1 * 1) :=
      Nat.mul_le_mul (by omega) (Nat.mul_le_mul h2 h3)
    have h5 := Nat.mul_le_mul_left (4194303 ^ 4) h4
    have h6 : (4194303 ^ 4 * (1 * (1 * 1)) : ℕ) ≤ (4194303 ^ 2) ^ 2 := by norm_num
    exact_mod_cast Nat.le_trans h5 h6
  · norm_num [errBound, uro, eta]

example {F : Type} {o : FloatOps F} (M : Ieee o) := C25_highp_single_partial M Sample.ample (x := ⟨.neg, [4194303]⟩) (r := .self)
  (by sample) (by sample) (by decide) (by decide) (by decide) (by sample) (by sample)

/-! ### C26 -/

/-- Two operands without digits: the transform of the empty table recurses for ever. -/
theorem C26_zero_times_zero_diverges {F : Type} (o : FloatOps F) (L : Limits) {env : Env} (hm : env.Ample) {d1 d2 : Desc}
    (h1 : Signed d1) : Diverges (fun n => mulAssign o L env n ⟨d1, []⟩ (.other ⟨d2, []⟩)) := by
  intro n
  have hc : isComputable d1 = true := by rcases h1 with e | e <;> rw [e] <;> rfl
  have hs : mulStrassen o L env n [] [] = .error .timeout := by
    rw [pipeline_split o L env n (hm _)]
    have : createFftTable o [] [] = .ok [] := rfl
    rw [this, ok_bind]
    unfold convoluteFft
    rw [fftComplex_nil]; rfl
  unfold mulAssign
  simp only [hc, Bool.not_true, Bool.false_eq_true, if_false]
  show handle _ _ (mulStrassen o L env n [] [] >>= _) = _
  rw [hs]; rfl

example {F : Type} (o : FloatOps F) := C26_zero_times_zero_diverges o .highp Sample.ample (d1 := .neg) (d2 := .pos) (.inr rfl)

/-- C26 is false of the code. -/
theorem C26_refuted {F : Type} (o : FloatOps F) (L : Limits) :
    ¬ ∃ z, Evaluates (fun n => mulAssign o L releaseEnv n Bignum.default (.other Bignum.default)) (.ok z) := by
  rintro ⟨z, n, hn⟩
  have h := hn n le_rfl
  simp only at h
  rw [show mulAssign o L releaseEnv n Bignum.default (.other Bignum.default) = .timeout from
    C26_zero_times_zero_diverges o L (fun _ => rfl) (.inl rfl) n] at h
  cases h

/-- What holds: as soon as one operand has a digit the multiplication terminates, whatever the arithmetic does. -/
theorem C26_terminates_partial {F : Type} (o : FloatOps F) {L : Limits} (h : Supported L) (env : Env) {x : Bignum} {r : Rhs}
    (h1 : 1 ≤ x.digits.length + (r.get x).digits.length) (h2 : x.digits.length + (r.get x).digits.length ≤ 2 ^ 32) {fuel : Nat}
    (hf : 32 < fuel) : mulAssign o L env fuel x r ≠ .timeout := by
  unfold mulAssign
  split
  · simp
  · rcases mulStrassen_cases o h env hf h1 h2 with ⟨-, e⟩ | e | ⟨c, e, -, -⟩ <;> simp only [e] <;> simp [handle, bind, Except.bind]

example : 1 ≤ ([] : List Nat).length + [0].length := by decide

/-! ### C30 -/

/-- The sign of a product that is returned, whatever the arithmetic does. -/
theorem C30_sign {F : Type} (o : FloatOps F) (L : Limits) (env : Env) (fuel : Nat) {x : Bignum} {r : Rhs} (hx : Signed x.desc)
    (hy : Signed (r.get x).desc) {z : Bignum} (hz : mulAssign o L env fuel x r = .ok z) :
    Signed z.desc ∧ (z.desc = .neg ↔ x.desc ≠ (r.get x).desc) := by
  have hc : isComputable x.desc = true := by rcases hx with e | e <;> rw [e] <;> rfl
  unfold mulAssign at hz
  rw [hc] at hz
  simp only [Bool.not_true, Bool.false_eq_true, if_false] at hz
  cases hm : mulStrassen o L env fuel x.digits (r.get x).digits with
  | error f =>
    rw [hm, error_bind] at hz
    unfold handle at hz
    split at hz <;> simp_all
  | ok c =>
    rw [hm, ok_bind] at hz
    obtain rfl := Out.ok.inj hz
    refine ⟨mulSign_mem _ _, ?_⟩
    rcases hx with e1 | e1 <;> rcases hy with e2 | e2 <;> simp [e1, e2, mulSign]

example : ∃ z, ∀ n, 32 < n → mulAssign exactOps .base10 releaseEnv n ⟨.neg, [3]⟩ (.other ⟨.pos, [2, 1]⟩) = .ok z :=
  (C22_exact_product (.inr ⟨32, 9, by norm_num, by norm_num, by norm_num, rfl⟩) (fun _ => rfl)
    (r := .other ⟨.pos, [2, 1]⟩)
    ⟨.inr rfl, by simp [InRange, Limits.base, Limits.custom], .inl (by simp [NoLeadingZero])⟩
    ⟨.inl rfl, by simp [InRange, Limits.base, Limits.custom, Rhs.get], .inl (by simp [NoLeadingZero, Rhs.get])⟩
    (by simp) (by simp [Rhs.get]) (by decide)).imp fun _ h => h.1

end BN
