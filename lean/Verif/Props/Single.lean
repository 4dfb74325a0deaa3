import Verif.Lemmas.PrecErr4
import Verif.Lemmas.PrecErr5
import Verif.Props.FourierApi
import Verif.Props.Excess
/-
C135, C136: the transforms and the convolution with `float`. C137: with `long double`.
-/
namespace BN
open Complex Finset

/-! ### The format -/

/-- binary32 has room for transforms of up to 2^24 entries. -/
noncomputable def FP.single : FP.Prec where
  toFormat := .single
  K := 24
  A := 2 ^ 58
  B := 2 ^ 45
  u_pos := by norm_num [Format.single]
  u_le := by norm_num [Format.single]
  eta_pos := by norm_num [Format.single]
  eta_le := by norm_num [Format.single]
  big_ge := by norm_num [Format.single]
  A_ge := by norm_num
  B_pos := by norm_num
  B_le := by norm_num
  K_le := by norm_num
  K_N := by norm_num [Format.single]
  N_le := by norm_num [Format.single]

/-! ### What `float` code computes -/

/-- A number together with its type: `double` or `float`. -/
structure Typed where
  val : ℝ
  dbl : Bool

/-- Significant bits of the type. -/
def Typed.bits (d : Bool) : ℕ := if d then 53 else 24

theorem Typed.one_le_bits (d : Bool) : 1 ≤ Typed.bits d := by cases d <;> decide

/-- The usual arithmetic conversions: an operation is done in `double` if one of its operands is a `double`, else in `float`. -/
noncomputable def Typed.op (f : ℝ → ℝ → ℝ) (x y : Typed) : Typed :=
  ⟨nearest (Typed.bits (x.dbl || y.dbl)) (Typed.one_le_bits _) (f x.val y.val), x.dbl || y.dbl⟩

/-- A value stored in a `float`. -/
noncomputable def toFloat (v : ℝ) : ℝ := nearest 24 (by norm_num) v

/-- The operations of `fft_complex<float>` and its companions with the types the language gives them (fourier_impl.h:40-170 with
`flt_t` = `float`): the literals `-2.0` and `0.5` are `double`s, so the angle is computed in `double` and becomes a `float` when it is
stored in `w`; everything else is done in `float`. The exponents are not bounded. -/
noncomputable def floatOps (cosR sinR : ℝ → ℝ) : FloatOps Typed where
  ofNat n := ⟨toFloat n, false⟩
  add := Typed.op (· + ·)
  sub := Typed.op (· - ·)
  mul := Typed.op (· * ·)
  mulSub x y z w := Typed.op (· - ·) (Typed.op (· * ·) x y) (Typed.op (· * ·) z w)
  mulAdd x y z w := Typed.op (· + ·) (Typed.op (· * ·) x y) (Typed.op (· * ·) z w)
  div := Typed.op (· / ·)
  neg x := ⟨-x.val, x.dbl⟩
  cos w := ⟨cosR (toFloat w.val), false⟩
  sin w := ⟨sinR (toFloat w.val), false⟩
  floor x := ⟨(⌊x.val⌋ : ℤ), x.dbl⟩
  trunc x := if 0 ≤ x.val then ⌊x.val⌋ else ⌈x.val⌉
  pi := ⟨13176795 / 2 ^ 22, false⟩
  negTwo := ⟨-2, true⟩
  half := ⟨1 / 2, true⟩
  quarter := ⟨1 / 4, false⟩

/-- The library's functions for `float` are within 2^-24 on [-4, 4] (a rounding error near 1). -/
def AccurateF (cosR sinR : ℝ → ℝ) : Prop :=
  ∀ x, |x| ≤ 4 → |cosR x - Real.cos x| ≤ 1 / 2 ^ 24 ∧ |sinR x - Real.sin x| ≤ 1 / 2 ^ 24

theorem op_err (f : ℝ → ℝ → ℝ) (x y : Typed) :
    |(Typed.op f x y).val - f x.val y.val| ≤ Format.single.u * |f x.val y.val| := by
  have hv := abs_nonneg (f x.val y.val)
  have h := nearest_err (Typed.one_le_bits (x.dbl || y.dbl)) (nearest_spec _ (Typed.one_le_bits (x.dbl || y.dbl)) (f x.val y.val))
  refine h.trans ?_
  cases (x.dbl || y.dbl)
  · simp only [Typed.bits, Format.single]
    norm_num
    linarith
  · simp only [Typed.bits, Format.single]
    norm_num
    linarith

theorem op_int {f : ℝ → ℝ → ℝ} {x y : Typed} {n : ℤ} (h : f x.val y.val = n) (hn : |n| ≤ 2 ^ 24) : (Typed.op f x y).val = n := by
  have h1 := nearest_spec _ (Typed.one_le_bits (x.dbl || y.dbl)) (f x.val y.val)
  have h2 : HasBits (Typed.bits (x.dbl || y.dbl)) (f x.val y.val) := by
    rw [h]
    refine hasBits_mono (p := 24) ?_ (hasBits_int hn)
    cases (x.dbl || y.dbl) <;> decide
  have := nearest_exact h2 h1
  rw [← h]; exact this

theorem toFloat_int {n : ℤ} (hn : |n| ≤ 2 ^ 24) : toFloat n = n :=
  nearest_exact (hasBits_int hn) (nearest_spec 24 (by norm_num) _)

/-- Storing an angle. -/
theorem toFloat_angle {x : ℝ} (hx : |x| ≤ 4) : |toFloat x - x| ≤ 2 / 2 ^ 24 ∧ |toFloat x| ≤ 4 := by
  have h1 := nearest_spec 24 (by norm_num) x
  have hr := abs_sub_round (x * 2 ^ 22)
  have hx' := abs_le.1 hx
  have hr' := abs_le.1 hr
  have hm : |round (x * 2 ^ 22)| ≤ 2 ^ 24 := by
    have a1 : ((round (x * 2 ^ 22) : ℤ) : ℝ) < 2 ^ 24 + 1 := by norm_num at *; linarith
    have a2 : -(2 ^ 24 + 1) < ((round (x * 2 ^ 22) : ℤ) : ℝ) := by norm_num at *; linarith
    have b1 : round (x * 2 ^ 22) < 2 ^ 24 + 1 := by exact_mod_cast a1
    have b2 : -(2 ^ 24 + 1) < round (x * 2 ^ 22) := by exact_mod_cast a2
    rw [abs_le]; omega
  have hs : HasBits 24 ((round (x * 2 ^ 22) : ℤ) * 2 ^ (-22 : ℤ)) := ⟨_, _, rfl, hm⟩
  have h2 := h1.2 _ hs
  have e : ((round (x * 2 ^ 22) : ℤ) : ℝ) * 2 ^ (-22 : ℤ) - x = -(x * 2 ^ 22 - round (x * 2 ^ 22)) / 2 ^ 22 := by
    rw [zpow_neg, show (22 : ℤ) = ((22 : ℕ) : ℤ) by rfl, zpow_natCast]; field_simp; ring
  rw [e, abs_div, abs_neg, abs_of_pos (by positivity : (0 : ℝ) < 2 ^ 22)] at h2
  have h3 : |toFloat x - x| ≤ 2 / 2 ^ 24 := by
    refine h2.trans ?_
    rw [div_le_iff₀ (by positivity)]
    norm_num at hr ⊢
    linarith
  refine ⟨h3, ?_⟩
  -- 4 and -4 are representable, so rounding does not cross them
  have p4 := h1.2 4 ⟨4, 0, by norm_num, by norm_num⟩
  have m4 := h1.2 (-4) ⟨-4, 0, by norm_num, by norm_num⟩
  rw [abs_of_nonneg (by linarith : (0 : ℝ) ≤ 4 - x)] at p4
  rw [abs_of_nonpos (by linarith : -4 - x ≤ (0 : ℝ))] at m4
  have p := abs_le.1 p4
  have m := abs_le.1 m4
  change |nearest 24 _ x| ≤ 4
  rw [abs_le]
  constructor <;> linarith

/-- The rounding laws hold of it, with the unit roundoff of `float`. -/
noncomputable def floatLaws {cosR sinR : ℝ → ℝ} (h : AccurateF cosR sinR) : Laws .single (floatOps cosR sinR) where
  val := Typed.val
  fin _ := True
  ofNat_ok n hn := ⟨trivial, by
    have := toFloat_int (n := (n : ℤ)) (by rw [abs_of_nonneg (by positivity)]; exact_mod_cast hn)
    rwa [Int.cast_natCast] at this⟩
  add_ok x y _ _ _ := ⟨trivial, op_err _ x y⟩
  sub_ok x y _ _ _ := ⟨trivial, op_err _ x y⟩
  mul_ok x y _ _ _ := ⟨trivial, (op_err _ x y).trans (le_add_of_nonneg_right (by norm_num [Format.single]))⟩
  mulSub_ok _ _ _ _ _ _ _ _ _ _ := .inl rfl
  mulAdd_ok _ _ _ _ _ _ _ _ _ _ := .inl rfl
  div_ok x y _ _ _ _ := ⟨trivial, (op_err _ x y).trans (le_add_of_nonneg_right (by norm_num [Format.single]))⟩
  neg_ok _ _ := ⟨trivial, rfl⟩
  cos_ok x _ hx := ⟨trivial, by
    obtain ⟨h1, h2⟩ := toFloat_angle hx
    have h3 := (h _ h2).1
    have h4 := Real.abs_cos_sub_cos_le (toFloat x.val) x.val
    refine (abs_sub_le _ (Real.cos (toFloat x.val)) _).trans ((add_le_add h3 (h4.trans h1)).trans ?_)
    norm_num [Format.single]⟩
  sin_ok x _ hx := ⟨trivial, by
    obtain ⟨h1, h2⟩ := toFloat_angle hx
    have h3 := (h _ h2).2
    have h4 := Real.abs_sin_sub_sin_le (toFloat x.val) x.val
    refine (abs_sub_le _ (Real.sin (toFloat x.val)) _).trans ((add_le_add h3 (h4.trans h1)).trans ?_)
    norm_num [Format.single]⟩
  floor_ok _ _ := ⟨trivial, rfl⟩
  trunc_ok _ _ := rfl
  pi_ok := ⟨trivial, by
    have h1 := Real.pi_gt_d20
    have h2 := Real.pi_lt_d20
    simp only [floatOps, Format.single]
    rw [abs_le]
    norm_num at h1 h2 ⊢
    constructor <;> linarith⟩
  negTwo_ok := ⟨trivial, rfl⟩
  half_ok := ⟨trivial, rfl⟩
  quarter_ok := ⟨trivial, rfl⟩
  addInt_ok x y m n _ _ hx hy hb := ⟨trivial, by
    refine op_int ?_ hb
    rw [hx, hy, Int.cast_add]⟩


theorem accurateF_exact : AccurateF Real.cos Real.sin := fun x _ => by
  constructor <;> · simp only [sub_self, abs_zero]; positivity

/-! ### C135 -/

section
variable {F : Type} {o : FloatOps F} (M : Laws .single o)

theorem energy_gsz' {f : Format} (M : Laws f o) {k : ℕ} {x : List (Cx F)} (h : x.length = 2 ^ k) (d : Cx F) :
    energy (x.map M.c) + 2 ^ k = gsz (2 ^ k) (fun t => M.c (x.getD t d)) := by
  rw [gsz_eq]
  unfold energy
  push_cast
  congr 1
  rw [List.length_map, h]
  exact sum_congr rfl fun t ht => by rw [getD_map_lt M.c d (by rw [h]; exact mem_range.1 ht)]

theorem finC_getD' {f : Format} (M : Laws f o) {k : ℕ} {x : List (Cx F)} (h : x.length = 2 ^ k) (hf : ∀ c ∈ x, M.finC c) (d : Cx F) :
    ∀ t < 2 ^ k, M.finC (x.getD t d) := by
  intro t ht
  rw [List.getD_eq_getElem _ _ (by omega)]
  exact hf _ (List.getElem_mem _)

/-- In single precision the root-mean-square error of the transform of `2^k` points is at most `31·k` units of roundoff (2^-24 and a
little) times the size of the data. -/
theorem C135_fft_error {k : ℕ} (hk : k ≤ 24) {x : List (Cx F)} (h : x.length = 2 ^ k) (hf : ∀ c ∈ x, M.finC c)
    (hb : 2 ^ k * (energy (x.map M.c) + 2 ^ k) ≤ 2 ^ 116) :
    ∃ y, (∀ n, k < n → fftComplex o n x = .ok y) ∧ y.length = x.length ∧ (∀ c ∈ y, M.finC c) ∧
      sqDist (y.map M.c) (DFT (x.map M.c)) ≤
        (31 * k * ((1 + 1 / 2 ^ 10) / 2 ^ 24)) ^ 2 * (2 ^ k * (energy (x.map M.c) + 2 ^ k)) := by
  have d : Cx F := ⟨o.pi, o.pi⟩
  rw [energy_gsz' M h d] at hb ⊢
  obtain ⟨h1, h2⟩ := FP.fftF_ok (φ := FP.single) M hk (finC_getD' M h hf d) (hb.trans (by norm_num [FP.single]))
  refine ⟨tab (2 ^ k) (fftF o k (fun t => x.getD t d)), fun n hn => ?_, by simp [tab, h], fun c hc => ?_, ?_⟩
  · conv_lhs => rw [eq_tab h d]
    exact fftComplex_eq o k _ hn
  · obtain ⟨j, hj, rfl⟩ := mem_tab hc
    exact h1 j hj
  · unfold sqDist
    rw [tab_map]
    simp only [tab_length]
    refine le_trans (le_of_eq (sum_congr rfl fun j hj => ?_)) (le_trans h2 ?_)
    · have hj' := mem_range.1 hj
      rw [List.getD_eq_getElem _ _ (by simpa [tab] using hj'), DFT_eq (by simpa using h)]
      congr 3
      · simp [tab]
        rfl
      · unfold dft
        exact sum_congr rfl fun t ht => by
          simp only
          rw [getD_map_lt M.c d (by rw [h]; exact mem_range.1 ht)]
          rfl
    · have hg := gsz_nonneg (2 ^ k) (fun t => M.c (x.getD t d))
      apply mul_le_mul_of_nonneg_right _ (by positivity)
      exact pow_le_pow_left₀ (FP.theta_nonneg FP.single k) (FP.theta_le (φ := FP.single) hk) 2

/-- Transforming and transforming back in single precision: the error is at most `63·k + 3` units of roundoff times the size of the
data. -/
theorem C135_round_trip_error {k : ℕ} (hk : k ≤ 24) {x : List (Cx F)} (h : x.length = 2 ^ k) (hf : ∀ c ∈ x, M.finC c)
    (hb : 2 ^ k * (2 ^ k * (energy (x.map M.c) + 2 ^ k)) ≤ 2 ^ 115) :
    ∃ y, (∀ n, k < n → (do let y ← fftComplex o n x; ifftComplex o n y) = .ok y) ∧ y.length = x.length ∧ (∀ c ∈ y, M.finC c) ∧
      sqDist (y.map M.c) (fun j => (x.map M.c).getD j 0) ≤
        ((63 * k + 3) * ((1 + 1 / 2 ^ 10) / 2 ^ 24)) ^ 2 * (energy (x.map M.c) + 2 ^ k) := by
  have d : Cx F := ⟨o.pi, o.pi⟩
  rw [energy_gsz' M h d] at hb ⊢
  obtain ⟨h1, h2⟩ := FP.roundTrip_ok (φ := FP.single) M hk (finC_getD' M h hf d) (hb.trans (by norm_num [FP.single]))
  refine ⟨tab (2 ^ k) (ifftF o k (fftF o k (fun t => x.getD t d))), fun n hn => ?_, by simp [tab, h], fun c hc => ?_, ?_⟩
  · have e1 : fftComplex o n x = .ok (tab (2 ^ k) (fftF o k (fun t => x.getD t d))) := by
      conv_lhs => rw [eq_tab h d]
      exact fftComplex_eq o k _ hn
    rw [e1, ok_bind, ifftComplex_eq o k _ hn]
  · obtain ⟨j, hj, rfl⟩ := mem_tab hc
    exact h1 j hj
  · unfold sqDist
    rw [tab_map]
    simp only [tab_length]
    refine le_trans (le_of_eq (sum_congr rfl fun j hj => ?_)) h2
    have hj' := mem_range.1 hj
    rw [List.getD_eq_getElem _ _ (by simpa [tab] using hj'), getD_map_lt M.c d (by rw [h]; exact hj')]
    simp [tab]
    rfl

end

/-- The four points 1+5i, 2, 3, 4 in the arithmetic the language prescribes. -/
theorem fourPoints_single {cosR sinR : ℝ → ℝ} (h : AccurateF cosR sinR) :
    let o := floatOps cosR sinR
    let M := floatLaws h
    let x : List (Cx Typed) := [⟨o.ofNat 1, o.ofNat 5⟩, ⟨o.ofNat 2, o.ofNat 0⟩, ⟨o.ofNat 3, o.ofNat 0⟩, ⟨o.ofNat 4, o.ofNat 0⟩]
    x.length = 2 ^ 2 ∧ (∀ c ∈ x, M.finC c) ∧ 2 ^ 2 * (2 ^ 2 * (energy (x.map M.c) + 2 ^ 2)) ≤ (2 : ℝ) ^ 115 := by
  intro o M x
  have h : ∀ n ≤ 5, M.fin (o.ofNat n) ∧ M.val (o.ofNat n) = n := fun n hn => M.ofNat_ok n (le_trans hn (by norm_num [Format.single]))
  refine ⟨rfl, ?_, ?_⟩
  · intro c hc
    exact ⟨trivial, trivial⟩
  · unfold energy
    simp only [x, List.map_cons, List.map_nil, List.length_cons, List.length_nil, sum_range_succ, range_zero, sum_empty,
      List.getD_cons_zero, List.getD_cons_succ, Complex.sq_norm, normSq_apply, Laws.c, (h _ (by norm_num : 0 ≤ 5)).2,
      (h _ (by norm_num : 1 ≤ 5)).2, (h _ (by norm_num : 2 ≤ 5)).2, (h _ (by norm_num : 3 ≤ 5)).2,
      (h _ (by norm_num : 4 ≤ 5)).2, (h _ (by norm_num : 5 ≤ 5)).2]
    norm_num

example := C135_fft_error (floatLaws accurateF_exact) (k := 2) (by norm_num) (fourPoints_single accurateF_exact).1
  (fourPoints_single accurateF_exact).2.1 (by
    have h := (fourPoints_single accurateF_exact).2.2
    norm_num at h ⊢
    linarith)

example := C135_round_trip_error (floatLaws accurateF_exact) (k := 2) (by norm_num) (fourPoints_single accurateF_exact).1
  (fourPoints_single accurateF_exact).2.1 (fourPoints_single accurateF_exact).2.2

/-! ### C136 -/

section
variable {F : Type} {o : FloatOps F} (M : Laws .single o)

/-- The convolution of two digit lists in single precision: every coefficient is within less than one half of the exact column sum
as long as the bound on the accumulated rounding error allows it. -/
theorem conv_single {a b : List ℕ} {K D n : ℕ} (hK : K ≤ 24) (h1 : 1 ≤ a.length + b.length) (h2 : a.length + b.length ≤ 2 ^ K)
    (ha : InRange (D + 1) a) (hb : InRange (D + 1) b) (hD : D < 2 ^ 24) (hn : min a.length b.length ≤ n)
    (hm : n * (D * (D + 1)) ≤ 2 ^ 24) {c2 : ℝ} (hc0 : 0 ≤ c2)
    (hc2 : ((D ^ 4 * (min a.length b.length * (a.length * b.length)) : ℕ) : ℝ) ≤ c2 ^ 2)
    (hsz : (2 : ℝ) ^ K * ((D ^ 2 + 1) * 2 ^ K) ≤ 2 ^ 45) (hE : FP.errBound FP.single K D n c2 < 1 / 2) :
    ∃ inv, (∀ fuel, 32 < fuel → (do let table ← createFftTable o a b
                                    let table ← convoluteFft o fuel table
                                    ifftComplex o fuel table) = .ok inv) ∧ a.length + b.length ≤ inv.length ∧
      ∀ i z, inv[i]? = some z → M.fin z.re ∧ |M.val z.re - colSum a b i| < 1 / 2 := by
  have hle : (2 : ℕ) ^ K ≤ 2 ^ 24 := Nat.pow_le_pow_right (by omega) hK
  obtain ⟨k, hk, hs, hl, hu⟩ := fftTableSize_eq h1 (by omega)
  have hkK : k ≤ K := by
    by_contra hc
    have : 2 ^ (K + 1) ≤ 2 ^ k := Nat.pow_le_pow_right (by omega) (by omega)
    rw [pow_succ] at this
    omega
  refine ⟨_, fun fuel hf => pipeline_eq o hk hs hf, by simpa [tab] using hl, fun i z hz => ?_⟩
  have hi : i < 2 ^ k := by
    by_contra hc
    rw [List.getElem?_eq_none (by simpa [tab] using hc)] at hz; cases hz
  unfold tab at hz
  rw [List.getElem?_map, List.getElem?_range hi] at hz
  obtain rfl := Option.some.inj hz
  have := FP.near_ieee (φ := FP.single) M (K := K) (D := D) (c2 := c2) hK hkK hl ha hb hD
    (le_trans (Nat.mul_le_mul_right _ hn) hm) hc0 hc2 hsz (lt_of_le_of_lt (FP.errBound_mono hn c2) hE) i hi
  refine ⟨this.1, lt_of_le_of_lt (le_add_of_nonneg_right ?_) this.2⟩
  exact mul_nonneg FP.single.u_pos.le (by positivity)

/-- Decimal digits: lists of up to 43 each. -/
theorem C136_decimal {a b : List ℕ} (h1 : 1 ≤ a.length + b.length) (ha : a.length ≤ 43) (hb : b.length ≤ 43)
    (had : ∀ d ∈ a, d < 10) (hbd : ∀ d ∈ b, d < 10) :
    ∃ inv, (∀ fuel, 32 < fuel → (do let table ← createFftTable o a b
                                    let table ← convoluteFft o fuel table
                                    ifftComplex o fuel table) = .ok inv) ∧ a.length + b.length ≤ inv.length ∧
      ∀ i z, inv[i]? = some z → M.fin z.re ∧ |M.val z.re - colSum a b i| < 1 / 2 := by
  refine conv_single M (K := 7) (D := 9) (n := 43) (c2 := 22840) (by norm_num) h1 (by omega) had hbd (by norm_num) (by omega)
    (by norm_num) (by norm_num) ?_ (by norm_num) ?_
  · have h3 : min a.length b.length * (a.length * b.length) ≤ 43 * (43 * 43) :=
      Nat.mul_le_mul (by omega) (Nat.mul_le_mul ha hb)
    have h4 := Nat.mul_le_mul_left (9 ^ 4) h3
    have h5 : (9 ^ 4 * (43 * (43 * 43)) : ℕ) ≤ 22840 ^ 2 := by norm_num
    exact_mod_cast Nat.le_trans h4 h5
  · norm_num [FP.errBound, FP.single, Format.single]

example := C136_decimal (floatLaws accurateF_exact) (a := [9, 9, 9]) (b := [9, 8]) (by simp) (by simp) (by simp) (by simp) (by simp)

/-- Binary digits: lists of up to 512 each. -/
theorem C136_binary {a b : List ℕ} (h1 : 1 ≤ a.length + b.length) (ha : a.length ≤ 512) (hb : b.length ≤ 512)
    (had : ∀ d ∈ a, d < 2) (hbd : ∀ d ∈ b, d < 2) :
    ∃ inv, (∀ fuel, 32 < fuel → (do let table ← createFftTable o a b
                                    let table ← convoluteFft o fuel table
                                    ifftComplex o fuel table) = .ok inv) ∧ a.length + b.length ≤ inv.length ∧
      ∀ i z, inv[i]? = some z → M.fin z.re ∧ |M.val z.re - colSum a b i| < 1 / 2 := by
  refine conv_single M (K := 10) (D := 1) (n := 512) (c2 := 11586) (by norm_num) h1 (by omega) had hbd (by norm_num) (by omega)
    (by norm_num) (by norm_num) ?_ (by norm_num) ?_
  · have h3 : min a.length b.length * (a.length * b.length) ≤ 512 * (512 * 512) :=
      Nat.mul_le_mul (by omega) (Nat.mul_le_mul ha hb)
    have h4 := Nat.mul_le_mul_left (1 ^ 4) h3
    have h5 : (1 ^ 4 * (512 * (512 * 512)) : ℕ) ≤ 11586 ^ 2 := by norm_num
    exact_mod_cast Nat.le_trans h4 h5
  · norm_num [FP.errBound, FP.single, Format.single]

example := C136_binary (floatLaws accurateF_exact) (a := [1, 0, 1]) (b := [1, 1]) (by simp) (by simp) (by simp) (by simp) (by simp)

end

/-- The parts of `x` are `float`s. -/
def Cx.IsFloat (x : Cx Typed) : Prop := x.re.dbl = false ∧ x.im.dbl = false

theorem op_isFloat {f : ℝ → ℝ → ℝ} {x y : Typed} (hx : x.dbl = false) (hy : y.dbl = false) : (Typed.op f x y).dbl = false := by
  simp [Typed.op, hx, hy]

theorem op_hasBits {f : ℝ → ℝ → ℝ} {x y : Typed} (hx : x.dbl = false) (hy : y.dbl = false) : HasBits 24 (Typed.op f x y).val := by
  have h := (nearest_spec _ (Typed.one_le_bits (x.dbl || y.dbl)) (f x.val y.val)).1
  have e : Typed.bits (x.dbl || y.dbl) = 24 := by rw [hx, hy]; rfl
  exact hasBits_mono e.le h

section
variable {cosR sinR : ℝ → ℝ}

theorem add_isFloat {x y : Cx Typed} (hx : x.IsFloat) (hy : y.IsFloat) : (Cx.add (floatOps cosR sinR) x y).IsFloat :=
  ⟨op_isFloat hx.1 hy.1, op_isFloat hx.2 hy.2⟩

theorem sub_isFloat {x y : Cx Typed} (hx : x.IsFloat) (hy : y.IsFloat) : (Cx.sub (floatOps cosR sinR) x y).IsFloat :=
  ⟨op_isFloat hx.1 hy.1, op_isFloat hx.2 hy.2⟩

theorem mul_isFloat {x y : Cx Typed} (hx : x.IsFloat) (hy : y.IsFloat) : (Cx.mul (floatOps cosR sinR) x y).IsFloat :=
  ⟨op_isFloat (op_isFloat hx.1 hy.1) (op_isFloat hx.2 hy.2), op_isFloat (op_isFloat hx.1 hy.2) (op_isFloat hx.2 hy.1)⟩

theorem conj_isFloat {x : Cx Typed} (hx : x.IsFloat) : (Cx.conj (floatOps cosR sinR) x).IsFloat := hx

theorem twiddle_isFloat (n k : ℕ) : (twiddle (floatOps cosR sinR) n k).IsFloat := ⟨rfl, rfl⟩

theorem fftF_isFloat : ∀ (k : ℕ) {f : ℕ → Cx Typed}, (∀ t, (f t).IsFloat) → ∀ j, (fftF (floatOps cosR sinR) k f j).IsFloat
  | 0, f, h, _ => h 0
  | k + 1, f, h, j => by
    have he := fftF_isFloat k (f := fun t => f (2 * t)) (fun t => h _)
    have ho := fftF_isFloat k (f := fun t => f (2 * t + 1)) (fun t => h _)
    rw [fftF]
    split
    · exact add_isFloat (he _) (mul_isFloat (twiddle_isFloat _ _) (ho _))
    · exact sub_isFloat (he _) (mul_isFloat (twiddle_isFloat _ _) (ho _))

theorem pointF_isFloat (n : ℕ) {t : ℕ → Cx Typed} (h : ∀ i, (t i).IsFloat) (i : ℕ) : (pointF (floatOps cosR sinR) n t i).IsFloat := by
  have h3 := mul_isFloat (cosR := cosR) (sinR := sinR)
    (add_isFloat (cosR := cosR) (sinR := sinR) (h i) (conj_isFloat (cosR := cosR) (sinR := sinR) (h ((n - i) % n))))
    (sub_isFloat (cosR := cosR) (sinR := sinR) (h i) (conj_isFloat (cosR := cosR) (sinR := sinR) (h ((n - i) % n))))
  exact ⟨op_isFloat h3.2 rfl, op_isFloat h3.1 rfl⟩

end

/-- No number of 24 bits is near the square of 65535. -/
theorem hasBits_far {z : ℝ} (h : HasBits 24 z) : 1 ≤ |z - ((65535 * 65535 : ℕ) : ℝ)| := by
  obtain ⟨m, e, rfl, hm⟩ := h
  by_contra hc
  push Not at hc
  obtain ⟨h1, h2⟩ := abs_lt.1 hc
  have hm1 : ((m : ℤ) : ℝ) ≤ 2 ^ 24 := by exact_mod_cast (abs_le.1 hm).2
  by_cases he : e ≤ 7
  · have hp : (2 : ℝ) ^ e ≤ 2 ^ (7 : ℤ) := zpow_le_zpow_right₀ (by norm_num) he
    have hp0 : (0 : ℝ) < 2 ^ e := by positivity
    have : (m : ℝ) * 2 ^ e ≤ 2 ^ 24 * 2 ^ (7 : ℤ) := mul_le_mul hm1 hp hp0.le (by norm_num)
    norm_num at this h1
    linarith
  · obtain ⟨n, rfl⟩ : ∃ n : ℕ, e = 8 + n := ⟨(e - 8).toNat, by omega⟩
    have h3 : (m : ℝ) * 2 ^ (8 + (n : ℤ)) = ((256 * (m * 2 ^ n) : ℤ) : ℝ) := by
      rw [zpow_add₀ (by norm_num)]; push_cast; norm_num; ring
    rw [h3] at h1 h2
    generalize m * 2 ^ n = q at h1 h2
    have h4 : (-1 : ℝ) < ((256 * q - 4294836225 : ℤ) : ℝ) := by push_cast; norm_num at h1; linarith
    have h5 : ((256 * q - 4294836225 : ℤ) : ℝ) < 1 := by push_cast; norm_num at h2; linarith
    have h6 : -1 < 256 * q - 4294836225 := by exact_mod_cast h4
    have h7 : 256 * q - 4294836225 < 1 := by exact_mod_cast h5
    omega

/-- In `float` a coefficient has at most 24 bits, so the column sums of digits of 16 bits cannot come out right: no coefficient of any
convolution is within less than 1 of the product of the digits 65535 and 65535. This needs nothing of the library's cosine and sine. -/
theorem C136_wide (cosR sinR : ℝ → ℝ) (a b : List ℕ) (h1 : 1 ≤ a.length + b.length) (h2 : a.length + b.length ≤ 2 ^ 32) :
    ∃ inv, (∀ fuel, 32 < fuel → (do let table ← createFftTable (floatOps cosR sinR) a b
                                    let table ← convoluteFft (floatOps cosR sinR) fuel table
                                    ifftComplex (floatOps cosR sinR) fuel table) = .ok inv) ∧ inv ≠ [] ∧
      ∀ z ∈ inv, HasBits 24 z.re.val ∧ 1 ≤ |z.re.val - ((65535 * 65535 : ℕ) : ℝ)| := by
  obtain ⟨k, hk, hs, hl, hu⟩ := fftTableSize_eq h1 h2
  refine ⟨_, fun fuel hf => pipeline_eq _ hk hs hf, ?_, fun z hz => ?_⟩
  · intro hc
    have := congrArg List.length hc
    simp [tab] at this
  · obtain ⟨i, hi, rfl⟩ := mem_tab hz
    have hp : ∀ t, (packF (floatOps cosR sinR) a b t).IsFloat := fun t => ⟨rfl, rfl⟩
    have hf := fftF_isFloat (cosR := cosR) (sinR := sinR) k
      (fun t => conj_isFloat (cosR := cosR) (sinR := sinR) (pointF_isFloat (cosR := cosR) (sinR := sinR) (2 ^ k)
        (fftF_isFloat (cosR := cosR) (sinR := sinR) k hp) t)) i
    suffices h : HasBits 24 _ from ⟨h, hasBits_far h⟩
    exact op_hasBits hf.1 rfl

example := C136_wide Real.cos Real.sin [65535] [65535] (by simp) (by simp)

example : colSum [65535] [65535] 0 = 65535 * 65535 := by decide

/-! ### C137 -/

/-- `long double` as on x87: 64 significant bits, every operation rounds to nearest. The constant pi of fourier_impl.h:42 is written
as a `double` literal, so it has 53 bits even here. The exponents are not bounded. -/
noncomputable def longOps (cosR sinR : ℝ → ℝ) : FloatOps ℝ where
  ofNat n := nearest 64 (by norm_num) n
  add x y := nearest 64 (by norm_num) (x + y)
  sub x y := nearest 64 (by norm_num) (x - y)
  mul x y := nearest 64 (by norm_num) (x * y)
  mulSub x y z w := nearest 64 (by norm_num) (nearest 64 (by norm_num) (x * y) - nearest 64 (by norm_num) (z * w))
  mulAdd x y z w := nearest 64 (by norm_num) (nearest 64 (by norm_num) (x * y) + nearest 64 (by norm_num) (z * w))
  div x y := nearest 64 (by norm_num) (x / y)
  neg x := -x
  cos := cosR
  sin := sinR
  floor x := (⌊x⌋ : ℤ)
  trunc x := if 0 ≤ x then ⌊x⌋ else ⌈x⌉
  pi := 7074237752028440 / 2 ^ 51
  negTwo := -2
  half := 1 / 2
  quarter := 1 / 4

/-- The library's functions for `long double` are within 2^-64 on [-4, 4]. -/
def AccurateL (cosR sinR : ℝ → ℝ) : Prop :=
  ∀ x, |x| ≤ 4 → |cosR x - Real.cos x| ≤ 1 / 2 ^ 64 ∧ |sinR x - Real.sin x| ≤ 1 / 2 ^ 64

theorem accurateL_exact : AccurateL Real.cos Real.sin := fun x _ => by
  constructor <;> · simp only [sub_self, abs_zero]; positivity

theorem long_excess {cosR sinR : ℝ → ℝ} (h : AccurateL cosR sinR) : Excess (longOps cosR sinR) id where
  ofNat _ := .inr (.inl (nearest_spec 64 (by norm_num) _))
  add _ _ := .inr (.inl (nearest_spec 64 (by norm_num) _))
  sub _ _ := .inr (.inl (nearest_spec 64 (by norm_num) _))
  mul _ _ := .inr (.inl (nearest_spec 64 (by norm_num) _))
  div _ _ _ := .inr (.inl (nearest_spec 64 (by norm_num) _))
  mulSub _ _ _ _ := rfl
  mulAdd _ _ _ _ := rfl
  neg _ := rfl
  cos _ hx := (h _ hx).1.trans (by norm_num)
  sin _ hx := (h _ hx).2.trans (by norm_num)
  floor _ := rfl
  trunc _ := rfl
  pi := rfl
  negTwo := rfl
  half := rfl
  quarter := rfl

/-- The complex number a pair stands for. -/
def cxR (x : Cx ℝ) : ℂ := ⟨x.re, x.im⟩

/-- With `long double` the transform is as accurate as with `double`. -/
theorem C137_fft_error_partial {cosR sinR : ℝ → ℝ} (hl : AccurateL cosR sinR) {k : ℕ} (hk : k ≤ 40) {x : List (Cx ℝ)}
    (h : x.length = 2 ^ k) (hb : 2 ^ k * (energy (x.map cxR) + 2 ^ k) ≤ 2 ^ 180) :
    ∃ y, (∀ n, k < n → fftComplex (longOps cosR sinR) n x = .ok y) ∧ y.length = x.length ∧
      sqDist (y.map cxR) (DFT (x.map cxR)) ≤ (31 * k * uro) ^ 2 * (2 ^ k * (energy (x.map cxR) + 2 ^ k)) := by
  obtain ⟨y, h1, h2, -, h3⟩ := C77_fft_error (excessIeee (long_excess hl)) hk h (fun c _ => ⟨trivial, trivial⟩) hb
  exact ⟨y, h1, h2, h3⟩

example := C137_fft_error_partial accurateL_exact (k := 2) (x := [⟨0, 0⟩, ⟨1, 0⟩, ⟨0, 0⟩, ⟨0, 0⟩]) (by norm_num) rfl (by
  norm_num [energy, sum_range_succ, cxR, Complex.sq_norm, normSq_apply])

theorem near64_zero : nearest 64 (by norm_num) 0 = 0 := nearest_zero (nearest_spec 64 (by norm_num) 0)

theorem near64_exact {v : ℝ} (h : HasBits 64 v) : nearest 64 (by norm_num) v = v := nearest_exact h (nearest_spec 64 (by norm_num) v)

theorem hasBits64_nearest (v : ℝ) : HasBits 64 (nearest 64 (by norm_num) v) := (nearest_spec 64 (by norm_num) v).1

/-- The first entry of the transform of 0, 1, 0, 0. -/
theorem long_entry (cosR sinR : ℝ → ℝ) :
    (fftF (longOps cosR sinR) 2 (fun t => ([⟨0, 0⟩, ⟨1, 0⟩, ⟨0, 0⟩, ⟨0, 0⟩] : List (Cx ℝ)).getD t ⟨0, 0⟩) 1).re =
      nearest 64 (by norm_num) (cosR (-(7074237752028440 / 2 ^ 52))) := by
  have e1 : nearest 64 (by norm_num) 1 = 1 := near64_exact ⟨1, 0, by norm_num, by norm_num⟩
  have e4 : nearest 64 (by norm_num) 4 = 4 := near64_exact ⟨4, 0, by norm_num, by norm_num⟩
  have e2 : nearest 64 (by norm_num) (-2) = -2 := near64_exact ⟨-2, 0, by norm_num, by norm_num⟩
  have ep : nearest 64 (by norm_num) (-2 * (7074237752028440 / 2 ^ 51)) = -2 * (7074237752028440 / 2 ^ 51) :=
    near64_exact ⟨-7074237752028440, -50, by norm_num, by norm_num⟩
  have eq : nearest 64 (by norm_num) (-2 * (7074237752028440 / 2 ^ 51) / 4) = -(7074237752028440 / 2 ^ 52) := by
    rw [near64_exact ⟨-7074237752028440, -52, by norm_num, by norm_num⟩]; norm_num
  have en : ∀ v, nearest 64 (by norm_num) (nearest 64 (by norm_num) v) = nearest 64 (by norm_num) v :=
    fun v => near64_exact (hasBits64_nearest v)
  simp [fftF, Cx.add, Cx.sub, Cx.mul, twiddle, longOps, near64_zero, e1, e2, e4, en]
  rw [neg_mul] at ep eq
  rw [ep, eq]

/-- The error the rounded pi makes. -/
theorem cos_rounded_pi : (1 : ℝ) / 2 ^ 54 + 2 / 2 ^ 64 ≤ Real.cos (-(7074237752028440 / 2 ^ 52)) := by
  have h1 := Real.pi_gt_d20
  have h2 := Real.pi_lt_d20
  rw [Real.cos_neg, ← Real.sin_pi_div_two_sub]
  set δ := Real.pi / 2 - 7074237752028440 / 2 ^ 52 with hδ
  have d1 : 6 / 10 ^ 17 ≤ δ := by rw [hδ]; norm_num at h1 ⊢; linarith
  have d2 : δ ≤ 7 / 10 ^ 17 := by rw [hδ]; norm_num at h2 ⊢; linarith
  have h3 := Real.sin_gt_sub_cube (x := δ) (by linarith [show (0 : ℝ) < 6 / 10 ^ 17 by norm_num])
  have h4 : δ ^ 3 ≤ (7 / 10 ^ 17) ^ 3 := pow_le_pow_left₀ (by linarith [show (0 : ℝ) < 6 / 10 ^ 17 by norm_num]) d2 3
  norm_num at h3 h4 d1 ⊢
  linarith

/-- It is not more accurate: the transform of 0, 1, 0, 0 is off by 2^-54 or more in its first entry, since the constant pi was
rounded to `double`. The error bound of C77 with the unit roundoff of `long double` fails, for every library. -/
theorem C137_refuted {cosR sinR : ℝ → ℝ} (hl : AccurateL cosR sinR) :
    let x : List (Cx ℝ) := [⟨0, 0⟩, ⟨1, 0⟩, ⟨0, 0⟩, ⟨0, 0⟩]
    ∃ y z, (∀ n, 2 < n → fftComplex (longOps cosR sinR) n x = .ok y) ∧ y[1]? = some z ∧ (DFT (x.map cxR) 1).re = 0 ∧
      1 / 2 ^ 54 ≤ z.re ∧
      ¬ sqDist (y.map cxR) (DFT (x.map cxR)) ≤
        (31 * (2 : ℕ) * ((1 + 1 / 2 ^ 10) / 2 ^ 64)) ^ 2 * (2 ^ 2 * (energy (x.map cxR) + 2 ^ 2)) := by
  intro x
  have hd : (DFT (x.map cxR) 1).re = 0 := by
    have e : DFT (x.map cxR) 1 = exp (((-(Real.pi / 2) : ℝ) : ℂ) * I) := by
      simp [x, DFT, sum_range_succ, cxR, show (⟨0, 0⟩ : ℂ) = 0 from rfl, show (⟨1, 0⟩ : ℂ) = 1 from rfl]
      congr 1
      ring
    rw [e, exp_ofReal_mul_I_re, Real.cos_neg, Real.cos_pi_div_two]
  have hz : 1 / 2 ^ 54 ≤ nearest 64 (by norm_num) (cosR (-(7074237752028440 / 2 ^ 52))) := by
    have h1 := (hl (-(7074237752028440 / 2 ^ 52)) (by norm_num [abs_le])).1
    have h2 := cos_rounded_pi
    have h3 : 1 / 2 ^ 54 ≤ cosR (-(7074237752028440 / 2 ^ 52)) := by
      have := (abs_le.1 h1).1
      linarith
    -- 2^-54 is representable, so rounding does not cross it
    have h4 := (nearest_spec 64 (by norm_num) (cosR (-(7074237752028440 / 2 ^ 52)))).2 (1 / 2 ^ 54)
      ⟨1, -54, by norm_num, by norm_num⟩
    rw [abs_of_nonpos (by linarith : 1 / 2 ^ 54 - cosR (-(7074237752028440 / 2 ^ 52)) ≤ 0)] at h4
    have := (abs_le.1 h4).1
    linarith
  rw [← long_entry cosR sinR] at hz
  set f : ℕ → Cx ℝ := fun t => ([⟨0, 0⟩, ⟨1, 0⟩, ⟨0, 0⟩, ⟨0, 0⟩] : List (Cx ℝ)).getD t ⟨0, 0⟩ with hf
  refine ⟨tab (2 ^ 2) (fftF (longOps cosR sinR) 2 f), fftF (longOps cosR sinR) 2 f 1, fun n hn => ?_, rfl, hd, hz, ?_⟩
  · have e : x = tab (2 ^ 2) f := rfl
    rw [e]
    exact fftComplex_eq _ 2 _ hn
  · rw [not_le]
    have he : energy (x.map cxR) = 1 := by
      norm_num [x, energy, sum_range_succ, cxR, Complex.sq_norm, normSq_apply]
    rw [he]
    have hs : ‖cxR (fftF (longOps cosR sinR) 2 f 1) - DFT (x.map cxR) 1‖ ^ 2 ≤
        sqDist ((tab (2 ^ 2) (fftF (longOps cosR sinR) 2 f)).map cxR) (DFT (x.map cxR)) := by
      unfold sqDist
      refine le_trans (le_of_eq ?_) (single_le_sum (f := fun j => ‖((tab (2 ^ 2) (fftF (longOps cosR sinR) 2 f)).map cxR).getD j 0 -
        DFT (x.map cxR) j‖ ^ 2) (fun j _ => by positivity) (a := 1) (by simp))
      rfl
    refine lt_of_lt_of_le ?_ hs
    have hr := Complex.abs_re_le_norm (cxR (fftF (longOps cosR sinR) 2 f 1) - DFT (x.map cxR) 1)
    rw [Complex.sub_re, hd, sub_zero] at hr
    have h1 : (1 / 2 ^ 54 : ℝ) ≤ ‖cxR (fftF (longOps cosR sinR) 2 f 1) - DFT (x.map cxR) 1‖ := hz.trans ((le_abs_self _).trans hr)
    refine lt_of_lt_of_le ?_ (pow_le_pow_left₀ (by norm_num) h1 2)
    norm_num

example := C137_refuted accurateL_exact

end BN
