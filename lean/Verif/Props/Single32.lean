import Verif.Lemmas.Single32
import Verif.Lemmas.Rounding32
import Verif.Props.Single
import Verif.Props.Binary64
/-
C135, C136 on a platform whose `float` is IEEE 754 binary32, with subnormal numbers, infinities and NaN, and whose compiler may fuse
multiplications and additions.
-/
namespace BN
open Complex B64
open Finset (range sum_range_succ range_zero sum_empty)

/-- The choices of a compiler. -/
abbrev Fusing32 := FVal → FVal → FVal → FVal → Contraction

/-- C135: the results of the arithmetic of the model are the nearest numbers of binary32, ties to even ... -/
theorem C135_binary32_rounding (z : Bool) {x : ℚ} (h : |x| < 2 ^ 128 - 2 ^ 103) : B32.Rounded x (B32.roundQ z x) := B32.rounded z h

example := C135_binary32_rounding false (x := 1 / 3) (by norm_num [abs_of_pos])

/-- ... and infinite from the overflow threshold of the standard on. -/
theorem C135_binary32_overflow (z : Bool) {x : ℚ} (h : 2 ^ 128 - 2 ^ 103 ≤ |x|) : B32.roundQ z x = inf (decide (x < 0)) := B32.overflow z h

example := C135_binary32_overflow false (x := 2 ^ 128) (by norm_num [abs_of_pos])

/-- 2^24 + 1 lies in the middle between two numbers of the format; the even one is taken. -/
example : B32.roundQ false (2 ^ 24 + 1) = num false (2 ^ 23) 1 ∧ B32.roundQ false (2 ^ 24 + 3) = num false (2 ^ 23 + 2) 1 := by decide +kernel

theorem roundQ32_ne_nan (z : Bool) (x : ℚ) : B32.roundQ z x ≠ nan := by
  unfold B32.roundQ
  dsimp only
  split_ifs <;> simp

/-- C135: NaN arises exactly from the invalid operations of the standard (IEEE 754-2008, 7.2): opposite infinities added, zero times infinity,
zero by zero, infinity by infinity, and NaN itself. -/
theorem C135_binary32_invalid (x y : B64) :
    (B32.add x y = nan ↔ x = nan ∨ y = nan ∨ ∃ s, x = inf s ∧ y = inf (!s)) ∧
    (B32.sub x y = nan ↔ x = nan ∨ y = nan ∨ ∃ s, x = inf s ∧ y = inf s) ∧
    (B32.mul x y = nan ↔ x = nan ∨ y = nan ∨ (∃ s, x = inf s) ∧ y.IsZero ∨ x.IsZero ∧ ∃ s, y = inf s) ∧
    (B32.div x y = nan ↔ x = nan ∨ y = nan ∨ (∃ s t, x = inf s ∧ y = inf t) ∨ x.IsZero ∧ y.IsZero) := by
  have hr := roundQ32_ne_nan
  refine ⟨?_, ?_, ?_, ?_⟩
  · cases x <;> cases y <;> simp [B32.add, hr]
    rename_i s t
    cases s <;> cases t <;> simp
  · cases x <;> cases y <;> simp [B32.sub, B64.neg, B32.add, hr]
    rename_i s t
    cases s <;> cases t <;> simp
  · cases x <;> cases y <;> simp [B32.mul, B64.IsZero, hr]
  · cases x <;> cases y <;> simp [B32.div, B64.IsZero]
    rename_i s k e t l f
    by_cases hl : l = 0 <;> by_cases hk : k = 0 <;> simp [hl, hk, hr]

/-- C135: an infinite operand of a sum stays; in a product or quotient that is not NaN an infinite operand, or a zero divisor, gives infinity
with the product of the signs, and a number by infinity is a zero. -/
theorem C135_binary32_infinite (x : B64) (s : Bool) (hx : x ≠ nan) :
    (x ≠ inf (!s) → B32.add x (inf s) = inf s ∧ B32.add (inf s) x = inf s) ∧
    (¬ x.IsZero → B32.mul x (inf s) = inf (x.sign != s) ∧ B32.mul (inf s) x = inf (s != x.sign)) ∧
    ((∀ t, x ≠ inf t) → B32.div (inf s) x = inf (s != x.sign) ∧ (B32.div x (inf s)).IsZero ∧ (B32.div x (inf s)).sign = (x.sign != s)) ∧
    (¬ x.IsZero → ∀ e, B32.div x (num s 0 e) = inf (x.sign != s)) := by
  cases x with
  | nan => exact absurd rfl hx
  | inf t => cases s <;> cases t <;> simp [B32.add, B32.mul, B32.div, B64.sign, B64.IsZero]
  | num t k e =>
    by_cases hk : k = 0 <;> simp [B32.add, B32.mul, B32.div, B64.sign, B64.IsZero, hk]

example := C135_binary32_infinite (num true 3 0) false (by simp)

/-- C135: the laws of single precision hold of binary32. -/
theorem C135_binary32_laws (lib : MathLib) (h : lib.AccurateSingle) (fuse : Fusing32) :
    ∃ M : Laws .single (binary32 lib fuse), (∀ x, M.val x = ((toRat x.v : ℚ) : ℝ)) ∧
      ∀ x, M.fin x ↔ if x.dbl then B64.Finite x.v else B32.Finite x.v :=
  ⟨laws32 lib h fuse, fun _ => rfl, fun _ => Iff.rfl⟩

/-- A number of magnitude at most 1 has a datum within a unit in the last place below 1. -/
theorem exists_near32 {c : ℝ} (h : |c| ≤ 1) : ∃ x : B64, B32.Finite x ∧ |(toRat x : ℝ) - c| ≤ 1 / 2 ^ 24 := by
  -- a multiple of 2^-24
  have hr := abs_sub_round (c * 2 ^ 24)
  have hm : |round (c * 2 ^ 24)| ≤ 2 ^ 24 := by
    have h1 := abs_le.1 h
    have h2 := abs_le.1 hr
    have a1 : ((round (c * 2 ^ 24) : ℤ) : ℝ) < 2 ^ 24 + 1 := by norm_num at *; linarith
    have a2 : -(2 ^ 24 + 1) < ((round (c * 2 ^ 24) : ℤ) : ℝ) := by norm_num at *; linarith
    have b1 : round (c * 2 ^ 24) < 2 ^ 24 + 1 := by exact_mod_cast a1
    have b2 : -(2 ^ 24 + 1) < round (c * 2 ^ 24) := by exact_mod_cast a2
    rw [abs_le]; omega
  obtain ⟨h1, h2⟩ := B32.round_rep false (x := round (c * 2 ^ 24) * 2 ^ (-24 : ℤ)) rfl hm (by norm_num) fun hne => by
    refine (log_of_le hne (n := 0) ?_).trans (by norm_num)
    have : ((|round (c * 2 ^ 24)| : ℤ) : ℚ) ≤ 2 ^ 24 := by exact_mod_cast hm
    rw [abs_mul, abs_of_pos (zpow_pos' _)]
    push_cast at this
    norm_num at this ⊢
    linarith
  refine ⟨_, h1, ?_⟩
  rw [h2]
  push_cast
  have e : ((round (c * 2 ^ 24) : ℤ) : ℝ) * 2 ^ (-24 : ℤ) - c = -(c * 2 ^ 24 - round (c * 2 ^ 24)) / 2 ^ 24 := by
    rw [zpow_neg, show (24 : ℤ) = ((24 : ℕ) : ℤ) by rfl, zpow_natCast]; field_simp; ring
  rw [e, abs_div, abs_neg, abs_of_pos (by positivity : (0 : ℝ) < 2 ^ 24)]
  exact div_le_div_of_nonneg_right (hr.trans (by norm_num)) (by positivity)

/-- C135: there are accurate libraries. -/
theorem C135_accurate_library : ∃ lib : MathLib, lib.AccurateSingle :=
  ⟨⟨fun x => (exists_near32 (Real.abs_cos_le_one (toRat x))).choose, fun x => (exists_near32 (Real.abs_sin_le_one (toRat x))).choose⟩,
    fun x _ _ =>
      have hc := (exists_near32 (Real.abs_cos_le_one (toRat x))).choose_spec
      have hs := (exists_near32 (Real.abs_sin_le_one (toRat x))).choose_spec
      ⟨hc.1, hc.2, hs.1, hs.2⟩⟩

example := C135_binary32_laws _ C135_accurate_library.choose_spec (fun _ _ _ _ => .first)

/-- A pair of `float`s whose parts are finite numbers. -/
def Cx.Single (x : Cx FVal) : Prop := x.re.dbl = false ∧ x.im.dbl = false ∧ B32.Finite x.re.v ∧ B32.Finite x.im.v
/-- The complex number it stands for. -/
noncomputable def Cx.singleVal (x : Cx FVal) : ℂ := ⟨((toRat x.re.v : ℚ) : ℝ), ((toRat x.im.v : ℚ) : ℝ)⟩

section
variable {lib : MathLib} {fuse : Fusing32}

theorem Cx.Single.finC (h : lib.AccurateSingle) {x : Cx FVal} (hx : x.Single) : (laws32 lib h fuse).finC x := by
  obtain ⟨h1, h2, h3, h4⟩ := hx
  constructor
  · show if x.re.dbl then _ else _
    rw [h1]; exact h3
  · show if x.im.dbl then _ else _
    rw [h2]; exact h4

/-! The results are `float`s, whatever the library returns. -/

/-- The parts of `x` are `float`s. -/
def Cx.IsSingle (x : Cx FVal) : Prop := x.re.dbl = false ∧ x.im.dbl = false

theorem add32_isSingle {x y : Cx FVal} (hx : x.IsSingle) (hy : y.IsSingle) : (Cx.add (binary32 lib fuse) x y).IsSingle := by
  obtain ⟨h1, h2⟩ := hx
  obtain ⟨h3, h4⟩ := hy
  exact ⟨by simp [Cx.add, binary32, FVal.add, FVal.op, h1, h3], by simp [Cx.add, binary32, FVal.add, FVal.op, h2, h4]⟩

theorem sub32_isSingle {x y : Cx FVal} (hx : x.IsSingle) (hy : y.IsSingle) : (Cx.sub (binary32 lib fuse) x y).IsSingle := by
  obtain ⟨h1, h2⟩ := hx
  obtain ⟨h3, h4⟩ := hy
  exact ⟨by simp [Cx.sub, binary32, FVal.sub, FVal.op, h1, h3], by simp [Cx.sub, binary32, FVal.sub, FVal.op, h2, h4]⟩

theorem mul32_isSingle {x y : Cx FVal} (hx : x.IsSingle) (hy : y.IsSingle) : (Cx.mul (binary32 lib fuse) x y).IsSingle := by
  obtain ⟨h1, h2⟩ := hx
  obtain ⟨h3, h4⟩ := hy
  constructor
  · simp only [Cx.mul, binary32]
    split <;> simp [FVal.sub, FVal.mul, FVal.fma, FVal.neg, FVal.op, h1, h2, h3, h4]
  · simp only [Cx.mul, binary32]
    split <;> simp [FVal.add, FVal.mul, FVal.fma, FVal.op, h1, h2, h3, h4]

theorem conj32_isSingle {x : Cx FVal} (hx : x.IsSingle) : (Cx.conj (binary32 lib fuse) x).IsSingle := hx

theorem twiddle32_isSingle (n k : ℕ) : (twiddle (binary32 lib fuse) n k).IsSingle := ⟨rfl, rfl⟩

theorem fftF32_isSingle : ∀ (k : ℕ) {f : ℕ → Cx FVal}, (∀ t, (f t).IsSingle) → ∀ j, (fftF (binary32 lib fuse) k f j).IsSingle
  | 0, f, h, _ => h 0
  | k + 1, f, h, j => by
    have he := fftF32_isSingle k (f := fun t => f (2 * t)) (fun t => h _)
    have ho := fftF32_isSingle k (f := fun t => f (2 * t + 1)) (fun t => h _)
    rw [fftF]
    split
    · exact add32_isSingle (he _) (mul32_isSingle (twiddle32_isSingle _ _) (ho _))
    · exact sub32_isSingle (he _) (mul32_isSingle (twiddle32_isSingle _ _) (ho _))

theorem pointF32_isSingle (n : ℕ) {t : ℕ → Cx FVal} (h : ∀ i, (t i).IsSingle) (i : ℕ) : (pointF (binary32 lib fuse) n t i).IsSingle := by
  have h3 := mul32_isSingle (lib := lib) (fuse := fuse)
    (add32_isSingle (lib := lib) (fuse := fuse) (h i) (conj32_isSingle (lib := lib) (fuse := fuse) (h ((n - i) % n))))
    (sub32_isSingle (lib := lib) (fuse := fuse) (h i) (conj32_isSingle (lib := lib) (fuse := fuse) (h ((n - i) % n))))
  refine ⟨?_, ?_⟩
  · show (FVal.mul _ _).dbl = false
    simpa [FVal.mul, FVal.op, binary32] using h3.2
  · show (FVal.mul _ _).dbl = false
    simpa [FVal.mul, FVal.op, binary32, FVal.neg] using h3.1

theorem ifftF32_isSingle (k : ℕ) {f : ℕ → Cx FVal} (h : ∀ t, (f t).IsSingle) (j : ℕ) : (ifftF (binary32 lib fuse) k f j).IsSingle := by
  have := fftF32_isSingle (lib := lib) (fuse := fuse) k (fun t => conj32_isSingle (lib := lib) (fuse := fuse) (h t)) j
  refine ⟨?_, ?_⟩
  · show (FVal.div _ _).dbl = false
    simpa [FVal.div, FVal.op, binary32, Cx.conj] using this.1
  · show (FVal.div _ _).dbl = false
    simpa [FVal.div, FVal.op, binary32, Cx.conj, FVal.neg] using this.2

theorem single_of {h : lib.AccurateSingle} {x : Cx FVal} (h1 : x.IsSingle) (h2 : (laws32 lib h fuse).finC x) : x.Single := by
  obtain ⟨h3, h4⟩ := h1
  obtain ⟨h5, h6⟩ := h2
  exact ⟨h3, h4, FVal.Finite.single h5 h3, FVal.Finite.single h6 h4⟩

theorem single_getD {k : ℕ} {x : List (Cx FVal)} (hl : x.length = 2 ^ k) (hf : ∀ c ∈ x, c.Single) (t : ℕ) :
    (x.getD t (x.headD ⟨⟨false, nan⟩, ⟨false, nan⟩⟩)).IsSingle := by
  have hx : x ≠ [] := by
    rintro rfl
    have : 0 < 2 ^ k := by positivity
    simp at hl
    omega
  obtain ⟨a, l, rfl⟩ := List.exists_cons_of_ne_nil hx
  by_cases ht : t < (a :: l).length
  · rw [List.getD_eq_getElem _ _ ht]
    have := hf _ (List.getElem_mem ht)
    exact ⟨this.1, this.2.1⟩
  · rw [List.getD_eq_default _ _ (by omega)]
    have := hf a (by simp)
    exact ⟨this.1, this.2.1⟩

end

/-- C135 on binary32: the transform of `2^k` finite numbers does not overflow and its root-mean-square error is at most `31·k` units of
roundoff times the size of the data, for every accurate library and every compiler. -/
theorem C135_binary32_fft {lib : MathLib} (h : lib.AccurateSingle) (fuse : Fusing32) {k : ℕ} (hk : k ≤ 24) {x : List (Cx FVal)}
    (hl : x.length = 2 ^ k) (hf : ∀ c ∈ x, c.Single) (hb : 2 ^ k * (energy (x.map Cx.singleVal) + 2 ^ k) ≤ 2 ^ 116) :
    ∃ y, (∀ n, k < n → fftComplex (binary32 lib fuse) n x = .ok y) ∧ y.length = x.length ∧ (∀ c ∈ y, c.Single) ∧
      sqDist (y.map Cx.singleVal) (DFT (x.map Cx.singleVal)) ≤
        (31 * k * ((1 + 1 / 2 ^ 10) / 2 ^ 24)) ^ 2 * (2 ^ k * (energy (x.map Cx.singleVal) + 2 ^ k)) := by
  obtain ⟨y, h1, h2, h3, h4⟩ := C135_fft_error (laws32 lib h fuse) hk hl (fun c hc => (hf c hc).finC h) hb
  refine ⟨y, h1, h2, fun c hc => single_of ?_ (h3 c hc), h4⟩
  have e := h1 (k + 1) (by omega)
  rw [eq_tab hl (x.headD ⟨⟨false, nan⟩, ⟨false, nan⟩⟩), fftComplex_eq _ k _ (by omega)] at e
  obtain rfl := Except.ok.inj e
  obtain ⟨j, hj, rfl⟩ := mem_tab hc
  exact fftF32_isSingle k (single_getD hl hf) j

/-- C135 on binary32: transforming and transforming back. -/
theorem C135_binary32_round_trip {lib : MathLib} (h : lib.AccurateSingle) (fuse : Fusing32) {k : ℕ} (hk : k ≤ 24) {x : List (Cx FVal)}
    (hl : x.length = 2 ^ k) (hf : ∀ c ∈ x, c.Single) (hb : 2 ^ k * (2 ^ k * (energy (x.map Cx.singleVal) + 2 ^ k)) ≤ 2 ^ 115) :
    ∃ y, (∀ n, k < n → (do let y ← fftComplex (binary32 lib fuse) n x; ifftComplex (binary32 lib fuse) n y) = .ok y) ∧
      y.length = x.length ∧ (∀ c ∈ y, c.Single) ∧
      sqDist (y.map Cx.singleVal) (fun j => (x.map Cx.singleVal).getD j 0) ≤
        ((63 * k + 3) * ((1 + 1 / 2 ^ 10) / 2 ^ 24)) ^ 2 * (energy (x.map Cx.singleVal) + 2 ^ k) := by
  obtain ⟨y, h1, h2, h3, h4⟩ := C135_round_trip_error (laws32 lib h fuse) hk hl (fun c hc => (hf c hc).finC h) hb
  refine ⟨y, h1, h2, fun c hc => single_of ?_ (h3 c hc), h4⟩
  have e := h1 (k + 1) (by omega)
  rw [eq_tab hl (x.headD ⟨⟨false, nan⟩, ⟨false, nan⟩⟩), fftComplex_eq _ k _ (by omega), ok_bind, ifftComplex_eq _ k _ (by omega)] at e
  obtain rfl := Except.ok.inj e
  obtain ⟨j, hj, rfl⟩ := mem_tab hc
  exact ifftF32_isSingle k (fftF32_isSingle k (single_getD hl hf)) j

/-- The four points 1+5i, 2, 3, 4. -/
def fourPoints32 : List (Cx FVal) :=
  [⟨⟨false, num false 1 0⟩, ⟨false, num false 5 0⟩⟩, ⟨⟨false, num false 2 0⟩, ⟨false, num false 0 0⟩⟩,
    ⟨⟨false, num false 3 0⟩, ⟨false, num false 0 0⟩⟩, ⟨⟨false, num false 4 0⟩, ⟨false, num false 0 0⟩⟩]

theorem fourPoints32_ok : fourPoints32.length = 2 ^ 2 ∧ (∀ c ∈ fourPoints32, c.Single) ∧ energy (fourPoints32.map Cx.singleVal) = 55 := by
  refine ⟨rfl, ?_, ?_⟩
  · intro c hc
    fin_cases hc <;> exact ⟨rfl, rfl, ⟨by norm_num, by norm_num, by norm_num⟩, ⟨by norm_num, by norm_num, by norm_num⟩⟩
  · unfold energy fourPoints32
    simp only [List.map_cons, List.map_nil, List.length_cons, List.length_nil, sum_range_succ, range_zero, sum_empty,
      List.getD_cons_zero, List.getD_cons_succ, Complex.sq_norm, normSq_apply, Cx.singleVal, toRat_num]
    norm_num

example := C135_binary32_fft C135_accurate_library.choose_spec (fun _ _ _ _ => .second) (k := 2) (by norm_num) fourPoints32_ok.1
  fourPoints32_ok.2.1 (by rw [fourPoints32_ok.2.2]; norm_num)

example := C135_binary32_round_trip C135_accurate_library.choose_spec (fun _ _ _ _ => .second) (k := 2) (by norm_num) fourPoints32_ok.1
  fourPoints32_ok.2.1 (by rw [fourPoints32_ok.2.2]; norm_num)

/-! ### C136 -/

theorem pipeline32_isSingle (lib : MathLib) (fuse : Fusing32) (a b : List ℕ) (k i : ℕ) :
    (ifftF (binary32 lib fuse) k (pointF (binary32 lib fuse) (2 ^ k) (fftF (binary32 lib fuse) k (packF (binary32 lib fuse) a b))) i).IsSingle :=
  ifftF32_isSingle k (pointF32_isSingle _ (fftF32_isSingle k fun _ => ⟨rfl, rfl⟩)) i

/-- The convolution on binary32 from what the laws give. -/
theorem conv32 {lib : MathLib} (h : lib.AccurateSingle) (fuse : Fusing32) {a b : List ℕ} (h1 : 1 ≤ a.length + b.length)
    (h2 : a.length + b.length ≤ 2 ^ 32)
    (hc : ∃ inv, (∀ fuel, 32 < fuel → (do let table ← createFftTable (binary32 lib fuse) a b
                                          let table ← convoluteFft (binary32 lib fuse) fuel table
                                          ifftComplex (binary32 lib fuse) fuel table) = .ok inv) ∧ a.length + b.length ≤ inv.length ∧
      ∀ i z, inv[i]? = some z → (laws32 lib h fuse).fin z.re ∧ |(laws32 lib h fuse).val z.re - colSum a b i| < 1 / 2) :
    ∃ inv, (∀ fuel, 32 < fuel → (do let table ← createFftTable (binary32 lib fuse) a b
                                    let table ← convoluteFft (binary32 lib fuse) fuel table
                                    ifftComplex (binary32 lib fuse) fuel table) = .ok inv) ∧ a.length + b.length ≤ inv.length ∧
      ∀ i z, inv[i]? = some z → z.re.dbl = false ∧ B32.Finite z.re.v ∧ |toRat z.re.v - colSum a b i| < 1 / 2 := by
  obtain ⟨inv, e, hl, hi⟩ := hc
  refine ⟨inv, e, hl, fun i z hz => ?_⟩
  obtain ⟨k, hk, hs, -, -⟩ := fftTableSize_eq h1 h2
  have e' := e 33 (by omega)
  rw [pipeline_eq (binary32 lib fuse) hk hs (by omega : 32 < 33)] at e'
  obtain rfl := Except.ok.inj e'
  obtain ⟨j, hj, hz'⟩ := mem_tab (List.mem_of_getElem? hz)
  have hd : z.re.dbl = false := by rw [← hz']; exact (pipeline32_isSingle lib fuse a b k j).1
  obtain ⟨h3, h4⟩ := hi i z hz
  refine ⟨hd, FVal.Finite.single h3 hd, ?_⟩
  have : ((|toRat z.re.v - colSum a b i| : ℚ) : ℝ) < ((1 / 2 : ℚ) : ℝ) := by push_cast; exact h4
  exact_mod_cast this

/-- C136 on binary32, decimal digits: lists of up to 43 each. -/
theorem C136_binary32_decimal {lib : MathLib} (h : lib.AccurateSingle) (fuse : Fusing32) {a b : List ℕ} (h1 : 1 ≤ a.length + b.length)
    (ha : a.length ≤ 43) (hb : b.length ≤ 43) (had : ∀ d ∈ a, d < 10) (hbd : ∀ d ∈ b, d < 10) :
    ∃ inv, (∀ fuel, 32 < fuel → (do let table ← createFftTable (binary32 lib fuse) a b
                                    let table ← convoluteFft (binary32 lib fuse) fuel table
                                    ifftComplex (binary32 lib fuse) fuel table) = .ok inv) ∧ a.length + b.length ≤ inv.length ∧
      ∀ i z, inv[i]? = some z → z.re.dbl = false ∧ B32.Finite z.re.v ∧ |toRat z.re.v - colSum a b i| < 1 / 2 :=
  conv32 h fuse h1 (by omega) (C136_decimal (laws32 lib h fuse) h1 ha hb had hbd)

example := C136_binary32_decimal C135_accurate_library.choose_spec (fun _ _ _ _ => .first) (a := [9, 9, 9]) (b := [9, 8]) (by simp) (by simp)
  (by simp) (by simp) (by simp)

/-- C136 on binary32, binary digits: lists of up to 512 each. -/
theorem C136_binary32_binary {lib : MathLib} (h : lib.AccurateSingle) (fuse : Fusing32) {a b : List ℕ} (h1 : 1 ≤ a.length + b.length)
    (ha : a.length ≤ 512) (hb : b.length ≤ 512) (had : ∀ d ∈ a, d < 2) (hbd : ∀ d ∈ b, d < 2) :
    ∃ inv, (∀ fuel, 32 < fuel → (do let table ← createFftTable (binary32 lib fuse) a b
                                    let table ← convoluteFft (binary32 lib fuse) fuel table
                                    ifftComplex (binary32 lib fuse) fuel table) = .ok inv) ∧ a.length + b.length ≤ inv.length ∧
      ∀ i z, inv[i]? = some z → z.re.dbl = false ∧ B32.Finite z.re.v ∧ |toRat z.re.v - colSum a b i| < 1 / 2 :=
  conv32 h fuse h1 (by omega) (C136_binary (laws32 lib h fuse) h1 ha hb had hbd)

example := C136_binary32_binary C135_accurate_library.choose_spec (fun _ _ _ _ => .first) (a := [1, 0, 1]) (b := [1, 1]) (by simp) (by simp)
  (by simp) (by simp) (by simp)

theorem roundQ32_cases (z : Bool) (x : ℚ) : (∃ s, B32.roundQ z x = inf s) ∨ B32.Finite (B32.roundQ z x) := by
  by_cases h : 2 ^ 128 - 2 ^ 103 ≤ |x|
  · exact .inl ⟨_, B32.overflow z h⟩
  · exact .inr (B32.rounded z (not_le.1 h)).finite

theorem div32_cases (x y : B64) : B32.div x y = nan ∨ (∃ s, B32.div x y = inf s) ∨ B32.Finite (B32.div x y) := by
  cases x <;> cases y <;> simp only [B32.div, true_or]
  · exact .inr (.inl ⟨_, rfl⟩)
  · exact .inr (.inr ⟨by norm_num, by norm_num, by norm_num⟩)
  · split_ifs
    · exact .inl rfl
    · exact .inr (.inl ⟨_, rfl⟩)
    · exact .inr (roundQ32_cases _ _)

theorem div32_single {x y : FVal} (h : (x.div y).dbl = false) : ∃ a b, (x.div y).v = B32.div a b :=
  ⟨x.v, y.v, if_neg (by
    show ¬ (x.div y).dbl = true
    rw [h]; simp)⟩

/-- C136 on binary32: a coefficient is no number at all or has at most 24 bits and is then not within less than 1 of the product of the
digits 65535 and 65535, for every convolution, library and compiler. -/
theorem C136_binary32_wide (lib : MathLib) (fuse : Fusing32) (a b : List ℕ) (h1 : 1 ≤ a.length + b.length) (h2 : a.length + b.length ≤ 2 ^ 32) :
    ∃ inv, (∀ fuel, 32 < fuel → (do let table ← createFftTable (binary32 lib fuse) a b
                                    let table ← convoluteFft (binary32 lib fuse) fuel table
                                    ifftComplex (binary32 lib fuse) fuel table) = .ok inv) ∧ inv ≠ [] ∧
      ∀ z ∈ inv, z.re.dbl = false ∧ (z.re.v = nan ∨ (∃ s, z.re.v = B64.inf s) ∨
        B32.Finite z.re.v ∧ 1 ≤ |toRat z.re.v - ((65535 * 65535 : ℕ) : ℚ)|) := by
  obtain ⟨k, hk, hs, hl, hu⟩ := fftTableSize_eq h1 h2
  refine ⟨_, fun fuel hf => pipeline_eq _ hk hs hf, ?_, fun z hz => ?_⟩
  · intro hc
    have := congrArg List.length hc
    simp [tab] at this
  · obtain ⟨i, hi, rfl⟩ := mem_tab hz
    have hd := (pipeline32_isSingle lib fuse a b k i).1
    refine ⟨hd, ?_⟩
    generalize hz : ifftF (binary32 lib fuse) k _ i = z at hd ⊢
    have hv : ∃ x y, z.re.v = B32.div x y := by
      rw [← hz] at hd ⊢
      exact div32_single hd
    obtain ⟨x, y, hv⟩ := hv
    rcases div32_cases x y with h | h | h
    · exact .inl (hv.trans h)
    · exact .inr (.inl (by rw [hv]; exact h))
    · rw [← hv] at h
      refine .inr (.inr ⟨h, ?_⟩)
      obtain ⟨m, e, he, hm, -, -⟩ := B32.toRat_rep h
      have := hasBits_far (z := ((toRat z.re.v : ℚ) : ℝ)) ⟨m, e, by rw [he]; push_cast; rfl, hm.le⟩
      have h3 : ((1 : ℚ) : ℝ) ≤ ((|toRat z.re.v - ((65535 * 65535 : ℕ) : ℚ)| : ℚ) : ℝ) := by push_cast at this ⊢; exact this
      exact_mod_cast h3

example := C136_binary32_wide C135_accurate_library.choose (fun _ _ _ _ => .separate) [65535] [65535] (by simp) (by simp)

end BN
