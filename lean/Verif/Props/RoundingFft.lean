import Verif.Props.Single
import Verif.Props.Rounding
/-
C142: the transforms when the rounding mode of the processor is not "to nearest", or changes at any moment.
-/
namespace BN
open Complex Finset

/-- A list of computed complex numbers as complex numbers. -/
def numbers {F : Type} (val : F → ℝ) (x : List (Cx F)) : List ℂ := x.map fun c => ⟨val c.re, val c.im⟩

section
variable {φ : FP.Prec} {F : Type} {o : FloatOps F} (M : Laws φ.toFormat o)

theorem fft_error_prec {k : ℕ} (hk : k ≤ φ.K) {x : List (Cx F)} (h : x.length = 2 ^ k) (hf : ∀ c ∈ x, M.finC c)
    (hb : 2 ^ k * (energy (x.map M.c) + 2 ^ k) ≤ φ.A ^ 2) :
    ∃ y, (∀ n, k < n → fftComplex o n x = .ok y) ∧ y.length = x.length ∧ (∀ c ∈ y, M.finC c) ∧
      sqDist (y.map M.c) (DFT (x.map M.c)) ≤ (31 * k * φ.u) ^ 2 * (2 ^ k * (energy (x.map M.c) + 2 ^ k)) := by
  have d : Cx F := ⟨o.pi, o.pi⟩
  rw [energy_gsz' M h d] at hb ⊢
  obtain ⟨h1, h2⟩ := FP.fftF_ok M hk (finC_getD' M h hf d) hb
  refine ⟨tab (2 ^ k) (fftF o k (fun t => x.getD t d)), fun n hn => ?_, by simp [tab, h], fun c hc => ?_, ?_⟩
  · conv_lhs => rw [eq_tab h d]
    exact fftComplex_eq o k _ hn
  · simp only [tab, List.mem_map, List.mem_range] at hc
    obtain ⟨j, hj, rfl⟩ := hc
    exact h1 j hj
  · unfold sqDist
    rw [tab_map]
    simp only [tab_length]
    refine le_trans (le_of_eq (sum_congr rfl fun j hj => ?_)) (le_trans h2 ?_)
    · have hj' := mem_range.1 hj
      rw [List.getD_eq_getElem _ _ (by simpa [tab] using hj'), DFT_eq (by simpa using h)]
      congr 3
      · simp [tab]
      · unfold dft
        exact sum_congr rfl fun t ht => by
          simp only
          rw [getD_map_lt M.c d (by rw [h]; exact mem_range.1 ht)]
    · have hg := gsz_nonneg (2 ^ k) (fun t => M.c (x.getD t d))
      apply mul_le_mul_of_nonneg_right _ (by positivity)
      exact pow_le_pow_left₀ (FP.theta_nonneg φ k) (FP.theta_le hk) 2

theorem round_trip_error_prec {k : ℕ} (hk : k ≤ φ.K) {x : List (Cx F)} (h : x.length = 2 ^ k) (hf : ∀ c ∈ x, M.finC c)
    (hb : 2 ^ k * (2 ^ k * (energy (x.map M.c) + 2 ^ k)) ≤ φ.A ^ 2 / 2) :
    ∃ y, (∀ n, k < n → (do let y ← fftComplex o n x; ifftComplex o n y) = .ok y) ∧ y.length = x.length ∧ (∀ c ∈ y, M.finC c) ∧
      sqDist (y.map M.c) (fun j => (x.map M.c).getD j 0) ≤ ((63 * k + 3) * φ.u) ^ 2 * (energy (x.map M.c) + 2 ^ k) := by
  have d : Cx F := ⟨o.pi, o.pi⟩
  rw [energy_gsz' M h d] at hb ⊢
  obtain ⟨h1, h2⟩ := FP.roundTrip_ok M hk (finC_getD' M h hf d) hb
  refine ⟨tab (2 ^ k) (ifftF o k (fftF o k (fun t => x.getD t d))), fun n hn => ?_, by simp [tab, h], fun c hc => ?_, ?_⟩
  · have e1 : fftComplex o n x = .ok (tab (2 ^ k) (fftF o k (fun t => x.getD t d))) := by
      conv_lhs => rw [eq_tab h d]
      exact fftComplex_eq o k _ hn
    rw [e1, ok_bind, ifftComplex_eq o k _ hn]
  · simp only [tab, List.mem_map, List.mem_range] at hc
    obtain ⟨j, hj, rfl⟩ := hc
    exact h1 j hj
  · unfold sqDist
    rw [tab_map]
    simp only [tab_length]
    refine le_trans (le_of_eq (sum_congr rfl fun j hj => ?_)) h2
    have hj' := mem_range.1 hj
    rw [List.getD_eq_getElem _ _ (by simpa [tab] using hj'), getD_map_lt M.c d (by rw [h]; exact hj')]
    simp [tab]

end

/-! ### C142 -/

section
variable {F : Type} {o : FloatOps F} {val : F → ℝ}

/-- Whatever the rounding mode is at each operation, the root-mean-square error of the transform of `2^k` points is at most `31·k`
times 2^-52 (and a thousandth of it) times the size of the data: twice what it is when rounding to nearest. -/
theorem C142_fft_error (ho : AnyMode o val) {k : ℕ} (hk : k ≤ 32) {x : List (Cx F)} (h : x.length = 2 ^ k)
    (hb : 2 ^ k * (energy (numbers val x) + 2 ^ k) ≤ 2 ^ 180) :
    ∃ y, (∀ n, k < n → fftComplex o n x = .ok y) ∧ y.length = x.length ∧
      sqDist (numbers val y) (DFT (numbers val x)) ≤
        (31 * k * ((1 + 1 / 2 ^ 10) / 2 ^ 52)) ^ 2 * (2 ^ k * (energy (numbers val x) + 2 ^ k)) :=
  let ⟨y, h1, h2, _, h3⟩ := fft_error_prec (φ := FP.anyMode) (anyModeLaws ho) hk h (fun _ _ => ⟨trivial, trivial⟩)
    (hb.trans (by norm_num [FP.anyMode]))
  ⟨y, h1, h2, h3⟩

/-- Transforming and transforming back in any rounding modes. -/
theorem C142_round_trip_error (ho : AnyMode o val) {k : ℕ} (hk : k ≤ 32) {x : List (Cx F)} (h : x.length = 2 ^ k)
    (hb : 2 ^ k * (2 ^ k * (energy (numbers val x) + 2 ^ k)) ≤ 2 ^ 179) :
    ∃ y, (∀ n, k < n → (do let y ← fftComplex o n x; ifftComplex o n y) = .ok y) ∧ y.length = x.length ∧
      sqDist (numbers val y) (fun j => (numbers val x).getD j 0) ≤
        ((63 * k + 3) * ((1 + 1 / 2 ^ 10) / 2 ^ 52)) ^ 2 * (energy (numbers val x) + 2 ^ k) :=
  let ⟨y, h1, h2, _, h3⟩ := round_trip_error_prec (φ := FP.anyMode) (anyModeLaws ho) hk h (fun _ _ => ⟨trivial, trivial⟩)
    (hb.trans (by norm_num [FP.anyMode]))
  ⟨y, h1, h2, h3⟩

/-- The four points 1+5i, 2, 3, 4. -/
theorem fourPoints_anyMode (ho : AnyMode o val) :
    let x : List (Cx F) := [⟨o.ofNat 1, o.ofNat 5⟩, ⟨o.ofNat 2, o.ofNat 0⟩, ⟨o.ofNat 3, o.ofNat 0⟩, ⟨o.ofNat 4, o.ofNat 0⟩]
    x.length = 2 ^ 2 ∧ 2 ^ 2 * (2 ^ 2 * (energy (numbers val x) + 2 ^ 2)) ≤ (2 : ℝ) ^ 179 := by
  intro x
  have h : ∀ n ≤ 5, val (o.ofNat n) = n := fun n hn => ((anyModeLaws ho).ofNat_ok n (le_trans hn (by norm_num [Format.anyMode]))).2
  refine ⟨rfl, ?_⟩
  unfold energy
  simp only [numbers, x, List.map_cons, List.map_nil, List.length_cons, List.length_nil, sum_range_succ, range_zero, sum_empty,
    List.getD_cons_zero, List.getD_cons_succ, Complex.sq_norm, normSq_apply, h _ (by norm_num : 0 ≤ 5),
    h _ (by norm_num : 1 ≤ 5), h _ (by norm_num : 2 ≤ 5), h _ (by norm_num : 3 ≤ 5), h _ (by norm_num : 4 ≤ 5),
    h _ (by norm_num : 5 ≤ 5)]
  norm_num

end

example := C142_fft_error (mode_anyMode (fun _ => (.down, .stored)) accurate_exact8) (k := 2) (by norm_num)
  (fourPoints_anyMode (mode_anyMode (fun _ => (.down, .stored)) accurate_exact8)).1 (by
    have h := (fourPoints_anyMode (mode_anyMode (fun _ => (.down, .stored)) accurate_exact8)).2
    norm_num at h ⊢
    linarith)

example := C142_round_trip_error (mode_anyMode (fun _ => (.zero, .kept)) accurate_exact8) (k := 2) (by norm_num)
  (fourPoints_anyMode (mode_anyMode (fun _ => (.zero, .kept)) accurate_exact8)).1
  (fourPoints_anyMode (mode_anyMode (fun _ => (.zero, .kept)) accurate_exact8)).2

end BN
