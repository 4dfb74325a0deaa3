import Verif.Lemmas.Samples
import Verif.Lemmas.FftExact
import Verif.Lemmas.FftErr5
import Verif.Props.Multiplication
/-
The Fourier functions of fourier.h as an interface of their own: C75 (exact arithmetic), C76 (any length), C77 (rounding).
-/
namespace BN
open Finset Complex

/-- The discrete Fourier transform of a list, from the textbook. -/
noncomputable def DFT (x : List ℂ) (j : ℕ) : ℂ :=
  ∑ t ∈ range x.length, x.getD t 0 * exp (-2 * Real.pi * I * (j * t) / x.length)

/-- The inverse transform of a list. -/
noncomputable def InvDFT (x : List ℂ) (j : ℕ) : ℂ :=
  (∑ t ∈ range x.length, x.getD t 0 * exp (2 * Real.pi * I * (j * t) / x.length)) / x.length

theorem rt_pow_exp (k m : ℕ) : rt k ^ m = exp (-2 * Real.pi * I * m / (2 ^ k : ℕ)) := by
  unfold rt
  rw [← exp_nat_mul]
  congr 1
  push_cast
  ring

theorem DFT_eq {k : ℕ} {x : List ℂ} (h : x.length = 2 ^ k) (j : ℕ) : DFT x j = dft k (fun t => x.getD t 0) j := by
  unfold DFT dft
  rw [h]
  refine sum_congr rfl fun t _ => ?_
  rw [rt_pow_exp]
  push_cast
  rfl

theorem InvDFT_eq {k : ℕ} {x : List ℂ} (h : x.length = 2 ^ k) (j : ℕ) : InvDFT x j = idft k (fun t => x.getD t 0) j := by
  unfold InvDFT idft
  rw [h]
  refine congrArg₂ _ (sum_congr rfl fun t _ => ?_) rfl
  rw [inv_pow, rt_pow_exp, ← exp_neg]
  push_cast
  congr 2
  ring

theorem eq_tab {α : Type} {n : ℕ} {x : List α} (h : x.length = n) (d : α) : x = tab n (fun t => x.getD t d) := by
  apply List.ext_getElem
  · simp [tab, h]
  · intro i h1 h2
    simp [tab, List.getD_eq_getElem?_getD, List.getElem?_eq_getElem h1]

theorem getElem?_tab {α : Type} {n i : ℕ} (f : ℕ → α) {z : α} (h : (tab n f)[i]? = some z) : i < n ∧ f i = z := by
  have hi : i < n := by
    by_contra hc
    rw [List.getElem?_eq_none (by simpa [tab] using hc)] at h; cases h
  unfold tab at h
  rw [List.getElem?_map, List.getElem?_range hi] at h
  exact ⟨hi, Option.some.inj h⟩

theorem getD_toC (x : List (Cx ℝ)) (t : ℕ) : (x.map toC).getD t 0 = toC (x.getD t ⟨0, 0⟩) := by
  have h0 : toC ⟨0, 0⟩ = 0 := by simp [toC]; rfl
  rw [← h0, List.getD_map]

/-! ### C75 -/

/-- In exact arithmetic `fft_complex` replaces a list of power-of-two length by its discrete Fourier transform. -/
theorem C75_fft_is_dft {k : ℕ} {x : List (Cx ℝ)} (h : x.length = 2 ^ k) :
    ∃ y, (∀ n, k < n → fftComplex exactOps n x = .ok y) ∧ y.length = x.length ∧
      ∀ j z, y[j]? = some z → toC z = DFT (x.map toC) j := by
  refine ⟨tab (2 ^ k) (fftF exactOps k (fun t => x.getD t ⟨0, 0⟩)), fun n hn => ?_, by simp [tab, h], fun j z hz => ?_⟩
  · conv_lhs => rw [eq_tab h ⟨0, 0⟩]
    exact fftComplex_eq exactOps k _ hn
  · obtain ⟨hj, rfl⟩ := getElem?_tab _ hz
    rw [toC_fftF _ _ _ hj, DFT_eq (by simpa using h)]
    simp only [getD_toC]

example := C75_fft_is_dft (k := 2) (x := [⟨1, 2⟩, ⟨3, 4⟩, ⟨5, 6⟩, ⟨7, 8⟩]) rfl

/-- `ifft_complex` computes the inverse transform. -/
theorem C75_ifft_is_inverse_dft {k : ℕ} {x : List (Cx ℝ)} (h : x.length = 2 ^ k) :
    ∃ y, (∀ n, k < n → ifftComplex exactOps n x = .ok y) ∧ y.length = x.length ∧
      ∀ j z, y[j]? = some z → toC z = InvDFT (x.map toC) j := by
  refine ⟨tab (2 ^ k) (ifftF exactOps k (fun t => x.getD t ⟨0, 0⟩)), fun n hn => ?_, by simp [tab, h], fun j z hz => ?_⟩
  · conv_lhs => rw [eq_tab h ⟨0, 0⟩]
    exact ifftComplex_eq exactOps k _ hn
  · obtain ⟨hj, rfl⟩ := getElem?_tab _ hz
    rw [toC_ifftF _ _ hj, InvDFT_eq (by simpa using h)]
    simp only [getD_toC]

example := C75_ifft_is_inverse_dft (k := 2) (x := [⟨1, 2⟩, ⟨3, 4⟩, ⟨5, 6⟩, ⟨7, 8⟩]) rfl

theorem toC_inj {x y : Cx ℝ} (h : toC x = toC y) : x = y := by
  cases x; cases y
  simp only [toC, Complex.mk.injEq] at h
  simp [h.1, h.2]

/-- Transforming and transforming back gives the list that was there. -/
theorem C75_round_trip {k : ℕ} {x : List (Cx ℝ)} (h : x.length = 2 ^ k) {n : ℕ} (hn : k < n) :
    (do let y ← fftComplex exactOps n x; ifftComplex exactOps n y) = .ok x := by
  have e1 : fftComplex exactOps n x = .ok (tab (2 ^ k) (fftF exactOps k (fun t => x.getD t ⟨0, 0⟩))) := by
    conv_lhs => rw [eq_tab h ⟨0, 0⟩]
    exact fftComplex_eq exactOps k _ hn
  rw [e1, ok_bind, ifftComplex_eq exactOps k _ hn]
  congr 1
  conv_rhs => rw [eq_tab h ⟨0, 0⟩]
  refine tab_congr fun i hi => toC_inj ?_
  rw [toC_ifftF _ _ hi, idft_congr (fun j hj => toC_fftF k _ j hj), idft_dft _ _ hi]

example := C75_round_trip (k := 2) (x := [⟨1, 2⟩, ⟨3, 4⟩, ⟨5, 6⟩, ⟨7, 8⟩]) rfl (n := 3) (by decide)

/-- `convolute_fft` takes two real signals packed as real and imaginary parts and leaves the product of their transforms. -/
theorem C75_convolute {k : ℕ} (hk : k ≤ 64) {x : List (Cx ℝ)} (h : x.length = 2 ^ k) :
    ∃ y, (∀ n, k < n → convoluteFft exactOps n x = .ok y) ∧ y.length = x.length ∧
      ∀ j z, y[j]? = some z → toC z = DFT (x.map fun c => (c.re : ℂ)) j * DFT (x.map fun c => (c.im : ℂ)) j := by
  refine ⟨tab (2 ^ k) (pointF exactOps (2 ^ k) (fftF exactOps k (fun t => x.getD t ⟨0, 0⟩))), fun n hn => ?_, by simp [tab, h],
    fun j z hz => ?_⟩
  · conv_lhs => rw [eq_tab h ⟨0, 0⟩]
    exact convoluteFft_eq exactOps hk _ hn
  obtain ⟨hj, rfl⟩ := getElem?_tab _ hz
  have hm : (2 ^ k - j) % 2 ^ k < 2 ^ k := Nat.mod_lt _ (by positivity)
  rw [toC_pointF, toC_fftF _ _ _ hj, toC_fftF _ _ _ hm, dft_mirror k _ hj, DFT_eq (by simpa using h), DFT_eq (by simpa using h)]
  have z1 : ∀ t, (x.map fun c => (c.re : ℂ)).getD t 0 = ((x.getD t ⟨0, 0⟩).re : ℂ) := fun t => by
    conv_lhs => rw [show (0 : ℂ) = (fun c : Cx ℝ => (c.re : ℂ)) ⟨0, 0⟩ by simp, List.getD_map]
  have z2 : ∀ t, (x.map fun c => (c.im : ℂ)).getD t 0 = ((x.getD t ⟨0, 0⟩).im : ℂ) := fun t => by
    conv_lhs => rw [show (0 : ℂ) = (fun c : Cx ℝ => (c.im : ℂ)) ⟨0, 0⟩ by simp, List.getD_map]
  simp only [z1, z2]
  have e1 : (fun t => toC (x.getD t ⟨0, 0⟩)) = fun t => ((x.getD t ⟨0, 0⟩).re : ℂ) + I * ((x.getD t ⟨0, 0⟩).im : ℂ) := by
    funext t; apply Complex.ext <;> simp [toC]
  have e2 : (fun t => (starRingEnd ℂ) (toC (x.getD t ⟨0, 0⟩))) =
      fun t => ((x.getD t ⟨0, 0⟩).re : ℂ) + (-I) * ((x.getD t ⟨0, 0⟩).im : ℂ) := by
    funext t; apply Complex.ext <;> simp [toC]
  rw [e2, e1, dft_lin, dft_lin]
  have hI : I * I = -1 := I_mul_I
  linear_combination (-(dft k (fun t => ((x.getD t ⟨0, 0⟩).re : ℂ)) j * dft k (fun t => ((x.getD t ⟨0, 0⟩).im : ℂ)) j)) * hI

example : ([⟨1, 2⟩, ⟨3, 4⟩, ⟨5, 6⟩, ⟨7, 8⟩] : List (Cx ℝ)).length = 2 ^ 2 := rfl

/-! ### C76 -/

section
variable {F : Type} (o : FloatOps F)

theorem rdAt_lt {α : Type} {v : List α} {i : ℕ} (h : i < v.length) : ∃ d, rdAt v i = .ok d := by
  unfold rdAt
  rw [List.getElem?_eq_getElem h]
  exact ⟨_, rfl⟩

theorem fftPartition_any (x : List (Cx F)) (h : ℕ) : ∀ i, 2 * i ≤ x.length →
    ∃ e d, fftPartition x h i = .ok (e, d) ∧ e.length = i ∧ d.length = i
  | 0, _ => ⟨[], [], rfl, rfl, rfl⟩
  | i + 1, hi => by
    obtain ⟨e, d, h1, h2, h3⟩ := fftPartition_any x h i (by omega)
    obtain ⟨u, hu⟩ := rdAt_lt (v := x) (i := 2 * i) (by omega)
    obtain ⟨v, hv⟩ := rdAt_lt (v := x) (i := 2 * i + 1) (by omega)
    refine ⟨e ++ [u], d ++ [v], ?_, by simp [h2], by simp [h3]⟩
    show (do let (evens, odds) ← fftPartition x h i; _) = _
    rw [h1, ok_bind]
    simp only
    rw [if_pos (by omega), hu, ok_bind, hv, ok_bind]

/-- The combination loop with a tail behind the cells it writes. -/
theorem fftCombine_any (len h : ℕ) {e d : List (Cx F)} (he : e.length = h) (hd : d.length = h) : ∀ i, i ≤ h → ∀ x : List (Cx F),
    x.length = 2 * h → ∃ w, w.length = 2 * h ∧ ∀ z, fftCombine o len h e d i (x ++ z) = .ok (w ++ z)
  | 0, _, x, hx => ⟨x, hx, fun z => rfl⟩
  | k + 1, hk, x, hx => by
    obtain ⟨w, hw, hz⟩ := fftCombine_any len h he hd k (by omega) x hx
    obtain ⟨u, hu⟩ := rdAt_lt (v := e) (i := k) (by omega)
    obtain ⟨v, hv⟩ := rdAt_lt (v := d) (i := k) (by omega)
    refine ⟨(w.set k (Cx.add o u (Cx.mul o (twiddle o len k) v))).set (k + h) (Cx.sub o u (Cx.mul o (twiddle o len k) v)),
      by simp [hw], fun z => ?_⟩
    show (do let x ← fftCombine o len h e d k (x ++ z); _) = _
    rw [hz z, ok_bind]
    simp only
    rw [hu, ok_bind, hv, ok_bind, if_pos (by simp; omega), List.set_append_left _ _ (by omega),
      List.set_append_left _ _ (by simp; omega)]

theorem fftPartition_append (x z : List (Cx F)) (h : ℕ) : ∀ i, 2 * i ≤ x.length →
    fftPartition (x ++ z) h i = fftPartition x h i
  | 0, _ => rfl
  | i + 1, hi => by
    have hr : ∀ j, j < x.length → rdAt (x ++ z) j = rdAt x j := fun j hj => by
      unfold rdAt; rw [List.getElem?_append_left hj]
    unfold fftPartition
    rw [fftPartition_append x z h i (by omega), hr _ (by omega), hr _ (by omega)]
    have h1 : i < (x ++ z).length := by simp; omega
    have h2 : i < x.length := by omega
    simp only [h1, h2, if_true]

/-- The transform of a list with at most one cell behind an even number of cells. -/
theorem fft_any : ∀ (l : ℕ) (x : List (Cx F)), x.length = 2 * l → 1 ≤ l → ∀ r, r ≤ 1 → ∃ w, w.length = 2 * l ∧
    ∀ n, 2 * l + r < 2 ^ n → ∀ z : List (Cx F), z.length = r → fftComplex o n (x ++ z) = .ok (w ++ z) := by
  intro l
  induction l using Nat.strong_induction_on with
  | _ l ih =>
    intro x hx hl r hr
    have sub : ∀ v : List (Cx F), v.length = l → ∃ y, y.length = l ∧ ∀ n, l < 2 ^ n → fftComplex o n v = .ok y := by
      intro v hv
      by_cases h1 : l = 1
      · refine ⟨v, hv, fun n hn => ?_⟩
        cases n with
        | zero => simp at hn; omega
        | succ n => unfold fftComplex; simp only; rw [if_pos (by omega)]
      · obtain ⟨w, w1, w2⟩ := ih (l / 2) (by omega) (v.take (2 * (l / 2))) (by simp; omega) (by omega) (l % 2) (by omega)
        refine ⟨w ++ v.drop (2 * (l / 2)), by simp [w1]; omega, fun n hn => ?_⟩
        have := w2 n (by omega) (v.drop (2 * (l / 2))) (by simp; omega)
        rwa [List.take_append_drop] at this
    obtain ⟨e, d, p1, p2, p3⟩ := fftPartition_any x l l (by omega)
    obtain ⟨e', q1, q2⟩ := sub e p2
    obtain ⟨d', r1, r2⟩ := sub d p3
    obtain ⟨w, w1, w2⟩ := fftCombine_any o (2 * l + r) l q1 r1 l le_rfl x hx
    refine ⟨w, w1, fun n hn z hz => ?_⟩
    cases n with
    | zero => simp at hn; omega
    | succ n =>
      have hp : 2 ^ (n + 1) = 2 * 2 ^ n := by rw [pow_succ]; ring
      have hlen : (x ++ z).length = 2 * l + r := by simp [hx, hz]
      unfold fftComplex
      simp only [hlen]
      rw [if_neg (by omega), show (2 * l + r) / 2 = l by omega, fftPartition_append x z l l (by omega), p1, ok_bind]
      simp only
      rw [q2 n (by omega), ok_bind, r2 n (by omega), ok_bind, w2 z]

/-- The transform of any non-empty list terminates without touching memory out of bounds and keeps the length; for a
power-of-two length it is the discrete Fourier transform (in exact arithmetic).
Missing: all other lengths, see `C76_right_iff`. -/
theorem C76_any_length_partial :
    (∀ x : List (Cx F), x ≠ [] → ∃ y, Evaluates (fun n => fftComplex o n x) (.ok y) ∧ y.length = x.length) ∧
    (∀ x : List (Cx ℝ), (∃ k, x.length = 2 ^ k) → ∃ y, Evaluates (fun n => fftComplex exactOps n x) (.ok y) ∧
      ∀ j z, y[j]? = some z → toC z = DFT (x.map toC) j) := by
  refine ⟨fun x hx => ?_, fun x ⟨k, hk⟩ => ?_⟩
  · have hx0 : 0 < x.length := List.length_pos_iff.2 hx
    by_cases h1 : x.length = 1
    · refine ⟨x, ⟨1, fun n hn => ?_⟩, rfl⟩
      obtain ⟨m, rfl⟩ : ∃ m, n = m + 1 := ⟨n - 1, by omega⟩
      unfold fftComplex; simp only; rw [if_pos h1]
    · obtain ⟨w, w1, w2⟩ := fft_any o (x.length / 2) (x.take (2 * (x.length / 2))) (by simp; omega) (by omega)
        (x.length % 2) (by omega)
      refine ⟨w ++ x.drop (2 * (x.length / 2)), ⟨x.length, fun n hn => ?_⟩, by simp [w1]; omega⟩
      have hlt : n < 2 ^ n := Nat.lt_two_pow_self
      have := w2 n (by omega) (x.drop (2 * (x.length / 2))) (by simp; omega)
      rwa [List.take_append_drop] at this
  · obtain ⟨y, h1, -, h2⟩ := C75_fft_is_dft hk
    exact ⟨y, ⟨k + 1, fun n hn => h1 n (by omega)⟩, h2⟩

/-- The empty list: unbounded recursion. -/
theorem C76_empty_diverges (n : ℕ) : fftComplex o n [] = .error .timeout := fftComplex_nil o n

/-- The last cell of a list of odd length is neither read nor written. -/
theorem C76_odd_last_ignored {x : List (Cx F)} (h0 : x ≠ []) (h2 : 2 ∣ x.length) :
    ∃ w, w.length = x.length ∧ ∀ z, Evaluates (fun n => fftComplex o n (x ++ [z])) (.ok (w ++ [z])) := by
  have hx0 : 0 < x.length := List.length_pos_iff.2 h0
  obtain ⟨l, hl⟩ := h2
  obtain ⟨w, w1, w2⟩ := fft_any o l x hl (by omega) 1 le_rfl
  refine ⟨w, by omega, fun z => ⟨2 * l + 1, fun n hn => w2 n ?_ [z] rfl⟩⟩
  have hlt : n < 2 ^ n := Nat.lt_two_pow_self
  omega

example (a b : Cx F) := C76_odd_last_ignored (o := o) (x := [a, b]) (by simp) (by simp)

end

/-- No odd length above one is transformed correctly: the code's result is not the transform, for some list of each such length. -/
theorem C76_refuted {m : ℕ} (h0 : 0 < m) (h2 : 2 ∣ m) : ∃ x : List (Cx ℝ), x.length = m + 1 ∧
    ∃ y, Evaluates (fun n => fftComplex exactOps n x) (.ok y) ∧ ∃ z, y[0]? = some z ∧ toC z ≠ DFT (x.map toC) 0 := by
  obtain ⟨w, w1, w2⟩ := C76_odd_last_ignored exactOps (x := List.replicate m (⟨0, 0⟩ : Cx ℝ)) (by simp; omega) (by simpa using h2)
  simp only [List.length_replicate] at w1
  obtain ⟨w0, w, rfl⟩ : ∃ a t, w = a :: t := by cases w with
    | nil => simp at w1; omega
    | cons a t => exact ⟨a, t, rfl⟩
  refine ⟨List.replicate m ⟨0, 0⟩ ++ [⟨w0.re + 1, w0.im⟩], by simp, _, w2 _, w0, rfl, fun h => ?_⟩
  have h0' : toC ⟨0, 0⟩ = 0 := by simp [toC]; rfl
  unfold DFT at h
  simp only [List.map_append, List.map_replicate, h0', List.length_append, List.length_replicate, List.map_cons, List.map_nil,
    List.length_cons, List.length_nil, Nat.cast_zero, zero_mul, mul_zero, zero_div, Complex.exp_zero, mul_one, zero_add] at h
  rw [sum_range_succ, sum_eq_zero (fun t ht => ?_)] at h
  · simp [List.getD_eq_getElem?_getD] at h
    have := congrArg Complex.re h
    simp [toC] at this
  · have ht' := mem_range.1 ht
    simp [List.getD_eq_getElem?_getD, List.getElem?_append_left, ht']

example := C76_refuted (m := 2) (by decide) (by decide)

/-- A length for which some list is transformed wrongly. -/
def WrongAt (m : ℕ) : Prop := ∃ x : List (Cx ℝ), x.length = m ∧
    ∃ y, Evaluates (fun n => fftComplex exactOps n x) (.ok y) ∧ ∃ z, y[0]? = some z ∧ toC z ≠ DFT (x.map toC) 0

/-- A list with every entry repeated. -/
def twice {α : Type} : List α → List α
  | [] => []
  | a :: l => a :: a :: twice l

theorem twice_length {α : Type} : ∀ l : List α, (twice l).length = 2 * l.length
  | [] => rfl
  | a :: l => by simp [twice, twice_length l]; ring

theorem twice_get {α : Type} : ∀ (l : List α) (i : ℕ), (twice l)[2 * i]? = l[i]? ∧ (twice l)[2 * i + 1]? = l[i]?
  | [], i => by simp [twice]
  | a :: l, 0 => by simp [twice]
  | a :: l, i + 1 => by
    have := twice_get l i
    simpa [twice, mul_add, add_right_comm] using this

theorem DFT_zero (x : List ℂ) : DFT x 0 = x.sum := by
  unfold DFT
  simp only [Nat.cast_zero, zero_mul, mul_zero, zero_div, Complex.exp_zero, mul_one]
  induction x with
  | nil => simp
  | cons a x ih => rw [List.length_cons, sum_range_succ', List.sum_cons, ← ih, add_comm]; simp

theorem twice_sum : ∀ l : List (Cx ℝ), ((twice l).map toC).sum = 2 * (l.map toC).sum
  | [] => by simp [twice]
  | a :: l => by simp [twice, twice_sum l]; ring

theorem of_bind_ok {α β : Type} {x : Res α} {f : α → Res β} {b : β} (h : (x >>= f) = .ok b) : ∃ a, x = .ok a ∧ f a = .ok b := by
  cases x with
  | error e => cases h
  | ok a => exact ⟨a, rfl, h⟩

/-- The first cell after the combination loop. -/
theorem fftCombine_head {F : Type} (o : FloatOps F) {len h : ℕ} {E D : List (Cx F)} {e d : Cx F} (he : E[0]? = some e)
    (hd : D[0]? = some d) (hh : 0 < h) : ∀ (k : ℕ) {x w : List (Cx F)}, fftCombine o len h E D (k + 1) x = .ok w →
      w[0]? = some (Cx.add o e (Cx.mul o (twiddle o len 0) d))
  | 0, x, w, hw => by
    simp only [fftCombine, rdAt, he, hd, ok_bind] at hw
    split at hw
    · rename_i hx
      obtain rfl := Except.ok.inj hw
      rw [List.getElem?_set_ne (by omega), List.getElem?_set_self (by omega)]
    · cases hw
  | k + 1, x, w, hw => by
    rw [fftCombine] at hw
    obtain ⟨x', h1, hw⟩ := of_bind_ok hw
    obtain ⟨e', -, hw⟩ := of_bind_ok hw
    obtain ⟨d', -, hw⟩ := of_bind_ok hw
    split at hw
    · obtain rfl := Except.ok.inj hw
      rw [List.getElem?_set_ne (by omega), List.getElem?_set_ne (by omega)]
      exact fftCombine_head o he hd hh k h1
    · cases hw

theorem fftPartition_twice {F : Type} (E : List (Cx F)) (h : ℕ) : ∀ i, i ≤ E.length →
    fftPartition (twice E) h i = .ok (E.take i, E.take i)
  | 0, _ => by simp [fftPartition]
  | i + 1, hi => by
    unfold fftPartition
    rw [fftPartition_twice E h i (by omega), ok_bind]
    simp only [twice_length, rdAt, (twice_get E i).1, (twice_get E i).2, List.getElem?_eq_getElem (show i < E.length by omega), ok_bind]
    rw [if_pos (by omega), List.take_add_one, List.getElem?_eq_getElem (show i < E.length by omega)]
    rfl

theorem wrongAt_double {m : ℕ} (h0 : 0 < m) (h : WrongAt m) : WrongAt (2 * m) := by
  obtain ⟨E, h1, E', ⟨n₁, h2⟩, z, h3, h4⟩ := h
  have hlen : (twice E).length = 2 * m := by rw [twice_length, h1]
  have hne : (twice E) ≠ [] := by intro hc; rw [hc] at hlen; simp at hlen; omega
  obtain ⟨y, ⟨n₂, h5⟩, h6⟩ := (C76_any_length_partial exactOps).1 _ hne
  refine ⟨_, hlen, y, ⟨n₂, h5⟩, Cx.add exactOps z (Cx.mul exactOps (twiddle exactOps (2 * m) 0) z), ?_, ?_⟩
  · have h7 := h5 (max n₁ n₂ + 1) (by omega)
    simp only at h7
    unfold fftComplex at h7
    simp only [hlen] at h7
    rw [if_neg (by omega), show 2 * m / 2 = m by omega, fftPartition_twice E m m (by omega), ok_bind] at h7
    simp only at h7
    rw [List.take_of_length_le (by omega), show fftComplex exactOps (max n₁ n₂) E = _ from h2 _ (by omega), ok_bind, ok_bind] at h7
    obtain ⟨k, rfl⟩ : ∃ k, m = k + 1 := ⟨m - 1, by omega⟩
    exact fftCombine_head exactOps h3 h3 (by omega) k h7
  · have ht : Cx.mul exactOps (twiddle exactOps (2 * m) 0) z = z := by
      simp [twiddle, Cx.mul, exactOps]
    rw [ht, toC_add, DFT_zero, twice_sum, ← two_mul]
    rw [DFT_zero] at h4
    exact fun hc => h4 (mul_left_cancel₀ two_ne_zero hc)

/-- C76, exactly: a length is transformed right, for every list of that length, if and only if it is a power of two. -/
theorem C76_right_iff {m : ℕ} (h0 : 0 < m) :
    (∀ x : List (Cx ℝ), x.length = m → ∃ y, Evaluates (fun n => fftComplex exactOps n x) (.ok y) ∧
      ∀ j z, y[j]? = some z → toC z = DFT (x.map toC) j) ↔ ∃ k, m = 2 ^ k := by
  constructor
  · intro h
    by_contra hc
    have hw : WrongAt m := by
      obtain ⟨k, q, hq, rfl⟩ := Nat.exists_eq_two_pow_mul_odd (n := m) (by omega)
      have hq1 : q ≠ 1 := by rintro rfl; exact hc ⟨k, by simp⟩
      obtain ⟨r, rfl⟩ := hq
      clear hc h
      induction k with
      | zero =>
        have := C76_refuted (m := 2 * r) (by omega) ⟨r, rfl⟩
        simpa [WrongAt] using this
      | succ k ih =>
        have := wrongAt_double (by positivity) (ih (by positivity))
        rwa [← mul_assoc, ← pow_succ'] at this
    obtain ⟨x, h1, y, ⟨n₁, h2⟩, z, h3, h4⟩ := hw
    obtain ⟨y', ⟨n₂, h5⟩, h6⟩ := h x h1
    have e := (h2 (max n₁ n₂) (by omega)).symm.trans (h5 (max n₁ n₂) (by omega))
    obtain rfl := Except.ok.inj e
    exact h4 (h6 0 z h3)
  · rintro ⟨k, rfl⟩ x hx
    exact (C76_any_length_partial exactOps).2 x ⟨k, hx⟩

example := C76_right_iff (m := 12) (by norm_num)

example : ([⟨1, 2⟩, ⟨3, 4⟩] : List (Cx ℝ)) ≠ [] ∧ 2 ∣ ([⟨1, 2⟩, ⟨3, 4⟩] : List (Cx ℝ)).length := by simp

/-! ### C77 -/

section
variable {F : Type} {o : FloatOps F} (M : Ieee o)

/-- Sum of the squared distances of two lists, entry by entry. -/
noncomputable def sqDist (x : List ℂ) (f : ℕ → ℂ) : ℝ := ∑ j ∈ range x.length, ‖x.getD j 0 - f j‖ ^ 2

/-- Sum of the squared absolute values. -/
noncomputable def energy (x : List ℂ) : ℝ := ∑ j ∈ range x.length, ‖x.getD j 0‖ ^ 2

theorem getD_map_lt {α : Type} (g : α → ℂ) {x : List α} {t : ℕ} (d : α) (ht : t < x.length) :
    (x.map g).getD t 0 = g (x.getD t d) := by
  simp [List.getD_eq_getElem?_getD, List.getElem?_eq_getElem ht]

theorem energy_gsz {k : ℕ} {x : List (Cx F)} (h : x.length = 2 ^ k) (d : Cx F) :
    energy (x.map M.c) + 2 ^ k = gsz (2 ^ k) (fun t => M.c (x.getD t d)) := by
  rw [gsz_eq]
  unfold energy
  push_cast
  congr 1
  rw [List.length_map, h]
  exact sum_congr rfl fun t ht => by rw [getD_map_lt M.c d (by rw [h]; exact mem_range.1 ht)]

theorem finC_getD {k : ℕ} {x : List (Cx F)} (h : x.length = 2 ^ k) (hf : ∀ c ∈ x, M.finC c) (d : Cx F) :
    ∀ t < 2 ^ k, M.finC (x.getD t d) := by
  intro t ht
  rw [List.getD_eq_getElem _ _ (by omega)]
  exact hf _ (List.getElem_mem _)

theorem mem_tab {α : Type} {n : ℕ} {f : ℕ → α} {c : α} (h : c ∈ tab n f) : ∃ j < n, f j = c := by
  unfold tab at h
  obtain ⟨j, hj, e⟩ := List.mem_map.1 h
  exact ⟨j, List.mem_range.1 hj, e⟩

/-- In IEEE double precision the root-mean-square error of the transform of `2^k` points is at most `31·k` units of roundoff
times the size of the data (the added `2^k` absorbs underflow). -/
theorem C77_fft_error {k : ℕ} (hk : k ≤ 40) {x : List (Cx F)} (h : x.length = 2 ^ k) (hf : ∀ c ∈ x, M.finC c)
    (hb : 2 ^ k * (energy (x.map M.c) + 2 ^ k) ≤ 2 ^ 180) :
    ∃ y, (∀ n, k < n → fftComplex o n x = .ok y) ∧ y.length = x.length ∧ (∀ c ∈ y, M.finC c) ∧
      sqDist (y.map M.c) (DFT (x.map M.c)) ≤ (31 * k * uro) ^ 2 * (2 ^ k * (energy (x.map M.c) + 2 ^ k)) := by
  have d : Cx F := ⟨o.pi, o.pi⟩
  rw [energy_gsz M h d] at hb ⊢
  obtain ⟨h1, h2⟩ := fftF_ok M hk (finC_getD M h hf d) hb
  refine ⟨tab (2 ^ k) (fftF o k (fun t => x.getD t d)), fun n hn => ?_, by simp [tab, h], fun c hc => ?_, ?_⟩
  · conv_lhs => rw [eq_tab h d]
    exact fftComplex_eq o k _ hn
  · obtain ⟨j, hj, rfl⟩ := mem_tab hc
    exact h1 j hj
  · unfold sqDist
    rw [tab_map]
    simp only [tab_length]
    refine le_trans (le_of_eq (sum_congr rfl fun j hj => ?_)) (le_trans h2 ?_)
    · have hj' := mem_range.1 hj
      rw [List.getD_eq_getElem _ _ (by simpa [tab] using hj'), DFT_eq (by simpa using h)]
      congr 3
      · simp [tab]
      · unfold dft
        exact sum_congr rfl fun t ht => by simp only; rw [getD_map_lt M.c d (by rw [h]; exact mem_range.1 ht)]
    · have hg := gsz_nonneg (2 ^ k) (fun t => M.c (x.getD t d))
      apply mul_le_mul_of_nonneg_right _ (by positivity)
      exact pow_le_pow_left₀ (theta_nonneg k) (theta_le hk) 2

/-- Transforming and transforming back in double precision: the error is at most `63·k + 3` units of roundoff times the size of
the data. -/
theorem C77_round_trip_error {k : ℕ} (hk : k ≤ 40) {x : List (Cx F)} (h : x.length = 2 ^ k) (hf : ∀ c ∈ x, M.finC c)
    (hb : 2 ^ k * (2 ^ k * (energy (x.map M.c) + 2 ^ k)) ≤ 2 ^ 179) :
    ∃ y, (∀ n, k < n → (do let y ← fftComplex o n x; ifftComplex o n y) = .ok y) ∧ y.length = x.length ∧ (∀ c ∈ y, M.finC c) ∧
      sqDist (y.map M.c) (fun j => (x.map M.c).getD j 0) ≤ ((63 * k + 3) * uro) ^ 2 * (energy (x.map M.c) + 2 ^ k) := by
  have d : Cx F := ⟨o.pi, o.pi⟩
  rw [energy_gsz M h d] at hb ⊢
  obtain ⟨h1, h2⟩ := roundTrip_ok M hk (finC_getD M h hf d) hb
  refine ⟨tab (2 ^ k) (ifftF o k (fftF o k (fun t => x.getD t d))), fun n hn => ?_, by simp [tab, h], fun c hc => ?_, ?_⟩
  · have e1 : fftComplex o n x = .ok (tab (2 ^ k) (fftF o k (fun t => x.getD t d))) := by
      conv_lhs => rw [eq_tab h d]
      exact fftComplex_eq o k _ hn
    rw [e1, ok_bind, ifftComplex_eq o k _ hn]
  · obtain ⟨j, hj, rfl⟩ := mem_tab hc
    exact h1 j hj
  · unfold sqDist
    rw [tab_map]
    simp only [tab_length]
    refine le_trans (le_of_eq (sum_congr rfl fun j hj => ?_)) h2
    have hj' := mem_range.1 hj
    rw [List.getD_eq_getElem _ _ (by simpa [tab] using hj'), getD_map_lt M.c d (by rw [h]; exact hj')]
    simp [tab]

/-- Four points with integer parts. -/
theorem fourPoints (M : Ieee o) : let x : List (Cx F) := [⟨o.ofNat 1, o.ofNat 5⟩, ⟨o.ofNat 2, o.ofNat 0⟩, ⟨o.ofNat 3, o.ofNat 0⟩, ⟨o.ofNat 4, o.ofNat 0⟩]
    x.length = 2 ^ 2 ∧ (∀ c ∈ x, M.finC c) ∧ 2 ^ 2 * (2 ^ 2 * (energy (x.map M.c) + 2 ^ 2)) ≤ (2 : ℝ) ^ 179 := by
  have h : ∀ n ≤ 5, M.fin (o.ofNat n) ∧ M.val (o.ofNat n) = n := fun n hn => M.ofNat_ok n (le_trans hn (by norm_num))
  refine ⟨rfl, ?_, ?_⟩
  · intro c hc
    simp only [List.mem_cons, List.not_mem_nil, or_false] at hc
    rcases hc with rfl | rfl | rfl | rfl <;> exact ⟨(h _ (by norm_num)).1, (h _ (by norm_num)).1⟩
  · unfold energy
    simp only [List.map_cons, List.map_nil, List.length_cons, List.length_nil, sum_range_succ, range_zero, sum_empty,
      List.getD_cons_zero, List.getD_cons_succ, Complex.sq_norm, normSq_apply, Ieee.c, (h _ (by norm_num : 0 ≤ 5)).2,
      (h _ (by norm_num : 1 ≤ 5)).2, (h _ (by norm_num : 2 ≤ 5)).2, (h _ (by norm_num : 3 ≤ 5)).2,
      (h _ (by norm_num : 4 ≤ 5)).2, (h _ (by norm_num : 5 ≤ 5)).2]
    norm_num

example (M : Ieee o) := C77_fft_error M (k := 2) (by norm_num) (fourPoints M).1 (fourPoints M).2.1 (by
  have h := (fourPoints M).2.2
  norm_num at h ⊢
  linarith)

example (M : Ieee o) := C77_round_trip_error M (k := 2) (by norm_num) (fourPoints M).1 (fourPoints M).2.1 (fourPoints M).2.2

end
end BN
