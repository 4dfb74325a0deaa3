import Verif.Lemmas.FftErr4
/-
The error bound in terms of the digits, and the product it makes exact.
-/
namespace BN
open Complex Finset

theorem getD_le {D : ℕ} {l : List ℕ} (h : InRange (D + 1) l) (t : ℕ) : l.getD t 0 ≤ D := by
  by_cases ht : t < l.length
  · rw [List.getD_eq_getElem _ _ ht]
    have := h _ (List.getElem_mem ht); omega
  · rw [List.getD_eq_default _ _ (by omega)]; omega

theorem sum_sq_digits {D : ℕ} {l : List ℕ} (h : InRange (D + 1) l) (n : ℕ) :
    ∑ t ∈ range n, ((l.getD t 0 : ℕ) : ℝ) ^ 2 ≤ D ^ 2 * l.length := by
  have h1 : ∀ t ∈ range n, ((l.getD t 0 : ℕ) : ℝ) ^ 2 ≤ if t < l.length then (D : ℝ) ^ 2 else 0 := by
    intro t _
    by_cases ht : t < l.length
    · rw [if_pos ht]
      exact pow_le_pow_left₀ (Nat.cast_nonneg _) (by exact_mod_cast getD_le h t) 2
    · rw [if_neg ht, List.getD_eq_default _ _ (by omega)]; simp
  refine le_trans (sum_le_sum h1) ?_
  rw [← sum_filter, sum_const, nsmul_eq_mul, mul_comm]
  apply mul_le_mul_of_nonneg_left _ (by positivity)
  have : #{t ∈ range n | t < l.length} ≤ #(range l.length) :=
    card_le_card (by intro t ht; simp at ht ⊢; exact ht.2)
  rw [card_range] at this
  exact_mod_cast this

theorem gsz_pack {D : ℕ} {a b : List ℕ} (ha : InRange (D + 1) a) (hb : InRange (D + 1) b) (n : ℕ) :
    gsz n (fun t => sig a t + I * sig b t) ≤ D ^ 2 * (a.length + b.length) + n := by
  rw [gsz_eq]
  have e : ∀ t ∈ range n, ‖sig a t + I * sig b t‖ ^ 2 = ((a.getD t 0 : ℕ) : ℝ) ^ 2 + ((b.getD t 0 : ℕ) : ℝ) ^ 2 := by
    intro t _
    rw [Complex.sq_norm, normSq_apply]
    simp [sig]; ring
  rw [sum_congr rfl e, sum_add_distrib]
  have h1 := sum_sq_digits ha n
  have h2 := sum_sq_digits hb n
  linarith

theorem natOf_one_le {D : ℕ} : ∀ {l : List ℕ}, InRange (D + 1) l → natOf 1 l ≤ D * l.length
  | [], _ => by simp [natOf]
  | d :: l, h => by
    have h1 := natOf_one_le h.tail
    have h2 := h.head
    rw [natOf, List.length_cons, Nat.mul_succ]; omega

theorem sum_sq_col {D : ℕ} {a b : List ℕ} (ha : InRange (D + 1) a) (hb : InRange (D + 1) b) {n : ℕ} (hn : a.length + b.length ≤ n) :
    ∑ i ∈ range n, (colSum a b i) ^ 2 ≤ D ^ 4 * (min a.length b.length * (a.length * b.length)) := by
  have h1 : ∀ i ∈ range n, colSum a b i ^ 2 ≤ min a.length b.length * (D * D) * (colSum a b i * 1 ^ i) := by
    intro i _
    rw [one_pow, mul_one, sq]
    exact Nat.mul_le_mul_right _ (by simpa using colSum_le ha hb i)
  refine le_trans (sum_le_sum h1) ?_
  rw [← mul_sum, sum_colSum 1 a b n hn]
  calc min a.length b.length * (D * D) * (natOf 1 a * natOf 1 b)
      ≤ min a.length b.length * (D * D) * (D * a.length * (D * b.length)) :=
        Nat.mul_le_mul_left _ (Nat.mul_le_mul (natOf_one_le ha) (natOf_one_le hb))
    _ = _ := by ring

/-- The total error allowance for tables of up to `2 ^ K` entries with digits up to `D`, at most `n` of them in the shorter
operand, and coefficients of Euclidean norm at most `c2`. -/
noncomputable def errBound (K D n : ℕ) (c2 : ℝ) : ℝ :=
  (44.02 * K + 4) * uro * ((D ^ 2 + 1) * 2 ^ K) +
    31 * K * uro * (c2 + (44.02 * K + 4) * uro * (2 ^ K * ((D ^ 2 + 1) * 2 ^ K)) + 1) + 2 * (uro * (n * D ^ 2 + 1)) + eta

theorem coefErr_le {k K : ℕ} (hk : k ≤ K) (hK : K ≤ 40) {G G' c2 : ℝ} (hG0 : 0 ≤ G) (hG : G ≤ G') (hc2 : 0 ≤ c2) :
    coefErr k G c2 ≤ (44.02 * K + 4) * uro * G' + 31 * K * uro * (c2 + (44.02 * K + 4) * uro * (2 ^ K * G') + 1) := by
  have hu := uro_pos
  have hkK : (k : ℝ) ≤ K := by exact_mod_cast hk
  have hk0 : (0 : ℝ) ≤ k := Nat.cast_nonneg _
  have hθ0 := theta_nonneg k
  have hθ : theta k ≤ 31 * K * uro := by
    refine le_trans (theta_le (by omega)) ?_
    have := mul_le_mul_of_nonneg_right hkK hu.le
    nlinarith
  have hψ : psi k ≤ (44.02 * K + 4) * uro := by unfold psi; linarith
  have hψ0 : 0 ≤ psi k := by unfold psi; linarith
  have hr : √((2 : ℝ) ^ k) ≤ 2 ^ K := by
    rw [Real.sqrt_le_left (by positivity)]
    have h1 : (2 : ℝ) ^ k ≤ 2 ^ K := pow_le_pow_right₀ (by norm_num) hk
    have h2 : (1 : ℝ) ≤ 2 ^ K := one_le_pow₀ (by norm_num)
    nlinarith
  have hS0 : 0 ≤ (44.02 * (K : ℝ) + 4) * uro := by positivity
  unfold coefErr
  have t1 : psi k * G ≤ (44.02 * K + 4) * uro * G' := mul_le_mul hψ hG hG0 hS0
  have t2 : psi k * (√(2 ^ k) * G) ≤ (44.02 * K + 4) * uro * (2 ^ K * G') :=
    mul_le_mul hψ (mul_le_mul hr hG hG0 (by positivity)) (by positivity) hS0
  have t3 : theta k * (c2 + psi k * (√(2 ^ k) * G) + 1) ≤ 31 * K * uro * (c2 + (44.02 * K + 4) * uro * (2 ^ K * G') + 1) :=
    mul_le_mul hθ (by linarith) (by positivity) (by positivity)
  linarith

/-- With arithmetic obeying the rounding laws every coefficient is close to its exact value as long as the error allowance
stays below one half. -/
theorem near_ieee {F : Type} {o : FloatOps F} (M : Ieee o) {a b : List Nat} {k K D : Nat} (hK : K ≤ 32) (hkK : k ≤ K)
    (hl : a.length + b.length ≤ 2 ^ k) (had : InRange (D + 1) a) (hbd : InRange (D + 1) b)
    (h53 : D < 2 ^ 53) (hm53 : min a.length b.length * (D * (D + 1)) ≤ 2 ^ 53) {c2 : ℝ} (hc0 : 0 ≤ c2)
    (hc2 : ((D ^ 4 * (min a.length b.length * (a.length * b.length)) : ℕ) : ℝ) ≤ c2 ^ 2)
    (hsz : ((2 : ℝ) ^ K * ((D ^ 2 + 1) * 2 ^ K)) ≤ 2 ^ 72) (hE : errBound K D (min a.length b.length) c2 < 1 / 2) :
    ∀ i, i < 2 ^ k → M.fin (coefF o k a b i) ∧
      |M.val (coefF o k a b i) - colSum a b i| + uro * (colSum a b i + 1) < 1 / 2 := by
  intro i hi
  have hup := uro_pos
  have hcol : colSum a b i ≤ min a.length b.length * (D * D) := by simpa using colSum_le had hbd i
  have hsum : min a.length b.length * D + min a.length b.length * (D * D) = min a.length b.length * (D * (D + 1)) := by ring
  have ha53 : InRange (2 ^ 53) a := fun d hd => by have := had d hd; omega
  have hb53 : InRange (2 ^ 53) b := fun d hd => by have := hbd d hd; omega
  have h2k : (2 : ℝ) ^ k ≤ 2 ^ K := pow_le_pow_right₀ (by norm_num) hkK
  have hlR : (a.length : ℝ) + b.length ≤ 2 ^ k := by exact_mod_cast hl
  have hD0 : (0 : ℝ) ≤ (D : ℝ) ^ 2 := by positivity
  have hG : gsz (2 ^ k) (fun t => sig a t + I * sig b t) ≤ (D ^ 2 + 1) * 2 ^ k := by
    refine le_trans (gsz_pack had hbd _) ?_
    push_cast
    nlinarith
  have hGG : ((D : ℝ) ^ 2 + 1) * 2 ^ k ≤ (D ^ 2 + 1) * 2 ^ K := mul_le_mul_of_nonneg_left h2k (by positivity)
  have hGb : (2 : ℝ) ^ k * ((D ^ 2 + 1) * 2 ^ k) ≤ 2 ^ 72 :=
    le_trans (mul_le_mul h2k hGG (by positivity) (by positivity)) hsz
  have hce := coefErr_le (k := k) (K := K) hkK (by omega) (by positivity) hGG hc0
  have hcc : ∑ i ∈ range (2 ^ k), ((colSum a b i : ℕ) : ℝ) ^ 2 ≤ c2 ^ 2 := by
    refine le_trans ?_ hc2
    exact_mod_cast sum_sq_col had hbd hl
  have hmin0 : (0 : ℝ) ≤ (min a.length b.length : ℕ) := Nat.cast_nonneg _
  have hcolR : ((colSum a b i : ℕ) : ℝ) ≤ (min a.length b.length : ℕ) * D ^ 2 := by
    rw [sq]; exact_mod_cast hcol
  have hub : uro * ((colSum a b i : ℕ) + 1 : ℝ) ≤ uro * ((min a.length b.length : ℕ) * D ^ 2 + 1) :=
    mul_le_mul_of_nonneg_left (by linarith) hup.le
  have heta := eta_pos
  have hpos : 0 ≤ uro * ((min a.length b.length : ℕ) * (D : ℝ) ^ 2 + 1) := by positivity
  have hmin' : (0 : ℝ) ≤ (min a.length b.length : ℕ) * (D : ℝ) ^ 2 := by positivity
  have hc53 : ((colSum a b i : ℕ) : ℝ) ≤ 2 ^ 53 := by exact_mod_cast (by omega : colSum a b i ≤ 2 ^ 53)
  have h190 : (2 : ℝ) ^ 53 + 1 ≤ 2 ^ 190 := by norm_num
  unfold errBound at hE
  obtain ⟨f1, e1⟩ := coef_ok M (le_trans hkK hK) hl ha53 hb53 hG hGb hc0 hcc (X := 1) (by linarith) hi (by linarith)
  exact ⟨f1, by linarith⟩

/-- ... and rounded to it. -/
theorem rounds_ieee {F : Type} {o : FloatOps F} (M : Ieee o) {a b : List Nat} {k K D : Nat} (hK : K ≤ 32) (hkK : k ≤ K)
    (hl : a.length + b.length ≤ 2 ^ k) (had : InRange (D + 1) a) (hbd : InRange (D + 1) b)
    (h53 : D < 2 ^ 53) (hm53 : min a.length b.length * (D * (D + 1)) ≤ 2 ^ 53) {c2 : ℝ} (hc0 : 0 ≤ c2)
    (hc2 : ((D ^ 4 * (min a.length b.length * (a.length * b.length)) : ℕ) : ℝ) ≤ c2 ^ 2)
    (hsz : ((2 : ℝ) ^ K * ((D ^ 2 + 1) * 2 ^ K)) ≤ 2 ^ 72) (hE : errBound K D (min a.length b.length) c2 < 1 / 2) :
    ∀ i, i < 2 ^ k → RoundsTo o (min a.length b.length * D) (coefF o k a b i) (colSum a b i) := by
  intro i hi
  have hcol : colSum a b i ≤ min a.length b.length * (D * D) := by simpa using colSum_le had hbd i
  have hsum : min a.length b.length * D + min a.length b.length * (D * D) = min a.length b.length * (D * (D + 1)) := by ring
  obtain ⟨h1, h2⟩ := near_ieee M hK hkK hl had hbd h53 hm53 hc0 hc2 hsz hE i hi
  exact roundsTo_of_near M h1 h2 (by omega)

theorem errBound_mono {K D n n' : ℕ} (h : n ≤ n') (c2 : ℝ) : errBound K D n c2 ≤ errBound K D n' c2 := by
  unfold errBound
  have h1 : (n : ℝ) ≤ n' := by exact_mod_cast h
  have h2 : uro * (n * (D : ℝ) ^ 2 + 1) ≤ uro * (n' * (D : ℝ) ^ 2 + 1) := by
    apply mul_le_mul_of_nonneg_left _ uro_pos.le
    have := mul_le_mul_of_nonneg_right h1 (sq_nonneg (D : ℝ))
    linarith
  linarith

/-- With arithmetic obeying the rounding laws the product is exact as long as the error allowance stays below one half. -/
theorem mulStrassen_ieee {F : Type} {o : FloatOps F} (M : Ieee o) {L : Limits} (h : Supported L) {env : Env} {fuel : Nat}
    (hfuel : 32 < fuel) {a b : List Nat} {K D : Nat} (hK : K ≤ 32) (h1 : 1 ≤ a.length + b.length)
    (hlen : a.length + b.length ≤ 2 ^ K) (hal : env.alloc (fftTableSize a.length b.length) = true)
    (hD : D < L.base) (had : InRange (D + 1) a) (hbd : InRange (D + 1) b)
    (hfit : L.double.raw.fits ((min a.length b.length * (D * (D + 1)) - 1 : Nat) : Int) = true)
    (h53 : D < 2 ^ 53) (hm53 : min a.length b.length * (D * (D + 1)) ≤ 2 ^ 53) {c2 : ℝ} (hc0 : 0 ≤ c2)
    (hc2 : ((D ^ 4 * (min a.length b.length * (a.length * b.length)) : ℕ) : ℝ) ≤ c2 ^ 2)
    (hsz : ((2 : ℝ) ^ K * ((D ^ 2 + 1) * 2 ^ K)) ≤ 2 ^ 72) (hE : errBound K D (min a.length b.length) c2 < 1 / 2) :
    ∃ c, mulStrassen o L env fuel a b = .ok c ∧ InRange L.base c ∧ NoLeadingZero c ∧
      natOf L.base c = natOf L.base a * natOf L.base b := by
  have hle32 : (2 : ℕ) ^ K ≤ 2 ^ 32 := Nat.pow_le_pow_right (by omega) hK
  obtain ⟨k, hk, hs, hl, hu⟩ := fftTableSize_eq h1 (by omega)
  have hkK : k ≤ K := by
    by_contra hc
    have : 2 ^ (K + 1) ≤ 2 ^ k := Nat.pow_le_pow_right (by omega) (by omega)
    rw [pow_succ] at this
    omega
  exact mulStrassen_eq o h hfuel hk hs hl hal hD had hbd hfit (rounds_ieee M hK hkK hl had hbd h53 hm53 hc0 hc2 hsz hE)

end BN
