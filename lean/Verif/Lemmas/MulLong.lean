import Verif.Lemmas.FftNum
/-
Long factors: what can be said about the carry pass when the coefficients are no longer rounded to their exact values.
-/
namespace BN
open Complex Finset

/-- The computed coefficients are within twice the error allowance, however large it is. -/
theorem near_within {F : Type} {o : FloatOps F} (M : Ieee o) {a b : List Nat} {k K D : Nat} (hK : K ≤ 32) (hkK : k ≤ K)
    (hl : a.length + b.length ≤ 2 ^ k) (had : InRange (D + 1) a) (hbd : InRange (D + 1) b)
    (h53 : D < 2 ^ 53) (hm53 : min a.length b.length * (D * (D + 1)) ≤ 2 ^ 53) {c2 : ℝ} (hc0 : 0 ≤ c2)
    (hc2 : ((D ^ 4 * (min a.length b.length * (a.length * b.length)) : ℕ) : ℝ) ≤ c2 ^ 2)
    (hsz : ((2 : ℝ) ^ K * ((D ^ 2 + 1) * 2 ^ K)) ≤ 2 ^ 72) {X : ℝ} (hX1 : X ≤ 2 ^ 50)
    (hE : errBound K D (min a.length b.length) c2 ≤ X) :
    ∀ i, i < 2 ^ k → M.fin (coefF o k a b i) ∧ |M.val (coefF o k a b i) - colSum a b i| ≤ 2 * X := by
  intro i hi
  have hup := uro_pos
  have hcol : colSum a b i ≤ min a.length b.length * (D * D) := by simpa using colSum_le had hbd i
  have hsum : min a.length b.length * D + min a.length b.length * (D * D) = min a.length b.length * (D * (D + 1)) := by ring
  have ha53 : InRange (2 ^ 53) a := fun d hd => by have := had d hd; omega
  have hb53 : InRange (2 ^ 53) b := fun d hd => by have := hbd d hd; omega
  have h2k : (2 : ℝ) ^ k ≤ 2 ^ K := pow_le_pow_right₀ (by norm_num) hkK
  have hlR : (a.length : ℝ) + b.length ≤ 2 ^ k := by exact_mod_cast hl
  have hD0 : (0 : ℝ) ≤ (D : ℝ) ^ 2 := by positivity
  have hG : gsz (2 ^ k) (fun t => sig a t + I * sig b t) ≤ (D ^ 2 + 1) * 2 ^ k := by
    refine le_trans (gsz_pack had hbd _) ?_
    push_cast
    nlinarith
  have hGG : ((D : ℝ) ^ 2 + 1) * 2 ^ k ≤ (D ^ 2 + 1) * 2 ^ K := mul_le_mul_of_nonneg_left h2k (by positivity)
  have hGb : (2 : ℝ) ^ k * ((D ^ 2 + 1) * 2 ^ k) ≤ 2 ^ 72 :=
    le_trans (mul_le_mul h2k hGG (by positivity) (by positivity)) hsz
  have hce := coefErr_le (k := k) (K := K) hkK (by omega) (by positivity) hGG hc0
  have hcc : ∑ i ∈ range (2 ^ k), ((colSum a b i : ℕ) : ℝ) ^ 2 ≤ c2 ^ 2 := by
    refine le_trans ?_ hc2
    exact_mod_cast sum_sq_col had hbd hl
  have hcolR : ((colSum a b i : ℕ) : ℝ) ≤ (min a.length b.length : ℕ) * D ^ 2 := by
    rw [sq]; exact_mod_cast hcol
  have hub : uro * ((colSum a b i : ℕ) + 1 : ℝ) ≤ uro * ((min a.length b.length : ℕ) * D ^ 2 + 1) :=
    mul_le_mul_of_nonneg_left (by linarith) hup.le
  have heta := eta_pos
  have hpos : 0 ≤ uro * ((min a.length b.length : ℕ) * (D : ℝ) ^ 2 + 1) := by positivity
  have hc53 : ((colSum a b i : ℕ) : ℝ) ≤ 2 ^ 53 := by exact_mod_cast (by omega : colSum a b i ≤ 2 ^ 53)
  have h190 : (2 : ℝ) ^ 53 + 2 ^ 50 ≤ 2 ^ 190 := by norm_num
  have hX0 : 0 ≤ X := by
    refine le_trans ?_ hE
    have h1 := uro_pos.le
    have h2 := eta_pos.le
    unfold errBound
    generalize uro = u at h1 ⊢
    generalize eta = v at h2 ⊢
    positivity
  have hu1 : uro * X ≤ X := by
    have := uro_le
    have : uro ≤ 1 := by linarith
    nlinarith
  unfold errBound at hE
  obtain ⟨f1, e1⟩ := coef_ok M (le_trans hkK hK) hl ha53 hb53 hG hGb hc0 hcc (X := X) (by linarith) hi (by linarith)
  refine ⟨f1, le_trans e1 ?_⟩
  rw [mul_add]
  rw [mul_add] at hub
  linarith

/-- Rounding loses at most one more than the error, downwards. -/
theorem trunc_low {F : Type} {o : FloatOps F} (M : Ieee o) {x : F} {m e c : ℕ} (hx : M.fin x) (hm : |M.val x - m| + 1 ≤ e)
    (hme : m + e ≤ 2 ^ 50) (hc : c ≤ 2 ^ 50) :
    ((c + m : ℕ) : ℤ) - e ≤ o.trunc (o.add (o.ofNat c) (o.floor (o.add x o.half))) := by
  have hu := uro_pos
  have hu1 := uro_le
  obtain ⟨fh, vh⟩ := M.half_ok
  obtain ⟨hx1, hx2⟩ := abs_le.1 (show |M.val x - m| ≤ e - 1 by linarith)
  have hmeR : (m : ℝ) + e ≤ 2 ^ 50 := by exact_mod_cast hme
  have hm0 : (0 : ℝ) ≤ m := Nat.cast_nonneg _
  have he0 : (0 : ℝ) ≤ e := Nat.cast_nonneg _
  have hbig := big_ge
  have h190 : (2 : ℝ) ^ 50 ≤ 2 ^ 190 := by norm_num
  have habs : |M.val x + 1 / 2| ≤ 2 ^ 50 := abs_le.2 ⟨by linarith, by linarith⟩
  obtain ⟨fy, ey⟩ := M.add_ok x o.half hx fh (by rw [vh]; linarith)
  rw [vh] at ey
  have hsmall : uro * |M.val x + 1 / 2| ≤ 1 / 2 - 1 / 4 := by
    have h1 : uro * |M.val x + 1 / 2| ≤ uro * 2 ^ 50 := mul_le_mul_of_nonneg_left habs hu.le
    have h2 : uro * 2 ^ 50 ≤ 1 / 2 - 1 / 4 := by norm_num [uro]
    linarith
  obtain ⟨l1, l2⟩ := abs_le.1 (le_trans ey hsmall)
  obtain ⟨ff, vf⟩ := M.floor_ok _ fy
  set f : ℤ := ⌊M.val (o.add x o.half)⌋ with hf
  have hf1 := Int.sub_one_lt_floor (M.val (o.add x o.half))
  have hf2 := Int.floor_le (M.val (o.add x o.half))
  rw [← hf] at hf1 hf2
  have hlow : (m : ℤ) - e ≤ f := by
    have : ((m : ℤ) - e : ℝ) < (f : ℝ) + 1 := by push_cast; linarith
    have h3 : ((m : ℤ) - e : ℤ) < f + 1 := by exact_mod_cast this
    omega
  have hhigh : f ≤ m + e := by
    have : (f : ℝ) < ((m : ℤ) + e : ℝ) + 1 := by push_cast; linarith
    have h3 : f < (m : ℤ) + e + 1 := by exact_mod_cast this
    omega
  obtain ⟨fc, vc⟩ := M.ofNat_ok c (by omega)
  obtain ⟨fs, vs⟩ := M.addInt_ok _ _ (c : ℤ) f fc ff (by rw [vc]; simp) vf (by rw [abs_le]; constructor <;> omega)
  have ht : o.trunc (o.add (o.ofNat c) (o.floor (o.add x o.half))) = (c : ℤ) + f := by
    rw [M.trunc_ok _ fs, vs]
    split
    · exact Int.floor_intCast _
    · exact Int.ceil_intCast _
  rw [ht]
  push_cast
  omega

section
variable {F : Type} (o : FloatOps F)

/-- The carries of columns that grow by `D * D` each are at least those of exact columns up to a constant; so if the
double-width type is too narrow for the last column, the pass stops with undefined behaviour there or earlier. -/
theorem carryLoop_low {L : Limits} (h : Supported L) {D e w C : Nat} (hB : L.base = D + 1) (hD : 1 ≤ D) (hw : L.double.raw = cU w)
    (hC : 2 ^ w ≤ C) (g : Nat → F) :
    ∀ (t n i c : Nat), t < n → c ≤ C → (D * i : Int) - (2 * D + e) ≤ c →
      (2 ^ w : Int) ≤ D * (D + 1) * (i + t + 1) - 3 * D - 2 * e →
      (∀ j, i ≤ j → j ≤ i + t → ∀ c ≤ C, ((c + (j + 1) * (D * D) : Nat) : Int) - e ≤
        o.trunc (o.add (o.ofNat c) (o.floor (o.add (g j) o.half)))) →
      carryLoop o L c ((List.range' i n).map g) = .error (.ub .floatToInt)
  | _, 0, _, _, ht, _, _, _, _ => absurd ht (by omega)
  | t, n + 1, i, c, ht, hc, hlow, hbig, hr => by
    have hz := hr i (by omega) (by omega) c hc
    have hzlow : (D * (D + 1) * (i + 1) : Int) - 3 * D - 2 * e ≤ o.trunc (o.add (o.ofNat c) (o.floor (o.add (g i) o.half))) := by
      push_cast at hz
      have : (D * (D + 1) * (i + 1) : Int) = D * i + (i + 1) * (D * D) + D := by ring
      linarith
    rw [List.range'_succ, List.map_cons, carryLoop]
    rcases carryStep_cases o h c (g i) with hu | ⟨z, h1, h2⟩
    · rw [hu]; rfl
    · have hfit : L.double.raw.fits (z : Int) = true := by
        by_contra hnf
        have : carryStep o L c (g i) = .error (.ub .floatToInt) := by
          unfold carryStep floatToDouble
          simp only [h1, hnf]
          rfl
        rw [this] at h2
        cases h2
      rw [hw] at hfit
      have hzw : (z : Int) < 2 ^ w := (of_decide_eq_true hfit : 0 ≤ (z : Int) ∧ (z : Int) < 2 ^ w).2
      rw [h1] at hzlow
      match t, ht, hbig, hr with
      | 0, _, hbig, _ =>
        exfalso
        push_cast at hbig
        have : (D * (D + 1) * (i + 0 + 1) : Int) = D * (D + 1) * (i + 1) := by ring
        linarith
      | t + 1, ht, hbig, hr =>
        rw [h2, ok_bind]
        simp only
        have hzN : z < 2 ^ w := by exact_mod_cast hzw
        have hdm := Nat.div_add_mod z (D + 1)
        have hml := Nat.mod_lt z (show 0 < D + 1 by omega)
        have hlow' : (D * (i + 1 : Nat) : Int) - (2 * D + e) ≤ (z / L.base : Nat) := by
          rw [hB]
          have h3 : ((D + 1 : Nat) : Int) * (z / (D + 1) : Nat) ≥ (z : Int) - D := by
            have h4 : (D + 1) * (z / (D + 1)) + D ≥ z := by omega
            have h5 : (((D + 1) * (z / (D + 1)) + D : Nat) : Int) ≥ (z : Int) := by exact_mod_cast h4
            push_cast at h5 ⊢
            linarith
          have hD0 : (1 : Int) ≤ D := by exact_mod_cast hD
          have he0 : (0 : Int) ≤ e := Int.natCast_nonneg _
          by_contra hcon
          have h6 : ((z / (D + 1) : Nat) : Int) + 1 ≤ (D * (i + 1 : Nat) : Int) - (2 * D + e) := by omega
          have h7 := mul_le_mul_of_nonneg_left h6 (show (0 : Int) ≤ ((D + 1 : Nat) : Int) by positivity)
          push_cast at h3 h7
          nlinarith
        have := carryLoop_low h hB hD hw hC g t n (i + 1) (z / L.base) (by omega)
          (le_trans (Nat.div_le_self _ _) (by omega)) (by exact_mod_cast hlow')
          (by have : (((i + 1 : Nat) : Int) + t + 1) = (i + (t + 1 : Nat) + 1) := by push_cast; ring
              rw [this]; exact hbig)
          (fun j hj1 hj2 => hr j (by omega) (by omega))
        rw [this]
        rfl

end

end BN
