import Verif.Lemmas.MulLong
import Verif.Lemmas.Samples
import Verif.Props.Multiplication
/-
C67: how long the factors of a product may be in base 2 and base 8.
-/
namespace BN

open Bignum

section
variable {F : Type} (o : FloatOps F)

theorem carryStep_ub {L : Limits} {c m C : Nat} {x : F} (hx : RoundsTo o C x m) (hc : c ≤ C)
    (hf : L.double.raw.fits ((c + m : Nat) : Int) = false) : carryStep o L c x = .error (.ub .floatToInt) := by
  unfold carryStep floatToDouble
  simp only [hx c hc, hf]
  rfl

/-- The carry pass stops at the first column whose total does not fit; `T j` is the total of column `j`. -/
theorem carryLoop_ub {L : Limits} (h : Supported L) {C : Nat} (g : Nat → F) (m T : Nat → Nat) :
    ∀ (t n i c : Nat), t < n → c ≤ C → T i = c + m i → (∀ j, T (j + 1) = T j / L.base + m (j + 1)) →
      (∀ j, i ≤ j → j < i + t → L.double.raw.fits (T j : Int) = true ∧ T j / L.base ≤ C) →
      L.double.raw.fits (T (i + t) : Int) = false → (∀ j, i ≤ j → j ≤ i + t → RoundsTo o C (g j) (m j)) →
      carryLoop o L c ((List.range' i n).map g) = .error (.ub .floatToInt)
  | _, 0, _, _, ht, _, _, _, _, _, _ => absurd ht (by omega)
  | 0, n + 1, i, c, _, hc, h0, _, _, hbad, hr => by
    rw [List.range'_succ, List.map_cons, carryLoop, carryStep_ub o (hr i (by omega) (by omega)) hc (by rw [← h0]; exact hbad)]
    rfl
  | t + 1, n + 1, i, c, ht, hc, h0, hT, hok, hbad, hr => by
    have h1 := hok i (by omega) (by omega)
    rw [List.range'_succ, List.map_cons, carryLoop, carryStep_eq o h (hr i (by omega) (by omega)) hc (by rw [← h0]; exact h1.1), ok_bind]
    simp only
    rw [← h0, carryLoop_ub h g m T t n (i + 1) (T i / L.base) (by omega) h1.2 (hT i) hT
      (fun j h2 h3 => hok j (by omega) (by omega)) (by rw [show i + 1 + t = i + (t + 1) by omega]; exact hbad)
      (fun j h2 h3 => hr j (by omega) (by omega))]
    rfl

end

theorem colSum_replicate {D p q t : Nat} (hp : t < p) (hq : t < q) :
    colSum (List.replicate p D) (List.replicate q D) t = (t + 1) * (D * D) := by
  unfold colSum
  rw [Finset.sum_congr rfl (g := fun _ => D * D), Finset.sum_const, Finset.card_range, smul_eq_mul]
  intro i hi
  have := Finset.mem_range.1 hi
  rw [List.getD_eq_getElem _ _ (by simp; omega), List.getD_eq_getElem _ _ (by simp; omega)]
  simp

/-- The totals of the columns, carry included. -/
def totals (B : Nat) (m : Nat → Nat) : Nat → Nat
  | 0 => m 0
  | t + 1 => totals B m t / B + m (t + 1)

/-- With all digits `D = B - 1` the totals grow by `D * B` per column. -/
theorem totals_replicate {D p q : Nat} (hD : 1 ≤ D) : ∀ t, t < p → t < q →
    totals (D + 1) (colSum (List.replicate p D) (List.replicate q D)) t / (D + 1) = (t + 1) * D - 1 ∧
    (1 ≤ t → totals (D + 1) (colSum (List.replicate p D) (List.replicate q D)) t = (t + 1) * (D * (D + 1)) - (D + 1))
  | 0, hp, hq => by
    refine ⟨?_, by omega⟩
    rw [totals, colSum_replicate hp hq]
    obtain ⟨d, rfl⟩ := Nat.exists_eq_add_of_le' hD
    rw [show (0 + 1) * ((d + 1) * (d + 1)) = d * (d + 1 + 1) + 1 by ring, show (0 + 1) * (d + 1) - 1 = d by omega]
    rw [Nat.mul_comm, Nat.mul_add_div (by omega), Nat.div_eq_of_lt (by omega), Nat.add_zero]
  | t + 1, hp, hq => by
    obtain ⟨ih, -⟩ := totals_replicate (p := p) (q := q) hD t (by omega) (by omega)
    have e : totals (D + 1) (colSum (List.replicate p D) (List.replicate q D)) (t + 1) = (t + 1 + 1) * (D * (D + 1)) - (D + 1) := by
      rw [totals, ih, colSum_replicate hp hq]
      obtain ⟨d, rfl⟩ := Nat.exists_eq_add_of_le' hD
      have h1 : 1 ≤ (t + 1) * (d + 1) := Nat.mul_pos (by omega) (by omega)
      have h2 : (t + 1 + 1) * ((d + 1) * (d + 1 + 1)) = (t + 1) * (d + 1) + (t + 1 + 1) * ((d + 1) * (d + 1)) + (d + 1) := by ring
      omega
    refine ⟨?_, fun _ => e⟩
    rw [e]
    have h2 : (t + 1 + 1) * (D * (D + 1)) - (D + 1) = ((t + 1 + 1) * D - 1) * (D + 1) := by
      rw [Nat.sub_mul, Nat.one_mul, Nat.mul_assoc]
    rw [h2, Nat.mul_div_cancel _ (by omega)]

/-- Factors with all digits `B - 1`: if the total of some column is too large for the double-width type, the product is undefined. -/
theorem replicate_ub {F : Type} {o : FloatOps F} {L : Limits} (h : Supported L) {env : Env} (hm : env.Ample) {fuel : Nat}
    (hfuel : 32 < fuel) {D p q t k : Nat} (hB : L.base = D + 1) (hD : 1 ≤ D) (h1 : 1 ≤ t) (hp : t < p) (hq : t < q)
    (hk : k ≤ 32) (hs : fftTableSize p q = 2 ^ k) (hl : p + q ≤ 2 ^ k)
    (hr : ∀ i, i < 2 ^ k → RoundsTo o (min p q * D) (coefF o k (List.replicate p D) (List.replicate q D) i)
      (colSum (List.replicate p D) (List.replicate q D) i))
    (hfit : L.double.raw.fits ((t * (D * (D + 1)) - (D + 1) + 1 : Nat) : Int) = true)
    (hbad : L.double.raw.fits (((t + 1) * (D * (D + 1)) - (D + 1) : Nat) : Int) = false) :
    mulStrassen o L env fuel (List.replicate p D) (List.replicate q D) = .error (.ub .floatToInt) := by
  have hlen : (List.replicate p D).length = p ∧ (List.replicate q D).length = q := ⟨List.length_replicate, List.length_replicate⟩
  rw [pipeline_split o L env fuel (hm _), pipeline_eq o hk (by rw [hlen.1, hlen.2]; exact hs) hfuel, ok_bind, tab_map]
  have e : (tab (2 ^ k) fun i => (ifftF o k (pointF o (2 ^ k) (fftF o k (packF o (List.replicate p D) (List.replicate q D)))) i).re) =
      (List.range' 0 (2 ^ k)).map (coefF o k (List.replicate p D) (List.replicate q D)) := by
    rw [← List.range_eq_range']; rfl
  have hmono : ∀ j, j < t → totals (D + 1) (colSum (List.replicate p D) (List.replicate q D)) j ≤ t * (D * (D + 1)) - (D + 1) + 1 := by
    intro j hj
    have hjt : (j + 1) * (D * (D + 1)) ≤ t * (D * (D + 1)) := Nat.mul_le_mul_right _ (by omega)
    rcases Nat.eq_zero_or_pos j with rfl | h0
    · rw [totals, colSum_replicate (by omega) (by omega)]
      obtain ⟨d, rfl⟩ := Nat.exists_eq_add_of_le' hD
      have : (0 + 1) * ((d + 1) * (d + 1 + 1)) = (0 + 1) * ((d + 1) * (d + 1)) + (d + 1) := by ring
      omega
    · rw [(totals_replicate hD j (by omega) (by omega)).2 h0]
      omega
  rw [e, carryLoop_ub o h (C := min p q * D) _ (colSum (List.replicate p D) (List.replicate q D))
    (totals (D + 1) (colSum (List.replicate p D) (List.replicate q D))) t (2 ^ k) 0 0 (by omega) (Nat.zero_le _)
    (by rw [totals, Nat.zero_add]) (fun j => by rw [totals, hB]) ?_ ?_ (fun j _ hj => hr j (by omega))]
  · rfl
  · intro j _ hj
    refine ⟨fits_mono h (hmono j (by omega)) hfit, ?_⟩
    rw [hB, (totals_replicate hD j (by omega) (by omega)).1]
    have : (j + 1) * D ≤ min p q * D := Nat.mul_le_mul_right _ (by omega)
    omega
  · rw [Nat.zero_add, (totals_replicate hD t hp hq).2 h1]
    exact hbad

theorem mulAssign_ub {F : Type} {o : FloatOps F} {L : Limits} {env : Env} {fuel : Nat} {x : Bignum} {r : Rhs} (hx : Signed x.desc)
    {k : UB} (hu : mulStrassen o L env fuel x.digits (r.get x).digits = .error (.ub k)) : mulAssign o L env fuel x r = .ub k := by
  unfold mulAssign
  have hc : isComputable x.desc = true := by rcases hx with e | e <;> rw [e] <;> rfl
  rw [hc]
  simp only [Bool.not_true, Bool.false_eq_true, if_false]
  rw [hu]; rfl

theorem inRange_replicate {B D n : Nat} (h : D < B) : InRange B (List.replicate n D) := by
  intro d hd
  rw [List.eq_of_mem_replicate hd]; exact h

theorem replicate_ub_ieee {F : Type} {o : FloatOps F} (M : Ieee o) {L : Limits} (h : Supported L) {env : Env} (hm : env.Ample)
    {fuel : Nat} (hfuel : 32 < fuel) {D p q t K : Nat} (hB : L.base = D + 1) (hD : 1 ≤ D) (h1 : 1 ≤ t) (hp : t < p) (hq : t < q)
    (hK : K ≤ 32) (hl : p + q ≤ 2 ^ K) (hD10 : D < 10) {N c2 : ℕ} (hN : min p q ≤ N) (hc2 : D ^ 4 * (N * (N * 2 ^ K)) ≤ c2 ^ 2)
    (hm53 : N * (D * (D + 1)) ≤ 2 ^ 53) (hsz : ((2 : ℝ) ^ K * ((D ^ 2 + 1) * 2 ^ K)) ≤ 2 ^ 72)
    (hE : errBound K D N c2 < 1 / 2)
    (hfit : L.double.raw.fits ((t * (D * (D + 1)) - (D + 1) + 1 : Nat) : Int) = true)
    (hbad : L.double.raw.fits (((t + 1) * (D * (D + 1)) - (D + 1) : Nat) : Int) = false) :
    mulStrassen o L env fuel (List.replicate p D) (List.replicate q D) = .error (.ub .floatToInt) := by
  have hle32 : (2 : ℕ) ^ K ≤ 2 ^ 32 := Nat.pow_le_pow_right (by omega) (by omega)
  obtain ⟨k, hk, hs, hlk, hu⟩ := fftTableSize_eq (a := p) (b := q) (by omega) (by omega)
  have hkK : k ≤ K := by
    by_contra hc
    have : 2 ^ (K + 1) ≤ 2 ^ k := Nat.pow_le_pow_right (by omega) (by omega)
    rw [pow_succ] at this
    omega
  have e1 : (List.replicate p D).length = p := List.length_replicate
  have e2 : (List.replicate q D).length = q := List.length_replicate
  have hr := rounds_ieee M (a := List.replicate p D) (b := List.replicate q D) (k := k) (K := K) (D := D) (c2 := c2) (by omega) hkK
    (by rw [e1, e2]; exact hlk) (inRange_replicate (by omega)) (inRange_replicate (by omega)) (by omega)
    (by rw [e1, e2]; exact Nat.le_trans (Nat.mul_le_mul_right _ hN) hm53) (Nat.cast_nonneg _)
    (by rw [e1, e2]
        have h3 := Nat.mul_le_mul_left (D ^ 4) (len_mul_le' hl hN)
        exact_mod_cast Nat.le_trans h3 hc2)
    hsz (by rw [e1, e2]; exact lt_of_le_of_lt (errBound_mono hN _) hE)
  rw [e1, e2] at hr
  exact replicate_ub h hm hfuel hB hD h1 hp hq hk hs hlk hr hfit hbad

/-- Factors with all digits `B - 1`, when the rounding error is not necessarily below one half: undefined behaviour as soon as
the double-width type is too narrow for the total of column `t` less a multiple of the error. -/
theorem replicate_low_ub {F : Type} {o : FloatOps F} (M : Ieee o) {L : Limits} (h : Supported L) {env : Env} (hm : env.Ample)
    {fuel : Nat} (hfuel : 32 < fuel) {D p q t K w e : Nat} (hB : L.base = D + 1) (hD : 1 ≤ D) (hp : t < p) (hq : t < q)
    (hw : L.double.raw = cU w) (hw50 : w ≤ 50) (hK : K ≤ 31) (hl : p + q ≤ 2 * 2 ^ K) (hD15 : D ≤ 15) {c2 : ℕ}
    (hc2 : D ^ 4 * (2 ^ K * (2 ^ K * 2 ^ K)) ≤ c2 ^ 2)
    (hm50 : 2 ^ K * (D * (D + 1)) + e ≤ 2 ^ 50) (hsz : ((2 : ℝ) ^ (K + 1) * ((D ^ 2 + 1) * 2 ^ (K + 1))) ≤ 2 ^ 72)
    {X : ℝ} (hX : X ≤ 2 ^ 50) (hE : errBound (K + 1) D (2 ^ K) c2 ≤ X) (he : 2 * X + 1 ≤ e)
    (hbad : (2 ^ w : Int) ≤ D * (D + 1) * (t + 1) - 3 * D - 2 * e) :
    mulStrassen o L env fuel (List.replicate p D) (List.replicate q D) = .error (.ub .floatToInt) := by
  have hle32 : (2 : ℕ) ^ (K + 1) ≤ 2 ^ 32 := Nat.pow_le_pow_right (by omega) (by omega)
  have hl' : p + q ≤ 2 ^ (K + 1) := by rw [pow_succ]; omega
  obtain ⟨k, hk, hs, hlk, hu⟩ := fftTableSize_eq (a := p) (b := q) (by omega) (by omega)
  have hkK : k ≤ K + 1 := by
    by_contra hc
    have : 2 ^ (K + 2) ≤ 2 ^ k := Nat.pow_le_pow_right (by omega) (by omega)
    rw [pow_succ] at this
    omega
  have hmin : min p q ≤ 2 ^ K := by omega
  have e1 : (List.replicate p D).length = p := List.length_replicate
  have e2 : (List.replicate q D).length = q := List.length_replicate
  have hr := near_within M (a := List.replicate p D) (b := List.replicate q D) (k := k) (K := K + 1) (D := D) (c2 := c2) (by omega) hkK
    (by rw [e1, e2]; exact hlk) (inRange_replicate (by omega)) (inRange_replicate (by omega)) (by omega)
    (by rw [e1, e2]; exact Nat.le_trans (Nat.mul_le_mul_right _ hmin) (by omega)) (Nat.cast_nonneg _)
    (by rw [e1, e2]
        have h3 := Nat.mul_le_mul_left (D ^ 4) (len_mul_le hl)
        exact_mod_cast Nat.le_trans h3 hc2)
    hsz hX (by rw [e1, e2]; exact le_trans (errBound_mono hmin _) hE)
  rw [pipeline_split o L env fuel (hm _), pipeline_eq o hk (by rw [e1, e2]; exact hs) hfuel, ok_bind, tab_map]
  have e3 : (tab (2 ^ k) fun i => (ifftF o k (pointF o (2 ^ k) (fftF o k (packF o (List.replicate p D) (List.replicate q D)))) i).re) =
      (List.range' 0 (2 ^ k)).map (coefF o k (List.replicate p D) (List.replicate q D)) := by
    rw [← List.range_eq_range']; rfl
  rw [e3, carryLoop_low o h hB hD hw (C := 2 ^ 50) (e := e) (Nat.pow_le_pow_right (by omega) hw50) _ t (2 ^ k) 0 0 (by omega)
    (Nat.zero_le _) (by push_cast; omega) (by simpa using hbad) ?_]
  · rfl
  · intro j _ hj c hc
    obtain ⟨f, v⟩ := hr j (by omega)
    rw [colSum_replicate (by omega) (by omega)] at v
    have hj1 : (j + 1) * (D * D) ≤ 2 ^ K * (D * (D + 1)) := Nat.mul_le_mul (by omega) (Nat.mul_le_mul_left _ (by omega))
    exact trunc_low M f (by linarith) (by omega) hc

/-- Base 2: a product of two numbers all of whose digits are 1, that is of `2 ^ p - 1` and `2 ^ q - 1`, is undefined as soon as
both have 129 digits or more. -/
theorem C67_base2_ub {F : Type} {o : FloatOps F} (M : Ieee o) {env : Env} (hm : env.Ample) {x : Bignum} {r : Rhs} {p q fuel : Nat}
    (hx : Signed x.desc) (hp : x.digits = List.replicate p 1) (hq : (r.get x).digits = List.replicate q 1)
    (h : p + q ≤ 2 ^ 32) (h1 : 129 ≤ p) (h2 : 129 ≤ q) (hf : 32 < fuel) : mulAssign o .base2 env fuel x r = .ub .floatToInt := by
  apply mulAssign_ub hx
  rw [hp, hq]
  rcases le_or_gt (min p q) 1024 with hN | hN
  · refine replicate_ub_ieee M (.inr ⟨8, 1, by norm_num, by norm_num, by norm_num, rfl⟩) hm hf (D := 1) (t := 128) (K := 32)
      (N := 1024) (c2 := 2 ^ 26) rfl (by norm_num) (by norm_num) (by omega) (by omega) (by norm_num) h (by norm_num) hN (by norm_num)
      (by norm_num) (by norm_num) ?_ (by decide) (by decide)
    norm_num [errBound, uro, eta]
  · refine replicate_low_ub M (.inr ⟨8, 1, by norm_num, by norm_num, by norm_num, rfl⟩) hm hf (D := 1) (t := 1023) (K := 31)
      (w := 8) (e := 100) (X := 20) (c2 := 2 ^ 47) rfl (by norm_num) (by omega) (by omega) rfl (by norm_num) (by norm_num)
      (by omega) (by norm_num) (by norm_num) (by norm_num) (by norm_num) (by norm_num) ?_ (by norm_num) (by norm_num)
    norm_num [errBound, uro, eta]

/-- Base 8: the same for numbers all of whose digits are 7, when both have 1171 digits or more. -/
theorem C67_base8_ub {F : Type} {o : FloatOps F} (M : Ieee o) {env : Env} (hm : env.Ample) {x : Bignum} {r : Rhs} {p q fuel : Nat}
    (hx : Signed x.desc) (hp : x.digits = List.replicate p 7) (hq : (r.get x).digits = List.replicate q 7)
    (h : p + q ≤ 2 ^ 32) (h1 : 1171 ≤ p) (h2 : 1171 ≤ q) (hf : 32 < fuel) : mulAssign o .base8 env fuel x r = .ub .floatToInt := by
  apply mulAssign_ub hx
  rw [hp, hq]
  rcases le_or_gt (min p q) 2048 with hN | hN
  · refine replicate_ub_ieee M (.inr ⟨16, 7, by norm_num, by norm_num, by norm_num, rfl⟩) hm hf (D := 7) (t := 1170) (K := 32)
      (N := 2048) (c2 := 49 * 2 ^ 27) rfl (by norm_num) (by norm_num) (by omega) (by omega) (by norm_num) h (by norm_num) hN (by norm_num)
      (by norm_num) (by norm_num) ?_ (by decide) (by decide)
    norm_num [errBound, uro, eta]
  · refine replicate_low_ub M (.inr ⟨16, 7, by norm_num, by norm_num, by norm_num, rfl⟩) hm hf (D := 7) (t := 2047) (K := 31)
      (w := 16) (e := 2500) (X := 1000) (c2 := 49 * 2 ^ 47) rfl (by norm_num) (by omega) (by omega) rfl (by norm_num) (by norm_num)
      (by omega) (by norm_num) (by norm_num) (by norm_num) (by norm_num) (by norm_num) ?_ (by norm_num) (by norm_num)
    norm_num [errBound, uro, eta]

example {F : Type} {o : FloatOps F} (M : Ieee o) := C67_base8_ub M Sample.ample (x := ⟨.pos, List.replicate 1200 7⟩) (r := .self)
  (p := 1200) (q := 1200) (fuel := 33) (.inl rfl) rfl rfl (by decide) (by decide) (by decide) (by decide)

/-- Every product of a `p`-digit and a `q`-digit number is computed exactly. -/
def AllExact {F : Type} (o : FloatOps F) (L : Limits) (env : Env) (p q : Nat) : Prop :=
  ∀ x y, WF L x → WF L y → x.digits.length = p → y.digits.length = q →
    ∃ z, Evaluates (fun n => mulAssign o L env n x (.other y)) (.ok z) ∧ z.toInt L = x.toInt L * y.toInt L

theorem not_allExact {F : Type} {o : FloatOps F} {L : Limits} {env : Env} {p q D : Nat} (hD : D < L.base) (hD0 : 0 < D) (hp : 0 < p)
    (hq : 0 < q)
    (hu : ∀ n, 32 < n → mulAssign o L env n ⟨.pos, List.replicate p D⟩ (.other ⟨.pos, List.replicate q D⟩) = .ub .floatToInt) :
    ¬AllExact o L env p q := by
  intro ha
  have hwf : ∀ n, 0 < n → WF L ⟨.pos, List.replicate n D⟩ := by
    intro n hn
    refine ⟨.inl rfl, inRange_replicate hD, .inl ?_⟩
    intro h0
    have := List.mem_of_getLast? h0
    exact absurd (List.eq_of_mem_replicate this) (by omega)
  obtain ⟨z, ⟨n, hn⟩, -⟩ := ha _ _ (hwf p hp) (hwf q hq) List.length_replicate List.length_replicate
  have h1 := hn (n + 33) (by omega)
  simp only [hu (n + 33) (by omega)] at h1
  cases h1

/-- Base 2: products of `p`-digit by `q`-digit numbers are all exact if and only if the shorter factor has at most 128 digits. -/
theorem C67_base2 {F : Type} {o : FloatOps F} (M : Ieee o) {env : Env} (hm : env.Ample) {p q : Nat} (h1 : 1 ≤ p + q)
    (h2 : p + q ≤ 2 ^ 32) : AllExact o .base2 env p q ↔ min p q ≤ 128 := by
  constructor
  · intro ha
    by_contra hc
    exact not_allExact (L := .base2) (D := 1) (by decide) (by decide) (by omega) (by omega)
      (fun n hn => C67_base2_ub M hm (p := p) (q := q) (.inl rfl) rfl rfl h2 (by omega) (by omega) hn) ha
  · intro hc x y hx hy hp hq
    obtain ⟨z, hz, -, -, -, hv⟩ := C24_base2 M hm (r := .other y) hx hy (by show 1 ≤ _ + y.digits.length; omega)
      (by show _ + y.digits.length ≤ _; omega) (by show min _ y.digits.length ≤ _; omega)
    exact ⟨z, ⟨33, fun n hn => hz n (by omega)⟩, hv⟩

/-- Base 8: the limit is 1170 digits. -/
theorem C67_base8 {F : Type} {o : FloatOps F} (M : Ieee o) {env : Env} (hm : env.Ample) {p q : Nat} (h1 : 1 ≤ p + q)
    (h2 : p + q ≤ 2 ^ 32) : AllExact o .base8 env p q ↔ min p q ≤ 1170 := by
  constructor
  · intro ha
    by_contra hc
    exact not_allExact (L := .base8) (D := 7) (by decide) (by decide) (by omega) (by omega)
      (fun n hn => C67_base8_ub M hm (p := p) (q := q) (.inl rfl) rfl rfl h2 (by omega) (by omega) hn) ha
  · intro hc x y hx hy hp hq
    obtain ⟨z, hz, -, -, -, hv⟩ := C24_base8 M hm (r := .other y) hx hy (by show 1 ≤ _ + y.digits.length; omega)
      (by show _ + y.digits.length ≤ _; omega) (by show min _ y.digits.length ≤ _; omega)
    exact ⟨z, ⟨33, fun n hn => hz n (by omega)⟩, hv⟩

/-- Lengths on both sides of the limits. -/
example {F : Type} {o : FloatOps F} (M : Ieee o) {env : Env} (hm : env.Ample) :
    AllExact o .base2 env 128 1000 ∧ ¬AllExact o .base2 env 129 129 ∧ AllExact o .base8 env 5000 1170 ∧ ¬AllExact o .base8 env 1171 5000 :=
  ⟨(C67_base2 M hm (by norm_num) (by norm_num)).2 (by norm_num), fun h => absurd ((C67_base2 M hm (by norm_num) (by norm_num)).1 h) (by norm_num),
    (C67_base8 M hm (by norm_num) (by norm_num)).2 (by norm_num), fun h => absurd ((C67_base8 M hm (by norm_num) (by norm_num)).1 h) (by norm_num)⟩

/-- Concrete operands of the undefined product: (2^200 - 1) * -(2^129 - 1). -/
example {F : Type} {o : FloatOps F} (M : Ieee o) :
    mulAssign o .base2 releaseEnv 33 ⟨.pos, List.replicate 200 1⟩ (.other ⟨.neg, List.replicate 129 1⟩) = .ub .floatToInt :=
  C67_base2_ub M (fun _ => rfl) (.inl rfl) rfl rfl (by norm_num) (by norm_num) (by norm_num) (by norm_num)

end BN
