import Verif.Props.NativePairs
/-
C25: for which lengths of the factors products of the native 8-bit and 16-bit digit types are right.
-/
namespace BN
open Bignum

/-- A type of digits up to D whose products are decided by their columns and whose double-width type holds D (D + 1) but not twice that:
products of p-digit by q-digit numbers are all right exactly when one of the factors has at most one digit. -/
theorem allExact_iff_short {F : Type} {o : FloatOps F} {L : Limits} {env : Env} {D w K : Nat} (hB : L.base = D + 1) (hD : 2 ≤ D)
    (hfit : D * (D + 1) < 2 ^ w) (hbad : 2 ^ w ≤ 2 * (D * (D + 1)) - (D + 1))
    (hdec : ∀ x y, WF L x → WF L y → 1 ≤ x.digits.length + y.digits.length → x.digits.length + y.digits.length ≤ K →
      DecidedByColumns o L env w x (.other y)) {p q : Nat} (h1 : 1 ≤ p + q) (h2 : p + q ≤ K) :
    AllExact o L env p q ↔ min p q ≤ 1 := by
  constructor
  · intro ha
    by_contra hc
    refine not_allExact (L := L) (D := D) (by omega) (by omega) (p := p) (q := q) (by omega) (by omega) (fun n hn => ?_) ha
    have hwf : ∀ m, 0 < m → WF L ⟨.pos, List.replicate m D⟩ := by
      intro m hm0
      refine ⟨.inl rfl, inRange_replicate (by omega), .inl ?_⟩
      intro h0
      have := List.eq_of_mem_replicate (List.mem_of_getLast? h0)
      omega
    refine (hdec ⟨.pos, List.replicate p D⟩ ⟨.pos, List.replicate q D⟩ (hwf p (by omega)) (hwf q (by omega)) (by simpa using h1)
      (by simpa using h2)).2 ⟨1, ?_, ?_⟩ n hn
    · simp only [Rhs.get, List.length_replicate]; omega
    · have := (totals_replicate (D := D) (p := p) (q := q) (by omega) 1 (by omega) (by omega)).2 (by norm_num)
      show 2 ^ w ≤ columnTotal L.base (List.replicate p D) (List.replicate q D) 1
      rw [hB, columnTotal_eq_totals (by omega), this]
      omega
  · intro hc x y hx hy hp hq
    obtain ⟨z, hz, -, -, -, hv⟩ := (hdec x y hx hy (by omega) (by omega)).1 (by
        intro j _
        have := columnTotal_lt (B := L.base) (D := D) (by rw [← hB]; exact hx.2.1) (by rw [← hB]; exact hy.2.1) (by omega) j
        rw [hp, hq] at this
        show columnTotal _ x.digits y.digits j < _
        have h3 := Nat.mul_le_mul_right (D * (D + 1)) hc
        omega)
    exact ⟨z, ⟨33, fun n hn => hz n (by omega)⟩, hv⟩

/-- 8-bit digits: all products of p-digit by q-digit numbers are right exactly when one of the factors has a single digit. -/
theorem C25_lowp_lengths_partial {F : Type} {o : FloatOps F} (M : Ieee o) {env : Env} (hm : env.Ample) {p q : Nat} (h1 : 1 ≤ p + q)
    (h2 : p + q ≤ 2 ^ 18) : AllExact o .lowp env p q ↔ min p q ≤ 1 :=
  allExact_iff_short (D := 255) (w := 16) (by decide) (by norm_num) (by norm_num) (by norm_num)
    (fun _ y hx hy h1 h2 => C68_lowp M (r := .other y) (hm _) hx hy h1 h2) h1 h2

example {F : Type} {o : FloatOps F} (M : Ieee o) : AllExact o .lowp releaseEnv 1 70000 ∧ ¬AllExact o .lowp releaseEnv 2 2 :=
  ⟨(C25_lowp_lengths_partial M Sample.ample (by norm_num) (by norm_num)).2 (by norm_num),
    fun h => absurd ((C25_lowp_lengths_partial M Sample.ample (by norm_num) (by norm_num)).1 h) (by norm_num)⟩

/-- 16-bit digits. -/
theorem C25_medp_lengths_partial {F : Type} {o : FloatOps F} (M : Ieee o) {env : Env} (hm : env.Ample) {p q : Nat} (h1 : 1 ≤ p + q)
    (h2 : p + q ≤ 2 ^ 8) : AllExact o .medp env p q ↔ min p q ≤ 1 :=
  allExact_iff_short (D := 65535) (w := 32) (by decide) (by norm_num) (by norm_num) (by norm_num)
    (fun _ y hx hy h1 h2 => C68_medp M (r := .other y) (hm _) hx hy h1 h2) h1 h2

example {F : Type} {o : FloatOps F} (M : Ieee o) : AllExact o .medp releaseEnv 200 1 ∧ ¬AllExact o .medp releaseEnv 2 3 :=
  ⟨(C25_medp_lengths_partial M Sample.ample (by norm_num) (by norm_num)).2 (by norm_num),
    fun h => absurd ((C25_medp_lengths_partial M Sample.ample (by norm_num) (by norm_num)).1 h) (by norm_num)⟩

/-- 32-bit digits: not even products of two one-digit numbers are all right. -/
theorem C25_highp_lengths {F : Type} {o : FloatOps F} (M : Ieee o) (hM : M.NoExcess) {env : Env} (hm : env.Ample) :
    ¬AllExact o .highp env 1 1 := by
  intro ha
  have hwf : WF .highp ⟨.pos, [4294967295]⟩ := ⟨.inl rfl, by simp [InRange, Limits.base]; decide, .inl (by simp [NoLeadingZero])⟩
  obtain ⟨z, ⟨n, hz⟩, hv⟩ := ha _ _ hwf hwf rfl rfl
  have h := C25_highp_odd_wrong M hM hm (x := 4294967295) (y := 4294967295) (by norm_num) (by norm_num) (by norm_num) (by norm_num)
    (d1 := .pos) (d2 := .pos) (.inl rfl) (fuel := n + 33) (by omega) z (hz (n + 33) (by omega))
  apply h
  have h4 : (z.mag .highp : ℤ) = (z.toInt .highp).natAbs := by
    unfold Bignum.toInt; split <;> simp
  rw [hv] at h4
  have h5 : (Bignum.toInt .highp ⟨.pos, [4294967295]⟩) = 4294967295 := by
    simp [Bignum.toInt, mag, natOf]
  rw [h5] at h4
  omega

example {F : Type} {o : FloatOps F} (M : Ieee o) (hM : M.NoExcess) := C25_highp_lengths M hM Sample.ample

end BN
