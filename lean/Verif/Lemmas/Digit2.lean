import Verif.Lemmas.Digit
/-
Digit-level evaluation: native division fault, schoolbook product, carry pass of the FFT product.
-/
namespace BN

set_option linter.unusedSimpArgs false

theorem vbin_mod_zero {s t : CTy} {T : CTy} (hT : s.promote.common t.promote = T) (hw : T.wrap 0 = 0) (a : Int) :
    Val.bin .mod ⟨.prim s, a⟩ ⟨.prim t, 0⟩ = .error (.ub .divByZero) := by
  simp only [Val.bin, Val.raw, Ty.raw, CVal.bin, hT, hw, if_true]
  rfl

/-- For the built-in digit types `(bn_single)SINGLE_BASE_LIMIT` is 0, and the remainder is undefined. -/
theorem shlDigit_native {L : Limits} (h : Native L) {d c : Nat} (hd : d < L.base) (hc : c ≤ 1) :
    shlDigit L d (L.sgl c) = .error (.ub .divByZero) := by
  cases h
  · unfold shlDigit divBaseLimit
    lim; cUu 64 .add; lim; cI .mul; lim; cI .add; lim; kI; lim
    rw [vbin_mod_zero (T := cInt) (by decide) (by decide)]; rfl
  · unfold shlDigit divBaseLimit
    lim; cUu 64 .add; lim; cI .mul; lim; cI .add; lim; kI; lim
    rw [vbin_mod_zero (T := cInt) (by decide) (by decide)]; rfl
  · unfold shlDigit divBaseLimit
    lim; cUu 64 .add; lim; cUu 32 .mul; lim; cUu 32 .add; lim; kU 32; lim
    rw [vbin_mod_zero (T := cU 32) (by decide) (by decide)]; rfl
  · unfold shlDigit divBaseLimit
    lim; cUu 64 .add; lim; cI .mul; lim; cI .add; lim; kI; lim
    rw [vbin_mod_zero (T := cInt) (by decide) (by decide)]; rfl
  · unfold shlDigit divBaseLimit
    lim; cUu 64 .add; lim; cI .mul; lim; cI .add; lim; kI; lim
    rw [vbin_mod_zero (T := cInt) (by decide) (by decide)]; rfl
  · unfold shlDigit divBaseLimit
    lim; cUu 64 .add; lim; cI .mul; lim; cI .add; lim; kI; lim
    rw [vbin_mod_zero (T := cInt) (by decide) (by decide)]; rfl

/-- The integer part of one carry step of `mul_strassen`. -/
theorem carryDigit_eq {L : Limits} (h : Supported L) {z : Nat} (hz : L.double.raw.fits z = true) :
    (do let m ← Val.bin .mod ⟨L.double, z⟩ (L.toDouble (L.maxLimit + 1))
        let q ← Val.bin .div ⟨L.double, z⟩ (L.toDouble (L.maxLimit + 1))
        .ok (L.store m, (q.conv (.prim (cU 64))).val.toNat) : Res (Nat × Nat)) = .ok (z % L.base, z / L.base) := by
  revert hz
  refine supported_cases (P := fun L => L.double.raw.fits z = true →
    (do let m ← Val.bin .mod ⟨L.double, z⟩ (L.toDouble (L.maxLimit + 1))
        let q ← Val.bin .div ⟨L.double, z⟩ (L.toDouble (L.maxLimit + 1))
        .ok (L.store m, (q.conv (.prim (cU 64))).val.toNat) : Res (Nat × Nat)) = .ok (z % L.base, z / L.base)) h
    ?_ ?_ ?_ ?_ ?_ ?_ ?_ ?_ ?_ ?_
  · intro hz
    simp [Limits.lowp, Limits.medp, Limits.highp, Ty.raw, CTy.fits, cU] at hz
    lim; cI .mod; lim; cI .div; lim
    simp only [Except.ok.injEq, Prod.mk.injEq]
    omega
  · intro hz
    simp [Limits.lowp, Limits.medp, Limits.highp, Ty.raw, CTy.fits, cU] at hz
    lim; cUu 32 .mod; lim; cUu 32 .div; lim
    simp only [Except.ok.injEq, Prod.mk.injEq]
    omega
  · intro hz
    simp [Limits.lowp, Limits.medp, Limits.highp, Ty.raw, CTy.fits, cU] at hz
    lim; cUu 64 .mod; lim; cUu 64 .div; lim
    simp only [Except.ok.injEq, Prod.mk.injEq]
    omega
  · intro hz
    simp [Limits.pair, Ty.raw, CTy.fits, cU] at hz
    lim; cUu 32 .mod; lim; cUu 32 .div; lim
    simp only [Except.ok.injEq, Prod.mk.injEq]
    omega
  · intro hz
    simp [Limits.pair, Ty.raw, CTy.fits, cU] at hz
    lim; cUu 64 .mod; lim; cUu 64 .div; lim
    simp only [Except.ok.injEq, Prod.mk.injEq]
    omega
  · intro hz
    simp [Limits.pair, Ty.raw, CTy.fits, cU] at hz
    lim; cUu 64 .mod; lim; cUu 64 .div; lim
    simp only [Except.ok.injEq, Prod.mk.injEq]
    omega
  · intro max h1 h2 hz
    simp [Limits.custom, Ty.raw, CTy.fits, cU] at hz
    show _ = Except.ok (z % (max + 1), z / (max + 1))
    have hm1 : z % (max + 1) < max + 1 := Nat.mod_lt _ (by omega)
    have hd1 : z / (max + 1) ≤ z := Nat.div_le_self _ _
    have em : (z : Int) % ((max : Int) + 1) = ((z % (max + 1) : Nat) : Int) := by push_cast; rfl
    have ed : (z : Int) / ((max : Int) + 1) = ((z / (max + 1) : Nat) : Int) := by push_cast; rfl
    generalize z % (max + 1) = m at hm1 em
    generalize z / (max + 1) = q at hd1 ed
    lim; cB .mod; lim; cB .div; lim
    rw [em, ed]
    simp only [Except.ok.injEq, Prod.mk.injEq]
    omega
  · intro max h1 h2 hz
    simp [Limits.custom, Ty.raw, CTy.fits, cU] at hz
    show _ = Except.ok (z % (max + 1), z / (max + 1))
    have hm1 : z % (max + 1) < max + 1 := Nat.mod_lt _ (by omega)
    have hd1 : z / (max + 1) ≤ z := Nat.div_le_self _ _
    have em : (z : Int) % ((max : Int) + 1) = ((z % (max + 1) : Nat) : Int) := by push_cast; rfl
    have ed : (z : Int) / ((max : Int) + 1) = ((z / (max + 1) : Nat) : Int) := by push_cast; rfl
    generalize z % (max + 1) = m at hm1 em
    generalize z / (max + 1) = q at hd1 ed
    lim; cB .mod; lim; cB .div; lim
    rw [em, ed]
    simp only [Except.ok.injEq, Prod.mk.injEq]
    omega
  · intro max h1 h2 hz
    simp [Limits.custom, Ty.raw, CTy.fits, cU] at hz
    show _ = Except.ok (z % (max + 1), z / (max + 1))
    have hm1 : z % (max + 1) < max + 1 := Nat.mod_lt _ (by omega)
    have hd1 : z / (max + 1) ≤ z := Nat.div_le_self _ _
    have em : (z : Int) % ((max : Int) + 1) = ((z % (max + 1) : Nat) : Int) := by push_cast; rfl
    have ed : (z : Int) / ((max : Int) + 1) = ((z / (max + 1) : Nat) : Int) := by push_cast; rfl
    generalize z % (max + 1) = m at hm1 em
    generalize z / (max + 1) = q at hd1 ed
    lim; cB .mod; lim; cB .div; lim
    rw [em, ed]
    simp only [Except.ok.injEq, Prod.mk.injEq]
    omega
  · intro max h1 h2 hz
    simp [Limits.custom, Ty.raw, CTy.fits, cU] at hz
    show _ = Except.ok (z % (max + 1), z / (max + 1))
    have hm1 : z % (max + 1) < max + 1 := Nat.mod_lt _ (by omega)
    have hd1 : z / (max + 1) ≤ z := Nat.div_le_self _ _
    have em : (z : Int) % ((max : Int) + 1) = ((z % (max + 1) : Nat) : Int) := by push_cast; rfl
    have ed : (z : Int) / ((max : Int) + 1) = ((z / (max + 1) : Nat) : Int) := by push_cast; rfl
    generalize z % (max + 1) = m at hm1 em
    generalize z / (max + 1) = q at hd1 ed
    lim; cB .mod; lim; cB .div; lim
    rw [em, ed]
    simp only [Except.ok.injEq, Prod.mk.injEq]
    omega

/-- A custom base whose square fits the digit type. -/
def CustomSq (L : Limits) : Prop :=
  ∃ w max, IsWidth w ∧ 1 ≤ max ∧ (max + 1) * (max + 1) ≤ 2 ^ w ∧ L = .custom w max

theorem CustomSq.custom {L : Limits} (h : CustomSq L) : Custom L := by
  obtain ⟨w, max, hw, h1, h2, rfl⟩ := h
  refine ⟨w, max, hw, h1, ?_, rfl⟩
  have : (max + 1) * (max + 1) = max * max + 2 * max + 1 := by ring
  have : 1 ≤ max * max := Nat.mul_le_mul h1 h1
  omega

/-- One cell update of `mul_naive`. -/
theorem naiveDigit_eq {L : Limits} (h : CustomSq L) {r c x y : Nat} (hr : r < L.base) (hc : c < L.base)
    (hx : x < L.base) (hy : y < L.base) :
    naiveDigit L r c x y = .ok ((r + c + x * y) % L.base, (r + c + x * y) / L.base) := by
  obtain ⟨w, max, hw, h1, h2, rfl⟩ := h
  have hB : (Limits.custom w max).base = max + 1 := rfl
  rw [hB] at hr hc hx hy ⊢
  have e : (max + 1) * (max + 1) = max * max + 2 * max + 1 := by ring
  have hxy : x * y ≤ max * max := Nat.mul_le_mul (by omega) (by omega)
  have hxz : (x : Int) * y = ((x * y : Nat) : Int) := by push_cast; rfl
  generalize hP : x * y = P at *
  have hm1 : (r + c + P) % (max + 1) < max + 1 := Nat.mod_lt _ (by omega)
  have hd1 : (r + c + P) / (max + 1) < max + 1 := by
    apply Nat.div_lt_of_lt_mul; omega
  have em : ((r : Int) + (c + P)) % ((max : Int) + 1) = (((r + c + P) % (max + 1) : Nat) : Int) := by
    push_cast; rw [Int.add_assoc]
  have ed : ((r : Int) + (c + P)) / ((max : Int) + 1) = (((r + c + P) / (max + 1) : Nat) : Int) := by
    push_cast; rw [Int.add_assoc]
  generalize (r + c + P) % (max + 1) = m at hm1 em
  generalize (r + c + P) / (max + 1) = q at hd1 ed
  have h5 : max + 1 ≤ 4294967296 := by
    by_contra hcon
    have h3 : 4294967297 * 4294967297 ≤ (max + 1) * (max + 1) := Nat.mul_le_mul (by omega) (by omega)
    rcases hw with rfl | rfl | rfl | rfl <;> omega
  have h6 : 1 ≤ max * max := Nat.mul_le_mul h1 h1
  generalize max * max = M at *
  rw [e] at h2
  rcases hw with rfl | rfl | rfl | rfl
  · unfold naiveDigit naiveBase
    lim; cB .add; lim; cB .mul
    lim; rw [hxz]; try simp (disch := omega) only [Int.emod_eq_of_lt]
    cUu 32 .add; lim; cB .add; lim; cB .div; lim; cB .mod; lim
    rw [em, ed]
    simp only [Except.ok.injEq, Prod.mk.injEq]
    omega
  · unfold naiveDigit naiveBase
    lim; cB .add; lim; cB .mul
    lim; rw [hxz]; try simp (disch := omega) only [Int.emod_eq_of_lt]
    cUu 32 .add; lim; cB .add; lim; cB .div; lim; cB .mod; lim
    rw [em, ed]
    simp only [Except.ok.injEq, Prod.mk.injEq]
    omega
  · unfold naiveDigit naiveBase
    lim; cB .add; lim; cB .mul
    lim; rw [hxz]; try simp (disch := omega) only [Int.emod_eq_of_lt]
    cUu 32 .add; lim; cB .add; lim; cB .div; lim; cB .mod; lim
    rw [em, ed]
    simp only [Except.ok.injEq, Prod.mk.injEq]
    omega
  · unfold naiveDigit naiveBase
    lim; cB .add; lim; cB .mul
    lim; rw [hxz]; try simp (disch := omega) only [Int.emod_eq_of_lt]
    cUu 64 .add; lim; cB .add; lim; cB .div; lim; cB .mod; lim
    rw [em, ed]
    simp only [Except.ok.injEq, Prod.mk.injEq]
    omega

end BN
