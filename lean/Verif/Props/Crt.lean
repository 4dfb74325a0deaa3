import Verif.Props.KeyExchange
import Mathlib.Data.Nat.ChineseRemainder
/-
C167: the Chinese remainder theorem.
-/
namespace BN
open Bignum

/-- `i = inverse(n % m, m); j = inverse(m % n, n); return (a * n * i + b * m * j) % (m * n);`, with `x % y` written as `x - x / y * y` -/
def crt {F : Type} (o : FloatOps F) (L : Limits) (env : Env) (f : Nat) (a m b n : Bignum) : Res Bignum := do
  let u ← remainder o L env f n m
  let i ← inverse o L env f u m
  let v ← remainder o L env f m n
  let j ← inverse o L env f v n
  let p ← a.mul o L env f n
  let p ← p.mul o L env f i
  let q ← b.mul o L env f m
  let q ← q.mul o L env f j
  let s ← p.add L env f q
  let t ← m.mul o L env f n
  remainder o L env f s t

variable {L : Limits} {env : Env}

theorem zero_add_zero (hL : Supported L) (hm : env.Ample) {n : Nat} (hn : 0 < n) :
    addAssign L env n ⟨.pos, []⟩ (.other ⟨.pos, []⟩) = .ok ⟨.pos, [0]⟩ := by
  rw [addAssign_same_ok hL hm (.inl rfl) rfl (by simp [InRange]) (by simp [Rhs.get, InRange]) (by simpa [Rhs.get] using hn)]
  rfl

section
variable {F : Type} {o : FloatOps F} (M : Ieee o) {K : Nat} (hp : Preset L K) (hm : env.Ample) (hd : env.debug = false)
include M hp hm hd

theorem inverse_num {u N : Nat} (h0 : 0 < u) (h1 : u < N) (hc : u.Coprime N) (hK : 2 * (numeral L .pos N).digits.length ≤ K) :
    ∃ w, 0 < w ∧ w < N ∧ u * w ≡ 1 [MOD N] ∧ Evaluates (fun n => inverse o L env n (numeral L .pos u) (numeral L .pos N)) (.ok (numeral L .pos w)) := by
  have hB := hp.custom.supported.base_ge
  have ti : ∀ a : Nat, (numeral L .pos a).toInt L = a := fun a => by rw [toInt_of_pos rfl, numeral_mag]
  obtain ⟨i, i1, i2, i3, i4, i5, -⟩ := C146_inverse M hp hm hd (a := numeral L .pos u) (m := numeral L .pos N)
    (numeral_wf hB (.inl rfl) _) (numeral_wf hB (.inl rfl) _) (by rw [ti]; exact_mod_cast h0) (by rw [ti, ti]; exact_mod_cast h1)
    (fun d e1 e2 => by
      rw [ti] at e1 e2
      exact ((Nat.isCoprime_iff_coprime.2 hc).isUnit_of_dvd' e1 e2).dvd) hK
  have ei := eq_pos hB i2 i3
  obtain ⟨w, hw⟩ : ∃ w : Nat, i.toInt L = w := ⟨(i.toInt L).toNat, by omega⟩
  rw [ti, hw] at i4
  rw [hw] at i3
  rw [ti, ti, hw] at i5
  rw [hw, Int.toNat_natCast] at ei
  subst ei
  refine ⟨w, by exact_mod_cast i3, by exact_mod_cast i4, ?_, i1⟩
  have h := (Int.modEq_iff_dvd.2 i5).symm
  exact (Int.natCast_modEq_iff).1 (by push_cast at h ⊢; exact h)

theorem crt_num {a b m n : Nat} (hm2 : 2 ≤ m) (hn2 : 2 ≤ n) (hc : m.Coprime n) (ha : a < m) (hb : b < n)
    (hK : 3 * ((numeral L .pos m).digits.length + (numeral L .pos n).digits.length) ≤ K) :
    ∃ r, r < m * n ∧ r % m = a ∧ r % n = b ∧
      Evaluates (fun f => crt o L env f (numeral L .pos a) (numeral L .pos m) (numeral L .pos b) (numeral L .pos n)) (.ok (numeral L .pos r)) := by
  have hB := hp.custom.supported.base_ge
  have hmn : m ≠ n := fun h => by subst h; rw [Nat.coprime_self] at hc; omega
  have u0 : 0 < n % m := Nat.pos_of_ne_zero fun h => by
    have := Nat.Coprime.eq_one_of_dvd hc (Nat.dvd_of_mod_eq_zero h); omega
  have v0 : 0 < m % n := Nat.pos_of_ne_zero fun h => by
    have := Nat.Coprime.eq_one_of_dvd hc.symm (Nat.dvd_of_mod_eq_zero h); omega
  obtain ⟨i, i0, i1, i2, i3⟩ := inverse_num M hp hm hd u0 (Nat.mod_lt _ (by omega)) (by
    rw [Nat.Coprime, ← Nat.gcd_rec]; exact hc) (by omega)
  obtain ⟨j, j0, j1, j2, j3⟩ := inverse_num M hp hm hd v0 (Nat.mod_lt _ (by omega)) (by
    rw [Nat.Coprime, ← Nat.gcd_rec]; exact hc.symm) (by omega)
  have lm := length_pos (mag_ne_nil (x := numeral L .pos m) (L := L) (by rw [numeral_mag]; omega))
  have ln := length_pos (mag_ne_nil (x := numeral L .pos n) (L := L) (by rw [numeral_mag]; omega))
  have la := length_numeral_mono (L := L) hB ha.le
  have lb := length_numeral_mono (L := L) hB hb.le
  have li := length_numeral_mono (L := L) hB i1.le
  have lj := length_numeral_mono (L := L) hB j1.le
  have lan := length_numeral_mul (L := L) hB a n
  have lbm := length_numeral_mul (L := L) hB b m
  have lmn := length_numeral_mul (L := L) hB m n
  have hsum : a * n * i + b * m * j ≤ m * n * (m * n) := by
    have h1 : a * n * i ≤ m * n * m := Nat.mul_le_mul (Nat.mul_le_mul_right _ ha.le) i1.le
    have h2 : b * m * j ≤ n * m * n := Nat.mul_le_mul (Nat.mul_le_mul_right _ hb.le) j1.le
    have h3 : m + n ≤ m * n := by nlinarith
    nlinarith [Nat.mul_le_mul_left (m * n) h3]
  have ls := length_numeral_mono (L := L) hB hsum
  have lsq := length_numeral_mul (L := L) hB (m * n) (m * n)
  have r1 : a * n * i + b * m * j ≡ a [MOD m] := by
    have h1 : n * i ≡ 1 [MOD m] := ((Nat.mod_modEq n m).symm.mul_right i).trans i2
    have h2 : b * m * j ≡ 0 [MOD m] := Nat.modEq_zero_iff_dvd.2 ⟨b * j, by ring⟩
    have h3 := (h1.mul_left a).add h2
    rwa [← Nat.mul_assoc, Nat.mul_one, Nat.add_zero] at h3
  have r2 : a * n * i + b * m * j ≡ b [MOD n] := by
    have h1 : m * j ≡ 1 [MOD n] := ((Nat.mod_modEq m n).symm.mul_right j).trans j2
    have h2 : a * n * i ≡ 0 [MOD n] := Nat.modEq_zero_iff_dvd.2 ⟨a * i, by ring⟩
    have h3 := h2.add (h1.mul_left b)
    rwa [← Nat.mul_assoc, Nat.mul_one, Nat.zero_add] at h3
  have hmn0 : 0 < m * n := Nat.mul_pos (by omega) (by omega)
  have hsm : a * n * i + b * m * j ≠ m * n := fun h => by
    rw [h, Nat.ModEq, Nat.mul_mod_right, Nat.mod_eq_of_lt ha] at r1
    rw [h, Nat.ModEq, Nat.mul_mod_left, Nat.mod_eq_of_lt hb] at r2
    subst r1 r2
    simp at h
    omega
  refine ⟨(a * n * i + b * m * j) % (m * n), Nat.mod_lt _ (by positivity), ?_, ?_, ?_⟩
  · rw [Nat.mod_mod_of_dvd _ (Dvd.intro _ rfl), r1, Nat.mod_eq_of_lt ha]
  · rw [Nat.mod_mod_of_dvd _ (Dvd.intro_left _ rfl), r2, Nat.mod_eq_of_lt hb]
  unfold crt
  have s1 : Evaluates (fun f => remainder o L env f (numeral L .pos n) (numeral L .pos m)) (.ok (numeral L .pos (n % m))) :=
    ⟨n.size + 33, fun f hf => pos_rem M hp hm hd (by omega) (by omega) (.inl hmn.symm) (by omega) hf⟩
  have s2 : Evaluates (fun f => remainder o L env f (numeral L .pos m) (numeral L .pos n)) (.ok (numeral L .pos (m % n))) :=
    ⟨m.size + 33, fun f hf => pos_rem M hp hm hd (by omega) (by omega) (.inl hmn) (by omega) hf⟩
  refine s1.bind (i3.bind (s2.bind (j3.bind ⟨(m * n * (m * n)).size + 33, fun f hf => ?_⟩)))
  have z1 := Nat.size_le_size hsum
  have z2 := Nat.size_le_size (show a * n * i ≤ a * n * i + b * m * j by omega)
  have z3 := Nat.size_le_size (show b * m * j ≤ a * n * i + b * m * j by omega)
  beta_reduce
  rw [pos_mul M hp hm (.inr (by omega)) (by omega) (by omega), ok_bind, pos_mul M hp hm (.inr (by omega)) (by omega) (by omega), ok_bind,
    pos_mul M hp hm (.inr (by omega)) (by omega) (by omega), ok_bind, pos_mul M hp hm (.inr (by omega)) (by omega) (by omega), ok_bind]
  by_cases hs0 : a * n * i + b * m * j = 0
  · have e1 : a * n * i = 0 := by omega
    have e2 : b * m * j = 0 := by omega
    have e3 : (numeral L .pos 0).add L env f (numeral L .pos 0) = .ok ⟨.pos, [0]⟩ := by
      unfold Bignum.add viaCopy
      rw [show numeral L .pos 0 = ⟨.pos, []⟩ by simp [numeral], copy_ok hm, ok_bind]
      rw [zero_add_zero hp.custom.supported hm (by omega)]
    rw [e1, e2, e3, ok_bind, pos_mul M hp hm (.inr (by omega)) (by omega) (by omega), ok_bind,
      C73_remainder_partial M hp hm hd (a := ⟨.pos, [0]⟩) ⟨.inl rfl, fun x hx => by simp at hx; omega, .inr rfl⟩ (numeral_wf hB (.inl rfl) _) (by simp)
        (by rw [numeral_mag]; omega) (.inl (by rw [numeral_mag]; simp [Bignum.mag]; omega)) (by simp only [List.length_singleton]; omega)
        (by simp [Bignum.mag]; omega) (by omega), numeral_mag]
    simp [Bignum.mag]
  · rw [add_numerals hp.custom.supported hm hs0 (by omega), ok_bind, pos_mul M hp hm (.inr (by omega)) (by omega) (by omega), ok_bind]
    exact pos_rem M hp hm hd hs0 hmn0.ne' (.inl hsm) (by omega) (by omega)

/-- All pairs of residues modulo coprime numbers: the result is the only number below the product with these residues. -/
theorem C167_crt {a b m n : Bignum} (ha : WF L a) (hb : WF L b) (hmw : WF L m) (hnw : WF L n) (ha0 : 0 < a.toInt L ∨ a = Bignum.default)
    (hb0 : 0 < b.toInt L ∨ b = Bignum.default) (ham : a.toInt L < m.toInt L) (hbn : b.toInt L < n.toInt L) (hm2 : 2 ≤ m.toInt L) (hn2 : 2 ≤ n.toInt L)
    (hc : ∀ d : Int, d ∣ m.toInt L → d ∣ n.toInt L → d ∣ 1) (hK : 3 * (m.size + n.size) ≤ K) :
    ∃ r, Evaluates (fun f => crt o L env f a m b n) (.ok r) ∧ WF L r ∧ 0 ≤ r.toInt L ∧ r.toInt L < m.toInt L * n.toInt L ∧
      r.toInt L % m.toInt L = a.toInt L ∧ r.toInt L % n.toInt L = b.toInt L ∧
      ∀ y : Int, 0 ≤ y → y < m.toInt L * n.toInt L → y % m.toInt L = a.toInt L → y % n.toInt L = b.toInt L → y = r.toInt L := by
  have hB := hp.custom.supported.base_ge
  have ti : ∀ a : Nat, (numeral L .pos a).toInt L = a := fun a => by rw [toInt_of_pos rfl, numeral_mag]
  have nat : ∀ {x : Bignum}, WF L x → 0 < x.toInt L ∨ x = Bignum.default → ∃ v, x = numeral L .pos v := fun hx h => by
    rcases h with h | rfl
    · exact ⟨_, eq_pos hB hx h⟩
    · exact ⟨0, by simp [numeral, Bignum.default]⟩
  obtain ⟨a, rfl⟩ := nat ha ha0
  obtain ⟨b, rfl⟩ := nat hb hb0
  obtain ⟨m, rfl⟩ := nat hmw (.inl (by omega))
  obtain ⟨n, rfl⟩ := nat hnw (.inl (by omega))
  simp only [ti] at ham hbn hm2 hn2 hc ⊢
  have hcop : m.Coprime n := by
    have := hc (Nat.gcd m n) (Int.natCast_dvd_natCast.2 (Nat.gcd_dvd_left m n)) (Int.natCast_dvd_natCast.2 (Nat.gcd_dvd_right m n))
    exact Nat.dvd_one.1 (Int.natCast_dvd_natCast.1 (by exact_mod_cast this))
  obtain ⟨r, r1, r2, r3, r4⟩ := crt_num M hp hm hd (a := a) (b := b) (by omega) (by omega) hcop (by omega) (by omega) (by exact hK)
  refine ⟨numeral L .pos r, r4, numeral_wf hB (.inl rfl) _, by rw [ti]; omega, by rw [ti]; exact_mod_cast r1, by rw [ti]; exact_mod_cast r2,
    by rw [ti]; exact_mod_cast r3, fun y y0 y1 y2 y3 => ?_⟩
  obtain ⟨y, rfl⟩ : ∃ v : Nat, y = v := ⟨y.toNat, by omega⟩
  rw [ti]
  have h1 : y % m = a := by exact_mod_cast y2
  have h2 : y % n = b := by exact_mod_cast y3
  have h3 : y < m * n := by exact_mod_cast y1
  have h4 := (Nat.modEq_and_modEq_iff_modEq_mul hcop).1 ⟨h1.trans r2.symm, h2.trans r3.symm⟩
  rw [Nat.ModEq, Nat.mod_eq_of_lt h3, Nat.mod_eq_of_lt r1] at h4
  exact_mod_cast h4

end

/-- 2 modulo 35 and 3 modulo 11. -/
example {F : Type} {o : FloatOps F} (M : Ieee o) := C167_crt M .base10 Sample.ample rfl (a := ⟨.pos, [2]⟩) (b := ⟨.pos, [3]⟩) (m := ⟨.pos, [5, 3]⟩)
  (n := ⟨.pos, [1, 1]⟩) (by sample) (by sample) (by sample) (by sample) (.inl (by sample)) (.inl (by sample)) (by sample) (by sample) (by sample)
  (by sample) (fun d (h1 : d ∣ 35) (h2 : d ∣ 11) => by
    have := Int.dvd_sub (h2.mul_left 16) (h1.mul_left 5)
    simpa using this) (by sample)

/-- 0 modulo 7 and 0 modulo 5: two zeros add up to a zero with a digit, of which the remainder is defined. -/
example {F : Type} {o : FloatOps F} (M : Ieee o) := C167_crt M .base10 Sample.ample rfl (a := Bignum.default) (b := Bignum.default) (m := ⟨.pos, [7]⟩)
  (n := ⟨.pos, [5]⟩) ⟨.inl rfl, by simp [InRange, Bignum.default], .inl (by simp [NoLeadingZero, Bignum.default])⟩
  ⟨.inl rfl, by simp [InRange, Bignum.default], .inl (by simp [NoLeadingZero, Bignum.default])⟩ (by sample) (by sample) (.inr rfl) (.inr rfl) (by decide)
  (by decide) (by sample) (by sample) (fun d (h1 : d ∣ 7) (h2 : d ∣ 5) => by
    have := Int.dvd_sub (h2.mul_left 3) (h1.mul_left 2)
    simpa using this) (by sample)

end BN
