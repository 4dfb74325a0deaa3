import Verif.Props.Rsa
import Mathlib.Tactic.NormNum.Prime

/-
C163: keys agreed and messages sent modulo a prime.
-/

namespace BN
open Bignum

variable {L : Limits} {env : Env}

/-- `A = powBig(g, a, p); B = powBig(g, b, p); return { powBig(B, a, p), powBig(A, b, p) };` -/
def agree {F : Type} (o : FloatOps F) (L : Limits) (env : Env) (n : Nat) (g a b p : Bignum) : Res (Bignum × Bignum) := do
  let A ← powBig o L env n g a p
  let B ← powBig o L env n g b p
  let k1 ← powBig o L env n B a p
  let k2 ← powBig o L env n A b p
  .ok (k1, k2)

/-- `c1 = powBig(g, k, p); s = powBig(h, k, p); c2 = remainder(x * s, p);` -/
def encipher {F : Type} (o : FloatOps F) (L : Limits) (env : Env) (n : Nat) (g h k p x : Bignum) : Res (Bignum × Bignum) := do
  let c1 ← powBig o L env n g k p
  let s ← powBig o L env n h k p
  let t ← x.mul o L env n s
  let c2 ← remainder o L env n t p
  .ok (c1, c2)

/-- `s = powBig(c1, a, p); i = inverse(s, p); return remainder(c2 * i, p);` -/
def decipher {F : Type} (o : FloatOps F) (L : Limits) (env : Env) (n : Nat) (a p : Bignum) (c : Bignum × Bignum) : Res Bignum := do
  let s ← powBig o L env n c.1 a p
  let i ← inverse o L env n s p
  let t ← c.2.mul o L env n i
  remainder o L env n t p

/-! ### Number theory -/

theorem pow_mod_range {P u k : Nat} (hP : P.Prime) (h0 : 0 < u) (h1 : u < P) : 0 < u ^ k % P ∧ u ^ k % P < P :=
  ⟨Nat.pos_of_ne_zero fun h => by have := Nat.le_of_dvd h0 (hP.dvd_of_dvd_pow (Nat.dvd_of_mod_eq_zero h)); omega, Nat.mod_lt _ hP.pos⟩

theorem mul_mod_range {P u v : Nat} (hP : P.Prime) (h0 : 0 < u) (h1 : u < P) (h2 : 0 < v) (h3 : v < P) : 0 < u * v % P ∧ u * v % P < P :=
  ⟨Nat.pos_of_ne_zero fun h => by
    rcases hP.dvd_mul.1 (Nat.dvd_of_mod_eq_zero h) with h | h
    · have := Nat.le_of_dvd h0 h; omega
    · have := Nat.le_of_dvd h2 h; omega, Nat.mod_lt _ hP.pos⟩

section
variable {F : Type} {o : FloatOps F} (M : Ieee o) {K : Nat} (hp : Preset L K) (hm : env.Ample) (hd : env.debug = false)
include M hp hm hd

theorem powBig_prime {P u : Nat} (hP : P.Prime) (h0 : 0 < u) (h1 : u < P) {e : Bignum} (he : 0 ≤ e.toInt L)
    (hK : 3 * (numeral L .pos P).digits.length ≤ K) :
    Evaluates (fun n => powBig o L env n (numeral L .pos u) e (numeral L .pos P)) (.ok (numeral L .pos (u ^ (e.toInt L).toNat % P))) := by
  have hB := hp.custom.supported.base_ge
  have ti : ∀ a : Nat, (numeral L .pos a).toInt L = a := fun a => by rw [toInt_of_pos rfl, numeral_mag]
  have hl := length_numeral_mono (L := L) hB h1.le
  have hr := pow_mod_range (k := (e.toInt L).toNat) hP h0 h1
  obtain ⟨r, r1, r2, r3⟩ := C160_power M hp hm hd (x := numeral L .pos u) (e := e) (m := numeral L .pos P) (numeral_wf hB (.inl rfl) _)
    (by rw [ti]; exact_mod_cast h0) he (numeral_wf hB (.inl rfl) _) (by rw [ti]; exact_mod_cast hP.two_le)
    (fun h => by
      rw [ti, ti] at h
      have := Nat.mod_eq_zero_of_dvd (Int.natCast_dvd_natCast.1 (by exact_mod_cast h : (P : Int) ∣ ((u ^ (e.toInt L).toNat : Nat) : Int)))
      omega) hK
    (by change (numeral L .pos u).digits.length + (numeral L .pos P).digits.length ≤ K; omega)
  rw [ti, ti] at r3
  have r4 : r.toInt L = (u ^ (e.toInt L).toNat % P : Nat) := by rw [r3]; push_cast; rfl
  have er := eq_pos hB r2 (by rw [r4]; exact_mod_cast hr.1)
  rw [r4, Int.toNat_natCast] at er
  rw [← er]; exact r1

theorem mulRem_prime {P u v : Nat} (hP : P.Prime) (h0 : 0 < u) (h1 : u < P) (h2 : 0 < v) (h3 : v < P)
    (hK : 3 * (numeral L .pos P).digits.length ≤ K) :
    Evaluates (fun n => (numeral L .pos u).mul o L env n (numeral L .pos v) >>= fun t => remainder o L env n t (numeral L .pos P))
      (.ok (numeral L .pos (u * v % P))) := by
  have hB := hp.custom.supported.base_ge
  have l1 := length_numeral_mono (L := L) hB h1.le
  have l2 := length_numeral_mono (L := L) hB h3.le
  have l3 := length_numeral_mul (L := L) hB u v
  have hr := mul_mod_range hP h0 h1 h2 h3
  refine ⟨(u * v).size + 33, fun n hn => ?_⟩
  beta_reduce
  rw [pos_mul M hp hm (.inl (by omega)) (by omega) (by omega), ok_bind]
  refine pos_rem M hp hm hd (Nat.mul_ne_zero (by omega) (by omega)) hP.ne_zero (.inl fun h => ?_) (by omega) hn
  rw [h, Nat.mod_self] at hr
  omega

/-- Both parties hold the same key, and it is the power of the generator to the product of the secrets. -/
theorem C163_agree {P : Nat} (hP : P.Prime) {g a b p : Bignum} (hg : WF L g) (hpw : WF L p) (hpv : p.toInt L = P) (hg0 : 0 < g.toInt L)
    (hgp : g.toInt L < P) (ha : 0 ≤ a.toInt L) (hb : 0 ≤ b.toInt L) (hK : 3 * p.size ≤ K) :
    ∃ k, Evaluates (fun n => agree o L env n g a b p) (.ok (k, k)) ∧ WF L k ∧ k.toInt L = g.toInt L ^ (a.toInt L * b.toInt L).toNat % P := by
  have hB := hp.custom.supported.base_ge
  have eg := eq_pos hB hg hg0
  have ep := eq_pos hB hpw (by have := hP.pos; omega)
  obtain ⟨u, hu⟩ : ∃ u : Nat, g.toInt L = u := ⟨(g.toInt L).toNat, by omega⟩
  rw [hu, Int.toNat_natCast] at eg
  rw [hpv, Int.toNat_natCast] at ep
  rw [hu] at hg0 hgp ⊢
  have u0 : 0 < u := by exact_mod_cast hg0
  have u1 : u < P := by exact_mod_cast hgp
  subst eg ep
  rw [Int.toNat_mul ha hb]
  obtain ⟨x, hx⟩ : ∃ x, (a.toInt L).toNat = x := ⟨_, rfl⟩
  obtain ⟨y, hy⟩ : ∃ y, (b.toInt L).toNat = y := ⟨_, rfl⟩
  have rx := pow_mod_range (k := x) hP u0 u1
  have ry := pow_mod_range (k := y) hP u0 u1
  have s1 := powBig_prime M hp hm hd hP u0 u1 ha hK
  have s2 := powBig_prime M hp hm hd hP u0 u1 hb hK
  rw [hx] at s1
  rw [hy] at s2
  have s3 := powBig_prime M hp hm hd hP ry.1 ry.2 ha hK
  have s4 := powBig_prime M hp hm hd hP rx.1 rx.2 hb hK
  rw [hx, ← Nat.pow_mod, ← pow_mul, Nat.mul_comm] at s3
  rw [hy, ← Nat.pow_mod, ← pow_mul] at s4
  rw [hx, hy]
  refine ⟨numeral L .pos (u ^ (x * y) % P), ?_, numeral_wf hB (.inl rfl) _, by rw [toInt_of_pos rfl, numeral_mag]; push_cast; rfl⟩
  unfold agree
  exact s1.bind (s2.bind (s3.bind (s4.bind (evaluates_const _))))

/-- What is enciphered for the owner of a secret, whatever the key used once, is what they decipher. -/
theorem C163_message {P : Nat} (hP : P.Prime) {g a k p x : Bignum} (hg : WF L g) (hpw : WF L p) (hpv : p.toInt L = P) (hg0 : 0 < g.toInt L)
    (hgp : g.toInt L < P) (ha : 0 ≤ a.toInt L) (hk : 0 ≤ k.toInt L) (hx : WF L x) (hx0 : 0 < x.toInt L) (hxp : x.toInt L < P)
    (hK : 3 * p.size ≤ K) :
    ∃ h c, Evaluates (fun n => powBig o L env n g a p) (.ok h) ∧ Evaluates (fun n => encipher o L env n g h k p x) (.ok c) ∧
      c.1.toInt L = g.toInt L ^ (k.toInt L).toNat % P ∧ c.2.toInt L = x.toInt L * g.toInt L ^ (a.toInt L * k.toInt L).toNat % P ∧
      Evaluates (fun n => decipher o L env n a p c) (.ok x) := by
  have hB := hp.custom.supported.base_ge
  have ti : ∀ a : Nat, (numeral L .pos a).toInt L = a := fun a => by rw [toInt_of_pos rfl, numeral_mag]
  have eg := eq_pos hB hg hg0
  have ep := eq_pos hB hpw (by have := hP.pos; omega)
  have ex := eq_pos hB hx hx0
  obtain ⟨u, hu⟩ : ∃ u : Nat, g.toInt L = u := ⟨(g.toInt L).toNat, by omega⟩
  obtain ⟨m, hmv⟩ : ∃ m : Nat, x.toInt L = m := ⟨(x.toInt L).toNat, by omega⟩
  rw [hu, Int.toNat_natCast] at eg
  rw [hpv, Int.toNat_natCast] at ep
  rw [hmv, Int.toNat_natCast] at ex
  rw [hu] at hg0 hgp ⊢
  rw [hmv] at hx0 hxp ⊢
  have u0 : 0 < u := by exact_mod_cast hg0
  have u1 : u < P := by exact_mod_cast hgp
  have m0 : 0 < m := by exact_mod_cast hx0
  have m1 : m < P := by exact_mod_cast hxp
  subst eg ep ex
  rw [Int.toNat_mul ha hk]
  obtain ⟨y, hy⟩ : ∃ y, (a.toInt L).toNat = y := ⟨_, rfl⟩
  obtain ⟨z, hz⟩ : ∃ z, (k.toInt L).toNat = z := ⟨_, rfl⟩
  have ry := pow_mod_range (k := y) hP u0 u1
  have rz := pow_mod_range (k := z) hP u0 u1
  have rs := pow_mod_range (k := y * z) hP u0 u1
  have rc := mul_mod_range hP m0 m1 rs.1 rs.2
  have s1 := powBig_prime M hp hm hd hP u0 u1 ha hK
  have s2 := powBig_prime M hp hm hd hP u0 u1 hk hK
  have s3 := powBig_prime M hp hm hd hP ry.1 ry.2 hk hK
  have s4 := powBig_prime M hp hm hd hP rz.1 rz.2 ha hK
  rw [hy] at s1 s4 ⊢
  rw [hz] at s2 s3 ⊢
  rw [← Nat.pow_mod, ← pow_mul] at s3 s4
  rw [Nat.mul_comm] at s4
  have s5 := mulRem_prime M hp hm hd hP m0 m1 rs.1 rs.2 hK
  obtain ⟨i, i1, i2, i3, i4, i5, -⟩ := C146_inverse M hp hm hd (a := numeral L .pos (u ^ (y * z) % P)) (m := numeral L .pos P)
    (numeral_wf hB (.inl rfl) _) (numeral_wf hB (.inl rfl) _) (by rw [ti]; exact_mod_cast rs.1) (by rw [ti, ti]; exact_mod_cast rs.2)
    (fun d h1 h2 => by
      rw [ti] at h1 h2
      have hc : IsCoprime ((u ^ (y * z) % P : Nat) : Int) P := Nat.isCoprime_iff_coprime.2
        (Nat.Coprime.symm ((Nat.Prime.coprime_iff_not_dvd hP).2 fun h => by have := Nat.le_of_dvd rs.1 h; omega))
      exact (hc.isUnit_of_dvd' h1 h2).dvd) (by change 3 * (numeral L .pos P).digits.length ≤ K at hK; omega)
  have ei := eq_pos hB i2 i3
  obtain ⟨w, hw⟩ : ∃ w : Nat, i.toInt L = w := ⟨(i.toInt L).toNat, by omega⟩
  rw [ti, hw] at i4
  rw [hw] at i3
  rw [ti, ti, hw] at i5
  rw [hw, Int.toNat_natCast] at ei
  subst ei
  have w0 : 0 < w := by exact_mod_cast i3
  have w1 : w < P := by exact_mod_cast i4
  have s6 := mulRem_prime M hp hm hd hP rc.1 rc.2 w0 w1 hK
  have hmod : u ^ (y * z) % P * w ≡ 1 [MOD P] := by
    have h := (Int.modEq_iff_dvd.2 i5).symm
    exact (Int.natCast_modEq_iff).1 (by push_cast at h ⊢; exact h)
  have fin : m * (u ^ (y * z) % P) % P * w % P = m := by
    have h : m * (u ^ (y * z) % P) % P * w ≡ m [MOD P] := calc
      m * (u ^ (y * z) % P) % P * w ≡ m * (u ^ (y * z) % P) * w [MOD P] := (Nat.mod_modEq _ _).mul_right _
      _ = m * (u ^ (y * z) % P * w) := by ring
      _ ≡ m * 1 [MOD P] := hmod.mul_left _
      _ = m := by ring
    rw [h, Nat.mod_eq_of_lt m1]
  rw [fin] at s6
  refine ⟨numeral L .pos (u ^ y % P), (numeral L .pos (u ^ z % P), numeral L .pos (m * (u ^ (y * z) % P) % P)), s1, ?_, ?_, ?_, ?_⟩
  · unfold encipher
    refine s2.bind (s3.bind ?_)
    have h := s5.bind (g := fun _ c2 => .ok (numeral L .pos (u ^ z % P), c2)) (evaluates_const _)
    simpa only [bind_assoc] using h
  · rw [ti]; push_cast; rfl
  · rw [ti, Nat.mul_mod_mod]; push_cast; rfl
  · unfold decipher
    exact s4.bind (i1.bind s6)

/-- The message zero, the only one below the modulus left out above, is an access out of bounds. -/
theorem C163_zero {P : Nat} (hP : P.Prime) {g h k p : Bignum} (hg : WF L g) (hh : WF L h) (hpw : WF L p) (hpv : p.toInt L = P)
    (hg0 : 0 < g.toInt L) (hgp : g.toInt L < P) (hh0 : 0 < h.toInt L) (hhp : h.toInt L < P) (hk : 0 ≤ k.toInt L) (hK : 3 * p.size ≤ K) :
    Evaluates (fun n => encipher o L env n g h k p Bignum.default) (.error (.ub .outOfBounds)) := by
  have hB := hp.custom.supported.base_ge
  have eg := eq_pos hB hg hg0
  have eh := eq_pos hB hh hh0
  have ep := eq_pos hB hpw (by have := hP.pos; omega)
  obtain ⟨u, hu⟩ : ∃ u : Nat, g.toInt L = u := ⟨(g.toInt L).toNat, by omega⟩
  obtain ⟨v, hv⟩ : ∃ v : Nat, h.toInt L = v := ⟨(h.toInt L).toNat, by omega⟩
  rw [hu, Int.toNat_natCast] at eg
  rw [hv, Int.toNat_natCast] at eh
  rw [hpv, Int.toNat_natCast] at ep
  rw [hu] at hg0 hgp
  rw [hv] at hh0 hhp
  have u0 : 0 < u := by exact_mod_cast hg0
  have u1 : u < P := by exact_mod_cast hgp
  have v0 : 0 < v := by exact_mod_cast hh0
  have v1 : v < P := by exact_mod_cast hhp
  subst eg eh ep
  change 3 * (numeral L .pos P).digits.length ≤ K at hK
  obtain ⟨z, hz⟩ : ∃ z, (k.toInt L).toNat = z := ⟨_, rfl⟩
  have rz := pow_mod_range (k := z) hP v0 v1
  have s1 := powBig_prime M hp hm hd hP u0 u1 hk hK
  have s2 := powBig_prime M hp hm hd hP v0 v1 hk hK
  rw [hz] at s1 s2
  have l1 := length_numeral_mono (L := L) hB rz.2.le
  have e0 : numeral L .pos 0 = Bignum.default := by simp [numeral, Bignum.default]
  have l0 : (numeral L .pos 0).digits.length = 0 := by rw [e0]; rfl
  unfold encipher
  refine s1.bind (s2.bind ⟨33, fun n hn => ?_⟩)
  beta_reduce
  rw [← e0, pos_mul M hp hm (.inr (by omega)) (by omega) (by omega), ok_bind, Nat.zero_mul, e0]
  show (remainder o L env n ⟨.pos, []⟩ _ >>= _) = _
  rw [C73_empty_ub M hp hm hd (.inl rfl) (numeral_wf hB (.inl rfl) _) (by rw [numeral_mag]; exact hP.ne_zero) (by omega) (by omega)]
  rfl

end

/-- The prime 23, the generator 5, the secrets 6 and 15. -/
example {F : Type} {o : FloatOps F} (M : Ieee o) := C163_agree M .base10 Sample.ample rfl (P := 23) (by norm_num) (g := ⟨.pos, [5]⟩) (a := ⟨.pos, [6]⟩)
  (b := ⟨.pos, [5, 1]⟩) (p := ⟨.pos, [3, 2]⟩) (by sample) (by sample) (by decide) (by sample) (by sample) (by sample) (by sample) (by sample)

/-- The message 12 to the owner of the secret 6 with the key 3. -/
example {F : Type} {o : FloatOps F} (M : Ieee o) := C163_message M .base10 Sample.ample rfl (P := 23) (by norm_num) (g := ⟨.pos, [5]⟩) (a := ⟨.pos, [6]⟩)
  (k := ⟨.pos, [3]⟩) (p := ⟨.pos, [3, 2]⟩) (x := ⟨.pos, [2, 1]⟩) (by sample) (by sample) (by decide) (by sample) (by sample) (by sample) (by sample)
  (by sample) (by sample) (by sample) (by sample)

example {F : Type} {o : FloatOps F} (M : Ieee o) := C163_zero M .base10 Sample.ample rfl (P := 23) (by norm_num) (g := ⟨.pos, [5]⟩) (h := ⟨.pos, [8]⟩)
  (k := ⟨.pos, [3]⟩) (p := ⟨.pos, [3, 2]⟩) (by sample) (by sample) (by sample) (by decide) (by sample) (by sample) (by sample) (by sample) (by sample)
  (by sample)

end BN
