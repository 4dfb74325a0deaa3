import Verif.Props.Inverse
import Verif.Props.SafeInt
import Mathlib.FieldTheory.Finite.Basic
/-
C160: RSA written with the operators.
-/
namespace BN
open Bignum

/-- `for (i = e.size(); i-- > 0; ) { r = powMod(r, BASE, m); t = powMod(x, e[i], m); r = r * t; r = r - r / m * m; } return r;` -/
def powBigLoop {F : Type} (o : FloatOps F) (L : Limits) (env : Env) (n : Nat) (x e m : Bignum) : Nat → Bignum → Res Bignum
  | 0, r => .ok r
  | i + 1, r => do
    let r ← powMod o L env n r L.base m
    let d ← e.at_ i
    let t ← powMod o L env n x d m
    let p ← r.mul o L env n t
    let r ← remainder o L env n p m
    powBigLoop o L env n x e m i r

/-- `x` to the power `e` modulo `m`, where the exponent is a number of the library, too. -/
def powBig {F : Type} (o : FloatOps F) (L : Limits) (env : Env) (n : Nat) (x e m : Bignum) : Res Bignum := do
  let r ← ofList env .pos [1]
  powBigLoop o L env n x e m e.size r

variable {L : Limits} {env : Env}

theorem length_numeral_mul (hB : 2 ≤ L.base) (a b : Nat) :
    (numeral L .pos (a * b)).digits.length ≤ (numeral L .pos a).digits.length + (numeral L .pos b).digits.length := by
  refine length_numeral_le hB ?_
  rw [pow_add]
  have ha : a < L.base ^ (numeral L .pos a).digits.length := by
    have := natOf_lt (digits_inRange hB a); rwa [natOf_digits] at this
  have hb : b < L.base ^ (numeral L .pos b).digits.length := by
    have := natOf_lt (digits_inRange hB b); rwa [natOf_digits] at this
  exact Nat.mul_lt_mul'' ha hb

theorem powMod_num {F : Type} {o : FloatOps F} (M : Ieee o) {K : Nat} (hp : Preset L K) (hm : env.Ample) (hd : env.debug = false)
    {u v e : Nat} (hu : 1 ≤ u) (hv : 2 ≤ v) (hc : ¬ v ∣ u ^ e) (hK : 3 * (numeral L .pos v).digits.length ≤ K)
    (hK' : (numeral L .pos u).digits.length + (numeral L .pos v).digits.length ≤ K) :
    Evaluates (fun n => powMod o L env n (numeral L .pos u) e (numeral L .pos v)) (.ok (numeral L .pos (u ^ e % v))) := by
  have hB := hp.custom.supported.base_ge
  have ti : ∀ a : Nat, (numeral L .pos a).toInt L = a := fun a => by rw [toInt_of_pos rfl, numeral_mag]
  obtain ⟨r, h1, h2, h3⟩ := C96_powMod_partial M hp hm hd (x := numeral L .pos u) (m := numeral L .pos v) e (numeral_wf hB (.inl rfl) _) (by rw [ti]; omega)
    (numeral_wf hB (.inl rfl) _) (by rw [ti]; omega) (by rw [ti, ti]; exact_mod_cast hc) hK hK'
  rw [ti, ti] at h3
  have hpos : u ^ e % v ≠ 0 := fun h => hc (Nat.dvd_of_mod_eq_zero h)
  have h3' : r.toInt L = (u ^ e % v : Nat) := by rw [h3]; push_cast; rfl
  have := eq_pos hB h2 (by omega)
  rw [h3', Int.toNat_natCast] at this
  rw [← this]; exact h1

section
variable {F : Type} {o : FloatOps F} (M : Ieee o) {K : Nat} (hp : Preset L K) (hm : env.Ample) (hd : env.debug = false)
include M hp hm hd

theorem powBig_loop {u v : Nat} {e : Bignum} (hu : 1 ≤ u) (hv : 2 ≤ v) (hc : ¬ v ∣ u ^ natOf L.base e.digits)
    (hK : 3 * (numeral L .pos v).digits.length ≤ K) (hK' : (numeral L .pos u).digits.length + (numeral L .pos v).digits.length ≤ K) :
    ∀ i, i ≤ e.digits.length → Evaluates (fun n => powBigLoop o L env n (numeral L .pos u) e (numeral L .pos v) i
      (numeral L .pos (u ^ natOf L.base (e.digits.drop i) % v))) (.ok (numeral L .pos (u ^ natOf L.base e.digits % v)))
  | 0, _ => by
    rw [List.drop_zero]
    exact evaluates_const _
  | i + 1, hi => by
    have hB := hp.custom.supported.base_ge
    have ih := powBig_loop hu hv hc hK hK' i (by omega)
    set B := L.base with hBdef
    have hsplit : natOf B (e.digits.drop i) = e.digits[i] + B * natOf B (e.digits.drop (i + 1)) := by
      rw [List.drop_eq_getElem_cons (by omega), natOf_cons]
    set E := natOf B (e.digits.drop (i + 1)) with hE
    have hle : natOf B (e.digits.drop i) ≤ natOf B e.digits := by
      conv_rhs => rw [← List.take_append_drop i e.digits, natOf_append]
      have : 1 ≤ B ^ (e.digits.take i).length := Nat.one_le_pow _ _ (by omega)
      have := Nat.mul_le_mul_right (natOf B (e.digits.drop i)) this
      omega
    have hno : ∀ k, k ≤ natOf B e.digits → ¬ v ∣ u ^ k := fun k hk h => hc (h.trans (pow_dvd_pow u hk))
    have hmodpos : ∀ k, k ≤ natOf B e.digits → 1 ≤ u ^ k % v := fun k hk => Nat.one_le_iff_ne_zero.2 fun h => hno k hk (Nat.dvd_of_mod_eq_zero h)
    have hBE : E ≤ B * E := Nat.le_mul_of_pos_left _ (by omega)
    have hmodlt : ∀ k, u ^ k % v < v := fun k => Nat.mod_lt _ (by omega)
    have hlen : ∀ k, (numeral L .pos (u ^ k % v)).digits.length ≤ (numeral L .pos v).digits.length := fun k => length_numeral_mono hB (hmodlt k).le
    have e1 : (u ^ E % v) ^ B % v = u ^ (B * E) % v := by rw [← Nat.pow_mod, ← pow_mul, Nat.mul_comm]
    have s1 := powMod_num M hp hm hd (u := u ^ E % v) (e := B) (hmodpos E (by omega)) hv (fun h => hno (B * E) (by omega) (Nat.dvd_of_mod_eq_zero (by
      rw [← e1]; exact Nat.mod_eq_zero_of_dvd h))) hK (by have := hlen E; omega)
    rw [e1] at s1
    have s2 := powMod_num M hp hm hd (e := e.digits[i]) hu hv (hno _ (by omega)) hK hK'
    have hat : e.at_ i = .ok e.digits[i] := by rw [Bignum.at_, if_pos (by omega), rd_eq (by omega)]
    have hprod : u ^ (B * E) % v * (u ^ e.digits[i] % v) % v = u ^ natOf B (e.digits.drop i) % v := by
      rw [← Nat.mul_mod, ← pow_add, hsplit, Nat.add_comm]
    have hp0 : u ^ (B * E) % v * (u ^ e.digits[i] % v) ≠ 0 := fun h => by
      rw [h, Nat.zero_mod] at hprod
      have := hmodpos _ hle
      omega
    have hpv : u ^ (B * E) % v * (u ^ e.digits[i] % v) ≠ v := fun h => by
      rw [h, Nat.mod_self] at hprod
      have := hmodpos _ hle
      omega
    have l1 := hlen (B * E)
    have l2 := hlen e.digits[i]
    have l3 := length_numeral_mul (L := L) hB (u ^ (B * E) % v) (u ^ e.digits[i] % v)
    have s3 : Evaluates (fun n => (numeral L .pos (u ^ (B * E) % v)).mul o L env n (numeral L .pos (u ^ e.digits[i] % v)))
        (.ok (numeral L .pos (u ^ (B * E) % v * (u ^ e.digits[i] % v)))) :=
      ⟨33, fun n hn => pos_mul M hp hm (.inl (by have := hmodpos (B * E) (by omega); omega)) (by omega) (by omega)⟩
    have s4 : Evaluates (fun n => remainder o L env n (numeral L .pos (u ^ (B * E) % v * (u ^ e.digits[i] % v))) (numeral L .pos v))
        (.ok (numeral L .pos (u ^ natOf B (e.digits.drop i) % v))) :=
      ⟨_, fun n hn => by rw [← hprod]; exact pos_rem M hp hm hd hp0 (by omega) (.inl hpv) (by omega) hn⟩
    have h5 := s1.bind (g := fun n r => do
      let d ← e.at_ i
      let t ← powMod o L env n (numeral L .pos u) d (numeral L .pos v)
      let p ← r.mul o L env n t
      let r ← remainder o L env n p (numeral L .pos v)
      powBigLoop o L env n (numeral L .pos u) e (numeral L .pos v) i r) (by
        simp only [hat, ok_bind]
        exact s2.bind (s3.bind (s4.bind ih)))
    exact h5

/-- The power with an exponent of the library is right where the modulus does not divide it. -/
theorem C160_power {x e m : Bignum} (hx : WF L x) (hx0 : 0 < x.toInt L) (he : 0 ≤ e.toInt L) (hmw : WF L m) (hm0 : 2 ≤ m.toInt L)
    (hc : ¬ m.toInt L ∣ x.toInt L ^ (e.toInt L).toNat) (hK : 3 * m.size ≤ K) (hK' : x.size + m.size ≤ K) :
    ∃ r, Evaluates (fun n => powBig o L env n x e m) (.ok r) ∧ WF L r ∧ r.toInt L = x.toInt L ^ (e.toInt L).toNat % m.toInt L := by
  have hB := hp.custom.supported.base_ge
  have ex := eq_pos hB hx hx0
  have em := eq_pos hB hmw (by omega)
  have ee : (e.toInt L).toNat = natOf L.base e.digits := by
    have : (e.toInt L).natAbs = e.mag L := natAbs_toInt L e
    change _ = e.mag L
    omega
  obtain ⟨u, hu⟩ : ∃ u : Nat, x.toInt L = u := ⟨(x.toInt L).toNat, by omega⟩
  obtain ⟨v, hv⟩ : ∃ v : Nat, m.toInt L = v := ⟨(m.toInt L).toNat, by omega⟩
  rw [hu, Int.toNat_natCast] at ex
  rw [hv, Int.toNat_natCast] at em
  rw [ee, hu, hv] at hc ⊢
  rw [hu] at hx0
  rw [hv] at hm0
  subst ex em
  refine ⟨numeral L .pos (u ^ natOf L.base e.digits % v), ?_, numeral_wf hB (.inl rfl) _, by rw [toInt_of_pos rfl, numeral_mag]; push_cast; rfl⟩
  have h1 := powBig_loop M hp hm hd (u := u) (v := v) (e := e) (by omega) (by omega) (by exact_mod_cast hc) hK hK' e.digits.length le_rfl
  rw [List.drop_length, natOf_nil, pow_zero, Nat.mod_eq_of_lt (by omega : 1 < v)] at h1
  unfold powBig
  rw [ofList_numeral hB hm .pos (by simp; omega), show List.foldl (fun acc x => acc * L.base + x) 0 [1] = 1 by simp]
  simp only [ok_bind]
  exact h1

end

/-! ### Number theory -/

theorem rsa_mod_prime {p k x : Nat} (hp : p.Prime) (hk : (p - 1 : Int) ∣ (k : Int) - 1) (h1 : 1 ≤ k) : x ^ k ≡ x [MOD p] := by
  have := Fact.mk hp
  rw [← ZMod.natCast_eq_natCast_iff]
  push_cast
  by_cases h0 : (x : ZMod p) = 0
  · rw [h0, zero_pow (by omega)]
  · have hk' : (p - 1) ∣ k - 1 := by
      have h := Int.natAbs_dvd_natAbs.2 hk
      have e1 : ((p : Int) - 1).natAbs = p - 1 := by have := hp.one_lt; omega
      have e2 : ((k : Int) - 1).natAbs = k - 1 := by omega
      rwa [e1, e2] at h
    obtain ⟨c, hc⟩ := hk'
    rw [show k = (p - 1) * c + 1 by omega, pow_succ, pow_mul, ZMod.pow_card_sub_one_eq_one h0, one_pow, one_mul]

theorem rsa_mod {p q k x : Nat} (hp : p.Prime) (hq : q.Prime) (hpq : p ≠ q) (h1 : (p - 1 : Int) ∣ (k : Int) - 1) (h2 : (q - 1 : Int) ∣ (k : Int) - 1)
    (hk : 1 ≤ k) : x ^ k ≡ x [MOD p * q] :=
  (Nat.modEq_and_modEq_iff_modEq_mul ((Nat.coprime_primes hp hq).2 hpq)).1 ⟨rsa_mod_prime hp h1 hk, rsa_mod_prime hq h2 hk⟩

theorem rsa_not_dvd {p q k x : Nat} (hp : p.Prime) (hq : q.Prime) (hpq : p ≠ q) (h0 : 0 < x) (hx : x < p * q) : ¬ p * q ∣ x ^ k := fun h => by
  have a := hp.dvd_of_dvd_pow ((Dvd.intro _ rfl).trans h)
  have b := hq.dvd_of_dvd_pow ((Dvd.intro_left _ rfl).trans h)
  have := Nat.le_of_dvd h0 (((Nat.coprime_primes hp hq).2 hpq).mul_dvd_of_dvd_of_dvd a b)
  omega

section
variable {F : Type} {o : FloatOps F} (M : Ieee o) {K : Nat} (hp : Preset L K) (hm : env.Ample) (hd : env.debug = false)
include M hp hm hd

/-- Enciphering and deciphering gives back every message above zero: `powBig(powBig(x, e, n), d, n) == x`. -/
theorem C160_round_trip {p q : Nat} (hpp : p.Prime) (hq : q.Prime) (hpq : p ≠ q) {x e d n : Bignum} (hn : WF L n) (hnv : n.toInt L = (p * q : Nat))
    (he : 0 ≤ e.toInt L) (hd0 : 0 ≤ d.toInt L) (hed : 1 ≤ e.toInt L * d.toInt L) (h1 : (p - 1 : Int) ∣ e.toInt L * d.toInt L - 1)
    (h2 : (q - 1 : Int) ∣ e.toInt L * d.toInt L - 1) (hx : WF L x) (hx0 : 0 < x.toInt L) (hxn : x.toInt L < n.toInt L) (hK : 3 * n.size ≤ K) :
    ∃ c, Evaluates (fun k => powBig o L env k x e n) (.ok c) ∧ WF L c ∧ c.toInt L = x.toInt L ^ (e.toInt L).toNat % n.toInt L ∧
      Evaluates (fun k => powBig o L env k c d n) (.ok x) := by
  have hB := hp.custom.supported.base_ge
  have hn2 : 2 ≤ p * q := by nlinarith [hpp.two_le, hq.two_le]
  obtain ⟨u, hu⟩ : ∃ u : Nat, x.toInt L = u := ⟨(x.toInt L).toNat, by omega⟩
  obtain ⟨a, ha⟩ : ∃ a : Nat, e.toInt L = a := ⟨(e.toInt L).toNat, by omega⟩
  obtain ⟨b, hb⟩ : ∃ b : Nat, d.toInt L = b := ⟨(d.toInt L).toNat, by omega⟩
  have hnpos : 0 < n.toInt L := by rw [hnv]; exact_mod_cast (by omega : 0 < p * q)
  have hmono : ∀ y : Bignum, WF L y → 0 < y.toInt L → y.toInt L < n.toInt L → y.size ≤ n.size := fun y hy h0 hl => by
    have ey := eq_pos hB hy h0
    have en := eq_pos hB hn hnpos
    rw [ey, en]
    exact length_numeral_mono hB (by omega)
  have hu1 : 0 < u := by rw [hu] at hx0; exact_mod_cast hx0
  have hu2 : u < p * q := by rw [hu, hnv] at hxn; exact_mod_cast hxn
  obtain ⟨c, c1, c2, c3⟩ := C160_power M hp hm hd (x := x) (e := e) (m := n) hx hx0 he hn (by rw [hnv]; exact_mod_cast hn2)
    (by rw [hu, ha, hnv, Int.toNat_natCast]; exact_mod_cast rsa_not_dvd hpp hq hpq hu1 hu2) hK (by have := hmono x hx hx0 hxn; omega)
  have c4 : c.toInt L = (u ^ a % (p * q) : Nat) := by rw [c3, hu, ha, hnv, Int.toNat_natCast]; push_cast; rfl
  have c5 : 0 < u ^ a % (p * q) := Nat.pos_of_ne_zero fun h => rsa_not_dvd hpp hq hpq hu1 hu2 (Nat.dvd_of_mod_eq_zero h)
  have c6 : u ^ a % (p * q) < p * q := Nat.mod_lt _ (by omega)
  have cpos : 0 < c.toInt L := by rw [c4]; exact_mod_cast c5
  have clt : c.toInt L < n.toInt L := by rw [c4, hnv]; exact_mod_cast c6
  obtain ⟨z, z1, z2, z3⟩ := C160_power M hp hm hd (x := c) (e := d) (m := n) c2 cpos hd0 hn (by rw [hnv]; exact_mod_cast hn2)
    (by rw [c4, hb, hnv, Int.toNat_natCast]; exact_mod_cast rsa_not_dvd hpp hq hpq c5 c6) hK (by have := hmono c c2 cpos clt; omega)
  refine ⟨c, c1, c2, c3, ?_⟩
  rw [ha, hb] at h1 h2 hed
  have hmod := rsa_mod (x := u) hpp hq hpq (k := a * b) (by push_cast; exact h1) (by push_cast; exact h2) (by exact_mod_cast hed)
  have z4 : z.toInt L = u := by
    rw [z3, c4, hb, hnv, Int.toNat_natCast]
    have : (u ^ a % (p * q)) ^ b % (p * q) = u := by
      rw [← Nat.pow_mod, ← pow_mul, hmod, Nat.mod_eq_of_lt hu2]
    exact_mod_cast this
  have ez := eq_pos hB z2 (by rw [z4]; exact_mod_cast hu1)
  have ex := eq_pos hB hx hx0
  rw [z4, ← hu, ← ex] at ez
  rw [← ez]; exact z1

/-- The keys to two primes and a public exponent: `n = p * q; phi = (p - one) * (q - one); d = inverse(e, phi);` -/
def rsaKey {F : Type} (o : FloatOps F) (L : Limits) (env : Env) (k : Nat) (p q e : Bignum) : Res (Bignum × Bignum) := do
  let n ← p.mul o L env k q
  let one ← ofList env .pos [1]
  let a ← p.sub L env k one
  let b ← q.sub L env k one
  let phi ← a.mul o L env k b
  let d ← inverse o L env k e phi
  .ok (n, d)

/-- From the primes to the message: the keys that the operators compute decipher what they encipher. -/
theorem C160_keys {p q e : Bignum} {P Q : Nat} (hP : P.Prime) (hQ : Q.Prime) (hPQ : P ≠ Q) (hpw : WF L p) (hqw : WF L q) (hew : WF L e)
    (hpv : p.toInt L = P) (hqv : q.toInt L = Q) (he0 : 0 < e.toInt L) (he1 : e.toInt L < ((P - 1) * (Q - 1) : Nat))
    (hc : ∀ t : Int, t ∣ e.toInt L → t ∣ ((P - 1) * (Q - 1) : Nat) → t ∣ 1) (hK : 3 * (p.size + q.size) ≤ K) :
    ∃ n d, Evaluates (fun k => rsaKey o L env k p q e) (.ok (n, d)) ∧ WF L n ∧ WF L d ∧ n.toInt L = (P * Q : Nat) ∧
      0 < d.toInt L ∧ d.toInt L < ((P - 1) * (Q - 1) : Nat) ∧
      ∀ x : Bignum, WF L x → 0 < x.toInt L → x.toInt L < n.toInt L →
        ∃ c, Evaluates (fun k => powBig o L env k x e n) (.ok c) ∧ WF L c ∧ c.toInt L = x.toInt L ^ (e.toInt L).toNat % n.toInt L ∧
          Evaluates (fun k => powBig o L env k c d n) (.ok x) := by
  have hB := hp.custom.supported.base_ge
  have ti : ∀ a : Nat, (numeral L .pos a).toInt L = a := fun a => by rw [toInt_of_pos rfl, numeral_mag]
  have hP2 := hP.two_le
  have hQ2 := hQ.two_le
  have ep := eq_pos hB hpw (by omega)
  have eq := eq_pos hB hqw (by omega)
  rw [hpv, Int.toNat_natCast] at ep
  rw [hqv, Int.toNat_natCast] at eq
  subst ep eq
  change 3 * ((numeral L .pos P).digits.length + (numeral L .pos Q).digits.length) ≤ K at hK
  have l1 := length_numeral_mul (L := L) hB P Q
  have l2 := length_numeral_mul (L := L) hB (P - 1) (Q - 1)
  have l3 := length_numeral_mono (L := L) hB (show P - 1 ≤ P by omega)
  have l4 := length_numeral_mono (L := L) hB (show Q - 1 ≤ Q by omega)
  obtain ⟨d, d1, d2, d3, d4, d5, -⟩ := C146_inverse M hp hm hd (a := e) (m := numeral L .pos ((P - 1) * (Q - 1))) hew (numeral_wf hB (.inl rfl) _) he0
    (by rw [ti]; exact he1) (by rw [ti]; exact hc) (by omega)
  rw [ti] at d4 d5
  have hev : Evaluates (fun k => rsaKey o L env k (numeral L .pos P) (numeral L .pos Q) e) (.ok (numeral L .pos (P * Q), d)) := by
    have s1 : Evaluates (fun k => (numeral L .pos P).mul o L env k (numeral L .pos Q)) (.ok (numeral L .pos (P * Q))) :=
      ⟨33, fun k hk => pos_mul M hp hm (.inl (by omega)) (by omega) (by omega)⟩
    have s2 : Evaluates (fun k => (numeral L .pos P).sub L env k (numeral L .pos 1)) (.ok (numeral L .pos (P - 1))) :=
      ⟨P.size + 33, fun k hk => sub_numerals hp.custom.supported hm hd (by omega) (by omega) (by omega)⟩
    have s3 : Evaluates (fun k => (numeral L .pos Q).sub L env k (numeral L .pos 1)) (.ok (numeral L .pos (Q - 1))) :=
      ⟨Q.size + 33, fun k hk => sub_numerals hp.custom.supported hm hd (by omega) (by omega) (by omega)⟩
    have s4 : Evaluates (fun k => (numeral L .pos (P - 1)).mul o L env k (numeral L .pos (Q - 1))) (.ok (numeral L .pos ((P - 1) * (Q - 1)))) :=
      ⟨33, fun k hk => pos_mul M hp hm (.inl (by omega)) (by omega) (by omega)⟩
    have h5 := s1.bind (g := fun k n => do
      let one ← ofList env .pos [1]
      let a ← (numeral L .pos P).sub L env k one
      let b ← (numeral L .pos Q).sub L env k one
      let phi ← a.mul o L env k b
      let d ← inverse o L env k e phi
      .ok (n, d)) (by
        rw [ofList_numeral hB hm .pos (by simp; omega), show List.foldl (fun acc x => acc * L.base + x) 0 [1] = 1 by simp]
        simp only [ok_bind]
        exact s2.bind (s3.bind (s4.bind (d1.bind (evaluates_const _)))))
    exact h5
  refine ⟨_, d, hev, numeral_wf hB (.inl rfl) _, d2, ti _, d3, d4, fun x hx x0 xn => ?_⟩
  have cast : (((P - 1) * (Q - 1) : Nat) : Int) = (P - 1) * (Q - 1) := by
    rw [Nat.cast_mul, Nat.cast_sub (by omega), Nat.cast_sub (by omega)]; rfl
  rw [cast] at d5
  refine C160_round_trip M hp hm hd hP hQ hPQ (numeral_wf hB (.inl rfl) _) (ti _) he0.le d3.le (by nlinarith) ((Dvd.intro _ rfl).trans d5)
    ((Dvd.intro_left _ rfl).trans d5) hx x0 xn ?_
  show 3 * (numeral L .pos (P * Q)).digits.length ≤ K
  omega

/-- The message zero, the only one below `n` left out above, is an access out of bounds unless the exponent has no digits. -/
theorem C160_zero {s : Desc} (hs : Signed s) {e m : Bignum} (he : e.digits ≠ []) (hmw : WF L m) (hm0 : 2 ≤ m.toInt L) (hK : 3 * m.size ≤ K) :
    Evaluates (fun k => powBig o L env k ⟨s, []⟩ e m) (.error (.ub .outOfBounds)) := by
  have hB := hp.custom.supported.base_ge
  obtain ⟨v, hv⟩ : ∃ v : Nat, m.toInt L = v := ⟨(m.toInt L).toNat, by omega⟩
  have em := eq_pos hB hmw (by omega)
  rw [hv, Int.toNat_natCast] at em
  have hv2 : 2 ≤ v := by rw [hv] at hm0; exact_mod_cast hm0
  subst em
  change 3 * (numeral L .pos v).digits.length ≤ K at hK
  have hl := length_numeral_mono (L := L) hB (show 1 ≤ v by omega)
  obtain ⟨i, hi⟩ : ∃ i, e.size = i + 1 := ⟨e.digits.length - 1, by
    have := List.length_pos_iff.2 he
    change e.digits.length = _
    omega⟩
  have hat : e.at_ i = .ok (e.digits[i]'(by change e.digits.length = _ at hi; omega)) := by
    change e.digits.length = _ at hi
    rw [Bignum.at_, if_pos (by omega), rd_eq (by omega)]
  have s1 := powMod_num M hp hm hd (u := 1) (e := L.base) le_rfl hv2 (by rw [one_pow]; exact fun h => by have := Nat.le_of_dvd one_pos h; omega) hK (by omega)
  rw [one_pow, Nat.mod_eq_of_lt (by omega : 1 < v)] at s1
  have h5 := s1.bind (r := .error (.ub .outOfBounds)) (g := fun n r => do
      let d ← e.at_ i
      let t ← powMod o L env n ⟨s, []⟩ d (numeral L .pos v)
      let p ← r.mul o L env n t
      let r ← remainder o L env n p (numeral L .pos v)
      powBigLoop o L env n ⟨s, []⟩ e (numeral L .pos v) i r) ⟨33, fun n hn => by
        simp only [hat, ok_bind]
        unfold powMod
        rw [ofList_numeral hB hm .pos (by simp; omega), ok_bind, C73_empty_ub M hp hm hd hs (numeral_wf hB (.inl rfl) _) (by rw [numeral_mag]; omega)
          (by omega) (by omega)]
        rfl⟩
  unfold powBig
  rw [ofList_numeral hB hm .pos (by simp; omega), show List.foldl (fun acc x => acc * L.base + x) 0 [1] = 1 by simp, hi]
  simp only [ok_bind]
  exact h5

end

/-- 7 to the power 13 modulo 33. -/
example {F : Type} {o : FloatOps F} (M : Ieee o) := C160_power M .base10 Sample.ample rfl (x := ⟨.pos, [7]⟩) (e := ⟨.pos, [3, 1]⟩) (m := ⟨.pos, [3, 3]⟩)
  (by sample) (by sample) (by sample) (by sample) (by sample) (show ¬ (33 : Int) ∣ 7 ^ 13 by decide) (by sample) (by sample)

/-- The primes 3 and 11, the exponents 3 and 7, the message 25. -/
example {F : Type} {o : FloatOps F} (M : Ieee o) := C160_round_trip M .base10 Sample.ample rfl (p := 3) (q := 11) Nat.prime_three Nat.prime_eleven (by decide)
  (x := ⟨.pos, [5, 2]⟩) (e := ⟨.pos, [3]⟩) (d := ⟨.pos, [7]⟩) (n := ⟨.pos, [3, 3]⟩) (by sample) (by decide) (by sample) (by sample) (by sample)
  (show (2 : Int) ∣ 3 * 7 - 1 by decide) (show (10 : Int) ∣ 3 * 7 - 1 by decide) (by sample) (by sample) (by sample) (by sample)

example {F : Type} {o : FloatOps F} (M : Ieee o) := C160_keys M .base10 Sample.ample rfl (P := 3) (Q := 11) Nat.prime_three Nat.prime_eleven (by decide)
  (p := ⟨.pos, [3]⟩) (q := ⟨.pos, [1, 1]⟩) (e := ⟨.pos, [3]⟩) (by sample) (by sample) (by sample) (by decide) (by decide) (by sample) (by decide)
  (fun t (h1 : t ∣ 3) (h2 : t ∣ 20) => by
    have := Int.dvd_sub (h1.mul_left 7) h2
    simpa using this) (by sample)

example {F : Type} {o : FloatOps F} (M : Ieee o) := C160_zero M .base10 Sample.ample rfl (s := .pos) (e := ⟨.pos, [3]⟩) (m := ⟨.pos, [3, 3]⟩)
  (.inl rfl) (by sample) (by sample) (by sample) (by sample)

end BN
