import Verif.Props.Crt
import Verif.Props.Fibonacci
/-
C171: polynomials by Horner's rule.
-/
namespace BN
open Bignum

/-- `for (c : cs) { r = r * x + c; } return r;` with the coefficients from the highest to the lowest. -/
def hornerLoop {F : Type} (o : FloatOps F) (L : Limits) (env : Env) (n : Nat) (x : Bignum) : List Bignum → Bignum → Res Bignum
  | [], r => .ok r
  | c :: cs, r => do
    let t ← r.mul o L env n x
    let r ← t.add L env n c
    hornerLoop o L env n x cs r

/-- Horner's rule from a default-constructed number. -/
def horner {F : Type} (o : FloatOps F) (L : Limits) (env : Env) (n : Nat) (x : Bignum) (cs : List Bignum) : Res Bignum :=
  hornerLoop o L env n x cs Bignum.default

/-- The value of the polynomial with coefficients from the highest to the lowest. -/
def polyValue (x : Int) : List Int → Int
  | [] => 0
  | c :: cs => c * x ^ cs.length + polyValue x cs

/-- A positive number or the default-constructed zero. -/
def Coefficient (L : Limits) (c : Bignum) : Prop := c = Bignum.default ∨ WF L c ∧ 0 < c.toInt L

variable {L : Limits} {env : Env}

theorem plain_numeral (hB : 2 ≤ L.base) {c : Bignum} (h : Coefficient L c) : ∃ v : Nat, c = numeral L .pos v ∧ c.toInt L = v := by
  rcases h with rfl | ⟨hw, h0⟩
  · exact ⟨0, by simp [numeral, Bignum.default], by simp [Bignum.toInt, Bignum.default, Bignum.mag]⟩
  · exact ⟨(c.toInt L).toNat, eq_pos hB hw h0, by omega⟩

theorem polyValue_nonneg (hB : 2 ≤ L.base) {x : Nat} : ∀ {cs : List Bignum}, (∀ c ∈ cs, Coefficient L c) → 0 ≤ polyValue x (cs.map (·.toInt L))
  | [], _ => le_rfl
  | c :: cs, hc => by
    have h1 := polyValue_nonneg (x := x) (cs := cs) hB fun d hd => hc d (by simp [hd])
    obtain ⟨u, -, eu⟩ := plain_numeral hB (hc c (by simp))
    rw [List.map_cons, polyValue, eu]
    positivity

section
variable {F : Type} {o : FloatOps F} (M : Ieee o) {K : Nat} (hp : Preset L K) (hm : env.Ample)
include M hp hm

theorem hornerLoop_run {x V : Nat} (hx : 0 < x) (hK : (numeral L .pos V).digits.length + 1 ≤ K) (hKx : (numeral L .pos x).digits.length + 1 ≤ K) :
    ∀ (cs : List Bignum) (r : Bignum) (v : Nat), (∀ c ∈ cs, Coefficient L c) → WF L r → r.desc = .pos → r.mag L = v →
      (v : Int) * x ^ cs.length + polyValue x (cs.map (·.toInt L)) = V →
      ∃ s, (∀ n, V.size + 33 ≤ n → hornerLoop o L env n (numeral L .pos x) cs r = .ok s) ∧ WF L s ∧ s.desc = .pos ∧ s.mag L = V
  | [], r, v, _, hw, hs, hv, hV => ⟨r, fun _ _ => rfl, hw, hs, by simp [polyValue] at hV; omega⟩
  | c :: cs, r, v, hc, hw, hs, hv, hV => by
    have hB := hp.custom.supported.base_ge
    have hx1 : 1 ≤ (numeral L .pos x).digits.length := length_pos (mag_ne_nil (L := L) (by rw [numeral_mag]; omega))
    obtain ⟨w, e, ew⟩ := plain_numeral hB (hc c (by simp))
    have rest : ∀ c ∈ cs, Coefficient L c := fun d hd => hc d (by simp [hd])
    have hnn : 0 ≤ polyValue x (cs.map (·.toInt L)) := polyValue_nonneg hB rest
    have hV' : ((v * x + w : Nat) : Int) * x ^ cs.length + polyValue x (cs.map (·.toInt L)) = V := by
      rw [← hV, List.map_cons, polyValue, ew, List.length_cons, List.length_map]; push_cast; ring
    have hle : v * x + w ≤ V := by
      have h1 : (1 : Int) ≤ x ^ cs.length := by exact_mod_cast Nat.one_le_pow _ _ hx
      have h2 : ((v * x + w : Nat) : Int) ≤ (v * x + w : Nat) * x ^ cs.length := by nlinarith [Int.natCast_nonneg (v * x + w)]
      omega
    have hlen : r.digits.length + (numeral L .pos x).digits.length ≤ K := by
      by_cases hv0 : v = 0
      · have : r.digits.length ≤ 1 := by
          by_contra hl
          have h2 : r.digits ≠ [0] := fun h => by rw [h] at hl; simp at hl
          have h3 : NoLeadingZero r.digits := hw.2.2.resolve_right h2
          have := (natOf_eq_zero_iff (Nat.succ_pos _) h3).1 (show r.mag L = 0 by omega)
          rw [this] at hl; simp at hl
        omega
      · have er := eq_numeral hB hw.2.1 (nlz_of_mag hw (by omega))
        rw [hs, hv] at er
        have l1 := length_add_le_mul (L := L) hB hv0 (show x ≠ 0 by omega)
        have l2 := length_numeral_mono (L := L) hB (show v * x ≤ V by omega)
        rw [er]
        omega
    have z1 := Nat.size_le_size (show v * x ≤ V by omega)
    have z2 := Nat.size_le_size (show w ≤ V by omega)
    have step : ∃ r', (∀ n, V.size + 33 ≤ n → (numeral L .pos (v * x)).add L env n c = .ok r') ∧ WF L r' ∧ r'.desc = .pos ∧ r'.mag L = v * x + w := by
      by_cases h0 : v * x + w = 0
      · have hvx : v * x = 0 := by omega
        have hw0 : w = 0 := by omega
        rw [e, hvx, hw0]
        have e3 : ∀ n, V.size + 33 ≤ n → (numeral L .pos 0).add L env n (numeral L .pos 0) = .ok ⟨.pos, [0]⟩ := fun n hn => by
          unfold Bignum.add viaCopy
          rw [show numeral L .pos 0 = ⟨.pos, []⟩ by simp [numeral], copy_ok hm, ok_bind]
          rw [zero_add_zero hp.custom.supported hm (by omega)]
        exact ⟨_, e3, ⟨.inl rfl, fun y hy => by simp at hy; omega, .inr rfl⟩, rfl, by simp [Bignum.mag]⟩
      · rw [e]
        exact ⟨_, fun n hn => add_numerals hp.custom.supported hm h0 (by omega), numeral_wf hB (.inl rfl) _, rfl, numeral_mag ..⟩
    obtain ⟨r', s1, s2, s3, s4⟩ := step
    obtain ⟨s, t1, t2⟩ := hornerLoop_run hx hK hKx cs r' (v * x + w) rest s2 s3 s4 hV'
    refine ⟨s, fun n hn => ?_, t2⟩
    rw [hornerLoop, mul_numeral M hp hm hw (numeral_wf hB (.inl rfl) x) (by omega) hlen (by omega), ok_bind, hs, numeral_mag, hv]
    show ((numeral L .pos (v * x)).add L env n c >>= _) = _
    rw [s1 n hn, ok_bind, t1 n hn]

/-- Horner's rule is right at every positive number. -/
theorem C171_horner {x : Bignum} (hxw : WF L x) (hx : 0 < x.toInt L) {cs : List Bignum} (hc : ∀ c ∈ cs, Coefficient L c) (hKx : x.size + 1 ≤ K)
    (hK : polyValue (x.toInt L) (cs.map (·.toInt L)) < L.base ^ (K - 1)) :
    ∃ r, Evaluates (fun n => horner o L env n x cs) (.ok r) ∧ WF L r ∧ r.toInt L = polyValue (x.toInt L) (cs.map (·.toInt L)) := by
  have hB := hp.custom.supported.base_ge
  have ex := eq_pos hB hxw hx
  have hxv : x.toInt L = ((x.toInt L).toNat : Int) := by omega
  have hx' : 0 < (x.toInt L).toNat := by omega
  rw [hxv] at hK ⊢
  generalize (x.toInt L).toNat = y at *
  subst ex
  change (numeral L .pos y).digits.length + 1 ≤ K at hKx
  have hnn : 0 ≤ polyValue y (cs.map (·.toInt L)) := polyValue_nonneg hB hc
  obtain ⟨V, hV⟩ := Int.eq_ofNat_of_zero_le hnn
  rw [hV] at hK ⊢
  have hl : (numeral L .pos V).digits.length ≤ K - 1 := length_numeral_le hB (by exact_mod_cast hK)
  obtain ⟨s, s1, s2, s3, s4⟩ := hornerLoop_run M hp hm (V := V) hx' (by omega) hKx cs Bignum.default 0 hc
    ⟨.inl rfl, by simp [Bignum.default, InRange], .inl (by simp [Bignum.default, NoLeadingZero])⟩ rfl
    (by simp [Bignum.default, Bignum.mag]) (by rw [hV]; simp)
  exact ⟨s, ⟨_, s1⟩, s2, by rw [toInt_of_pos s3, s4]⟩

omit M hp in
/-- At zero it never ends, unless there are no coefficients. -/
theorem C171_zero (c : Bignum) (cs : List Bignum) : Evaluates (fun n => horner o L env n Bignum.default (c :: cs)) (.error .timeout) :=
  ⟨0, fun n _ => by
    have := zero_sq o L hm n
    rw [show numeral L .pos 0 = Bignum.default by simp [numeral, Bignum.default]] at this
    beta_reduce
    rw [horner, hornerLoop, this]
    rfl⟩

end

/-- 2 x ^ 3 + 5 at 12 -/
example {F : Type} {o : FloatOps F} (M : Ieee o) := C171_horner M .base10 Sample.ample (x := ⟨.pos, [2, 1]⟩)
  (cs := [⟨.pos, [2]⟩, Bignum.default, Bignum.default, ⟨.pos, [5]⟩]) (by sample) (by sample)
  (by simp [Coefficient]; exact ⟨.inr ⟨by sample, by sample⟩, .inr ⟨by sample, by sample⟩⟩) (by sample)
  (lt_of_lt_of_le (b := ((Limits.base10.base : Nat) : Int) ^ 4) (by decide) (pow_le_pow_right₀ (by decide) (by norm_num)))

example : polyValue 12 [2, 0, 0, 5] = 3461 := by norm_num [polyValue]

end BN
