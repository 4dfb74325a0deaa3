import Verif.Props.Rsa
/-
C168: continued fractions.
-/
namespace BN
open Bignum

/-- `while (b != bignum()) { q.push_back(a / b); r = a - a / b * b; a = b; b = r; } return q;` -/
def quotients {F : Type} (o : FloatOps F) (L : Limits) (env : Env) (n : Nat) : Nat → Bignum → Bignum → Res (List Bignum)
  | 0, _, _ => .error .timeout
  | k + 1, a, b => do
    if ← b.eq Bignum.default then .ok []
    else
      let q ← a.div L env n b
      let r ← remainder o L env n a b
      let l ← quotients o L env n k b r
      .ok (q :: l)

/-- The value of a continued fraction: `q + 1 / (q' + 1 / (q'' + ...))`; the inverse of 0 is 0. -/
def cfValue : List Int → ℚ
  | [] => 0
  | q :: l => q + (cfValue l)⁻¹

variable {L : Limits} {env : Env}

section
variable {F : Type} {o : FloatOps F} (M : Ieee o) {K : Nat} (hp : Preset L K) (hm : env.Ample) (hd : env.debug = false)
include M hp hm hd

theorem quotients_loop {N : Nat} (hK : 2 * (numeral L .pos N).digits.length ≤ K) : ∀ y x, 0 < x → x ≤ N → y ≤ N → x ≠ y ∨ y = 1 →
    ∃ qs : List Bignum, (∀ n k, N.size + 33 ≤ n → y < k → quotients o L env n k (numeral L .pos x) (numeral L .pos y) = .ok qs) ∧
      (∀ q ∈ qs, WF L q ∧ 0 ≤ q.toInt L) ∧ (∀ q ∈ qs.tail, 0 < q.toInt L) ∧ (y ≠ 0 → y < x → ∀ q ∈ qs, 0 < q.toInt L) ∧
      cfValue (qs.map (·.toInt L)) = (x : ℚ) / y := by
  have hB := hp.custom.supported.base_ge
  intro y
  induction y using Nat.strong_induction_on with
  | _ y ih =>
    intro x x0 xN yN hne
    by_cases hy : y = 0
    · subst hy
      refine ⟨[], fun n k _ hk => ?_, by simp, by simp, by simp, by simp [cfValue]⟩
      obtain ⟨k, rfl⟩ : ∃ j, k = j + 1 := ⟨k - 1, by omega⟩
      rw [quotients, pos_eq_default, ok_bind, if_pos (by simp)]
    · have hlt : x % y < y := Nat.mod_lt _ (by omega)
      obtain ⟨qs, q1, q2, q3, q4, q5⟩ := ih (x % y) hlt y (by omega) yN (by omega) (.inl (by omega))
      obtain ⟨q, c1, c2, c3, c4⟩ := div_numerals hp.custom hm hd (a := x) (b := y) (by omega) hne
      have tq : q.toInt L = (x / y : Nat) := by rw [toInt_of_pos c3, c4]
      have lx := length_numeral_mono (L := L) hB xN
      have ly := length_numeral_mono (L := L) hB yN
      have sx := Nat.size_le_size xN
      have htail : ∀ p ∈ qs, 0 < p.toInt L := by
        by_cases h0 : x % y = 0
        · intro p hpq
          have := q1 (N.size + 33) 1 le_rfl (by omega)
          rw [quotients, h0, pos_eq_default, ok_bind, if_pos (by simp)] at this
          simp only [Except.ok.injEq] at this
          rw [← this] at hpq
          simp at hpq
        · exact q4 h0 hlt
      refine ⟨q :: qs, fun n k hn hk => ?_, ?_, htail, ?_, ?_⟩
      · obtain ⟨k, rfl⟩ : ∃ j, k = j + 1 := ⟨k - 1, by omega⟩
        rw [quotients, pos_eq_default, ok_bind, if_neg (by simpa using hy), c1 n (by omega), ok_bind,
          pos_rem M hp hm hd (by omega) hy hne (by omega) (by omega), ok_bind, q1 n k hn (by omega), ok_bind]
      · intro p hpq
        rcases List.mem_cons.1 hpq with rfl | h
        · exact ⟨c2, by rw [tq]; omega⟩
        · exact q2 p h
      · intro _ hxy p hpq
        rcases List.mem_cons.1 hpq with rfl | h
        · rw [tq]; exact_mod_cast Nat.div_pos hxy.le (by omega)
        · exact htail p h
      · have hyq : (y : ℚ) ≠ 0 := by exact_mod_cast hy
        have hdm : (x : ℚ) = y * (x / y : Nat) + (x % y : Nat) := by exact_mod_cast (Nat.div_add_mod x y).symm
        rw [List.map_cons, cfValue, q5, tq, inv_div]
        rw [eq_div_iff hyq, add_mul, div_mul_cancel₀ _ hyq, Int.cast_natCast]
        linarith

/-- The quotients of Euclid's algorithm make up the continued fraction of `a / b`. -/
theorem C168_expansion_partial {a b : Bignum} (ha : WF L a) (hb : WF L b) (ha0 : 0 < a.toInt L) (hb0 : 0 < b.toInt L)
    (hne : a.toInt L ≠ b.toInt L ∨ b.toInt L = 1) (hK : 2 * max a.size b.size ≤ K) :
    ∃ qs : List Bignum, Evaluates (fun n => quotients o L env n n a b) (.ok qs) ∧ (∀ q ∈ qs, WF L q ∧ 0 ≤ q.toInt L) ∧
      (∀ q ∈ qs.tail, 0 < q.toInt L) ∧ cfValue (qs.map (·.toInt L)) = (a.toInt L : ℚ) / b.toInt L := by
  have hB := hp.custom.supported.base_ge
  have ti : ∀ a : Nat, (numeral L .pos a).toInt L = a := fun a => by rw [toInt_of_pos rfl, numeral_mag]
  have ea := eq_pos hB ha ha0
  have eb := eq_pos hB hb hb0
  have x0 : 0 < (a.toInt L).toNat := by omega
  have hne' : (a.toInt L).toNat ≠ (b.toInt L).toNat ∨ (b.toInt L).toNat = 1 := by omega
  generalize (a.toInt L).toNat = x at *
  generalize (b.toInt L).toNat = y at *
  subst ea eb
  change 2 * max (numeral L .pos x).digits.length (numeral L .pos y).digits.length ≤ K at hK
  obtain ⟨qs, q1, q2, q3, -, q5⟩ := quotients_loop M hp hm hd (N := max x y) (by
    rcases Nat.le_total x y with h | h
    · rw [max_eq_right h]; omega
    · rw [max_eq_left h]; omega) y x x0 (by omega) (by omega) hne'
  refine ⟨qs, ⟨(max x y).size + 34 + max x y, fun n hn => q1 n n (by omega) (by omega)⟩, q2, q3, ?_⟩
  rw [q5, ti, ti]
  push_cast
  rfl

/-- For equal numbers above one it never ends: their quotient is zero and their remainder the number itself. -/
theorem C168_equal {a : Bignum} (ha : WF L a) (h2 : 2 ≤ a.toInt L) (hK : 2 * a.size ≤ K) :
    Evaluates (fun n => quotients o L env n n a a) (.error .timeout) := by
  have hB := hp.custom.supported.base_ge
  have ea := eq_pos hB ha (by omega)
  have x2 : 2 ≤ (a.toInt L).toNat := by omega
  generalize (a.toInt L).toNat = x at *
  subst ea
  change 2 * (numeral L .pos x).digits.length ≤ K at hK
  have key : ∀ n, x.size + 33 ≤ n → ∀ k, quotients o L env n k (numeral L .pos x) (numeral L .pos x) = .error .timeout := fun n hn k => by
    induction k with
    | zero => rfl
    | succ k ih =>
      rw [quotients, pos_eq_default, ok_bind, if_neg (by simp; omega), div_numeral_self hp.custom.supported hm x2, ok_bind,
        pos_rem_all M hp hm hd (by omega) x2 (by omega) hn, ok_bind, if_pos rfl, ih]
      rfl
  exact ⟨x.size + 33, fun n hn => key n hn n⟩

end

/-- 415 / 93 = 4 + 1 / (2 + 1 / (6 + 1 / 7)) -/
example {F : Type} {o : FloatOps F} (M : Ieee o) := C168_expansion_partial M .base10 Sample.ample rfl (a := ⟨.pos, [5, 1, 4]⟩) (b := ⟨.pos, [3, 9]⟩)
  (by sample) (by sample) (by sample) (by sample) (.inl (by decide)) (by sample)

example : cfValue [4, 2, 6, 7] = 415 / 93 := by norm_num [cfValue]

example {F : Type} {o : FloatOps F} (M : Ieee o) := C168_equal M .base10 Sample.ample rfl (a := ⟨.pos, [2, 1]⟩) (by sample) (by sample) (by sample)

end BN
