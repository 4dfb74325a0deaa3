import Verif.Props.MillerRabin
import Verif.Props.Bisect
import Mathlib.NumberTheory.Fermat
import Mathlib.NumberTheory.LegendreSymbol.QuadraticReciprocity
/-
C170: Pépin's test.
-/
namespace BN
open Bignum

/-- `h = f - one; e = h / two; r = powBig(three, e, f); return r == h;` -/
def pepin {F : Type} (o : FloatOps F) (L : Limits) (env : Env) (n : Nat) (one two three f : Bignum) : Res Bool := do
  let h ← f.sub L env n one
  let e ← h.div L env n two
  let r ← powBig o L env n three e f
  r.eq h

variable {L : Limits} {env : Env}

/-! ### Number theory -/

theorem fermat_mod_three {k : Nat} (hk : 1 ≤ k) : (2 ^ 2 ^ k + 1) % 3 = 2 := by
  obtain ⟨j, rfl⟩ : ∃ j, k = j + 1 := ⟨k - 1, by omega⟩
  rw [pow_succ, Nat.mul_comm, pow_mul, Nat.add_mod, Nat.pow_mod]
  simp

theorem fermat_mod_four {k : Nat} (hk : 1 ≤ k) : (2 ^ 2 ^ k + 1) % 4 = 1 := by
  obtain ⟨j, rfl⟩ : ∃ j, k = j + 1 := ⟨k - 1, by omega⟩
  rw [pow_succ, Nat.mul_comm, pow_mul, Nat.add_mod, Nat.pow_mod]
  simp

theorem legendre_two_three : legendreSym 3 2 = -1 := by decide +kernel

/-- Pépin. -/
theorem pepin_iff {k : Nat} (hk : 1 ≤ k) : 3 ^ (2 ^ 2 ^ k / 2) % (2 ^ 2 ^ k + 1) = 2 ^ 2 ^ k ↔ (2 ^ 2 ^ k + 1).Prime := by
  have h3 := fermat_mod_three hk
  have h4 := fermat_mod_four hk
  have key : 3 ^ (2 ^ 2 ^ k / 2) % (2 ^ 2 ^ k + 1) = 2 ^ 2 ^ k ↔ (3 : ZMod (2 ^ 2 ^ k + 1)) ^ (2 ^ 2 ^ k / 2) = -1 := by
    have hneg : (-1 : ZMod (2 ^ 2 ^ k + 1)) = ((2 ^ 2 ^ k : Nat) : ZMod (2 ^ 2 ^ k + 1)) := by
      have : ((2 ^ 2 ^ k + 1 : Nat) : ZMod (2 ^ 2 ^ k + 1)) = 0 := ZMod.natCast_self _
      rw [Nat.cast_add, Nat.cast_one] at this
      exact (eq_neg_of_add_eq_zero_left this).symm
    rw [hneg, show (3 : ZMod (2 ^ 2 ^ k + 1)) ^ (2 ^ 2 ^ k / 2) = ((3 ^ (2 ^ 2 ^ k / 2) : Nat) : ZMod (2 ^ 2 ^ k + 1)) by push_cast; rfl,
      ZMod.natCast_eq_natCast_iff, Nat.ModEq, Nat.mod_eq_of_lt (show 2 ^ 2 ^ k < 2 ^ 2 ^ k + 1 by omega)]
  rw [key]
  constructor
  · intro h
    exact Nat.pepin_primality' k (by rw [Nat.fermatNumber, Nat.add_sub_cancel]; exact h)
  · intro hP
    have : Fact (2 ^ 2 ^ k + 1).Prime := ⟨hP⟩
    have : Fact (Nat.Prime 3) := ⟨Nat.prime_three⟩
    have e := legendreSym.eq_pow (2 ^ 2 ^ k + 1) 3
    have r := legendreSym.quadratic_reciprocity_one_mod_four (p := 2 ^ 2 ^ k + 1) (q := 3) h4 (by omega)
    have v : legendreSym 3 ((2 ^ 2 ^ k + 1 : Nat) : Int) = -1 := by
      rw [legendreSym.mod, show (((2 ^ 2 ^ k + 1 : Nat) : Int) % ((3 : Nat) : Int)) = 2 by exact_mod_cast congrArg (Nat.cast (R := Int)) h3]
      exact legendre_two_three
    rw [v] at r
    have r' : legendreSym (2 ^ 2 ^ k + 1) 3 = -1 := r.symm
    rw [r'] at e
    rw [show (2 ^ 2 ^ k + 1) / 2 = 2 ^ 2 ^ k / 2 by omega] at e
    push_cast at e
    exact e.symm

/-- The answer is right for all Fermat numbers. -/
theorem C170_fermat {F : Type} {o : FloatOps F} (M : Ieee o) {K : Nat} (hp : Preset L K) (hm : env.Ample) (hd : env.debug = false) {k : Nat} (hk : 1 ≤ k)
    {one two three f : Bignum} (h1w : WF L one) (h1 : one.toInt L = 1) (h2w : WF L two) (h2 : two.toInt L = 2) (h3w : WF L three)
    (h3 : three.toInt L = 3) (hfw : WF L f) (hf : f.toInt L = 2 ^ 2 ^ k + 1) (hK : 3 * f.size ≤ K) :
    Evaluates (fun n => pepin o L env n one two three f) (.ok (decide (2 ^ 2 ^ k + 1).Prime)) := by
  have hB := hp.custom.supported.base_ge
  have ti : ∀ a : Nat, (numeral L .pos a).toInt L = a := fun a => by rw [toInt_of_pos rfl, numeral_mag]
  have hpr := pepin_iff hk
  have hm3 := fermat_mod_three hk
  have h4 : 4 ≤ 2 ^ 2 ^ k := Nat.pow_le_pow_right (n := 2) (i := 2) (by omega) (by simpa using Nat.pow_le_pow_right (n := 2) (by omega) hk)
  have hc : (2 : Int) ^ 2 ^ k + 1 = ((2 ^ 2 ^ k + 1 : Nat) : Int) := by push_cast; rfl
  rw [hc] at hf
  have e1 := eq_pos hB h1w (by omega)
  have e2 := eq_pos hB h2w (by omega)
  have e3 := eq_pos hB h3w (by omega)
  have ef := eq_pos hB hfw (by omega)
  rw [h1, show ((1 : Int)).toNat = 1 from rfl] at e1
  rw [h2, show ((2 : Int)).toNat = 2 from rfl] at e2
  rw [h3, show ((3 : Int)).toNat = 3 from rfl] at e3
  rw [hf, Int.toNat_natCast] at ef
  clear h1 h2 h3 hf hc h1w h2w h3w hfw
  generalize 2 ^ 2 ^ k = h at *
  subst e1 e2 e3 ef
  change 3 * (numeral L .pos (h + 1)).digits.length ≤ K at hK
  have hnd : ¬ h + 1 ∣ 3 ^ (h / 2) := fun hdv => by
    have hco : Nat.Coprime (h + 1) 3 := by
      refine ((Nat.prime_three.coprime_iff_not_dvd).2 fun h => ?_).symm
      have := Nat.mod_eq_zero_of_dvd h
      omega
    have := Nat.Coprime.eq_one_of_dvd (hco.pow_right (h / 2)) hdv
    omega
  have l3 := length_numeral_mono (L := L) hB (show 3 ≤ h + 1 by omega)
  obtain ⟨r, r1, r2, r3⟩ := C160_power M hp hm hd (x := numeral L .pos 3) (e := numeral L .pos (h / 2)) (m := numeral L .pos (h + 1))
    (numeral_wf hB (.inl rfl) _) (by rw [ti]; omega) (by rw [ti]; omega) (numeral_wf hB (.inl rfl) _) (by rw [ti]; omega)
    (fun hdv => by
      rw [ti, ti, ti, Int.toNat_natCast] at hdv
      exact hnd (Int.natCast_dvd_natCast.1 (by exact_mod_cast hdv))) hK
    (by change (numeral L .pos 3).digits.length + (numeral L .pos (h + 1)).digits.length ≤ K; omega)
  have r4 : r.toInt L = ((3 ^ (h / 2) % (h + 1) : Nat) : Int) := by rw [r3, ti, ti, ti, Int.toNat_natCast]; push_cast; rfl
  have hr0 : 0 < 3 ^ (h / 2) % (h + 1) := Nat.pos_of_ne_zero fun h => hnd (Nat.dvd_of_mod_eq_zero h)
  have er := eq_pos hB r2 (by rw [r4]; exact_mod_cast hr0)
  rw [r4, Int.toNat_natCast] at er
  obtain ⟨N, hN⟩ := r1
  refine ⟨N + (h + 1).size + 2, fun n hn => ?_⟩
  have z := Nat.size_le_size (show h ≤ h + 1 by omega)
  beta_reduce at hN ⊢
  rw [pepin, sub_numerals hp.custom.supported hm hd (by omega) (by omega) (by omega), ok_bind, Nat.add_sub_cancel,
    pos_div hp.custom hm hd (by omega) (.inl (by omega)) (by omega) (by omega), ok_bind, hN n (by omega), ok_bind, er, pos_eq_pos hB]
  simp only [hpr]

/-- 2 ^ 8 + 1 = 257 -/
example {F : Type} {o : FloatOps F} (M : Ieee o) := C170_fermat M .base10 Sample.ample rfl (k := 3) (one := ⟨.pos, [1]⟩) (two := ⟨.pos, [2]⟩)
  (three := ⟨.pos, [3]⟩) (f := ⟨.pos, [7, 5, 2]⟩) (by omega) (by sample) (by sample) (by sample) (by sample) (by sample) (by sample) (by sample) (by sample)
  (by sample)

end BN
