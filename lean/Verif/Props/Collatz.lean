import Verif.Props.MillerRabin
import Verif.Props.Bisect
/-
C173: Collatz sequences.
-/
namespace BN
open Bignum

/-- `h = x / two; if (h + h == x) { x = h; } else { x = x + x + x + one; }` -/
def collatzStep (L : Limits) (env : Env) (n : Nat) (one two x : Bignum) : Res Bignum := do
  let h ← x.div L env n two
  let g ← h.add L env n h
  if ← g.eq x then .ok h
  else
    let t ← x.add L env n x
    let t ← t.add L env n x
    t.add L env n one

/-- `k` rounds of the step. -/
def collatzRounds (L : Limits) (env : Env) (n : Nat) (one two : Bignum) : Nat → Bignum → Res Bignum
  | 0, x => .ok x
  | k + 1, x => do
    let x ← collatzStep L env n one two x
    collatzRounds L env n one two k x

/-- `while (x != one) { the step; ++i; } return i;` with at most `k` looks at the condition. -/
def collatz (L : Limits) (env : Env) (n : Nat) (one two : Bignum) : Nat → Bignum → Res Nat
  | 0, _ => .error .timeout
  | k + 1, x => do
    if ← x.eq one then .ok 0
    else
      let x ← collatzStep L env n one two x
      let i ← collatz L env n one two k x
      .ok (i + 1)

/-- Half of an even number, `3 x + 1` for the others and for two. -/
def collatzMap (x : Nat) : Nat := if x % 2 = 0 ∧ x ≠ 2 then x / 2 else 3 * x + 1

theorem collatzMap_ge {x : Nat} (h : 2 ≤ x) : 2 ≤ collatzMap x := by
  unfold collatzMap; split <;> omega

variable {L : Limits} {env : Env} (hL : Custom L) (hm : env.Ample) (hd : env.debug = false)
include hL hm hd

theorem collatzStep_eval {x : Nat} (h2 : 2 ≤ x) :
    Evaluates (fun n => collatzStep L env n (numeral L .pos 1) (numeral L .pos 2) (numeral L .pos x)) (.ok (numeral L .pos (collatzMap x))) := by
  have hB := hL.supported.base_ge
  have z1 := Nat.size_le_size (show x ≤ x + x + x by omega)
  have z2 := Nat.size_le_size (show x + x ≤ x + x + x by omega)
  have z3 := Nat.size_le_size (show 1 ≤ x + x + x by omega)
  have z4 := Nat.size_le_size (show x / 2 ≤ x + x + x by omega)
  have up : ∀ n, (x + x + x).size + 40 ≤ n → ((numeral L .pos x).add L env n (numeral L .pos x) >>= fun t => t.add L env n (numeral L .pos x) >>= fun t =>
      t.add L env n (numeral L .pos 1)) = .ok (numeral L .pos (3 * x + 1)) := fun n hn => by
    rw [add_numerals hL.supported hm (by omega) (by omega), ok_bind, add_numerals hL.supported hm (by omega) (by omega), ok_bind,
      add_numerals hL.supported hm (by omega) (by omega), show x + x + x + 1 = 3 * x + 1 by omega]
  refine ⟨(x + x + x).size + 40, fun n hn => ?_⟩
  beta_reduce
  by_cases e2 : x = 2
  · subst e2
    have w0 : WF L ⟨.pos, [0]⟩ := ⟨.inl rfl, fun y hy => by simp at hy; omega, .inr rfl⟩
    obtain ⟨c, c1, c2, c3, c4⟩ := add_pos hL.supported hm w0 w0 rfl
    have hne : c.eq (numeral L .pos 2) = .ok false := by
      obtain ⟨r, r1, r2⟩ := C01_eq_structural c (numeral L .pos 2)
      rw [r1]
      cases r
      · rfl
      · have h := (r2.1 rfl).2
        have : c.mag L = 2 := by rw [Bignum.mag, h]; exact numeral_mag ..
        rw [c4] at this
        simp [Bignum.mag] at this
    rw [collatzStep, div_numeral_self hL.supported hm le_rfl, ok_bind, c1 n (by simp; omega), ok_bind, hne, ok_bind, if_neg (by simp), up n hn]
    rfl
  · rw [collatzStep, pos_div hL hm hd (by omega) (.inl e2) (by omega) (by omega), ok_bind, add_numerals hL.supported hm (by omega) (by omega), ok_bind,
      pos_eq_pos hB, ok_bind]
    by_cases hx : x % 2 = 0
    · rw [if_pos (by simp; omega), collatzMap, if_pos ⟨hx, e2⟩]
    · rw [if_neg (by simp; omega), up n hn, collatzMap, if_neg (by omega)]

theorem collatzRounds_eval {x : Nat} (h2 : 2 ≤ x) (k : Nat) :
    Evaluates (fun n => collatzRounds L env n (numeral L .pos 1) (numeral L .pos 2) k (numeral L .pos x)) (.ok (numeral L .pos (collatzMap^[k] x))) := by
  induction k generalizing x with
  | zero => exact ⟨0, fun _ _ => rfl⟩
  | succ k ih => exact Evaluates.bind (collatzStep_eval hL hm hd h2) (ih (collatzMap_ge h2))

theorem collatz_eval {x : Nat} (h2 : 2 ≤ x) (k : Nat) :
    Evaluates (fun n => collatz L env n (numeral L .pos 1) (numeral L .pos 2) k (numeral L .pos x)) (.error .timeout) := by
  have hB := hL.supported.base_ge
  induction k generalizing x with
  | zero => exact ⟨0, fun _ _ => rfl⟩
  | succ k ih =>
    obtain ⟨n1, s1⟩ := collatzStep_eval hL hm hd h2
    obtain ⟨n2, s2⟩ := ih (collatzMap_ge h2)
    refine ⟨max n1 n2, fun n hn => ?_⟩
    have t1 := s1 n (by omega)
    have t2 := s2 n (by omega)
    beta_reduce at t1 t2 ⊢
    rw [collatz, pos_eq_pos hB, ok_bind, if_neg (by simp; omega), t1, ok_bind, t2]
    rfl

/-- After any number of rounds the number is that of the sequence in which two is followed by seven, -/
theorem C173_rounds {one two x : Bignum} (h1w : WF L one) (h1 : one.toInt L = 1) (h2w : WF L two) (h2 : two.toInt L = 2) (hx : WF L x)
    (hx2 : 2 ≤ x.toInt L) (k : Nat) :
    ∃ y, Evaluates (fun n => collatzRounds L env n one two k x) (.ok y) ∧ WF L y ∧ y.toInt L = (collatzMap^[k] (x.toInt L).toNat : Nat) := by
  have hB := hL.supported.base_ge
  have e1 := eq_pos hB h1w (by omega)
  have e2 := eq_pos hB h2w (by omega)
  have ex := eq_pos hB hx (by omega)
  rw [h1] at e1
  rw [h2] at e2
  have := collatzRounds_eval hL hm hd (x := (x.toInt L).toNat) (by omega) k
  rw [← ex, ← show one = numeral L .pos 1 from e1, ← show two = numeral L .pos 2 from e2] at this
  exact ⟨_, this, numeral_wf hB (.inl rfl) _, by rw [toInt_of_pos rfl, numeral_mag]⟩

/-- so that the loop never ends, whatever number from two on it is started with. -/
theorem C173_endless {one two x : Bignum} (h1w : WF L one) (h1 : one.toInt L = 1) (h2w : WF L two) (h2 : two.toInt L = 2) (hx : WF L x)
    (hx2 : 2 ≤ x.toInt L) (k : Nat) : Evaluates (fun n => collatz L env n one two k x) (.error .timeout) := by
  have hB := hL.supported.base_ge
  have e1 := eq_pos hB h1w (by omega)
  have e2 := eq_pos hB h2w (by omega)
  have ex := eq_pos hB hx (by omega)
  rw [h1] at e1
  rw [h2] at e2
  have := collatz_eval hL hm hd (x := (x.toInt L).toNat) (by omega) k
  rwa [← ex, ← show one = numeral L .pos 1 from e1, ← show two = numeral L .pos 2 from e2] at this

omit hL hm hd

example (k : Nat) := C173_rounds Sample.base10 Sample.ample rfl (one := ⟨.pos, [1]⟩) (two := ⟨.pos, [2]⟩) (x := ⟨.pos, [7, 2]⟩)
  (by sample) (by sample) (by sample) (by sample) (by sample) (by sample) k

/-- From 4 the sequence is 4, 2, 7. -/
example : collatzMap^[2] 4 = 7 := rfl

example (k : Nat) := C173_endless Sample.base10 Sample.ample rfl (one := ⟨.pos, [1]⟩) (two := ⟨.pos, [2]⟩) (x := ⟨.pos, [4]⟩)
  (by sample) (by sample) (by sample) (by sample) (by sample) (by sample) k

end BN
