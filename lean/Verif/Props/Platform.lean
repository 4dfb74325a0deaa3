import Verif.Lemmas.Samples
import Verif.Props.Memory
import Verif.Props.Algebra
/-
C108: results do not depend on the floating-point hardware and mathematical library.
-/
namespace BN
open Bignum

/-- Without the memory of the transform's table a product fails whatever its digits; with it, no further storage is needed. -/
theorem mulStrassen_memory {F : Type} (o : FloatOps F) (L : Limits) (env : Env) (n : Nat) (a b : List Nat) :
    mulStrassen o L env n a b = if env.alloc (fftTableSize a.length b.length) = true then mulStrassen o L env.full n a b
      else .error (.exn .badAlloc) := by
  unfold mulStrassen
  by_cases h : env.alloc (fftTableSize a.length b.length) = true
  · rw [if_neg (by simpa using h), if_pos h, if_neg (by simp [Env.full])]
    have hres : ∀ (v : List Nat) (z : Nat), Vec.resize env v (v.length - z) 0 = Vec.resize env.full v (v.length - z) 0 := by
      intro v z; unfold Vec.resize; rw [if_pos (by omega), if_pos (by omega)]
    simp only [hres]
  · rw [if_pos h, if_neg h]

/-- The digits of a product are those of the exact product, on every platform. -/
theorem mulStrassen_digits {F : Type} {o : FloatOps F} (M : Ieee o) {L : Limits} {K : Nat} (hp : Preset L K) (env : Env) {a b : List Nat}
    (ha : WFDigits L.base a) (hb : WFDigits L.base b) (h1 : 1 ≤ a.length + b.length) (h2 : a.length + b.length ≤ K) {n : Nat} (hn : 32 < n) :
    mulStrassen o L env.full n a b = .ok (Nat.digits L.base (natOf L.base a * natOf L.base b)) := by
  have h := mul_numeral M hp (env := env.full) (fun _ => rfl) (x := ⟨.pos, a⟩) (y := ⟨.pos, b⟩) ⟨.inl rfl, ha⟩ ⟨.inl rfl, hb⟩ h1 h2 hn
  unfold Bignum.mul viaCopy at h
  rw [copy_ok (fun _ => rfl), ok_bind] at h
  unfold mulAssign at h
  simp only [isComputable, Bool.not_true, Bool.false_eq_true, if_false] at h
  have e : (Rhs.get (.other ⟨.pos, b⟩) ⟨.pos, a⟩).digits = b := rfl
  rw [e] at h
  cases hs : mulStrassen o L env.full n a b with
  | error f =>
    rw [hs, error_bind] at h
    rcases f with k | x | _
    · cases h
    · cases x <;> cases h
    · cases h
  | ok c =>
    rw [hs, ok_bind] at h
    simp only [handle] at h
    have := congrArg Bignum.digits (Except.ok.inj h)
    exact congrArg Except.ok this

/-! ### C108 -/

/-- Products of well-formed numbers of the preset types end identically (same object, same failure) on any two platforms
whose floating-point arithmetic satisfies the IEEE laws, with every allocator and in both builds. -/
theorem C108_products_agree {F G : Type} {o : FloatOps F} {o' : FloatOps G} (M : Ieee o) (M' : Ieee o') {L : Limits} {K : Nat}
    (hp : Preset L K) (env : Env) {x : Bignum} {r : Rhs} (hx : WF L x) (hy : WF L (r.get x))
    (h1 : 1 ≤ x.digits.length + (r.get x).digits.length) (h2 : x.digits.length + (r.get x).digits.length ≤ K) {n : Nat} (hn : 32 < n) :
    mulAssign o L env n x r = mulAssign o' L env n x r := by
  unfold mulAssign
  simp only
  rw [mulStrassen_memory o, mulStrassen_memory o', mulStrassen_digits M hp env hx.2 hy.2 h1 h2 hn,
    mulStrassen_digits M' hp env hx.2 hy.2 h1 h2 hn]

example {F G : Type} {o : FloatOps F} {o' : FloatOps G} (M : Ieee o) (M' : Ieee o') := C108_products_agree M M' .base10 releaseEnv
  (x := Sample.n199) (r := .other Sample.m23) (by sample) (by sample) (by decide) (by decide) (n := 33) (by decide)

/-- The statement is no product, or a product of numbers the type is exact for. -/
def Op.Within (L : Limits) (K : Nat) (s : Store) : Op → Prop
  | .arith .mul i j => WF L (s i) ∧ WF L (s j) ∧ 1 ≤ (s i).size + (s j).size ∧ (s i).size + (s j).size ≤ K
  | .binary .mul _ j l => WF L (s j) ∧ WF L (s l) ∧ 1 ≤ (s j).size + (s l).size ∧ (s j).size + (s l).size ≤ K
  | _ => True

/-- All products of the run are of numbers the type is exact for. -/
def WithinRun {F : Type} (o : FloatOps F) (L : Limits) (K fuel : Nat) : (Nat → Env) → Store → List Op → Prop
  | _, _, [] => True
  | env, s, op :: ops => op.Within L K s ∧
    ∀ s', op.step o L (env 0) fuel s = some s' → WithinRun o L K fuel (fun k => env (k + 1)) s' ops

theorem step_within {F G : Type} {o : FloatOps F} {o' : FloatOps G} (M : Ieee o) (M' : Ieee o') {L : Limits} {K : Nat}
    (hp : Preset L K) (env : Env) {n : Nat} (hn : 32 < n) {s : Store} {op : Op} (h : op.Within L K s) :
    op.step o' L env n s = op.step o L env n s := by
  cases op with
  | arith k i j =>
    cases k with
    | mul =>
      obtain ⟨h1, h2, h3, h4⟩ := h
      have e : (rhsOf s i j).get (s i) = s j := by
        unfold rhsOf; by_cases hij : j = i
        · rw [if_pos hij, hij]; rfl
        · rw [if_neg hij]; rfl
      simp only [Op.step, Arith.assign]
      rw [C108_products_agree M M' hp env (r := rhsOf s i j) h1 (by rwa [e]) (by rw [e]; exact h3) (by rw [e]; exact h4) hn]
    | _ => rfl
  | binary k i j l =>
    cases k with
    | mul =>
      obtain ⟨h1, h2, h3, h4⟩ := h
      simp only [Op.step, Arith.binary, Arith.assign, viaCopy]
      cases hc : (s j).copy env with
      | error f => rfl
      | ok z =>
        have hz : z = s j := by
          unfold Bignum.copy Vec.copy at hc
          split at hc
          · rename_i h; cases hsj : s j; rw [hsj] at h hc; simp at h; subst h; cases hc; rfl
          · split at hc
            · cases hc; rfl
            · cases hc
        subst hz
        rw [ok_bind, ok_bind, C108_products_agree M M' hp env (r := .other (s l)) h1 h2 h3 h4 hn]
    | _ => rfl
  | _ => rfl

/-- A program whose products stay within the lengths the type is exact for computes the same objects on any two platforms
whose floating-point arithmetic satisfies the IEEE laws: every program, store, allocator and build. -/
theorem C108_programs_agree {F G : Type} {o : FloatOps F} {o' : FloatOps G} (M : Ieee o) (M' : Ieee o') {L : Limits} {K : Nat}
    (hp : Preset L K) {n : Nat} (hn : 32 < n) : ∀ (ops : List Op) (env : Nat → Env) (s : Store),
    WithinRun o L K n env s ops → run o' L n env s ops = run o L n env s ops
  | [], _, _, _ => rfl
  | op :: ops, env, s, ⟨h1, h2⟩ => by
    rw [run, run, step_within M M' hp (env 0) hn h1]
    cases hs : op.step o L (env 0) n s with
    | none => rfl
    | some s' => exact C108_programs_agree M M' hp hn ops _ s' (h2 s' hs)

/-- A program within the limits: 99 squared from two negative numbers, then a difference. -/
example : WithinRun roundOps .base10 (2 ^ 25) 40 (fun _ => releaseEnv) (fun _ => ⟨.neg, [9, 9]⟩) [.binary .mul 0 1 2, .arith .sub 0 1] := by
  have hw : WF .base10 ⟨.neg, [9, 9]⟩ := by
    simp [WF, Signed, WFDigits, InRange, NoLeadingZero, Limits.base, Limits.base10, Limits.custom]
  exact ⟨⟨hw, hw, by decide, by decide⟩, fun _ _ => ⟨trivial, fun _ _ => trivial⟩⟩

end BN
