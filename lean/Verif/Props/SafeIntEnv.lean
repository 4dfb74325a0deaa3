import Verif.Props.SafeInt
import Verif.Props.AnyEnvironment
/-
C151 in debug builds and with scarce memory: a program over the class of Props/SafeInt.lean throws, or it computes what it computes over the
integers.
-/
namespace BN
open Bignum

/-- The outcome `d` is the outcome `r`, or one of the two exceptions. -/
def Throwing {α : Type} (d r : Res α) : Prop := d = r ∨ d = .error (.exn .badAlloc) ∨ d = .error (.exn .stdException)

theorem Throwing.refl {α : Type} (r : Res α) : Throwing r r := .inl rfl

theorem Throwing.bind {α β : Type} {d r : Res α} {f g : α → Res β} (h : Throwing d r) (hf : ∀ x, Throwing (f x) (g x)) :
    Throwing (d >>= f) (r >>= g) := by
  rcases h with rfl | rfl | rfl
  · cases d with
    | ok x => simpa only [ok_bind] using hf x
    | error e => exact .inl rfl
  · exact .inr (.inl rfl)
  · exact .inr (.inr rfl)

theorem Throwing.ite {α : Type} {p : Prop} [Decidable p] {a b c d : Res α} (h1 : Throwing a b) (h2 : Throwing c d) :
    Throwing (if p then a else c) (if p then b else d) := by
  by_cases hp : p
  · rwa [if_pos hp, if_pos hp]
  · rwa [if_neg hp, if_neg hp]

theorem Throwing.while {σ : Type} (c : σ → Res Bool) {b b' : σ → Res σ} (h : ∀ s, Throwing (b s) (b' s)) :
    ∀ (n : Nat) (s : σ), Throwing (loopWhile c b n s) (loopWhile c b' n s)
  | 0, _ => .refl _
  | n + 1, s => by
    rw [loopWhile, loopWhile]
    exact .bind (.refl _) fun x => .ite (.bind (h s) fun s' => Throwing.while c h n s') (.refl _)

variable (L : Limits) (env : Env) (n : Nat)

theorem throwing_alloc {α : Type} (m : Nat) (r : Res α) :
    Throwing (if env.alloc m then r else .error (.exn .badAlloc)) (if releaseEnv.alloc m then r else .error (.exn .badAlloc)) := by
  rw [if_pos (show releaseEnv.alloc m = true from rfl)]
  split
  · exact .refl _
  · exact .inr (.inl rfl)

theorem throwing_copy (x : Bignum) : Throwing (x.copy env) (x.copy releaseEnv) := by
  unfold Bignum.copy Vec.copy
  exact .bind (.ite (.refl _) (throwing_alloc env _ _)) fun _ => .refl _

theorem throwing_pushBack (x : Bignum) (d : Nat) : Throwing (x.pushBack env d) (x.pushBack releaseEnv d) := by
  unfold Bignum.pushBack Vec.pushBack
  exact .bind (throwing_alloc env _ _) fun _ => .refl _

theorem throwing_pushFront (x : Bignum) (d : Nat) : Throwing (x.pushFront env d) (x.pushFront releaseEnv d) := by
  unfold Bignum.pushFront Vec.insert
  exact .bind (.ite (.refl _) (throwing_alloc env _ _)) fun _ => .refl _

theorem throwing_ofList (d : Desc) (l : List Nat) : Throwing (ofList env d l) (ofList releaseEnv d l) := by
  unfold ofList Vec.resize
  exact .ite (.refl _) (.bind (.ite (.refl _) (throwing_alloc env _ _)) fun _ => .refl _)

theorem throwing_viaCopy (k : Arith) (a b : Bignum) :
    Throwing (viaCopy env (k.assign exactOps L env n) a b) (viaCopy releaseEnv (k.assign exactOps L releaseEnv n) a b) := by
  unfold viaCopy
  refine .bind (throwing_copy env a) fun x => ?_
  rcases assign_any exactOps L k env n x (.other b) with h | h | h
  · rw [h]; exact .refl _
  · rw [h]; exact .inr (.inr rfl)
  · rw [h]; exact .inr (.inr rfl)

theorem throwing_add (a b : Bignum) : Throwing (a.add L env n b) (a.add L releaseEnv n b) := throwing_viaCopy L env n .add a b
theorem throwing_sub (a b : Bignum) : Throwing (a.sub L env n b) (a.sub L releaseEnv n b) := throwing_viaCopy L env n .sub a b

theorem throwing_times : ∀ (k e : Nat) (x r : Bignum), Throwing (timesLoop L env n k e x r) (timesLoop L releaseEnv n k e x r)
  | 0, _, _, _ => .refl _
  | k + 1, e, x, r => by
    unfold timesLoop
    exact .ite (.refl _) (.bind (.ite (throwing_add L env n _ _) (.refl _)) fun _ => .bind (throwing_add L env n _ _) fun _ =>
      throwing_times k _ _ _)

theorem throwing_rows (a y : Bignum) : ∀ (i : Nat) (r : Bignum), Throwing (mulRows L env n a y i r) (mulRows L releaseEnv n a y i r)
  | 0, _ => .refl _
  | i + 1, r => by
    unfold mulRows
    exact .bind (throwing_pushFront env _ _) fun _ => .bind (.refl _) fun _ => .bind (throwing_times L env n _ _ _ _) fun _ =>
      .bind (throwing_add L env n _ _) fun _ => throwing_rows a y i _

theorem throwing_slowMul (x y : Bignum) : Throwing (slowMul L env n x y) (slowMul L releaseEnv n x y) :=
  .bind (throwing_copy env _) fun _ => .bind (throwing_rows L env n _ _ _ _) fun _ => .refl _

theorem throwing_doubleUp (a : Bignum) : ∀ (k : Nat) (d m : Bignum), Throwing (doubleUp L env n a k d m) (doubleUp L releaseEnv n a k d m)
  | 0, _, _ => .refl _
  | k + 1, d, m => by
    unfold doubleUp
    exact .bind (throwing_add L env n _ _) fun _ => .bind (.refl _) fun _ =>
      .ite (.bind (throwing_add L env n _ _) fun _ => throwing_doubleUp a k _ _) (.refl _)

theorem throwing_divLoop (b one : Bignum) : ∀ (k : Nat) (a q : Bignum),
    Throwing (slowDivLoop L env n b one k a q) (slowDivLoop L releaseEnv n b one k a q)
  | 0, _, _ => .refl _
  | k + 1, a, q => by
    unfold slowDivLoop
    exact .bind (.refl _) fun _ => .ite (.bind (throwing_doubleUp L env n _ _ _ _) fun _ => .bind (throwing_sub L env n _ _) fun _ =>
      .bind (throwing_add L env n _ _) fun _ => throwing_divLoop b one k _ _) (.refl _)

theorem throwing_slowDiv (x y : Bignum) : Throwing (slowDiv L env n x y) (slowDiv L releaseEnv n x y) :=
  .bind (throwing_copy env _) fun _ => .bind (throwing_copy env _) fun _ => .bind (throwing_ofList env _ _) fun _ =>
    .bind (throwing_divLoop L env n _ _ _ _ _) fun _ => .refl _

theorem throwing_fromLL (z : CVal) : Throwing (fromLL L env n z) (fromLL L releaseEnv n z) := by
  unfold fromLL
  have h : ∀ v, Throwing (digitsLoop L env n v) (digitsLoop L releaseEnv n v) := by
    intro v
    unfold digitsLoop
    refine .while _ (fun s => ?_) _ _
    unfold digitsBody
    exact .bind (.refl _) fun _ => .bind (.refl _) fun _ => .bind (throwing_pushBack env _ _) fun _ => .refl _
  exact .ite (.bind (.refl _) fun _ => .bind (h _) fun _ => .refl _) (.bind (.refl _) fun _ => .bind (h _) fun _ => .refl _)

theorem throwing_safeAdd (a b : Bignum) : Throwing (safeAdd L env n a b) (safeAdd L releaseEnv n a b) :=
  .bind (throwing_add L env n _ _) fun _ => .refl _

/-- Each operation in any environment. -/
structure Throwings {V : Type} (A B : IntOps V) : Prop where
  lit : ∀ z, Throwing (A.lit z) (B.lit z)
  copy : ∀ a, Throwing (A.copy a) (B.copy a)
  add : ∀ a b, Throwing (A.add a b) (B.add a b)
  sub : ∀ a b, Throwing (A.sub a b) (B.sub a b)
  mul : ∀ a b, Throwing (A.mul a b) (B.mul a b)
  quo : ∀ a b, Throwing (A.quo a b) (B.quo a b)
  rem : ∀ a b, Throwing (A.rem a b) (B.rem a b)
  lt : ∀ a b, Throwing (A.lt a b) (B.lt a b)
  eq : ∀ a b, Throwing (A.eq a b) (B.eq a b)

theorem throwings_safe : Throwings (safeArith L env n) (safeArith L releaseEnv n) where
  lit _ := throwing_fromLL L env n _
  copy := throwing_copy env
  add := throwing_safeAdd L env n
  sub _ _ := .bind (.bind (throwing_copy env _) fun _ => .refl _) fun _ => throwing_safeAdd L env n _ _
  mul _ _ := .bind (throwing_slowMul L env n _ _) fun _ => .refl _
  quo _ _ := .ite (.refl _) (.bind (throwing_slowDiv L env n _ _) fun _ => .refl _)
  rem _ _ := .ite (.refl _) (.bind (throwing_slowDiv L env n _ _) fun _ => .refl _)
  lt _ _ := .refl _
  eq _ _ := .refl _

variable {L env n}

theorem Ex.throwing {V : Type} {A B : IntOps V} (h : Throwings A B) (s : Nat → V) : ∀ e : Ex, Throwing (e.eval A s) (e.eval B s)
  | .lit _ _ => h.lit _
  | .var _ => h.copy _
  | .add a b => (Ex.throwing h s a).bind fun _ => (Ex.throwing h s b).bind fun _ => h.add _ _
  | .sub a b => (Ex.throwing h s a).bind fun _ => (Ex.throwing h s b).bind fun _ => h.sub _ _
  | .mul a b => (Ex.throwing h s a).bind fun _ => (Ex.throwing h s b).bind fun _ => h.mul _ _
  | .quo a b => (Ex.throwing h s a).bind fun _ => (Ex.throwing h s b).bind fun _ => h.quo _ _
  | .rem a b => (Ex.throwing h s a).bind fun _ => (Ex.throwing h s b).bind fun _ => h.rem _ _

theorem Test.throwing {V : Type} {A B : IntOps V} (h : Throwings A B) (s : Nat → V) : ∀ t : Test, Throwing (t.eval A s) (t.eval B s)
  | .lt a b => (Ex.throwing h s a).bind fun _ => (Ex.throwing h s b).bind fun _ => h.lt _ _
  | .eq a b => (Ex.throwing h s a).bind fun _ => (Ex.throwing h s b).bind fun _ => h.eq _ _
  | .not t => (Test.throwing h s t).bind fun _ => .refl _
  | .and t u => (Test.throwing h s t).bind fun _ => .ite (Test.throwing h s u) (.refl _)

theorem Cmd.throwing {V : Type} {A B : IntOps V} (h : Throwings A B) : ∀ (N : Nat) (p : Cmd) (s : Nat → V),
    Throwing (p.exec A N s) (p.exec B N s)
  | 0, _, _ => .refl _
  | _ + 1, .skip, _ => .refl _
  | _ + 1, .assign _ e, s => (Ex.throwing h s e).bind fun _ => .refl _
  | N + 1, .seq p q, s => (Cmd.throwing h N p s).bind fun s' => Cmd.throwing h N q s'
  | N + 1, .ite t p q, s => (Test.throwing h s t).bind fun _ => .ite (Cmd.throwing h N p s) (Cmd.throwing h N q s)
  | N + 1, .loop t p, s => (Test.throwing h s t).bind fun _ =>
    .ite ((Cmd.throwing h N p s).bind fun s' => Cmd.throwing h N (.loop t p) s') (.refl _)

/-- C151 in any environment: with every allocator, in debug and release builds, a program that ends over the integers with the values `v'` ends
over the class with objects for these values, or throws one of two standard exceptions; a program that divides by zero throws. -/
theorem C151_any_environment (hL : Supported L) (env : Env) (p : Cmd) {s : Nat → Bignum} {v : Nat → Int} (hs : ∀ i, Represents L (s i) (v i))
    (N : Nat) :
    (∀ v', p.exec intArith N v = .ok v' → ∃ s', (∀ i, Represents L (s' i) (v' i)) ∧
      ∃ n₀, ∀ n ≥ n₀, Throwing (p.exec (safeArith L env n) N s) (.ok s')) ∧
    (∀ e, p.exec intArith N v = .error (.exn e) → ∃ n₀, ∀ n ≥ n₀, ∃ e', p.exec (safeArith L env n) N s = .error (.exn e')) := by
  obtain ⟨h1, h2⟩ := C151_programs hL (env := releaseEnv) (fun _ => rfl) rfl p hs N
  have key := fun n => Cmd.throwing (throwings_safe L env n) N p s
  constructor
  · intro v' e
    obtain ⟨s', ⟨n₀, h⟩, hr⟩ := h1 v' e
    exact ⟨s', hr, n₀, fun n hn => h n hn ▸ key n⟩
  · intro e he
    obtain ⟨n₀, h⟩ := h2 _ he
    refine ⟨n₀, fun n hn => ?_⟩
    rcases key n with k | k | k
    · exact ⟨e, k.trans (h n hn)⟩
    · exact ⟨_, k⟩
    · exact ⟨_, k⟩

example := C151_any_environment (L := .base10) (.inr Sample.base10) ⟨fun n => decide (n < 2), true⟩ Sample.gcd Sample.represents 9

/-- C151: hence a program that returns anywhere has the values of the integer program. -/
theorem C151_returned (hL : Supported L) {env : Env} {p : Cmd} {s s' : Nat → Bignum} {v v' : Nat → Int} (hs : ∀ i, Represents L (s i) (v i))
    {N : Nat} (hv : p.exec intArith N v = .ok v') (h : Evaluates (fun n => p.exec (safeArith L env n) N s) (.ok s')) (i : Nat) :
    (s' i).toInt L = v' i := by
  obtain ⟨t, ht, n₀, hn⟩ := (C151_any_environment hL env p hs N).1 v' hv
  obtain ⟨n₁, h⟩ := h
  have h1 := h (max n₀ n₁) (by omega)
  have h2 := hn (max n₀ n₁) (by omega)
  simp only at h1
  rw [h1] at h2
  rcases h2 with h2 | h2 | h2
  · injection h2 with h2
    rw [h2]
    exact (ht i).2
  · cases h2
  · cases h2

example (env : Env) (hm : env.Ample) (hd : env.debug = false) : ∃ s' : Nat → Bignum, (s' 0).toInt .base10 = -1 := by
  obtain ⟨v', hv⟩ : ∃ v', Sample.gcd.exec intArith 9 Sample.values = .ok v' := ⟨_, rfl⟩
  obtain ⟨s', h, -⟩ := (C151_programs (L := .base10) (.inr Sample.base10) hm hd Sample.gcd Sample.represents 9).1 v' hv
  have h0 : v' 0 = -1 := by
    have : (Sample.gcd.exec intArith 9 Sample.values).map (· 0) = .ok (-1) := by decide +kernel
    rw [hv] at this
    injection this
  exact ⟨s', (C151_returned (.inr Sample.base10) Sample.represents hv h 0).trans h0⟩

end BN
