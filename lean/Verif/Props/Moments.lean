import Verif.Lemmas.Samples
import Verif.Lemmas.Moments
import Verif.Props.AnyEnvironment
/-
C111, C112: allocators that may refuse or grant each single request.
-/
namespace BN
open Bignum

variable {F : Type}

/-- The surroundings of every request belong to one build. -/
def Moments.OfBuild (E : Moments) (debug : Bool) : Prop := ∀ p, (E p).debug = debug

theorem Moments.OfBuild.le {E : Moments} {d : Bool} (h : E.OfBuild d) : E.Le (Env.always ⟨fun _ => true, d⟩) :=
  fun p => ⟨fun _ _ => rfl, (h p).symm⟩

theorem handle_between {x : Bignum} {t : Desc} {r₀ r₁ r₂ : Res Bignum} (h₀ : Scarce r₀ r₁) (h₁ : Scarce r₁ r₂)
    (h : handle x t r₀ = handle x t r₂) : handle x t r₁ = handle x t r₀ := by
  rcases h₀ with rfl | rfl
  · rfl
  · rcases h₁ with rfl | rfl
    · exact h.symm
    · rfl

/-- Where an operator reaches its `try` block: the block's outcome under each family, the block under one family being the
block under a more generous one or a failed allocation. -/
theorem assignM_try (o : FloatOps F) (L : Limits) (k : Arith) (n : Nat) (x : Bignum) (r : Rhs) :
    (∃ b, ∀ E : Moments, k.assignM o L E n x r = .ok b) ∨
    ∃ (y : Bignum) (t : Desc) (f : Moments → Res Bignum), (∀ E, k.assignM o L E n x r = handle y t (f E)) ∧
      ∀ E E' : Moments, E.Le E' → Scarce (f E) (f E') := by
  by_cases hc : (!isComputable x.desc) = true
  · exact .inl ⟨_, fun E => by unfold Arith.assignM; rw [if_pos hc]⟩
  cases k with
  | add =>
    exact .inr ⟨x, (r.get x).desc, fun E => addTryM L E n x r, fun E => by rw [Arith.assignM, if_neg hc],
      fun E E' h => scarce_addTryM h L n x r⟩
  | sub =>
    exact .inr ⟨x, (r.get x).desc, fun E => subTry L (E [0]) n x r, fun E => by rw [Arith.assignM, if_neg hc],
      fun E E' h => scarce_subTry (h [0]) L n x r⟩
  | mul =>
    exact .inr ⟨x, (r.get x).desc, fun E => (do
      let d ← mulStrassenM o L E n x.digits (r.get x).digits
      .ok ⟨mulSign x.desc (r.get x).desc, d⟩), fun E => by rw [Arith.assignM, if_neg hc],
      fun E E' h => .bind (scarce_mulStrassenM h o L n _ _) fun _ => .refl _⟩
  | div =>
    simp only [Arith.assignM, if_neg hc]
    by_cases h1 : isOneDigit (r.get (⟨mulSign x.desc (r.get x).desc, x.digits⟩ : Bignum)).digits 0 = true
    · exact .inl ⟨_, fun E => by rw [if_pos h1]⟩
    by_cases h2 : isOneDigit (r.get (⟨mulSign x.desc (r.get x).desc, x.digits⟩ : Bignum)).digits 1 = true
    · exact .inl ⟨_, fun E => by rw [if_neg h1, if_pos h2]⟩
    by_cases h3 : x.digits = [] ∨ isOneDigit x.digits 0 = true
    · exact .inl ⟨_, fun E => by rw [if_neg h1, if_neg h2, if_pos h3]⟩
    refine .inr ⟨_, _, _, fun E => by rw [if_neg h1, if_neg h2, if_neg h3], fun E E' h => ?_⟩
    exact .bind (.refl _) fun _ => .ite (.bind (scarce_absDivM h L n _ _) fun _ => .refl _) (.refl _)

/-- An operator under the same answers at every moment is the operator of the rest of the model, if whoever gets a long
vector would also get a short one. -/
theorem C111_one_answer_per_size (o : FloatOps F) (L : Limits) (k : Arith) {env : Env}
    (hdown : ∀ m m', m ≤ m' → env.alloc m' = true → env.alloc m = true) (n : Nat) (x : Bignum) (r : Rhs) :
    k.assignM o L (fun _ => env) n x r = k.assign o L env n x r := by
  cases k with
  | add => rfl
  | sub => rfl
  | mul =>
    show Arith.assignM o L env.always n .mul x r = mulAssign o L env n x r
    unfold Arith.assignM mulAssign
    simp only [mulStrassenM_always o L (fun h m hm => hdown m _ hm h) n]
  | div =>
    show Arith.assignM o L env.always n .div x r = divAssign L env n x r
    unfold Arith.assignM divAssign divTry
    simp only [absDivM_always]

example (o : FloatOps F) := C111_one_answer_per_size o .base10 .mul (env := ⟨fun n => decide (n ≤ 4), true⟩)
  (fun m m' h h' => by simp at h' ⊢; omega) 9 Sample.n199 (.other Sample.m23)

/-- C111. Whichever requests are refused, and at whatever moments, an operator ends as in a release build with unlimited
memory or throws one standard exception with an infinity left in the receiver. -/
theorem C111_any_moment (o : FloatOps F) (L : Limits) (k : Arith) {E : Moments} {d : Bool} (hE : E.OfBuild d) (n : Nat)
    (x : Bignum) (r : Rhs) :
    k.assignM o L E n x r = k.assign o L releaseEnv n x r ∨
    k.assignM o L E n x r = .threw .stdException ⟨.posInf, []⟩ ∨
    k.assignM o L E n x r = .threw .stdException ⟨.negInf, []⟩ := by
  have hfull := C111_one_answer_per_size o L k (env := ⟨fun _ => true, d⟩) (fun _ _ _ _ => rfl) n x r
  rcases assignM_try o L k n x r with ⟨b, hb⟩ | ⟨y, t, f, hf, hs⟩
  · rw [hb] at hfull
    rw [hb, hfull]
    exact assign_any o L k ⟨fun _ => true, d⟩ n x r
  · rcases handle_scarce (x := y) (t := t) (hs _ _ hE.le) with h | h
    · rw [hf, h, ← hf]
      have hfull : k.assignM o L (Env.always ⟨fun _ => true, d⟩) n x r = _ := hfull
      rw [hfull]
      exact assign_any o L k ⟨fun _ => true, d⟩ n x r
    · rw [hf, h]
      by_cases ht : t = .pos
      · rw [if_pos ht]; exact .inr (.inl rfl)
      · rw [if_neg ht]; exact .inr (.inr rfl)

example (o : FloatOps F) := C111_any_moment o .base10 .div (E := fun p => ⟨fun n => decide (n + p.length ≤ 4), true⟩) (d := true)
  (fun _ => rfl) 9 Sample.n199 (.other Sample.m23)

/-- C111, whole runs: where the release build with unlimited memory ends with `c`, every run ends with `c` or throws. -/
theorem C111_outcomes (o : FloatOps F) (L : Limits) (k : Arith) {x : Bignum} {r : Rhs} {c : Out}
    (h : Evaluates (fun n => k.assign o L releaseEnv n x r) c) : ∃ n₀, ∀ n ≥ n₀, ∀ (E : Moments) (d : Bool), E.OfBuild d →
      k.assignM o L E n x r = c ∨ k.assignM o L E n x r = .threw .stdException ⟨.posInf, []⟩ ∨
      k.assignM o L E n x r = .threw .stdException ⟨.negInf, []⟩ := by
  obtain ⟨n₀, h⟩ := h
  refine ⟨n₀, fun n hn E d hE => ?_⟩
  rw [← h n hn]
  exact C111_any_moment o L k hE n x r

example (o : FloatOps F) := C111_outcomes o .base10 .add (x := Sample.n199) (r := .other Sample.n1) (c := .ok ⟨.pos, [0, 0, 2]⟩)
  ⟨4, fun n hn => by obtain ⟨k, rfl⟩ := Nat.exists_eq_add_of_le hn; rw [Nat.add_comm]; rfl⟩

/-- Between two families an operator ends like either if both end alike. -/
theorem assignM_between (o : FloatOps F) (L : Limits) (k : Arith) {E₀ E₁ E₂ : Moments} (h₀ : E₀.Le E₁) (h₁ : E₁.Le E₂) {n : Nat}
    {x : Bignum} {r : Rhs} (h : k.assignM o L E₀ n x r = k.assignM o L E₂ n x r) :
    k.assignM o L E₁ n x r = k.assignM o L E₂ n x r := by
  rcases assignM_try o L k n x r with ⟨b, hb⟩ | ⟨y, t, f, hf, hs⟩
  · rw [hb, hb]
  · rw [hf, hf] at h
    rw [hf, hf, handle_between (hs _ _ h₀) (hs _ _ h₁) h, h]

/-- C111, storage: if every request of at most so many digits is granted whenever it is made, the operator ends as with
unlimited memory. -/
theorem C111_storage (o : FloatOps F) (k : Arith) {L : Limits} (hL : Custom L) {E : Moments} {d : Bool} (hE : E.OfBuild d)
    {x : Bignum} {r : Rhs} (hx : WF L x) (hr : WF L (r.get x)) (hlen : x.digits.length + (r.get x).digits.length ≤ 2 ^ 32)
    (hne : k = .div → (r.get x).digits ≠ [])
    (hA : ∀ p m, m ≤ storage k x.digits.length (r.get x).digits.length → (E p).alloc m = true) (n : Nat) :
    k.assignM o L E n x r = k.assign o L ⟨fun _ => true, d⟩ n x r := by
  let N := storage k x.digits.length (r.get x).digits.length
  let e₀ : Env := ⟨fun m => decide (m ≤ N), d⟩
  have hA₀ : ∀ m, m ≤ N → e₀.alloc m = true := fun m hm => decide_eq_true hm
  have h0 : e₀.always.Le E := fun p => ⟨fun m hm => hA p m (of_decide_eq_true hm), hE p⟩
  have e0 := C111_one_answer_per_size o L k (env := e₀)
    (fun m m' hm h => decide_eq_true (hm.trans (of_decide_eq_true h))) n x r
  have e2 := C111_one_answer_per_size o L k (env := ⟨fun _ => true, d⟩) (fun _ _ _ _ => rfl) n x r
  have hst : k.assign o L e₀ n x r = k.assign o L ⟨fun _ => true, d⟩ n x r := by
    cases k with
    | add => exact C106_add_storage (.inr hL) hx.2.1 hr.2.1 hA₀ n
    | sub => exact C106_sub_storage L hA₀ n
    | mul => exact C106_mul_storage o L hlen hA₀ n
    | div => exact C106_div_storage hL hx hr (hne rfl) hA₀ n
  rw [← e2]
  refine assignM_between o L k h0 hE.le ?_
  exact e0.trans (hst.trans e2.symm)

/-- 97 / 3 in base 10. Refusing the copy in the second step of the first search, of one digit, makes the division throw
although requests of one digit were granted before; refusing a moment that does not arise changes nothing. -/
example : absDivM .base10 (fun p => ⟨fun _ => p ≠ [1, 0, 4, 1, 0], false⟩) 40 [7, 9] [3] = .error (.exn .badAlloc) ∧
    absDivM .base10 (fun p => ⟨fun _ => p ≠ [1, 0, 4, 7, 0], false⟩) 40 [7, 9] [3] = .ok [2, 3] := by
  decide +kernel

/-! ### C112 -/

/-- The statement returns without an exception. -/
def Op.ReturnsM (o : FloatOps F) (L : Limits) (E : Moments) (fuel : Nat) (s : Store) : Op → Prop
  | .arith k i j => ∃ b, k.assignM o L E fuel (s i) (rhsOf s i j) = .ok b
  | .binary k _ j l => ∃ b, k.binaryM o L E fuel (s j) (s l) = .ok b
  | op => op.Returns o L (E [0]) fuel s

/-- Every statement of the program that may ask for storage returns without an exception. -/
def ReturningRunM (o : FloatOps F) (L : Limits) (fuel : Nat) : (Nat → Moments) → Store → List Op → Prop
  | _, _, [] => True
  | E, s, op :: ops => op.ReturnsM o L (E 0) fuel s ∧
    ∀ s', op.stepM o L (E 0) fuel s = some s' → ReturningRunM o L fuel (fun k => E (k + 1)) s' ops

theorem assignM_returns {o : FloatOps F} {L : Limits} {k : Arith} {E : Moments} {d : Bool} (hE : E.OfBuild d) {n : Nat} {x : Bignum}
    {r : Rhs} {b : Bignum} (h : k.assignM o L E n x r = .ok b) : k.assign o L releaseEnv n x r = .ok b := by
  rcases C111_any_moment o L k hE n x r with h' | h' | h'
  · rw [← h', h]
  · rw [h] at h'; cases h'
  · rw [h] at h'; cases h'

theorem stepM_any {o : FloatOps F} {L : Limits} {E : Moments} {d : Bool} (hE : E.OfBuild d) {n : Nat} {s : Store} {op : Op}
    (h : op.ReturnsM o L E n s) : op.step o L releaseEnv n s = op.stepM o L E n s := by
  cases op with
  | arith k i j =>
    obtain ⟨b, hb⟩ := h
    simp only [Op.step, Op.stepM]
    rw [hb, assignM_returns hE hb]
  | binary k i j l =>
    obtain ⟨b, hb⟩ := h
    have : k.binary o L releaseEnv n (s j) (s l) = .ok b := by
      unfold Arith.binaryM viaCopy at hb
      unfold Arith.binary viaCopy
      cases hc : (s j).copy (E [0]) with
      | error f => rw [hc] at hb; cases hb
      | ok z =>
        have hz : (s j).copy releaseEnv = .ok z :=
          Scarce.ok_persists (scarce_copy (Env.le_full (E [0])) _) hc
        rw [hc, ok_bind] at hb
        rw [hz, ok_bind]
        cases hy : k.assignM o L (E.at 1) n z (.other (s l)) with
        | ok c =>
          rw [assignM_returns (E := E.at 1) (fun p => hE (1 :: p)) hy]
          rw [hy] at hb
          exact hb
        | threw f c => rw [hy] at hb; cases hb
        | ub u => rw [hy] at hb; cases hb
        | timeout => rw [hy] at hb; cases hb
    simp only [Op.step, Op.stepM]
    rw [hb, this]
  | _ => exact step_any (env := E [0]) h

/-- C112. A program none of whose statements throws leaves the same objects in any build, whichever requests for memory
were granted on the way. -/
theorem C112_same_objects (o : FloatOps F) (L : Limits) (n : Nat) : ∀ (ops : List Op) (E : Nat → Moments) (d : Bool) (s : Store),
    (∀ k, (E k).OfBuild d) → ReturningRunM o L n E s ops → runM o L n E s ops = run o L n (fun _ => releaseEnv) s ops := by
  intro ops
  induction ops with
  | nil => intros; rfl
  | cons op ops ih =>
    intro E d s hE h
    have h1 := stepM_any (hE 0) h.1
    unfold run runM
    rw [h1]
    cases hs : op.stepM o L (E 0) n s with
    | none => rfl
    | some s' => exact ih _ d s' (fun k => hE (k + 1)) (h.2 s' hs)

/-- C112. A program over the integers whose statements all return computes the integers of the mathematics, whichever
requests for memory were refused on the way. -/
theorem C112_programs {o : FloatOps F} {L : Limits} (hL : Custom L) {K : Nat} (hK : 1 ≤ K) (hmul : MulExact o L K)
    {ops : List Op} {v v' : Vars} (hr : IntRun L.base K v ops v') {s : Store} (hs : Holds L s v) :
    ∃ s', Holds L s' v' ∧ ∃ n₀, ∀ n ≥ n₀, ∀ (E : Nat → Moments) (d : Bool), (∀ k, (E k).OfBuild d) →
      ReturningRunM o L n E s ops → runM o L n E s ops = some s' := by
  obtain ⟨s', ⟨n₀, h⟩, hs'⟩ := C64_programs hL hK hmul hr (fun _ => releaseEnv) (fun _ => ⟨fun _ => rfl, rfl⟩) s hs
  exact ⟨s', hs', n₀, fun n hn E d hE hret => (C112_same_objects o L n ops E d s hE hret).trans (h n hn)⟩

/-- Twelve plus three in a debug build that grants two digits in the second statement and refuses them afterwards. -/
example {F : Type} (o : FloatOps F) (s : Store) :
    ReturningRunM o .base10 9 (fun k _ => ⟨fun n => decide (k ≤ 1 ∨ n ≤ 1), true⟩) s
    [.make 1 .pos [3], .make 0 .pos [1, 2], .arith .add 0 1] := by
  refine ⟨⟨⟨.pos, [3]⟩, by decide⟩, fun s' h => ?_⟩
  have h' : s' = s.set 1 ⟨.pos, [3]⟩ := (Option.some.inj h).symm
  subst h'
  refine ⟨⟨⟨.pos, [2, 1]⟩, by decide⟩, fun s' h => ?_⟩
  have h' : s' = (s.set 1 ⟨.pos, [3]⟩).set 0 ⟨.pos, [2, 1]⟩ := (Option.some.inj h).symm
  subst h'
  refine ⟨⟨⟨.pos, [5, 1]⟩, ?_⟩, fun _ _ => trivial⟩
  have h : addTryM .base10 (fun _ => ⟨fun n => decide (2 ≤ 1 ∨ n ≤ 1), true⟩) 9 ⟨.pos, [2, 1]⟩ (.other ⟨.pos, [3]⟩) =
    .ok ⟨.pos, [5, 1]⟩ := by decide +kernel
  show handle ⟨.pos, [2, 1]⟩ .pos (addTryM .base10 (fun _ => ⟨fun n => decide (2 ≤ 1 ∨ n ≤ 1), true⟩) 9 ⟨.pos, [2, 1]⟩
    (.other ⟨.pos, [3]⟩)) = _
  rw [h]
  rfl

end BN
