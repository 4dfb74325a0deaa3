import Verif.Lemmas.Samples
import Verif.Props.Memory
import Verif.Props.DebugBuild
import Verif.Props.Simulation

/-! Results in any environment: whatever the allocator grants and whichever of the two builds is used, an operator
gives the result of the release build with unlimited memory or throws (C109), and so does a whole program (C110). -/

namespace BN
open Bignum

variable {F : Type}

/-! ### C109 -/

theorem assign_any (o : FloatOps F) (L : Limits) (k : Arith) (env : Env) (n : Nat) (x : Bignum) (r : Rhs) :
    k.assign o L env n x r = k.assign o L releaseEnv n x r ∨
    k.assign o L env n x r = .threw .stdException ⟨.posInf, []⟩ ∨
    k.assign o L env n x r = .threw .stdException ⟨.negInf, []⟩ := by
  rcases C106_more_memory env.le_full o L k n x r with h | h
  · rw [h]
    obtain ⟨al, d⟩ := env
    cases d
    · exact .inl rfl
    · exact C70_debug_or_throw L (fun _ => true) o k n x r
  · exact .inr h

theorem mono_assign (o : FloatOps F) (L : Limits) (env : Env) (k : Arith) (x : Bignum) (r : Rhs) :
    MonoOut (fun n => k.assign o L env n x r) := by
  cases k
  · exact mono_addAssign L env x r
  · exact mono_subAssign L env x r
  · exact mono_mulAssign o L env x r
  · exact mono_divAssign L env x r

/-- C109. Where the release build returns `c` with unlimited memory, every build with every allocator returns `c` or
throws one standard exception with an infinity left in the receiver. It never returns anything else. -/
theorem C109_any_environment (o : FloatOps F) (L : Limits) (k : Arith) {x : Bignum} {r : Rhs} {c : Out} (hc : c ≠ .timeout)
    (h : Evaluates (fun n => k.assign o L releaseEnv n x r) c) (env : Env) :
    Evaluates (fun n => k.assign o L env n x r) c ∨
    Evaluates (fun n => k.assign o L env n x r) (.threw .stdException ⟨.posInf, []⟩) ∨
    Evaluates (fun n => k.assign o L env n x r) (.threw .stdException ⟨.negInf, []⟩) := by
  obtain ⟨n₀, h⟩ := h
  have key : ∀ d, d ≠ Out.timeout → k.assign o L env n₀ x r = d → Evaluates (fun n => k.assign o L env n x r) d :=
    fun d hd he => ⟨n₀, fun n hn => by
      have := mono_assign o L env k x r n₀ n hn (by simp only [he]; exact hd)
      simpa only [he] using this⟩
  rcases assign_any o L k env n₀ x r with h1 | h1 | h1
  · exact .inl (key _ hc (h1.trans (h n₀ (Nat.le_refl _))))
  · exact .inr (.inl (key _ (by simp) h1))
  · exact .inr (.inr (key _ (by simp) h1))

example (o : FloatOps F) := C109_any_environment o .base10 .add (x := Sample.n199) (r := .other Sample.n1) (c := .ok ⟨.pos, [0, 0, 2]⟩)
  (by simp) ⟨4, fun n hn => by obtain ⟨k, rfl⟩ := Nat.exists_eq_add_of_le hn; rw [Nat.add_comm]; rfl⟩ ⟨fun n => decide (n < 2), true⟩

/-- C109, the converse direction: a result seen anywhere is the result of the release build with unlimited memory. -/
theorem C109_results_agree (o : FloatOps F) (L : Limits) (k : Arith) {x : Bignum} {r : Rhs} {b b' : Bignum} {env env' : Env}
    {n n' : Nat} (h : k.assign o L env n x r = .ok b) (h' : k.assign o L env' n' x r = .ok b') : b = b' := by
  have go : ∀ {e : Env} {m : Nat} {z : Bignum}, k.assign o L e m x r = .ok z →
      k.assign o L releaseEnv (max n n' + m) x r = .ok z := by
    intro e m z hz
    have h1 : k.assign o L releaseEnv m x r = .ok z := by
      rcases assign_any o L k e m x r with h | h | h
      · rw [← h, hz]
      · rw [hz] at h; cases h
      · rw [hz] at h; cases h
    have := mono_assign o L releaseEnv k x r m (max n n' + m) (by omega) (by simp only [h1]; simp)
    simpa only [h1] using this
  have e1 := go h
  have e2 := go h'
  have m1 := mono_assign o L releaseEnv k x r (max n n' + n) (max n n' + (n + n')) (by omega) (by simp only [e1]; simp)
  have m2 := mono_assign o L releaseEnv k x r (max n n' + n') (max n n' + (n + n')) (by omega) (by simp only [e2]; simp)
  simp only [e1] at m1
  simp only [e2] at m2
  rw [m1] at m2
  injection m2

example (o : FloatOps F) := C109_results_agree o .base10 .add (x := Sample.n199) (r := .other Sample.n1) (env := releaseEnv)
  (env' := ⟨fun _ => true, true⟩) (n := 4) (n' := 7) (b := ⟨.pos, [0, 0, 2]⟩) (b' := ⟨.pos, [0, 0, 2]⟩) rfl rfl

/-- C10 with any allocator in any build: `+=` of two well-formed numbers has undefined behaviour exactly for two digit-less
zeros of opposite sign. -/
theorem C10_any_environment {L : Limits} (hL : Supported L) (env : Env) {a : Bignum} {r : Rhs} (ha : WF L a) (hb : WF L (r.get a)) :
    ((∃ k, Evaluates (fun n => a.addAssign L env n r) (.ub k)) ↔ EmptyOpposite a (r.get a)) ∧
    (¬ EmptyOpposite a (r.get a) → ∀ n k, a.addAssign L env n r ≠ .ub k) := by
  have quiet : ¬ EmptyOpposite a (r.get a) → ∀ n k, a.addAssign L env n r ≠ .ub k := by
    intro hne n k hk
    obtain ⟨c, hc, -⟩ := add_core hL (env := releaseEnv) (fun _ => rfl) rfl ha hb hne
    let m := max n (max a.digits.length (r.get a).digits.length + 1)
    have h1 := mono_assign exactOps L env .add a r n m (by omega) (by
      show a.addAssign L env n r ≠ .timeout
      rw [hk]; simp)
    have h2 : a.addAssign L env m r = .ub k := h1.trans hk
    rcases assign_any exactOps L .add env m a r with h | h | h
    · have h3 : a.addAssign L env m r = a.addAssign L releaseEnv m r := h
      rw [h2, hc m (by omega)] at h3; cases h3
    · have h3 : a.addAssign L env m r = _ := h
      rw [h2] at h3; cases h3
    · have h3 : a.addAssign L env m r = _ := h
      rw [h2] at h3; cases h3
  refine ⟨⟨?_, ?_⟩, quiet⟩
  · rintro ⟨k, n₀, hk⟩
    by_contra hne
    exact quiet hne n₀ k (hk n₀ (Nat.le_refl _))
  · intro h
    cases r with
    | other b => exact ⟨_, C10_add_ub hL env ha.1 hb.1 h⟩
    | self => exact absurd rfl h.1

example := (C10_any_environment (L := .base10) (.inr Sample.base10) ⟨fun n => decide (n < 2), true⟩ (a := Sample.n199)
  (r := .other Sample.m23) (by sample) (by sample)).2 (by simp [EmptyOpposite, Rhs.get])

/-- C109. Where the release build never returns with unlimited memory, no build returns with any allocator: it runs on or throws. -/
theorem C109_no_return (o : FloatOps F) (L : Limits) (k : Arith) {x : Bignum} {r : Rhs}
    (h : ∀ n, k.assign o L releaseEnv n x r = .timeout) (env : Env) (n : Nat) :
    k.assign o L env n x r = .timeout ∨ k.assign o L env n x r = .threw .stdException ⟨.posInf, []⟩ ∨
    k.assign o L env n x r = .threw .stdException ⟨.negInf, []⟩ := by
  rw [← h n]
  exact assign_any o L k env n x r

/-- 37 - 12 with room for two digits in a debug build; 7 + 8 with room for one digit, and without a limit. -/
example : subAssign .base10 ⟨fun n => decide (n ≤ 2), true⟩ 9 ⟨.pos, [7, 3]⟩ (.other ⟨.pos, [2, 1]⟩) = .ok ⟨.pos, [5, 2]⟩ ∧
    addAssign .base10 ⟨fun n => decide (n ≤ 1), true⟩ 9 ⟨.pos, [7]⟩ (.other ⟨.pos, [8]⟩) = .threw .stdException ⟨.posInf, []⟩ ∧
    addAssign .base10 releaseEnv 9 ⟨.pos, [7]⟩ (.other ⟨.pos, [8]⟩) = .ok ⟨.pos, [5, 1]⟩ := by
  decide +kernel

/-! ### C110 -/

theorem returns_full {o : FloatOps F} {L : Limits} {env : Env} {n : Nat} {s : Store} {op : Op} (h : op.Returns o L env n s) :
    op.Quiet o L env.full n s := by
  cases op with
  | arith k i j => obtain ⟨b, hb⟩ := h; exact ⟨b, C106_results_persist o L k env.le_full hb⟩
  | binary k i j l =>
    obtain ⟨b, hb⟩ := h
    refine ⟨b, ?_⟩
    unfold Arith.binary viaCopy at hb ⊢
    cases hc : (s j).copy env with
    | error f => rw [hc] at hb; cases hb
    | ok z =>
      rw [hc] at hb
      have hz : (s j).copy env.full = .ok z :=
        Scarce.ok_persists (.bind (scarce_vcopy env.le_full _) fun _ => .refl _) hc
      rw [hz]
      rw [ok_bind] at hb ⊢
      cases hy : k.assign o L env n z (.other (s l)) with
      | ok c => rw [C106_results_persist o L k env.le_full hy]; rw [hy] at hb; exact hb
      | threw f c => rw [hy] at hb; cases hb
      | ub u => rw [hy] at hb; cases hb
      | timeout => rw [hy] at hb; cases hb
  | _ => trivial

theorem step_any {o : FloatOps F} {L : Limits} {env : Env} {n : Nat} {s : Store} {op : Op} (h : op.Returns o L env n s) :
    op.step o L releaseEnv n s = op.step o L env n s := by
  rw [← step_returns env.le_full h]
  have hq := returns_full h
  obtain ⟨al, d⟩ := env
  cases d
  · rfl
  · exact (step_quiet hq).symm

/-- C110. A program none of whose statements throws leaves the same objects in any build and with any allocator. -/
theorem C110_same_objects (o : FloatOps F) (L : Limits) (n : Nat) : ∀ (ops : List Op) (env : Nat → Env) (s : Store),
    ReturningRun o L n env s ops → run o L n env s ops = run o L n (fun _ => releaseEnv) s ops := by
  intro ops
  induction ops with
  | nil => intros; rfl
  | cons op ops ih =>
    intro env s h
    have h1 := step_any h.1
    unfold run
    rw [h1]
    cases hs : op.step o L (env 0) n s with
    | none => rfl
    | some s' => exact ih _ s' (h.2 s' hs)

/-- C110. A program over the integers whose statements all return computes the integers of the mathematics, in a debug
build and a release build and whatever the allocator refuses. -/
theorem C110_programs {o : FloatOps F} {L : Limits} (hL : Custom L) {K : Nat} (hK : 1 ≤ K) (hmul : MulExact o L K)
    {ops : List Op} {v v' : Vars} (hr : IntRun L.base K v ops v') {s : Store} (hs : Holds L s v) :
    ∃ s', Holds L s' v' ∧ ∃ n₀, ∀ n ≥ n₀, ∀ env : Nat → Env, ReturningRun o L n env s ops → run o L n env s ops = some s' := by
  obtain ⟨s', ⟨n₀, h⟩, hs'⟩ := C64_programs hL hK hmul hr (fun _ => releaseEnv) (fun _ => ⟨fun _ => rfl, rfl⟩) s hs
  exact ⟨s', hs', n₀, fun n hn env hret => (C110_same_objects o L n ops env s hret).trans (h n hn)⟩

/-- Twelve plus three in a debug build with room for two digits. -/
example {F : Type} (o : FloatOps F) (s : Store) : ReturningRun o .base10 9 (fun _ => ⟨fun n => decide (n ≤ 2), true⟩) s
    [.make 0 .pos [1, 2], .make 1 .pos [3], .arith .add 0 1] := by
  refine ⟨⟨⟨.pos, [2, 1]⟩, by decide⟩, fun s' h => ?_⟩
  have h' : s' = s.set 0 ⟨.pos, [2, 1]⟩ := by
    have := Option.some.inj h
    exact this.symm
  subst h'
  refine ⟨⟨⟨.pos, [3]⟩, by decide⟩, fun s' h => ?_⟩
  have h' : s' = (s.set 0 ⟨.pos, [2, 1]⟩).set 1 ⟨.pos, [3]⟩ := by
    have := Option.some.inj h
    exact this.symm
  subst h'
  refine ⟨⟨⟨.pos, [5, 1]⟩, ?_⟩, fun _ _ => trivial⟩
  show addAssign .base10 ⟨fun n => decide (n ≤ 2), true⟩ 9 ⟨.pos, [2, 1]⟩ (.other ⟨.pos, [3]⟩) = .ok ⟨.pos, [5, 1]⟩
  decide +kernel

end BN
