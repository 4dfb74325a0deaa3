import Verif.Props.Workaround
import Verif.Props.BuiltIn
import Verif.Props.Negation
/-
C151: an exact integer class on top of the library.  The clients' operations go round the faults that the other properties report: differences
as sums with the sign changed, products and quotients as in C139, the comparison of C148, literals as in C150; every result is stripped of
leading zeros and a zero is made `Bignum()`.  Programs with conditions and loops over them compute what they compute over the integers.
-/
namespace BN
open Bignum

/-! ### The operations -/

/-- `while (x.size() != 0 && x[x.size() - 1] == 0) x.pop_back();` -/
def strip : Nat → Bignum → Res Bignum
  | 0, _ => .error .timeout
  | k + 1, x =>
    if x.size = 0 then .ok x
    else do
      let d ← x.at_ (x.size - 1)
      if d = 0 then
        let y ← x.popBack
        strip k y
      else .ok x

/-- `strip(x); if (x.size() == 0) x.clear();` -/
def canon (x : Bignum) : Res Bignum := do
  let y ← strip (x.size + 1) x
  .ok (if y.size = 0 then y.clear else y)

/-- `canon(a + b)` -/
def safeAdd (L : Limits) (env : Env) (n : Nat) (a b : Bignum) : Res Bignum := do
  let c ← a.add L env n b
  canon c

/-- `c = b; if (c.size() != 0) c.setDescriptor(c.isNegative() ? BN_POS : BN_NEG);` -/
def safeNeg (env : Env) (b : Bignum) : Res Bignum := do
  let c ← b.copy env
  .ok (if c.size = 0 then c else c.setDescriptor (if c.isNegative then .pos else .neg))

/-- `canon(a + neg(b))` -/
def safeSub (L : Limits) (env : Env) (n : Nat) (a b : Bignum) : Res Bignum := do
  let c ← safeNeg env b
  safeAdd L env n a c

def safeMul (L : Limits) (env : Env) (n : Nat) (a b : Bignum) : Res Bignum := do
  let c ← slowMul L env n a b
  canon c

/-- `if (b.size() == 0) throw std::domain_error(...);` and then the quotient. -/
def safeQuo (L : Limits) (env : Env) (n : Nat) (a b : Bignum) : Res Bignum :=
  if b.size = 0 then .error (.exn .stdException)
  else do
    let c ← slowDiv L env n a b
    canon c.1

def safeRem (L : Limits) (env : Env) (n : Nat) (a b : Bignum) : Res Bignum :=
  if b.size = 0 then .error (.exn .stdException)
  else do
    let c ← slowDiv L env n a b
    canon c.2

/-! ### Programs -/

/-- The operations of a number class, as far as programs use them. -/
structure IntOps (V : Type) where
  lit : Int → Res V
  copy : V → Res V
  add : V → V → Res V
  sub : V → V → Res V
  mul : V → V → Res V
  quo : V → V → Res V
  rem : V → V → Res V
  lt : V → V → Res Bool
  eq : V → V → Res Bool

/-- The mathematical integers; dividing by zero throws. -/
def intArith : IntOps Int where
  lit z := .ok z
  copy a := .ok a
  add a b := .ok (a + b)
  sub a b := .ok (a - b)
  mul a b := .ok (a * b)
  quo a b := if b = 0 then .error (.exn .stdException) else .ok (a.tdiv b)
  rem a b := if b = 0 then .error (.exn .stdException) else .ok (a.tmod b)
  lt a b := .ok (decide (a < b))
  eq a b := .ok (decide (a = b))

/-- The class on top of the library. -/
def safeArith (L : Limits) (env : Env) (n : Nat) : IntOps Bignum where
  lit z := fromLL L env n ⟨cLL, z⟩
  copy a := a.copy env
  add := safeAdd L env n
  sub := safeSub L env n
  mul := safeMul L env n
  quo := safeQuo L env n
  rem := safeRem L env n
  lt := less
  eq := Bignum.eq

/-- Expressions; literals are of type `long long`. -/
inductive Ex where
  | lit (z : Int) (h : -2 ^ 63 ≤ z ∧ z < 2 ^ 63)
  | var (i : Nat)
  | add (a b : Ex)
  | sub (a b : Ex)
  | mul (a b : Ex)
  | quo (a b : Ex)
  | rem (a b : Ex)

inductive Test where
  | lt (a b : Ex)
  | eq (a b : Ex)
  | not (t : Test)
  | and (t u : Test)

inductive Cmd where
  | skip
  | assign (i : Nat) (e : Ex)
  | seq (p q : Cmd)
  | ite (t : Test) (p q : Cmd)
  | loop (t : Test) (p : Cmd)

def Ex.eval {V : Type} (A : IntOps V) (s : Nat → V) : Ex → Res V
  | .lit z _ => A.lit z
  | .var i => A.copy (s i)
  | .add a b => a.eval A s >>= fun x => b.eval A s >>= fun y => A.add x y
  | .sub a b => a.eval A s >>= fun x => b.eval A s >>= fun y => A.sub x y
  | .mul a b => a.eval A s >>= fun x => b.eval A s >>= fun y => A.mul x y
  | .quo a b => a.eval A s >>= fun x => b.eval A s >>= fun y => A.quo x y
  | .rem a b => a.eval A s >>= fun x => b.eval A s >>= fun y => A.rem x y

def Test.eval {V : Type} (A : IntOps V) (s : Nat → V) : Test → Res Bool
  | .lt a b => a.eval A s >>= fun x => b.eval A s >>= fun y => A.lt x y
  | .eq a b => a.eval A s >>= fun x => b.eval A s >>= fun y => A.eq x y
  | .not t => t.eval A s >>= fun b => .ok (!b)
  | .and t u => t.eval A s >>= fun b => if b then u.eval A s else .ok false

/-- Execution; `N` bounds the depth of statements and rounds of loops. -/
def Cmd.exec {V : Type} (A : IntOps V) : Nat → Cmd → (Nat → V) → Res (Nat → V)
  | 0, _, _ => .error .timeout
  | _ + 1, .skip, s => .ok s
  | _ + 1, .assign i e, s => e.eval A s >>= fun x => .ok (Function.update s i x)
  | N + 1, .seq p q, s => p.exec A N s >>= fun s => q.exec A N s
  | N + 1, .ite t p q, s => t.eval A s >>= fun b => if b then p.exec A N s else q.exec A N s
  | N + 1, .loop t p, s => t.eval A s >>= fun b => if b then p.exec A N s >>= fun s => (Cmd.loop t p).exec A N s else .ok s

/-! ### The operations are exact -/

theorem strip_ok {L : Limits} : ∀ (k : Nat) (x : Bignum), x.digits.length < k → InRange L.base x.digits →
    ∃ y : Bignum, strip k x = .ok y ∧ y.desc = x.desc ∧ Normal L y ∧ y.mag L = x.mag L
  | 0, _, h, _ => absurd h (by omega)
  | k + 1, x, hk, hr => by
    unfold strip
    by_cases h0 : x.digits = []
    · rw [if_pos (by unfold Bignum.size; rw [h0]; rfl)]
      exact ⟨x, rfl, rfl, ⟨hr, by rw [h0]; simp [NoLeadingZero]⟩, rfl⟩
    · have hl : x.digits.length ≠ 0 := by simpa using h0
      rw [if_neg (show ¬ x.size = 0 from hl)]
      have hat : x.at_ (x.size - 1) = .ok (x.digits.getLast h0) := by
        unfold at_ Bignum.size
        rw [if_pos (by omega), rd_eq (by omega), List.getLast_eq_getElem]
      rw [hat, ok_bind]
      by_cases hz : x.digits.getLast h0 = 0
      · rw [if_pos hz]
        have hp : x.popBack = .ok ⟨x.desc, x.digits.dropLast⟩ := by
          unfold Bignum.popBack Vec.popBack
          rw [if_neg h0]; rfl
        rw [hp, ok_bind]
        obtain ⟨y, h1, h2, h3, h4⟩ := strip_ok (L := L) k ⟨x.desc, x.digits.dropLast⟩ (by simp; omega)
          (fun d hd => hr d (List.mem_of_mem_dropLast hd))
        refine ⟨y, h1, h2, h3, ?_⟩
        rw [h4]
        unfold Bignum.mag
        conv_rhs => rw [← List.dropLast_append_getLast h0, hz, natOf_append, natOf_cons, natOf_nil]
        simp
      · rw [if_neg hz]
        refine ⟨x, rfl, rfl, ⟨hr, fun h => hz ?_⟩, rfl⟩
        rw [List.getLast?_eq_getLast_of_ne_nil h0] at h
        simpa using h

theorem canon_ok {L : Limits} {x : Bignum} (hx : Signed x.desc) (hr : InRange L.base x.digits) :
    ∃ y, canon x = .ok y ∧ Proper L y ∧ y.toInt L = x.toInt L := by
  obtain ⟨y, h1, h2, h3, h4⟩ := strip_ok (L := L) (x.size + 1) x (by unfold Bignum.size; omega) hr
  unfold canon
  rw [h1, ok_bind]
  refine ⟨_, rfl, ?_⟩
  split
  · rename_i h
    have h : y.digits = [] := List.length_eq_zero_iff.1 h
    refine ⟨⟨.inl rfl, ⟨by simp [InRange, Bignum.clear], by simp [NoLeadingZero, Bignum.clear]⟩, fun _ => rfl⟩, ?_⟩
    have hm : x.mag L = 0 := by rw [← h4]; unfold Bignum.mag; rw [h]; rfl
    unfold Bignum.toInt
    rw [hm]
    simp [Bignum.clear, Bignum.mag]
  · rename_i h
    have h : y.digits ≠ [] := fun e => h (by unfold Bignum.size; rw [e]; rfl)
    refine ⟨⟨h2 ▸ hx, h3, fun e => absurd e h⟩, ?_⟩
    unfold Bignum.toInt
    rw [h2, h4]

theorem Proper.wf {L : Limits} {a : Bignum} (h : Proper L a) : WF L a := ⟨h.1, h.2.1.1, .inl h.2.1.2⟩

theorem Evaluates.bind {α β : Type} {f : Nat → Res α} {a : α} {g : Nat → α → Res β} {r : Res β} (hf : Evaluates f (.ok a))
    (hg : Evaluates (fun n => g n a) r) : Evaluates (fun n => f n >>= g n) r := by
  obtain ⟨n1, h1⟩ := hf
  obtain ⟨n2, h2⟩ := hg
  refine ⟨max n1 n2, fun n hn => ?_⟩
  show f n >>= g n = r
  rw [h1 n (by omega), ok_bind]
  exact h2 n (by omega)

theorem evaluates_const {α : Type} (r : α) : Evaluates (fun _ => r) r := ⟨0, fun _ _ => rfl⟩

section
variable {L : Limits} {env : Env}

theorem safeAdd_ok (hL : Supported L) (hm : env.Ample) (hd : env.debug = false) {a b : Bignum} (ha : Proper L a) (hb : Proper L b) :
    ∃ c, Evaluates (fun n => safeAdd L env n a b) (.ok c) ∧ Proper L c ∧ c.toInt L = a.toInt L + b.toInt L := by
  obtain ⟨c, ⟨n₀, h1⟩, h2, h3⟩ := C09_add_exact hL hm hd (r := .other b) ha.wf hb.wf (by
    rintro ⟨h1, h2, h3⟩
    exact h1 ((ha.2.2 h2).trans (hb.2.2 h3).symm))
  obtain ⟨y, h4, h5, h6⟩ := canon_ok h2.1 h2.2.1
  refine ⟨y, ⟨n₀, fun n hn => ?_⟩, h5, h6.trans h3⟩
  show safeAdd L env n a b = .ok y
  unfold safeAdd Bignum.add viaCopy
  rw [copy_ok hm, ok_bind, show a.addAssign L env n (.other b) = .ok c from h1 n hn]
  exact h4

theorem safeNeg_ok (hm : env.Ample) {b : Bignum} (hb : Proper L b) : ∃ c, safeNeg env b = .ok c ∧ Proper L c ∧ c.toInt L = - b.toInt L := by
  unfold safeNeg
  rw [copy_ok hm, ok_bind]
  refine ⟨_, rfl, ?_⟩
  split
  · rename_i h
    have h : b.digits = [] := List.length_eq_zero_iff.1 h
    refine ⟨hb, ?_⟩
    have hm : b.mag L = 0 := by unfold Bignum.mag; rw [h]; rfl
    unfold Bignum.toInt
    rw [hm]
    simp
  · rename_i h
    have h : b.digits ≠ [] := fun e => h (by unfold Bignum.size; rw [e]; rfl)
    obtain ⟨h1, h2, h3, -, -⟩ := C91_negate L hb.1
    have hdig : (negate b).digits = b.digits := by rw [h1]; rfl
    refine ⟨⟨h2, ?_, fun e => absurd (hdig ▸ e) h⟩, h3⟩
    show InRange L.base (negate b).digits ∧ NoLeadingZero (negate b).digits
    rw [hdig]
    exact hb.2.1

theorem safeSub_ok (hL : Supported L) (hm : env.Ample) (hd : env.debug = false) {a b : Bignum} (ha : Proper L a) (hb : Proper L b) :
    ∃ c, Evaluates (fun n => safeSub L env n a b) (.ok c) ∧ Proper L c ∧ c.toInt L = a.toInt L - b.toInt L := by
  obtain ⟨nb, h1, h2, h3⟩ := safeNeg_ok hm hb
  obtain ⟨c, h4, h5, h6⟩ := safeAdd_ok hL hm hd ha h2
  refine ⟨c, ?_, h5, by rw [h6, h3]; ring⟩
  unfold safeSub
  simp only [h1, ok_bind]
  exact h4

theorem safeMul_ok (hL : Supported L) (hm : env.Ample) {a b : Bignum} (ha : Proper L a) (hb : Proper L b) :
    ∃ c, Evaluates (fun n => safeMul L env n a b) (.ok c) ∧ Proper L c ∧ c.toInt L = a.toInt L * b.toInt L := by
  obtain ⟨c, h1, h2, h3, h4, -⟩ := C139_product hL hm ha.1 hb.1 ha.2.1.1 hb.2.1.1
  have hs : Signed c.desc := by rw [h2]; unfold signRule; split <;> simp [Signed]
  obtain ⟨y, h5, h6, h7⟩ := canon_ok hs h3
  exact ⟨y, h1.bind (h5 ▸ evaluates_const _), h6, h7.trans h4⟩

theorem proper_zero {b : Bignum} (hb : Proper L b) : b.size = 0 ↔ b.toInt L = 0 := by
  constructor
  · intro h
    have h : b.digits = [] := List.length_eq_zero_iff.1 h
    unfold Bignum.toInt Bignum.mag
    rw [h]; simp
  · intro h
    by_contra h0
    have hp : 0 < b.mag L := natOf_pos_of_noLeadingZero (Nat.succ_pos _) hb.2.1.2 (fun e => h0 (by unfold Bignum.size; rw [e]; rfl))
    unfold Bignum.toInt at h
    split at h <;> omega

theorem safeDiv_ok (hL : Supported L) (hm : env.Ample) (hd : env.debug = false) {a b : Bignum} (ha : Proper L a) (hb : Proper L b)
    (h0 : b.toInt L ≠ 0) :
    ∃ q r, Evaluates (fun n => safeQuo L env n a b) (.ok q) ∧ Evaluates (fun n => safeRem L env n a b) (.ok r) ∧ Proper L q ∧ Proper L r ∧
      q.toInt L = (a.toInt L).tdiv (b.toInt L) ∧ r.toInt L = (a.toInt L).tmod (b.toInt L) := by
  obtain ⟨q, r, h1, h2, h3, h4, h5, -, -⟩ := C139_quotient hL hm hd ha.wf hb.wf h0
  obtain ⟨q', k1, k2, k3⟩ := canon_ok h2.1 h2.2.1
  obtain ⟨r', l1, l2, l3⟩ := canon_ok h3.1 h3.2.1
  have hs : ¬ b.size = 0 := fun e => h0 ((proper_zero hb).1 e)
  refine ⟨q', r', ?_, ?_, k2, l2, k3.trans h4, l3.trans h5⟩
  · simp only [safeQuo, hs, if_false]
    exact h1.bind (k1 ▸ evaluates_const _)
  · simp only [safeRem, hs, if_false]
    exact h1.bind (l1 ▸ evaluates_const _)

end

/-- C151: the operations are exact for all integers, in every digit type. -/
theorem C151_operations {L : Limits} (hL : Supported L) {env : Env} (hm : env.Ample) (hd : env.debug = false) {a b : Bignum} (ha : Proper L a)
    (hb : Proper L b) :
    (∃ c, Evaluates (fun n => safeAdd L env n a b) (.ok c) ∧ Proper L c ∧ c.toInt L = a.toInt L + b.toInt L) ∧
    (∃ c, Evaluates (fun n => safeSub L env n a b) (.ok c) ∧ Proper L c ∧ c.toInt L = a.toInt L - b.toInt L) ∧
    (∃ c, Evaluates (fun n => safeMul L env n a b) (.ok c) ∧ Proper L c ∧ c.toInt L = a.toInt L * b.toInt L) ∧
    (b.toInt L ≠ 0 → ∃ q r, Evaluates (fun n => safeQuo L env n a b) (.ok q) ∧ Evaluates (fun n => safeRem L env n a b) (.ok r) ∧
      Proper L q ∧ Proper L r ∧ q.toInt L = (a.toInt L).tdiv (b.toInt L) ∧ r.toInt L = (a.toInt L).tmod (b.toInt L)) ∧
    less a b = .ok (decide (a.toInt L < b.toInt L)) ∧ a.eq b = .ok (decide (a.toInt L = b.toInt L)) := by
  refine ⟨safeAdd_ok hL hm hd ha hb, safeSub_ok hL hm hd ha hb, safeMul_ok hL hm ha hb, safeDiv_ok hL hm hd ha hb, C148_less ha hb, ?_⟩
  obtain ⟨r, h1, h2⟩ := C01_eq_structural a b
  rw [h1]
  congr 1
  rw [Bool.eq_iff_iff, h2, decide_eq_true_eq]
  constructor
  · rintro ⟨k1, k2⟩
    have : a = b := by cases a; cases b; simp_all
    rw [this]
  · intro e
    rw [proper_ext ha hb e]
    exact ⟨rfl, rfl⟩

example := C151_operations (L := .base10) (.inr Sample.base10) Sample.ample rfl Sample.proper23 Sample.proper199

/-! ### Programs -/

/-- The run ends for all large budgets in the same way, and this way corresponds to `r`. -/
def Sim {α β : Type} (R : α → β → Prop) (f : Nat → Res α) (r : Res β) : Prop :=
  match r with
  | .ok b => ∃ a, Evaluates f (.ok a) ∧ R a b
  | .error e => Evaluates f (.error e)

theorem Sim.bind {α β γ δ : Type} {R : α → β → Prop} {Q : γ → δ → Prop} {f : Nat → Res α} {r : Res β} {g : Nat → α → Res γ} {k : β → Res δ}
    (h : Sim R f r) (hk : ∀ a b, R a b → Sim Q (fun n => g n a) (k b)) : Sim Q (fun n => f n >>= g n) (r >>= k) := by
  cases r with
  | ok b =>
    obtain ⟨a, h1, h2⟩ := h
    have h3 := hk a b h2
    show Sim Q _ (k b)
    cases hkb : k b with
    | ok d =>
      rw [hkb] at h3
      obtain ⟨c, h4, h5⟩ := h3
      exact ⟨c, h1.bind h4, h5⟩
    | error e =>
      rw [hkb] at h3
      exact Evaluates.bind h1 h3
  | error e =>
    obtain ⟨n₀, h⟩ := h
    refine ⟨n₀, fun n hn => ?_⟩
    show f n >>= g n = .error e
    rw [show f n = .error e from h n hn]
    rfl

theorem Sim.ok {α β : Type} {R : α → β → Prop} {a : α} {b : β} (h : R a b) : Sim R (fun _ => .ok a) (.ok b) := ⟨a, evaluates_const _, h⟩

/-- The object holds the integer. -/
def Represents (L : Limits) (x : Bignum) (z : Int) : Prop := Proper L x ∧ x.toInt L = z

section
variable {L : Limits} {env : Env}

theorem Ex.sim (hL : Supported L) (hm : env.Ample) (hd : env.debug = false) {s : Nat → Bignum} {v : Nat → Int}
    (hs : ∀ i, Represents L (s i) (v i)) : ∀ e : Ex, Sim (Represents L) (fun n => e.eval (safeArith L env n) s) (e.eval intArith v)
  | .lit z h => by
    obtain ⟨x, h1, h2, h3⟩ := C150_from hL hm h.1 h.2
    exact ⟨x, ⟨65, fun n hn => h1 n (by omega)⟩, h2, h3⟩
  | .var i => by
    refine ⟨s i, ⟨0, fun n _ => ?_⟩, hs i⟩
    exact copy_ok hm (s i)
  | .add a b => Sim.bind (Ex.sim hL hm hd hs a) fun x z hx => Sim.bind (Ex.sim hL hm hd hs b) fun y w hy => by
    obtain ⟨c, h1, h2, h3⟩ := safeAdd_ok hL hm hd hx.1 hy.1
    exact ⟨c, h1, h2, by rw [h3, hx.2, hy.2]⟩
  | .sub a b => Sim.bind (Ex.sim hL hm hd hs a) fun x z hx => Sim.bind (Ex.sim hL hm hd hs b) fun y w hy => by
    obtain ⟨c, h1, h2, h3⟩ := safeSub_ok hL hm hd hx.1 hy.1
    exact ⟨c, h1, h2, by rw [h3, hx.2, hy.2]⟩
  | .mul a b => Sim.bind (Ex.sim hL hm hd hs a) fun x z hx => Sim.bind (Ex.sim hL hm hd hs b) fun y w hy => by
    obtain ⟨c, h1, h2, h3⟩ := safeMul_ok hL hm hx.1 hy.1
    exact ⟨c, h1, h2, by rw [h3, hx.2, hy.2]⟩
  | .quo a b => Sim.bind (Ex.sim hL hm hd hs a) fun x z hx => Sim.bind (Ex.sim hL hm hd hs b) fun y w hy => by
    by_cases h0 : w = 0
    · have : y.size = 0 := (proper_zero hy.1).2 (hy.2.trans h0)
      simp only [intArith, h0, if_true, Sim]
      refine ⟨0, fun n _ => ?_⟩
      simp only [safeArith, safeQuo, this, if_true]
    · obtain ⟨q, r, h1, -, h2, -, h3, -⟩ := safeDiv_ok hL hm hd hx.1 hy.1 (hy.2 ▸ h0)
      simp only [intArith, h0, if_false, Sim]
      exact ⟨q, h1, h2, by rw [h3, hx.2, hy.2]⟩
  | .rem a b => Sim.bind (Ex.sim hL hm hd hs a) fun x z hx => Sim.bind (Ex.sim hL hm hd hs b) fun y w hy => by
    by_cases h0 : w = 0
    · have : y.size = 0 := (proper_zero hy.1).2 (hy.2.trans h0)
      simp only [intArith, h0, if_true, Sim]
      refine ⟨0, fun n _ => ?_⟩
      simp only [safeArith, safeRem, this, if_true]
    · obtain ⟨q, r, -, h1, -, h2, -, h3⟩ := safeDiv_ok hL hm hd hx.1 hy.1 (hy.2 ▸ h0)
      simp only [intArith, h0, if_false, Sim]
      exact ⟨r, h1, h2, by rw [h3, hx.2, hy.2]⟩

theorem Test.sim (hL : Supported L) (hm : env.Ample) (hd : env.debug = false) {s : Nat → Bignum} {v : Nat → Int}
    (hs : ∀ i, Represents L (s i) (v i)) : ∀ t : Test, Sim Eq (fun n => t.eval (safeArith L env n) s) (t.eval intArith v)
  | .lt a b => Sim.bind (Ex.sim hL hm hd hs a) fun x z hx => Sim.bind (Ex.sim hL hm hd hs b) fun y w hy =>
    ⟨_, ⟨0, fun _ _ => C148_less hx.1 hy.1⟩, by rw [hx.2, hy.2]⟩
  | .eq a b => Sim.bind (Ex.sim hL hm hd hs a) fun x z hx => Sim.bind (Ex.sim hL hm hd hs b) fun y w hy =>
    ⟨_, ⟨0, fun _ _ => (C151_operations hL hm hd hx.1 hy.1).2.2.2.2.2⟩, by rw [hx.2, hy.2]⟩
  | .not t => Sim.bind (Test.sim hL hm hd hs t) fun x z hx => by subst hx; exact Sim.ok rfl
  | .and t u => Sim.bind (Test.sim hL hm hd hs t) fun x z hx => by
    subst hx
    cases x
    · exact Sim.ok rfl
    · exact Test.sim hL hm hd hs u

theorem Cmd.sim (hL : Supported L) (hm : env.Ample) (hd : env.debug = false) : ∀ (N : Nat) (p : Cmd) {s : Nat → Bignum} {v : Nat → Int},
    (∀ i, Represents L (s i) (v i)) →
    Sim (fun s v => ∀ i, Represents L (s i) (v i)) (fun n => p.exec (safeArith L env n) N s) (p.exec intArith N v)
  | 0, _, _, _, _ => evaluates_const _
  | _ + 1, .skip, _, _, hs => Sim.ok hs
  | _ + 1, .assign i e, s, v, hs => Sim.bind (Ex.sim hL hm hd hs e) fun x z hx => Sim.ok fun j => by
    by_cases h : j = i
    · subst h; simpa using hx
    · simpa [Function.update_of_ne h] using hs j
  | N + 1, .seq p q, s, v, hs => Sim.bind (Cmd.sim hL hm hd N p hs) fun s' v' hs' => Cmd.sim hL hm hd N q hs'
  | N + 1, .ite t p q, s, v, hs => Sim.bind (Test.sim hL hm hd hs t) fun x z hx => by
    subst hx
    cases x
    · exact Cmd.sim hL hm hd N q hs
    · exact Cmd.sim hL hm hd N p hs
  | N + 1, .loop t p, s, v, hs => Sim.bind (Test.sim hL hm hd hs t) fun x z hx => by
    subst hx
    cases x
    · exact Sim.ok hs
    · exact Sim.bind (Cmd.sim hL hm hd N p hs) fun s' v' hs' => Cmd.sim hL hm hd N (.loop t p) hs'

end

/-- C151: a program over the class ends as the program over the integers: with the same values in the variables, with the same exception, or
not within `N`. -/
theorem C151_programs {L : Limits} (hL : Supported L) {env : Env} (hm : env.Ample) (hd : env.debug = false) (p : Cmd) {s : Nat → Bignum}
    {v : Nat → Int} (hs : ∀ i, Represents L (s i) (v i)) (N : Nat) :
    (∀ v', p.exec intArith N v = .ok v' →
      ∃ s', Evaluates (fun n => p.exec (safeArith L env n) N s) (.ok s') ∧ ∀ i, Represents L (s' i) (v' i)) ∧
    (∀ e, p.exec intArith N v = .error e → Evaluates (fun n => p.exec (safeArith L env n) N s) (.error e)) := by
  have h := Cmd.sim hL hm hd N p hs
  constructor
  · intro v' e
    rw [e] at h
    exact h
  · intro f e
    rw [e] at h
    exact h

/-- Euclid's algorithm, `while (!(x1 == 0)) { x2 = x0 % x1; x0 = x1; x1 = x2; }`. -/
def Sample.gcd : Cmd :=
  .loop (.not (.eq (.var 1) (.lit 0 (by norm_num)))) (.seq (.assign 2 (.rem (.var 0) (.var 1))) (.seq (.assign 0 (.var 1)) (.assign 1 (.var 2))))

/-- 199, -23, and -23 in all other variables. -/
def Sample.objects (i : Nat) : Bignum := if i = 0 then Sample.n199 else Sample.m23
def Sample.values (i : Nat) : Int := if i = 0 then 199 else -23

theorem Sample.represents (i : Nat) : Represents .base10 (Sample.objects i) (Sample.values i) := by
  unfold Sample.objects Sample.values
  split
  · exact ⟨Sample.proper199, by decide⟩
  · exact ⟨Sample.proper23, by decide⟩

example := C151_programs (L := .base10) (.inr Sample.base10) Sample.ample rfl Sample.gcd Sample.represents 9
example : (Sample.gcd.exec intArith 9 Sample.values).map (· 0) = .ok (-1) := by decide +kernel

/-- Ways in which a program over the integers can end. -/
def NoUB {α : Type} (r : Res α) : Prop := (∃ a, r = .ok a) ∨ r = .error (.exn .stdException) ∨ r = .error .timeout

theorem NoUB.bind {α β : Type} {r : Res α} {f : α → Res β} (h : NoUB r) (hf : ∀ a, NoUB (f a)) : NoUB (r >>= f) := by
  rcases h with ⟨a, rfl⟩ | rfl | rfl
  · exact hf a
  · exact .inr (.inl rfl)
  · exact .inr (.inr rfl)

theorem NoUB.ok {α : Type} (a : α) : NoUB (.ok a : Res α) := .inl ⟨a, rfl⟩

theorem Ex.noUB (v : Nat → Int) : ∀ e : Ex, NoUB (e.eval intArith v)
  | .lit _ _ => .ok _
  | .var _ => .ok _
  | .add a b => (Ex.noUB v a).bind fun _ => (Ex.noUB v b).bind fun _ => .ok _
  | .sub a b => (Ex.noUB v a).bind fun _ => (Ex.noUB v b).bind fun _ => .ok _
  | .mul a b => (Ex.noUB v a).bind fun _ => (Ex.noUB v b).bind fun _ => .ok _
  | .quo a b => (Ex.noUB v a).bind fun _ => (Ex.noUB v b).bind fun _ => by
    simp only [intArith]
    split
    · exact .inr (.inl rfl)
    · exact .ok _
  | .rem a b => (Ex.noUB v a).bind fun _ => (Ex.noUB v b).bind fun _ => by
    simp only [intArith]
    split
    · exact .inr (.inl rfl)
    · exact .ok _

theorem Test.noUB (v : Nat → Int) : ∀ t : Test, NoUB (t.eval intArith v)
  | .lt a b => (Ex.noUB v a).bind fun _ => (Ex.noUB v b).bind fun _ => .ok _
  | .eq a b => (Ex.noUB v a).bind fun _ => (Ex.noUB v b).bind fun _ => .ok _
  | .not t => (Test.noUB v t).bind fun _ => .ok _
  | .and t u => (Test.noUB v t).bind fun b => by
    cases b
    · exact .ok _
    · exact Test.noUB v u

theorem Cmd.noUB : ∀ (N : Nat) (p : Cmd) (v : Nat → Int), NoUB (p.exec intArith N v)
  | 0, _, _ => .inr (.inr rfl)
  | _ + 1, .skip, _ => .ok _
  | _ + 1, .assign _ e, v => (Ex.noUB v e).bind fun _ => .ok _
  | N + 1, .seq p q, v => (Cmd.noUB N p v).bind fun v' => Cmd.noUB N q v'
  | N + 1, .ite t p q, v => (Test.noUB v t).bind fun b => by
    cases b
    · exact Cmd.noUB N q v
    · exact Cmd.noUB N p v
  | N + 1, .loop t p, v => (Test.noUB v t).bind fun b => by
    cases b
    · exact .ok _
    · exact (Cmd.noUB N p v).bind fun v' => Cmd.noUB N (.loop t p) v'

/-- C151: no program over the class has undefined behaviour or ends with an exception of the library, and it ends normally exactly if the
program over the integers does. -/
theorem C151_safe {L : Limits} (hL : Supported L) {env : Env} (hm : env.Ample) (hd : env.debug = false) (p : Cmd) {s : Nat → Bignum}
    {v : Nat → Int} (hs : ∀ i, Represents L (s i) (v i)) :
    (∀ N, ∃ r, Evaluates (fun n => p.exec (safeArith L env n) N s) r ∧ NoUB r) ∧
    ((∃ N s', Evaluates (fun n => p.exec (safeArith L env n) N s) (.ok s')) ↔ ∃ N v', p.exec intArith N v = .ok v') := by
  constructor
  · intro N
    obtain ⟨h1, h2⟩ := C151_programs hL hm hd p hs N
    rcases Cmd.noUB N p v with ⟨v', e⟩ | e | e
    · obtain ⟨s', h, -⟩ := h1 v' e
      exact ⟨_, h, .ok _⟩
    · exact ⟨_, h2 _ e, .inr (.inl rfl)⟩
    · exact ⟨_, h2 _ e, .inr (.inr rfl)⟩
  · constructor
    · rintro ⟨N, s', n1, h⟩
      obtain ⟨h1, h2⟩ := C151_programs hL hm hd p hs N
      cases e : p.exec intArith N v with
      | ok v' => exact ⟨N, v', e⟩
      | error f =>
        obtain ⟨n2, h3⟩ := h2 f e
        have := (h (max n1 n2) (by omega)).symm.trans (h3 (max n1 n2) (by omega))
        cases this
    · rintro ⟨N, v', e⟩
      obtain ⟨s', h, -⟩ := (C151_programs hL hm hd p hs N).1 v' e
      exact ⟨N, s', h⟩

example := C151_safe (L := .base10) (.inr Sample.base10) Sample.ample rfl Sample.gcd Sample.represents

end BN
