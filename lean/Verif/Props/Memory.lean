import Verif.Lemmas.Samples
import Verif.Lemmas.Memory
import Verif.Props.Division
/-
C106, C107: little memory against more memory, how much storage the operators need, programs.
-/
namespace BN
open Bignum

theorem ExnSoft.full_ne {α : Type} {env : Env} {r : Res α} (h : ExnSoft env.full r) : r ≠ .error (.exn .badAlloc) := by
  intro hr
  rcases h _ hr with ⟨-, n, hn⟩ | ⟨h, -⟩
  · cases hn
  · cases h

theorem absSub_no_alloc (L : Limits) (env : Env) (n : Nat) (a : List Nat) (src : Src) :
    absSub L env n a src ≠ .error (.exn .badAlloc) := by
  rw [absSub_env env.le_full]; exact (soft_absSub L n a src).full_ne

/-- No failed allocation on the way. -/
def Roomy {α : Type} (r : Res α) : Prop := r ≠ .error (.exn .badAlloc)

theorem Roomy.bind {α β : Type} {r : Res α} {f : α → Res β} (h : Roomy r) (hf : ∀ x, r = .ok x → Roomy (f x)) :
    Roomy (r >>= f) := by
  cases r with
  | ok x => rw [ok_bind]; exact hf x rfl
  | error e => intro hc; rw [error_bind] at hc; exact h (by cases hc; rfl)

theorem Roomy.ok {α : Type} (x : α) : Roomy (.ok x) := by intro h; cases h

theorem Roomy.ite {α : Type} {p : Prop} [Decidable p] {a b : Res α} (h1 : p → Roomy a) (h2 : ¬ p → Roomy b) :
    Roomy (if p then a else b) := by
  by_cases hp : p
  · rw [if_pos hp]; exact h1 hp
  · rw [if_neg hp]; exact h2 hp

section
variable {e e' : Env} (he : e.Le e')

theorem roomy_copy {env : Env} {v : List Nat} (h : env.alloc v.length = true) : Roomy (Vec.copy env v) :=
  .ite (fun _ => .ok _) fun _ => by rw [if_pos h]; exact .ok _

theorem roomy_bcopy {env : Env} {b : Bignum} (h : env.alloc b.digits.length = true) : Roomy (b.copy env) :=
  .bind (roomy_copy h) fun _ _ => .ok _

/-- What the handlers make of it. -/
theorem handle_scarce {x : Bignum} {t : Desc} {d r : Res Bignum} (h : Scarce d r) :
    handle x t d = handle x t r ∨ handle x t d = .threw .stdException ⟨if t = .pos then .posInf else .negInf, []⟩ := by
  rcases h with rfl | rfl
  · exact .inl rfl
  · exact .inr rfl

/-! ### C106 -/

include he in
/-- More memory changes nothing but failures to allocate. For every operator, all operands (any digits, any descriptors,
aliased or not) and every budget: with less memory the operator ends exactly like with more memory, or throws a plain
`std::exception` leaving the infinity of the right operand's sign, without digits. -/
theorem C106_more_memory {F : Type} (o : FloatOps F) (L : Limits) (k : Arith) (n : Nat) (x : Bignum) (r : Rhs) :
    k.assign o L e n x r = k.assign o L e' n x r ∨
    k.assign o L e n x r = .threw .stdException ⟨.posInf, []⟩ ∨
    k.assign o L e n x r = .threw .stdException ⟨.negInf, []⟩ := by
  have ite : ∀ {p : Prop} [Decidable p] {a b c : Out},
      (b = c ∨ b = .threw .stdException ⟨.posInf, []⟩ ∨ b = .threw .stdException ⟨.negInf, []⟩) →
      ((if p then a else b) = (if p then a else c) ∨ (if p then a else b) = .threw .stdException ⟨.posInf, []⟩ ∨
        (if p then a else b) = .threw .stdException ⟨.negInf, []⟩) := by
    intro p _ a b c h
    by_cases hp : p
    · rw [if_pos hp, if_pos hp]; exact .inl rfl
    · rwa [if_neg hp, if_neg hp]
  have hd : ∀ {x : Bignum} {t : Desc} {d r : Res Bignum}, Scarce d r → (handle x t d = handle x t r ∨
      handle x t d = .threw .stdException ⟨.posInf, []⟩ ∨ handle x t d = .threw .stdException ⟨.negInf, []⟩) := by
    intro x t d r h
    rcases handle_scarce (x := x) (t := t) h with h | h
    · exact .inl h
    · rw [h]
      by_cases ht : t = .pos
      · rw [if_pos ht]; exact .inr (.inl rfl)
      · rw [if_neg ht]; exact .inr (.inr rfl)
  cases k with
  | add => exact ite (hd (scarce_addTry he L n x r))
  | sub => exact ite (hd (scarce_subTry he L n x r))
  | mul => exact ite (hd (.bind (scarce_mulStrassen he o L n _ _) fun _ => .refl _))
  | div => exact ite (ite (ite (ite (hd (scarce_divTry he L n _ _)))))

/-- Less memory never invents a result: what returns normally in little memory returns the same in more. -/
theorem C106_results_persist {F : Type} (o : FloatOps F) (L : Limits) (k : Arith) {e e' : Env} (he : e.Le e') {n : Nat} {x : Bignum}
    {r : Rhs} {b : Bignum} (h : k.assign o L e n x r = .ok b) : k.assign o L e' n x r = .ok b := by
  rcases C106_more_memory he o L k n x r with h1 | h1 | h1
  · rw [← h1, h]
  · rw [h] at h1; cases h1
  · rw [h] at h1; cases h1

example {F : Type} (o : FloatOps F) := C106_results_persist o .base10 .add (e := ⟨fun n => decide (n ≤ 4), false⟩) (e' := releaseEnv)
  ⟨fun _ _ => rfl, rfl⟩ (n := 9) (x := Sample.n199) (r := .other Sample.n1) (b := ⟨.pos, [0, 0, 2]⟩) rfl

end

/-- The most digits an operator has to store at once, for operands of `m` and `k` digits. -/
def storage : Arith → Nat → Nat → Nat
  | .add, m, k => max m k + 1
  | .sub, m, k => max m k
  | .mul, m, k => 2 * (m + k)
  | .div, m, _ => m + 1

theorem roomy_absAdd {L : Limits} (hL : Supported L) {env : Env} {x : Bignum} {r : Rhs} (hx : InRange L.base x.digits)
    (hr : InRange L.base (r.get x).digits) (hA : ∀ n, n ≤ max x.digits.length (r.get x).digits.length + 1 → env.alloc n = true)
    (n : Nat) : Roomy (absAdd L env n x.digits r.src) := by
  have hg : r.src.get x.digits = (r.get x).digits := by cases r <;> rfl
  intro hbad
  have h1 : absAdd L env (n + (max x.digits.length (r.get x).digits.length + 1)) x.digits r.src = .error (.exn .badAlloc) := by
    have := mono_absAdd L env x.digits r.src n (n + (max x.digits.length (r.get x).digits.length + 1)) (by omega)
      (by simp only [hbad]; intro h; cases h)
    simp only [hbad] at this
    exact this
  have h2 := addFull_length hL.base_ge hx hr (c := 0) (by omega)
  rw [absAdd_ok hL env hx (by rwa [hg]) (by rw [hg]; omega) (fun m _ hm => hA m (by rw [hg] at hm; omega))] at h1
  cases h1

theorem roomy_subs {L : Limits} {env : Env} {x y : Bignum} {n : Nat} {src : Src} (hA : ∀ n, n ≤ max x.digits.length y.digits.length → env.alloc n = true)
    (t : Desc) : Roomy (do
      if ← absGe x.digits y.digits then
        let d ← absSub L env n x.digits src
        Except.ok (⟨x.desc, d⟩ : Bignum)
      else
        let tempNum ← y.copy env
        let d ← absSub L env n tempNum.digits (.other x.digits)
        .ok ⟨t, d⟩) :=
  .bind (soft_absGe (env := env.full) _ _).full_ne fun _ _ => .ite
    (fun _ => .bind (absSub_no_alloc _ _ _ _ _) fun _ _ => .ok _)
    (fun _ => .bind (roomy_bcopy (hA _ (by omega))) fun _ _ => .bind (absSub_no_alloc _ _ _ _ _) fun _ _ => .ok _)

theorem eq_full_of_roomy {env : Env} {α : Type} {f : Env → Res α} (h : Scarce (f env) (f env.full)) (hr : Roomy (f env)) :
    f env = f env.full := h.resolve_right hr

/-- Addition needs no more than one digit beyond the longer operand: where that much can be had, it ends as with
unlimited memory, in release and debug builds, at every budget. -/
theorem C106_add_storage {L : Limits} (hL : Supported L) {env : Env} {x : Bignum} {r : Rhs} (hx : InRange L.base x.digits)
    (hr : InRange L.base (r.get x).digits)
    (hA : ∀ m, m ≤ storage .add x.digits.length (r.get x).digits.length → env.alloc m = true) (n : Nat) :
    addAssign L env n x r = addAssign L ⟨fun _ => true, env.debug⟩ n x r := by
  have key : addTry L env n x r = addTry L env.full n x r := by
    refine (scarce_addTry env.le_full L n x r).resolve_right ?_
    have hs : ∀ m, m ≤ max x.digits.length (r.get x).digits.length → env.alloc m = true := fun m hm => hA m (by simp only [storage]; omega)
    unfold addTry
    exact Roomy.ite (fun _ => .bind (roomy_absAdd hL hx hr hA n) fun _ _ => .ok _) fun _ =>
      .ite (fun _ => roomy_subs hs _) fun _ => .ite (fun _ => roomy_subs hs _) fun _ =>
        .bind (roomy_absAdd hL hx hr hA n) fun _ _ => .ok _
  unfold addAssign
  rw [key]; rfl

example := C106_add_storage (L := .base10) (.inr Sample.base10) (env := ⟨fun n => decide (n ≤ 4), false⟩) (x := Sample.n199)
  (r := .other Sample.m23) (by sample) (by sample) (by decide)

/-- Subtraction needs no more than a copy of the longer operand. -/
theorem C106_sub_storage (L : Limits) {env : Env} {x : Bignum} {r : Rhs}
    (hA : ∀ m, m ≤ storage .sub x.digits.length (r.get x).digits.length → env.alloc m = true) (n : Nat) :
    subAssign L env n x r = subAssign L ⟨fun _ => true, env.debug⟩ n x r := by
  have key : subTry L env n x r = subTry L env.full n x r := by
    refine (scarce_subTry env.le_full L n x r).resolve_right ?_
    have hs : ∀ m, m ≤ max x.digits.length (r.get x).digits.length → env.alloc m = true := hA
    have hc : ∀ g : Bool, Roomy (Vec.copy env (if g = true then x.digits else (r.get x).digits)) := by
      intro g; cases g
      · exact roomy_copy (hs _ (by simp))
      · exact roomy_copy (hs _ (by simp))
    have opp : Roomy (do
        let g ← absGt x.digits (r.get x).digits
        let temp ← Vec.copy env (if g then x.digits else (r.get x).digits)
        let temp ← absSub L env n temp (.other (r.get x).digits)
        Except.ok (⟨x.desc, temp⟩ : Bignum)) :=
      .bind (soft_absGt (env := env.full) _ _).full_ne fun g _ => .bind (hc g) fun _ _ =>
        .bind (absSub_no_alloc _ _ _ _ _) fun _ _ => .ok _
    unfold subTry
    exact Roomy.ite (fun _ => roomy_subs hs _) fun _ => .ite (fun _ => opp) fun _ => .ite (fun _ => opp) fun _ => roomy_subs hs _
  unfold subAssign
  rw [key]; rfl

example := C106_sub_storage .base10 (env := ⟨fun n => decide (n ≤ 4), false⟩) (x := Sample.n199) (r := .other Sample.m23) (by decide)

/-- Multiplication needs fewer than twice as many elements as both operands have digits together. -/
theorem C106_mul_storage {F : Type} (o : FloatOps F) (L : Limits) {env : Env} {x : Bignum} {r : Rhs}
    (hlen : x.digits.length + (r.get x).digits.length ≤ 2 ^ 32)
    (hA : ∀ m, m ≤ storage .mul x.digits.length (r.get x).digits.length → env.alloc m = true) (n : Nat) :
    mulAssign o L env n x r = mulAssign o L ⟨fun _ => true, env.debug⟩ n x r := by
  have hsz : fftTableSize x.digits.length (r.get x).digits.length ≤ 2 * (x.digits.length + (r.get x).digits.length) := by
    rcases Nat.eq_zero_or_pos (x.digits.length + (r.get x).digits.length) with h0 | h0
    · rw [show x.digits.length = 0 by omega, show (r.get x).digits.length = 0 by omega]; decide
    · obtain ⟨k, -, h1, -, h2⟩ := fftTableSize_eq h0 hlen
      omega
  have key : mulStrassen o L env n x.digits (r.get x).digits = mulStrassen o L env.full n x.digits (r.get x).digits := by
    unfold mulStrassen
    rw [if_neg (by simpa using hA _ hsz), if_neg (by simp [Env.full])]
    have hres : ∀ (v : List Nat) (z : Nat), Vec.resize env v (v.length - z) 0 = Vec.resize env.full v (v.length - z) 0 := by
      intro v z; unfold Vec.resize; rw [if_pos (by omega), if_pos (by omega)]
    simp only [hres]
  unfold mulAssign
  simp only [key]
  rfl

example {F : Type} (o : FloatOps F) := C106_mul_storage o .base10 (env := ⟨fun n => decide (n ≤ 10), false⟩) (x := Sample.n199)
  (r := .other Sample.m23) (by decide) (by decide)

/-- Division in a custom base needs no more than one digit beyond the dividend, whatever the divisor (which must have
digits, see `C106_empty_divisor`). -/
theorem C106_div_storage {L : Limits} (hL : Custom L) {env : Env} {x : Bignum} {r : Rhs} (hx : WF L x) (hr : WF L (r.get x))
    (hne : (r.get x).digits ≠ [])
    (hA : ∀ m, m ≤ storage .div x.digits.length (r.get x).digits.length → env.alloc m = true) (n : Nat) :
    divAssign L env n x r = divAssign L ⟨fun _ => true, env.debug⟩ n x r := by
  have hB := hL.supported.base_ge
  by_cases h0 : (r.get x).digits = [0]
  · rw [divAssign_by_zero hx.1 h0, divAssign_by_zero hx.1 h0]
  by_cases h1 : (r.get x).digits = [1]
  · rw [divAssign_by_one hx.1 h1, divAssign_by_one hx.1 h1]
  by_cases hxe : x.digits = []
  · unfold divAssign; simp [hxe]
  by_cases hx0 : x.digits = [0]
  · unfold divAssign; simp [hx0, isOneDigit]
  rw [divAssign_general hx.1 h0 h1 hxe hx0, divAssign_general hx.1 h0 h1 hxe hx0]
  congr 1
  refine (scarce_divTry env.le_full L n _ _).resolve_right ?_
  refine Roomy.bind (soft_absGt (env := env.full) _ _).full_ne fun g _ => .ite (fun _ => .bind ?_ fun _ _ => .ok _) fun _ => .ok _
  exact fit_absDiv hL hA ⟨hr.2.1, hr.2.2.resolve_right h0, hne⟩ hx.2.1 (hx.2.2.resolve_right hx0) n

example := C106_div_storage (L := .base10) Sample.base10 (env := ⟨fun n => decide (n ≤ 4), false⟩) (x := Sample.n199)
  (r := .other Sample.m23) (by sample) (by sample) (by simp [Rhs.get]) (by decide)

/-- Exactly when the sum of two numbers of the same sign fails: the allocator refuses a size above the left operand's
up to the size of the sum. -/
theorem C106_add_throws_iff {L : Limits} (hL : Supported L) {env : Env} {x : Bignum} {r : Rhs} (hs : Signed x.desc)
    (hd : (r.get x).desc = x.desc) (hx : WFDigits L.base x.digits) (hr : WFDigits L.base (r.get x).digits) {c : Bignum}
    (hc : Evaluates (fun n => addAssign L ⟨fun _ => true, env.debug⟩ n x r) (.ok c)) :
    (Evaluates (fun n => addAssign L env n x r) (.threw .stdException ⟨if x.desc = .pos then .posInf else .negInf, []⟩) ↔
      ∃ m, x.size < m ∧ m ≤ c.size ∧ env.alloc m = false) ∧
    (Evaluates (fun n => addAssign L env n x r) (.ok c) ↔ ∀ m, x.size < m → m ≤ c.size → env.alloc m = true) := by
  have hg : r.src.get x.digits = (r.get x).digits := by cases r <;> rfl
  have hf : ∀ n, max x.digits.length (r.get x).digits.length + 1 ≤ n →
      max x.digits.length (r.src.get x.digits).length < n := by intro n hn; rw [hg]; omega
  have hS : InRange L.base (r.src.get x.digits) := by rw [hg]; exact hr.1
  have hcv : c = ⟨x.desc, addFull L.base x.digits (r.src.get x.digits) 0⟩ := by
    obtain ⟨n₀, h⟩ := hc
    have h1 := h (n₀ + (max x.digits.length (r.get x).digits.length + 1)) (by omega)
    simp only [addAssign_signed hs, addTry_same hs hd] at h1
    rw [absAdd_ok hL _ hx.1 hS (hf _ (by omega)) (fun _ _ _ => rfl), ok_bind] at h1
    simpa [handle] using h1.symm
  have hsz : c.size = (addFull L.base x.digits (r.src.get x.digits) 0).length := by rw [hcv]; rfl
  rw [hsz]
  have good : (∀ m, x.size < m → m ≤ (addFull L.base x.digits (r.src.get x.digits) 0).length → env.alloc m = true) →
      Evaluates (fun n => addAssign L env n x r) (.ok c) := fun hall => ⟨max x.digits.length (r.get x).digits.length + 1, fun n hn => by
    show addAssign L env n x r = _
    rw [addAssign_signed hs, addTry_same hs hd, absAdd_ok hL _ hx.1 hS (hf _ hn) hall, ok_bind, hcv]; rfl⟩
  have bad : (∃ m, x.size < m ∧ m ≤ (addFull L.base x.digits (r.src.get x.digits) 0).length ∧ env.alloc m = false) →
      Evaluates (fun n => addAssign L env n x r) (.threw .stdException ⟨if x.desc = .pos then .posInf else .negInf, []⟩) :=
    fun hex => ⟨max x.digits.length (r.get x).digits.length + 1, fun n hn => by
      show addAssign L env n x r = _
      rw [addAssign_signed hs, addTry_same hs hd, absAdd_fail hL _ hx.1 hS (hf _ hn) hex, hd]; rfl⟩
  have excl : ¬ (Evaluates (fun n => addAssign L env n x r) (.ok c) ∧
      Evaluates (fun n => addAssign L env n x r) (.threw .stdException ⟨if x.desc = .pos then .posInf else .negInf, []⟩)) := by
    rintro ⟨⟨n, h1⟩, ⟨m, h2⟩⟩
    have := (h1 (max n m) (by omega)).symm.trans (h2 (max n m) (by omega))
    cases this
  refine ⟨⟨fun h => ?_, bad⟩, ⟨fun h => ?_, good⟩⟩
  · by_contra hn
    exact excl ⟨good fun m h1 h2 => by by_contra h3; exact hn ⟨m, h1, h2, by simpa using h3⟩, h⟩
  · intro m h1 h2
    by_contra h3
    exact excl ⟨h, bad ⟨m, h1, h2, by simpa using h3⟩⟩

/-- The size of sums that need no storage beyond the left operand: 17 + 5 in base 10 with no memory at all. -/
example : addAssign .base10 ⟨fun _ => false, false⟩ 5 ⟨.pos, [7, 1]⟩ (.other ⟨.pos, [5]⟩) = .ok ⟨.pos, [2, 2]⟩ ∧
    addAssign .base10 ⟨fun n => decide (n ≤ 2), false⟩ 5 ⟨.pos, [7, 9]⟩ (.other ⟨.pos, [5]⟩) = .threw .stdException ⟨.posInf, []⟩ := by
  decide +kernel

example : WF .base10 ⟨.pos, [1, 5]⟩ ∧ WF .base10 ⟨.neg, [7]⟩ ∧
    (∀ m, m ≤ storage .div 2 1 → (⟨fun n => decide (n ≤ 3), false⟩ : Env).alloc m = true) ∧
    divAssign .base10 ⟨fun n => decide (n ≤ 3), false⟩ 60 ⟨.pos, [1, 5]⟩ (.other ⟨.neg, [7]⟩) = .ok ⟨.neg, [7]⟩ := by
  refine ⟨?_, ?_, fun m hm => by simpa [storage] using hm, by decide +kernel⟩ <;>
    simp [WF, Signed, WFDigits, InRange, NoLeadingZero, Limits.base, Limits.base10, Limits.custom]

/-! ### Division by the zero without digits, in finite memory -/

theorem shl_cases {L : Limits} (h : Custom L) (env : Env) {l : List Nat} (hl : InRange L.base l) {N : Nat} (hN : env.alloc N = false)
    (hlt : l.length < N) : (shiftLeft1 L env l = .ok (addRest L.base l l 0) ∧ (addRest L.base l l 0).length < N) ∨
      shiftLeft1 L env l = .error (.exn .badAlloc) := by
  unfold shiftLeft1
  by_cases h0 : l = []
  · subst h0; rw [if_pos rfl]; left; exact ⟨by simp [addRest], by simpa [addRest] using hlt⟩
  · rw [if_neg h0]
    obtain ⟨l', c', h1, h2, h3, h4⟩ := shlLoop_eq h l 0 hl (by omega)
    have e : L.toSingle 0 = L.sgl 0 := toSingle_small h.supported (n := 0) (by omega)
    rw [e, h1, ok_bind]
    simp only [sgl_truthy]
    by_cases hc : c' = 0
    · subst hc; simp only [ne_eq, not_true_eq_false, decide_false, Bool.false_eq_true, if_false]
      left; rw [h4]; exact ⟨by simp, by simp; omega⟩
    · simp only [ne_eq, hc, not_false_eq_true, decide_true, if_true]
      rw [min_plus_one h, ok_bind, store_sgl_one h]
      unfold Vec.pushBack
      by_cases ha : env.alloc (l'.length + 1) = true
      · rw [if_pos ha]; left
        rw [h4, if_neg hc]
        refine ⟨rfl, ?_⟩
        have : l'.length + 1 ≠ N := by rintro rfl; rw [ha] at hN; cases hN
        simp; omega
      · rw [if_neg ha]; exact .inr rfl

theorem search_empty_fails {L : Limits} (h : Custom L) (env : Env) {N : Nat} (hN : env.alloc N = false) (n : List Nat) :
    ∀ (fuel : Nat) (q : List Nat), NZ L.base q → q.length < N → L.base ^ N ≤ natOf L.base q * 2 ^ fuel →
      loopWhile (fun t => absGe n t.bsrch1) (searchBody L env) fuel ⟨[], [], q⟩ = .error (.exn .badAlloc)
  | 0, q, hq, hlt, hp => by
    have := natOf_lt hq.rng
    have h2 : L.base ^ q.length ≤ L.base ^ N := Nat.pow_le_pow_right (by have := h.supported.base_ge; omega) (by omega)
    rw [pow_zero] at hp; omega
  | fuel + 1, q, hq, hlt, hp => by
    rw [loopWhile]
    have hge : absGe n [] = .ok true := by
      by_cases h0 : n = []
      · subst h0; rfl
      · unfold absGe; rw [if_pos (by simpa using List.length_pos_iff.2 h0)]
    simp only [hge, ok_bind, if_true]
    have hb : searchBody L env ⟨[], [], q⟩ = (do let q' ← shiftLeft1 L env q; Except.ok (⟨[], [], q'⟩ : SearchSt)) := by
      unfold searchBody Vec.copy shiftLeft1; rfl
    rw [hb]
    rcases shl_cases h env hq.rng hN hlt with ⟨h1, h2⟩ | h1
    · rw [h1, ok_bind, ok_bind]
      obtain ⟨g1, g2⟩ := hq.double h.supported.base_ge
      exact search_empty_fails h env hN n fuel _ g1 h2 (by rw [g2, Nat.mul_comm 2, Nat.mul_assoc, ← pow_succ']; exact hp)
    · rw [h1]; rfl

/-- In a program whose memory is finite (some size is refused), dividing a non-zero number by the zero without digits
never returns a number and does not hang for ever either: the search doubles its probe until the memory is used up, and
the operator then throws `std::exception` and leaves an infinity whose sign is the divisor's. -/
theorem C106_empty_divisor {L : Limits} (h : Custom L) {env : Env} {N : Nat} (hN0 : 0 < N) (hN : env.alloc N = false) {a b : Bignum}
    (ha : Signed a.desc) (hne : a.digits ≠ []) (hne0 : a.digits ≠ [0]) (h0 : b.digits = []) :
    Evaluates (fun n => divAssign L env n a (.other b)) (.threw .stdException ⟨if b.desc = .pos then .posInf else .negInf, []⟩) := by
  refine ⟨L.base ^ N + 1, fun n hn => ?_⟩
  show divAssign L env n a (.other b) = _
  rw [divAssign_general (r := .other b) ha (by show b.digits ≠ _; simp [h0]) (by show b.digits ≠ _; simp [h0]) hne hne0]
  have hg : absGt a.digits [] = .ok true := by
    unfold absGt; rw [if_pos (by simpa using List.length_pos_iff.2 hne)]
  have e : (Rhs.get (.other b) a).digits = [] := h0
  unfold divTry
  rw [e]
  simp only [hg, ok_bind, if_true]
  have key : absDiv L env n a.digits [] = .error (.exn .badAlloc) := by
    unfold absDiv
    rw [zero_store h.supported]
    by_cases h1 : env.alloc 1 = true
    · have hN1 : N ≠ 1 := by rintro rfl; rw [h1] at hN; cases hN
      have hc : Vec.copy env [0] = .ok [0] := by unfold Vec.copy; rw [if_neg (by simp), if_pos (show env.alloc [0].length = true from h1)]
      rw [hc, ok_bind]
      obtain ⟨m, rfl⟩ : ∃ m, n = m + 1 := ⟨n - 1, by omega⟩
      rw [loopWhile]
      have hge : absGe a.digits [] = .ok true := by
        unfold absGe; rw [if_pos (by simpa using List.length_pos_iff.2 hne)]
      simp only [hge, ok_bind, if_true]
      have hb : divBody L env (m + 1) [] ⟨a.digits, [0]⟩ = .error (.exn .badAlloc) := by
        unfold divBody
        rw [one_store h]
        have c0 : Vec.copy env [] = .ok [] := by unfold Vec.copy; rw [if_pos rfl]
        have c1 : Vec.copy env [1] = .ok [1] := by unfold Vec.copy; rw [if_neg (by simp), if_pos (show env.alloc [1].length = true from h1)]
        have s0 : shiftLeft1 L env [] = .ok [] := by unfold shiftLeft1; rw [if_pos rfl]
        simp only [c0, c1, s0, ok_bind]
        rw [search_empty_fails h env hN a.digits (m + 1) [1] ⟨?_, by simp [NoLeadingZero], by simp⟩ (by simp; omega) ?_]
        · rfl
        · intro x hx; simp at hx; have := h.supported.base_ge; omega
        · simp only [natOf_cons, natOf_nil, Nat.mul_zero, Nat.add_zero, Nat.one_mul]
          calc L.base ^ N ≤ m + 1 := by omega
            _ ≤ 2 ^ (m + 1) := Nat.le_of_lt Nat.lt_two_pow_self
      rw [hb]; rfl
    · have hc : Vec.copy env [0] = .error (.exn .badAlloc) := by unfold Vec.copy; rw [if_neg (by simp), if_neg (show ¬ env.alloc [0].length = true from h1)]
      rw [hc]; rfl
  rw [key]
  rfl

/-- Five by the zero that 3 - 3 leaves, in base 10 with room for three digits. -/
example : divAssign .base10 ⟨fun n => decide (n ≤ 3), false⟩ 40 ⟨.pos, [5]⟩ (.other ⟨.pos, []⟩) = .threw .stdException ⟨.posInf, []⟩ := by
  decide +kernel

/-! ### C107 -/

/-- The statement returns without an exception. -/
def Op.Returns {F : Type} (o : FloatOps F) (L : Limits) (env : Env) (fuel : Nat) (s : Store) : Op → Prop
  | .make _ d l => ∃ b, Bignum.ofList env d l = .ok b
  | .copy i j => i = j ∨ ∃ b, Bignum.copyAssign env (s i) (s j) = .ok b
  | .resize i n digit => ∃ b, (s i).resize env n digit = .ok b
  | .pushFront i digit => ∃ b, (s i).pushFront env digit = .ok b
  | .pushBack i digit => ∃ b, (s i).pushBack env digit = .ok b
  | .push i digit pos => ∃ b, (s i).push env digit pos = .ok b
  | .arith k i j => ∃ b, k.assign o L env fuel (s i) (rhsOf s i j) = .ok b
  | .binary k _ j l => ∃ b, k.binary o L env fuel (s j) (s l) = .ok b
  | _ => True

/-- Every statement that may ask for storage returns without an exception. -/
def ReturningRun {F : Type} (o : FloatOps F) (L : Limits) (fuel : Nat) : (Nat → Env) → Store → List Op → Prop
  | _, _, [] => True
  | env, s, op :: ops => op.Returns o L (env 0) fuel s ∧
    ∀ s', op.step o L (env 0) fuel s = some s' → ReturningRun o L fuel (fun k => env (k + 1)) s' ops

theorem Scarce.ok_persists {α : Type} {d r : Res α} (h : Scarce d r) {b : α} (hd : d = .ok b) : r = .ok b := by
  rcases h with rfl | h
  · exact hd
  · rw [hd] at h; cases h

theorem step_returns {F : Type} {o : FloatOps F} {L : Limits} {e e' : Env} (he : e.Le e') {n : Nat} {s : Store} {op : Op}
    (h : op.Returns o L e n s) : op.step o L e' n s = op.step o L e n s := by
  cases op with
  | make i d l =>
    obtain ⟨b, hb⟩ := h
    have hs : Scarce (Bignum.ofList e d l) (Bignum.ofList e' d l) :=
      .ite (.refl _) (.bind (scarce_resize he _ _ _) fun _ => .refl _)
    simp only [Op.step]
    rw [hb, hs.ok_persists hb]
  | copy i j =>
    simp only [Op.step]
    rcases h with rfl | ⟨b, hb⟩
    · rw [if_pos rfl, if_pos rfl]
    · by_cases hij : i = j
      · rw [if_pos hij, if_pos hij]
      rw [if_neg hij, if_neg hij]
      congr 1
      unfold copyAssign at hb ⊢
      cases hc : Vec.copy e (s j).digits with
      | ok d => rw [(scarce_vcopy he _).ok_persists hc]
      | error f => rw [hc] at hb; rcases f with k | x | _ <;> cases hb
  | resize i m d =>
    obtain ⟨b, hb⟩ := h
    have hs : Scarce ((s i).resize e m d) ((s i).resize e' m d) := .bind (scarce_resize he _ _ _) fun _ => .refl _
    simp only [Op.step]
    rw [hb, hs.ok_persists hb]
  | pushFront i d =>
    obtain ⟨b, hb⟩ := h
    have hs : Scarce ((s i).pushFront e d) ((s i).pushFront e' d) := .bind (scarce_insert he _ _ _) fun _ => .refl _
    simp only [Op.step]
    rw [hb, hs.ok_persists hb]
  | pushBack i d =>
    obtain ⟨b, hb⟩ := h
    have hs : Scarce ((s i).pushBack e d) ((s i).pushBack e' d) := .bind (scarce_pushBack he _ _) fun _ => .refl _
    simp only [Op.step]
    rw [hb, hs.ok_persists hb]
  | push i d p =>
    obtain ⟨b, hb⟩ := h
    have hs : Scarce ((s i).push e d p) ((s i).push e' d p) := .bind (scarce_insert he _ _ _) fun _ => .refl _
    simp only [Op.step]
    rw [hb, hs.ok_persists hb]
  | arith k i j =>
    obtain ⟨b, hb⟩ := h
    simp only [Op.step]
    rw [hb, C106_results_persist o L k he hb]
  | binary k i j l =>
    obtain ⟨b, hb⟩ := h
    have : k.binary o L e' n (s j) (s l) = .ok b := by
      unfold Arith.binary viaCopy at hb ⊢
      cases hc : (s j).copy e with
      | error f => rw [hc] at hb; cases hb
      | ok z =>
        rw [hc, ok_bind] at hb
        rw [(scarce_copy he _).ok_persists hc, ok_bind]
        cases hz : k.assign o L e n z (.other (s l)) with
        | ok c => rw [C106_results_persist o L k he hz]; rw [hz] at hb; exact hb
        | threw f c => rw [hz] at hb; cases hb
        | ub u => rw [hz] at hb; cases hb
        | timeout => rw [hz] at hb; cases hb
    simp only [Op.step]
    rw [hb, this]
  | _ => rfl

/-- A program that runs through without an exception in little memory ends with exactly the same objects in more memory:
for every program, store, digit type, build and budget, the two allocators being arbitrary and changing from statement to
statement. -/
theorem C107_more_memory_same_objects {F : Type} (o : FloatOps F) (L : Limits) (n : Nat) : ∀ (ops : List Op) (e e' : Nat → Env) (s : Store),
    (∀ k, (e k).Le (e' k)) → ReturningRun o L n e s ops → run o L n e' s ops = run o L n e s ops
  | [], _, _, _, _, _ => rfl
  | op :: ops, e, e', s, he, ⟨h1, h2⟩ => by
    rw [run, run, step_returns (he 0) h1]
    cases hs : op.step o L (e 0) n s with
    | none => rfl
    | some s' => exact C107_more_memory_same_objects o L n ops _ _ s' (fun k => he (k + 1)) (h2 s' hs)

/-- Without the hypothesis it fails: a caught failure changes the objects. -/
theorem C107_failures_matter : ∃ (e e' : Env) (s : Store), e.Le e' ∧ ∀ {F : Type} (o : FloatOps F), ∃ s₁ s₂,
    run o .base10 9 (fun _ => e) s [.arith .add 0 1] = some s₁ ∧ run o .base10 9 (fun _ => e') s [.arith .add 0 1] = some s₂ ∧
    s₁ 0 = ⟨.posInf, []⟩ ∧ s₂ 0 = ⟨.pos, [4, 1]⟩ := by
  refine ⟨⟨fun n => decide (n ≤ 1), false⟩, ⟨fun _ => true, false⟩, fun i => if i = 0 then ⟨.pos, [9]⟩ else ⟨.pos, [5]⟩,
    ⟨fun _ _ => rfl, rfl⟩, fun o => ?_⟩
  have h1 : addAssign .base10 ⟨fun n => decide (n ≤ 1), false⟩ 9 ⟨.pos, [9]⟩ (.other ⟨.pos, [5]⟩) = .threw .stdException ⟨.posInf, []⟩ := by
    decide +kernel
  have h2 : addAssign .base10 ⟨fun _ => true, false⟩ 9 ⟨.pos, [9]⟩ (.other ⟨.pos, [5]⟩) = .ok ⟨.pos, [4, 1]⟩ := by decide +kernel
  refine ⟨Store.set (fun i => if i = 0 then ⟨.pos, [9]⟩ else ⟨.pos, [5]⟩) 0 ⟨.posInf, []⟩,
    Store.set (fun i => if i = 0 then ⟨.pos, [9]⟩ else ⟨.pos, [5]⟩) 0 ⟨.pos, [4, 1]⟩, ?_, ?_, by simp [Store.set], by simp [Store.set]⟩
  · simp [run, Op.step, Arith.assign, rhsOf, h1, Out.store]
  · simp [run, Op.step, Arith.assign, rhsOf, h2, Out.store]

/-- A program that runs through: 9 - 5 needs no storage, then a copy and a `push_back` within two digits. -/
example {F : Type} (o : FloatOps F) : ReturningRun o .base10 9 (fun _ => ⟨fun n => decide (n ≤ 2), false⟩)
    (fun i => if i = 0 then ⟨.pos, [9]⟩ else ⟨.pos, [5]⟩) [.arith .sub 0 1, .copy 2 0, .pushBack 2 7] := by
  have e1 : subAssign .base10 ⟨fun n => decide (n ≤ 2), false⟩ 9 ⟨.pos, [9]⟩ (.other ⟨.pos, [5]⟩) = .ok ⟨.pos, [4]⟩ := by
    decide +kernel
  refine ⟨⟨_, e1⟩, fun s' hs => ⟨?_, fun s'' hs' => ⟨?_, fun _ _ => trivial⟩⟩⟩
  · have h1 : (subAssign .base10 ⟨fun n => decide (n ≤ 2), false⟩ 9 ⟨.pos, [9]⟩ (.other ⟨.pos, [5]⟩)).store
      (fun i => if i = 0 then ⟨.pos, [9]⟩ else ⟨.pos, [5]⟩) 0 = some s' := hs
    rw [e1] at h1; cases h1
    exact .inr ⟨⟨.pos, [4]⟩, by decide +kernel⟩
  · have h1 : (subAssign .base10 ⟨fun n => decide (n ≤ 2), false⟩ 9 ⟨.pos, [9]⟩ (.other ⟨.pos, [5]⟩)).store
      (fun i => if i = 0 then ⟨.pos, [9]⟩ else ⟨.pos, [5]⟩) 0 = some s' := hs
    rw [e1] at h1; cases h1
    cases hs'
    exact ⟨⟨.pos, [4, 7]⟩, by decide +kernel⟩

end BN
