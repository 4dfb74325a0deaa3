import Verif.Model.Cost
import Verif.Lemmas.Halts
import Verif.Lemmas.Mono
/-
The counting versions compute the same as the functions they count, and bounds for their steps.
-/
namespace BN
open Bignum

namespace Counted
variable {α β : Type}

@[simp] theorem res_pure (a : α) : (pure a : Counted α).res = .ok a := rfl
@[simp] theorem steps_pure (a : α) : (pure a : Counted α).steps = 0 := rfl
@[simp] theorem res_charge (n : Nat) (r : Res α) : (charge n r).res = r := rfl
@[simp] theorem steps_charge (n : Nat) (r : Res α) : (charge n r).steps = n := rfl

@[simp] theorem res_bind (x : Counted α) (f : α → Counted β) : (x >>= f).res = x.res >>= fun a => (f a).res := by
  obtain ⟨r, n⟩ := x
  cases r <;> rfl

theorem bind_ok {x : Counted α} {a : α} (h : x.res = .ok a) (f : α → Counted β) :
    (x >>= f) = ⟨(f a).res, x.steps + (f a).steps⟩ := by
  obtain ⟨r, n⟩ := x
  simp only at h
  subst h
  rfl

theorem bind_error {x : Counted α} {e : Fault} (h : x.res = .error e) (f : α → Counted β) : (x >>= f) = ⟨.error e, x.steps⟩ := by
  obtain ⟨r, n⟩ := x
  simp only at h
  subst h
  rfl

@[simp] theorem res_ite {p : Prop} [Decidable p] (x y : Counted α) : (if p then x else y).res = if p then x.res else y.res := by
  split <;> rfl

end Counted

theorem res_forever {σ : Type} (body : σ → Counted (σ × Bool)) : ∀ (n : Nat) (s : σ),
    (loopForeverC body n s).res = loopForever (fun s => (body s).res) n s
  | 0, _ => rfl
  | n + 1, s => by
    rw [loopForeverC, loopForever, Counted.res_bind]
    congr 1
    funext p
    rw [Counted.res_ite, Counted.res_pure, res_forever body n]

theorem res_while {σ : Type} (cond : σ → Counted Bool) (body : σ → Counted σ) : ∀ (n : Nat) (s : σ),
    (loopWhileC cond body n s).res = loopWhile (fun s => (cond s).res) (fun s => (body s).res) n s
  | 0, _ => rfl
  | n + 1, s => by
    rw [loopWhileC, loopWhile, Counted.res_bind]
    congr 1
    funext b
    rw [Counted.res_ite, Counted.res_bind, Counted.res_pure]
    simp only [res_while cond body n]

section
variable (w : Weights)

theorem res_scan (f : Nat → Nat → Option Bool) (d : Bool) (a b : List Nat) (loop : Nat → Res Bool) (h0 : loop 0 = .ok d)
    (h1 : ∀ i, loop (i + 1) = do
      let x ← Vec.rd a i
      let y ← Vec.rd b i
      match f x y with
      | some r => .ok r
      | none => loop i) : ∀ i, (scanC w f d a b i).res = loop i
  | 0 => h0.symm
  | i + 1 => by
    rw [scanC, h1, Counted.res_bind]
    congr 1
    funext x
    rw [Counted.res_bind]
    congr 1
    funext y
    cases f x y with
    | some r => rfl
    | none => exact res_scan f d a b loop h0 h1 i

theorem res_absEq (a b : List Nat) : (absEqC w a b).res = absEq a b := by
  unfold absEqC absEq
  rw [Counted.res_ite]
  congr 1
  refine res_scan w _ _ _ _ (eqLoop a b) rfl (fun i => ?_) _
  rw [eqLoop]
  refine congrArg _ (funext fun x => congrArg _ (funext fun y => ?_))
  by_cases h : x = y <;> simp [h]

theorem res_absGt (a b : List Nat) : (absGtC w a b).res = absGt a b := by
  unfold absGtC absGt
  rw [Counted.res_ite, Counted.res_ite]
  congr 2
  refine res_scan w _ _ _ _ (gtLoop a b) rfl (fun i => ?_) _
  rw [gtLoop]
  refine congrArg _ (funext fun x => congrArg _ (funext fun y => ?_))
  by_cases h : x > y <;> simp [h]

theorem res_absGe (a b : List Nat) : (absGeC w a b).res = absGe a b := by
  unfold absGeC absGe
  rw [Counted.res_ite, Counted.res_ite]
  congr 2
  refine res_scan w _ _ _ _ (geLoop a b) rfl (fun i => ?_) _
  rw [geLoop]
  refine congrArg _ (funext fun x => congrArg _ (funext fun y => ?_))
  by_cases h : x > y
  · simp [h]
  · by_cases h' : x < y <;> simp [h, h']

theorem res_absLt (a b : List Nat) : (absLtC w a b).res = absLt a b := by
  unfold absLtC absLt
  rw [Counted.res_ite, Counted.res_ite]
  congr 2
  refine res_scan w _ _ _ _ (ltLoop a b) rfl (fun i => ?_) _
  rw [ltLoop]
  refine congrArg _ (funext fun x => congrArg _ (funext fun y => ?_))
  by_cases h : x < y <;> simp [h]

theorem res_absLe (a b : List Nat) : (absLeC w a b).res = absLe a b := by
  unfold absLeC absLe
  rw [Counted.res_ite, Counted.res_ite]
  congr 2
  refine res_scan w _ _ _ _ (leLoop a b) rfl (fun i => ?_) _
  rw [leLoop]
  refine congrArg _ (funext fun x => congrArg _ (funext fun y => ?_))
  by_cases h : x < y
  · simp [h]
  · by_cases h' : x > y <;> simp [h, h']

theorem res_copy (env : Env) (v : List Nat) : (copyC w env v).res = Vec.copy env v := rfl

theorem res_absAdd (L : Limits) (env : Env) (n : Nat) (a : List Nat) (src : Src) :
    (absAddC w L env n a src).res = absAdd L env n a src := by
  unfold absAddC absAdd
  rw [Counted.res_bind, res_forever]
  rfl

theorem res_popZeros (v : List Nat) : ∀ i, (popZerosC w v i).res = popZeros v i := by
  intro i
  induction i generalizing v with
  | zero => rfl
  | succ i ih =>
    rw [popZerosC, popZeros, Counted.res_bind]
    refine congrArg _ (funext fun d => ?_)
    rw [Counted.res_ite, Counted.res_bind]
    simp only [ih, Counted.res_charge, Counted.res_pure]

theorem res_subDebugCheck (env : Env) (a b : List Nat) : (subDebugCheckC w env a b).res = subDebugCheck env a b := by
  unfold subDebugCheckC subDebugCheck
  simp only [Counted.res_ite, Counted.res_bind, res_absLt, Counted.res_charge, Counted.res_pure]

theorem res_absSub (L : Limits) (env : Env) (n : Nat) (a : List Nat) (src : Src) :
    (absSubC w L env n a src).res = absSub L env n a src := by
  unfold absSubC absSub
  simp only [Counted.res_bind, Counted.res_charge, res_subDebugCheck, res_forever, res_popZeros]
  rfl

theorem res_searchBody (L : Limits) (env : Env) (s : SearchSt) : (searchBodyC w L env s).res = searchBody L env s := by
  unfold searchBodyC searchBody
  simp only [Counted.res_bind, res_copy, shiftLeft1C, Counted.res_charge, Counted.res_pure]

theorem res_divBody (L : Limits) (env : Env) (n : Nat) (dv : List Nat) (s : DivSt) :
    (divBodyC w L env n dv s).res = divBody L env n dv s := by
  unfold divBodyC divBody
  simp only [Counted.res_bind, res_copy, shiftLeft1C, Counted.res_charge, Counted.res_pure, res_while, res_absGe, res_searchBody,
    res_absSub, Counted.res_ite, res_absAdd]

theorem res_absDiv (L : Limits) (env : Env) (n : Nat) (a b : List Nat) : (absDivC w L env n a b).res = absDiv L env n a b := by
  unfold absDivC absDiv
  simp only [Counted.res_bind, res_copy, Counted.res_pure, res_while, res_absGe, res_divBody]

variable {F : Type} (o : FloatOps F)

theorem res_fft : ∀ (n : Nat) (x : List (Cx F)), (fftComplexC w o n x).res = fftComplex o n x
  | 0, _ => rfl
  | n + 1, x => by
    rw [fftComplexC, fftComplex]
    simp only [Counted.res_ite, Counted.res_bind, Counted.res_charge, res_fft n]

theorem res_ifft (n : Nat) (x : List (Cx F)) : (ifftComplexC w o n x).res = ifftComplex o n x := by
  unfold ifftComplexC ifftComplex
  simp only [Counted.res_bind, Counted.res_charge, res_fft]
  rfl

theorem res_convolute (n : Nat) (x : List (Cx F)) : (convoluteFftC w o n x).res = convoluteFft o n x := by
  unfold convoluteFftC convoluteFft
  simp only [Counted.res_bind, Counted.res_charge, res_fft]
  rfl

theorem res_topZeros (ret : List Nat) : ∀ i n, (countTopZerosC w ret i n).res = countTopZeros ret i n := by
  intro i
  induction i with
  | zero => intro n; rfl
  | succ i ih =>
    intro n
    rw [countTopZerosC, countTopZeros]
    simp only [Counted.res_ite, Counted.res_bind, Counted.res_charge, Counted.res_pure, ih]

theorem res_mulStrassen (L : Limits) (env : Env) (n : Nat) (a b : List Nat) :
    (mulStrassenC w o L env n a b).res = mulStrassen o L env n a b := by
  unfold mulStrassenC mulStrassen
  simp only [Counted.res_ite, Counted.res_bind, Counted.res_charge, res_convolute, res_ifft, res_topZeros]

theorem res_bignumCopy (env : Env) (x : Bignum) : (Bignum.copyC w env x).res = x.copy env := by
  unfold Bignum.copyC Bignum.copy
  rw [Counted.res_bind]
  rfl

theorem res_addTry (L : Limits) (env : Env) (n : Nat) (x : Bignum) (r : Rhs) :
    (addTryC w L env n x r).res = addTry L env n x r := by
  unfold addTryC addTry diffC
  simp only [Counted.res_ite, Counted.res_bind, Counted.res_pure, res_absAdd, res_absGe, res_absSub, res_bignumCopy]

theorem res_subTry (L : Limits) (env : Env) (n : Nat) (x : Bignum) (r : Rhs) :
    (subTryC w L env n x r).res = subTry L env n x r := by
  unfold subTryC subTry diffC tempDiffC
  simp only [Counted.res_ite, Counted.res_bind, Counted.res_pure, res_absGt, res_absGe, res_absSub, res_bignumCopy, res_copy]

theorem res_divTry (L : Limits) (env : Env) (n : Nat) (x : Bignum) (b : List Nat) :
    (divTryC w L env n x b).res = divTry L env n x b := by
  unfold divTryC divTry
  simp only [Counted.res_ite, Counted.res_bind, Counted.res_pure, res_absGt, res_absDiv]

theorem res_assign (L : Limits) (env : Env) (n : Nat) (k : Arith) (x : Bignum) (r : Rhs) :
    (k.assignC w o L env n x r).1 = k.assign o L env n x r := by
  unfold Arith.assignC
  cases k with
  | add =>
    simp only [Arith.work, res_addTry, Arith.assign, addAssign]
    split <;> rfl
  | sub =>
    simp only [Arith.work, res_subTry, Arith.assign, subAssign]
    split <;> rfl
  | mul =>
    simp only [Arith.work, Counted.res_bind, res_mulStrassen, Counted.res_pure, Arith.assign, mulAssign]
    split <;> rfl
  | div =>
    simp only [Arith.work, res_divTry, Arith.assign, divAssign]
    split_ifs <;> rfl

theorem res_binary (L : Limits) (env : Env) (n : Nat) (k : Arith) (x y : Bignum) :
    (k.binaryC w o L env n x y).res = k.binary o L env n x y := by
  unfold Arith.binaryC Arith.binary viaCopy
  rw [Counted.res_bind, res_bignumCopy]
  refine congrArg _ (funext fun c => ?_)
  simp only [Counted.res_charge, res_assign]
  cases k.assign o L env n c (.other y) <;> rfl

end

theorem res_cmp (w : Weights) (c : Cmp) (a b : Bignum) : (c.runC w a b).res = c.run a b := by
  cases c <;> simp only [Cmp.runC, Cmp.run, Bignum.eq, Bignum.ne, Bignum.gt, Bignum.ge, Bignum.lt, Bignum.le, Counted.res_ite,
    Counted.res_pure, Counted.res_bind, res_absEq, res_absGt, res_absGe, res_absLt, res_absLe]

/-! ### Bounds -/

/-- At most `N` steps, however the computation ends; a result satisfies `P`. -/
def Within {α : Type} (x : Counted α) (N : Nat) (P : α → Prop) : Prop := x.steps ≤ N ∧ Keeps x.res P

namespace Within
variable {α β : Type}

theorem bind {x : Counted α} {f : α → Counted β} {N M : Nat} {P : α → Prop} {Q : β → Prop} (h : Within x N P)
    (hf : ∀ a, P a → Within (f a) M Q) : Within (x >>= f) (N + M) Q := by
  cases hx : x.res with
  | error e =>
    rw [Counted.bind_error hx]
    exact ⟨by have := h.1; simp only; omega, .error⟩
  | ok a =>
    rw [Counted.bind_ok hx]
    have := hf a (h.2 a hx)
    exact ⟨Nat.add_le_add h.1 this.1, this.2⟩

theorem charge {r : Res α} {n N : Nat} (h : n ≤ N) {P : α → Prop} (hr : Keeps r P) : Within (charge n r) N P := ⟨h, hr⟩

theorem pure {a : α} {N : Nat} {P : α → Prop} (h : P a) : Within (Pure.pure a : Counted α) N P := ⟨Nat.zero_le _, .ok h⟩

theorem mono {x : Counted α} {N M : Nat} {P Q : α → Prop} (h : Within x N P) (hN : N ≤ M) (hPQ : ∀ a, P a → Q a) : Within x M Q :=
  ⟨h.1.trans hN, h.2.mono hPQ⟩

theorem ite {p : Prop} [Decidable p] {x y : Counted α} {N : Nat} {P : α → Prop} (hx : p → Within x N P) (hy : ¬ p → Within y N P) :
    Within (if p then x else y) N P := by
  split
  · exact hx ‹_›
  · exact hy ‹_›

theorem le {x : Counted α} {N M : Nat} {P : α → Prop} (h : Within x N P) (hN : N ≤ M) : Within x M P := ⟨h.1.trans hN, h.2⟩

end Within

theorem keeps_true {α : Type} (r : Res α) : Keeps r (fun _ => True) := fun _ _ => trivial

/-- A bounded number of executions of a body with bounded cost. -/
theorem forever_le {σ : Type} {body : σ → Counted (σ × Bool)} {c : Nat} (hb : ∀ s, (body s).steps ≤ c) :
    ∀ (n : Nat) (s : σ), (loopForeverC body n s).steps ≤ c * n
  | 0, _ => Nat.le_refl _
  | n + 1, s => by
    rw [loopForeverC]
    cases hx : (body s).res with
    | error e => rw [Counted.bind_error hx]; have := hb s; simp only [Nat.mul_succ]; omega
    | ok p =>
      rw [Counted.bind_ok hx]
      simp only
      have h1 := hb s
      split
      · simp only [Counted.steps_pure, Nat.mul_succ]; omega
      · have := forever_le hb n p.1
        simp only [Nat.mul_succ]; omega

/-- Fuel beyond the end of the loop is not used. -/
theorem forever_stable {σ : Type} {body : σ → Counted (σ × Bool)} : ∀ (n m : Nat) (s : σ), n ≤ m →
    (loopForeverC body n s).res ≠ .error .timeout → loopForeverC body m s = loopForeverC body n s
  | 0, _, _, _, h => absurd rfl h
  | n + 1, 0, _, hm, _ => by omega
  | n + 1, m + 1, s, hm, h => by
    rw [loopForeverC] at h ⊢
    rw [loopForeverC]
    cases hx : (body s).res with
    | error e => rw [Counted.bind_error hx, Counted.bind_error hx]
    | ok p =>
      rw [Counted.bind_ok hx] at h ⊢
      rw [Counted.bind_ok hx]
      simp only at h ⊢
      split
      · rfl
      · rw [if_neg ‹_›] at h
        rw [forever_stable n m p.1 (by omega) h]

theorem forever_halts {σ : Type} {body : σ → Counted (σ × Bool)} {c N : Nat} (hb : ∀ s, (body s).steps ≤ c) {s : σ}
    (h : loopForever (fun s => (body s).res) N s ≠ .error .timeout) (n : Nat) : (loopForeverC body n s).steps ≤ c * N := by
  rcases Nat.le_total n N with h1 | h1
  · exact (forever_le hb n s).trans (Nat.mul_le_mul_left c h1)
  · rw [forever_stable N n s h1 (by rw [res_forever]; exact h)]
    exact forever_le hb N s

theorem inv_forever {σ : Type} {body : σ → Res (σ × Bool)} {I : σ → Prop} (h : ∀ s, I s → Keeps (body s) (fun p => I p.1)) :
    ∀ (n : Nat) (s : σ), I s → Keeps (loopForever body n s) I
  | 0, _, _ => .error
  | n + 1, s, hs => by
    rw [loopForever]
    refine .bind (h s hs) fun p hp => ?_
    obtain ⟨s', brk⟩ := p
    cases brk
    · exact inv_forever h n s' hp
    · exact .ok hp

section
variable (w : Weights)

theorem scan_le (f : Nat → Nat → Option Bool) (d : Bool) (a b : List Nat) : ∀ i, (scanC w f d a b i).steps ≤ w.digit * i
  | 0 => Nat.le_refl _
  | i + 1 => by
    have : Within (scanC w f d a b (i + 1)) (w.digit + (0 + w.digit * i)) (fun _ => True) := by
      rw [scanC]
      refine .bind (.charge le_rfl (keeps_true _)) fun x _ => .bind (.charge le_rfl (keeps_true _)) fun y _ => ?_
      split
      · exact .pure trivial
      · exact ⟨scan_le f d a b i, keeps_true _⟩
    have := this.1
    rw [Nat.mul_succ]
    omega

theorem absEq_le (a b : List Nat) : (absEqC w a b).steps ≤ w.digit * min a.length b.length := by
  unfold absEqC
  split_ifs with h
  · exact Nat.zero_le _
  · refine (scan_le w _ _ a b _).trans (Nat.mul_le_mul_left _ ?_)
    omega
theorem absGt_le (a b : List Nat) : (absGtC w a b).steps ≤ w.digit * min a.length b.length := by
  unfold absGtC
  split_ifs with h h'
  · exact Nat.zero_le _
  · exact Nat.zero_le _
  · exact (scan_le w _ _ a b _).trans (Nat.mul_le_mul_left _ (by omega))
theorem absGe_le (a b : List Nat) : (absGeC w a b).steps ≤ w.digit * min a.length b.length := by
  unfold absGeC
  split_ifs with h h'
  · exact Nat.zero_le _
  · exact Nat.zero_le _
  · exact (scan_le w _ _ a b _).trans (Nat.mul_le_mul_left _ (by omega))
theorem absLt_le (a b : List Nat) : (absLtC w a b).steps ≤ w.digit * min a.length b.length := by
  unfold absLtC
  split_ifs with h h'
  · exact Nat.zero_le _
  · exact Nat.zero_le _
  · exact (scan_le w _ _ a b _).trans (Nat.mul_le_mul_left _ (by omega))
theorem absLe_le (a b : List Nat) : (absLeC w a b).steps ≤ w.digit * min a.length b.length := by
  unfold absLeC
  split_ifs with h h'
  · exact Nat.zero_le _
  · exact Nat.zero_le _
  · exact (scan_le w _ _ a b _).trans (Nat.mul_le_mul_left _ (by omega))

theorem cmp_le (c : Cmp) (a b : Bignum) : (c.runC w a b).steps ≤ w.digit * min a.digits.length b.digits.length := by
  have h1 := absEq_le w a.digits b.digits
  have h2 := absGt_le w a.digits b.digits
  have h3 := absGe_le w a.digits b.digits
  have h4 := absLt_le w a.digits b.digits
  have h5 := absLe_le w a.digits b.digits
  cases c <;> simp only [Cmp.runC] <;> split_ifs <;> first | exact Nat.zero_le _ | assumption | skip
  exact (Within.bind ⟨h1, keeps_true _⟩ fun _ _ => (Within.pure trivial : Within _ 0 (fun _ => True))).1.trans (by omega)

theorem absAdd_le {L : Limits} (h : Supported L) (env : Env) (n : Nat) (out : List Nat) (src : Src) :
    (absAddC w L env n out src).steps ≤ w.digit * (max out.length (src.get out).length + 1) := by
  unfold absAddC
  have hh := halts_absAdd h env (fuel := max out.length (src.get out).length + 1) (out := out) (src := src) (by omega)
  have h1 : loopForever (addBody L env src) (max out.length (src.get out).length + 1) ⟨out, 0, 0, L.toSingle 0⟩ ≠ .error .timeout := by
    intro hc
    apply hh.1
    unfold absAdd
    rw [hc]
    rfl
  have h2 := forever_halts (body := fun s => charge w.digit (addBody L env src s)) (c := w.digit) (fun _ => le_rfl) h1 n
  exact (Within.bind ⟨h2, keeps_true _⟩ fun _ _ => (Within.pure trivial : Within _ 0 (fun _ => True))).1

theorem popZeros_le (v : List Nat) : ∀ i, (popZerosC w v i).steps ≤ w.digit * i := by
  intro i
  induction i generalizing v with
  | zero => exact Nat.le_refl _
  | succ i ih =>
    have : Within (popZerosC w v (i + 1)) (w.digit + (0 + w.digit * i)) (fun _ => True) := by
      rw [popZerosC]
      refine .bind (.charge le_rfl (keeps_true _)) fun d _ => .ite (fun _ => ?_) (fun _ => .pure trivial)
      exact .bind (.charge le_rfl (keeps_true _)) fun v' _ => ⟨ih v', keeps_true _⟩
    have := this.1
    rw [Nat.mul_succ]
    omega

theorem inv_subBody (L : Limits) (src : Src) (N : Nat) (s : SubSt) (hs : s.larger.length = N) :
    Keeps (subBody L src s) (fun p => p.1.larger.length = N) := by
  unfold subBody
  refine .bind (keeps_true _) fun i _ => .bind (keeps_true _) fun o _ => .bind (keeps_true _) fun p _ => ?_
  refine .bind (P := fun l => l.length = N) ?_ fun l hl => .ok hl
  unfold Vec.wr
  split
  · exact .ok (by simpa using hs)
  · exact .error

theorem check_le (env : Env) (a b : List Nat) :
    (subDebugCheckC w env a b).steps ≤ if env.debug = true then w.digit * min a.length b.length else 0 := by
  unfold subDebugCheckC
  split
  · split
    · exact Nat.zero_le _
    · refine (Within.bind (N := w.digit * min a.length b.length) (M := 0) (P := fun _ => True) (Q := fun _ => True)
        ⟨absLt_le w a b, keeps_true _⟩ fun r _ => .ite (fun _ => .charge le_rfl (keeps_true _)) (fun _ => .pure trivial)).1.trans (by omega)
  · exact Nat.zero_le _

theorem absSub_le (L : Limits) (env : Env) (n : Nat) (a : List Nat) (src : Src) :
    (absSubC w L env n a src).steps ≤
      w.sub + (if env.debug = true then w.digit * min a.length (src.get a).length else 0) + w.digit * (2 * a.length + 1) := by
  unfold absSubC
  have h1 : ∀ c, subDebugCheck env a (src.get a) = .ok c →
      loopForever (subBody L src) (a.length + 1) ⟨a, 0, 0, L.toDouble 0⟩ ≠ .error .timeout := by
    intro c hc h
    apply (halts_absSub L env (fuel := a.length + 1) (a := a) src (by omega)).1
    unfold absSub
    rw [hc, ok_bind, h]
    rfl
  have key : Within (do
      charge w.sub (.ok ())
      subDebugCheckC w env a (src.get a)
      let s ← loopForeverC (fun s => charge w.digit (subBody L src s)) n ⟨a, 0, 0, L.toDouble 0⟩
      popZerosC w s.larger s.larger.length) (w.sub + ((if env.debug = true then w.digit * min a.length (src.get a).length else 0) +
        (w.digit * (a.length + 1) + w.digit * a.length))) (fun _ => True) := by
    refine .bind (P := fun _ => True) (.charge le_rfl (keeps_true _)) fun _ _ => ?_
    refine .bind (P := fun c => subDebugCheck env a (src.get a) = .ok c) ⟨check_le w _ _ _, fun c hc => ?_⟩ fun c hc => ?_
    · rw [res_subDebugCheck] at hc; exact hc
    · refine .bind (P := fun s => s.larger.length = a.length)
        ⟨forever_halts (body := fun s => charge w.digit (subBody L src s)) (c := w.digit) (fun _ => le_rfl) (h1 c hc) n, ?_⟩ fun s hs => ?_
      · rw [res_forever]
        exact inv_forever (I := fun s => s.larger.length = a.length) (fun s hs => inv_subBody L src _ s hs) n ⟨a, 0, 0, L.toDouble 0⟩ rfl
      · exact ⟨(popZeros_le w _ _).trans (by rw [hs]), keeps_true _⟩
  refine key.1.trans (le_of_eq ?_)
  ring

theorem absSub_le' (L : Limits) (env : Env) (n : Nat) (a : List Nat) (src : Src) :
    (absSubC w L env n a src).steps ≤ w.sub + w.digit * (min a.length (src.get a).length + 2 * a.length + 1) := by
  refine (absSub_le w L env n a src).trans ?_
  rw [show w.digit * (min a.length (src.get a).length + 2 * a.length + 1) =
    w.digit * min a.length (src.get a).length + w.digit * (2 * a.length + 1) by ring]
  split <;> omega

theorem diff_le (L : Limits) (env : Env) (n : Nat) (x : Bignum) (r : Rhs) (d : Desc) :
    (diffC w L env n x r d).steps ≤ w.sub + w.digit * (5 * max x.digits.length (r.get x).digits.length + 1) := by
  unfold diffC
  have hsrc : r.src.get x.digits = (r.get x).digits := by cases r <;> rfl
  have key : Within (do
      if ← absGeC w x.digits (r.get x).digits then
        let ds ← absSubC w L env n x.digits r.src
        Pure.pure (⟨x.desc, ds⟩ : Bignum)
      else
        let tempNum ← Bignum.copyC w env (r.get x)
        let ds ← absSubC w L env n tempNum.digits (.other x.digits)
        Pure.pure ⟨d, ds⟩)
      (w.digit * min x.digits.length (r.get x).digits.length +
        (w.digit * max x.digits.length (r.get x).digits.length +
          (w.sub + w.digit * (min x.digits.length (r.get x).digits.length + 2 * max x.digits.length (r.get x).digits.length + 1) + 0)))
      (fun _ => True) := by
    refine .bind ⟨absGe_le w _ _, keeps_true _⟩ fun g _ => ?_
    refine .ite (fun _ => ?_) (fun _ => ?_)
    · refine Within.le (N := w.sub + w.digit * (min x.digits.length (r.get x).digits.length + 2 * max x.digits.length (r.get x).digits.length + 1) + 0)
        (.bind ⟨(absSub_le' w L env n x.digits r.src).trans ?_, keeps_true _⟩ fun _ _ => .pure trivial) (Nat.le_add_left _ _)
      rw [hsrc]
      exact Nat.add_le_add_left (Nat.mul_le_mul_left _ (by omega)) _
    · refine .bind (P := fun t => t.digits = (r.get x).digits) ?_ fun t ht => ?_
      · unfold Bignum.copyC
        refine Within.le (N := w.digit * (r.get x).digits.length + 0)
          (.bind (P := fun l => l = (r.get x).digits) (.charge le_rfl ?_) fun l hl => .pure (by rw [hl]))
          (by rw [Nat.add_zero]; exact Nat.mul_le_mul_left _ (by omega))
        exact keeps_copy env _
      · refine .bind ⟨(absSub_le' w L env n _ _).trans ?_, keeps_true _⟩ fun _ _ => .pure trivial
        rw [ht]
        refine Nat.add_le_add_left (Nat.mul_le_mul_left _ ?_) _
        simp only [Src.get]
        omega
  refine key.1.trans ?_
  rw [show ∀ m M : Nat, w.digit * m + (w.digit * M + (w.sub + w.digit * (m + 2 * M + 1) + 0)) = w.sub + w.digit * (2 * m + 3 * M + 1) by
    intros; ring]
  exact Nat.add_le_add_left (Nat.mul_le_mul_left _ (by omega)) _

theorem tempDiff_le (L : Limits) (env : Env) (n : Nat) (x y : Bignum) :
    (tempDiffC w L env n x y).steps ≤ w.sub + w.digit * (5 * max x.digits.length y.digits.length + 1) := by
  unfold tempDiffC
  have key : Within (do
      let g ← absGtC w x.digits y.digits
      let temp ← BN.copyC w env (if g then x.digits else y.digits)
      let temp ← absSubC w L env n temp (.other y.digits)
      Pure.pure (⟨x.desc, temp⟩ : Bignum))
      (w.digit * min x.digits.length y.digits.length + (w.digit * max x.digits.length y.digits.length +
        (w.sub + w.digit * (3 * max x.digits.length y.digits.length + 1) + 0))) (fun _ => True) := by
    refine .bind ⟨absGt_le w _ _, keeps_true _⟩ fun g _ => ?_
    refine .bind (P := fun t => t.length ≤ max x.digits.length y.digits.length) (.charge ?_ ?_) fun t ht => ?_
    · exact Nat.mul_le_mul_left _ (by split <;> omega)
    · refine (keeps_copy env _).mono fun l hl => ?_
      rw [hl]
      split <;> omega
    · refine .bind ⟨(absSub_le' w L env n _ _).trans ?_, keeps_true _⟩ fun _ _ => .pure trivial
      refine Nat.add_le_add_left (Nat.mul_le_mul_left _ ?_) _
      simp only [Src.get]
      omega
  refine key.1.trans ?_
  rw [show ∀ m M : Nat, w.digit * m + (w.digit * M + (w.sub + w.digit * (3 * M + 1) + 0)) = w.sub + w.digit * (m + 4 * M + 1) by
    intros; ring]
  exact Nat.add_le_add_left (Nat.mul_le_mul_left _ (by omega)) _

theorem addTry_le {L : Limits} (h : Supported L) (env : Env) (n : Nat) (x : Bignum) (r : Rhs) :
    (addTryC w L env n x r).steps ≤ w.sub + w.digit * (5 * max x.digits.length (r.get x).digits.length + 1) := by
  have hsrc : r.src.get x.digits = (r.get x).digits := by cases r <;> rfl
  have hadd : Within (do
      let d ← absAddC w L env n x.digits r.src
      Pure.pure (⟨x.desc, d⟩ : Bignum)) (w.sub + w.digit * (5 * max x.digits.length (r.get x).digits.length + 1) + 0) (fun _ => True) := by
    refine .bind ⟨(absAdd_le w h env n _ _).trans ?_, keeps_true _⟩ fun _ _ => .pure trivial
    rw [hsrc]
    exact (Nat.mul_le_mul_left _ (by omega)).trans (Nat.le_add_left _ _)
  unfold addTryC
  simp only
  split
  · exact hadd.1
  split
  · exact diff_le w L env n x r _
  split
  · exact diff_le w L env n x r _
  · exact hadd.1

theorem subTry_le (L : Limits) (env : Env) (n : Nat) (x : Bignum) (r : Rhs) :
    (subTryC w L env n x r).steps ≤ w.sub + w.digit * (5 * max x.digits.length (r.get x).digits.length + 1) := by
  unfold subTryC
  simp only
  split
  · exact diff_le w L env n x r _
  split
  · exact tempDiff_le w L env n x _
  split
  · exact tempDiff_le w L env n x _
  · exact diff_le w L env n x r _

/-- What a computation that returns has computed and cost. -/
def Does {α : Type} (x : Counted α) (P : α → Nat → Prop) : Prop := ∀ a, x.res = .ok a → P a x.steps

theorem Does.bind {α β : Type} {x : Counted α} {f : α → Counted β} {P : α → Nat → Prop} {Q : β → Nat → Prop} (h : Does x P)
    (hf : ∀ a k, P a k → Does (f a) (fun b m => Q b (k + m))) : Does (x >>= f) Q := by
  intro b hb
  cases hx : x.res with
  | error e => rw [Counted.bind_error hx] at hb; cases hb
  | ok a =>
    rw [Counted.bind_ok hx] at hb ⊢
    exact hf a _ (h a hx) b hb

theorem Does.pure {α : Type} {a : α} {P : α → Nat → Prop} (h : P a 0) : Does (Pure.pure a : Counted α) P := by
  intro b hb; cases hb; exact h

theorem Does.charge {α : Type} {r : Res α} {n : Nat} {P : α → Nat → Prop} (h : ∀ a, r = .ok a → P a n) : Does (charge n r) P := h

theorem Does.mono {α : Type} {x : Counted α} {P Q : α → Nat → Prop} (h : Does x P) (hPQ : ∀ a k, P a k → Q a k) : Does x Q :=
  fun a ha => hPQ a _ (h a ha)

theorem Does.ite {α : Type} {p : Prop} [Decidable p] {x y : Counted α} {P : α → Nat → Prop} (hx : p → Does x P) (hy : ¬ p → Does y P) :
    Does (if p then x else y) P := by
  split
  · exact hx ‹_›
  · exact hy ‹_›

theorem addBody_ok {L : Limits} {env : Env} {src : Src} {s : AddSt} {p : AddSt × Bool} (h : addBody L env src s = .ok p) :
    p.1.outIter = s.outIter + 1 ∧ (p.2 = true → p.1.outIter = p.1.out.length) := by
  revert p
  show Keeps (addBody L env src s) (fun p => p.1.outIter = s.outIter + 1 ∧ (p.2 = true → p.1.outIter = p.1.out.length))
  unfold addBody
  refine .bind (keeps_true _) fun _ _ => .bind (keeps_true _) fun _ _ => .bind (keeps_true _) fun _ _ => .bind (keeps_true _) fun p _ =>
    .bind (keeps_true _) fun _ _ => .ok ⟨rfl, fun hb => ?_⟩
  simp only [Bool.and_eq_true, decide_eq_true_eq] at hb
  exact hb.1.1

/-- An addition takes as many steps as its result has digits. -/
theorem absAdd_exact (L : Limits) (env : Env) (n : Nat) (out : List Nat) (src : Src) :
    Does (absAddC w L env n out src) (fun l k => k = w.digit * l.length) := by
  have key : ∀ n (s : AddSt), Does (loopForeverC (fun s => BN.charge w.digit (addBody L env src s)) n s)
      (fun s' k => s'.outIter = s'.out.length ∧ s.outIter ≤ s'.outIter ∧ k = w.digit * (s'.outIter - s.outIter)) := by
    intro n
    induction n with
    | zero => intro s a ha; cases ha
    | succ n ih =>
      intro s
      refine .bind (P := fun p k => (p.1.outIter = s.outIter + 1 ∧ (p.2 = true → p.1.outIter = p.1.out.length)) ∧ k = w.digit)
        (.charge fun p hp => ⟨addBody_ok hp, rfl⟩) ?_
      rintro ⟨s', brk⟩ k ⟨⟨h1, h2⟩, rfl⟩
      refine .ite (fun hb => .pure ⟨h2 hb, by simp only at h1; omega, ?_⟩) (fun _ => (ih s').mono ?_)
      · simp only at h1; rw [h1]; simp
      · rintro s'' m ⟨e1, e2, rfl⟩
        simp only at h1
        refine ⟨e1, by omega, ?_⟩
        rw [show s''.outIter - s.outIter = (s''.outIter - s'.outIter) + 1 by omega]
        ring
  unfold absAddC
  refine .bind (key n _) ?_
  rintro s k ⟨h1, -, rfl⟩
  exact .pure (by simp [h1])

end
end BN
