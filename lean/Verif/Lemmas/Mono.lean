import Verif.Lemmas.Halts
/-
More fuel never changes an outcome: the fuel is only a device to describe loops.
-/
namespace BN

/-- Once the outcome is not a timeout, more fuel gives the same outcome. -/
def Mono {α : Type} (f : Nat → Res α) : Prop := ∀ n m, n ≤ m → f n ≠ .error .timeout → f m = f n

theorem Mono.const {α : Type} (r : Res α) : Mono (fun _ => r) := fun _ _ _ _ => rfl

theorem Mono.bind {α β : Type} {f : Nat → Res α} {g : Nat → α → Res β} (hf : Mono f) (hg : ∀ x, Mono (fun n => g n x)) :
    Mono (fun n => f n >>= g n) := by
  intro n m hnm h
  simp only at h ⊢
  cases hr : f n with
  | ok x =>
    rw [hr, ok_bind] at h
    rw [hf n m hnm (by rw [hr]; simp), hr, ok_bind, ok_bind]
    exact hg x n m hnm h
  | error e =>
    rw [hr, error_bind] at h
    rw [hf n m hnm (by rw [hr]; exact fun h' => h (by cases h'; rfl)), hr, error_bind, error_bind]

theorem Mono.ite {α : Type} {p : Prop} [Decidable p] {f g : Nat → Res α} (hf : Mono f) (hg : Mono g) :
    Mono (fun n => if p then f n else g n) := by
  intro n m hnm h
  by_cases hp : p
  · simp only [if_pos hp] at h ⊢; exact hf n m hnm h
  · simp only [if_neg hp] at h ⊢; exact hg n m hnm h

theorem forever_mono {σ : Type} {b b' : σ → Res (σ × Bool)} (hb : ∀ s, b s ≠ .error .timeout → b' s = b s) :
    ∀ (k l : Nat) (s : σ), k ≤ l → loopForever b k s ≠ .error .timeout → loopForever b' l s = loopForever b k s
  | 0, _, _, _, h => absurd rfl h
  | k + 1, 0, _, hkl, _ => absurd hkl (by omega)
  | k + 1, l + 1, s, hkl, h => by
    rw [loopForever] at h ⊢
    rw [loopForever]
    cases hr : b s with
    | error e =>
      rw [hr, error_bind] at h
      rw [hb s (by rw [hr]; exact fun h' => h (by cases h'; rfl)), hr, error_bind, error_bind]
    | ok p =>
      rw [hr, ok_bind] at h
      rw [hb s (by rw [hr]; simp), hr, ok_bind, ok_bind]
      obtain ⟨s', brk⟩ := p
      simp only at h ⊢
      cases brk with
      | true => rfl
      | false =>
        simp only [Bool.false_eq_true, if_false] at h ⊢
        exact forever_mono hb k l s' (by omega) h

theorem while_mono {σ : Type} {c : σ → Res Bool} {b b' : σ → Res σ} (hb : ∀ s, b s ≠ .error .timeout → b' s = b s) :
    ∀ (k l : Nat) (s : σ), k ≤ l → loopWhile c b k s ≠ .error .timeout → loopWhile c b' l s = loopWhile c b k s
  | 0, _, _, _, h => absurd rfl h
  | k + 1, 0, _, hkl, _ => absurd hkl (by omega)
  | k + 1, l + 1, s, hkl, h => by
    rw [loopWhile] at h ⊢
    rw [loopWhile]
    cases hc : c s with
    | error e => rw [error_bind, error_bind]
    | ok t =>
      rw [hc, ok_bind] at h
      rw [ok_bind, ok_bind]
      cases t with
      | false => rfl
      | true =>
        simp only [if_true] at h ⊢
        cases hr : b s with
        | error e =>
          rw [hr, error_bind] at h
          rw [hb s (by rw [hr]; exact fun h' => h (by cases h'; rfl)), hr, error_bind, error_bind]
        | ok s' =>
          rw [hr, ok_bind] at h
          rw [hb s (by rw [hr]; simp), hr, ok_bind, ok_bind]
          exact while_mono hb k l s' (by omega) h

theorem Mono.forever {σ : Type} (b : σ → Res (σ × Bool)) (s : σ) : Mono (fun n => loopForever b n s) :=
  fun n m hnm h => forever_mono (fun _ _ => rfl) n m s hnm h
theorem Mono.while {σ : Type} (c : σ → Res Bool) {b : Nat → σ → Res σ} (hb : ∀ s, Mono (fun n => b n s)) (s : σ) :
    Mono (fun n => loopWhile c (b n) n s) :=
  fun n m hnm h => while_mono (fun s => hb s n m hnm) n m s hnm h

theorem mono_absAdd (L : Limits) (env : Env) (out : List Nat) (src : Src) : Mono (fun n => absAdd L env n out src) :=
  .bind (.forever _ _) fun _ => .const _
theorem mono_absSub (L : Limits) (env : Env) (a : List Nat) (src : Src) : Mono (fun n => absSub L env n a src) :=
  .bind (.const _) fun _ => .bind (.forever _ _) fun _ => .const _
theorem mono_divBody (L : Limits) (env : Env) (dv : List Nat) (s : DivSt) : Mono (fun n => divBody L env n dv s) := by
  unfold divBody
  exact .bind (.const _) fun _ => .bind (.const _) fun _ => .bind (.const _) fun _ => .bind (.const _) fun _ =>
    .bind (.while _ (b := fun _ => searchBody L env) (fun _ => .const _) _) fun _ => .bind (mono_absSub _ _ _ _) fun _ =>
    .ite (.bind (mono_absAdd _ _ _ _) fun _ => .const _) (.bind (mono_absAdd _ _ _ _) fun _ => .const _)
theorem mono_absDiv (L : Limits) (env : Env) (a b : List Nat) : Mono (fun n => absDiv L env n a b) :=
  .bind (.const _) fun _ => .bind (.while _ (mono_divBody L env b) _) fun _ => .const _

section
variable {F : Type} (o : FloatOps F)

theorem fft_mono : ∀ (n m : Nat) (x : List (Cx F)), n ≤ m → fftComplex o n x ≠ .error .timeout → fftComplex o m x = fftComplex o n x
  | 0, _, _, _, h => absurd rfl h
  | n + 1, 0, _, hnm, _ => absurd hnm (by omega)
  | n + 1, m + 1, x, hnm, h => by
    rw [fftComplex] at h ⊢
    rw [fftComplex]
    by_cases h1 : x.length = 1
    · simp only [h1, if_true]
    · simp only [h1, if_false] at h ⊢
      cases hp : fftPartition x (x.length / 2) (x.length / 2) with
      | error e => rfl
      | ok p =>
        obtain ⟨ev, od⟩ := p
        rw [hp, ok_bind] at h
        rw [ok_bind, ok_bind]
        simp only at h ⊢
        cases he : fftComplex o n ev with
        | error e =>
          rw [he, error_bind] at h
          rw [fft_mono n m ev (by omega) (by rw [he]; exact fun h' => h (by cases h'; rfl)), he, error_bind, error_bind]
        | ok ev' =>
          rw [he, ok_bind] at h
          rw [fft_mono n m ev (by omega) (by rw [he]; simp), he, ok_bind, ok_bind]
          cases hd : fftComplex o n od with
          | error e =>
            rw [hd, error_bind] at h
            rw [fft_mono n m od (by omega) (by rw [hd]; exact fun h' => h (by cases h'; rfl)), hd]
          | ok od' =>
            rw [hd, ok_bind] at h
            rw [fft_mono n m od (by omega) (by rw [hd]; simp), hd]

theorem mono_fft (x : List (Cx F)) : Mono (fun n => fftComplex o n x) := fun n m hnm h => fft_mono o n m x hnm h
theorem mono_mulStrassen (L : Limits) (env : Env) (a b : List Nat) : Mono (fun n => mulStrassen o L env n a b) := by
  unfold mulStrassen
  exact .ite (.const _) (.bind (.const _) fun _ => .bind (.bind (mono_fft o _) fun _ => .const _) fun _ => .bind (.bind (mono_fft o _) fun _ => .const _) fun _ =>
    .const _)
end

open Bignum

theorem mono_magDiff (L : Limits) (env : Env) (x : Bignum) (r : Rhs) (t : Desc) : Mono (fun n => magDiff L env n x r t) := by
  unfold magDiff
  exact .bind (.const _) fun _ => .ite (.bind (mono_absSub _ _ _ _) fun _ => .const _)
    (.bind (.const _) fun _ => .bind (mono_absSub _ _ _ _) fun _ => .const _)

theorem mono_addTry (L : Limits) (env : Env) (x : Bignum) (r : Rhs) : Mono (fun n => addTry L env n x r) := by
  unfold addTry
  exact .ite (.bind (mono_absAdd _ _ _ _) fun _ => .const _) (.ite (mono_magDiff L env x r _) (.ite (mono_magDiff L env x r _)
    (.bind (mono_absAdd _ _ _ _) fun _ => .const _)))

theorem mono_subTry (L : Limits) (env : Env) (x : Bignum) (r : Rhs) : Mono (fun n => subTry L env n x r) := by
  unfold subTry
  have hc : Mono (fun n => (do
      let g ← absGt x.digits (r.get x).digits
      let temp ← Vec.copy env (if g then x.digits else (r.get x).digits)
      let temp ← absSub L env n temp (.other (r.get x).digits)
      .ok ⟨x.desc, temp⟩ : Res Bignum)) :=
    .bind (.const _) fun _ => .bind (.const _) fun _ => .bind (mono_absSub _ _ _ _) fun _ => .const _
  exact .ite (mono_magDiff L env x r _) (.ite hc (.ite hc (mono_magDiff L env x r _)))

theorem mono_divTry (L : Limits) (env : Env) (x : Bignum) (dv : List Nat) : Mono (fun n => divTry L env n x dv) :=
  .bind (.const _) fun _ => .ite (.bind (mono_absDiv _ _ _ _) fun _ => .const _) (.const _)

/-- Outcomes of the member operators. -/
def MonoOut (f : Nat → Out) : Prop := ∀ n m, n ≤ m → f n ≠ .timeout → f m = f n

theorem MonoOut.const (r : Out) : MonoOut (fun _ => r) := fun _ _ _ _ => rfl
theorem MonoOut.ite {p : Prop} [Decidable p] {f g : Nat → Out} (hf : MonoOut f) (hg : MonoOut g) :
    MonoOut (fun n => if p then f n else g n) := by
  intro n m hnm h
  by_cases hp : p
  · simp only [if_pos hp] at h ⊢; exact hf n m hnm h
  · simp only [if_neg hp] at h ⊢; exact hg n m hnm h
theorem MonoOut.handle (x : Bignum) (d : Desc) {f : Nat → Res Bignum} (hf : Mono f) : MonoOut (fun n => Bignum.handle x d (f n)) := by
  intro n m hnm h
  simp only at h ⊢
  rw [hf n m hnm (fun h' => h (by rw [h']; rfl))]

theorem mono_addAssign (L : Limits) (env : Env) (x : Bignum) (r : Rhs) : MonoOut (fun n => addAssign L env n x r) :=
  .ite (.const _) (.handle _ _ (mono_addTry L env x r))
theorem mono_subAssign (L : Limits) (env : Env) (x : Bignum) (r : Rhs) : MonoOut (fun n => subAssign L env n x r) :=
  .ite (.const _) (.handle _ _ (mono_subTry L env x r))
theorem mono_mulAssign {F : Type} (o : FloatOps F) (L : Limits) (env : Env) (x : Bignum) (r : Rhs) :
    MonoOut (fun n => mulAssign o L env n x r) :=
  .ite (.const _) (.handle _ _ (.bind (mono_mulStrassen o L env _ _) fun _ => .const _))
theorem mono_divAssign (L : Limits) (env : Env) (x : Bignum) (r : Rhs) : MonoOut (fun n => divAssign L env n x r) :=
  .ite (.const _) (.ite (.const _) (.ite (.const _) (.ite (.const _) (.handle _ _ (mono_divTry L env _ _)))))

end BN
