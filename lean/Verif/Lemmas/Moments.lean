import Verif.Lemmas.Memory
import Verif.Model.Moments
/-
An allocator that answers differently at every moment: comparison of two such allocators, and agreement with the
one-answer-per-size allocators of the rest of the model.
-/
namespace BN
open Bignum

/-- Whatever the first family grants at some moment, the second grants too. -/
def Moments.Le (E E' : Moments) : Prop := ∀ p, (E p).Le (E' p)

theorem Moments.Le.at {E E' : Moments} (h : E.Le E') (i : Nat) : (E.at i).Le (E'.at i) := fun p => h (i :: p)

theorem scarce_reserve {e e' : Env} (he : e.Le e') (n : Nat) : Scarce (reserve e n) (reserve e' n) := scarce_alloc he _ _

section
variable {E E' : Moments} (h : E.Le E')
include h

theorem scarce_absAddM (L : Limits) (n : Nat) (a : List Nat) (src : Src) : Scarce (absAddM L E n a src) (absAddM L E' n a src) := by
  refine .bind (.forever (fun s => ?_) n _) fun _ => .refl _
  exact .bind (.ite (scarce_pushBack (h _) _ _) (.refl _)) fun _ => .refl _

theorem scarce_searchBodyM (L : Limits) (s : SearchSt) : Scarce (searchBodyM L E s) (searchBodyM L E' s) :=
  .bind (scarce_vcopy (h _) _) fun _ => .bind (scarce_shl (h _) L _) fun _ => .bind (scarce_shl (h _) L _) fun _ => .refl _

theorem scarce_divBodyM (L : Limits) (n : Nat) (dv : List Nat) (s : DivSt) :
    Scarce (divBodyM L E n dv s) (divBodyM L E' n dv s) := by
  unfold divBodyM
  refine .bind (scarce_vcopy (h _) _) fun _ => .bind (scarce_vcopy (h _) _) fun _ => .bind (scarce_vcopy (h _) _) fun _ =>
    .bind (scarce_shl (h _) L _) fun _ => .bind (.while _ (fun t => ?_) n _) fun t => ?_
  · exact .bind (scarce_searchBodyM ((h.at 4).at t.2) L _) fun _ => .refl _
  · rw [absSub_env (h [5])]
    exact .bind (.refl _) fun _ => .ite (.bind (scarce_absAddM (h.at 6) L n _ _) fun _ => .refl _)
      (.bind (scarce_absAddM (h.at 6) L n _ _) fun _ => .refl _)

omit h in
theorem scarce_absDivM (h : E.Le E') (L : Limits) (n : Nat) (a b : List Nat) : Scarce (absDivM L E n a b) (absDivM L E' n a b) :=
  .bind (scarce_vcopy (h _) _) fun _ => .bind
    (.while _ (fun (s : DivSt × Nat) => .bind (scarce_divBodyM ((h.at 1).at s.2) L n b _) fun _ => .refl _) n _) fun _ => .refl _

omit h in
theorem scarce_fftM {F : Type} (o : FloatOps F) : ∀ (n : Nat) {E E' : Moments}, E.Le E' → ∀ x : List (Cx F),
    Scarce (fftComplexM o E n x) (fftComplexM o E' n x)
  | 0, _, _, _, _ => .refl _
  | n + 1, E, E', h, x => by
    rw [fftComplexM, fftComplexM]
    exact .ite (.bind (scarce_reserve (h _) _) fun _ => .refl _)
      (.bind (scarce_reserve (h _) _) fun _ => .bind (scarce_reserve (h _) _) fun _ => .bind (.refl _) fun t =>
        .bind (scarce_fftM o n (h.at 2) _) fun _ => .bind (scarce_fftM o n (h.at 3) _) fun _ => .refl _)

theorem scarce_mulStrassenM {F : Type} (o : FloatOps F) (L : Limits) (n : Nat) (a b : List Nat) :
    Scarce (mulStrassenM o L E n a b) (mulStrassenM o L E' n a b) :=
  .bind (scarce_reserve (h _) _) fun _ => .bind (.refl _) fun _ =>
  .bind (.bind (scarce_reserve (h.at 1 _) _) fun _ => .bind (scarce_fftM o n ((h.at 1).at 1) _) fun _ => .refl _) fun _ =>
  .bind (.bind (scarce_fftM o n (h.at 2) _) fun _ => .refl _) fun _ => .bind (scarce_reserve (h _) _) fun _ => .refl _

theorem scarce_addTryM (L : Limits) (n : Nat) (x : Bignum) (r : Rhs) : Scarce (addTryM L E n x r) (addTryM L E' n x r) := by
  unfold addTryM
  simp only [absSub_env (h [0])]
  have h' : ∀ a s d, Scarce (do let d' ← absAddM L (E.at 0) n a s; Except.ok (⟨d, d'⟩ : Bignum))
      (do let d' ← absAddM L (E'.at 0) n a s; Except.ok (⟨d, d'⟩ : Bignum)) :=
    fun a s d => .bind (scarce_absAddM (h.at 0) L n a s) fun _ => .refl _
  exact .ite (h' _ _ _) (.ite (.bind (.refl _) fun _ => .ite (.refl _) (.bind (scarce_copy (h _) _) fun _ => .refl _))
    (.ite (.bind (.refl _) fun _ => .ite (.refl _) (.bind (scarce_copy (h _) _) fun _ => .refl _)) (h' _ _ _)))

end

/-! ### One answer per size -/

theorem count_while {σ : Type} (c : σ → Res Bool) (b : σ → Res σ) : ∀ (n : Nat) (s : σ) (i : Nat),
    ((loopWhile (fun t : σ × Nat => c t.1) (fun t => do let t' ← b t.1; .ok (t', t.2 + 1)) n (s, i)) >>=
      fun t => (Except.ok t.1 : Res σ)) = loopWhile c b n s
  | 0, _, _ => rfl
  | n + 1, s, i => by
    rw [loopWhile, loopWhile]
    cases hc : c s with
    | error f => rfl
    | ok t =>
      simp only [ok_bind]
      cases t
      · rfl
      · simp only [if_true]
        cases hb : b s with
        | error f => rfl
        | ok s' => simp only [ok_bind]; exact count_while c b n s' (i + 1)

theorem count_while_bind {σ β : Type} (c : σ → Res Bool) (b : σ → Res σ) (n : Nat) (s : σ) (g : σ → Res β) :
    ((loopWhile (fun t : σ × Nat => c t.1) (fun t => do let t' ← b t.1; .ok (t', t.2 + 1)) n (s, 0)) >>= fun t => g t.1) =
      loopWhile c b n s >>= g := by
  rw [← count_while c b n s 0, bind_assoc]
  rfl

/-- The same answer at every moment. -/
def Env.always (env : Env) : Moments := fun _ => env

@[simp] theorem Env.always_at (env : Env) (i : Nat) : env.always.at i = env.always := rfl

theorem absAddM_always (L : Limits) (env : Env) (n : Nat) (a : List Nat) (src : Src) :
    absAddM L env.always n a src = absAdd L env n a src := rfl

theorem divBodyM_always (L : Limits) (env : Env) (n : Nat) (dv : List Nat) (s : DivSt) :
    divBodyM L env.always n dv s = divBody L env n dv s := by
  unfold divBodyM divBody
  refine bind_congr fun b0 => bind_congr fun b1 => bind_congr fun q => bind_congr fun b1' => ?_
  exact count_while_bind (fun t : SearchSt => absGe s.dividend t.bsrch1) (searchBody L env) n ⟨b0, b1', q⟩ fun t => do
    let dividend ← absSub L env n s.dividend (.other t.bsrch0)
    if t.q.length ≤ s.res.length then
      let res ← absAdd L env n s.res (.other t.q)
      .ok (⟨dividend, res⟩ : DivSt)
    else
      let q ← absAdd L env n t.q (.other s.res)
      .ok ⟨dividend, q⟩

theorem absDivM_always (L : Limits) (env : Env) (n : Nat) (a b : List Nat) :
    absDivM L env.always n a b = absDiv L env n a b := by
  unfold absDivM absDiv
  refine bind_congr fun res => ?_
  simp only [Env.always_at, divBodyM_always]
  exact count_while_bind (fun s : DivSt => absGe s.dividend b) (divBody L env n b) n ⟨a, res⟩ fun s => .ok s.res

theorem addTryM_always (L : Limits) (env : Env) (n : Nat) (x : Bignum) (r : Rhs) :
    addTryM L env.always n x r = addTry L env n x r := rfl

theorem partition_length {F : Type} (x : List (Cx F)) (h : Nat) : ∀ (i : Nat) {p : List (Cx F) × List (Cx F)},
    fftPartition x h i = .ok p → p.1.length = i ∧ p.2.length = i
  | 0, p, hp => by cases hp; exact ⟨rfl, rfl⟩
  | i + 1, p, hp => by
    rw [fftPartition] at hp
    cases hq : fftPartition x h i with
    | error f => rw [hq] at hp; cases hp
    | ok q =>
      rw [hq, ok_bind] at hp
      have ih := partition_length x h i hq
      obtain ⟨e, d⟩ := q
      simp only at hp ih
      split at hp
      · cases h1 : rdAt x (2 * i) with
        | error f => rw [h1] at hp; cases hp
        | ok y =>
          cases h2 : rdAt x (2 * i + 1) with
          | error f => rw [h1, h2] at hp; cases hp
          | ok z =>
            rw [h1, h2, ok_bind, ok_bind] at hp
            cases hp
            simp [ih.1, ih.2]
      · cases hp

theorem combine_length {F : Type} (o : FloatOps F) (len half : Nat) (ev od : List (Cx F)) : ∀ (k : Nat) {x y : List (Cx F)},
    fftCombine o len half ev od k x = .ok y → y.length = x.length
  | 0, x, y, h => by cases h; rfl
  | k + 1, x, y, h => by
    rw [fftCombine] at h
    cases hq : fftCombine o len half ev od k x with
    | error f => rw [hq] at h; cases h
    | ok q =>
      rw [hq, ok_bind] at h
      have ih := combine_length o len half ev od k hq
      simp only at h
      cases h1 : rdAt ev k with
      | error f => rw [h1] at h; cases h
      | ok e =>
        cases h2 : rdAt od k with
        | error f => rw [h1, h2] at h; cases h
        | ok d =>
          rw [h1, h2, ok_bind, ok_bind] at h
          split at h
          · cases h; simp [ih]
          · cases h

theorem fft_length {F : Type} (o : FloatOps F) : ∀ (n : Nat) {x y : List (Cx F)}, fftComplex o n x = .ok y → y.length = x.length
  | 0, x, y, h => by cases h
  | n + 1, x, y, h => by
    rw [fftComplex] at h
    simp only at h
    split at h
    · cases h; rfl
    · cases hp : fftPartition x (x.length / 2) (x.length / 2) with
      | error f => rw [hp] at h; cases h
      | ok p =>
        rw [hp, ok_bind] at h
        obtain ⟨e, d⟩ := p
        simp only at h
        cases h1 : fftComplex o n e with
        | error f => rw [h1] at h; cases h
        | ok e' =>
          cases h2 : fftComplex o n d with
          | error f => rw [h1, h2] at h; cases h
          | ok d' =>
            rw [h1, h2, ok_bind, ok_bind] at h
            exact combine_length o _ _ _ _ _ h

theorem reserve_ok {env : Env} {n : Nat} (h : env.alloc n = true) : reserve env n = .ok () := if_pos h

theorem fftM_always {F : Type} (o : FloatOps F) {env : Env} {N : Nat} (hA : ∀ m, m ≤ N → env.alloc m = true) :
    ∀ (n : Nat) {x : List (Cx F)}, x.length ≤ N → fftComplexM o env.always n x = fftComplex o n x
  | 0, _, _ => rfl
  | n + 1, x, hx => by
    rw [fftComplexM, fftComplex]
    simp only [Env.always_at]
    by_cases h1 : x.length = 1
    · rw [if_pos h1, if_pos h1, show reserve (env.always [0]) 1 = .ok () from reserve_ok (hA 1 (by omega))]; rfl
    · rw [if_neg h1, if_neg h1]
      have hr : reserve (env.always [0]) (x.length / 2) = .ok () := reserve_ok (hA _ (by omega))
      have hr' : reserve (env.always [1]) (x.length / 2) = .ok () := reserve_ok (hA _ (by omega))
      rw [hr, hr', ok_bind, ok_bind]
      cases hp : fftPartition x (x.length / 2) (x.length / 2) with
      | error f => rfl
      | ok p =>
        have := partition_length x _ _ hp
        obtain ⟨e, d⟩ := p
        simp only [ok_bind] at this ⊢
        rw [fftM_always o hA n (x := e) (by omega), fftM_always o hA n (x := d) (by omega)]

theorem mapM_ok_length {α β : Type} {f : α → Res β} : ∀ {l : List α} {r : List β}, l.mapM f = .ok r → r.length = l.length
  | [], r, h => by cases h; rfl
  | a :: l, r, h => by
    rw [List.mapM_cons] at h
    cases h1 : f a with
    | error e => rw [h1] at h; cases h
    | ok b =>
      cases h2 : l.mapM f with
      | error e => rw [h1, h2] at h; cases h
      | ok bs =>
        rw [h1, h2] at h
        cases h
        simp [mapM_ok_length h2]

theorem mulStrassenM_always {F : Type} (o : FloatOps F) (L : Limits) {env : Env} {a b : List Nat}
    (hA : env.alloc (fftTableSize a.length b.length) = true → ∀ m, m ≤ fftTableSize a.length b.length → env.alloc m = true) (n : Nat) :
    mulStrassenM o L env.always n a b = mulStrassen o L env n a b := by
  unfold mulStrassenM mulStrassen
  by_cases hal : env.alloc (fftTableSize a.length b.length) = true
  swap
  · rw [if_pos hal]
    have : reserve (env.always [0]) (fftTableSize a.length b.length) = .error (.exn .badAlloc) := if_neg hal
    rw [this]
    rfl
  rw [if_neg (by simpa using hal)]
  have hA := hA hal
  have hr : reserve (env.always [0]) (fftTableSize a.length b.length) = .ok () := reserve_ok hal
  rw [hr, ok_bind, createFftTable_eq, ok_bind, ok_bind]
  generalize hT' : tab (fftTableSize a.length b.length) (packF o a b) = T
  have hT : T.length = fftTableSize a.length b.length := by rw [← hT', tab_length]
  have h1 : convoluteFftM o (env.always.at 1) n T = convoluteFft o n T := by
    unfold convoluteFftM convoluteFft
    have hr : reserve (env.always.at 1 [0]) T.length = .ok () := reserve_ok (hA _ (by omega))
    simp only [hr, ok_bind]
    rw [Env.always_at, Env.always_at, fftM_always o hA n (by omega)]
  simp only [h1]
  cases hc : convoluteFft o n T with
  | error f => rfl
  | ok t =>
    have ht : t.length = fftTableSize a.length b.length := by
      unfold convoluteFft at hc
      cases hf : fftComplex o n T with
      | error f => simp only [hf] at hc; cases hc
      | ok y =>
        simp only [hf, ok_bind] at hc
        have := mapM_ok_length hc
        simpa [hT] using this
    simp only [ok_bind]
    have h2 : ifftComplexM o (env.always.at 2) n t = ifftComplex o n t := by
      unfold ifftComplexM ifftComplex
      rw [Env.always_at]
      simp only [fftM_always o hA n (x := t.map (Cx.conj o)) (by simp; omega)]
    rw [h2]
    cases hi : ifftComplex o n t with
    | error f => rfl
    | ok v =>
      have hv : v.length = fftTableSize a.length b.length := by
        unfold ifftComplex at hi
        cases hf : fftComplex o n (t.map (Cx.conj o)) with
        | error f => simp only [hf] at hi; cases hi
        | ok y =>
          have := fft_length o n hf
          simp only [hf, ok_bind] at hi
          cases hi
          simpa [ht] using this
      have hr : reserve (env.always [3]) v.length = .ok () := reserve_ok (hA _ (by omega))
      simp only [ok_bind, hr]
      refine bind_congr fun ret => bind_congr fun z => ?_
      exact (if_pos (by omega : ret.length - z ≤ ret.length)).symm

end BN
