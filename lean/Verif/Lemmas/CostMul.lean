import Verif.Lemmas.Cost
import Verif.Lemmas.Moments
import Verif.Lemmas.Pow2
/-
The number of steps of a multiplication.
-/
namespace BN
open Bignum

/-- At most `N` steps, and exactly `N` if the computation returns. -/
def Takes {α : Type} (x : Counted α) (N : Nat) (P : α → Prop) : Prop := x.steps ≤ N ∧ ∀ a, x.res = .ok a → P a ∧ x.steps = N

theorem Counted.bind_assoc {α β γ : Type} (x : Counted α) (f : α → Counted β) (g : β → Counted γ) :
    ((x >>= f) >>= g) = (x >>= fun a => f a >>= g) := by
  cases hx : x.res with
  | error e => rw [Counted.bind_error hx, Counted.bind_error hx, Counted.bind_error rfl]
  | ok a =>
    rw [Counted.bind_ok hx, Counted.bind_ok hx]
    cases hf : (f a).res with
    | error e => rw [Counted.bind_error rfl, Counted.bind_error hf]
    | ok b => rw [Counted.bind_ok rfl, Counted.bind_ok hf, Nat.add_assoc]

namespace Takes
variable {α β : Type}

theorem bind {x : Counted α} {f : α → Counted β} {N M : Nat} {P : α → Prop} {Q : β → Prop} (h : Takes x N P)
    (hf : ∀ a, P a → Takes (f a) M Q) : Takes (x >>= f) (N + M) Q := by
  cases hx : x.res with
  | error e => rw [Counted.bind_error hx]; exact ⟨h.1.trans (Nat.le_add_right _ _), fun a ha => by cases ha⟩
  | ok a =>
    rw [Counted.bind_ok hx]
    obtain ⟨h1, h2⟩ := h.2 a hx
    have h3 := hf a h1
    refine ⟨Nat.add_le_add h.1 h3.1, fun b hb => ?_⟩
    obtain ⟨h4, h5⟩ := h3.2 b hb
    exact ⟨h4, by rw [h2, ← h5]⟩

theorem charge {r : Res α} {n : Nat} {P : α → Prop} (hr : Keeps r P) : Takes (charge n r) n P := ⟨le_rfl, fun a ha => ⟨hr a ha, rfl⟩⟩

theorem eq {x : Counted α} {N M : Nat} {P : α → Prop} (h : Takes x N P) (hN : N = M) : Takes x M P := hN ▸ h

end Takes

section
variable (w : Weights) {F : Type} (o : FloatOps F)

theorem takes_fft : ∀ (fuel k : Nat) (x : List (Cx F)), x.length = 2 ^ k →
    Takes (fftComplexC w o fuel x) (w.digit * ((k + 1) * 2 ^ k)) (fun y => y.length = 2 ^ k)
  | 0, _, _, _ => ⟨Nat.zero_le _, fun a ha => by cases ha⟩
  | fuel + 1, 0, x, hx => by
    rw [fftComplexC]
    simp only [hx, pow_zero, if_true]
    exact (Takes.charge (.ok (by simpa using hx))).eq (by ring)
  | fuel + 1, k + 1, x, hx => by
    rw [fftComplexC]
    have h2 : (2 : Nat) ^ (k + 1) / 2 = 2 ^ k := by rw [pow_succ]; omega
    have h1 : ¬ (2 : Nat) ^ (k + 1) = 1 := by
      have := Nat.pow_pos (n := k) (show 0 < 2 by omega)
      rw [pow_succ]; omega
    simp only [hx, if_neg h1, h2]
    refine (Takes.bind (P := fun p => p.1.length = 2 ^ k ∧ p.2.length = 2 ^ k) (.charge fun p hp => partition_length x _ _ hp) fun p hp =>
      .bind (takes_fft fuel k p.1 hp.1) fun ev _ => .bind (takes_fft fuel k p.2 hp.2) fun od _ =>
      .charge (P := fun y => y.length = 2 ^ (k + 1)) fun y hy => (combine_length o _ _ _ _ _ hy).trans hx).eq ?_
    rw [pow_succ]; ring

theorem takes_ifft (fuel k : Nat) (x : List (Cx F)) (hx : x.length = 2 ^ k) :
    Takes (ifftComplexC w o fuel x) (w.digit * ((k + 3) * 2 ^ k)) (fun y => y.length = 2 ^ k) := by
  unfold ifftComplexC
  refine (Takes.bind (N := w.digit * 2 ^ k) (P := fun y => y.length = 2 ^ k) ?_ fun y hy =>
    .bind (takes_fft w o fuel k y hy) fun z hz => (?_ : Takes _ (w.digit * 2 ^ k) _)).eq (by ring)
  · rw [hx]; exact .charge (.ok (by simpa using hx))
  · simp only; rw [hz]; exact .charge (.ok (by simpa using hz))

theorem takes_convolute (fuel k : Nat) (x : List (Cx F)) (hx : x.length = 2 ^ k) :
    Takes (convoluteFftC w o fuel x) (w.digit * ((k + 3) * 2 ^ k)) (fun y => y.length = 2 ^ k) := by
  unfold convoluteFftC
  simp only [hx]
  refine (Takes.bind (P := fun y => y.length = 2 ^ k) (.charge (.ok hx)) fun y hy =>
    .bind (takes_fft w o fuel k y hy) fun z hz => .charge fun r hr => ?_).eq (by ring)
  rw [mapM_ok_length hr, List.length_range]

theorem topZeros_le (ret : List Nat) : ∀ i n, (countTopZerosC w ret i n).steps ≤ w.digit * i
  | 0, _ => Nat.zero_le _
  | i + 1, n => by
    rw [countTopZerosC]
    have : Within (do
        let d ← BN.charge w.digit (Vec.rd ret i)
        if d ≠ 0 then Pure.pure n else countTopZerosC w ret i (n + 1)) (w.digit + w.digit * i) (fun _ => True) :=
      .bind (.charge le_rfl (keeps_true _)) fun d _ => .ite (fun _ => .pure trivial) fun _ => ⟨topZeros_le ret i _, keeps_true _⟩
    exact this.1.trans (le_of_eq (by ring))

theorem carry_length (L : Limits) : ∀ (xs : List F) (c : Nat) {ds : List Nat}, carryLoop o L c xs = .ok ds → ds.length = xs.length
  | [], c, ds, h => by cases h; rfl
  | x :: xs, c, ds, h => by
    rw [carryLoop] at h
    cases h1 : carryStep o L c x with
    | error e => rw [h1] at h; cases h
    | ok p =>
      obtain ⟨d, c'⟩ := p
      rw [h1, ok_bind] at h
      simp only at h
      cases h2 : carryLoop o L c' xs with
      | error e => rw [h2] at h; cases h
      | ok ds' =>
        rw [h2, ok_bind] at h
        cases h
        simp [carry_length L xs c' h2]

/-- A multiplication with a table of 2^k entries. -/
theorem mul_steps (L : Limits) (env : Env) (fuel k : Nat) (a b : List Nat) (hk : fftTableSize a.length b.length = 2 ^ k) :
    (mulStrassenC w o L env fuel a b).steps ≤ w.digit * ((2 * k + 9) * 2 ^ k) ∧
    ∀ l, (mulStrassenC w o L env fuel a b).res = .ok l → w.digit * ((2 * k + 8) * 2 ^ k) ≤ (mulStrassenC w o L env fuel a b).steps := by
  have key : Takes (do
      let table ← BN.charge (w.digit * fftTableSize a.length b.length) (createFftTable o a b)
      let table ← convoluteFftC w o fuel table
      let inverses ← ifftComplexC w o fuel table
      BN.charge (w.digit * inverses.length) (carryLoop o L 0 (inverses.map Cx.re))) (w.digit * ((2 * k + 8) * 2 ^ k))
      (fun l => l.length = 2 ^ k) := by
    rw [hk]
    refine (Takes.bind (P := fun y => y.length = 2 ^ k) (.charge (by rw [createFftTable_eq]; exact .ok (by simp [hk]))) fun y hy =>
      .bind (takes_convolute w o fuel k y hy) fun z hz => .bind (takes_ifft w o fuel k z hz) fun u hu =>
      (?_ : Takes _ (w.digit * 2 ^ k) _)).eq (by ring)
    rw [hu]
    exact .charge fun ds hds => by rw [carry_length o L _ _ hds, List.length_map, hu]
  have hassoc : mulStrassenC w o L env fuel a b = if ¬ env.alloc (fftTableSize a.length b.length) then BN.charge 0 (.error (.exn .badAlloc))
      else (do
        let ret ← (do
          let table ← BN.charge (w.digit * fftTableSize a.length b.length) (createFftTable o a b)
          let table ← convoluteFftC w o fuel table
          let inverses ← ifftComplexC w o fuel table
          BN.charge (w.digit * inverses.length) (carryLoop o L 0 (inverses.map Cx.re)))
        let z ← countTopZerosC w ret ret.length 0
        BN.charge 0 (Vec.resize env ret (ret.length - z) 0)) := by
    unfold mulStrassenC
    split
    · rfl
    · simp only [Counted.bind_assoc]
  rw [hassoc]
  split
  · exact ⟨Nat.zero_le _, fun l hl => by cases hl⟩
  · constructor
    · refine (Within.bind (P := fun l => l.length = 2 ^ k) (N := w.digit * ((2 * k + 8) * 2 ^ k)) (M := w.digit * 2 ^ k) (Q := fun _ => True)
        ⟨key.1, fun l hl => (key.2 l hl).1⟩ fun l hl => ?_).1.trans (le_of_eq (by ring))
      exact Within.le (N := w.digit * 2 ^ k + 0) (.bind ⟨(topZeros_le w l _ _).trans (by rw [hl]), keeps_true _⟩ fun z _ =>
        .charge le_rfl (keeps_true _)) le_rfl
    · exact Does.bind (P := fun _ m => m = w.digit * ((2 * k + 8) * 2 ^ k)) (Q := fun _ m => w.digit * ((2 * k + 8) * 2 ^ k) ≤ m)
        (fun l hl => (key.2 l hl).2) fun l m hm b _ => by rw [hm]; exact Nat.le_add_right _ _

end
end BN
