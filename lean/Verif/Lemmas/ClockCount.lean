import Verif.Lemmas.Clock
import Verif.Lemmas.Pow2
/-
Counting the ticks of code with a clock: whenever it returns, it has taken the stated number.
-/
namespace BN

/-- Whenever the code returns, it has taken `c` ticks and the result is as described. -/
def Ticks {α : Type} (m : Timed α) (c : Nat) (P : α → Prop) : Prop := ∀ t a t', m t = .ok (a, t') → t' = t + c ∧ P a

section
variable {α β : Type} {P : α → Prop} {Q : β → Prop}

theorem ticks_pure {a : α} (h : P a) : Ticks (pure a) 0 P := by
  intro t b t' e
  cases e
  exact ⟨rfl, h⟩

theorem ticks_bind {m : Timed α} {f : α → Timed β} {c d e : Nat} (hm : Ticks m c P) (hf : ∀ a, P a → Ticks (f a) d Q) (he : e = c + d) :
    Ticks (m >>= f) e Q := by
  intro t b t' h
  rw [Timed.bind_eq] at h
  cases hmt : m t with
  | error x => rw [hmt] at h; cases h
  | ok p =>
    obtain ⟨a, t1⟩ := p
    rw [hmt] at h
    obtain ⟨rfl, ha⟩ := hm t a t1 hmt
    obtain ⟨rfl, hb⟩ := hf a ha _ _ _ h
    exact ⟨by omega, hb⟩

theorem ticks_tick {F : Type} {O : Nat → FloatOps F} {f : FloatOps F → α} : Ticks (tick O f) 1 fun _ => True := by
  intro t b t' e
  cases e
  exact ⟨rfl, trivial⟩

theorem ticks_still {r : Res α} (h : ∀ a, r = .ok a → P a) : Ticks (still r) 0 P := by
  intro t b t' e
  cases r with
  | error x => cases e
  | ok a => cases e; exact ⟨rfl, h _ rfl⟩

theorem ticks_each {f : α → Timed β} {c : Nat} (h : ∀ a, Ticks (f a) c fun _ => True) : ∀ l : List α,
    Ticks (eachT f l) (l.length * c) fun ys => ys.length = l.length
  | [] => by
    rw [eachT]
    have := ticks_pure (P := fun ys : List β => ys.length = ([] : List α).length) (a := []) rfl
    simpa using this
  | x :: xs => by
    rw [eachT]
    refine ticks_bind (h x) (fun y _ => ticks_bind (ticks_each h xs) (fun ys hys => ticks_pure ?_) rfl) ?_
    · simp [hys]
    · simp only [List.length_cons]; ring

end

section
variable {F : Type} (O : Nat → FloatOps F)

theorem ticks_addT (x y : Cx F) : Ticks (Cx.addT O x y) 2 fun _ => True :=
  ticks_bind ticks_tick (fun _ _ => ticks_bind ticks_tick (fun _ _ => ticks_pure trivial) rfl) rfl
theorem ticks_subT (x y : Cx F) : Ticks (Cx.subT O x y) 2 fun _ => True :=
  ticks_bind ticks_tick (fun _ _ => ticks_bind ticks_tick (fun _ _ => ticks_pure trivial) rfl) rfl
theorem ticks_mulT (x y : Cx F) : Ticks (Cx.mulT O x y) 2 fun _ => True :=
  ticks_bind ticks_tick (fun _ _ => ticks_bind ticks_tick (fun _ _ => ticks_pure trivial) rfl) rfl
theorem ticks_quarterT (x : Cx F) : Ticks (Cx.quarterT O x) 2 fun _ => True :=
  ticks_bind ticks_tick (fun _ _ => ticks_bind ticks_tick (fun _ _ => ticks_pure trivial) rfl) rfl
theorem ticks_divByT (x : Cx F) (s : F) : Ticks (Cx.divByT O x s) 2 fun _ => True :=
  ticks_bind ticks_tick (fun _ _ => ticks_bind ticks_tick (fun _ _ => ticks_pure trivial) rfl) rfl
theorem ticks_conjT (x : Cx F) : Ticks (Cx.conjT O x) 1 fun _ => True :=
  ticks_bind ticks_tick (fun _ _ => ticks_pure trivial) rfl

theorem ticks_twiddleT (len k : Nat) : Ticks (twiddleT O len k) 7 fun _ => True := by
  unfold twiddleT
  refine ticks_bind (d := 6) ticks_tick (fun _ _ => ?_) rfl
  refine ticks_bind (d := 5) ticks_tick (fun _ _ => ?_) rfl
  refine ticks_bind (d := 4) ticks_tick (fun _ _ => ?_) rfl
  refine ticks_bind (d := 3) ticks_tick (fun _ _ => ?_) rfl
  refine ticks_bind (d := 2) ticks_tick (fun _ _ => ?_) rfl
  refine ticks_bind (d := 1) ticks_tick (fun _ _ => ?_) rfl
  exact ticks_bind ticks_tick (fun _ _ => ticks_pure trivial) rfl

theorem ticks_combineT (len half : Nat) (evens odds : List (Cx F)) : ∀ (k : Nat) (x : List (Cx F)),
    Ticks (fftCombineT O len half evens odds k x) (15 * k) fun ys => ys.length = x.length
  | 0, x => by rw [fftCombineT]; exact ticks_pure rfl
  | k + 1, x => by
    rw [fftCombineT]
    refine ticks_bind (d := 15) (ticks_combineT len half evens odds k x) (fun ys hys => ?_) (by omega)
    refine ticks_bind (d := 8) (ticks_twiddleT O _ _) (fun w _ => ?_) rfl
    refine ticks_bind (d := 8) (ticks_still (P := fun _ => True) fun _ _ => trivial) (fun e _ => ?_) rfl
    refine ticks_bind (d := 8) (ticks_still (P := fun _ => True) fun _ _ => trivial) (fun d _ => ?_) rfl
    split
    · refine ticks_bind (d := 6) (ticks_mulT O _ _) (fun p _ => ?_) rfl
      refine ticks_bind (d := 4) (ticks_addT O _ _) (fun lo _ => ?_) rfl
      refine ticks_bind (d := 2) (ticks_mulT O _ _) (fun q _ => ?_) rfl
      exact ticks_bind (ticks_subT O _ _) (fun hi _ => ticks_pure (by simpa using hys)) rfl
    · intro t a t' e
      cases e

theorem fftPartition_lengths (x : List (Cx F)) (half : Nat) : ∀ (i : Nat) (p : List (Cx F) × List (Cx F)), fftPartition x half i = .ok p →
    p.1.length = i ∧ p.2.length = i
  | 0, p, h => by rw [fftPartition] at h; cases h; exact ⟨rfl, rfl⟩
  | i + 1, p, h => by
    rw [fftPartition] at h
    cases hq : fftPartition x half i with
    | error e => rw [hq] at h; cases h
    | ok q =>
      obtain ⟨h1, h2⟩ := fftPartition_lengths x half i q hq
      rw [hq, ok_bind] at h
      simp only at h
      split at h
      · cases he : rdAt x (2 * i) with
        | error e => rw [he] at h; cases h
        | ok e =>
          cases hd : rdAt x (2 * i + 1) with
          | error e => rw [he, hd] at h; cases h
          | ok d =>
            rw [he, hd] at h
            cases h
            simp [h1, h2]
      · cases h

/-- 15 operations for every pair of every level. -/
theorem ticks_fftT : ∀ (k n : Nat) (x : List (Cx F)), x.length = 2 ^ k →
    Ticks (fftComplexT O n x) (15 * (k * 2 ^ k) / 2) fun ys => ys.length = x.length
  | _, 0, x, _ => by
    rw [fftComplexT]
    intro t a t' e
    cases e
  | 0, n + 1, x, hx => by
    rw [fftComplexT]
    simp only [hx, pow_zero, if_true]
    exact ticks_pure hx
  | k + 1, n + 1, x, hx => by
    rw [fftComplexT]
    have hp : 0 < 2 ^ k := Nat.pow_pos (by omega)
    have e2 : (2 : Nat) ^ (k + 1) = 2 * 2 ^ k := by rw [Nat.pow_succ]; omega
    have eh : (2 : Nat) ^ (k + 1) / 2 = 2 ^ k := by omega
    simp only [hx]
    rw [if_neg (by omega), eh]
    refine ticks_bind (ticks_still (P := fun p => p.1.length = 2 ^ k ∧ p.2.length = 2 ^ k) fun p h => fftPartition_lengths x _ _ p h)
      (fun p hp => ?_) (Nat.zero_add _).symm
    obtain ⟨evens, odds⟩ := p
    have key : 15 * ((k + 1) * 2 ^ (k + 1)) / 2 = 15 * (k * 2 ^ k) / 2 + (15 * (k * 2 ^ k) / 2 + 15 * 2 ^ k) := by
      rcases k with _ | k
      · rfl
      · have h1 : 15 * ((k + 1 + 1) * 2 ^ (k + 1 + 1)) = (15 * (k + 2) * 2 ^ (k + 1)) * 2 := by rw [pow_succ 2 (k + 1)]; ring
        have h2 : 15 * ((k + 1) * 2 ^ (k + 1)) = (15 * (k + 1) * 2 ^ k) * 2 := by rw [pow_succ 2 k]; ring
        rw [h1, h2, Nat.mul_div_cancel _ (by omega), Nat.mul_div_cancel _ (by omega), pow_succ 2 k]
        ring
    refine ticks_bind (ticks_fftT k n evens hp.1) (fun e he => ?_) key
    refine ticks_bind (ticks_fftT k n odds hp.2) (fun d hd => ?_) rfl
    have := ticks_combineT O (2 ^ (k + 1)) (2 ^ k) e d (2 ^ k) x
    rw [hx] at this
    exact this

theorem ticks_ifftT (k n : Nat) (x : List (Cx F)) (hx : x.length = 2 ^ k) :
    Ticks (ifftComplexT O n x) (15 * (k * 2 ^ k) / 2 + 4 * 2 ^ k + 1) fun ys => ys.length = x.length := by
  unfold ifftComplexT
  refine ticks_bind (ticks_each (ticks_conjT O) x) (fun y hy => ?_) (d := 15 * (k * 2 ^ k) / 2 + 3 * 2 ^ k + 1) (by rw [hx]; omega)
  refine ticks_bind (ticks_fftT O k n y (hy.trans hx)) (fun z hz => ?_) (d := 1 + 2 ^ k * 3) (by omega)
  refine ticks_bind ticks_tick (fun s _ => ?_) rfl
  have := ticks_each (f := fun e => do let c ← Cx.conjT O e; Cx.divByT O c s) (c := 3)
    (fun a => ticks_bind (ticks_conjT O a) (fun c _ => ticks_divByT O c s) rfl) z
  rw [hz, hy] at this
  rw [← hx]
  exact this

theorem ticks_carryStepT (L : Limits) (c : Nat) (x : F) : Ticks (carryStepT O L c x) 5 fun _ => True := by
  unfold carryStepT
  refine ticks_bind (d := 4) ticks_tick (fun _ _ => ?_) rfl
  refine ticks_bind (d := 3) ticks_tick (fun _ _ => ?_) rfl
  refine ticks_bind (d := 2) ticks_tick (fun _ _ => ?_) rfl
  refine ticks_bind (d := 1) ticks_tick (fun _ _ => ?_) rfl
  exact ticks_bind ticks_tick (fun _ _ => ticks_still fun _ _ => trivial) rfl

theorem ticks_carryLoopT (L : Limits) : ∀ (xs : List F) (c : Nat), Ticks (carryLoopT O L c xs) (5 * xs.length) fun _ => True
  | [], c => by rw [carryLoopT]; exact ticks_pure trivial
  | x :: xs, c => by
    rw [carryLoopT]
    refine ticks_bind (ticks_carryStepT O L c x) (fun r _ => ?_) (d := 5 * xs.length) (by simp only [List.length_cons]; omega)
    exact ticks_bind (ticks_carryLoopT L xs _) (fun _ _ => ticks_pure trivial) rfl

theorem ticks_tableT (a b : List Nat) : Ticks (createFftTableT O a b) (fftTableSize a.length b.length * 2)
    fun ys => ys.length = fftTableSize a.length b.length := by
  unfold createFftTableT
  have := ticks_each (f := fun i => (do
    let aVal ← still (cellOrZero a i)
    let bVal ← still (cellOrZero b i)
    let re ← tick O fun o => o.ofNat aVal
    let im ← tick O fun o => o.ofNat bVal
    pure ⟨re, im⟩ : Timed (Cx F))) (c := 2) (fun i => ?_) (List.range (fftTableSize a.length b.length))
  · simpa using this
  · refine ticks_bind (d := 2) (ticks_still (P := fun _ => True) fun _ _ => trivial) (fun e _ => ?_) rfl
    refine ticks_bind (d := 2) (ticks_still (P := fun _ => True) fun _ _ => trivial) (fun d _ => ?_) rfl
    exact ticks_bind ticks_tick (fun _ _ => ticks_bind ticks_tick (fun _ _ => ticks_pure trivial) rfl) rfl

theorem ticks_pointT (ts : List (Cx F)) (m i : Nat) : Ticks (convolutePointT O ts m i) 10 fun _ => True := by
  unfold convolutePointT
  refine ticks_bind (d := 10) (ticks_still (P := fun _ => True) fun _ _ => trivial) (fun e _ => ?_) rfl
  refine ticks_bind (d := 10) (ticks_still (P := fun _ => True) fun _ _ => trivial) (fun d _ => ?_) rfl
  refine ticks_bind (d := 9) (ticks_conjT O _) (fun _ _ => ?_) rfl
  refine ticks_bind (d := 7) (ticks_addT O _ _) (fun _ _ => ?_) rfl
  refine ticks_bind (d := 5) (ticks_subT O _ _) (fun _ _ => ?_) rfl
  refine ticks_bind (d := 3) (ticks_mulT O _ _) (fun _ _ => ?_) rfl
  exact ticks_bind ticks_tick (fun _ _ => ticks_quarterT O _) rfl

theorem ticks_convoluteT (k n : Nat) (x : List (Cx F)) (hx : x.length = 2 ^ k) :
    Ticks (convoluteFftT O n x) (15 * (k * 2 ^ k) / 2 + 2 ^ k * 10) fun ys => ys.length = x.length := by
  unfold convoluteFftT
  refine ticks_bind (ticks_fftT O k n x hx) (fun y hy => ?_) rfl
  have := ticks_each (ticks_pointT O y x.length) (List.range x.length)
  simp only [List.length_range] at this
  rw [hx] at this ⊢
  exact this

theorem ticks_mulStrassenT (L : Limits) (env : Env) (n : Nat) (a b : List Nat) {k : Nat} (hs : fftTableSize a.length b.length = 2 ^ k) :
    Ticks (mulStrassenT O L env n a b) (2 ^ k * (15 * k + 21) + 1) fun _ => True := by
  unfold mulStrassenT
  split
  · intro t a t' e
    cases e
  · have key : 2 ^ k * (15 * k + 21) = 15 * (k * 2 ^ k) / 2 + 15 * (k * 2 ^ k) / 2 + 21 * 2 ^ k := by
      rcases k with _ | k
      · rfl
      · have h2 : 15 * ((k + 1) * 2 ^ (k + 1)) = (15 * (k + 1) * 2 ^ k) * 2 := by rw [pow_succ 2 k]; ring
        rw [h2, Nat.mul_div_cancel _ (by omega), pow_succ 2 k]
        ring
    refine ticks_bind (ticks_tableT O a b) (fun x hx => ?_)
      (d := 15 * (k * 2 ^ k) / 2 + 15 * (k * 2 ^ k) / 2 + 19 * 2 ^ k + 1) (by rw [hs]; omega)
    rw [hs] at hx
    refine ticks_bind (ticks_convoluteT O k n x hx) (fun y hy => ?_) (d := 15 * (k * 2 ^ k) / 2 + 9 * 2 ^ k + 1) (by omega)
    rw [hx] at hy
    refine ticks_bind (ticks_ifftT O k n y hy) (fun z hz => ?_) (d := 5 * 2 ^ k) (by omega)
    rw [hy] at hz
    refine ticks_bind (ticks_carryLoopT O L _ _) (fun r _ => ticks_still fun _ _ => trivial) ?_
    simp [hz]

end
end BN
