import Verif.Model.Clock
import Verif.Lemmas.FftShape
/-
Reasoning about code with a clock: what holds of its result at whatever time it is started, and the arithmetic that never changes.
-/
namespace BN

/-- The code ends without a fault at whatever time it starts, with a result as described. -/
def Runs {α : Type} (m : Timed α) (P : α → Prop) : Prop := ∀ t, ∃ a t', m t = .ok (a, t') ∧ P a

section
variable {α β : Type} {P : α → Prop} {Q : β → Prop}

theorem Timed.bind_eq (m : Timed α) (f : α → Timed β) (t : Nat) : (m >>= f) t = match m t with
    | .ok (a, t') => f a t'
    | .error e => .error e := by
  show (StateT.bind m f) t = _
  simp only [StateT.bind, bind, Except.bind]
  cases m t <;> rfl

theorem runs_pure {a : α} (h : P a) : Runs (pure a) P := fun t => ⟨a, t, rfl, h⟩

theorem runs_bind {m : Timed α} {f : α → Timed β} (hm : Runs m P) (hf : ∀ a, P a → Runs (f a) Q) : Runs (m >>= f) Q := by
  intro t
  obtain ⟨a, t', h1, h2⟩ := hm t
  obtain ⟨b, t'', h3, h4⟩ := hf a h2 t'
  exact ⟨b, t'', by rw [Timed.bind_eq, h1]; exact h3, h4⟩

theorem runs_mono {m : Timed α} {P' : α → Prop} (hm : Runs m P) (h : ∀ a, P a → P' a) : Runs m P' := fun t =>
  let ⟨a, t', h1, h2⟩ := hm t
  ⟨a, t', h1, h a h2⟩

theorem runs_tick {F : Type} {O : Nat → FloatOps F} {f : FloatOps F → α} (h : ∀ t, P (f (O t))) : Runs (tick O f) P := fun t =>
  ⟨_, t + 1, rfl, h t⟩

theorem runs_still {r : Res α} {a : α} (hr : r = .ok a) (h : P a) : Runs (still r) P := fun t => ⟨a, t, by rw [hr]; rfl, h⟩

theorem runs_outcome {m : Timed α} (h : Runs m P) : ∃ a, m.outcome = .ok a ∧ P a := by
  obtain ⟨a, t', h1, h2⟩ := h 0
  exact ⟨a, by rw [Timed.outcome, h1], h2⟩

/-- A loop over a list, entry by entry. -/
theorem runs_each {f : α → Timed β} {R : Nat → β → Prop} : ∀ {l : List α}, β → (∀ i (h : i < l.length), Runs (f l[i]) (R i)) →
    Runs (eachT f l) fun ys => ∃ g : Nat → β, ys = tab l.length g ∧ ∀ i < l.length, R i (g i)
  | [], d, _ => runs_pure ⟨fun _ => d, by simp [tab], fun i hi => absurd hi (by simp)⟩
  | x :: xs, d, h => by
    rw [eachT]
    refine runs_bind (h 0 (by simp)) fun y hy => ?_
    refine runs_bind (runs_each (R := fun i => R (i + 1)) d fun i hi => h (i + 1) (by simpa using hi)) fun ys hys => runs_pure ?_
    obtain ⟨g, rfl, hg⟩ := hys
    refine ⟨fun i => match i with | 0 => y | i + 1 => g i, ?_, ?_⟩
    · simp [tab, List.range_succ_eq_map]
    · rintro (_ | i) hi
      · exact hy
      · exact hg i (by simpa using hi)

/-- The same over a table. -/
theorem runs_each_tab {f : α → Timed β} {R : Nat → β → Prop} {n : Nat} {g : Nat → α} (d : β) (h : ∀ i < n, Runs (f (g i)) (R i)) :
    Runs (eachT f (tab n g)) fun ys => ∃ y : Nat → β, ys = tab n y ∧ ∀ i < n, R i (y i) := by
  have := runs_each (f := f) (R := R) (l := tab n g) d fun i hi => by
    have e : (tab n g)[i] = g i := by simp [tab]
    rw [e]; exact h i (by simpa using hi)
  simpa using this

end

/-! ### An arithmetic that never changes -/

/-- The timed code does what the other does. -/
def Same {α : Type} (m : Timed α) (r : Res α) : Prop := ∀ t, ∃ t', m t = still r t'

section
variable {α β : Type}

theorem same_pure (a : α) : Same (pure a) (.ok a) := fun t => ⟨t, rfl⟩

theorem same_still (r : Res α) : Same (still r) r := fun t => ⟨t, rfl⟩

theorem same_bind {m : Timed α} {r : Res α} {f : α → Timed β} {g : α → Res β} (h : Same m r) (hf : ∀ a, Same (f a) (g a)) :
    Same (m >>= f) (r >>= g) := by
  intro t
  obtain ⟨t', h1⟩ := h t
  rw [Timed.bind_eq, h1]
  cases r with
  | ok a => exact hf a t'
  | error e => exact ⟨t', rfl⟩

theorem same_step {m : Timed α} {a : α} {f : α → Timed β} {r : Res β} (h : Same m (.ok a)) (hf : Same (f a) r) : Same (m >>= f) r := by
  intro t
  obtain ⟨t', h1⟩ := h t
  rw [Timed.bind_eq, h1]
  exact hf t'

theorem same_outcome {m : Timed α} {r : Res α} (h : Same m r) : m.outcome = r := by
  obtain ⟨t', h1⟩ := h 0
  unfold Timed.outcome
  rw [h1]
  cases r <;> rfl

variable {F : Type} (o : FloatOps F)

theorem same_tick (f : FloatOps F → α) : Same (tick (fun _ => o) f) (.ok (f o)) := fun t => ⟨t + 1, rfl⟩

theorem same_addT (x y : Cx F) : Same (Cx.addT (fun _ => o) x y) (.ok (Cx.add o x y)) :=
  same_step (same_tick o _) (same_step (same_tick o _) (same_pure _))
theorem same_subT (x y : Cx F) : Same (Cx.subT (fun _ => o) x y) (.ok (Cx.sub o x y)) :=
  same_step (same_tick o _) (same_step (same_tick o _) (same_pure _))
theorem same_mulT (x y : Cx F) : Same (Cx.mulT (fun _ => o) x y) (.ok (Cx.mul o x y)) :=
  same_step (same_tick o _) (same_step (same_tick o _) (same_pure _))
theorem same_quarterT (x : Cx F) : Same (Cx.quarterT (fun _ => o) x) (.ok (Cx.scale o x o.quarter)) :=
  same_step (same_tick o _) (same_step (same_tick o _) (same_pure _))
theorem same_divByT (x : Cx F) (s : F) : Same (Cx.divByT (fun _ => o) x s) (.ok (Cx.divBy o x s)) :=
  same_step (same_tick o _) (same_step (same_tick o _) (same_pure _))
theorem same_conjT (x : Cx F) : Same (Cx.conjT (fun _ => o) x) (.ok (Cx.conj o x)) :=
  same_step (same_tick o _) (same_pure _)

theorem same_twiddleT (len k : Nat) : Same (twiddleT (fun _ => o) len k) (.ok (twiddle o len k)) :=
  same_step (same_tick o _) <| same_step (same_tick o _) <| same_step (same_tick o _) <| same_step (same_tick o _) <|
    same_step (same_tick o _) <| same_step (same_tick o _) <| same_step (same_tick o _) (same_pure _)

theorem same_combine (len halfLen : Nat) (evens odds : List (Cx F)) : ∀ k x,
    Same (fftCombineT (fun _ => o) len halfLen evens odds k x) (fftCombine o len halfLen evens odds k x)
  | 0, x => same_pure _
  | k + 1, x => by
    rw [fftCombineT, fftCombine]
    refine same_bind (same_combine len halfLen evens odds k x) fun x => ?_
    refine same_step (same_twiddleT o len k) ?_
    refine same_bind (same_still _) fun e => same_bind (same_still _) fun d => ?_
    split
    · exact same_step (same_mulT o _ _) <| same_step (same_addT o _ _) <| same_step (same_mulT o _ _) <| same_step (same_subT o _ _)
        (same_pure _)
    · exact same_still _

theorem same_fft : ∀ fuel (x : List (Cx F)), Same (fftComplexT (fun _ => o) fuel x) (fftComplex o fuel x)
  | 0, x => same_still _
  | n + 1, x => by
    rw [fftComplexT, fftComplex]
    simp only
    split
    · exact same_pure _
    · exact same_bind (same_still _) fun p => same_bind (same_fft n _) fun e => same_bind (same_fft n _) fun d => same_combine o _ _ _ _ _ _

theorem same_each {f : α → Timed β} {g : α → Res β} (h : ∀ a, Same (f a) (g a)) : ∀ l, Same (eachT f l) (l.mapM g)
  | [] => same_pure _
  | x :: xs => by
    rw [eachT, List.mapM_cons]
    exact same_bind (h x) fun y => same_bind (same_each h xs) fun ys => same_pure _

theorem same_ifft (fuel : Nat) (x : List (Cx F)) : Same (ifftComplexT (fun _ => o) fuel x) (ifftComplex o fuel x) := by
  unfold ifftComplexT ifftComplex
  have h := same_each (same_conjT o) x
  rw [mapM_ok _ _ _ fun _ _ => rfl] at h
  refine same_step h (same_bind (same_fft o fuel _) fun y => same_step (same_tick o _) ?_)
  have h' := same_each (f := fun e => do let c ← Cx.conjT (fun _ => o) e; Cx.divByT (fun _ => o) c (o.ofNat y.length))
    (g := fun e => .ok (Cx.divBy o (Cx.conj o e) (o.ofNat y.length))) (fun e => same_step (same_conjT o e) (same_divByT o _ _)) y
  rw [mapM_ok _ _ _ fun _ _ => rfl] at h'
  exact h'

theorem same_table (a b : List Nat) : Same (createFftTableT (fun _ => o) a b) (createFftTable o a b) := by
  unfold createFftTableT createFftTable
  refine same_each (fun i => ?_) _
  refine same_bind (same_still _) fun x => same_bind (same_still _) fun y => ?_
  exact same_step (same_tick o _) <| same_step (same_tick o _) (same_pure _)

theorem same_point (x : List (Cx F)) (n i : Nat) : Same (convolutePointT (fun _ => o) x n i) (convolutePoint o x n i) := by
  unfold convolutePointT convolutePoint
  refine same_bind (same_still _) fun ti => same_bind (same_still _) fun tn => ?_
  refine same_step (same_conjT o tn) <| same_step (same_addT o _ _) <| same_step (same_subT o _ _) <| same_step (same_mulT o _ _) ?_
  refine same_step (same_tick o _) ?_
  exact same_quarterT o _

theorem same_convolute (fuel : Nat) (x : List (Cx F)) : Same (convoluteFftT (fun _ => o) fuel x) (convoluteFft o fuel x) :=
  same_bind (same_fft o fuel x) fun y => same_each (same_point o y _) _

theorem same_carryStep (L : Limits) (c : Nat) (x : F) : Same (carryStepT (fun _ => o) L c x) (carryStep o L c x) :=
  same_step (same_tick o _) <| same_step (same_tick o _) <| same_step (same_tick o _) <| same_step (same_tick o _) <|
    same_step (same_tick o _) (same_still _)

theorem same_carryLoop (L : Limits) : ∀ (xs : List F) (c : Nat), Same (carryLoopT (fun _ => o) L c xs) (carryLoop o L c xs)
  | [], c => same_pure _
  | x :: xs, c => by
    rw [carryLoopT, carryLoop]
    exact same_bind (same_carryStep o L c x) fun p => same_bind (same_carryLoop L xs p.2) fun ds => same_pure _

theorem same_mulStrassen (L : Limits) (env : Env) (fuel : Nat) (a b : List Nat) :
    Same (mulStrassenT (fun _ => o) L env fuel a b) (mulStrassen o L env fuel a b) := by
  unfold mulStrassenT mulStrassen
  split
  · exact same_still _
  · exact same_bind (same_table o a b) fun t => same_bind (same_convolute o fuel t) fun t => same_bind (same_ifft o fuel t) fun v =>
      same_bind (same_carryLoop o L _ 0) fun ret => same_still _

end
end BN
