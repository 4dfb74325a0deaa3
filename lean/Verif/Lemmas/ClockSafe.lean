import Verif.Lemmas.Clock
import Verif.Lemmas.MulStrassen
/-
Code with a clock whose arithmetic is arbitrary: no cell outside a list is touched, and every loop ends.
-/
namespace BN

section
variable {F : Type} (O : Nat → FloatOps F)

theorem runs_addT (x y : Cx F) : Runs (Cx.addT O x y) fun _ => True :=
  runs_bind (P := fun _ => True) (runs_tick fun _ => trivial) fun _ _ => runs_bind (P := fun _ => True) (runs_tick fun _ => trivial)
    fun _ _ => runs_pure trivial
theorem runs_subT (x y : Cx F) : Runs (Cx.subT O x y) fun _ => True :=
  runs_bind (P := fun _ => True) (runs_tick fun _ => trivial) fun _ _ => runs_bind (P := fun _ => True) (runs_tick fun _ => trivial)
    fun _ _ => runs_pure trivial
theorem runs_mulT (x y : Cx F) : Runs (Cx.mulT O x y) fun _ => True :=
  runs_bind (P := fun _ => True) (runs_tick fun _ => trivial) fun _ _ => runs_bind (P := fun _ => True) (runs_tick fun _ => trivial)
    fun _ _ => runs_pure trivial
theorem runs_quarterT (x : Cx F) : Runs (Cx.quarterT O x) fun _ => True :=
  runs_bind (P := fun _ => True) (runs_tick fun _ => trivial) fun _ _ => runs_bind (P := fun _ => True) (runs_tick fun _ => trivial)
    fun _ _ => runs_pure trivial
theorem runs_divByT (x : Cx F) (s : F) : Runs (Cx.divByT O x s) fun _ => True :=
  runs_bind (P := fun _ => True) (runs_tick fun _ => trivial) fun _ _ => runs_bind (P := fun _ => True) (runs_tick fun _ => trivial)
    fun _ _ => runs_pure trivial
theorem runs_conjT (x : Cx F) : Runs (Cx.conjT O x) fun _ => True :=
  runs_bind (P := fun _ => True) (runs_tick fun _ => trivial) fun _ _ => runs_pure trivial

theorem runs_twiddleT (len k : Nat) : Runs (twiddleT O len k) fun _ => True := by
  unfold twiddleT
  iterate 7 refine runs_bind (P := fun _ => True) (runs_tick fun _ => trivial) fun _ _ => ?_
  exact runs_pure trivial

theorem runs_combineT {k : Nat} {e d f : Nat → Cx F} : ∀ i ≤ 2 ^ k,
    Runs (fftCombineT O (2 ^ (k + 1)) (2 ^ k) (tab (2 ^ k) e) (tab (2 ^ k) d) i (tab (2 ^ (k + 1)) f)) fun ys => ∃ y, ys = tab (2 ^ (k + 1)) y
  | 0, _ => runs_pure ⟨f, rfl⟩
  | i + 1, hi => by
    have e2 : (2 : Nat) ^ (k + 1) = 2 * 2 ^ k := by rw [Nat.pow_succ]; omega
    rw [fftCombineT]
    refine runs_bind (runs_combineT i (by omega)) fun x hx => ?_
    obtain ⟨y, rfl⟩ := hx
    refine runs_bind (runs_twiddleT O _ _) fun w _ => ?_
    refine runs_bind (P := fun _ => True) (runs_still (rdAt_tab e (by omega)) trivial) fun a _ => ?_
    refine runs_bind (P := fun _ => True) (runs_still (rdAt_tab d (by omega)) trivial) fun b _ => ?_
    rw [if_pos (by simp only [tab_length]; omega)]
    refine runs_bind (runs_mulT O _ _) fun p _ => ?_
    refine runs_bind (runs_addT O _ _) fun lo _ => ?_
    refine runs_bind (runs_mulT O _ _) fun q _ => ?_
    refine runs_bind (runs_subT O _ _) fun hi _ => runs_pure ?_
    rw [tab_set, tab_set]
    exact ⟨_, rfl⟩

theorem runs_fftT : ∀ {k : Nat} {f : Nat → Cx F} {n : Nat}, k < n →
    Runs (fftComplexT O n (tab (2 ^ k) f)) fun ys => ∃ y, ys = tab (2 ^ k) y
  | 0, f, n, hn => by
    obtain ⟨n, rfl⟩ : ∃ m, n = m + 1 := ⟨n - 1, by omega⟩
    rw [fftComplexT]
    simp only [tab_length, pow_zero, if_true]
    exact runs_pure ⟨f, rfl⟩
  | k + 1, f, n, hn => by
    obtain ⟨n, rfl⟩ : ∃ m, n = m + 1 := ⟨n - 1, by omega⟩
    have hp : 0 < 2 ^ k := Nat.pow_pos (by omega)
    have e2 : (2 : Nat) ^ (k + 1) = 2 * 2 ^ k := by rw [Nat.pow_succ]; omega
    have eh : (2 : Nat) ^ (k + 1) / 2 = 2 ^ k := by omega
    rw [fftComplexT]
    simp only [tab_length]
    rw [if_neg (by omega), eh]
    refine runs_bind (P := fun a => a = (tab (2 ^ k) (fun t => f (2 * t)), tab (2 ^ k) (fun t => f (2 * t + 1))))
      (runs_still (by rw [e2]; exact fftPartition_eq f _ (Nat.le_refl _)) rfl) fun p hp => ?_
    subst hp
    refine runs_bind (runs_fftT (k := k) (f := fun t => f (2 * t)) (by omega)) fun xs hx => ?_
    obtain ⟨e, rfl⟩ := hx
    refine runs_bind (runs_fftT (k := k) (f := fun t => f (2 * t + 1)) (by omega)) fun xs hx => ?_
    obtain ⟨d, rfl⟩ := hx
    exact runs_combineT O _ (Nat.le_refl _)

theorem runs_ifftT {k : Nat} {f : Nat → Cx F} {n : Nat} (hn : k < n) :
    Runs (ifftComplexT O n (tab (2 ^ k) f)) fun ys => ∃ y, ys = tab (2 ^ k) y := by
  unfold ifftComplexT
  refine runs_bind (runs_each_tab (R := fun _ _ => True) (f 0) fun t _ => runs_conjT O _) fun qs hqs => ?_
  obtain ⟨q, rfl, -⟩ := hqs
  refine runs_bind (runs_fftT O hn) fun zs hzs => ?_
  obtain ⟨z, rfl⟩ := hzs
  refine runs_bind (P := fun _ => True) (runs_tick fun _ => trivial) fun s _ => ?_
  refine runs_mono (runs_each_tab (R := fun _ _ => True) (f 0) fun j _ => ?_) fun ys ⟨y, hy, _⟩ => ⟨y, hy⟩
  exact runs_bind (runs_conjT O _) fun c _ => runs_divByT O _ _

theorem runs_pipelineT {a b : List Nat} {k n : Nat} (hk : k ≤ 64) (hn : k < n) (hs : fftTableSize a.length b.length = 2 ^ k) :
    Runs (do
      let table ← createFftTableT O a b
      let table ← convoluteFftT O n table
      ifftComplexT O n table) fun ys => ∃ y, ys = tab (2 ^ k) y := by
  have hl : ∀ n, List.range n = tab n fun i => i := fun n => by simp [tab]
  have ht : Runs (createFftTableT O a b) fun ys => ∃ y, ys = tab (2 ^ k) y := by
    unfold createFftTableT
    rw [hl, hs]
    refine runs_mono (runs_each_tab (R := fun _ _ => True) (⟨(O 0).pi, (O 0).pi⟩ : Cx F) fun t _ => ?_) fun ys ⟨y, hy, _⟩ => ⟨y, hy⟩
    refine runs_bind (P := fun _ => True) (runs_still (cellOrZero_eq a t) trivial) fun d _ => ?_
    refine runs_bind (P := fun _ => True) (runs_still (cellOrZero_eq b t) trivial) fun e _ => ?_
    refine runs_bind (P := fun _ => True) (runs_tick fun _ => trivial) fun _ _ => ?_
    exact runs_bind (P := fun _ => True) (runs_tick fun _ => trivial) fun _ _ => runs_pure trivial
  refine runs_bind ht fun table hx => ?_
  obtain ⟨f, rfl⟩ := hx
  refine runs_bind (P := fun ys => ∃ y, ys = tab (2 ^ k) y) ?_ fun ps hps => ?_
  · unfold convoluteFftT
    rw [tab_length]
    refine runs_bind (runs_fftT O hn) fun ts hts => ?_
    obtain ⟨t, rfl⟩ := hts
    rw [hl]
    refine runs_mono (runs_each_tab (R := fun _ _ => True) (f 0) fun j hj => ?_) fun ys ⟨y, hy, _⟩ => ⟨y, hy⟩
    unfold convolutePointT
    refine runs_bind (P := fun _ => True) (runs_still (rdAt_tab t hj) trivial) fun a _ => ?_
    refine runs_bind (P := fun _ => True)
      (runs_still (by rw [negIdx_eq hk hj]; exact rdAt_tab t (Nat.mod_lt _ (Nat.pow_pos (by omega)))) trivial) fun b _ => ?_
    refine runs_bind (runs_conjT O _) fun _ _ => runs_bind (runs_addT O _ _) fun _ _ => runs_bind (runs_subT O _ _) fun _ _ =>
      runs_bind (runs_mulT O _ _) fun _ _ => runs_bind (P := fun _ => True) (runs_tick fun _ => trivial) fun _ _ => runs_quarterT O _
  · obtain ⟨p, rfl⟩ := hps
    exact runs_ifftT O hn

/-- The code ends with a result as described, or with an undefined conversion. -/
def Ends {α : Type} (m : Timed α) (P : α → Prop) : Prop :=
  ∀ t, (∃ a t', m t = .ok (a, t') ∧ P a) ∨ m t = .error (.ub .floatToInt)

theorem ends_bind {α β : Type} {m : Timed α} {f : α → Timed β} {P : α → Prop} {Q : β → Prop} (hm : Ends m P)
    (hf : ∀ a, P a → Ends (f a) Q) : Ends (m >>= f) Q := by
  intro t
  rcases hm t with ⟨a, t', h1, h2⟩ | h
  · rw [Timed.bind_eq, h1]
    exact hf a h2 t'
  · right
    rw [Timed.bind_eq, h]

theorem Runs.ends {α : Type} {m : Timed α} {P : α → Prop} (h : Runs m P) : Ends m P := fun t => .inl (h t)

theorem ends_carryStepT {L : Limits} (h : Supported L) (c : Nat) (x : F) : Ends (carryStepT O L c x) fun r => r.1 < L.base := by
  unfold carryStepT
  iterate 4 refine ends_bind (Runs.ends (P := fun _ => True) (runs_tick fun _ => trivial)) fun _ _ => ?_
  rename_i y _
  refine ends_bind (P := fun r => r = .error (.ub .floatToInt) ∨ ∃ z : Nat, L.double.raw.fits z = true ∧ r = .ok ⟨L.double, z⟩)
    (Runs.ends (runs_tick fun t => ?_)) fun r hr => ?_
  · unfold floatToDouble
    by_cases hf : L.double.raw.fits ((O t).trunc y) = true
    · right
      obtain ⟨z, hz⟩ := Int.eq_ofNat_of_zero_le (fits_nonneg h hf)
      refine ⟨z, by rw [← hz]; exact hf, ?_⟩
      simp only
      rw [if_pos hf, hz]
    · left
      simp only
      rw [if_neg hf]
  · rcases hr with rfl | ⟨z, hz, rfl⟩
    · exact fun t => .inr rfl
    · refine Runs.ends (runs_still (a := (z % L.base, z / L.base)) ?_ (Nat.mod_lt _ (Nat.succ_pos _)))
      rw [ok_bind]
      exact carryDigit_eq h hz

theorem ends_carryLoopT {L : Limits} (h : Supported L) : ∀ (xs : List F) (c : Nat), Ends (carryLoopT O L c xs) fun ds => InRange L.base ds
  | [], _ => Runs.ends (runs_pure (.nil _))
  | x :: xs, c => by
    rw [carryLoopT]
    refine ends_bind (ends_carryStepT O h c x) fun r hr => ?_
    refine ends_bind (ends_carryLoopT h xs _) fun ds hds => Runs.ends (runs_pure ?_)
    exact hds.cons hr

theorem mulStrassenT_cases {L : Limits} (h : Supported L) (env : Env) {fuel : Nat} (hfuel : 32 < fuel) {a b : List Nat}
    (h1 : 1 ≤ a.length + b.length) (h2 : a.length + b.length ≤ 2 ^ 32) :
    (env.alloc (fftTableSize a.length b.length) = false ∧ (mulStrassenT O L env fuel a b).outcome = .error (.exn .badAlloc)) ∨
    (mulStrassenT O L env fuel a b).outcome = .error (.ub .floatToInt) ∨
    ∃ c, (mulStrassenT O L env fuel a b).outcome = .ok c ∧ InRange L.base c ∧ NoLeadingZero c := by
  by_cases hal : env.alloc (fftTableSize a.length b.length) = true
  · right
    obtain ⟨k, hk, hs, -, -⟩ := fftTableSize_eq h1 h2
    have key : Ends (mulStrassenT O L env fuel a b) fun c => InRange L.base c ∧ NoLeadingZero c := by
      unfold mulStrassenT
      rw [if_neg (by simp [hal])]
      have hsplit : ∀ rest : List (Cx F) → Timed (List Nat), (do
          let table ← createFftTableT O a b
          let table ← convoluteFftT O fuel table
          let inverses ← ifftComplexT O fuel table
          rest inverses) = (do
          let table ← createFftTableT O a b
          let table ← convoluteFftT O fuel table
          ifftComplexT O fuel table) >>= rest := by
        intro rest; simp only [bind_assoc]
      rw [hsplit]
      refine ends_bind (runs_pipelineT O (by omega) (by omega) hs).ends fun ys _ => ?_
      refine ends_bind (ends_carryLoopT O h _ _) fun ds hds => Runs.ends ?_
      exact runs_still (stripTop_eq env ds) ⟨trim_inRange hds, trim_noLeadingZero _⟩
    rcases key 0 with ⟨c, t', e, hc⟩ | e
    · right
      exact ⟨c, by rw [Timed.outcome, e], hc⟩
    · left
      rw [Timed.outcome, e]
  · left
    have hal' : env.alloc (fftTableSize a.length b.length) = false := by simpa using hal
    refine ⟨hal', ?_⟩
    unfold mulStrassenT
    rw [if_pos (by simp [hal'])]
    rfl

end
end BN
