import Verif.Model.MulStrassen
import Verif.Lemmas.Pow2
import Verif.Lemmas.Digit2
import Mathlib.Data.List.GetD
/-
The transforms of fourier_impl.h as functions of the index, for arbitrary floating-point operations.
-/
namespace BN
variable {F : Type} (o : FloatOps F)

/-- The list of the values of `f` on [0, n). -/
def tab {α : Type} (n : Nat) (f : Nat → α) : List α := (List.range n).map f

@[simp] theorem tab_length {α : Type} (n : Nat) (f : Nat → α) : (tab n f).length = n := by simp [tab]

theorem rdAt_tab {α : Type} {n i : Nat} (f : Nat → α) (h : i < n) : rdAt (tab n f) i = .ok (f i) := by
  simp [rdAt, tab, h]

theorem tab_succ {α : Type} (n : Nat) (f : Nat → α) : tab (n + 1) f = tab n f ++ [f n] := by
  simp [tab, List.range_succ]

theorem tab_congr {α : Type} {n : Nat} {f g : Nat → α} (h : ∀ i, i < n → f i = g i) : tab n f = tab n g := by
  unfold tab
  apply List.map_congr_left
  intro i hi; exact h i (List.mem_range.1 hi)

theorem tab_set {α : Type} {n i : Nat} (f : Nat → α) (v : α) :
    (tab n f).set i v = tab n (fun t => if t = i then v else f t) := by
  apply List.ext_getElem
  · simp
  · intro t h1 h2
    simp only [tab, List.getElem_set, List.getElem_map, List.getElem_range]
    by_cases h : i = t
    · simp [h]
    · simp [h, Ne.symm h]

theorem tab_map {α β : Type} (n : Nat) (f : Nat → α) (g : α → β) : (tab n f).map g = tab n (fun i => g (f i)) := by
  simp [tab]

theorem fftPartition_eq {h : Nat} (f : Nat → Cx F) : ∀ i, i ≤ h →
    fftPartition (tab (2 * h) f) h i = .ok (tab i (fun t => f (2 * t)), tab i (fun t => f (2 * t + 1)))
  | 0, _ => rfl
  | i + 1, hi => by
    rw [fftPartition, fftPartition_eq f i (by omega), ok_bind]
    simp only [tab_length]
    rw [if_pos (by omega), rdAt_tab f (by omega), ok_bind, rdAt_tab f (by omega), ok_bind, tab_succ, tab_succ]

theorem fftCombine_eq {h : Nat} (e d f : Nat → Cx F) : ∀ i, i ≤ h →
    fftCombine o (2 * h) h (tab h e) (tab h d) i (tab (2 * h) f) = .ok (tab (2 * h) (fun t =>
      if t < i then Cx.add o (e t) (Cx.mul o (twiddle o (2 * h) t) (d t))
      else if h ≤ t ∧ t < h + i then Cx.sub o (e (t - h)) (Cx.mul o (twiddle o (2 * h) (t - h)) (d (t - h)))
      else f t))
  | 0, _ => by
    rw [fftCombine]
    refine congrArg Except.ok (tab_congr fun t _ => ?_)
    rw [if_neg (by omega), if_neg (by omega)]
  | i + 1, hi => by
    rw [fftCombine, fftCombine_eq e d f i (by omega), ok_bind, rdAt_tab e (by omega), ok_bind, rdAt_tab d (by omega), ok_bind]
    simp only [tab_length]
    rw [if_pos (by omega), tab_set, tab_set]
    refine congrArg Except.ok (tab_congr fun t _ => ?_)
    by_cases h1 : t = i + h
    · subst h1
      rw [if_pos rfl, if_neg (by omega), if_pos (by omega), show i + h - h = i by omega]
    · rw [if_neg h1]
      by_cases h2 : t = i
      · subst h2; rw [if_pos rfl, if_pos (by omega)]
      · rw [if_neg h2]
        by_cases h3 : t < i
        · rw [if_pos h3, if_pos (by omega)]
        · rw [if_neg h3]
          by_cases h4 : h ≤ t ∧ t < h + i
          · rw [if_pos h4, if_neg (show ¬ t < i + 1 by omega), if_pos (show h ≤ t ∧ t < h + (i + 1) by omega)]
          · rw [if_neg h4, if_neg (show ¬ t < i + 1 by omega), if_neg (show ¬ (h ≤ t ∧ t < h + (i + 1)) by omega)]

/-- Output `j` of the transform of `2 ^ k` points. -/
def fftF : Nat → (Nat → Cx F) → Nat → Cx F
  | 0, f, _ => f 0
  | k + 1, f, j =>
    if j < 2 ^ k then
      Cx.add o (fftF k (fun t => f (2 * t)) j) (Cx.mul o (twiddle o (2 ^ (k + 1)) j) (fftF k (fun t => f (2 * t + 1)) j))
    else
      Cx.sub o (fftF k (fun t => f (2 * t)) (j - 2 ^ k))
        (Cx.mul o (twiddle o (2 ^ (k + 1)) (j - 2 ^ k)) (fftF k (fun t => f (2 * t + 1)) (j - 2 ^ k)))

theorem fftComplex_eq : ∀ (k : Nat) (f : Nat → Cx F) {fuel : Nat}, k < fuel →
    fftComplex o fuel (tab (2 ^ k) f) = .ok (tab (2 ^ k) (fftF o k f))
  | 0, f, fuel, hf => by
    obtain ⟨n, rfl⟩ : ∃ n, fuel = n + 1 := ⟨fuel - 1, by omega⟩
    rw [fftComplex]; simp [tab, fftF]
  | k + 1, f, fuel, hf => by
    obtain ⟨n, rfl⟩ : ∃ n, fuel = n + 1 := ⟨fuel - 1, by omega⟩
    have hp : 0 < 2 ^ k := Nat.pow_pos (by omega)
    have e2 : 2 ^ (k + 1) = 2 * 2 ^ k := by rw [Nat.pow_succ]; omega
    rw [fftComplex]
    simp only [tab_length]
    rw [if_neg (by omega)]
    have eh : 2 ^ (k + 1) / 2 = 2 ^ k := by omega
    rw [eh, e2, fftPartition_eq f _ (Nat.le_refl _), ok_bind]
    simp only
    rw [fftComplex_eq k _ (by omega), ok_bind, fftComplex_eq k _ (by omega), ok_bind, fftCombine_eq o _ _ _ _ (Nat.le_refl _)]
    refine congrArg Except.ok (tab_congr fun t ht => ?_)
    rw [fftF, e2]
    by_cases h1 : t < 2 ^ k
    · rw [if_pos h1, if_pos h1]
    · rw [if_neg h1, if_neg h1, if_pos (by omega)]

/-- The transform of no points never ends. -/
theorem fftComplex_nil : ∀ fuel, fftComplex o fuel [] = .error .timeout
  | 0 => rfl
  | n + 1 => by
    rw [fftComplex]
    simp only [List.length_nil]
    rw [if_neg (by omega)]
    simp only [Nat.zero_div, fftPartition, ok_bind]
    rw [fftComplex_nil n]; rfl

/-- Output `i` of the inverse transform. -/
def ifftF (k : Nat) (f : Nat → Cx F) (i : Nat) : Cx F :=
  Cx.divBy o (Cx.conj o (fftF o k (fun t => Cx.conj o (f t)) i)) (o.ofNat (2 ^ k))

theorem ifftComplex_eq (k : Nat) (f : Nat → Cx F) {fuel : Nat} (hf : k < fuel) :
    ifftComplex o fuel (tab (2 ^ k) f) = .ok (tab (2 ^ k) (ifftF o k f)) := by
  unfold ifftComplex
  simp only [tab_map]
  rw [fftComplex_eq o k _ hf, ok_bind]
  simp only [tab_map, tab_length]
  rfl

/-- The pointwise product at frequency `i`. -/
def pointF (n : Nat) (t : Nat → Cx F) (i : Nat) : Cx F :=
  let ti := t i
  let tc := Cx.conj o (t ((n - i) % n))
  let x3 := Cx.mul o (Cx.add o ti tc) (Cx.sub o ti tc)
  Cx.scale o ⟨x3.im, o.neg x3.re⟩ o.quarter

theorem negIdx_eq {k i : Nat} (hk : k ≤ 64) (hi : i < 2 ^ k) : negIdx i (2 ^ k) = (2 ^ k - i) % 2 ^ k := by
  unfold negIdx
  have hle : 2 ^ k ≤ 2 ^ 64 := Nat.pow_le_pow_right (by omega) hk
  have hdvd : 2 ^ k ∣ 2 ^ 64 := Nat.pow_dvd_pow 2 hk
  rw [Nat.mod_eq_of_lt (show i < 2 ^ 64 by omega), Nat.mod_mod_of_dvd _ hdvd]
  obtain ⟨c, hc⟩ := hdvd
  have hc1 : 1 ≤ c := by
    rcases Nat.eq_zero_or_pos c with rfl | h
    · simp at hc
    · exact h
  obtain ⟨d, rfl⟩ : ∃ d, c = d + 1 := ⟨c - 1, by omega⟩
  rw [hc, Nat.mul_succ, Nat.add_sub_assoc (by omega), Nat.mul_add_mod]

theorem convolutePoint_eq {k i : Nat} (hk : k ≤ 64) (hi : i < 2 ^ k) (t : Nat → Cx F) :
    convolutePoint o (tab (2 ^ k) t) (2 ^ k) i = .ok (pointF o (2 ^ k) t i) := by
  unfold convolutePoint
  rw [rdAt_tab t hi, ok_bind, negIdx_eq hk hi, rdAt_tab t (Nat.mod_lt _ (by omega)), ok_bind]
  rfl

theorem mapM_ok {α β : Type} (f : α → Res β) (g : α → β) : ∀ (l : List α), (∀ x ∈ l, f x = .ok (g x)) →
    l.mapM f = .ok (l.map g)
  | [], _ => rfl
  | x :: l, h => by
    rw [List.mapM_cons, h x (by simp), ok_bind, mapM_ok f g l (fun y hy => h y (by simp [hy])), ok_bind]
    rfl

theorem convoluteFft_eq {k : Nat} (hk : k ≤ 64) (f : Nat → Cx F) {fuel : Nat} (hf : k < fuel) :
    convoluteFft o fuel (tab (2 ^ k) f) = .ok (tab (2 ^ k) (pointF o (2 ^ k) (fftF o k f))) := by
  unfold convoluteFft
  rw [fftComplex_eq o k f hf, ok_bind]
  simp only [tab_length]
  exact mapM_ok _ _ _ (fun i hi => convolutePoint_eq o hk (List.mem_range.1 hi) _)

/-- The packed input signal. -/
def packF (a b : List Nat) (i : Nat) : Cx F := ⟨o.ofNat (a.getD i 0), o.ofNat (b.getD i 0)⟩

theorem cellOrZero_eq (v : List Nat) (i : Nat) : cellOrZero v i = .ok (v.getD i 0) := by
  unfold cellOrZero
  split
  · rename_i h
    unfold rdAt
    rw [List.getElem?_eq_getElem h, List.getD_eq_getElem _ _ h]
  · rw [List.getD_eq_default _ _ (by omega)]

/-- No cell outside the operands is read. -/
theorem createFftTable_eq (a b : List Nat) :
    createFftTable o a b = .ok (tab (fftTableSize a.length b.length) (packF o a b)) :=
  mapM_ok _ _ _ fun i _ => by rw [cellOrZero_eq, cellOrZero_eq]; rfl

/-- Coefficient `i` of the product as computed: the real part of the inverse transform. -/
def coefF (k : Nat) (a b : List Nat) (i : Nat) : F :=
  (ifftF o k (pointF o (2 ^ k) (fftF o k (packF o a b))) i).re

/-- The floating-point part of `mul_strassen` is total for every non-empty table. -/
theorem pipeline_eq {k : Nat} (hk : k ≤ 32) {a b : List Nat} (hs : fftTableSize a.length b.length = 2 ^ k) {fuel : Nat}
    (hf : 32 < fuel) :
    (do let table ← createFftTable o a b
        let table ← convoluteFft o fuel table
        ifftComplex o fuel table) =
      .ok (tab (2 ^ k) (ifftF o k (pointF o (2 ^ k) (fftF o k (packF o a b))))) := by
  rw [createFftTable_eq, ok_bind, hs, convoluteFft_eq o (by omega) _ (by omega), ok_bind, ifftComplex_eq o _ _ (by omega)]

end BN
