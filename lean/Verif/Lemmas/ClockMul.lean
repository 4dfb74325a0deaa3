import Verif.Lemmas.ClockErr5
import Verif.Props.RoundingFft
/-
Products, programs and transforms when the arithmetic changes with time.
-/
namespace BN
open Bignum Complex Finset

/-- Products of up to K digits have the digits of the exact product, if the allocator serves the table. -/
def ExactProductsT {F : Type} (O : Nat → FloatOps F) (L : Limits) (K : Nat) : Prop :=
  ∀ (env : Env) (a b : List Nat) (n : Nat), WFDigits L.base a → WFDigits L.base b → 1 ≤ a.length + b.length → a.length + b.length ≤ K →
    32 < n → env.alloc (fftTableSize a.length b.length) = true →
    (mulStrassenT O L env n a b).outcome = .ok (Nat.digits L.base (natOf L.base a * natOf L.base b))

section
variable {F : Type} {val : F → ℝ} {fin : F → Prop} {O : ℕ → FloatOps F} (M : ∀ t, LawfulAt .anyMode val fin (O t))
include M

theorem anyMode_keyT {L : Limits} (h : Supported L) {env : Env} {a b : List Nat} {n : Nat}
    (hn : 32 < n) (hal : env.alloc (fftTableSize a.length b.length) = true) {K D N : Nat} (hK : K ≤ 32) (h1 : 1 ≤ a.length + b.length)
    (h2 : a.length + b.length ≤ 2 ^ K) (hD : D < L.base)
    (ha : InRange (D + 1) a) (hb : InRange (D + 1) b) (hN : min a.length b.length ≤ N)
    (hfit : L.double.raw.fits ((N * (D * (D + 1)) - 1 : Nat) : Int) = true) (h53 : D < 2 ^ 53) (hm53 : N * (D * (D + 1)) ≤ 2 ^ 53)
    {c2 : ℝ} (hc0 : 0 ≤ c2) (hc2 : ((D ^ 4 * (min a.length b.length * (a.length * b.length)) : ℕ) : ℝ) ≤ c2 ^ 2)
    (hsz : ((2 : ℝ) ^ K * ((D ^ 2 + 1) * 2 ^ K)) ≤ 2 ^ 72) (hE : FP.errBound FP.anyMode K D N c2 < 1 / 2) :
    ∃ c, (mulStrassenT O L env n a b).outcome = .ok c ∧ InRange L.base c ∧ NoLeadingZero c ∧
      natOf L.base c = natOf L.base a * natOf L.base b :=
  runs_outcome (FP.mulStrassenT_ok (φ := FP.anyMode) M h hn hK hK h1 h2 hal hD ha hb
    (fits_mono h (Nat.sub_le_sub_right (Nat.mul_le_mul_right _ hN) 1) hfit) h53 (Nat.le_trans (Nat.mul_le_mul_right _ hN) hm53) hc0 hc2 hsz
    (lt_of_le_of_lt (FP.errBound_mono hN c2) hE))

theorem exactProductsT_anyMode {L : Limits} {K : Nat} (hp : ModePreset L K) : ExactProductsT O L K := by
  intro env a b n ha hb h1 h2 hn hal
  have key : ∃ c, (mulStrassenT O L env n a b).outcome = .ok c ∧ InRange L.base c ∧ NoLeadingZero c ∧
      natOf L.base c = natOf L.base a * natOf L.base b := by
    cases hp
    · refine anyMode_keyT M (.inr ⟨8, 1, by norm_num, by norm_num, by norm_num, rfl⟩) hn hal (K := 9) (D := 1) (N := 128)
        (c2 := (2 ^ 12 : ℕ)) (by norm_num) h1 (by omega) (by decide) ha.1 hb.1 (by omega) (by decide) (by norm_num) (by norm_num)
        (Nat.cast_nonneg _) ?_ (by norm_num) ?_
      · have h3 := Nat.mul_le_mul_left (1 ^ 4) (len_mul_le (p := a.length) (q := b.length) (n := 129) (by omega))
        have h4 : (1 ^ 4 * (129 * (129 * 129)) : ℕ) ≤ (2 ^ 12) ^ 2 := by norm_num
        exact_mod_cast Nat.le_trans h3 h4
      · norm_num [FP.errBound, FP.anyMode, Format.anyMode, eta]
    · refine anyMode_keyT M (.inr ⟨16, 7, by norm_num, by norm_num, by norm_num, rfl⟩) hn hal (K := 12) (D := 7) (N := 1170)
        (c2 := (49 * 2 ^ 16 : ℕ)) (by norm_num) h1 (by omega) (by decide) ha.1 hb.1 (by omega) (by decide) (by norm_num) (by norm_num)
        (Nat.cast_nonneg _) ?_ (by norm_num) ?_
      · have h3 := Nat.mul_le_mul_left (7 ^ 4) (len_mul_le (p := a.length) (q := b.length) (n := 1171) (by omega))
        have h4 : (7 ^ 4 * (1171 * (1171 * 1171)) : ℕ) ≤ (49 * 2 ^ 16) ^ 2 := by norm_num
        exact_mod_cast Nat.le_trans h3 h4
      · norm_num [FP.errBound, FP.anyMode, Format.anyMode, eta]
    · refine anyMode_keyT M (.inr ⟨32, 9, by norm_num, by norm_num, by norm_num, rfl⟩) hn hal (K := 24) (D := 9) (N := 2 ^ 23)
        (c2 := (81 * 24296004000 : ℕ)) (by norm_num) h1 h2 (by decide) ha.1 hb.1 (by omega) (by decide) (by norm_num) (by norm_num)
        (Nat.cast_nonneg _) ?_ (by norm_num) ?_
      · have h3 := Nat.mul_le_mul_left (9 ^ 4) (len_mul_le (p := a.length) (q := b.length) (n := 2 ^ 23) (by omega))
        have h4 : (9 ^ 4 * (2 ^ 23 * (2 ^ 23 * 2 ^ 23)) : ℕ) ≤ (81 * 24296004000) ^ 2 := by norm_num
        exact_mod_cast Nat.le_trans h3 h4
      · norm_num [FP.errBound, FP.anyMode, Format.anyMode, eta]
    · refine anyMode_keyT M (.inr ⟨32, 15, by norm_num, by norm_num, by norm_num, rfl⟩) hn hal (K := 23) (D := 15) (N := 2 ^ 22)
        (c2 := (225 * 2 ^ 33 : ℕ)) (by norm_num) h1 h2 (by decide) ha.1 hb.1 (by omega) (by decide) (by norm_num) (by norm_num)
        (Nat.cast_nonneg _) ?_ (by norm_num) ?_
      · have h3 := Nat.mul_le_mul_left (15 ^ 4) (len_mul_le (p := a.length) (q := b.length) (n := 2 ^ 22) (by omega))
        have h4 : (15 ^ 4 * (2 ^ 22 * (2 ^ 22 * 2 ^ 22)) : ℕ) ≤ (225 * 2 ^ 33) ^ 2 := by norm_num
        exact_mod_cast Nat.le_trans h3 h4
      · norm_num [FP.errBound, FP.anyMode, Format.anyMode, eta]
  obtain ⟨c, e, c1, c2, c3⟩ := key
  have h := eq_numeral hp.custom.supported.base_ge (c := ⟨.pos, c⟩) c1 c2
  rw [e, ← c3]
  exact congrArg Except.ok (congrArg Bignum.digits h)

end

theorem mulStrassenT_refused {F : Type} (O : Nat → FloatOps F) (L : Limits) {env : Env} (n : Nat) {a b : List Nat}
    (h : ¬ env.alloc (fftTableSize a.length b.length) = true) : (mulStrassenT O L env n a b).outcome = .error (.exn .badAlloc) := by
  unfold mulStrassenT
  rw [if_pos h]
  rfl

section
variable {F G : Type} {o : FloatOps F} {O : Nat → FloatOps G} {L : Limits} {K : Nat}

theorem exactProductsT_agree (H : ExactProducts o L K) (H' : ExactProductsT O L K) (env : Env) {x : Bignum} {r : Rhs} (hx : WF L x)
    (hy : WF L (r.get x)) (h1 : 1 ≤ x.digits.length + (r.get x).digits.length) (h2 : x.digits.length + (r.get x).digits.length ≤ K)
    {n : Nat} (hn : 32 < n) : mulAssignT O L env n x r = mulAssign o L env n x r := by
  unfold mulAssign mulAssignT
  simp only
  rw [mulStrassen_memory o, H env _ _ n hx.2 hy.2 h1 h2 hn]
  by_cases hal : env.alloc (fftTableSize x.digits.length (r.get x).digits.length) = true
  · rw [H' env _ _ n hx.2 hy.2 h1 h2 hn hal, if_pos hal]
  · rw [mulStrassenT_refused O L n hal, if_neg hal]

theorem step_exactT (H : ExactProducts o L K) (H' : ExactProductsT O L K) (env : Env) {n : Nat} (hn : 32 < n) {s : Store} {op : Op}
    (h : op.Within L K s) : op.stepT O L env n s = op.step o L env n s := by
  cases op with
  | arith k i j =>
    cases k with
    | mul =>
      obtain ⟨h1, h2, h3, h4⟩ := h
      have e : (rhsOf s i j).get (s i) = s j := by
        unfold rhsOf; by_cases hij : j = i
        · rw [if_pos hij, hij]; rfl
        · rw [if_neg hij]; rfl
      simp only [Op.stepT, Op.step, Arith.assign]
      rw [exactProductsT_agree H H' env (r := rhsOf s i j) h1 (by rwa [e]) (by rw [e]; exact h3) (by rw [e]; exact h4) hn]
    | _ => rfl
  | binary k i j l =>
    cases k with
    | mul =>
      obtain ⟨h1, h2, h3, h4⟩ := h
      simp only [Op.stepT, mulT, Op.step, Arith.binary, Arith.assign, viaCopy]
      cases hc : (s j).copy env with
      | error f => rfl
      | ok z =>
        have hz : z = s j := by
          unfold Bignum.copy Vec.copy at hc
          split at hc
          · rename_i h; cases hsj : s j; rw [hsj] at h hc; simp at h; subst h; cases hc; rfl
          · split at hc
            · cases hc; rfl
            · cases hc
        subst hz
        rw [ok_bind, ok_bind, exactProductsT_agree H H' env (r := .other (s l)) h1 h2 h3 h4 hn]
    | _ => rfl
  | _ => rfl

theorem run_exactT (H : ExactProducts o L K) {n : Nat} (hn : 32 < n) : ∀ (ops : List Op) (O : Nat → Nat → FloatOps G) (env : Nat → Env)
    (s : Store), (∀ i, ExactProductsT (O i) L K) → WithinRun o L K n env s ops → runT L n O env s ops = run o L n env s ops
  | [], _, _, _, _, _ => rfl
  | op :: ops, O, env, s, H', ⟨h1, h2⟩ => by
    rw [runT, run, step_exactT H (H' 0) (env 0) hn h1]
    cases hs : op.step o L (env 0) n s with
    | none => rfl
    | some s' => exact run_exactT H hn ops _ _ s' (fun i => H' (i + 1)) (h2 s' hs)

theorem mul_exactT (H : ExactProductsT O L K) {env : Env} (hm : env.Ample) {x y : Bignum} (hx : WF L x) (hy : WF L y)
    (h1 : 1 ≤ x.size + y.size) (h2 : x.size + y.size ≤ K) {n : Nat} (hn : 32 < n) :
    x.mulT O L env n y = .ok ⟨signRule x.desc y.desc, Nat.digits L.base (x.mag L * y.mag L)⟩ := by
  unfold mulT viaCopy
  rw [copy_ok hm, ok_bind]
  have h := H env x.digits y.digits n hx.2 hy.2 h1 h2 hn (hm _)
  unfold mulAssignT
  have hc : isComputable x.desc = true := by rcases hx.1 with e | e <;> rw [e] <;> rfl
  rw [hc]
  simp only [Bool.not_true, Bool.false_eq_true, if_false, Rhs.get]
  rw [h, ok_bind, mulSign_signed hx.1 hy.1]
  rfl

end

/-! ### Transforms -/

section
variable {φ : FP.Prec} {F : Type} {val : F → ℝ} {fin : F → Prop} {O : ℕ → FloatOps F} (M : ∀ t, LawfulAt φ.toFormat val fin (O t))

theorem energy_gszT (val : F → ℝ) {k : ℕ} {x : List (Cx F)} (h : x.length = 2 ^ k) (d : Cx F) :
    energy (numbers val x) + 2 ^ k = gsz (2 ^ k) (fun t => FP.cv val (x.getD t d)) := by
  rw [gsz_eq]
  unfold energy
  push_cast
  congr 1
  rw [show numbers val x = x.map (FP.cv val) from rfl, List.length_map, h]
  exact sum_congr rfl fun t ht => by rw [getD_map_lt (FP.cv val) d (by rw [h]; exact mem_range.1 ht)]

include M

theorem fft_error_T {k : ℕ} (hk : k ≤ φ.K) {x : List (Cx F)} (h : x.length = 2 ^ k) (hf : ∀ c ∈ x, fin c.re ∧ fin c.im)
    (hb : 2 ^ k * (energy (numbers val x) + 2 ^ k) ≤ φ.A ^ 2) {n : ℕ} (hn : k < n) :
    ∃ y, (fftComplexT O n x).outcome = .ok y ∧ y.length = x.length ∧ (∀ c ∈ y, fin c.re ∧ fin c.im) ∧
      sqDist (numbers val y) (DFT (numbers val x)) ≤ (31 * k * φ.u) ^ 2 * (2 ^ k * (energy (numbers val x) + 2 ^ k)) := by
  have d : Cx F := ⟨(O 0).pi, (O 0).pi⟩
  have hfd : ∀ t < 2 ^ k, FP.fC fin (x.getD t d) := by
    intro t ht
    rw [List.getD_eq_getElem _ _ (by omega)]
    exact hf _ (List.getElem_mem _)
  rw [energy_gszT val h d] at hb ⊢
  have hr := runs_outcome (FP.fftT_ok M hk hfd hb hn)
  rw [← eq_tab h d] at hr
  obtain ⟨ys, e, y, rfl, h1, h2⟩ := hr
  refine ⟨_, e, by simp [tab, h], fun c hc => ?_, ?_⟩
  · simp only [tab, List.mem_map, List.mem_range] at hc
    obtain ⟨j, hj, rfl⟩ := hc
    exact h1 j hj
  · rw [show numbers val (tab (2 ^ k) y) = (tab (2 ^ k) y).map (FP.cv val) from rfl, show numbers val x = x.map (FP.cv val) from rfl]
    unfold sqDist
    rw [tab_map]
    simp only [tab_length]
    refine le_trans (le_of_eq (sum_congr rfl fun j hj => ?_)) (le_trans h2 ?_)
    · have hj' := mem_range.1 hj
      rw [List.getD_eq_getElem _ _ (by simpa [tab] using hj'), DFT_eq (by simpa using h)]
      congr 3
      · simp [tab]
      · unfold dft
        exact sum_congr rfl fun t ht => by
          simp only
          rw [getD_map_lt (FP.cv val) d (by rw [h]; exact mem_range.1 ht)]
    · have hg := gsz_nonneg (2 ^ k) (fun t => FP.cv val (x.getD t d))
      apply mul_le_mul_of_nonneg_right _ (by positivity)
      exact pow_le_pow_left₀ (FP.theta_nonneg φ k) (FP.theta_le hk) 2

theorem round_trip_error_T {k : ℕ} (hk : k ≤ φ.K) {x : List (Cx F)} (h : x.length = 2 ^ k) (hf : ∀ c ∈ x, fin c.re ∧ fin c.im)
    (hb : 2 ^ k * (2 ^ k * (energy (numbers val x) + 2 ^ k)) ≤ φ.A ^ 2 / 2) {n : ℕ} (hn : k < n) :
    ∃ y, (do let y ← fftComplexT O n x; ifftComplexT O n y : Timed (List (Cx F))).outcome = .ok y ∧ y.length = x.length ∧
      (∀ c ∈ y, fin c.re ∧ fin c.im) ∧
      sqDist (numbers val y) (fun j => (numbers val x).getD j 0) ≤ ((63 * k + 3) * φ.u) ^ 2 * (energy (numbers val x) + 2 ^ k) := by
  have d : Cx F := ⟨(O 0).pi, (O 0).pi⟩
  have hfd : ∀ t < 2 ^ k, FP.fC fin (x.getD t d) := by
    intro t ht
    rw [List.getD_eq_getElem _ _ (by omega)]
    exact hf _ (List.getElem_mem _)
  rw [energy_gszT val h d] at hb ⊢
  have hr := runs_outcome (FP.roundTripT_ok M hk hn hfd hb)
  rw [← eq_tab h d] at hr
  obtain ⟨ys, e, y, rfl, h1, h2⟩ := hr
  refine ⟨_, e, by simp [tab, h], fun c hc => ?_, ?_⟩
  · simp only [tab, List.mem_map, List.mem_range] at hc
    obtain ⟨j, hj, rfl⟩ := hc
    exact h1 j hj
  · rw [show numbers val (tab (2 ^ k) y) = (tab (2 ^ k) y).map (FP.cv val) from rfl, show numbers val x = x.map (FP.cv val) from rfl]
    unfold sqDist
    rw [tab_map]
    simp only [tab_length]
    refine le_trans (le_of_eq (sum_congr rfl fun j hj => ?_)) h2
    have hj' := mem_range.1 hj
    rw [List.getD_eq_getElem _ _ (by simpa [tab] using hj'), getD_map_lt (FP.cv val) d (by rw [h]; exact hj')]
    simp [tab]

end
end BN
