import Verif.Lemmas.FftShape
import Verif.Lemmas.Conv
import Verif.Lemmas.Add
/-
The carry pass of `mul_strassen`, for arbitrary floating-point operations.
-/
namespace BN
variable {F : Type} (o : FloatOps F)

/-- The cell is rounded to the integer `m` when it is added to any carry up to `C`
(`c + std::floor(x + 0.5)`, converted to an integer). -/
def RoundsTo (C : Nat) (x : F) (m : Nat) : Prop :=
  ∀ c ≤ C, o.trunc (o.add (o.ofNat c) (o.floor (o.add x o.half))) = ((c + m : Nat) : Int)

theorem double_unsigned {L : Limits} (h : Supported L) : ∃ w, L.double.raw = cU w := by
  rcases h with h | ⟨w, max, -, -, -, rfl⟩
  · cases h <;> exact ⟨_, rfl⟩
  · exact ⟨w, rfl⟩

theorem fits_mono {L : Limits} (h : Supported L) {m n : Nat} (hmn : m ≤ n) (hf : L.double.raw.fits n = true) :
    L.double.raw.fits m = true := by
  obtain ⟨w, hw⟩ := double_unsigned h
  rw [hw] at hf ⊢
  have h1 : 0 ≤ (n : Int) ∧ (n : Int) < 2 ^ w := of_decide_eq_true hf
  show decide (0 ≤ (m : Int) ∧ (m : Int) < 2 ^ w) = true
  exact decide_eq_true ⟨by omega, by omega⟩

theorem fits_nonneg {L : Limits} (h : Supported L) {z : Int} (hf : L.double.raw.fits z = true) : 0 ≤ z := by
  obtain ⟨w, hw⟩ := double_unsigned h
  rw [hw] at hf
  have h1 : 0 ≤ z ∧ z < 2 ^ w := of_decide_eq_true hf
  exact h1.1

/-- One carry step whatever the floating-point value: a digit in range, or the conversion is undefined. -/
theorem carryStep_cases {L : Limits} (h : Supported L) (c : Nat) (x : F) :
    carryStep o L c x = .error (.ub .floatToInt) ∨
    ∃ z : Nat, o.trunc (o.add (o.ofNat c) (o.floor (o.add x o.half))) = z ∧
      carryStep o L c x = .ok (z % L.base, z / L.base) := by
  unfold carryStep floatToDouble
  simp only
  by_cases hf : L.double.raw.fits (o.trunc (o.add (o.ofNat c) (o.floor (o.add x o.half)))) = true
  · right
    obtain ⟨z, hz⟩ := Int.eq_ofNat_of_zero_le (fits_nonneg h hf)
    refine ⟨z, hz, ?_⟩
    rw [hz] at hf ⊢
    rw [if_pos hf, ok_bind]
    exact carryDigit_eq h hf
  · left
    rw [if_neg hf]; rfl

theorem carryStep_eq {L : Limits} (h : Supported L) {c m C : Nat} {x : F} (hx : RoundsTo o C x m) (hc : c ≤ C)
    (hf : L.double.raw.fits ((c + m : Nat) : Int) = true) :
    carryStep o L c x = .ok ((c + m) % L.base, (c + m) / L.base) := by
  unfold carryStep floatToDouble
  simp only
  rw [hx c hc, if_pos hf, ok_bind]
  exact carryDigit_eq h hf

/-- The carry pass when every cell is rounded to the integer it stands for. -/
theorem carryLoop_eq {L : Limits} (h : Supported L) {C M : Nat} (hC : (C + M) / L.base ≤ C)
    (hfit : L.double.raw.fits ((C + M : Nat) : Int) = true) (g : Nat → F) (m : Nat → Nat) :
    ∀ (n i c : Nat), c ≤ C → (∀ t, i ≤ t → t < i + n → RoundsTo o C (g t) (m t) ∧ m t ≤ M) →
      ∃ ds c', carryLoop o L c ((List.range' i n).map g) = .ok ds ∧ ds.length = n ∧ InRange L.base ds ∧
        natOf L.base ds + L.base ^ n * c' = c + ∑ t ∈ Finset.range n, m (i + t) * L.base ^ t
  | 0, i, c, hc, _ => ⟨[], c, rfl, rfl, .nil _, by simp⟩
  | n + 1, i, c, hc, hg => by
    have h0 := hg i (by omega) (by omega)
    have hle : c + m i ≤ C + M := by omega
    have hB : 0 < L.base := Nat.succ_pos _
    have hc' : (c + m i) / L.base ≤ C := Nat.le_trans (Nat.div_le_div_right hle) hC
    obtain ⟨ds, c', h1, h2, h3, h4⟩ := carryLoop_eq h hC hfit g m n (i + 1) ((c + m i) / L.base) hc'
      (fun t h1 h2 => hg t (by omega) (by omega))
    refine ⟨(c + m i) % L.base :: ds, c', ?_, by simp [h2], h3.cons (Nat.mod_lt _ hB), ?_⟩
    · rw [List.range'_succ, List.map_cons, carryLoop, carryStep_eq o h h0.1 hc (fits_mono h hle hfit), ok_bind]
      simp only
      rw [h1, ok_bind]
    · rw [natOf_cons, Finset.sum_range_succ', pow_succ]
      have hdm := Nat.mod_add_div (c + m i) L.base
      have e : ∀ t ∈ Finset.range n, m (i + (t + 1)) * L.base ^ (t + 1) = L.base * (m (i + 1 + t) * L.base ^ t) := by
        intro t _
        rw [show i + (t + 1) = i + 1 + t by omega, pow_succ]; ring
      rw [Finset.sum_congr rfl e, ← Finset.mul_sum]
      have h4' := congrArg (L.base * ·) h4
      simp only [Nat.mul_add] at h4'
      simp only [Nat.add_zero, pow_zero, Nat.mul_one]
      calc (c + m i) % L.base + L.base * natOf L.base ds + L.base ^ n * L.base * c'
          = (c + m i) % L.base + (L.base * natOf L.base ds + L.base * (L.base ^ n * c')) := by ring
        _ = (c + m i) % L.base + L.base * ((c + m i) / L.base) + L.base * ∑ t ∈ Finset.range n, m (i + 1 + t) * L.base ^ t := by
            rw [h4']; ring
        _ = _ := by rw [hdm]; ring

/-- The carry pass in general: digits in range, or an undefined conversion. -/
theorem carryLoop_cases {L : Limits} (h : Supported L) : ∀ (xs : List F) (c : Nat),
    carryLoop o L c xs = .error (.ub .floatToInt) ∨
    ∃ ds, carryLoop o L c xs = .ok ds ∧ ds.length = xs.length ∧ InRange L.base ds
  | [], c => .inr ⟨[], rfl, rfl, .nil _⟩
  | x :: xs, c => by
    rw [carryLoop]
    rcases carryStep_cases o h c x with e | ⟨z, -, e⟩
    · left; rw [e]; rfl
    · rw [e, ok_bind]
      simp only
      rcases carryLoop_cases h xs (z / L.base) with e' | ⟨ds, e', h1, h2⟩
      · left; rw [e']; rfl
      · right
        rw [e', ok_bind]
        exact ⟨_, rfl, by simp [h1], h2.cons (Nat.mod_lt _ (Nat.succ_pos _))⟩

theorem countTopZeros_eq (v w : List Nat) : ∀ n, countTopZeros (v ++ w) v.length n = .ok (n + (v.length - (trim v).length)) := by
  induction v using List.reverseRecOn generalizing w with
  | nil => intro n; simp [countTopZeros]
  | append_singleton v d ih =>
    intro n
    rw [List.length_append, List.length_singleton, countTopZeros]
    have hrd : Vec.rd (v ++ [d] ++ w) v.length = .ok d := by
      simp [Vec.rd]
    rw [hrd, ok_bind]
    by_cases hd : d = 0
    · subst hd
      rw [if_neg (by simp), List.append_assoc, ih, trim_append_zero]
      have := trim_length_le v
      refine congrArg Except.ok ?_
      omega
    · rw [if_pos hd, trim_append_pos _ hd]
      simp

theorem stripTop_eq (env : Env) (v : List Nat) :
    (do let z ← countTopZeros v v.length 0
        Vec.resize env v (v.length - z) 0) = .ok (trim v) := by
  have h := countTopZeros_eq v [] 0
  rw [List.append_nil] at h
  rw [h, ok_bind, Nat.zero_add]
  have hl := trim_length_le v
  rw [show v.length - (v.length - (trim v).length) = (trim v).length by omega]
  unfold Vec.resize
  rw [if_pos hl]
  obtain ⟨n, hn⟩ := trim_prefix v
  refine congrArg Except.ok ?_
  generalize trim v = w at hn ⊢
  rw [hn]; simp

theorem pipeline_split (L : Limits) (env : Env) (fuel : Nat) {a b : List Nat}
    (hal : env.alloc (fftTableSize a.length b.length) = true) :
    mulStrassen o L env fuel a b = (do
      let inverses ← (do let table ← createFftTable o a b
                         let table ← convoluteFft o fuel table
                         ifftComplex o fuel table)
      let ret ← carryLoop o L 0 (inverses.map Cx.re)
      let z ← countTopZeros ret ret.length 0
      Vec.resize env ret (ret.length - z) 0) := by
  unfold mulStrassen
  rw [if_neg (by simp [hal])]
  rw [createFftTable_eq, ok_bind, ok_bind]
  cases convoluteFft o fuel _ <;> rfl

/-- Value of the product when every coefficient is rounded to its exact value; `D` bounds the digits. -/
theorem mulStrassen_eq {L : Limits} (h : Supported L) {env : Env} {fuel : Nat} (hfuel : 32 < fuel) {a b : List Nat} {k D : Nat}
    (hk : k ≤ 32) (hs : fftTableSize a.length b.length = 2 ^ k) (hlen : a.length + b.length ≤ 2 ^ k)
    (hal : env.alloc (fftTableSize a.length b.length) = true)
    (hD : D < L.base) (had : InRange (D + 1) a) (hbd : InRange (D + 1) b)
    (hfit : L.double.raw.fits ((min a.length b.length * (D * (D + 1)) - 1 : Nat) : Int) = true)
    (hr : ∀ i, i < 2 ^ k → RoundsTo o (min a.length b.length * D) (coefF o k a b i) (colSum a b i)) :
    ∃ c, mulStrassen o L env fuel a b = .ok c ∧ InRange L.base c ∧ NoLeadingZero c ∧
      natOf L.base c = natOf L.base a * natOf L.base b := by
  rw [pipeline_split o L env fuel hal, pipeline_eq o hk hs hfuel, ok_bind, tab_map]
  have hB : 2 ≤ L.base := h.base_ge
  have ha : InRange L.base a := fun d hd => by have := had d hd; omega
  have hb : InRange L.base b := fun d hd => by have := hbd d hd; omega
  have hsum : min a.length b.length * D - 1 + min a.length b.length * (D * D) ≤ min a.length b.length * (D * (D + 1)) - 1 := by
    have : min a.length b.length * D + min a.length b.length * (D * D) = min a.length b.length * (D * (D + 1)) := by ring
    rcases Nat.eq_zero_or_pos (min a.length b.length * D) with h0 | h0
    · have : min a.length b.length * (D * D) = 0 := by rw [← Nat.mul_assoc, h0, Nat.zero_mul]
      omega
    · omega
  have hC : (min a.length b.length * D - 1 + min a.length b.length * (D * D)) / L.base ≤ min a.length b.length * D - 1 := by
    rcases Nat.eq_zero_or_pos (min a.length b.length * D) with h0 | h0
    · have : min a.length b.length * (D * D) = 0 := by rw [← Nat.mul_assoc, h0, Nat.zero_mul]
      rw [h0, this]; simp
    · have h1 : min a.length b.length * (D * (D + 1)) ≤ min a.length b.length * D * L.base := by
        rw [← Nat.mul_assoc]
        exact Nat.mul_le_mul_left _ (by omega)
      have h2 : 0 < min a.length b.length * (D * (D + 1)) := by rw [← Nat.mul_assoc]; exact Nat.mul_pos h0 (by omega)
      refine Nat.le_sub_one_of_lt ?_
      rw [Nat.div_lt_iff_lt_mul (by omega)]
      omega
  obtain ⟨ds, c', h1, h2, h3, h4⟩ := carryLoop_eq o h hC (fits_mono h hsum hfit) (coefF o k a b) (colSum a b) (2 ^ k) 0 0
    (Nat.zero_le _) (fun t _ ht => ⟨fun c hc => hr t (by omega) c (by omega), by simpa using colSum_le had hbd t⟩)
  have e : (tab (2 ^ k) fun i => (ifftF o k (pointF o (2 ^ k) (fftF o k (packF o a b))) i).re) =
      (List.range' 0 (2 ^ k)).map (coefF o k a b) := by
    rw [← List.range_eq_range']; rfl
  rw [e, h1, ok_bind, stripTop_eq]
  simp only [Nat.zero_add] at h4
  rw [sum_colSum L.base a b _ hlen] at h4
  refine ⟨_, rfl, trim_inRange h3, trim_noLeadingZero _, ?_⟩
  rw [natOf_trim]
  have hlt : natOf L.base a * natOf L.base b < L.base ^ 2 ^ k := by
    calc natOf L.base a * natOf L.base b < L.base ^ a.length * L.base ^ b.length :=
          Nat.mul_lt_mul'' (natOf_lt ha) (natOf_lt hb)
      _ = L.base ^ (a.length + b.length) := by rw [pow_add]
      _ ≤ _ := Nat.pow_le_pow_right (by omega) hlen
  have hc0 : c' = 0 := by
    by_contra hc
    have : L.base ^ 2 ^ k * 1 ≤ L.base ^ 2 ^ k * c' := Nat.mul_le_mul_left _ (by omega)
    omega
  rw [hc0] at h4
  omega

/-- Whatever the floating-point operations do: the result is a well-formed digit list, or the conversion of some
coefficient is undefined, or storage is refused. -/
theorem mulStrassen_cases {L : Limits} (h : Supported L) (env : Env) {fuel : Nat} (hfuel : 32 < fuel) {a b : List Nat}
    (h1 : 1 ≤ a.length + b.length) (h2 : a.length + b.length ≤ 2 ^ 32) :
    (env.alloc (fftTableSize a.length b.length) = false ∧ mulStrassen o L env fuel a b = .error (.exn .badAlloc)) ∨
    mulStrassen o L env fuel a b = .error (.ub .floatToInt) ∨
    ∃ c, mulStrassen o L env fuel a b = .ok c ∧ InRange L.base c ∧ NoLeadingZero c := by
  by_cases hal : env.alloc (fftTableSize a.length b.length) = true
  · right
    obtain ⟨k, hk, hs, -, -⟩ := fftTableSize_eq h1 h2
    rw [pipeline_split o L env fuel hal, pipeline_eq o hk hs hfuel, ok_bind]
    rcases carryLoop_cases o h ((tab (2 ^ k) (ifftF o k (pointF o (2 ^ k) (fftF o k (packF o a b))))).map Cx.re) 0 with
      e | ⟨ds, e, -, h4⟩
    · left; rw [e]; rfl
    · right
      rw [e, ok_bind, stripTop_eq]
      exact ⟨_, rfl, trim_inRange h4, trim_noLeadingZero _⟩
  · left
    have hal' : env.alloc (fftTableSize a.length b.length) = false := by simpa using hal
    refine ⟨hal', ?_⟩
    unfold mulStrassen
    rw [if_pos (by simp [hal'])]

end BN
