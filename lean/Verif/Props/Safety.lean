import Verif.Lemmas.Harmless
import Verif.Lemmas.Samples
/-
Memory safety of sums, differences and quotients whatever the digits are: C144. The digits may exceed the base and there may be
leading zeroes; nothing is assumed of the descriptors, the allocator or the build.
-/
namespace BN
open Bignum

/-- Digits that the digit type can hold: what a container of that type always has. -/
def Storable (L : Limits) (x : Bignum) : Prop := InRange L.values x.digits

theorem handle_harmless {this : Bignum} {d : Desc} {r : Res Bignum} {P : Bignum → Prop} (h : Harmless P r) (hi : ∀ e, P ⟨e, []⟩) (ht : P this) :
    (∀ k, handle this d r ≠ .ub k) ∧ (∀ z, handle this d r = .ok z → P z) ∧ ∀ e z, handle this d r = .threw e z → P z := by
  rcases r with (k | e | _) | x
  · exact absurd h (by simp [Harmless])
  · unfold handle
    cases e <;> refine ⟨fun k => by simp, fun z => by simp, fun e z hz => ?_⟩ <;> simp only [Out.threw.injEq] at hz <;> rw [← hz.2] <;>
      first | exact ht | exact hi _
  · exact ⟨fun k => by simp [handle], fun z => by simp [handle], fun e z => by simp [handle]⟩
  · refine ⟨fun k => by simp [handle], fun z hz => ?_, fun e z => by simp [handle]⟩
    simp only [handle, Out.ok.injEq] at hz
    rw [← hz]; exact h

theorem storable_nil (L : Limits) (d : Desc) : Storable L ⟨d, []⟩ := fun _ hx => absurd hx List.not_mem_nil

theorem rhs_src_inRange {B : Nat} {x : Bignum} {r : Rhs} (h : InRange B (r.get x).digits) : r.src.InRange B := by
  cases r with
  | other b => exact h
  | self => exact trivial

theorem rhs_src_get {x : Bignum} {r : Rhs} : r.src.get x.digits = (r.get x).digits := by cases r <;> rfl

theorem lift_harmless {L : Limits} {r : Res (List Nat)} (h : Harmless (InRange L.values) r) (d : Desc) :
    Harmless (Storable L) (r >>= fun l => .ok ⟨d, l⟩) := h.bind (fun _ hm => hm)

theorem copyB_harmless (env : Env) (x : Bignum) : Harmless (fun y => y = x) (x.copy env) := by
  unfold Bignum.copy
  exact (copyVec_harmless env x.digits).bind (fun m hm => by show _ = x; rw [hm])

/-- One of the magnitudes less the other, the way `+=` and `-=` do it. -/
theorem differ_harmless {L : Limits} (h : Supported L) (env : Env) (n : Nat) {x : Bignum} {r : Rhs} (hx : Storable L x) (hy : Storable L (r.get x))
    (h0 : ¬ (x.digits = [] ∧ (r.get x).digits = [])) (d1 d2 : Desc) :
    Harmless (Storable L) (do
      if ← absGe x.digits (r.get x).digits then
        let d ← absSub L env n x.digits r.src
        .ok ⟨d1, d⟩
      else
        let tempNum ← (r.get x).copy env
        let d ← absSub L env n tempNum.digits (.other x.digits)
        .ok ⟨d2, d⟩) := by
  obtain ⟨g, e, hg, hg'⟩ := absGe_total hx hy
  rw [e, ok_bind]
  cases g
  · refine (copyB_harmless env _).bind ?_
    rintro _ rfl
    exact lift_harmless (absSub_harmless h env n (src := .other x.digits) hy hx (hg' rfl).2 (hg' rfl).1) d2
  · refine lift_harmless (absSub_harmless h env n hx (rhs_src_inRange hy) ?_ ?_) d1
    · intro e0
      have := hg rfl
      rw [e0] at this
      exact h0 ⟨e0, List.length_eq_zero_iff.mp (Nat.le_zero.mp this)⟩
    · rw [rhs_src_get]; exact hg rfl

theorem addTry_harmless {L : Limits} (h : Supported L) (env : Env) (n : Nat) {x : Bignum} {r : Rhs} (hx : Storable L x) (hy : Storable L (r.get x))
    (h0 : ¬ (((x.desc = .pos ∧ (r.get x).desc = .neg) ∨ (x.desc = .neg ∧ (r.get x).desc = .pos)) ∧ x.digits = [] ∧ (r.get x).digits = [])) :
    Harmless (Storable L) (addTry L env n x r) := by
  have hadd := lift_harmless (absAdd_harmless h env n (src := r.src) hx (rhs_src_inRange hy)) x.desc
  unfold addTry
  simp only
  split
  · exact hadd
  · split
    · rename_i hd
      exact differ_harmless h env n hx hy (fun e => h0 ⟨.inl hd, e⟩) _ _
    · split
      · rename_i hd
        exact differ_harmless h env n hx hy (fun e => h0 ⟨.inr hd, e⟩) _ _
      · exact hadd

theorem subTry_harmless {L : Limits} (h : Supported L) (env : Env) (n : Nat) {x : Bignum} {r : Rhs} (hx : Storable L x) (hy : Storable L (r.get x))
    (h0 : ¬ (x.digits = [] ∧ (r.get x).digits = [])) : Harmless (Storable L) (subTry L env n x r) := by
  have hmix : Harmless (Storable L) (do
      let g ← absGt x.digits (r.get x).digits
      let temp ← Vec.copy env (if g then x.digits else (r.get x).digits)
      let temp ← absSub L env n temp (.other (r.get x).digits)
      .ok ⟨x.desc, temp⟩) := by
    rw [absGt_eq, ok_bind]
    refine (copyVec_harmless env _).bind ?_
    rintro _ rfl
    split
    · rename_i hg
      rw [decide_eq_true_iff] at hg
      refine lift_harmless (absSub_harmless h env n (src := .other (r.get x).digits) hx hy ?_ (by simp only [Src.get]; omega)) _
      intro e
      rw [e] at hg
      simp at hg
    · rename_i hg
      rw [decide_eq_true_iff] at hg
      refine lift_harmless (absSub_harmless h env n (src := .other (r.get x).digits) hy hy ?_ (by simp only [Src.get]; omega)) _
      intro e
      refine h0 ⟨?_, e⟩
      by_contra hne
      exact hg (.inl (by rw [e]; exact List.length_pos_iff.mpr hne))
  unfold subTry
  simp only
  split
  · exact differ_harmless h env n hx hy h0 _ _
  · split
    · exact hmix
    · split
      · exact hmix
      · exact differ_harmless h env n hx hy h0 _ _

theorem absSub_nil {L : Limits} (env : Env) (n : Nat) (src : Src) (h : src.get [] = []) :
    absSub L env (n + 1) [] src = .error (.ub .outOfBounds) := by
  have hd : digitOrZero L [] 0 = .ok (L.toDouble 0) := by unfold digitOrZero; simp
  unfold absSub
  rw [subDebugCheck_eq, h]
  simp only [List.length_nil, lt_self_iff_false, List.getD_nil, and_self, and_false, Nat.not_lt_zero, exists_const, or_self,
    if_false, ok_bind]
  unfold loopForever subBody
  simp only [h, hd, ok_bind]
  rfl

/-- With no rounds allowed nothing is known; otherwise the first round reads past the end. -/
def emptyFault : Nat → Fault
  | 0 => .timeout
  | _ + 1 => .ub .outOfBounds

theorem absSub_empty {L : Limits} (env : Env) (n : Nat) (src : Src) (h : src.get [] = []) : absSub L env n [] src = .error (emptyFault n) := by
  cases n with
  | zero => unfold absSub; rw [h, subDebugCheck_eq]; simp; rfl
  | succ n => exact absSub_nil env n src h

theorem differ_empty {L : Limits} (env : Env) (n : Nat) {x : Bignum} {r : Rhs} (h1 : x.digits = []) (h2 : (r.get x).digits = []) (d1 d2 : Desc) :
    (do
      if ← absGe x.digits (r.get x).digits then
        let d ← absSub L env n x.digits r.src
        .ok ⟨d1, d⟩
      else
        let tempNum ← (r.get x).copy env
        let d ← absSub L env n tempNum.digits (.other x.digits)
        .ok ⟨d2, d⟩ : Res Bignum) = .error (emptyFault n) := by
  rw [h1, h2, show absGe [] [] = .ok true from rfl, ok_bind]
  simp only [if_true]
  rw [absSub_empty env n r.src (by rw [← h1, rhs_src_get, h2, h1])]
  rfl

theorem outcome_of {L : Limits} {x : Bignum} {d : Desc} {n : Nat} {t : Res Bignum} {C : Prop} (hx : Storable L x)
    (h1 : C → t = .error (emptyFault n)) (h2 : ¬ C → Harmless (Storable L) t) :
    ((∃ k, handle x d t = .ub k) ↔ 0 < n ∧ C) ∧ ∀ z, handle x d t = .ok z ∨ (∃ e, handle x d t = .threw e z) → Storable L z := by
  by_cases hC : C
  · rw [h1 hC]
    cases n with
    | zero => exact ⟨⟨fun ⟨k, hk⟩ => by simp [handle, emptyFault] at hk, fun hh => absurd hh.1 (by omega)⟩,
          fun z hz => by rcases hz with hz | ⟨e, hz⟩ <;> simp [handle, emptyFault] at hz⟩
    | succ n => exact ⟨⟨fun _ => ⟨by omega, hC⟩, fun _ => ⟨_, rfl⟩⟩,
          fun z hz => by rcases hz with hz | ⟨e, hz⟩ <;> simp [handle, emptyFault] at hz⟩
  · obtain ⟨a, b, c⟩ := handle_harmless (d := d) (h2 hC) (storable_nil L) hx
    exact ⟨⟨fun ⟨k, hk⟩ => absurd hk (a k), fun hh => absurd hh.2 hC⟩, fun z hz => hz.elim (b z) (fun ⟨e, he⟩ => c e z he)⟩

theorem special_outcome {L : Limits} {y : Bignum} (hy : Storable L y) {n : Nat} {C : Prop} (hC : ¬ C) :
    ((∃ k, Out.ok y = .ub k) ↔ 0 < n ∧ C) ∧ ∀ z, Out.ok y = .ok z ∨ (∃ e, Out.ok y = .threw e z) → Storable L z := by
  refine ⟨⟨fun ⟨k, hk⟩ => by simp at hk, fun hh => absurd hh.2 hC⟩, fun z hz => ?_⟩
  rcases hz with hz | ⟨e, hz⟩
  · simp only [Out.ok.injEq] at hz
    rw [← hz]; exact hy
  · simp at hz

/-- C144: `+=` is undefined exactly when both numbers have no digits and opposite signs, whatever the digits, the allocator and
the build are (and the loop gets a first round); what it leaves can be stored. -/
theorem C144_add {L : Limits} (h : Supported L) (env : Env) (n : Nat) {x : Bignum} {r : Rhs} (hx : Storable L x) (hy : Storable L (r.get x)) :
    ((∃ k, addAssign L env n x r = .ub k) ↔ 0 < n ∧ ((x.desc = .pos ∧ (r.get x).desc = .neg) ∨ (x.desc = .neg ∧ (r.get x).desc = .pos)) ∧
      x.digits = [] ∧ (r.get x).digits = []) ∧
    ∀ z, addAssign L env n x r = .ok z ∨ (∃ e, addAssign L env n x r = .threw e z) → Storable L z := by
  unfold addAssign
  split
  · rename_i hc
    refine special_outcome (storable_nil _ _) ?_
    rintro ⟨⟨hd, -⟩ | ⟨hd, -⟩, -⟩ <;> rw [hd] at hc <;> simp [isComputable] at hc
  · refine outcome_of hx ?_ (addTry_harmless h env n hx hy)
    rintro ⟨hd, h1, h2⟩
    unfold addTry
    simp only
    rcases hd with ⟨a, b⟩ | ⟨a, b⟩ <;> simp only [a, b] <;> simp <;> exact differ_empty env n h1 h2 _ _

/-- Digits up to 250 in base 10 with leading zeroes: defined. -/
example := C144_add (L := .base10) (.inr Sample.base10) ⟨fun n => decide (n < 5), true⟩ 9 (x := ⟨.pos, [250, 0, 13, 0]⟩) (r := .other ⟨.neg, [99, 255]⟩)
  (by simp [Storable, InRange]; decide) (by simp [Storable, InRange, Rhs.get]; decide)
/-- And the exceptional pair exists. -/
example := (C144_add (L := .base10) (.inr Sample.base10) releaseEnv 9 (x := ⟨.pos, []⟩) (r := .other ⟨.neg, []⟩)
  (storable_nil _ _) (storable_nil _ _)).1.mpr ⟨by omega, .inl ⟨rfl, rfl⟩, rfl, rfl⟩

/-- C144: `-=` is undefined exactly when the left operand is a number and both operands have no digits. -/
theorem C144_sub {L : Limits} (h : Supported L) (env : Env) (n : Nat) {x : Bignum} {r : Rhs} (hx : Storable L x) (hy : Storable L (r.get x)) :
    ((∃ k, subAssign L env n x r = .ub k) ↔ 0 < n ∧ Signed x.desc ∧ x.digits = [] ∧ (r.get x).digits = []) ∧
    ∀ z, subAssign L env n x r = .ok z ∨ (∃ e, subAssign L env n x r = .threw e z) → Storable L z := by
  unfold subAssign
  split
  · rename_i hc
    refine special_outcome (storable_nil _ _) ?_
    rintro ⟨hs, -⟩
    rcases hs with hd | hd <;> rw [hd] at hc <;> simp [isComputable] at hc
  · rename_i hc
    refine outcome_of hx ?_ (fun hC => subTry_harmless h env n hx hy (fun e => hC ⟨?_, e⟩))
    · rintro ⟨hd, h1, h2⟩
      have hm : (do
          let g ← absGt x.digits (r.get x).digits
          let temp ← Vec.copy env (if g then x.digits else (r.get x).digits)
          let temp ← absSub L env n temp (.other (r.get x).digits)
          .ok ⟨x.desc, temp⟩ : Res Bignum) = .error (emptyFault n) := by
        rw [h1, h2, show absGt [] [] = .ok false from rfl, ok_bind]
        simp only [Bool.false_eq_true, if_false]
        rw [show Vec.copy env [] = .ok [] from rfl, ok_bind, absSub_empty env n (.other []) rfl]
        rfl
      unfold subTry
      simp only
      split
      · exact differ_empty env n h1 h2 _ _
      · split
        · exact hm
        · split
          · exact hm
          · exact differ_empty env n h1 h2 _ _
    · cases hdx : x.desc <;> rw [hdx] at hc <;> simp [isComputable] at hc <;> simp [Signed]

example := C144_sub (L := .base10) (.inr Sample.base10) ⟨fun n => decide (n < 5), true⟩ 9 (x := ⟨.pos, [250, 0, 13, 0]⟩) (r := .other ⟨.neg, [99, 255]⟩)
  (by simp [Storable, InRange]; decide) (by simp [Storable, InRange, Rhs.get]; decide)
example := (C144_sub (L := .base10) (.inr Sample.base10) releaseEnv 9 (x := ⟨.pos, []⟩) (r := .self)
  (storable_nil _ _) (storable_nil _ _)).1.mpr ⟨by omega, .inl rfl, rfl, rfl⟩

/-- C144: `/=` with a custom base is never undefined. -/
theorem C144_div {L : Limits} (h : Custom L) (env : Env) (n : Nat) {x : Bignum} {r : Rhs} (hx : Storable L x) (hy : Storable L (r.get x)) :
    (∀ k, divAssign L env n x r ≠ .ub k) ∧
    ∀ z, divAssign L env n x r = .ok z ∨ (∃ e, divAssign L env n x r = .threw e z) → Storable L z := by
  have key : ∀ {o : Out}, (((∃ k, o = .ub k) ↔ 0 < n ∧ False) ∧ ∀ z, o = .ok z ∨ (∃ e, o = .threw e z) → Storable L z) →
      (∀ k, o ≠ .ub k) ∧ ∀ z, o = .ok z ∨ (∃ e, o = .threw e z) → Storable L z :=
    fun hh => ⟨fun k hk => (hh.1.mp ⟨k, hk⟩).2, hh.2⟩
  apply key
  unfold divAssign
  simp only
  have hy' : Storable L (r.get ⟨mulSign x.desc (r.get x).desc, x.digits⟩) := by
    cases r with
    | other b => exact hy
    | self => exact hx
  obtain ⟨w, mx, hw, h1, h2, rfl⟩ := h
  split
  · exact special_outcome (storable_nil _ _) id
  · split
    · exact special_outcome (storable_nil _ _) id
    · split
      · exact special_outcome (y := ⟨mulSign x.desc (r.get x).desc, x.digits⟩) hx id
      · split
        · exact special_outcome (y := ⟨mulSign x.desc (r.get x).desc, x.digits⟩) hx id
        · refine outcome_of (x := ⟨mulSign x.desc (r.get x).desc, x.digits⟩) hx (fun hf => hf.elim) (fun _ => ?_)
          unfold divTry
          rw [absGt_eq, ok_bind]
          split
          · exact lift_harmless (L := .custom w mx) (absDiv_harmless hw h1 h2 env n hx hy') _
          · intro d hd
            rw [List.mem_singleton.mp hd, show (Limits.custom w mx).toSingle 0 = _ from (raw_const (mx := mx) (show 0 < 2 ^ w by omega)).2, raw_store (by omega)]
            exact values_pos _

example := C144_div (L := .base10) Sample.base10 ⟨fun n => decide (n < 5), true⟩ 9 (x := ⟨.pos, [250, 0, 13, 0]⟩) (r := .other ⟨.neg, [99, 255]⟩)
  (by simp [Storable, InRange]; decide) (by simp [Storable, InRange, Rhs.get]; decide)

end BN
