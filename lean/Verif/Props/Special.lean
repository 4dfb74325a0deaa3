import Verif.Lemmas.Samples
import Verif.Lemmas.Faults
import Verif.Props.Multiplication2
/-
NaN and infinities (C38, C39) and failing allocations (C40).
-/
namespace BN
open Bignum

/-- Neither NaN nor infinite. -/
def Finite (b : Bignum) : Prop := Signed b.desc

theorem not_computable_iff {d : Desc} : isComputable d = false ↔ ¬ Signed d := by cases d <;> simp [isComputable, Signed]

/-! ### C39 -/

/-- A NaN or infinite left operand: its digits are dropped and it takes over the right operand's descriptor, for each of the
four operators; the right operand's digits play no part. -/
theorem C39_left_special {F : Type} (o : FloatOps F) (L : Limits) (env : Env) (fuel : Nat) {x : Bignum} (hx : ¬ Finite x)
    (y : Bignum) :
    addAssign L env fuel x (.other y) = .ok ⟨y.desc, []⟩ ∧ subAssign L env fuel x (.other y) = .ok ⟨y.desc, []⟩ ∧
    mulAssign o L env fuel x (.other y) = .ok ⟨y.desc, []⟩ ∧ divAssign L env fuel x (.other y) = .ok ⟨y.desc, []⟩ := by
  have hc := not_computable_iff.2 hx
  unfold addAssign subAssign mulAssign divAssign
  simp [hc, notComputable, Rhs.get]

example {F : Type} (o : FloatOps F) := C39_left_special o .base10 releaseEnv 9 (x := ⟨.nan, [1, 2]⟩) (by simp [Finite, Signed]) Sample.m23

/-- ... and with itself as the right operand it stays what it was. -/
theorem C39_left_special_self {F : Type} (o : FloatOps F) (L : Limits) (env : Env) (fuel : Nat) {x : Bignum} (hx : ¬ Finite x) :
    addAssign L env fuel x .self = .ok ⟨x.desc, []⟩ ∧ subAssign L env fuel x .self = .ok ⟨x.desc, []⟩ ∧
    mulAssign o L env fuel x .self = .ok ⟨x.desc, []⟩ ∧ divAssign L env fuel x .self = .ok ⟨x.desc, []⟩ := by
  have hc := not_computable_iff.2 hx
  unfold addAssign subAssign mulAssign divAssign
  simp [hc, notComputable, Rhs.get]

example : ¬ Finite ⟨.nan, [1, 2]⟩ := by simp [Finite, Signed]

theorem addTry_special {L : Limits} {env : Env} {fuel : Nat} {x y : Bignum} (hy : ¬ Signed y.desc) :
    addTry L env fuel x (.other y) = (do
      let d ← absAdd L env fuel x.digits (.other y.digits)
      .ok ⟨x.desc, d⟩) := by
  unfold Signed at hy
  unfold addTry
  rw [if_neg (fun h => hy (.inl h.2)), if_neg (fun h => hy (.inr h.2)), if_neg (fun h => hy (.inl h.2))]
  rfl

theorem subTry_special {L : Limits} {env : Env} {fuel : Nat} {x y : Bignum} (hy : ¬ Signed y.desc) :
    subTry L env fuel x (.other y) = magDiff L env fuel x (.other y) .pos := by
  unfold Signed at hy
  unfold subTry
  rw [if_neg (fun h => hy (.inl h.2)), if_neg (fun h => hy (.inr h.2)), if_neg (fun h => hy (.inl h.2))]
  rfl

/-- Adding NaN or an infinity (without digits) to a finite number changes neither its sign nor its magnitude. -/
theorem C39_add_right_special {L : Limits} (h : Supported L) {env : Env} (hm : env.Ample) {x y : Bignum} (hx : Finite x)
    (hxr : InRange L.base x.digits) (hy : ¬ Finite y) (hy0 : y.digits = []) :
    ∃ c, Evaluates (fun n => addAssign L env n x (.other y)) (.ok c) ∧ c.desc = x.desc ∧ c.mag L = x.mag L := by
  refine ⟨⟨x.desc, addFull L.base x.digits y.digits 0⟩, ⟨x.digits.length + 1, fun n hn => ?_⟩, rfl, ?_⟩
  · show addAssign L env n x (.other y) = _
    rw [addAssign_signed hx, addTry_special hy, absAdd_ok h env hxr (by simp [Src.get, hy0, InRange])
      (by simp [Src.get, hy0]; omega) (fun _ _ _ => hm _)]
    rfl
  · unfold Bignum.mag
    rw [addFull_natOf h.base_ge hxr (by rw [hy0]; exact .nil _) (by omega), hy0]
    simp

example := C39_add_right_special (L := .base10) (.inr Sample.base10) Sample.ample (x := Sample.m23) (y := ⟨.posInf, []⟩) (.inr rfl)
  (by sample) (by simp [Finite, Signed]) rfl

/-- Subtracting NaN or an infinity from a finite number leaves it unchanged (leading zeros removed); from a number without
digits it reads out of bounds. -/
theorem C39_sub_right_special {L : Limits} (h : Supported L) (env : Env) {x y : Bignum} (hx : Finite x)
    (hxr : InRange L.base x.digits) (hy : ¬ Finite y) (hy0 : y.digits = []) :
    (x.digits ≠ [] → ∃ c, Evaluates (fun n => subAssign L env n x (.other y)) (.ok c) ∧ c.desc = x.desc ∧ c.mag L = x.mag L ∧
      NoLeadingZero c.digits) ∧
    (x.digits = [] → Evaluates (fun n => subAssign L env n x (.other y)) (.ub .outOfBounds)) := by
  have hB := h.base_ge
  constructor
  · intro hne
    have hpos : 0 < x.digits.length := List.length_pos_iff.2 hne
    refine ⟨⟨x.desc, trim (subRest L.base x.digits [] 0)⟩, ⟨x.digits.length + 1, fun n hn => ?_⟩, rfl, ?_, trim_noLeadingZero _⟩
    · show subAssign L env n x (.other y) = _
      rw [subAssign_signed hx, subTry_special hy]
      unfold magDiff
      simp only [Rhs.get, Rhs.src, hy0]
      rw [absGe_eq hxr (.nil _), ok_bind, decide_eq_true (.inl (by simpa using hpos)), if_pos rfl,
        absSub_ok h env (src := .other []) (by rw [subDebugCheck_eq, if_neg]; simp [Src.get])
          hxr (.nil _) hne (by simp [Src.get]) (by omega)]
      rfl
    · unfold Bignum.mag
      rw [natOf_trim, subRest_exact hB hxr (.nil _) (by simp) (by simp [natOf])]
      simp [natOf]
  · intro h0
    refine ⟨1, fun n hn => ?_⟩
    show subAssign L env n x (.other y) = _
    rw [subAssign_signed hx, subTry_special hy, magDiff_ub h env (r := .other y) .pos h0 hy0 (by omega)]
    rfl

example := C39_sub_right_special (L := .base10) (.inr Sample.base10) releaseEnv (x := Sample.m23) (y := ⟨.posInf, []⟩) (.inr rfl)
  (by sample) (by simp [Finite, Signed]) rfl

/-- Multiplying a base-10 number by NaN or an infinity gives zero. -/
theorem C39_mul_right_special {F : Type} {o : FloatOps F} (M : Ieee o) {env : Env} (hm : env.Ample) {x y : Bignum} (hx : Finite x)
    (hxr : InRange Limits.base10.base x.digits) (hne : x.digits ≠ []) (hlen : x.digits.length ≤ 2 ^ 25) (hy : ¬ Finite y)
    (hy0 : y.digits = []) : Evaluates (fun n => mulAssign o .base10 env n x (.other y)) (.ok ⟨.pos, []⟩) := by
  refine ⟨33, fun n hn => ?_⟩
  show mulAssign o .base10 env n x (.other y) = _
  have hpos : 0 < x.digits.length := List.length_pos_iff.2 hne
  obtain ⟨c, e, h1, h2, h3⟩ := mulStrassen_ieee M (L := .base10) (.inr ⟨32, 9, by norm_num, by norm_num, by norm_num, rfl⟩)
    (fuel := n) (by omega) (a := x.digits) (b := []) (K := 25) (D := 9) (c2 := 0) (by norm_num) (by simp; omega) (by simpa using hlen) (hm _)
    (by decide) hxr (.nil _) (by simp; decide) (by norm_num) (by simp) le_rfl (by simp) (by norm_num) (by norm_num [errBound, uro, eta])
  have hc : c = [] := by
    rw [show natOf Limits.base10.base [] = 0 from rfl, Nat.mul_zero] at h3
    exact (natOf_eq_zero_iff (by decide) h2).1 h3
  unfold mulAssign
  rw [isComputable_signed hx]
  simp only [Bool.not_true, Bool.false_eq_true, if_false, Rhs.get, hy0]
  rw [e, ok_bind, hc]
  have : mulSign x.desc y.desc = .pos := by
    unfold Finite Signed at hx hy
    unfold mulSign
    rw [if_neg (by tauto), if_neg (by tauto), if_neg (by tauto)]
  rw [this]; rfl

example {F : Type} {o : FloatOps F} (M : Ieee o) := C39_mul_right_special M Sample.ample (x := Sample.m23) (y := ⟨.posInf, []⟩) (.inr rfl)
  (by sample) (by simp) (by decide) (by simp [Finite, Signed]) rfl

/-- Dividing by NaN or an infinity: zero stays zero, anything else never returns (custom bases) or is undefined (native digits). -/
theorem C39_div_right_special {L : Limits} {env : Env} (hm : env.Ample) (hd : env.debug = false) {x y : Bignum} (hx : Finite x)
    (hy : ¬ Finite y) (hy0 : y.digits = []) :
    (x.digits = [] ∨ x.digits = [0] → ∀ n, divAssign L env n x (.other y) = .ok ⟨.pos, x.digits⟩) ∧
    (x.digits ≠ [] → x.digits ≠ [0] → Custom L → Diverges (fun n => divAssign L env n x (.other y))) ∧
    (x.digits ≠ [] → x.digits ≠ [0] → Native L → Evaluates (fun n => divAssign L env n x (.other y)) (.ub .divByZero)) := by
  have hs : mulSign x.desc y.desc = .pos := by
    unfold Finite Signed at hx hy
    unfold mulSign
    rw [if_neg (by tauto), if_neg (by tauto), if_neg (by tauto)]
  refine ⟨fun h0 n => ?_, fun h1 h2 h => C33_div_by_empty_diverges h hm hd hx h1 h2 hy0, fun h1 h2 h => ⟨1, fun n hn =>
    C33_div_by_empty_native h hm (by omega) hx h1 h2 hy0⟩⟩
  rw [divAssign_of_zero (r := .other y) hx (by simp [Rhs.get, hy0]) h0]
  simp [Rhs.get, hs]

example := C39_div_right_special (L := .base10) Sample.ample rfl (x := Sample.m23) (y := ⟨.posInf, []⟩) (.inr rfl)
  (by simp [Finite, Signed]) rfl

/-! ### C38 -/

/-- C38 is false for each operator: infinity combined with the finite number five is the finite number zero. -/
theorem C38_refuted {F : Type} (o : FloatOps F) : ∃ x y : Bignum, ¬ Finite x ∧ WF .base10 y ∧
    (∃ z, (∀ n, addAssign .base10 releaseEnv n x (.other y) = .ok z) ∧ Finite z) ∧
    (∃ z, (∀ n, subAssign .base10 releaseEnv n x (.other y) = .ok z) ∧ Finite z) ∧
    (∃ z, (∀ n, mulAssign o .base10 releaseEnv n x (.other y) = .ok z) ∧ Finite z) ∧
    (∃ z, (∀ n, divAssign .base10 releaseEnv n x (.other y) = .ok z) ∧ Finite z) := by
  have hx : ¬ Finite ⟨.posInf, []⟩ := by simp [Finite, Signed]
  have hf : Finite ⟨.pos, []⟩ := .inl rfl
  have k := fun n => C39_left_special o .base10 releaseEnv n hx ⟨.pos, [5]⟩
  refine ⟨⟨.posInf, []⟩, ⟨.pos, [5]⟩, hx, ⟨.inl rfl, ?_, .inl ?_⟩, ⟨_, fun n => (k n).1, hf⟩, ⟨_, fun n => (k n).2.1, hf⟩,
    ⟨_, fun n => (k n).2.2.1, hf⟩, ⟨_, fun n => (k n).2.2.2, hf⟩⟩
  · intro d hd; rw [List.mem_singleton.1 hd]; decide
  · simp [NoLeadingZero]

/-- What holds: with a NaN or infinite left operand the result is NaN or infinite exactly when the right operand is. -/
theorem C38_left_special_partial {F : Type} (o : FloatOps F) (L : Limits) (env : Env) (fuel : Nat) {x : Bignum} (hx : ¬ Finite x)
    (y z : Bignum) (hz : addAssign L env fuel x (.other y) = .ok z ∨ subAssign L env fuel x (.other y) = .ok z ∨
      mulAssign o L env fuel x (.other y) = .ok z ∨ divAssign L env fuel x (.other y) = .ok z) : Finite z ↔ Finite y := by
  obtain ⟨h1, h2, h3, h4⟩ := C39_left_special o L env fuel hx y
  rw [h1, h2, h3, h4] at hz
  have : z = ⟨y.desc, []⟩ := by
    rcases hz with h | h | h | h <;> exact (Out.ok.inj h).symm
  rw [this]; rfl

example {F : Type} (o : FloatOps F) := C38_left_special_partial o .base10 releaseEnv 9 (x := ⟨.nan, [1, 2]⟩) (by simp [Finite, Signed])
  Sample.m23 ⟨.neg, []⟩ (.inl (by decide +kernel))

/-! ### C40 -/

theorem handle_threw {this : Bignum} {d : Desc} {env : Env} {r : Res Bignum} (hr : ExnSoft env r) {e : Exn} {s : Bignum}
    (h : handle this d r = .threw e s) :
    e = .stdException ∧ s = ⟨if d = .pos then .posInf else .negInf, []⟩ ∧ ((∃ n, env.alloc n = false) ∨ env.debug = true) := by
  unfold handle at h
  split at h
  · cases h
  · rcases hr _ rfl with ⟨h1, -⟩ | ⟨h1, -⟩ <;> cases h1
  · cases h
    refine ⟨rfl, rfl, ?_⟩
    rcases hr _ rfl with ⟨-, h1⟩ | ⟨-, h1⟩
    · exact .inl h1
    · exact .inr h1
  · cases h
  · cases h

theorem divAssign_form (L : Limits) (env : Env) (fuel : Nat) (x : Bignum) (r : Rhs) : (∃ z, divAssign L env fuel x r = .ok z) ∨
    divAssign L env fuel x r =
      handle ⟨mulSign x.desc (r.get x).desc, x.digits⟩ (r.get ⟨mulSign x.desc (r.get x).desc, x.digits⟩).desc
        (divTry L env fuel ⟨mulSign x.desc (r.get x).desc, x.digits⟩ (r.get ⟨mulSign x.desc (r.get x).desc, x.digits⟩).digits) := by
  unfold divAssign
  dsimp only
  split_ifs
  · exact .inl ⟨_, rfl⟩
  · exact .inl ⟨_, rfl⟩
  · exact .inl ⟨_, rfl⟩
  · exact .inl ⟨_, rfl⟩
  · exact .inl ⟨_, rfl⟩
  · exact .inr rfl

/-- Whatever the operands — well formed or not — if a compound operator throws, a plain `std::exception` leaves, the object holds
no digits and is +INF or -INF by the right operand's descriptor, and the cause was a refused allocation or the debug check. -/
theorem C40_throw_leaves_infinity {F : Type} (o : FloatOps F) (L : Limits) (env : Env) (fuel : Nat) (x y : Bignum) (e : Exn)
    (s : Bignum) (h : addAssign L env fuel x (.other y) = .threw e s ∨ subAssign L env fuel x (.other y) = .threw e s ∨
      mulAssign o L env fuel x (.other y) = .threw e s ∨ divAssign L env fuel x (.other y) = .threw e s) :
    e = .stdException ∧ s = ⟨if y.desc = .pos then .posInf else .negInf, []⟩ ∧
      ((∃ n, env.alloc n = false) ∨ env.debug = true) := by
  rcases h with h | h | h | h
  · unfold addAssign at h
    split at h
    · cases h
    · exact handle_threw (soft_addTry L fuel x _) h
  · unfold subAssign at h
    split at h
    · cases h
    · exact handle_threw (soft_subTry L fuel x _) h
  · unfold mulAssign at h
    split at h
    · cases h
    · exact handle_threw (.bind (soft_mulStrassen o L fuel _ _) fun _ => .ok _) h
  · rcases divAssign_form L env fuel x (.other y) with ⟨z, hz⟩ | hz
    · rw [hz] at h; cases h
    · rw [hz] at h
      exact handle_threw (soft_divTry L fuel _ _) h

example {F : Type} (o : FloatOps F) := C40_throw_leaves_infinity o .base10 ⟨fun n => decide (n < 2), false⟩ 5 ⟨.neg, [9]⟩ ⟨.neg, [1]⟩
  .stdException ⟨.negInf, []⟩ (.inl (by decide +kernel))

/-- The same when the right operand is the object itself. -/
theorem C40_throw_leaves_infinity_self {F : Type} (o : FloatOps F) (L : Limits) (env : Env) (fuel : Nat) (x : Bignum) (e : Exn)
    (s : Bignum) (h : addAssign L env fuel x .self = .threw e s ∨ subAssign L env fuel x .self = .threw e s ∨
      mulAssign o L env fuel x .self = .threw e s ∨ divAssign L env fuel x .self = .threw e s) :
    e = .stdException ∧ s.digits = [] ∧ (s.desc = .posInf ∨ s.desc = .negInf) ∧
      ((∃ n, env.alloc n = false) ∨ env.debug = true) := by
  have key : ∀ {d : Desc} {r : Res Bignum} {this}, ExnSoft env r → handle this d r = .threw e s →
      e = .stdException ∧ s.digits = [] ∧ (s.desc = .posInf ∨ s.desc = .negInf) ∧ ((∃ n, env.alloc n = false) ∨ env.debug = true) := by
    intro d r this hr hh
    obtain ⟨h1, h2, h3⟩ := handle_threw hr hh
    refine ⟨h1, by rw [h2], ?_, h3⟩
    rw [h2]
    by_cases hd : d = .pos
    · left; simp [hd]
    · right; simp [hd]
  rcases h with h | h | h | h
  · unfold addAssign at h
    split at h
    · cases h
    · exact key (soft_addTry L fuel x _) h
  · unfold subAssign at h
    split at h
    · cases h
    · exact key (soft_subTry L fuel x _) h
  · unfold mulAssign at h
    split at h
    · cases h
    · exact key (.bind (soft_mulStrassen o L fuel _ _) fun _ => .ok _) h
  · rcases divAssign_form L env fuel x .self with ⟨z, hz⟩ | hz
    · rw [hz] at h; cases h
    · rw [hz] at h
      exact key (soft_divTry L fuel _ _) h

example {F : Type} (o : FloatOps F) := C40_throw_leaves_infinity_self o .base10 ⟨fun n => decide (n < 2), false⟩ 5 ⟨.neg, [9]⟩
  .stdException ⟨.negInf, []⟩ (.inl (by decide +kernel))

/-- With ample memory in a release build no compound operator throws, whatever the operands. -/
theorem C40_no_throw {F : Type} (o : FloatOps F) (L : Limits) {env : Env} (hm : env.Ample) (hd : env.debug = false) (fuel : Nat)
    (x y : Bignum) (e : Exn) (s : Bignum) :
    addAssign L env fuel x (.other y) ≠ .threw e s ∧ subAssign L env fuel x (.other y) ≠ .threw e s ∧
    mulAssign o L env fuel x (.other y) ≠ .threw e s ∧ divAssign L env fuel x (.other y) ≠ .threw e s := by
  have key : ¬ (addAssign L env fuel x (.other y) = .threw e s ∨ subAssign L env fuel x (.other y) = .threw e s ∨
      mulAssign o L env fuel x (.other y) = .threw e s ∨ divAssign L env fuel x (.other y) = .threw e s) := by
    intro h
    rcases (C40_throw_leaves_infinity o L env fuel x y e s h).2.2 with ⟨n, hn⟩ | hn
    · rw [hm n] at hn; cases hn
    · rw [hd] at hn; cases hn
  tauto

example {F : Type} (o : FloatOps F) := C40_no_throw o .highp Sample.ample rfl 9 Sample.n199 Sample.m23

theorem handle_okOr {this : Bignum} {d : Desc} {env : Env} {r : Res Bignum} {P : Bignum → Prop} (h : OkOr env r P) :
    (∃ c, handle this d r = .ok c ∧ P c) ∨
    handle this d r = .threw .stdException ⟨if d = .pos then .posInf else .negInf, []⟩ := by
  rcases h with ⟨c, rfl, hc⟩ | ⟨e, (⟨rfl, -⟩ | ⟨rfl, -⟩), rfl⟩
  · exact .inl ⟨c, rfl, hc⟩
  · exact .inr rfl
  · exact .inr rfl

theorem okOr_magDiff {L : Limits} (h : Supported L) (env : Env) {fuel : Nat} {a : Bignum} {r : Rhs} (t : Desc)
    (ha : WFDigits L.base a.digits) (hb : WFDigits L.base (r.get a).digits)
    (hne : ¬ (a.digits = [] ∧ (r.get a).digits = [])) (hf : max a.digits.length (r.get a).digits.length < fuel) :
    OkOr env (magDiff L env fuel a r t) (fun c => InRange L.base c.digits ∧ NoLeadingZero c.digits ∧
      ((c.desc = a.desc ∧ natOf L.base c.digits + natOf L.base (r.get a).digits = natOf L.base a.digits) ∨
        (c.desc = t ∧ natOf L.base c.digits + natOf L.base a.digits = natOf L.base (r.get a).digits))) := by
  have hB := h.base_ge
  have hsrc := r.src_get a
  unfold magDiff
  rw [absGe_eq ha.1 hb.1, ok_bind]
  by_cases hg : (r.get a).digits.length < a.digits.length ∨
      (a.digits.length = (r.get a).digits.length ∧ natOf L.base (r.get a).digits ≤ natOf L.base a.digits)
  · rw [decide_eq_true hg, if_pos rfl]
    have hle : natOf L.base (r.get a).digits ≤ natOf L.base a.digits := by
      rcases hg with h1 | h1
      · exact ha.le_of_length (by omega) hb.1 h1
      · exact h1.2
    have hlen : (r.get a).digits.length ≤ a.digits.length := by omega
    have ha0 : a.digits ≠ [] := by
      intro h0
      exact hne ⟨h0, List.length_eq_zero_iff.1 (by rw [h0] at hlen; simpa using hlen)⟩
    refine .bind (okOr_absSub h env (src := r.src) ha.1 (by rw [hsrc]; exact hb.1) ha0 (by rw [hsrc]; exact hlen) (by omega)) ?_
    rintro d rfl
    rw [hsrc]
    refine .pure ⟨trim_inRange (subRest_inRange hB _ _ _ ha.1 hb.1 (by omega)), trim_noLeadingZero _, .inl ⟨rfl, ?_⟩⟩
    rw [natOf_trim, subRest_exact hB ha.1 hb.1 hlen hle]; omega
  · rw [decide_eq_false hg, if_neg (by simp)]
    have hle : natOf L.base a.digits ≤ natOf L.base (r.get a).digits := by
      by_cases h1 : a.digits.length < (r.get a).digits.length
      · exact hb.le_of_length (by omega) ha.1 h1
      · omega
    have hlen : a.digits.length ≤ (r.get a).digits.length := by omega
    have hb0 : (r.get a).digits ≠ [] := by
      intro h0
      exact hne ⟨List.length_eq_zero_iff.1 (by rw [h0] at hlen; simpa using hlen), h0⟩
    refine .bind (P := fun c => c = r.get a) ?_ ?_
    · exact .bind (okOr_copy env _) fun d hd => .pure (by rw [hd])
    · rintro c rfl
      refine .bind (okOr_absSub h env (src := .other a.digits) hb.1 ha.1 hb0 hlen (by omega)) ?_
      rintro d rfl
      refine .pure ⟨trim_inRange (subRest_inRange hB _ _ _ hb.1 ha.1 (by omega)), trim_noLeadingZero _, .inr ⟨rfl, ?_⟩⟩
      rw [natOf_trim, show (Src.other a.digits).get (r.get a).digits = a.digits from rfl, subRest_exact hB hb.1 ha.1 hlen hle]; omega

/-- Addition in any environment: the exact sum, or the exception with the object at infinity — never a wrong or partial result. -/
theorem C40_add {L : Limits} (h : Supported L) (env : Env) {a : Bignum} {r : Rhs} (ha : WF L a) (hb : WF L (r.get a))
    (hne : ¬ EmptyOpposite a (r.get a)) {fuel : Nat} (hf : max a.digits.length (r.get a).digits.length < fuel) :
    (∃ c, addAssign L env fuel a r = .ok c ∧ WF L c ∧ c.toInt L = a.toInt L + (r.get a).toInt L) ∨
    addAssign L env fuel a r = .threw .stdException ⟨if (r.get a).desc = .pos then .posInf else .negInf, []⟩ := by
  have hB := h.base_ge
  rw [addAssign_signed ha.1]
  refine handle_okOr (env := env) ?_
  by_cases hs : (r.get a).desc = a.desc
  · rw [addTry_same ha.1 hs]
    refine .bind (okOr_absAdd h env ha.2.1 (by rw [Rhs.src_get]; exact hb.2.1) (by rw [Rhs.src_get]; exact hf)) ?_
    rintro d rfl
    rw [Rhs.src_get]
    refine .pure ⟨⟨ha.1, addFull_wf hB ha.2 hb.2⟩, ?_⟩
    unfold Bignum.toInt Bignum.mag
    simp only
    rw [addFull_natOf hB ha.2.1 hb.2.1 (by omega), hs]
    rcases ha.1 with e | e <;> simp [e]; omega
  · rw [addTry_opp ha.1 hb.1 hs]
    refine (okOr_magDiff h env _ ha.2 hb.2 (fun hc => hne ⟨fun e => hs e.symm, hc.1, hc.2⟩) hf).mono ?_
    rintro c ⟨h1, h2, h3⟩
    have hsc : Signed c.desc := by
      rcases h3 with ⟨e, -⟩ | ⟨e, -⟩ <;> rw [e]
      · exact ha.1
      · exact hb.1
    refine ⟨⟨hsc, h1, .inl h2⟩, ?_⟩
    unfold Bignum.toInt Bignum.mag
    rcases h3 with ⟨e, hv⟩ | ⟨e, hv⟩ <;> rcases ha.1 with e1 | e1 <;> rcases hb.1 with e2 | e2 <;> rw [e1, e2] at hs <;>
      simp [e, e1, e2] at hs ⊢ <;> omega

example := C40_add (L := .base10) (.inr Sample.base10) ⟨fun n => decide (n < 2), true⟩ (a := Sample.n199) (r := .other Sample.m23)
  (by sample) (by sample) (by simp [EmptyOpposite]) (fuel := 4) (by decide)

/-- Same-sign subtraction in any environment (in debug builds the check may throw as well). -/
theorem C40_sub {L : Limits} (h : Supported L) (env : Env) {a : Bignum} {r : Rhs} (ha : WF L a) (hb : WF L (r.get a))
    (hs : (r.get a).desc = a.desc) (hne : ¬ (a.digits = [] ∧ (r.get a).digits = [])) {fuel : Nat}
    (hf : max a.digits.length (r.get a).digits.length < fuel) :
    (∃ c, subAssign L env fuel a r = .ok c ∧ WF L c ∧ c.toInt L = a.toInt L - (r.get a).toInt L) ∨
    subAssign L env fuel a r = .threw .stdException ⟨if (r.get a).desc = .pos then .posInf else .negInf, []⟩ := by
  rw [subAssign_signed ha.1]
  refine handle_okOr (env := env) ?_
  rw [subTry_same ha.1 hs]
  refine (okOr_magDiff h env _ ha.2 hb.2 hne hf).mono ?_
  rintro c ⟨h1, h2, h3⟩
  have hsc : Signed c.desc := by
    rcases h3 with ⟨e, -⟩ | ⟨e, -⟩ <;> rw [e]
    · exact ha.1
    · rcases ha.1 with e | e <;> rw [e] <;> simp [Desc.flip, Signed]
  refine ⟨⟨hsc, h1, .inl h2⟩, ?_⟩
  unfold Bignum.toInt Bignum.mag
  rcases h3 with ⟨e, hv⟩ | ⟨e, hv⟩ <;> rcases ha.1 with e1 | e1 <;> rw [hs] <;> simp [e, e1, Desc.flip] <;> omega

example := C40_sub (L := .base10) (.inr Sample.base10) ⟨fun n => decide (n < 2), true⟩ (a := Sample.n199) (r := .other Sample.n23)
  (by sample) (by sample) rfl (by simp) (fuel := 4) (by decide)

/-- Division in any environment. -/
theorem C40_div {L : Limits} (h : Custom L) (env : Env) {a b : Bignum} (ha : WF L a) (hb : WF L b) (hb0 : b.mag L ≠ 0)
    (hne : a.mag L ≠ b.mag L) {fuel : Nat} (hf : a.mag L + 2 ≤ fuel) :
    (∃ c, divAssign L env fuel a (.other b) = .ok c ∧ WF L c ∧ c.toInt L = (a.toInt L).tdiv (b.toInt L)) ∨
    divAssign L env fuel a (.other b) = .threw .stdException ⟨if b.desc = .pos then .posInf else .negInf, []⟩ := by
  have hB := h.supported.base_ge
  have hms := mulSign_signed ha.1 hb.1
  have hsg : Signed (mulSign a.desc b.desc) := mulSign_mem _ _
  rcases wf_cases hB hb.2 with ⟨-, h0⟩ | ⟨hbz, -⟩
  · exact absurd h0 hb0
  by_cases h1 : b.digits = [1]
  · left
    refine ⟨_, divAssign_by_one (r := .other b) ha.1 h1, ⟨hsg, ha.2⟩, toInt_div ha.1 hb.1 hms ?_⟩
    have : b.mag L = 1 := by unfold Bignum.mag; rw [h1]; simp [natOf]
    rw [this, Nat.div_one]; rfl
  rcases wf_cases hB ha.2 with ⟨h2, h3⟩ | ⟨haz, -⟩
  · left
    refine ⟨_, divAssign_of_zero (r := .other b) ha.1 hbz.ne_zero h2, ⟨hsg, ha.2⟩, toInt_div ha.1 hb.1 hms ?_⟩
    have : a.mag L = 0 := h3
    rw [this, Nat.zero_div]; exact h3
  · rw [divAssign_general (r := .other b) ha.1 hbz.ne_zero h1 haz.ne haz.ne_zero]
    refine handle_okOr ((okOr_divTry h env haz hbz hne (by unfold Bignum.mag at hf; omega)).mono ?_)
    rintro c ⟨e1, e2, -, e3⟩
    exact ⟨⟨by rw [e1]; exact hsg, e2⟩, toInt_div ha.1 hb.1 (e1.trans hms) e3⟩

example := C40_div (L := .base10) Sample.base10 ⟨fun n => decide (n < 2), true⟩ (a := Sample.n199) (b := Sample.n23)
  (by sample) (by sample) (by sample) (by sample) (fuel := 201) (by decide)

/-- Multiplication in any environment, base 10. -/
theorem C40_mul {F : Type} {o : FloatOps F} (M : Ieee o) (env : Env) {x : Bignum} {r : Rhs}
    (hx : WF .base10 x) (hy : WF .base10 (r.get x)) (h1 : 1 ≤ x.digits.length + (r.get x).digits.length)
    (h2 : x.digits.length + (r.get x).digits.length ≤ 2 ^ 25) {fuel : Nat} (hf : 32 < fuel) :
    (∃ c, mulAssign o .base10 env fuel x r = .ok c ∧ WF .base10 c ∧ c.toInt .base10 = x.toInt .base10 * (r.get x).toInt .base10) ∨
    mulAssign o .base10 env fuel x r = .threw .stdException ⟨if (r.get x).desc = .pos then .posInf else .negInf, []⟩ := by
  by_cases hal : env.alloc (fftTableSize x.digits.length (r.get x).digits.length) = true
  · left
    have hc2 : ((9 ^ 4 * (min x.digits.length (r.get x).digits.length * (x.digits.length * (r.get x).digits.length)) : ℕ) : ℝ) ≤ (81 * 2 ^ 36) ^ 2 := by
      have := len_mul_le (n := 2 ^ 24) (by omega : x.digits.length + (r.get x).digits.length ≤ 2 * 2 ^ 24)
      have h3 := Nat.mul_le_mul_left (9 ^ 4) this
      have h4 : (9 ^ 4 * (2 ^ 24 * (2 ^ 24 * 2 ^ 24)) : ℕ) = (81 * 2 ^ 36) ^ 2 := by norm_num
      rw [h4] at h3
      exact_mod_cast h3
    have hmin : min x.digits.length (r.get x).digits.length ≤ 2 ^ 24 := by omega
    obtain ⟨c, e, c1, c2, c3⟩ := mulStrassen_ieee M (L := .base10) (.inr ⟨32, 9, by norm_num, by norm_num, by norm_num, rfl⟩)
      (fuel := fuel) hf (K := 25) (D := 9) (c2 := 81 * 2 ^ 36) (by norm_num) h1 h2 hal (by decide) hx.2.1 hy.2.1
      (fits_mono (.inr ⟨32, 9, by norm_num, by norm_num, by norm_num, rfl⟩) (Nat.sub_le_sub_right (Nat.mul_le_mul_right _ hmin) 1) (by decide)) (by norm_num)
      (le_trans (Nat.mul_le_mul_right _ hmin) (by norm_num)) (by norm_num) hc2 (by norm_num)
      (lt_of_le_of_lt (errBound_mono hmin _) (by norm_num [errBound, uro, eta]))
    obtain ⟨r1, r2, r3⟩ := mulAssign_of_digits hx.1 hy.1 e c1 c2 c3
    exact ⟨_, r1, r2, r3⟩
  · right
    unfold mulAssign mulStrassen
    rw [isComputable_signed hx.1]
    simp only [Bool.not_true, Bool.false_eq_true, if_false]
    rw [if_pos (by simpa using hal)]
    rfl

/-- A case where the allocation does fail: 9 + 1 in base 10 when two digits cannot be stored. -/
example : addAssign .base10 ⟨fun n => decide (n < 2), false⟩ 5 ⟨.neg, [9]⟩ (.other ⟨.neg, [1]⟩) = .threw .stdException ⟨.negInf, []⟩ := by
  decide +kernel

end BN
