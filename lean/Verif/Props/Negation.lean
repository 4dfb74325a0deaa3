import Verif.Lemmas.Samples
import Verif.Props.Convert
/-
C91: changing signs.
-/
namespace BN
open Bignum

/-- The other sign. -/
def Desc.opposite : Desc → Desc
  | .pos => .neg
  | .neg => .pos
  | .posInf => .negInf
  | .negInf => .posInf
  | .nan => .nan

/-- The same digits with the other sign. -/
def Bignum.opposite (b : Bignum) : Bignum := ⟨b.desc.opposite, b.digits⟩

/-- `b.setDescriptor(b.isNegative() ? BN_POS : BN_NEG)` -/
def negate (b : Bignum) : Bignum := b.setDescriptor (if b.isNegative then .pos else .neg)

/-- The same outcome with the signs changed. -/
def Out.opposite : Out → Out
  | .ok b => .ok b.opposite
  | .threw e b => .threw e b.opposite
  | .ub k => .ub k
  | .timeout => .timeout

/-- What `negate` does to a finite number. -/
theorem C91_negate (L : Limits) {b : Bignum} (hb : Signed b.desc) :
    negate b = b.opposite ∧ Signed (negate b).desc ∧ (negate b).toInt L = - b.toInt L ∧ negate (negate b) = b ∧
      (WF L b → WF L (negate b)) := by
  obtain ⟨d, l⟩ := b
  rcases hb with h | h <;> cases h
  · refine ⟨rfl, .inr rfl, ?_, rfl, fun h => ⟨.inr rfl, h.2⟩⟩
    simp [negate, setDescriptor, isNegative, Bignum.toInt, Bignum.mag]
  · refine ⟨rfl, .inl rfl, ?_, rfl, fun h => ⟨.inl rfl, h.2⟩⟩
    simp [negate, setDescriptor, isNegative, Bignum.toInt, Bignum.mag]

example := C91_negate .base10 (b := Sample.m23) (.inr rfl)

def Res.opposite (r : Res Bignum) : Res Bignum :=
  match r with
  | .ok b => .ok b.opposite
  | .error e => .error e

theorem handle_opposite (this : Bignum) {d : Desc} (hd : Signed d) (r : Res Bignum) :
    handle this.opposite d.opposite (Res.opposite r) = (handle this d r).opposite := by
  rcases r with e | b
  · rcases hd with rfl | rfl <;> rcases e with k | x | _ <;> try rfl
    all_goals cases x <;> simp [Res.opposite, handle, Desc.opposite, Out.opposite, Bignum.opposite]
  · rfl

theorem addTry_opposite {L : Limits} {env : Env} {n : Nat} {a b : Bignum} (ha : Signed a.desc) (hb : Signed b.desc) :
    addTry L env n a.opposite (.other b.opposite) = Res.opposite (addTry L env n a (.other b)) := by
  obtain ⟨da, la⟩ := a
  obtain ⟨db, lb⟩ := b
  rcases ha with h | h <;> cases h <;> rcases hb with h | h <;> cases h <;>
      simp only [addTry, Rhs.get, Desc.opposite, Bignum.opposite, Rhs.src, reduceCtorEq, and_self, and_true, and_false, if_true, if_false, Bignum.copy]
  · cases absAdd L env n la (.other lb) <;> rfl
  · rcases absGe la lb with e | _ | _
    · rfl
    · cases Vec.copy env lb with
      | error e => rfl
      | ok t =>
        show (absSub L env n t (.other la) >>= _) = Res.opposite (absSub L env n t (.other la) >>= _)
        cases absSub L env n t (.other la) <;> rfl
    · show (absSub L env n la (.other lb) >>= _) = Res.opposite (absSub L env n la (.other lb) >>= _)
      cases absSub L env n la (.other lb) <;> rfl
  · rcases absGe la lb with e | _ | _
    · rfl
    · cases Vec.copy env lb with
      | error e => rfl
      | ok t =>
        show (absSub L env n t (.other la) >>= _) = Res.opposite (absSub L env n t (.other la) >>= _)
        cases absSub L env n t (.other la) <;> rfl
    · show (absSub L env n la (.other lb) >>= _) = Res.opposite (absSub L env n la (.other lb) >>= _)
      cases absSub L env n la (.other lb) <;> rfl
  · cases absAdd L env n la (.other lb) <;> rfl

theorem subTry_opposite {L : Limits} {env : Env} {n : Nat} {a b : Bignum} (ha : Signed a.desc) (hb : Signed b.desc) :
    subTry L env n a.opposite (.other b.opposite) = Res.opposite (subTry L env n a (.other b)) := by
  obtain ⟨da, la⟩ := a
  obtain ⟨db, lb⟩ := b
  rcases ha with h | h <;> cases h <;> rcases hb with h | h <;> cases h <;>
      simp only [subTry, Rhs.get, Desc.opposite, Bignum.opposite, Rhs.src, reduceCtorEq, and_self, and_true, and_false, if_true, if_false, Bignum.copy]
  · rcases absGe la lb with e | _ | _
    · rfl
    · cases Vec.copy env lb with
      | error e => rfl
      | ok t =>
        show (absSub L env n t (.other la) >>= _) = Res.opposite (absSub L env n t (.other la) >>= _)
        cases absSub L env n t (.other la) <;> rfl
    · show (absSub L env n la (.other lb) >>= _) = Res.opposite (absSub L env n la (.other lb) >>= _)
      cases absSub L env n la (.other lb) <;> rfl
  · rcases absGt la lb with e | g
    · rfl
    · show (Vec.copy env (if g then la else lb) >>= _) = Res.opposite (Vec.copy env (if g then la else lb) >>= _)
      cases Vec.copy env (if g then la else lb) with
      | error e => rfl
      | ok t =>
        show (absSub L env n t (.other lb) >>= _) = Res.opposite (absSub L env n t (.other lb) >>= _)
        cases absSub L env n t (.other lb) <;> rfl
  · rcases absGt la lb with e | g
    · rfl
    · show (Vec.copy env (if g then la else lb) >>= _) = Res.opposite (Vec.copy env (if g then la else lb) >>= _)
      cases Vec.copy env (if g then la else lb) with
      | error e => rfl
      | ok t =>
        show (absSub L env n t (.other lb) >>= _) = Res.opposite (absSub L env n t (.other lb) >>= _)
        cases absSub L env n t (.other lb) <;> rfl
  · rcases absGe la lb with e | _ | _
    · rfl
    · cases Vec.copy env lb with
      | error e => rfl
      | ok t =>
        show (absSub L env n t (.other la) >>= _) = Res.opposite (absSub L env n t (.other la) >>= _)
        cases absSub L env n t (.other la) <;> rfl
    · show (absSub L env n la (.other lb) >>= _) = Res.opposite (absSub L env n la (.other lb) >>= _)
      cases absSub L env n la (.other lb) <;> rfl

/-- C91: changing both signs changes the sign of the sum and of the difference, for all operands (whatever their digits), in every
environment, and changes nothing else: the outcome is the same with the signs changed, exceptions included. -/
theorem C91_add_sub {L : Limits} {env : Env} {n : Nat} {a b : Bignum} (ha : Signed a.desc) (hb : Signed b.desc) :
    (negate a).addAssign L env n (.other (negate b)) = (a.addAssign L env n (.other b)).opposite ∧
    (negate a).subAssign L env n (.other (negate b)) = (a.subAssign L env n (.other b)).opposite := by
  rw [(C91_negate L ha).1, (C91_negate L hb).1]
  have ha' : Signed a.opposite.desc := by rw [← (C91_negate L ha).1]; exact (C91_negate L ha).2.1
  have hc := isComputable_signed ha
  have hc' := isComputable_signed ha'
  unfold addAssign subAssign
  simp only [hc, hc', Bool.not_true, Bool.false_eq_true, if_false]
  rw [addTry_opposite ha hb, subTry_opposite ha hb]
  exact ⟨handle_opposite a hb _, handle_opposite a hb _⟩

example := C91_add_sub (L := .base10) (env := releaseEnv) (n := 9) (a := Sample.n199) (b := Sample.m23) (.inl rfl) (.inr rfl)

/-- C91: changing the sign of the left operand changes the sign of product and quotient; changing the sign of the right operand does
so too, for every call that returns. -/
theorem C91_mul_div {F : Type} (o : FloatOps F) {L : Limits} {env : Env} {n : Nat} {a b c : Bignum} (ha : Signed a.desc) (hb : Signed b.desc) :
    (a.mulAssign o L env n (.other b) = .ok c → (negate a).mulAssign o L env n (.other b) = .ok c.opposite ∧
      a.mulAssign o L env n (.other (negate b)) = .ok c.opposite ∧ (negate a).mulAssign o L env n (.other (negate b)) = .ok c) ∧
    (a.divAssign L env n (.other b) = .ok c → (negate a).divAssign L env n (.other b) = .ok c.opposite ∧
      a.divAssign L env n (.other (negate b)) = .ok c.opposite ∧ (negate a).divAssign L env n (.other (negate b)) = .ok c) := by
  rw [(C91_negate L ha).1, (C91_negate L hb).1]
  obtain ⟨da, la⟩ := a
  obtain ⟨db, lb⟩ := b
  constructor
  · have hc : isComputable da = true := isComputable_signed ha
    intro h
    simp only [mulAssign, hc, Rhs.get, Bool.not_true, Bool.false_eq_true, if_false] at h
    cases hm : mulStrassen o L env n la lb with
    | error e =>
      rw [hm] at h
      rcases e with k | x | _
      · cases h
      · cases x <;> cases h
      · cases h
    | ok m =>
      rw [hm] at h
      cases h
      rcases ha with h | h <;> cases h <;> rcases hb with h | h <;> cases h <;>
        simp [mulAssign, isComputable, Rhs.get, Bignum.opposite, Desc.opposite, hm, ok_bind, handle, mulSign]
  · have hd : ∀ x y : Desc, Signed x → Signed y → (⟨x, la⟩ : Bignum).divAssign L env n (.other ⟨y, lb⟩) =
        if isOneDigit lb 0 then .ok ⟨if mulSign x y = .neg then .negInf else .posInf, []⟩
        else if isOneDigit lb 1 then .ok ⟨mulSign x y, la⟩
        else if la = [] ∨ isOneDigit la 0 then .ok ⟨mulSign x y, la⟩
        else handle ⟨mulSign x y, la⟩ y (divTry L env n ⟨mulSign x y, la⟩ lb) := by
      intro x y hx hy
      unfold divAssign
      rw [if_neg (by simp [isComputable_signed hx])]
      rfl
    have hts : ∀ x : Desc, divTry L env n ⟨x, la⟩ lb = (divTry L env n ⟨.pos, la⟩ lb >>= fun c => .ok ⟨x, c.digits⟩) := by
      intro x
      unfold divTry
      rcases absGt la lb with e | _ | _
      · rfl
      · rfl
      · show (absDiv L env n la lb >>= _) = ((absDiv L env n la lb >>= _) >>= _)
        cases absDiv L env n la lb <;> rfl
    have ha' : Signed da.opposite := by rcases ha with h | h <;> cases h <;> simp [Desc.opposite, Signed]
    have hb' : Signed db.opposite := by rcases hb with h | h <;> cases h <;> simp [Desc.opposite, Signed]
    unfold Bignum.opposite
    rw [hd _ _ ha hb, hd _ _ ha' hb, hd _ _ ha hb', hd _ _ ha' hb']
    have s1 : mulSign da.opposite db = (mulSign da db).opposite := by rcases ha with h | h <;> cases h <;> rcases hb with h | h <;> cases h <;> rfl
    have s2 : mulSign da db.opposite = (mulSign da db).opposite := by rcases ha with h | h <;> cases h <;> rcases hb with h | h <;> cases h <;> rfl
    have s3 : mulSign da.opposite db.opposite = mulSign da db := by rcases ha with h | h <;> cases h <;> rcases hb with h | h <;> cases h <;> rfl
    rw [s1, s2, s3]
    have hs : mulSign da db = .pos ∨ mulSign da db = .neg := by rcases ha with h | h <;> cases h <;> rcases hb with h | h <;> cases h <;> simp [mulSign]
    generalize mulSign da db = s at hs
    by_cases h0 : isOneDigit lb 0 = true
    · simp only [h0, if_true]
      intro h
      cases h
      rcases hs with rfl | rfl <;> simp [Desc.opposite]
    simp only [h0, Bool.false_eq_true, if_false]
    by_cases h1 : isOneDigit lb 1 = true
    · simp only [h1, if_true]
      intro h
      cases h
      exact ⟨rfl, rfl, rfl⟩
    simp only [h1, Bool.false_eq_true, if_false]
    by_cases h2 : la = [] ∨ isOneDigit la 0 = true
    · simp only [h2, if_true]
      intro h
      cases h
      exact ⟨rfl, rfl, rfl⟩
    simp only [h2, if_false]
    rw [hts s, hts s.opposite]
    cases hdt : divTry L env n ⟨.pos, la⟩ lb with
    | error e =>
      intro h
      rcases e with k | x | _
      · cases h
      · cases x <;> cases h
      · cases h
    | ok m =>
      intro h
      cases h
      exact ⟨rfl, rfl, rfl⟩

example {F : Type} (o : FloatOps F) := C91_mul_div o (L := .base10) (env := releaseEnv) (n := 999) (a := Sample.n199) (b := Sample.m23)
  (c := ⟨.neg, [8]⟩) (.inl rfl) (.inr rfl)

/-- C91: subtracting by adding the number with the other sign is exact for all operands (unlike `-`, see C16), except when both are
without digits. -/
theorem C91_subtract_by_negation {L : Limits} (hL : Supported L) {env : Env} (hm : env.Ample) (hd : env.debug = false) {a b : Bignum}
    (ha : WF L a) (hb : WF L b) (hne : ¬ (a.digits = [] ∧ b.digits = [])) :
    ∃ c, Evaluates (fun n => a.addAssign L env n (.other (negate b))) (.ok c) ∧ WF L c ∧ c.toInt L = a.toInt L - b.toInt L := by
  obtain ⟨h1, -, h3, -, h5⟩ := C91_negate L hb.1
  obtain ⟨c, e1, e2, e3⟩ := C09_add_exact hL hm hd (r := .other (negate b)) ha (h5 hb) (by
    intro h
    obtain ⟨-, h6, h7⟩ := h
    rw [h1] at h7
    exact hne ⟨h6, h7⟩)
  refine ⟨c, e1, e2, ?_⟩
  rw [e3, sub_eq_add_neg, ← h3]
  rfl

/-- The hypotheses are met by 5 and -3, where `-` gives 2. -/
example : ∃ a b : Bignum, WF .base10 a ∧ WF .base10 b ∧ a.desc ≠ b.desc ∧ ¬ (a.digits = [] ∧ b.digits = []) ∧ Signed a.desc ∧ Signed b.desc ∧
    a.addAssign .base10 releaseEnv 5 (.other (negate b)) = .ok ⟨.pos, [8]⟩ :=
  ⟨⟨.pos, [5]⟩, ⟨.neg, [3]⟩, by simp [WF, Signed, WFDigits, InRange, NoLeadingZero, Limits.base, Limits.base10, Limits.custom],
    by simp [WF, Signed, WFDigits, InRange, NoLeadingZero, Limits.base, Limits.base10, Limits.custom], by decide, by simp, .inl rfl, .inr rfl, by decide⟩

end BN
