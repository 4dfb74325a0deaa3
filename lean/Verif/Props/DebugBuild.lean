import Verif.Lemmas.Samples
import Verif.Props.Subtraction
import Verif.Props.Division
import Verif.Model.Program
import Verif.Lemmas.Mono
/-
C70, C71: debug builds (`BN_DEBUG`) against release builds, for the operators and for whole programs.
-/
namespace BN
open Bignum

/-- The debug outcome `d` is the release outcome `r`, or the underflow exception. -/
def Agrees {α : Type} (d r : Res α) : Prop := d = r ∨ d = .error (.exn .bnUnderflow)

theorem Agrees.refl {α : Type} (r : Res α) : Agrees r r := .inl rfl

theorem Agrees.bind {α β : Type} {d r : Res α} {f g : α → Res β} (h : Agrees d r) (hf : ∀ x, Agrees (f x) (g x)) :
    Agrees (d >>= f) (r >>= g) := by
  rcases h with rfl | rfl
  · cases d with
    | ok x => simpa only [ok_bind] using hf x
    | error e => exact .inl rfl
  · exact .inr rfl

theorem Agrees.ite {α : Type} {p : Prop} [Decidable p] {a b c d : Res α} (h1 : Agrees a b) (h2 : Agrees c d) :
    Agrees (if p then a else c) (if p then b else d) := by
  by_cases hp : p
  · rwa [if_pos hp, if_pos hp]
  · rwa [if_neg hp, if_neg hp]

theorem Agrees.while {σ : Type} (c : σ → Res Bool) {b b' : σ → Res σ} (h : ∀ s, Agrees (b s) (b' s)) :
    ∀ (n : Nat) (s : σ), Agrees (loopWhile c b n s) (loopWhile c b' n s)
  | 0, _ => .refl _
  | n + 1, s => by
    rw [loopWhile, loopWhile]
    exact .bind (.refl _) fun t => .ite (.bind (h s) fun s' => Agrees.while c h n s') (.refl _)

variable (L : Limits) (al : Nat → Bool)

theorem agrees_absSub (n : Nat) (a : List Nat) (src : Src) :
    Agrees (absSub L ⟨al, true⟩ n a src) (absSub L ⟨al, false⟩ n a src) := by
  by_cases h : absSub L ⟨al, true⟩ n a src = .error (.exn .bnUnderflow)
  · exact .inr h
  · exact .inl (C57_debug_release_agree L al n a src h)

theorem agrees_divBody (n : Nat) (dv : List Nat) (s : DivSt) :
    Agrees (divBody L ⟨al, true⟩ n dv s) (divBody L ⟨al, false⟩ n dv s) := by
  unfold divBody
  refine .bind (.refl _) fun _ => .bind (.refl _) fun _ => .bind (.refl _) fun _ => .bind (.refl _) fun _ => ?_
  refine .bind (.refl _) fun t => ?_
  exact .bind (agrees_absSub L al n _ _) fun _ => .ite (.refl _) (.refl _)

theorem agrees_absDiv (n : Nat) (a b : List Nat) : Agrees (absDiv L ⟨al, true⟩ n a b) (absDiv L ⟨al, false⟩ n a b) :=
  .bind (.refl _) fun _ => .bind (Agrees.while _ (agrees_divBody L al n b) n _) fun _ => .refl _

theorem agrees_addTry (n : Nat) (x : Bignum) (r : Rhs) : Agrees (addTry L ⟨al, true⟩ n x r) (addTry L ⟨al, false⟩ n x r) := by
  unfold addTry
  have h : ∀ a s d, Agrees (do let d' ← absSub L ⟨al, true⟩ n a s; Except.ok (⟨d, d'⟩ : Bignum))
      (do let d' ← absSub L ⟨al, false⟩ n a s; Except.ok (⟨d, d'⟩ : Bignum)) :=
    fun a s d => .bind (agrees_absSub L al n a s) fun _ => .refl _
  exact .ite (.refl _) (.ite (.bind (.refl _) fun _ => .ite (h _ _ _) (.bind (.refl _) fun _ => h _ _ _))
    (.ite (.bind (.refl _) fun _ => .ite (h _ _ _) (.bind (.refl _) fun _ => h _ _ _)) (.refl _)))

theorem agrees_subTry (n : Nat) (x : Bignum) (r : Rhs) : Agrees (subTry L ⟨al, true⟩ n x r) (subTry L ⟨al, false⟩ n x r) := by
  unfold subTry
  have h : ∀ a s d, Agrees (do let d' ← absSub L ⟨al, true⟩ n a s; Except.ok (⟨d, d'⟩ : Bignum))
      (do let d' ← absSub L ⟨al, false⟩ n a s; Except.ok (⟨d, d'⟩ : Bignum)) :=
    fun a s d => .bind (agrees_absSub L al n a s) fun _ => .refl _
  exact .ite (.bind (.refl _) fun _ => .ite (h _ _ _) (.bind (.refl _) fun _ => h _ _ _))
    (.ite (.bind (.refl _) fun _ => .bind (.refl _) fun _ => h _ _ _)
    (.ite (.bind (.refl _) fun _ => .bind (.refl _) fun _ => h _ _ _)
    (.bind (.refl _) fun _ => .ite (h _ _ _) (.bind (.refl _) fun _ => h _ _ _))))

theorem agrees_divTry (n : Nat) (x : Bignum) (dv : List Nat) :
    Agrees (divTry L ⟨al, true⟩ n x dv) (divTry L ⟨al, false⟩ n x dv) :=
  .bind (.refl _) fun _ => .ite (.bind (agrees_absDiv L al n _ _) fun _ => .refl _) (.refl _)

/-- What the handlers make of it. -/
def OutAgrees (d r : Out) : Prop := d = r ∨ d = .threw .stdException ⟨.posInf, []⟩ ∨ d = .threw .stdException ⟨.negInf, []⟩

theorem outAgrees_handle {x : Bignum} {t : Desc} {d r : Res Bignum} (h : Agrees d r) :
    OutAgrees (handle x t d) (handle x t r) := by
  rcases h with rfl | rfl
  · exact .inl rfl
  · right
    show Out.threw .stdException ⟨if t = .pos then .posInf else .negInf, []⟩ = _ ∨ _
    by_cases ht : t = .pos
    · left; rw [if_pos ht]
    · right; show Out.threw .stdException ⟨if t = .pos then .posInf else .negInf, []⟩ = _; rw [if_neg ht]

/-! ### C70 -/

/-- For every operator, all operands (any digits, any descriptors, aliased or not), every allocator and every budget: a
debug build ends exactly like a release build, or throws a plain `std::exception` leaving an infinity without digits. -/
theorem C70_debug_or_throw {F : Type} (o : FloatOps F) (k : Arith) (n : Nat) (x : Bignum) (r : Rhs) :
    k.assign o L ⟨al, true⟩ n x r = k.assign o L ⟨al, false⟩ n x r ∨
    k.assign o L ⟨al, true⟩ n x r = .threw .stdException ⟨.posInf, []⟩ ∨
    k.assign o L ⟨al, true⟩ n x r = .threw .stdException ⟨.negInf, []⟩ := by
  have ite : ∀ {p : Prop} [Decidable p] {a b c : Out}, OutAgrees b c → OutAgrees (if p then a else b) (if p then a else c) := by
    intro p _ a b c h
    by_cases hp : p
    · rw [if_pos hp, if_pos hp]; exact .inl rfl
    · rwa [if_neg hp, if_neg hp]
  cases k with
  | add => exact ite (outAgrees_handle (agrees_addTry L al n x r))
  | sub => exact ite (outAgrees_handle (agrees_subTry L al n x r))
  | mul => exact .inl rfl
  | div => exact ite (ite (ite (ite (outAgrees_handle (agrees_divTry L al n _ _)))))

/-- Products never differ, and neither do sums of numbers of the same sign. -/
theorem C70_never_differ {F : Type} (o : FloatOps F) (n : Nat) (x : Bignum) (r : Rhs) :
    mulAssign o L ⟨al, true⟩ n x r = mulAssign o L ⟨al, false⟩ n x r ∧
    (Signed x.desc → (r.get x).desc = x.desc → addAssign L ⟨al, true⟩ n x r = addAssign L ⟨al, false⟩ n x r) := by
  refine ⟨rfl, fun hx hs => ?_⟩
  rcases hx with hx | hx <;> simp [addAssign, addTry, hx, hs]
  all_goals rfl

example {F : Type} (o : FloatOps F) := (C70_never_differ .base10 (fun m => decide (m < 3)) o 50 Sample.m23 (.other ⟨.neg, [9, 9]⟩)).2 (by sample) rfl

/-- Digit sequences of the same length, neither of which is at least the other digit by digit. -/
def Clash (a b : List Nat) : Prop :=
  a.length = b.length ∧ (∃ i < a.length, a.getD i 0 < b.getD i 0) ∧ ∃ i < a.length, b.getD i 0 < a.getD i 0

theorem natOf_ne_of_digit {B : Nat} {a b : List Nat} (ha : InRange B a) (hb : InRange B b) (hl : a.length = b.length)
    {i : Nat} (h : a.getD i 0 < b.getD i 0) : natOf B a ≠ natOf B b := by
  intro he
  rw [natOf_inj ha hb hl he] at h
  omega

theorem clash_of_any {B : Nat} {a b : List Nat} (ha : InRange B a) (hb : InRange B b)
    (hge : b.length < a.length ∨ (a.length = b.length ∧ natOf B b ≤ natOf B a)) : AnyDigitGreater b a ↔ Clash a b := by
  constructor
  · rintro (h | ⟨h1, i, hi, h2⟩)
    · omega
    · have hle : natOf B b ≤ natOf B a := by omega
      have hne := natOf_ne_of_digit ha hb h1.symm h2
      exact ⟨h1.symm, ⟨i, by omega, h2⟩, exists_digit_gt hb h1.symm (by omega)⟩
  · rintro ⟨h1, ⟨i, hi, h2⟩, -⟩
    exact .inr ⟨h1.symm, i, by omega, h2⟩

theorem Clash.symm {a b : List Nat} (h : Clash a b) : Clash b a := by
  obtain ⟨h1, ⟨i, hi, h2⟩, ⟨j, hj, h3⟩⟩ := h
  exact ⟨h1.symm, ⟨j, by omega, h3⟩, ⟨i, by omega, h2⟩⟩

/-- The difference of magnitudes in a debug build. -/
theorem magDiff_debug {L : Limits} (hL : Supported L) {env : Env} (hm : env.Ample) (hd : env.debug = true) {x y : Bignum} (t : Desc)
    (ha : InRange L.base x.digits) (hb : InRange L.base y.digits) {n : Nat} (hn : max x.digits.length y.digits.length < n)
    (hc : Clash x.digits y.digits) : magDiff L env n x (.other y) t = .error (.exn .bnUnderflow) := by
  unfold magDiff
  simp only [Rhs.get, Rhs.src]
  rw [absGe_eq ha hb, ok_bind]
  by_cases hg : y.digits.length < x.digits.length ∨ (x.digits.length = y.digits.length ∧ natOf L.base y.digits ≤ natOf L.base x.digits)
  · rw [if_pos (by simpa using hg), (C56_debug_throws_iff hL hd ha hb (by omega)).2 ((clash_of_any ha hb hg).2 hc)]
    rfl
  · rw [if_neg (by simpa using hg)]
    have h1 : y.copy env = .ok y := by
      unfold Bignum.copy Vec.copy
      by_cases h : y.digits = []
      · rw [if_pos h]; cases y; simp at h; rw [h]; rfl
      · rw [if_neg h, if_pos (hm _)]; rfl
    have h2 : x.digits.length < y.digits.length ∨ (y.digits.length = x.digits.length ∧ natOf L.base x.digits ≤ natOf L.base y.digits) := by
      omega
    rw [h1, ok_bind, (C56_debug_throws_iff hL hd hb ha (by omega)).2 ((clash_of_any hb ha h2).2 hc.symm)]
    rfl

theorem magDiff_quiet {L : Limits} (hL : Supported L) {al : Nat → Bool} {x y : Bignum} (t : Desc)
    (ha : InRange L.base x.digits) (hb : InRange L.base y.digits) {n : Nat} (hn : max x.digits.length y.digits.length < n)
    (hc : ¬ Clash x.digits y.digits) : magDiff L ⟨al, true⟩ n x (.other y) t = magDiff L ⟨al, false⟩ n x (.other y) t := by
  unfold magDiff
  simp only [Rhs.get, Rhs.src]
  rw [absGe_eq ha hb, ok_bind, ok_bind]
  by_cases hg : y.digits.length < x.digits.length ∨ (x.digits.length = y.digits.length ∧ natOf L.base y.digits ≤ natOf L.base x.digits)
  · rw [if_pos (by simpa using hg), if_pos (by simpa using hg), C57_debug_release_agree]
    intro h
    exact hc ((clash_of_any ha hb hg).1 ((C56_debug_throws_iff hL rfl ha hb (by omega)).1 h))
  · rw [if_neg (by simpa using hg), if_neg (by simpa using hg)]
    have h2 : x.digits.length < y.digits.length ∨ (y.digits.length = x.digits.length ∧ natOf L.base x.digits ≤ natOf L.base y.digits) := by
      omega
    show Bignum.copy ⟨al, true⟩ y >>= _ = Bignum.copy ⟨al, true⟩ y >>= _
    cases hcp : Bignum.copy ⟨al, true⟩ y with
    | error e => rfl
    | ok z =>
      have : z = y := by
        unfold Bignum.copy Vec.copy at hcp
        split at hcp
        · rename_i h; cases y; simp at h; subst h; cases hcp; rfl
        · split at hcp
          · cases hcp; rfl
          · cases hcp
      subst this
      rw [ok_bind, ok_bind, C57_debug_release_agree]
      intro h
      exact hc ((clash_of_any hb ha h2).1 ((C56_debug_throws_iff hL rfl hb ha (by omega)).1 h)).symm

/-- Subtraction of numbers of the same sign: the debug build throws exactly when the magnitudes have the same length and
each has a digit above the other's; otherwise it ends like the release build. -/
theorem C70_sub_throws_iff {L : Limits} (hL : Supported L) {al : Nat → Bool} (hm : ∀ n, al n = true) {a b : Bignum}
    (hs : Signed a.desc) (hsame : b.desc = a.desc) (ha : InRange L.base a.digits) (hb : InRange L.base b.digits) {n : Nat}
    (hn : max a.digits.length b.digits.length < n) :
    (Clash a.digits b.digits → subAssign L ⟨al, true⟩ n a (.other b) =
      .threw .stdException ⟨if b.desc = .pos then .posInf else .negInf, []⟩) ∧
    (¬ Clash a.digits b.digits → subAssign L ⟨al, true⟩ n a (.other b) = subAssign L ⟨al, false⟩ n a (.other b)) := by
  rw [subAssign_signed hs, subAssign_signed hs, subTry_same (r := .other b) hs hsame, subTry_same (r := .other b) hs hsame]
  refine ⟨fun hc => ?_, fun hc => ?_⟩
  · rw [magDiff_debug hL (env := ⟨al, true⟩) hm rfl _ ha hb hn hc]; rfl
  · rw [magDiff_quiet hL _ ha hb hn hc]

example := C70_sub_throws_iff (L := .base10) (al := fun _ => true) (a := ⟨.pos, [0, 1]⟩) (b := Sample.n1) (n := 5)
  (.inr Sample.base10) (fun _ => rfl) (by sample) rfl (by sample) (by sample) (by sample)

/-- Addition: numbers of the same sign never throw; numbers of different sign like subtraction. -/
theorem C70_add_throws_iff {L : Limits} (hL : Supported L) {al : Nat → Bool} (hm : ∀ n, al n = true) {a b : Bignum}
    (hs : Signed a.desc) (hs' : Signed b.desc) (ha : InRange L.base a.digits) (hb : InRange L.base b.digits) {n : Nat}
    (hn : max a.digits.length b.digits.length < n) :
    (b.desc ≠ a.desc → Clash a.digits b.digits → addAssign L ⟨al, true⟩ n a (.other b) =
      .threw .stdException ⟨if b.desc = .pos then .posInf else .negInf, []⟩) ∧
    (b.desc = a.desc ∨ ¬ Clash a.digits b.digits → addAssign L ⟨al, true⟩ n a (.other b) = addAssign L ⟨al, false⟩ n a (.other b)) := by
  rw [addAssign_signed hs, addAssign_signed hs]
  by_cases hd : b.desc = a.desc
  · refine ⟨fun h => absurd hd h, fun _ => ?_⟩
    rw [addTry_same (r := .other b) hs hd, addTry_same (r := .other b) hs hd]; rfl
  · rw [addTry_opp (r := .other b) hs hs' hd, addTry_opp (r := .other b) hs hs' hd]
    refine ⟨fun _ hc => ?_, fun hc => ?_⟩
    · rw [magDiff_debug hL (env := ⟨al, true⟩) hm rfl _ ha hb hn hc]; rfl
    · rw [magDiff_quiet hL _ ha hb hn (hc.resolve_left hd)]

example : Clash [1, 2] [9, 1] ∧ ¬ Clash [9, 2] [1, 1] := by
  refine ⟨⟨rfl, ⟨0, by decide⟩, ⟨1, by decide⟩⟩, ?_⟩
  rintro ⟨-, ⟨i, hi, h⟩, -⟩
  have : i = 0 ∨ i = 1 := by simp at hi; omega
  rcases this with rfl | rfl <;> simp at h

/-- Subtracting a number from itself ends alike in both builds. -/
theorem C70_self {L : Limits} (hL : Supported L) (al : Nat → Bool) {a : Bignum} (hs : Signed a.desc) (ha : InRange L.base a.digits)
    {n : Nat} (hn : a.digits.length < n) : subAssign L ⟨al, true⟩ n a .self = subAssign L ⟨al, false⟩ n a .self := by
  rw [subAssign_signed hs, subAssign_signed hs, subTry_same (r := .self) hs rfl, subTry_same (r := .self) hs rfl]
  unfold magDiff
  simp only [Rhs.get, Rhs.src]
  rw [absGe_eq ha ha, ok_bind, ok_bind, if_pos (by simp), if_pos (by simp)]
  have h : absSub L ⟨al, true⟩ n a.digits .self = absSub L ⟨al, false⟩ n a.digits .self := by
    refine C57_debug_release_agree L al n a.digits .self fun h => ?_
    have hok : subDebugCheck ⟨al, true⟩ a.digits (Src.self.get a.digits) = .ok () := by
      show subDebugCheck ⟨al, true⟩ a.digits a.digits = _
      rw [subDebugCheck_eq, if_neg (by simp)]
    by_cases h0 : a.digits = []
    · rw [absSub_ub hL _ (src := .self) hok ha ha (.inl h0) hn] at h; cases h
    · rw [absSub_ok hL _ (src := .self) hok ha ha h0 (Nat.le_refl _) hn] at h; cases h
  rw [h]

example := C70_self (L := .base10) (.inr Sample.base10) (fun m => decide (m < 3)) (a := Sample.m23) (n := 5) (by sample) (by sample)
  (by sample)

/-- Division is affected too: in base 10 the debug build refuses 51 / 7, which the release build computes. -/
theorem C70_div_differs : ∃ a b : Bignum, WF .base10 a ∧ WF .base10 b ∧
    Evaluates (fun n => divAssign .base10 ⟨fun _ => true, false⟩ n a (.other b)) (.ok ⟨.pos, [7]⟩) ∧
    Evaluates (fun n => divAssign .base10 ⟨fun _ => true, true⟩ n a (.other b)) (.threw .stdException ⟨.posInf, []⟩) := by
  have wfa : WF .base10 ⟨.pos, [1, 5]⟩ := by
    simp [WF, Signed, WFDigits, InRange, NoLeadingZero, Limits.base, Limits.base10, Limits.custom]
  have wfb : WF .base10 ⟨.pos, [7]⟩ := by
    simp [WF, Signed, WFDigits, InRange, NoLeadingZero, Limits.base, Limits.base10, Limits.custom]
  refine ⟨_, _, wfa, wfb, ⟨60, fun n hn => ?_⟩, ⟨60, fun n hn => ?_⟩⟩
  · rw [mono_divAssign .base10 ⟨fun _ => true, false⟩ ⟨.pos, [1, 5]⟩ (.other ⟨.pos, [7]⟩) 60 n hn (by decide +kernel)]
    decide +kernel
  · rw [mono_divAssign .base10 ⟨fun _ => true, true⟩ ⟨.pos, [1, 5]⟩ (.other ⟨.pos, [7]⟩) 60 n hn (by decide +kernel)]
    decide +kernel

/-! ### C71 -/

/-- The statement ends without an exception (only the arithmetic operators depend on the build). -/
def Op.Quiet {F : Type} (o : FloatOps F) (L : Limits) (env : Env) (fuel : Nat) (s : Store) : Op → Prop
  | .arith k i j => ∃ b, k.assign o L env fuel (s i) (rhsOf s i j) = .ok b
  | .binary k _ j l => ∃ b, k.binary o L env fuel (s j) (s l) = .ok b
  | _ => True

/-- Every arithmetic statement of the program ends without an exception. -/
def QuietRun {F : Type} (o : FloatOps F) (L : Limits) (fuel : Nat) : (Nat → Env) → Store → List Op → Prop
  | _, _, [] => True
  | env, s, op :: ops => op.Quiet o L (env 0) fuel s ∧
    ∀ s', op.step o L (env 0) fuel s = some s' → QuietRun o L fuel (fun k => env (k + 1)) s' ops

theorem assign_quiet {F : Type} {o : FloatOps F} {L : Limits} {al : Nat → Bool} {k : Arith} {n : Nat} {x : Bignum} {r : Rhs} {b : Bignum}
    (h : k.assign o L ⟨al, true⟩ n x r = .ok b) : k.assign o L ⟨al, false⟩ n x r = .ok b := by
  rcases C70_debug_or_throw L al o k n x r with h1 | h1 | h1
  · rw [← h1, h]
  · rw [h] at h1; cases h1
  · rw [h] at h1; cases h1

theorem step_quiet {F : Type} {o : FloatOps F} {L : Limits} {al : Nat → Bool} {n : Nat} {s : Store} {op : Op}
    (h : op.Quiet o L ⟨al, true⟩ n s) : op.step o L ⟨al, true⟩ n s = op.step o L ⟨al, false⟩ n s := by
  cases op with
  | arith k i j =>
    obtain ⟨b, hb⟩ := h
    show Out.store s i _ = Out.store s i _
    rw [hb, assign_quiet hb]
  | binary k i j l =>
    obtain ⟨b, hb⟩ := h
    have : k.binary o L ⟨al, false⟩ n (s j) (s l) = .ok b := by
      unfold Arith.binary viaCopy at hb ⊢
      cases hc : (s j).copy ⟨al, true⟩ with
      | error e => rw [hc] at hb; cases hb
      | ok z =>
        rw [hc, ok_bind] at hb
        rw [show (s j).copy ⟨al, false⟩ = .ok z from hc, ok_bind]
        cases hz : k.assign o L ⟨al, true⟩ n z (.other (s l)) with
        | ok c => rw [assign_quiet hz]; rw [hz] at hb; exact hb
        | threw e c => rw [hz] at hb; cases hb
        | ub u => rw [hz] at hb; cases hb
        | timeout => rw [hz] at hb; cases hb
    show Out.store s i _ = Out.store s i _
    rw [hb, this]
  | _ => rfl

/-- A program whose arithmetic throws nothing in a debug build does exactly the same in a release build: same objects at
the end (or the same absence of an end), for every program, store, allocator, digit type and budget. -/
theorem C71_debug_run_predicts_release {F : Type} (o : FloatOps F) (L : Limits) (n : Nat) : ∀ (ops : List Op) (al : Nat → Nat → Bool) (s : Store),
    QuietRun o L n (fun k => ⟨al k, true⟩) s ops →
    run o L n (fun k => ⟨al k, false⟩) s ops = run o L n (fun k => ⟨al k, true⟩) s ops
  | [], _, _, _ => rfl
  | op :: ops, al, s, ⟨h1, h2⟩ => by
    rw [run, run, ← step_quiet h1]
    cases hs : op.step o L ⟨al 0, true⟩ n s with
    | none => rfl
    | some s' => exact C71_debug_run_predicts_release o L n ops (fun k => al (k + 1)) s' (h2 s' hs)

/-- A quiet program: 29 - 11 and then 18 + 11 in base 10. -/
example {F : Type} (o : FloatOps F) : QuietRun o .base10 9 (fun _ => ⟨fun _ => true, true⟩)
    (fun i => if i = 0 then ⟨.pos, [9, 2]⟩ else ⟨.pos, [1, 1]⟩) [.arith .sub 0 1, .binary .add 2 0 1] := by
  have e1 : subAssign .base10 ⟨fun _ => true, true⟩ 9 ⟨.pos, [9, 2]⟩ (.other ⟨.pos, [1, 1]⟩) = .ok ⟨.pos, [8, 1]⟩ := by
    decide +kernel
  have e2 : viaCopy ⟨fun _ => true, true⟩ (addAssign .base10 ⟨fun _ => true, true⟩ 9) ⟨.pos, [8, 1]⟩ ⟨.pos, [1, 1]⟩ = .ok ⟨.pos, [9, 2]⟩ := by
    decide +kernel
  refine ⟨⟨⟨.pos, [8, 1]⟩, e1⟩, fun s' hs => ⟨?_, fun _ _ => trivial⟩⟩
  have h1 : (subAssign .base10 ⟨fun _ => true, true⟩ 9 ⟨.pos, [9, 2]⟩ (.other ⟨.pos, [1, 1]⟩)).store
      (fun i => if i = 0 then ⟨.pos, [9, 2]⟩ else ⟨.pos, [1, 1]⟩) 0 = some s' := hs
  rw [e1] at h1
  cases h1
  exact ⟨⟨.pos, [9, 2]⟩, e2⟩

end BN
