import Verif.Lemmas.Samples
import Verif.Props.History
import Verif.Props.Subtraction
/-
Programs over several objects compute like programs over integer variables (C63, C64).
-/
namespace BN

open Bignum

/-! ### Integer programs -/

/-- Integer variables. -/
abbrev Vars := Nat → Int

def Vars.set (v : Vars) (i : Nat) (x : Int) : Vars := fun j => if j = i then x else v j

/-- The arithmetic of the integers; division truncates. -/
def Arith.int : Arith → Int → Int → Int
  | .add, a, b => a + b
  | .sub, a, b => a - b
  | .mul, a, b => a * b
  | .div, a, b => a.tdiv b

/-- When `a op b` is claimed to be computed correctly: addition unless both operands are zero; subtraction from a non-zero
number, of zero or a number of the same sign; products of numbers of at most `K` digits, not both zero; division by a number
that is not zero, and not of the same magnitude unless that is 1. -/
def Arith.Guard (B K : Nat) : Arith → Int → Int → Prop
  | .add, a, b => ¬ (a = 0 ∧ b = 0)
  | .sub, a, b => a ≠ 0 ∧ 0 ≤ a * b
  | .mul, a, b => ¬ (a = 0 ∧ b = 0) ∧ a.natAbs < B ^ K ∧ b.natAbs < B ^ K
  | .div, a, b => b ≠ 0 ∧ (a.natAbs = b.natAbs → b.natAbs = 1)

/-- The meaning of a statement for integer variables. -/
inductive IntStep (B K : Nat) (v : Vars) : Op → Vars → Prop
  | makePos (i : Nat) (l : List Nat) (hl : InRange B l) :
    IntStep B K v (.make i .pos l) (v.set i (l.foldl (fun acc d => acc * B + d) 0 : Nat))
  | makeNeg (i : Nat) (l : List Nat) (hl : InRange B l) :
    IntStep B K v (.make i .neg l) (v.set i (-(l.foldl (fun acc d => acc * B + d) 0 : Nat)))
  | copy (i j : Nat) : IntStep B K v (.copy i j) (v.set i (v j))
  | move (i j : Nat) (h : i ≠ j) : IntStep B K v (.move i j) ((v.set i (v j)).set j 0)
  | abs (i : Nat) : IntStep B K v (.setDescriptor i .pos) (v.set i |v i|)
  | negAbs (i : Nat) : IntStep B K v (.setDescriptor i .neg) (v.set i (-|v i|))
  | clear (i : Nat) : IntStep B K v (.clear i) (v.set i 0)
  | arith (k : Arith) (i j : Nat) (h : k.Guard B K (v i) (v j)) : IntStep B K v (.arith k i j) (v.set i (k.int (v i) (v j)))
  | binary (k : Arith) (i j l : Nat) (h : k.Guard B K (v j) (v l)) : IntStep B K v (.binary k i j l) (v.set i (k.int (v j) (v l)))

inductive IntRun (B K : Nat) : Vars → List Op → Vars → Prop
  | done (v : Vars) : IntRun B K v [] v
  | step {v v' v'' : Vars} {op : Op} {ops : List Op} (h : IntStep B K v op v') (t : IntRun B K v' ops v'') :
    IntRun B K v (op :: ops) v''

/-- The objects hold the integers. -/
def Holds (L : Limits) (s : Store) (v : Vars) : Prop := ∀ i, WF L (s i) ∧ (s i).toInt L = v i

/-- Products of numbers of at most `K` digits each are exact. -/
def MulExact {F : Type} (o : FloatOps F) (L : Limits) (K : Nat) : Prop :=
  ∀ (env : Env) (x : Bignum) (r : Rhs), env.Ample → WF L x → WF L (r.get x) → 1 ≤ x.digits.length + (r.get x).digits.length →
    x.digits.length ≤ K → (r.get x).digits.length ≤ K →
    ∃ z, (∀ n, 32 < n → mulAssign o L env n x r = .ok z) ∧ WF L z ∧ z.toInt L = x.toInt L * (r.get x).toInt L

/-! ### One statement -/

theorem natAbs_toInt (L : Limits) (b : Bignum) : (b.toInt L).natAbs = b.mag L := by
  unfold Bignum.toInt; split <;> simp

theorem toInt_eq_zero {L : Limits} {b : Bignum} : b.toInt L = 0 ↔ b.mag L = 0 := by
  rw [← natAbs_toInt]; exact Int.natAbs_eq_zero.symm

theorem mag_of_nil {L : Limits} {b : Bignum} (h : b.digits = []) : b.mag L = 0 := by
  unfold Bignum.mag; rw [h]; rfl

theorem not_nil_both {L : Limits} {a b : Bignum} (h : ¬ (a.toInt L = 0 ∧ b.toInt L = 0)) : ¬ (a.digits = [] ∧ b.digits = []) :=
  fun h' => h ⟨toInt_eq_zero.2 (mag_of_nil h'.1), toInt_eq_zero.2 (mag_of_nil h'.2)⟩

theorem length_le_of_mag {L : Limits} (hL : Supported L) {b : Bignum} (hb : WF L b) {K : Nat} (hK : 1 ≤ K)
    (h : (b.toInt L).natAbs < L.base ^ K) : b.digits.length ≤ K := by
  rw [natAbs_toInt] at h
  rcases wf_cases hL.base_ge hb.2 with ⟨h0 | h0, -⟩ | ⟨hz, -⟩
  · rw [h0]; simp
  · rw [h0]; simpa using hK
  · by_contra hc
    have h1 := le_natOf_of_noLeadingZero (B := L.base) hz.nlz hz.ne
    have h2 : L.base ^ K ≤ L.base ^ (b.digits.length - 1) := Nat.pow_le_pow_right (by have := hL.base_ge; omega) (by omega)
    unfold Bignum.mag at h
    omega

theorem sub_step {L : Limits} (hL : Supported L) {env : Env} (hm : env.Ample) (hd : env.debug = false) {a : Bignum} {r : Rhs}
    (ha : WF L a) (hb : WF L (r.get a)) (h0 : a.toInt L ≠ 0) (hs : 0 ≤ a.toInt L * (r.get a).toInt L) :
    ∃ c, Evaluates (fun n => subAssign L env n a r) (.ok c) ∧ WF L c ∧ c.toInt L = a.toInt L - (r.get a).toInt L := by
  have hne : ¬ (a.digits = [] ∧ (r.get a).digits = []) := not_nil_both fun h => h0 h.1
  by_cases hsame : (r.get a).desc = a.desc
  · obtain ⟨c, h1, h2, -, h3⟩ := C15_sub_same_sign_exact hL hm hd ha hb hsame hne
    exact ⟨c, h1, h2, h3⟩
  · cases r with
    | self => exact absurd rfl hsame
    | other b =>
      change WF L b at hb
      change b.desc ≠ a.desc at hsame
      change 0 ≤ a.toInt L * b.toInt L at hs
      change ¬ (a.digits = [] ∧ b.digits = []) at hne
      have hb0 : b.mag L = 0 := by
        by_contra hb0
        have ha0 : a.mag L ≠ 0 := fun h => h0 (toInt_eq_zero.2 h)
        have hp : 0 < (a.mag L : Int) * (b.mag L : Int) := by positivity
        have hneg : a.toInt L * b.toInt L = -((a.mag L : Int) * (b.mag L : Int)) := by
          unfold Bignum.toInt
          rcases ha.1 with h | h <;> rcases hb.1 with h' | h' <;> simp_all
        omega
      obtain ⟨c, h1, h2, h3, -⟩ := C17_sub_opposite_sign hL hm hd ha.1 hb.1 hsame ha.2.1 hb.2.1 hne
      exact ⟨c, h1, ⟨h2 ▸ ha.1, h3.1, .inl h3.2⟩, (C17_sub_opposite_exact_iff hL hm hd ha hb hsame hne h1).2 (.inl hb0)⟩

theorem div_step {L : Limits} (hL : Custom L) {env : Env} (hm : env.Ample) (hd : env.debug = false) {a : Bignum} {r : Rhs}
    (ha : WF L a) (hb : WF L (r.get a)) (h0 : (r.get a).toInt L ≠ 0)
    (h1 : (a.toInt L).natAbs = ((r.get a).toInt L).natAbs → ((r.get a).toInt L).natAbs = 1) :
    ∃ c, Evaluates (fun n => divAssign L env n a r) (.ok c) ∧ WF L c ∧ c.toInt L = (a.toInt L).tdiv ((r.get a).toInt L) := by
  rw [natAbs_toInt, natAbs_toInt] at h1
  have hb0 : (r.get a).mag L ≠ 0 := fun h => h0 (toInt_eq_zero.2 h)
  by_cases hne : a.mag L = (r.get a).mag L
  · have hb1 := h1 hne
    have hB := hL.supported.base_ge
    have hd1 : (r.get a).digits = [1] := by
      rcases wf_cases hB hb.2 with ⟨-, h0⟩ | ⟨hz, -⟩
      · exact absurd h0 hb0
      · refine natOf_unique (B := L.base) (by omega) hz.rng ?_ hz.nlz (by simp [NoLeadingZero]) ?_
        · intro d hd; rw [List.mem_singleton.1 hd]; omega
        · unfold Bignum.mag at hb1; rw [hb1]; simp [natOf]
    refine ⟨_, ⟨0, fun n _ => divAssign_by_one ha.1 hd1⟩, ⟨?_, ha.2⟩, ?_⟩
    · rw [mulSign_signed ha.1 hb.1]; unfold signRule; split
      · exact .inl rfl
      · exact .inr rfl
    · rw [mulSign_signed ha.1 hb.1]
      have ha1 : natOf L.base a.digits = 1 := by unfold Bignum.mag at hb1 hne; omega
      have hb1' : natOf L.base (r.get a).digits = 1 := hb1
      unfold Bignum.toInt Bignum.mag signRule
      simp only [ha1, hb1']
      rcases ha.1 with h | h <;> rcases hb.1 with h' | h' <;> rw [h, h'] <;> decide
  · obtain ⟨c, h1, h2, -, -, h3⟩ := C31_div_exact hL hm hd ha hb hb0 hne
    exact ⟨c, ⟨_, h1⟩, h2, h3⟩

/-- Guarded operators compute like the integers. -/
theorem arith_step {F : Type} {o : FloatOps F} {L : Limits} (hL : Custom L) {K : Nat} (hK : 1 ≤ K) (hmul : MulExact o L K)
    {env : Env} (hm : env.Ample) (hd : env.debug = false) (k : Arith) {a : Bignum} {r : Rhs} (ha : WF L a) (hb : WF L (r.get a))
    (hg : k.Guard L.base K (a.toInt L) ((r.get a).toInt L)) :
    ∃ c, Evaluates (fun n => k.assign o L env n a r) (.ok c) ∧ WF L c ∧ c.toInt L = k.int (a.toInt L) ((r.get a).toInt L) := by
  cases k with
  | add =>
    exact C09_add_exact hL.supported hm hd ha hb fun h => not_nil_both hg ⟨h.2.1, h.2.2⟩
  | sub => exact sub_step hL.supported hm hd ha hb hg.1 hg.2
  | mul =>
    have hne := not_nil_both hg.1
    have h1 : 1 ≤ a.digits.length + (r.get a).digits.length := by
      by_contra hc
      exact hne ⟨List.length_eq_zero_iff.1 (by omega), List.length_eq_zero_iff.1 (by omega)⟩
    obtain ⟨z, h2, h3, h4⟩ := hmul env a r hm ha hb h1 (length_le_of_mag hL.supported ha hK hg.2.1)
      (length_le_of_mag hL.supported hb hK hg.2.2)
    exact ⟨z, ⟨33, fun n hn => h2 n (by omega)⟩, h3, h4⟩
  | div => exact div_step hL hm hd ha hb hg.1 hg.2

theorem Holds.set {L : Limits} {s : Store} {v : Vars} (h : Holds L s v) (i : Nat) {b : Bignum} {x : Int} (hb : WF L b)
    (hx : b.toInt L = x) : Holds L (s.set i b) (v.set i x) := by
  intro j
  unfold Store.set Vars.set
  split
  · exact ⟨hb, hx⟩
  · exact h j

theorem wf_default (L : Limits) : WF L Bignum.default ∧ Bignum.default.toInt L = 0 :=
  ⟨⟨.inl rfl, fun x h => by simp [Bignum.default] at h, .inl (by simp [NoLeadingZero, Bignum.default])⟩, rfl⟩

/-- One statement of an integer program. -/
theorem int_step {F : Type} {o : FloatOps F} {L : Limits} (hL : Custom L) {K : Nat} (hK : 1 ≤ K) (hmul : MulExact o L K)
    {env : Env} (hm : env.Ample) (hd : env.debug = false) {s : Store} {v v' : Vars} {op : Op} (hs : Holds L s v)
    (hst : IntStep L.base K v op v') :
    ∃ s', Evaluates (fun n => op.step o L env n s) (some s') ∧ Holds L s' v' := by
  have hmake : ∀ (d : Desc), Signed d → ∀ (l : List Nat), InRange L.base l → ∃ b, ofList env d l = .ok b ∧ WF L b ∧
      b.toInt L = if d = .neg then -((l.foldl (fun acc d => acc * L.base + d) 0 : Nat) : Int)
        else (l.foldl (fun acc d => acc * L.base + d) 0 : Nat) := by
    intro d hd l hl
    obtain ⟨b, h1, h2, h3, h4, h5⟩ := C45_construct hm L.base d l
    refine ⟨b, h1, ⟨h2 ▸ hd, fun x hx => hl x (h5 x hx), .inl h3⟩, ?_⟩
    unfold Bignum.toInt Bignum.mag
    rw [h2, h4]
  cases hst with
  | makePos i l hl =>
    obtain ⟨b, h1, h2, h3⟩ := hmake .pos (.inl rfl) l hl
    exact ⟨s.set i b, ⟨0, fun n _ => by simp only [Op.step, h1, strong, Out.store]⟩, hs.set i h2 h3⟩
  | makeNeg i l hl =>
    obtain ⟨b, h1, h2, h3⟩ := hmake .neg (.inr rfl) l hl
    exact ⟨s.set i b, ⟨0, fun n _ => by simp only [Op.step, h1, strong, Out.store]⟩, hs.set i h2 h3⟩
  | copy i j =>
    refine ⟨s.set i (s j), ⟨0, fun n _ => ?_⟩, hs.set i (hs j).1 (hs j).2⟩
    simp only [Op.step]
    split
    · rename_i hij
      subst hij
      congr 1
      funext k
      unfold Store.set
      split
      · rename_i h; rw [h]
      · rfl
    · simp only [copyAssign, copy_ample hm, Out.store]
  | move i j hij =>
    refine ⟨(s.set i (s j)).set j Bignum.default, ⟨0, fun n _ => ?_⟩,
      (hs.set i (hs j).1 (hs j).2).set j (wf_default L).1 (wf_default L).2⟩
    simp only [Op.step, if_neg hij]
    rfl
  | abs i =>
    refine ⟨s.set i ((s i).setDescriptor .pos), ⟨0, fun n _ => rfl⟩, hs.set i ⟨.inl rfl, (hs i).1.2⟩ ?_⟩
    rw [← (hs i).2, Int.abs_eq_natAbs, natAbs_toInt]
    rfl
  | negAbs i =>
    refine ⟨s.set i ((s i).setDescriptor .neg), ⟨0, fun n _ => rfl⟩, hs.set i ⟨.inr rfl, (hs i).1.2⟩ ?_⟩
    rw [← (hs i).2, Int.abs_eq_natAbs, natAbs_toInt]
    rfl
  | clear i =>
    exact ⟨s.set i (s i).clear, ⟨0, fun n _ => rfl⟩, hs.set i (wf_default L).1 (wf_default L).2⟩
  | arith k i j hg =>
    have hr := rhsOf_get s i j
    obtain ⟨c, ⟨n₀, h1⟩, h2, h3⟩ := arith_step (o := o) hL hK hmul hm hd k (r := rhsOf s i j) (hs i).1 (by rw [hr]; exact (hs j).1)
      (by rw [hr, (hs i).2, (hs j).2]; exact hg)
    refine ⟨s.set i c, ⟨n₀, fun n hn => ?_⟩, hs.set i h2 ?_⟩
    · simp only [Op.step, h1 n hn, Out.store]
    · rw [h3, hr, (hs i).2, (hs j).2]
  | binary k i j l hg =>
    obtain ⟨c, ⟨n₀, h1⟩, h2, h3⟩ := arith_step (o := o) hL hK hmul hm hd k (r := .other (s l)) (hs j).1 (hs l).1
      (by change k.Guard _ _ _ ((s l).toInt L); rw [(hs j).2, (hs l).2]; exact hg)
    refine ⟨s.set i c, ⟨n₀, fun n hn => ?_⟩, hs.set i h2 ?_⟩
    · simp only [Op.step, Arith.binary, viaCopy, copy_ok hm, ok_bind, h1 n hn, strong, Out.store]
    · rw [h3]
      change k.int _ ((s l).toInt L) = _
      rw [(hs j).2, (hs l).2]

/-! ### C64 -/

/-- C64: whatever an integer program with guarded statements computes, the same program over objects computes. -/
theorem C64_programs {F : Type} {o : FloatOps F} {L : Limits} (hL : Custom L) {K : Nat} (hK : 1 ≤ K) (hmul : MulExact o L K)
    {ops : List Op} {v v' : Vars} (hr : IntRun L.base K v ops v') :
    ∀ (env : Nat → Env), (∀ k, (env k).Ample ∧ (env k).debug = false) → ∀ s : Store, Holds L s v →
      ∃ s', Evaluates (fun n => run o L n env s ops) (some s') ∧ Holds L s' v' := by
  induction hr with
  | done v => exact fun env _ s hs => ⟨s, ⟨0, fun _ _ => rfl⟩, hs⟩
  | step h t ih =>
    intro env he s hs
    obtain ⟨s1, ⟨n1, h1⟩, hs1⟩ := int_step (o := o) hL hK hmul (he 0).1 (he 0).2 hs h
    obtain ⟨s2, ⟨n2, h2⟩, hs2⟩ := ih (fun k => env (k + 1)) (fun k => he (k + 1)) s1 hs1
    refine ⟨s2, ⟨max n1 n2, fun n hn => ?_⟩, hs2⟩
    simp only [run, h1 n (le_trans (le_max_left _ _) hn), Option.bind_some]
    exact h2 n (le_trans (le_max_right _ _) hn)

theorem mulExact_base10 {F : Type} {o : FloatOps F} (M : Ieee o) : MulExact o .base10 (2 ^ 24) :=
  fun env x r hm hx hy h1 h2 h3 => by
    obtain ⟨z, h4, h5, -, -, h6⟩ := C24_base10 M hm hx hy h1 (by omega)
    exact ⟨z, h4, h5, h6⟩

theorem mulExact_base16 {F : Type} {o : FloatOps F} (M : Ieee o) : MulExact o .base16 (2 ^ 23) :=
  fun env x r hm hx hy h1 h2 h3 => by
    obtain ⟨z, h4, h5, -, -, h6⟩ := C24_base16 M hm hx hy h1 (by omega)
    exact ⟨z, h4, h5, h6⟩

theorem mulExact_base8 {F : Type} {o : FloatOps F} (M : Ieee o) : MulExact o .base8 1170 :=
  fun env x r hm hx hy h1 h2 h3 => by
    obtain ⟨z, h4, h5, -, -, h6⟩ := C24_base8 M hm hx hy h1 (by omega) (by omega)
    exact ⟨z, h4, h5, h6⟩

theorem mulExact_base2 {F : Type} {o : FloatOps F} (M : Ieee o) : MulExact o .base2 128 :=
  fun env x r hm hx hy h1 h2 h3 => by
    obtain ⟨z, h4, h5, -, -, h6⟩ := C24_base2 M hm hx hy h1 (by omega) (by omega)
    exact ⟨z, h4, h5, h6⟩

theorem custom_base10 : Custom .base10 := ⟨32, 9, by norm_num, by norm_num, by norm_num, rfl⟩
theorem custom_base16 : Custom .base16 := ⟨32, 15, by norm_num, by norm_num, by norm_num, rfl⟩
theorem custom_base8 : Custom .base8 := ⟨16, 7, by norm_num, by norm_num, by norm_num, rfl⟩
theorem custom_base2 : Custom .base2 := ⟨8, 1, by norm_num, by norm_num, by norm_num, rfl⟩

/-- C64 in base 10: products of numbers below 10^(2^24) are allowed. -/
theorem C64_base10 {F : Type} {o : FloatOps F} (M : Ieee o) {ops : List Op} {v' : Vars}
    (hr : IntRun 10 (2 ^ 24) (fun _ => 0) ops v') {env : Nat → Env} (he : ∀ k, (env k).Ample ∧ (env k).debug = false) :
    ∃ s', Evaluates (fun n => run o .base10 n env (fun _ => Bignum.default) ops) (some s') ∧ Holds .base10 s' v' :=
  C64_programs custom_base10 Nat.one_le_two_pow (mulExact_base10 M) hr env he _
    fun _ => wf_default _

example {F : Type} {o : FloatOps F} (M : Ieee o) := C64_base10 M (ops := [.make 0 .neg [1, 2], .arith .mul 0 0])
  (.step (.makeNeg 0 [1, 2] (by sample)) (.step (.arith .mul 0 0 ⟨by decide,
    lt_of_lt_of_le (by decide : _ < 10 ^ 2) (Nat.pow_le_pow_right (by norm_num) (by norm_num)),
    lt_of_lt_of_le (by decide : _ < 10 ^ 2) (Nat.pow_le_pow_right (by norm_num) (by norm_num))⟩) (.done _)))
  (env := fun _ => releaseEnv) fun _ => ⟨Sample.ample, rfl⟩

/-- C64 in base 16: products of numbers below 16^(2^23) are allowed. -/
theorem C64_base16 {F : Type} {o : FloatOps F} (M : Ieee o) {ops : List Op} {v' : Vars}
    (hr : IntRun 16 (2 ^ 23) (fun _ => 0) ops v') {env : Nat → Env} (he : ∀ k, (env k).Ample ∧ (env k).debug = false) :
    ∃ s', Evaluates (fun n => run o .base16 n env (fun _ => Bignum.default) ops) (some s') ∧ Holds .base16 s' v' :=
  C64_programs custom_base16 Nat.one_le_two_pow (mulExact_base16 M) hr env he _
    fun _ => wf_default _

example {F : Type} {o : FloatOps F} (M : Ieee o) := C64_base16 M (ops := [.make 0 .neg [1, 2], .arith .mul 0 0])
  (.step (.makeNeg 0 [1, 2] (by sample)) (.step (.arith .mul 0 0 ⟨by decide,
    lt_of_lt_of_le (by decide : _ < 16 ^ 2) (Nat.pow_le_pow_right (by norm_num) (by norm_num)),
    lt_of_lt_of_le (by decide : _ < 16 ^ 2) (Nat.pow_le_pow_right (by norm_num) (by norm_num))⟩) (.done _)))
  (env := fun _ => releaseEnv) fun _ => ⟨Sample.ample, rfl⟩

/-- C64 in base 8: products of numbers below 8^1170 are allowed. -/
theorem C64_base8 {F : Type} {o : FloatOps F} (M : Ieee o) {ops : List Op} {v' : Vars}
    (hr : IntRun 8 1170 (fun _ => 0) ops v') {env : Nat → Env} (he : ∀ k, (env k).Ample ∧ (env k).debug = false) :
    ∃ s', Evaluates (fun n => run o .base8 n env (fun _ => Bignum.default) ops) (some s') ∧ Holds .base8 s' v' :=
  C64_programs custom_base8 (by norm_num) (mulExact_base8 M) hr env he _
    fun _ => wf_default _

example {F : Type} {o : FloatOps F} (M : Ieee o) := C64_base8 M (ops := [.make 0 .neg [1, 2], .arith .mul 0 0])
  (.step (.makeNeg 0 [1, 2] (by sample)) (.step (.arith .mul 0 0 ⟨by decide,
    lt_of_lt_of_le (by decide : _ < 8 ^ 2) (Nat.pow_le_pow_right (by decide) (by decide : 2 ≤ 1170)),
    lt_of_lt_of_le (by decide : _ < 8 ^ 2) (Nat.pow_le_pow_right (by decide) (by decide : 2 ≤ 1170))⟩) (.done _)))
  (env := fun _ => releaseEnv) fun _ => ⟨Sample.ample, rfl⟩

/-- C64 in base 2: products of numbers below 2^128 are allowed. -/
theorem C64_base2 {F : Type} {o : FloatOps F} (M : Ieee o) {ops : List Op} {v' : Vars}
    (hr : IntRun 2 128 (fun _ => 0) ops v') {env : Nat → Env} (he : ∀ k, (env k).Ample ∧ (env k).debug = false) :
    ∃ s', Evaluates (fun n => run o .base2 n env (fun _ => Bignum.default) ops) (some s') ∧ Holds .base2 s' v' :=
  C64_programs custom_base2 (by norm_num) (mulExact_base2 M) hr env he _
    fun _ => wf_default _

/-- A guarded program: (-5) * 3, divided by 2, squared. -/
example : ∃ v', IntRun 2 128 (fun _ => 0)
    [.make 0 .neg [0, 1, 0, 1], .make 1 .pos [1, 1], .arith .mul 0 1, .make 2 .pos [1, 0], .binary .div 3 0 2, .arith .mul 3 3] v' ∧
    v' 3 = 49 := by
  refine ⟨_, .step (.makeNeg _ _ ?_) (.step (.makePos _ _ ?_) (.step (.arith .mul _ _ ⟨?_, ?_, ?_⟩) (.step (.makePos _ _ ?_)
    (.step (.binary .div _ _ _ ⟨?_, ?_⟩) (.step (.arith .mul _ _ ⟨?_, ?_, ?_⟩) (.done _)))))), ?_⟩
  all_goals first | decide | simp [InRange]

/-! ### C63 -/

/-- The statements of tests/arithmetic_test.cpp:81-87: `a += b; a -= b; a *= b; a /= b;`. -/
def arithmeticTest : List Op := [.arith .add 0 1, .arith .sub 0 1, .arith .mul 0 1, .arith .div 0 1]

theorem chain_prefix {a b : Int} (hab : 0 ≤ a * b) (hb : b ≠ 0) {B K : Nat} (ha' : a.natAbs < B ^ K) (hb' : b.natAbs < B ^ K)
    (v : Vars) (h0 : v 0 = a) (h1 : v 1 = b) :
    ∃ v', IntRun B K v [.arith .add 0 1, .arith .sub 0 1, .arith .mul 0 1] v' ∧ v' 0 = a * b ∧ v' 1 = b := by
  have e : ∀ (w : Vars) x, w.set 0 x 0 = x ∧ w.set 0 x 1 = w 1 := fun w x => ⟨rfl, rfl⟩
  refine ⟨_, .step (.arith .add 0 1 ?_) (.step (.arith .sub 0 1 ?_) (.step (.arith .mul 0 1 ?_) (.done _))), ?_, ?_⟩
  · rw [h0, h1]; exact fun h => hb h.2
  · simp only [e, h0, h1, Arith.int, Arith.Guard]
    constructor
    · intro h
      have : a = -b := by omega
      rw [this] at hab
      have := mul_self_pos.2 hb
      nlinarith
    · nlinarith [mul_self_nonneg b]
  · simp only [e, h0, h1, Arith.int, Arith.Guard, add_sub_cancel_right]
    exact ⟨fun h => hb h.2, ha', hb'⟩
  · simp only [e, h0, h1, Arith.int, add_sub_cancel_right]
  · simp only [e, h1]

theorem run_append {F : Type} (o : FloatOps F) (L : Limits) (n : Nat) : ∀ (ops ops' : List Op) (env : Nat → Env) (s : Store),
    run o L n env s (ops ++ ops') = (run o L n env s ops).bind fun s' => run o L n (fun k => env (k + ops.length)) s' ops'
  | [], _, _, _ => rfl
  | op :: ops, ops', env, s => by
    simp only [List.cons_append, run]
    cases op.step o L (env 0) n s with
    | none => rfl
    | some s1 =>
      simp only [Option.bind_some, run_append o L n ops ops' _ s1, List.length_cons]
      congr

/-- C63, what holds: in base 10, for operands of the same sign (or `a = 0`) of at most 2^24 digits and `b ≠ 0`, unless `a` is 1 or -1
and `b` is not. Missing: that case, where the sequence ends with 0, and operands of different signs. -/
theorem C63_arithmetic_test_partial {F : Type} {o : FloatOps F} (M : Ieee o) {env : Nat → Env}
    (he : ∀ k, (env k).Ample ∧ (env k).debug = false) {s : Store} {v : Vars} (hs : Holds .base10 s v)
    (hab : 0 ≤ v 0 * v 1) (hb : v 1 ≠ 0) (ha' : (v 0).natAbs < 10 ^ 2 ^ 24) (hb' : (v 1).natAbs < 10 ^ 2 ^ 24)
    (h1 : (v 0).natAbs = 1 → (v 1).natAbs = 1) :
    ∃ s', Evaluates (fun n => run o .base10 n env s arithmeticTest) (some s') ∧ (s' 0).toInt .base10 = v 0 ∧
      (s' 1).toInt .base10 = v 1 := by
  obtain ⟨v', hr, e0, e1⟩ := chain_prefix hab hb ha' hb' v rfl rfl
  obtain ⟨s1, ⟨n1, hn1⟩, hs1⟩ := C64_programs custom_base10 Nat.one_le_two_pow (mulExact_base10 M) hr env he s hs
  obtain ⟨s2, ⟨n2, hn2⟩, hs2⟩ := int_step (o := o) custom_base10 Nat.one_le_two_pow (mulExact_base10 M) (he 3).1 (he 3).2 hs1
    (.arith .div 0 1 (by
      rw [e0, e1]
      refine ⟨hb, fun h => h1 ?_⟩
      rw [Int.natAbs_mul] at h
      exact Nat.eq_of_mul_eq_mul_right (Int.natAbs_pos.2 hb) (by omega)))
  refine ⟨s2, ⟨max n1 n2, fun n hn => ?_⟩, ?_, ?_⟩
  · have h := run_append o .base10 n [.arith .add 0 1, .arith .sub 0 1, .arith .mul 0 1] [.arith .div 0 1] env s
    rw [show run o .base10 n env s [.arith .add 0 1, .arith .sub 0 1, .arith .mul 0 1] = some s1 from hn1 n (le_trans (le_max_left _ _) hn)] at h
    refine h.trans ?_
    simp only [Option.bind_some, run]
    exact (congrArg (Option.bind · some) (hn2 n (le_trans (le_max_right _ _) hn))).trans rfl
  · rw [(hs2 0).2]
    change (v' 0).tdiv (v' 1) = v 0
    rw [e0, e1, Int.mul_tdiv_cancel _ hb]
  · rw [(hs2 1).2]
    exact e1

/-- The missing unit case: the sequence turns 1 and -1 into 0. -/
theorem C63_unit {F : Type} {o : FloatOps F} (M : Ieee o) {env : Nat → Env}
    (he : ∀ k, (env k).Ample ∧ (env k).debug = false) {s : Store} {v : Vars} (hs : Holds .base10 s v)
    (hab : 0 ≤ v 0 * v 1) (h1 : (v 0).natAbs = 1) (hb : 2 ≤ (v 1).natAbs) (hb' : (v 1).natAbs < 10 ^ 2 ^ 24) :
    ∃ s', Evaluates (fun n => run o .base10 n env s arithmeticTest) (some s') ∧ (s' 0).toInt .base10 = 0 := by
  have hb0 : v 1 ≠ 0 := fun h => by rw [h] at hb; simp at hb
  obtain ⟨v', hr, e0, e1⟩ := chain_prefix hab hb0 (by omega) hb' v rfl rfl
  obtain ⟨s1, ⟨n1, hn1⟩, hs1⟩ := C64_programs custom_base10 Nat.one_le_two_pow (mulExact_base10 M) hr env he s hs
  have hm0 : (s1 0).mag .base10 = (v 1).natAbs := by
    rw [← natAbs_toInt, (hs1 0).2, e0, Int.natAbs_mul, h1, Nat.one_mul]
  have hm1 : (s1 1).mag .base10 = (v 1).natAbs := by
    rw [← natAbs_toInt, (hs1 1).2, e1]
  refine ⟨s1.set 0 ⟨signRule (s1 0).desc (s1 1).desc, [0]⟩, ⟨n1, fun n hn => ?_⟩, ?_⟩
  · have h := run_append o .base10 n [.arith .add 0 1, .arith .sub 0 1, .arith .mul 0 1] [.arith .div 0 1] env s
    rw [show run o .base10 n env s [.arith .add 0 1, .arith .sub 0 1, .arith .mul 0 1] = some s1 from hn1 n hn] at h
    refine h.trans ?_
    have hd := C32_self_division_is_zero (env := env 3) (fuel := n) custom_base10.supported (hs1 0).1 (r := .other (s1 1)) (hs1 1).1
      (hm0.trans hm1.symm) (by omega)
    simp only [Option.bind_some, run, Op.step, Arith.assign]
    change Option.bind (Out.store s1 0 (divAssign .base10 (env 3) n (s1 0) (.other (s1 1)))) some = _
    rw [hd]
    rfl
  · change Bignum.toInt .base10 ⟨signRule (s1 0).desc (s1 1).desc, [0]⟩ = 0
    unfold Bignum.toInt; split <;> rfl

/-- C63 fails: `a = 1`, `b = 3`. -/
theorem C63_refuted {F : Type} {o : FloatOps F} (M : Ieee o) :
    ∃ s : Store, WF .base10 (s 0) ∧ WF .base10 (s 1) ∧ (s 0).toInt .base10 = 1 ∧ (s 1).toInt .base10 = 3 ∧
      ∃ s', Evaluates (fun n => run o .base10 n (fun _ => releaseEnv) s arithmeticTest) (some s') ∧ (s' 0).toInt .base10 = 0 := by
  have hs : Holds .base10 (fun i => if i = 0 then ⟨.pos, [1]⟩ else ⟨.pos, [3]⟩) (fun i => if i = 0 then 1 else 3) := by
    intro i
    by_cases h : i = 0
    · simp only [h, if_true]
      exact ⟨⟨.inl rfl, wfd_lits (by decide) (by simp [NoLeadingZero])⟩, by decide⟩
    · simp only [if_neg h]
      exact ⟨⟨.inl rfl, wfd_lits (by decide) (by simp [NoLeadingZero])⟩, by decide⟩
  refine ⟨_, (hs 0).1, (hs 1).1, (hs 0).2, (hs 1).2, C63_unit M (fun _ => ⟨releaseEnv_ample, rfl⟩) hs (by norm_num) rfl (by norm_num) ?_⟩
  exact Nat.lt_of_lt_of_le (by norm_num : 3 < 10 ^ 1) (Nat.pow_le_pow_right (by norm_num) Nat.one_le_two_pow)

/-- The hypotheses of the partial theorem hold for -12 and -7. -/
theorem holds_12_7 : Holds .base10 (fun i => if i = 0 then ⟨.neg, [2, 1]⟩ else ⟨.neg, [7]⟩) (fun i => if i = 0 then -12 else -7) := by
  intro i
  by_cases h : i = 0
  · simp only [h, if_true]
    exact ⟨⟨.inr rfl, wfd_lits (by decide) (by simp [NoLeadingZero])⟩, by decide⟩
  · simp only [if_neg h]
    exact ⟨⟨.inr rfl, wfd_lits (by decide) (by simp [NoLeadingZero])⟩, by decide⟩

example {F : Type} {o : FloatOps F} (M : Ieee o) := C63_arithmetic_test_partial M (env := fun _ => releaseEnv)
  (fun _ => ⟨releaseEnv_ample, rfl⟩) holds_12_7 (by norm_num) (by norm_num)
  (Nat.lt_of_lt_of_le (by norm_num : 12 < 10 ^ 2) (Nat.pow_le_pow_right (by norm_num) (by norm_num)))
  (Nat.lt_of_lt_of_le (by norm_num : 7 < 10 ^ 1) (Nat.pow_le_pow_right (by norm_num) (by norm_num))) (by norm_num)

end BN
