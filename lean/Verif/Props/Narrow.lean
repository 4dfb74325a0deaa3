import Verif.Model.Narrow
import Verif.Lemmas.MulStrassen
import Verif.Lemmas.Pow2
import Verif.Lemmas.Samples
import Verif.Props.Algebra
/-
C131: products on platforms with a narrower `size_t`.
-/
namespace BN
open Bignum

/-! ### Lemmas -/

theorem nextPow2W_eq {w n : Nat} (hw : w ≤ 32) (hw1 : 1 ≤ w) (h : n ≤ 2 ^ (w - 1)) : nextPow2W w n = nextPow2 n := by
  by_cases h0 : n = 0
  · simp [nextPow2W, nextPow2, h0]
  have hle : 2 ^ (w - 1) ≤ 2 ^ 32 := Nat.pow_le_pow_right (by omega) (by omega)
  obtain ⟨k, -, h2, h3, h4⟩ := nextPow2_eq (n := n) (by omega) (by omega)
  have hww : 2 ^ w = 2 * 2 ^ (w - 1) := by rw [← Nat.pow_succ']; congr 1; omega
  have e : nextPow2W w n = nextPow2 n % 2 ^ w := by
    unfold nextPow2W nextPow2
    rw [if_neg h0, if_neg h0]
    exact (Nat.mod_mod_of_dvd _ (Nat.pow_dvd_pow 2 (by omega : w ≤ 64))).symm
  rw [e, h2]
  exact Nat.mod_eq_of_lt (by omega)

theorem fftTableSizeW_eq {w a b : Nat} (hw : w ≤ 32) (hw1 : 1 ≤ w) (h : a + b ≤ 2 ^ (w - 1)) :
    fftTableSizeW w a b = fftTableSize a b := by
  have hww : 2 ^ w = 2 * 2 ^ (w - 1) := by rw [← Nat.pow_succ']; congr 1; omega
  have : 0 < 2 ^ (w - 1) := by positivity
  unfold fftTableSizeW fftTableSize
  simp only [Nat.mod_eq_of_lt (show a + b < 2 ^ w by omega), nextPow2W_eq hw hw1 h]

theorem negIdxW_eq {w k i : Nat} (hk : k ≤ w) (hi : i < 2 ^ k) : negIdxW w i (2 ^ k) = (2 ^ k - i) % 2 ^ k := by
  unfold negIdxW
  have hle : 2 ^ k ≤ 2 ^ w := Nat.pow_le_pow_right (by omega) hk
  have hdvd : 2 ^ k ∣ 2 ^ w := Nat.pow_dvd_pow 2 hk
  rw [Nat.mod_eq_of_lt (show i < 2 ^ w by omega), Nat.mod_mod_of_dvd _ hdvd]
  obtain ⟨c, hc⟩ := hdvd
  have hc1 : 1 ≤ c := by
    rcases Nat.eq_zero_or_pos c with rfl | h
    · simp at hc
    · exact h
  obtain ⟨d, rfl⟩ : ∃ d, c = d + 1 := ⟨c - 1, by omega⟩
  rw [hc, Nat.mul_succ, Nat.add_sub_assoc (by omega), Nat.mul_add_mod]

theorem mapM_congr {α β : Type} {f g : α → Res β} : ∀ {l : List α}, (∀ x ∈ l, f x = g x) → l.mapM f = l.mapM g
  | [], _ => rfl
  | x :: l, h => by
    rw [List.mapM_cons, List.mapM_cons, h x (by simp), mapM_congr (l := l) fun y hy => h y (by simp [hy])]

section
variable {F : Type} (o : FloatOps F)

theorem convoluteFftW_eq {w k : Nat} (hk : k ≤ w) (hk64 : k ≤ 64) (fuel : Nat) {t : List (Cx F)} (ht : t.length = 0 ∨ t.length = 2 ^ k) :
    convoluteFftW o w fuel t = convoluteFft o fuel t := by
  unfold convoluteFftW convoluteFft
  simp only
  congr 1
  funext tr
  refine mapM_congr fun i hi => ?_
  rw [List.mem_range] at hi
  rcases ht with h | h
  · omega
  · rw [h] at hi ⊢
    unfold convolutePointW convolutePoint
    rw [negIdxW_eq hk hi, negIdx_eq hk64 hi]

theorem carryStepW_eq {w : Nat} {L : Limits} (hs : Supported L) {D : Nat} (hD : L.double.raw = cU D) (hw : w ≤ 64)
    (hb : 2 ^ D ≤ L.base * 2 ^ w) (c : Nat) (x : F) : carryStepW o w L c x = carryStep o L c x := by
  have e : carryStepW o w L c x = (do let (d, c') ← carryStep o L c x; .ok (d, c' % 2 ^ w)) := by
    unfold carryStepW carryStep
    simp only [bind_assoc]
    congr 1
    funext ci
    congr 1
    funext m
    congr 1
    funext q
    rw [ok_bind]
    simp only [Val.conv, Ty.raw, wrapU_eq]
    congr 2
    have hp : (0 : Int) < 2 ^ 64 := by positivity
    have hp' : (0 : Int) < 2 ^ w := by positivity
    have hd : ((2 : Int) ^ w) ∣ 2 ^ 64 := pow_dvd_pow 2 hw
    have h1 := Int.emod_nonneg q.val hp.ne'
    have h2 := Int.emod_nonneg q.val hp'.ne'
    refine Int.natCast_inj.1 ?_
    rw [Int.natCast_mod, Nat.cast_pow, Nat.cast_ofNat]
    rw [Int.toNat_of_nonneg h1, Int.toNat_of_nonneg h2, Int.emod_emod_of_dvd _ hd]
  rw [e]
  rcases carryStep_cases o hs c x with h | ⟨z, h1, h2⟩
  · rw [h]; rfl
  · rw [h2, ok_bind]
    have hz : z < 2 ^ D := carryStep_bound o hD h1 h2
    have : z / L.base < 2 ^ w := Nat.div_lt_of_lt_mul (by omega)
    simp only [Nat.mod_eq_of_lt this]

theorem carryLoopW_eq {w : Nat} {L : Limits} (hs : Supported L) {D : Nat} (hD : L.double.raw = cU D) (hw : w ≤ 64)
    (hb : 2 ^ D ≤ L.base * 2 ^ w) : ∀ (xs : List F) (c : Nat), carryLoopW o w L c xs = carryLoop o L c xs
  | [], _ => rfl
  | x :: xs, c => by
    unfold carryLoopW carryLoop
    rw [carryStepW_eq o hs hD hw hb]
    congr 1
    funext p
    simp only [carryLoopW_eq hs hD hw hb xs]

theorem mulStrassenW_eq {w : Nat} (hw1 : 1 ≤ w) (hw : w ≤ 32) {L : Limits} (hs : Supported L) {D : Nat} (hD : L.double.raw = cU D)
    (hb : 2 ^ D ≤ L.base * 2 ^ w) (env : Env) (fuel : Nat) {a b : List Nat} (h : a.length + b.length ≤ 2 ^ (w - 1)) :
    mulStrassenW o w L env fuel a b = mulStrassen o L env fuel a b := by
  have hsz := fftTableSizeW_eq hw hw1 h
  have hle : 2 ^ (w - 1) ≤ 2 ^ 32 := Nat.pow_le_pow_right (by omega) (by omega)
  have hww : 2 ^ w = 2 * 2 ^ (w - 1) := by rw [← Nat.pow_succ']; congr 1; omega
  unfold mulStrassenW mulStrassen createFftTableW
  rw [hsz]
  split
  · rfl
  · have ht : (List.range (fftTableSize a.length b.length)).mapM (fun i => do
        let aVal ← cellOrZero a i
        let bVal ← cellOrZero b i
        .ok (⟨o.ofNat aVal, o.ofNat bVal⟩ : Cx F)) = createFftTable o a b := rfl
    rw [ht, createFftTable_eq, ok_bind, ok_bind]
    have hlen : (tab (fftTableSize a.length b.length) (packF o a b)).length = fftTableSize a.length b.length := by simp [tab]
    have hc : convoluteFftW o w fuel (tab (fftTableSize a.length b.length) (packF o a b)) =
        convoluteFft o fuel (tab (fftTableSize a.length b.length) (packF o a b)) := by
      by_cases h0 : a.length + b.length = 0
      · refine convoluteFftW_eq o (k := 0) (by omega) (by omega) fuel (.inl ?_)
        rw [hlen, show a.length = 0 by omega, show b.length = 0 by omega]; rfl
      · obtain ⟨k, -, h2, h3, h4⟩ := fftTableSize_eq (a := a.length) (b := b.length) (by omega) (by omega)
        have hk : k < w := (Nat.pow_lt_pow_iff_right (a := 2) (by omega)).1 (by omega)
        exact convoluteFftW_eq o (k := k) (by omega) (by omega) fuel (.inr (by rw [hlen, h2]))
    rw [hc]
    simp only [carryLoopW_eq o hs hD (by omega : w ≤ 64) hb]

/-! ### C131 -/

/-- With a 64-bit `size_t` this is the product of the model. -/
theorem mulAssignW_64 (L : Limits) (env : Env) (fuel : Nat) (x : Bignum) (r : Rhs)
    (h : x.size + (r.get x).size < 2 ^ 64) : mulAssignW o 64 L env fuel x r = mulAssign o L env fuel x r := by
  have hl : ∀ (xs : List F) (c : Nat), carryLoopW o 64 L c xs = carryLoop o L c xs := by
    intro xs
    induction xs with
    | nil => intro _; rfl
    | cons y ys ih =>
      intro c
      unfold carryLoopW carryLoop
      simp only [ih]
      rfl
  have hc : ∀ t, convoluteFftW o 64 fuel t = convoluteFft o fuel t := fun _ => rfl
  have hs : fftTableSizeW 64 x.digits.length (r.get x).digits.length = fftTableSize x.digits.length (r.get x).digits.length := by
    unfold fftTableSizeW
    rw [Nat.mod_eq_of_lt (show x.digits.length + (r.get x).digits.length < 2 ^ 64 from h)]
    rfl
  have ht : createFftTableW o 64 x.digits (r.get x).digits = createFftTable o x.digits (r.get x).digits := by
    unfold createFftTableW createFftTable
    rw [hs]
  unfold mulAssignW mulAssign mulStrassenW mulStrassen
  simp only [hl, hc, ht, hs]

/-- The preset digit types and the one of the compression test. -/
def ShippedType (L : Limits) : Prop :=
  L = .lowp ∨ L = .medp ∨ L = .highp ∨ L = .base2 ∨ L = .base8 ∨ L = .base10 ∨ L = .base16 ∨ L = .base256

/-- With a 32-bit `size_t` products of every preset type end as with a 64-bit one, for any operands whatsoever (also ill-formed ones and NaN), any
floating-point arithmetic, allocator and build; the operands have at most 2^31 digits together. -/
theorem C131_narrow_products {L : Limits} (hL : ShippedType L) (env : Env) (fuel : Nat) (x : Bignum) (r : Rhs)
    (h : x.size + (r.get x).size ≤ 2 ^ 31) : mulAssignW o 32 L env fuel x r = mulAssign o L env fuel x r := by
  have key : ∃ D, Supported L ∧ L.double.raw = cU D ∧ 2 ^ D ≤ L.base * 2 ^ 32 := by
    rcases hL with rfl | rfl | rfl | rfl | rfl | rfl | rfl | rfl
    · exact ⟨16, .inl .lowp, rfl, by decide⟩
    · exact ⟨32, .inl .medp, rfl, by decide⟩
    · exact ⟨64, .inl .highp, rfl, by decide⟩
    · exact ⟨8, .inr Sample.base2, rfl, by decide⟩
    · exact ⟨16, .inr Sample.base8, rfl, by decide⟩
    · exact ⟨32, .inr Sample.base10, rfl, by decide⟩
    · exact ⟨32, .inr Sample.base16, rfl, by decide⟩
    · exact ⟨16, .inr ⟨16, 255, by decide, by decide, by decide, rfl⟩, rfl, by decide⟩
  obtain ⟨D, hs, hD, hb⟩ := key
  unfold mulAssignW mulAssign
  simp only [mulStrassenW_eq o (by decide) (by decide) hs hD hb env fuel (show x.digits.length + (r.get x).digits.length ≤ 2 ^ (32 - 1) from h)]

example {F : Type} (o : FloatOps F) := C131_narrow_products o (L := .highp) (.inr (.inr (.inl rfl))) releaseEnv 40 ⟨.pos, [4000000000, 7]⟩
  (.other ⟨.neg, [4294967295, 4294967295]⟩) (by decide)

/-- So with a 32-bit `size_t` products of the small-base presets are exact up to the same lengths, also squares (`x *= x`). -/
theorem C131_exact {o : FloatOps F} (M : Ieee o) {L : Limits} {K : Nat} (hp : Preset L K) {env : Env} (hm : env.Ample) {x : Bignum} {r : Rhs}
    (hx : WF L x) (hy : WF L (r.get x)) (h1 : 1 ≤ x.size + (r.get x).size) (h2 : x.size + (r.get x).size ≤ K) :
    ∃ z, (∀ n, 32 < n → mulAssignW o 32 L env n x r = .ok z) ∧ WF L z ∧ NoLeadingZero z.digits ∧
      z.desc = signRule x.desc (r.get x).desc ∧ z.toInt L = x.toInt L * (r.get x).toInt L := by
  change 1 ≤ x.digits.length + (r.get x).digits.length at h1
  change x.digits.length + (r.get x).digits.length ≤ K at h2
  have key : ∃ z, (∀ n, 32 < n → mulAssign o L env n x r = .ok z) ∧ WF L z ∧ NoLeadingZero z.digits ∧
      z.desc = signRule x.desc (r.get x).desc ∧ z.toInt L = x.toInt L * (r.get x).toInt L := by
    cases hp
    · exact C24_base2 M hm hx hy h1 (by omega) (by omega)
    · exact C24_base8 M hm hx hy h1 (by omega) (by omega)
    · exact C24_base10 M hm hx hy h1 h2
    · exact C24_base16 M hm hx hy h1 h2
  have hs : ShippedType L := by cases hp <;> simp [ShippedType]
  have hK : K ≤ 2 ^ 31 := by cases hp <;> decide
  obtain ⟨z, hz, h⟩ := key
  exact ⟨z, fun n hn => (C131_narrow_products o hs env n x r (h2.trans hK)).trans (hz n hn), h⟩

example {o : FloatOps F} (M : Ieee o) := C131_exact M .base10 Sample.ample (x := Sample.n199) (r := .other Sample.m23) (by sample) (by sample)
  (by decide) (by decide)

end
end BN
