import Verif.Props.RawDiffs
import Verif.Props.Division
import Verif.Props.Algebra
import Verif.Lemmas.Mono
/-
Quotients of numbers with digits beyond the base: C161.
-/
namespace BN
open Bignum

/-! ### The order -/

theorem RawGe.trans {w : Nat} {a b c : List Nat} (h1 : RawGe w a b) (h2 : RawGe w b c) : RawGe w a c := by
  unfold RawGe at *; omega

/-- Where the digits are below the base, it does not matter in which base they are read. -/
theorem rawGe_base {w B : Nat} (hB : B ≤ 2 ^ w) {a b : List Nat} (ha : InRange B a) (hb : InRange B b) :
    RawGe w a b ↔ (b.length < a.length ∨ (a.length = b.length ∧ natOf B b ≤ natOf B a)) := by
  have e := (absGe_eq ha hb).symm.trans (absGe_eq (B := 2 ^ w) (fun d h => lt_of_lt_of_le (ha d h) hB) (fun d h => lt_of_lt_of_le (hb d h) hB))
  rw [Except.ok.injEq, decide_eq_decide] at e
  exact e.symm

/-- The digits of `2 ^ j` times a number. -/
def doubled (B : Nat) (b : List Nat) (j : Nat) : List Nat := Nat.digits B (2 ^ j * natOf B b)

theorem doubled_zero {B : Nat} (hB : 2 ≤ B) {b : List Nat} (hb : NZ B b) : doubled B b 0 = b := by
  apply natOf_unique (B := B) (by omega) (digits_inRange hB _) hb.rng (digits_nlz _ _) hb.nlz
  rw [natOf_digits]; ring

theorem doubled_natOf (B : Nat) (b : List Nat) (j : Nat) : natOf B (doubled B b j) = 2 ^ j * natOf B b := natOf_digits _ _

theorem doubled_nz {B : Nat} (hB : 2 ≤ B) {b : List Nat} (hb : NZ B b) (j : Nat) : NZ B (doubled B b j) := by
  refine ⟨digits_inRange hB _, digits_nlz _ _, fun h => ?_⟩
  have e := doubled_natOf B b j
  have hp := hb.pos hB
  rw [h, natOf_nil] at e
  have : 0 < 2 ^ j * natOf B b := by positivity
  omega

theorem doubled_succ {B : Nat} (hB : 2 ≤ B) {b : List Nat} (hb : NZ B b) (j : Nat) :
    addRest B (doubled B b j) (doubled B b j) 0 = doubled B b (j + 1) := by
  obtain ⟨h1, h2⟩ := (doubled_nz hB hb j).double hB
  have h3 := doubled_nz hB hb (j + 1)
  apply natOf_unique (B := B) (by omega) h1.rng h3.rng h1.nlz h3.nlz
  rw [h2, doubled_natOf, doubled_natOf]; ring

theorem doubled_mono {w B : Nat} (hB : 2 ≤ B) (hw : B ≤ 2 ^ w) {b : List Nat} (hb : NZ B b) {i j : Nat} (h : i ≤ j) :
    RawGe w (doubled B b j) (doubled B b i) := by
  have h1 := doubled_nz hB hb i
  have h2 := doubled_nz hB hb j
  have hv : natOf B (doubled B b i) ≤ natOf B (doubled B b j) := by
    rw [doubled_natOf, doubled_natOf]; exact Nat.mul_le_mul_right _ (Nat.pow_le_pow_right (by omega) h)
  rw [rawGe_base hw h2.rng h1.rng]
  have := length_le_of_natOf_le hB h2.rng h1.nlz hv
  omega

/-! ### The first round -/

section
variable {w mx : Nat} (hw : IsWidth w) (h1 : 1 ≤ mx) (h2 : 2 * mx + 1 < 2 ^ w) {env : Env} (hm : env.Ample) (hd : env.debug = false)
include hw h1 h2 hm hd

theorem shl_doubled {b : List Nat} (hb : NZ (mx + 1) b) (j : Nat) :
    shiftLeft1 (.custom w mx) env (doubled (mx + 1) b j) = .ok (doubled (mx + 1) b (j + 1)) := by
  have hC : Custom (Limits.custom w mx) := ⟨w, mx, hw, h1, h2, rfl⟩
  obtain ⟨x, e, hx⟩ := (okOr_shl hC env (l := doubled (mx + 1) b j) (doubled_nz (by omega) hb j).rng).ok hm hd
  rw [e, hx]
  exact congrArg _ (doubled_succ (by omega) hb j)

theorem raw_search {a b : List Nat} (ha : InRange (2 ^ w) a) (hb : NZ (mx + 1) b) : ∀ (k j fuel : Nat), RawGe w a (doubled (mx + 1) b (j + k)) →
    ¬ RawGe w a (doubled (mx + 1) b (j + k + 1)) → k < fuel →
    loopWhile (fun t => absGe a t.bsrch1) (searchBody (.custom w mx) env) fuel
      ⟨doubled (mx + 1) b j, doubled (mx + 1) b (j + 1), doubled (mx + 1) [1] j⟩ =
      .ok ⟨doubled (mx + 1) b (j + k), doubled (mx + 1) b (j + k + 1), doubled (mx + 1) [1] (j + k)⟩ := by
  have hq : NZ (mx + 1) [1] := ⟨by intro x hx; simp at hx; omega, by simp [NoLeadingZero], by simp⟩
  have hge : ∀ i, absGe a (doubled (mx + 1) b i) = .ok (decide (RawGe w a (doubled (mx + 1) b i))) := fun i =>
    absGe_eq ha (fun d h => lt_of_lt_of_le ((doubled_nz (by omega) hb i).rng d h) (by omega))
  intro k
  induction k with
  | zero =>
    intro j fuel g1 g2 hf
    obtain ⟨f, rfl⟩ : ∃ f, fuel = f + 1 := ⟨fuel - 1, by omega⟩
    rw [loopWhile, hge, ok_bind, decide_eq_false g2]
    rfl
  | succ k ih =>
    intro j fuel g1 g2 hf
    obtain ⟨f, rfl⟩ : ∃ f, fuel = f + 1 := ⟨fuel - 1, by omega⟩
    have g3 : RawGe w a (doubled (mx + 1) b (j + 1)) := g1.trans (doubled_mono (by omega) (by omega) hb (by omega))
    rw [loopWhile, hge, ok_bind, decide_eq_true g3, if_pos rfl, searchBody]
    simp only [copy_ample hm, ok_bind, shl_doubled hw h1 h2 hm hd hb, shl_doubled hw h1 h2 hm hd hq]
    have := ih (j + 1) f (by rwa [Nat.add_right_comm, Nat.add_assoc]) (by rwa [Nat.add_right_comm j 1 k, Nat.add_assoc j k 1]) (by omega)
    rw [this, Nat.add_right_comm j 1 k]
    rfl

omit hw hm hd in
/-- The difference with the multiple found is a number with digits below the base. -/
theorem raw_first {a s : List Nat} (ha : InRange (2 ^ w) a) (hs : InRange (mx + 1) s) (hg : RawGe w a s) (hf : DiffsSmall (mx + 1) a s 0)
    (hv : natOf (mx + 1) s ≤ natOf (mx + 1) a) :
    InRange (mx + 1) (trim (rawDiff (2 ^ w) (mx + 1) a s 0)) ∧
      natOf (mx + 1) (trim (rawDiff (2 ^ w) (mx + 1) a s 0)) + natOf (mx + 1) s = natOf (mx + 1) a := by
  have hs' : InRange (2 ^ w) s := fun d h => lt_of_lt_of_le (hs d h) (by omega)
  have e := rawDiff_value (show 2 ≤ mx + 1 by omega) (show 2 * (mx + 1) ≤ 2 ^ w by omega) a s 0 (by omega) ha hs' (by rcases hg with h | h <;> omega) (hf.fit (by omega))
  have hr := rawDiff_small (show 2 ≤ mx + 1 by omega) (show 2 * (mx + 1) ≤ 2 ^ w by omega) a s 0 (by omega) ha hs' hf
  refine ⟨trim_inRange hr, ?_⟩
  rw [natOf_trim]
  have hl : ∀ (R S : List Nat) (r : Nat), (rawDiff (2 ^ w) (mx + 1) R S r).length = R.length := by
    intro R; induction R with
    | nil => intros; rfl
    | cons x R ih => intro S r; rw [rawDiff, List.length_cons, ih, List.length_cons]
  have hlt := natOf_lt hr
  rw [hl] at hlt
  generalize lastBorrow (mx + 1) a s 0 = c at e
  rcases Nat.eq_zero_or_pos c with rfl | hc
  · omega
  · have := Nat.le_mul_of_pos_right ((mx + 1) ^ a.length) hc
    have hs2 := natOf_lt hs
    omega


theorem absDiv_raw {a b : List Nat} (ha : InRange (2 ^ w) a) (hb : NZ (mx + 1) b) {j : Nat} (hj : RawGe w a (doubled (mx + 1) b j))
    (hj' : ¬ RawGe w a (doubled (mx + 1) b (j + 1))) (f1 : InRange (mx + 1) (trim (rawDiff (2 ^ w) (mx + 1) a (doubled (mx + 1) b j) 0))) :
    ∃ q n₀, (∀ n, n₀ ≤ n → absDiv (.custom w mx) env n a b = .ok q) ∧ WFDigits (mx + 1) q ∧ q ≠ [] ∧
      natOf (mx + 1) q = 2 ^ j + natOf (mx + 1) (rawDiff (2 ^ w) (mx + 1) a (doubled (mx + 1) b j) 0) / natOf (mx + 1) b := by
  have hC : Custom (Limits.custom w mx) := ⟨w, mx, hw, h1, h2, rfl⟩
  have hB : 2 ≤ mx + 1 := by omega
  have hbase : (Limits.custom w mx).base = mx + 1 := rfl
  have hq : NZ (mx + 1) [1] := ⟨by intro x hx; simp at hx; omega, by simp [NoLeadingZero], by simp⟩
  have hs := doubled_nz hB hb j
  have hz : WFDigits (mx + 1) [0] := ⟨by intro x hx; simp at hx; omega, .inr rfl⟩
  have ha0 : a ≠ [] := by
    rintro rfl
    have := List.length_pos_iff.2 hs.ne
    rcases hj with h | h <;> simp at h; omega
  have hJ := doubled_nz hB hq j
  have hJv : natOf (mx + 1) (doubled (mx + 1) [1] j) = 2 ^ j := by rw [doubled_natOf]; simp
  have hJl : 1 ≤ (doubled (mx + 1) [1] j).length := List.length_pos_iff.2 hJ.ne
  have hg0 : RawGe w a b := by
    have := hj.trans (doubled_mono hB (show mx + 1 ≤ 2 ^ w by omega) hb (Nat.zero_le j))
    rwa [doubled_zero hB hb] at this
  have hge : absGe a b = .ok true := by
    rw [absGe_eq ha (fun d h => lt_of_lt_of_le (hb.rng d h) (by omega : mx + 1 ≤ 2 ^ w))]
    exact congrArg _ (decide_eq_true hg0)
  -- the result of the first round
  obtain ⟨res, hres, hresv, hadd⟩ : ∃ res, (WFDigits (mx + 1) res ∧ res ≠ []) ∧ natOf (mx + 1) res = 2 ^ j ∧
      ∀ n, (doubled (mx + 1) [1] j).length + 2 ≤ n →
        (if (doubled (mx + 1) [1] j).length ≤ ([0] : List Nat).length then absAdd (.custom w mx) env n [0] (.other (doubled (mx + 1) [1] j))
          else absAdd (.custom w mx) env n (doubled (mx + 1) [1] j) (.other [0])) = .ok res := by
    by_cases hc : (doubled (mx + 1) [1] j).length ≤ ([0] : List Nat).length
    · refine ⟨addFull (mx + 1) [0] (doubled (mx + 1) [1] j) 0, ⟨addFull_wf hB hz ⟨hJ.rng, .inl hJ.nlz⟩, addFull_ne hB hz.1 hJ.rng⟩, ?_, fun n hn => ?_⟩
      · rw [addFull_natOf hB hz.1 hJ.rng (by omega), hJv]; simp
      · rw [if_pos hc]
        obtain ⟨x, e, hx⟩ := (okOr_absAdd hC.supported env (fuel := n) (src := .other (doubled (mx + 1) [1] j)) hz.1 hJ.rng
          (by simp only [Src.get, List.length_singleton] at *; omega)).ok hm hd
        rw [e, hx]; rfl
    · refine ⟨addFull (mx + 1) (doubled (mx + 1) [1] j) [0] 0, ⟨addFull_wf hB ⟨hJ.rng, .inl hJ.nlz⟩ hz, addFull_ne hB hJ.rng hz.1⟩, ?_, fun n hn => ?_⟩
      · rw [addFull_natOf hB hJ.rng hz.1 (by omega), hJv]; simp
      · rw [if_neg hc]
        obtain ⟨x, e, hx⟩ := (okOr_absAdd hC.supported env (fuel := n) (src := .other [0]) hJ.rng hz.1
          (by simp only [Src.get, List.length_singleton] at *; omega)).ok hm hd
        rw [e, hx]; rfl
  set n' := trim (rawDiff (2 ^ w) (mx + 1) a (doubled (mx + 1) b j) 0) with hn'
  have hbody : ∀ n, a.length + j + (doubled (mx + 1) [1] j).length + 2 ≤ n → divBody (.custom w mx) env n b ⟨a, [0]⟩ = .ok ⟨n', res⟩ := by
    intro n hn
    have hS := raw_search hw h1 h2 hm hd ha hb j 0 n (by rwa [Nat.zero_add]) (by rwa [Nat.zero_add]) (by omega)
    rw [doubled_zero hB hb, doubled_zero hB hq, Nat.zero_add, Nat.zero_add] at hS
    have hsh := shl_doubled hw h1 h2 hm hd hb 0
    rw [doubled_zero hB hb, Nat.zero_add] at hsh
    have hsub : absSub (.custom w mx) env n a (.other (doubled (mx + 1) b j)) = .ok n' :=
      absSub_raw hw h1 h2 hd ha (src := .other (doubled (mx + 1) b j)) (fun d h => lt_of_lt_of_le (hs.rng d h) (by omega)) ha0
        (by show (doubled (mx + 1) b j).length ≤ a.length; rcases hj with h | h <;> omega) (by omega)
    have := hadd n (by omega)
    unfold divBody
    simp only [copy_ample hm, ok_bind, one_store hC, hsh, hS, hsub]
    split at this
    · next h => rw [if_pos h, this]; rfl
    · next h => rw [if_neg h, this]; rfl
  -- the remaining rounds
  have hpos := hb.pos hB
  have key : ∀ n, a.length + j + (doubled (mx + 1) [1] j).length + natOf (mx + 1) n' + 2 ^ j + 5 ≤ n →
      ∃ q, absDiv (.custom w mx) env n a b = .ok q ∧ WFDigits (mx + 1) q ∧ q ≠ [] ∧
        natOf (mx + 1) q = 2 ^ j + natOf (mx + 1) n' / natOf (mx + 1) b := by
    intro n hn
    obtain ⟨f, rfl⟩ : ∃ f, n = f + 1 := ⟨n - 1, by omega⟩
    obtain ⟨s, e, g1, g2, g3, g4, g5⟩ := (okOr_divLoop hC env (dv := b) hb (f + 1) f n' res f1 (trim_noLeadingZero _) hres
      (by rw [hbase, hresv]; omega) (by rw [hbase]; omega)).ok hm hd
    refine ⟨s.res, ?_, g3.1, g3.2, ?_⟩
    · unfold absDiv
      rw [zero_store hC.supported, copy_ample hm, ok_bind, loopWhile]
      simp only [hge, ok_bind, if_true]
      rw [hbody (f + 1) (by omega), ok_bind, e, ok_bind]
    · rw [hbase] at g4 g5
      have e2 := congrArg (· / natOf (mx + 1) b) g5
      simp only [hresv] at e2
      rw [Nat.add_mul_div_left _ _ hpos, Nat.div_eq_of_lt g4, Nat.zero_add, Nat.add_mul_div_left _ _ hpos] at e2
      rw [e2, Nat.add_comm]
  obtain ⟨q, e, q1, q2, q3⟩ := key _ le_rfl
  refine ⟨q, a.length + j + (doubled (mx + 1) [1] j).length + natOf (mx + 1) n' + 2 ^ j + 5, fun n hn => ?_, q1, q2, by rw [q3, hn', natOf_trim]⟩
  obtain ⟨q', e', r1, r2, r3⟩ := key n hn
  rw [e', wf_unique hB r1 q1 r2 q2 (r3.trans q3.symm)]

/-! ### Operators -/

omit h1 h2 hm hd hw in
theorem absGt_rawGe {a b : List Nat} (ha : InRange (2 ^ w) a) (hb : InRange (2 ^ w) b) (hg : RawGe w a b) (hne : a ≠ b) : absGt a b = .ok true := by
  rw [absGt_eq]
  refine congrArg Except.ok (decide_eq_true ?_)
  rcases hg with h | ⟨h, h'⟩
  · exact .inl h
  · refine .inr ⟨h, exists_digit_gt hb h (lt_of_le_of_ne h' fun e => hne ?_)⟩
    exact (natOf_inj hb ha h.symm e).symm

theorem divAssign_raw {x : Bignum} {r : Rhs} (hs : Signed x.desc) (hs' : Signed (r.get x).desc) (ix : InRange (2 ^ w) x.digits)
    (iy : NZ (mx + 1) (r.get x).digits) (hone : (r.get x).digits ≠ [1]) (hne : x.digits ≠ (r.get x).digits) {j : Nat}
    (hj : RawGe w x.digits (doubled (mx + 1) (r.get x).digits j)) (hj' : ¬ RawGe w x.digits (doubled (mx + 1) (r.get x).digits (j + 1)))
    (f1 : InRange (mx + 1) (trim (rawDiff (2 ^ w) (mx + 1) x.digits (doubled (mx + 1) (r.get x).digits j) 0))) :
    ∃ z : Bignum, Evaluates (fun n => x.divAssign (.custom w mx) env n r) (.ok z) ∧ WF (.custom w mx) z ∧ z.desc = signRule x.desc (r.get x).desc ∧
      z.mag (.custom w mx) = 2 ^ j + natOf (mx + 1) (rawDiff (2 ^ w) (mx + 1) x.digits (doubled (mx + 1) (r.get x).digits j) 0) /
        (r.get x).mag (.custom w mx) := by
  have hB : 2 ≤ mx + 1 := by omega
  have iy' : InRange (2 ^ w) (r.get x).digits := fun d h => lt_of_lt_of_le (iy.rng d h) (by omega)
  have hg0 : RawGe w x.digits (r.get x).digits := by
    have := hj.trans (doubled_mono hB (show mx + 1 ≤ 2 ^ w by omega) iy (Nat.zero_le j))
    rwa [doubled_zero hB iy] at this
  have hl := List.length_pos_iff.2 iy.ne
  have hx0 : x.digits ≠ [] := by
    intro e
    rw [e] at hg0
    unfold RawGe at hg0
    simp only [List.length_nil] at hg0
    omega
  have hx1 : x.digits ≠ [0] := by
    intro e
    rw [e] at hg0
    rcases hg0 with h | ⟨h, h'⟩
    · simp only [List.length_singleton] at h; omega
    · have := natOf_pos_of_noLeadingZero (B := 2 ^ w) (by positivity) iy.nlz iy.ne
      simp at h'; omega
  obtain ⟨q, n₀, e, q1, q2, q3⟩ := absDiv_raw hw h1 h2 hm hd ix iy hj hj' f1
  have hms := mulSign_signed hs hs'
  have hsig : Signed (signRule x.desc (r.get x).desc) := hms ▸ mulSign_mem _ _
  refine ⟨⟨signRule x.desc (r.get x).desc, q⟩, ⟨n₀, fun n hn => ?_⟩, ⟨hsig, q1⟩, rfl, q3⟩
  simp only
  rw [divAssign_general hs iy.ne_zero hone hx0 hx1, divTry, absGt_rawGe ix iy' hg0 hne, ok_bind, if_pos rfl, e n hn, ok_bind, hms]
  rfl

/-- `x /= y` where `x` has arbitrary digits of the type, `y` is normal and not 0 or 1. Let `2 ^ j * y` be the last of `y, 2 y, 4 y, ...` that does not
come after `x` in the order of `>=`. If it is not greater than `x` in value, and the column differences of the two are at least minus the base and less
than the base, the quotient is right. -/
theorem C161_exact {x : Bignum} {r : Rhs} (hs : Signed x.desc) (hs' : Signed (r.get x).desc) (ix : InRange (2 ^ w) x.digits)
    (iy : WF (.custom w mx) (r.get x)) (hone : 2 ≤ (r.get x).mag (.custom w mx)) (hne : x.digits ≠ (r.get x).digits) {j : Nat}
    (hj : RawGe w x.digits (doubled (mx + 1) (r.get x).digits j)) (hj' : ¬ RawGe w x.digits (doubled (mx + 1) (r.get x).digits (j + 1)))
    (hv : 2 ^ j * (r.get x).mag (.custom w mx) ≤ x.mag (.custom w mx))
    (hf : DiffsSmall (mx + 1) x.digits (doubled (mx + 1) (r.get x).digits j) 0) :
    ∃ z : Bignum, Evaluates (fun n => x.divAssign (.custom w mx) env n r) (.ok z) ∧ WF (.custom w mx) z ∧
      z.toInt (.custom w mx) = (x.toInt (.custom w mx)).tdiv ((r.get x).toInt (.custom w mx)) := by
  have hB : 2 ≤ mx + 1 := by omega
  have hbase : (Limits.custom w mx).base = mx + 1 := rfl
  have hnz : NZ (mx + 1) (r.get x).digits := by
    rcases wf_cases (B := mx + 1) hB iy.2 with ⟨-, h⟩ | ⟨h, -⟩
    · have : (r.get x).mag (.custom w mx) = natOf (mx + 1) (r.get x).digits := rfl
      omega
    · exact h
  have hone' : (r.get x).digits ≠ [1] := by
    intro h
    have : (r.get x).mag (.custom w mx) = natOf (mx + 1) (r.get x).digits := rfl
    rw [h] at this; simp at this; omega
  obtain ⟨f1, f2⟩ := raw_first h1 h2 ix (doubled_nz hB hnz j).rng hj hf (by rw [doubled_natOf]; exact hv)
  obtain ⟨z, e, z1, z2, z3⟩ := divAssign_raw hw h1 h2 hm hd hs hs' ix hnz hone' hne hj hj' f1
  refine ⟨z, e, z1, toInt_div hs hs' z2 ?_⟩
  rw [z3]
  rw [natOf_trim, doubled_natOf] at f2
  have : x.mag (.custom w mx) = natOf (mx + 1) (rawDiff (2 ^ w) (mx + 1) x.digits (doubled (mx + 1) (r.get x).digits j) 0) +
      (r.get x).mag (.custom w mx) * 2 ^ j := by
    rw [Nat.mul_comm]; exact f2.symm
  rw [this, Nat.add_mul_div_left _ _ (by omega), Nat.add_comm]

omit hd in
/-- A divisor that comes after the dividend gives a quotient of 0, however much greater the dividend may be in value; so does one with the same digits. -/
theorem C161_after {x : Bignum} {r : Rhs} (hs : Signed x.desc) (ix : InRange (2 ^ w) x.digits) (hx : x.digits ≠ [])
    (iy : InRange (2 ^ w) (r.get x).digits) (h0 : (r.get x).digits ≠ [0]) (hone : (r.get x).digits ≠ [1])
    (hg : ¬ RawGe w x.digits (r.get x).digits ∨ x.digits = (r.get x).digits) :
    Evaluates (fun n => x.divAssign (.custom w mx) env n r) (.ok ⟨mulSign x.desc (r.get x).desc, [0]⟩) := by
  have hC : Custom (Limits.custom w mx) := ⟨w, mx, hw, h1, h2, rfl⟩
  by_cases hx0 : x.digits = [0]
  · refine ⟨0, fun n _ => ?_⟩
    simp only
    rw [divAssign_of_zero hs h0 (.inr hx0), hx0]
  refine ⟨1, fun n hn => ?_⟩
  obtain ⟨k, rfl⟩ : ∃ k, n = k + 1 := ⟨n - 1, by omega⟩
  simp only
  rw [divAssign_general hs h0 hone hx hx0, divTry]
  simp only
  obtain ⟨g, e⟩ := absGt_total x.digits (r.get x).digits
  rw [e, ok_bind, zero_store hC.supported]
  cases g with
  | false => rfl
  | true =>
    have hge : absGe x.digits (r.get x).digits = .ok false := by
      rcases hg with hg | hg
      · rw [absGe_eq ix iy]; exact congrArg _ (decide_eq_false hg)
      · exfalso
        rw [hg, absGt_eq, Except.ok.injEq, decide_eq_true_iff] at e
        rcases e with e | ⟨-, i, -, e⟩ <;> omega
    rw [if_pos rfl, absDiv, zero_store hC.supported, copy_ample hm, ok_bind, loopWhile]
    simp only [hge, ok_bind, Bool.false_eq_true, if_false]
    rfl

omit hm hd hw h2 in
theorem doubled_digit {d j : Nat} (hd0 : 1 ≤ d) (hlo : 2 ^ j * d ≤ mx) (hhi : mx < 2 ^ (j + 1) * d) :
    doubled (mx + 1) [d] j = [2 ^ j * d] ∧ 2 ≤ (doubled (mx + 1) [d] (j + 1)).length := by
  have hp : 0 < 2 ^ j * d := by positivity
  have hn : natOf (mx + 1) [d] = d := by simp
  have hv := doubled_natOf (mx + 1) [d] (j + 1)
  have hlt := natOf_lt (digits_inRange (B := mx + 1) (by omega) (2 ^ (j + 1) * natOf (mx + 1) [d]))
  refine ⟨?_, ?_⟩
  · unfold doubled
    rw [hn, Nat.digits_of_lt (mx + 1) (2 ^ j * d) (by omega) (by omega)]
  · by_contra hc
    change natOf (mx + 1) (doubled (mx + 1) [d] (j + 1)) < (mx + 1) ^ (doubled (mx + 1) [d] (j + 1)).length at hlt
    have h3 : (mx + 1) ^ (doubled (mx + 1) [d] (j + 1)).length ≤ (mx + 1) ^ 1 := Nat.pow_le_pow_right (by omega) (by omega)
    rw [hv, hn] at hlt
    rw [pow_one] at h3
    omega

/-- A number of one digit beyond the base, divided by a digit `d`: with `s` the greatest of `d, 2 d, 4 d, ...` below the base, the quotient is right for
digits up to the greatest digit plus `s`. -/
theorem C161_digit {t t' : Desc} (hs : Signed t) (hs' : Signed t') {v d j : Nat} (hd2 : 2 ≤ d) (hlo : 2 ^ j * d ≤ mx) (hhi : mx < 2 ^ (j + 1) * d)
    (hv : mx < v) (hv' : v ≤ mx + 2 ^ j * d) (hvw : v < 2 ^ w) :
    ∃ z : Bignum, Evaluates (fun n => (⟨t, [v]⟩ : Bignum).divAssign (.custom w mx) env n (.other ⟨t', [d]⟩)) (.ok z) ∧ WF (.custom w mx) z ∧
      z.desc = signRule t t' ∧ z.mag (.custom w mx) = v / d := by
  have hB : 2 ≤ mx + 1 := by omega
  have hdm : d ≤ mx := le_trans (Nat.le_mul_of_pos_left d (by positivity : 0 < 2 ^ j)) hlo
  obtain ⟨e1, e2⟩ := doubled_digit h1 (show 1 ≤ d by omega) hlo hhi
  have hnz : NZ (mx + 1) [d] := ⟨by intro y hy; simp at hy; omega, by simp [NoLeadingZero]; omega, by simp⟩
  have ix : InRange (2 ^ w) [v] := by intro y hy; simp at hy; omega
  have hj : RawGe w [v] (doubled (mx + 1) [d] j) := by rw [e1]; exact .inr ⟨rfl, by simp; omega⟩
  have hj' : ¬ RawGe w [v] (doubled (mx + 1) [d] (j + 1)) := by unfold RawGe; simp only [List.length_singleton]; omega
  have hf : DiffsSmall (mx + 1) [v] (doubled (mx + 1) [d] j) 0 := by
    rw [e1]; exact ⟨by simp; omega, by simp; omega, trivial⟩
  obtain ⟨f1, f2⟩ := raw_first h1 h2 ix (doubled_nz hB hnz j).rng hj hf (by rw [e1]; simp; omega)
  obtain ⟨z, e, z1, z2, z3⟩ := divAssign_raw hw h1 h2 hm hd (x := ⟨t, [v]⟩) (r := .other ⟨t', [d]⟩) hs hs' ix hnz
    (by intro h; simp [Rhs.get] at h; omega) (by intro h; simp [Rhs.get] at h; omega) hj hj' f1
  refine ⟨z, e, z1, z2, ?_⟩
  rw [z3]
  rw [natOf_trim, doubled_natOf] at f2
  simp only [natOf_cons, natOf_nil, Nat.mul_zero, Nat.add_zero] at f2
  show 2 ^ j + natOf (mx + 1) (rawDiff (2 ^ w) (mx + 1) [v] (doubled (mx + 1) [d] j) 0) / natOf (mx + 1) [d] = v / d
  generalize natOf (mx + 1) (rawDiff (2 ^ w) (mx + 1) [v] (doubled (mx + 1) [d] j) 0) = V at *
  rw [show natOf (mx + 1) [d] = d by simp, ← f2, Nat.mul_comm (2 ^ j) d, Nat.add_mul_div_left _ _ (by omega), Nat.add_comm]

/-- For the digits at the upper end of the type the quotient is less than it should be: at most the greatest digit over the divisor. -/
theorem C161_wrong {t t' : Desc} (hs : Signed t) (hs' : Signed t') {v d j : Nat} (hd2 : 2 ≤ d) (hlo : 2 ^ j * d ≤ mx) (hhi : mx < 2 ^ (j + 1) * d)
    (hv : mx + 2 ^ j * d < v) (hv' : 2 ^ w + 2 ^ j * d ≤ v + (mx + 1)) (hvw : v < 2 ^ w) :
    ∃ z : Bignum, Evaluates (fun n => (⟨t, [v]⟩ : Bignum).divAssign (.custom w mx) env n (.other ⟨t', [d]⟩)) (.ok z) ∧ WF (.custom w mx) z ∧
      z.desc = signRule t t' ∧ z.mag (.custom w mx) = (v + (mx + 1) - 2 ^ w) / d ∧ z.mag (.custom w mx) < v / d := by
  have hB : 2 ≤ mx + 1 := by omega
  have hdm : d ≤ 2 ^ j * d := Nat.le_mul_of_pos_left d (by positivity : 0 < 2 ^ j)
  obtain ⟨e1, e2⟩ := doubled_digit h1 (show 1 ≤ d by omega) hlo hhi
  have hnz : NZ (mx + 1) [d] := ⟨by intro y hy; simp at hy; omega, by simp [NoLeadingZero]; omega, by simp⟩
  have ix : InRange (2 ^ w) [v] := by intro y hy; simp at hy; omega
  have hj : RawGe w [v] (doubled (mx + 1) [d] j) := by rw [e1]; exact .inr ⟨rfl, by simp; omega⟩
  have hj' : ¬ RawGe w [v] (doubled (mx + 1) [d] (j + 1)) := by unfold RawGe; simp only [List.length_singleton]; omega
  have hc : colDiff (2 ^ w) v (2 ^ j * d) 0 = v - 2 ^ j * d := by
    unfold colDiff
    rw [show v + (2 ^ w - (2 ^ j * d + 0)) = (v - 2 ^ j * d) + 2 ^ w by omega, Nat.add_mod_right, Nat.mod_eq_of_lt (by omega)]
  have hr : rawDiff (2 ^ w) (mx + 1) [v] (doubled (mx + 1) [d] j) 0 = [v + (mx + 1) - 2 ^ w - 2 ^ j * d] := by
    rw [e1]
    simp only [rawDiff, List.headD_cons, hc]
    rw [if_pos (by omega), show v - 2 ^ j * d + (mx + 1) = (v + (mx + 1) - 2 ^ w - 2 ^ j * d) + 2 ^ w by omega, Nat.add_mod_right,
      Nat.mod_eq_of_lt (by omega)]
  obtain ⟨z, e, z1, z2, z3⟩ := divAssign_raw hw h1 h2 hm hd (x := ⟨t, [v]⟩) (r := .other ⟨t', [d]⟩) hs hs' ix hnz
    (by intro h; simp [Rhs.get] at h; omega) (by intro h; simp [Rhs.get] at h; omega) hj hj'
    (by
      show InRange (mx + 1) (trim (rawDiff (2 ^ w) (mx + 1) [v] (doubled (mx + 1) [d] j) 0))
      rw [hr]; exact trim_inRange (by intro y hy; simp at hy; omega))
  have z4 : z.mag (.custom w mx) = (v + (mx + 1) - 2 ^ w) / d := by
    rw [z3]
    show 2 ^ j + natOf (mx + 1) (rawDiff (2 ^ w) (mx + 1) [v] (doubled (mx + 1) [d] j) 0) / natOf (mx + 1) [d] = _
    rw [hr]
    simp only [natOf_cons, natOf_nil, Nat.mul_zero, Nat.add_zero]
    have e3 : v + (mx + 1) - 2 ^ w = (v + (mx + 1) - 2 ^ w - 2 ^ j * d) + d * 2 ^ j := by rw [Nat.mul_comm d]; omega
    conv_rhs => rw [e3, Nat.add_mul_div_left _ _ (show 0 < d by omega), Nat.add_comm]
  refine ⟨z, e, z1, z2, z4, ?_⟩
  rw [z4, Nat.lt_iff_add_one_le, ← Nat.add_div_right _ (show 0 < d by omega)]
  exact Nat.div_le_div_right (by omega)

omit hd in
/-- Twice the digit that equals the base has two digits. -/
theorem shl_base (h3 : 2 * (mx + 1) < 2 ^ w) : ∃ d e, shiftLeft1 (.custom w mx) env [mx + 1] = .ok [d, e] ∧ d < 2 ^ w ∧ e < 2 ^ w := by
  have hC : Custom (Limits.custom w mx) := ⟨w, mx, hw, h1, h2, rfl⟩
  have hp : 0 < 2 ^ w := Nat.two_pow_pos _
  have hb : divBaseLimit (.custom w mx) = .ok ⟨.bni w, (mx + 1 : Nat)⟩ := by
    unfold divBaseLimit
    rcases hw with rfl | rfl | rfl | rfl
    all_goals
      norm_num at h2
      lim; cUu 64 .add; lim; rfl
  have hmul : Val.bin .mul ((Limits.custom w mx).digit (mx + 1)) ((Limits.custom w mx).toSingle 2) = .ok ⟨.bni w, (2 * (mx + 1) : Nat)⟩ := by
    rw [show (Limits.custom w mx).toSingle 2 = ⟨.bni w, (2 : Nat)⟩ from (raw_const (show 2 < 2 ^ w by omega)).2]
    have := vbin_raw_mul hw (t := .bni w) (show mx + 1 < 2 ^ w by omega) (show 2 < 2 ^ w by omega) (by intro e; subst e; norm_num at h3 ⊢; omega)
    rw [Nat.mod_eq_of_lt (by omega), Nat.mul_comm] at this
    exact this
  have hadd : Val.bin .add (⟨.bni w, (2 * (mx + 1) : Nat)⟩ : Val) ((Limits.custom w mx).toSingle 0) = .ok ⟨.bni w, (2 * (mx + 1) : Nat)⟩ := by
    rw [show (Limits.custom w mx).toSingle 0 = ⟨.bni w, (0 : Nat)⟩ from (raw_const hp).2]
    have := vbin_raw_add hw (t := .bni w) h3 hp
    rw [show (2 * (mx + 1) + 0) % 2 ^ w = 2 * (mx + 1) from Nat.mod_eq_of_lt h3] at this
    exact this
  have e3 : (Val.conv (Limits.custom w mx).single ⟨.bni w, (2 * (mx + 1) : Nat)⟩) = ⟨.bni w, (2 * (mx + 1) : Nat)⟩ := raw_conv h3
  have e4 : (Val.conv (Limits.custom w mx).single ⟨.bni w, (mx + 1 : Nat)⟩) = ⟨.bni w, (mx + 1 : Nat)⟩ := raw_conv (by omega)
  have e5 := vbin_raw_mod hw (t := .bni w) h3 (show mx + 1 < 2 ^ w by omega) (by omega)
  have hlt : 2 * (mx + 1) % (mx + 1) < 2 ^ w := lt_of_le_of_lt (Nat.mod_le _ _) h3
  have e6 : (Limits.custom w mx).toDouble ((Limits.custom w mx).maxLimit) = ⟨.bni w, (mx : Nat)⟩ := (raw_const (show mx < 2 ^ w by omega)).1
  have e7 : (Val.conv (Limits.custom w mx).single ⟨.bni w, (mx : Nat)⟩) = ⟨.bni w, (mx : Nat)⟩ := raw_conv (by omega)
  have hcmp : Val.cmp .gt (⟨.bni w, (2 * (mx + 1) : Nat)⟩ : Val) ⟨.bni w, (mx : Nat)⟩ = true := by
    exact (C51_comparisons hw h3 (show mx < 2 ^ w by omega)).2.2.1.trans (decide_eq_true (by omega))
  have hdig : shlDigit (.custom w mx) (mx + 1) ((Limits.custom w mx).toSingle 0) =
      .ok (2 * (mx + 1) % (mx + 1), (Limits.custom w mx).toSingle 1) := by
    unfold shlDigit
    simp only [hb, hmul, hadd, ok_bind, e3, e4, e5, e6, e7, hcmp, if_true]
    rw [raw_store hlt]
  refine ⟨2 * (mx + 1) % (mx + 1), 1, ?_, hlt, by omega⟩
  unfold shiftLeft1
  rw [if_neg (by simp), shlLoop, hdig, ok_bind]
  simp only [shlLoop, ok_bind]
  have e8 : (Limits.custom w mx).toSingle 1 = (Limits.custom w mx).sgl 1 := (raw_const (show 1 < 2 ^ w by omega)).2
  have e9 := min_plus_one hC
  rw [e8] at e9 ⊢
  rw [sgl_truthy, if_pos (by simp), e9, ok_bind, store_sgl_one hC, Vec.pushBack, hm]
  rfl

/-- One round leaves the dividend as it was. -/
theorem endless_round {v : Nat} (hv : 2 * (mx + 1) ≤ v) (hvw : v < 2 ^ w) {res : List Nat} (hres : WFDigits (mx + 1) res ∧ res ≠ []) {n : Nat}
    (hn : res.length + 2 ≤ n) : ∃ res', divBody (.custom w mx) env n [mx + 1] ⟨[v], res⟩ = .ok ⟨[v], res'⟩ ∧ (WFDigits (mx + 1) res' ∧ res' ≠ []) ∧
      natOf (mx + 1) res' = natOf (mx + 1) res + 1 := by
  have hC : Custom (Limits.custom w mx) := ⟨w, mx, hw, h1, h2, rfl⟩
  have hB : 2 ≤ mx + 1 := by omega
  have hq : NZ (mx + 1) [1] := ⟨by intro x hx; simp at hx; omega, by simp [NoLeadingZero], by simp⟩
  obtain ⟨d, e, hsh, hd1, he1⟩ := shl_base hw h1 h2 hm (show 2 * (mx + 1) < 2 ^ w by omega)
  have iv : InRange (2 ^ w) [v] := by intro y hy; simp at hy; omega
  have hge : absGe [v] [d, e] = .ok false := by
    rw [absGe_eq (B := 2 ^ w) iv (by intro y hy; simp at hy; omega)]
    exact congrArg _ (decide_eq_false (by simp))
  have hS : loopWhile (fun t => absGe [v] t.bsrch1) (searchBody (.custom w mx) env) n ⟨[mx + 1], [d, e], [1]⟩ = .ok ⟨[mx + 1], [d, e], [1]⟩ := by
    obtain ⟨f, rfl⟩ : ∃ f, n = f + 1 := ⟨n - 1, by omega⟩
    rw [loopWhile, hge, ok_bind]
    rfl
  have hc : colDiff (2 ^ w) v (mx + 1) 0 = v - (mx + 1) := by
    unfold colDiff
    rw [show v + (2 ^ w - (mx + 1 + 0)) = (v - (mx + 1)) + 2 ^ w by omega, Nat.add_mod_right, Nat.mod_eq_of_lt (by omega)]
  have hsub : absSub (.custom w mx) env n [v] (.other [mx + 1]) = .ok [v] := by
    rw [absSub_raw hw h1 h2 hd iv (src := .other [mx + 1]) (by intro y hy; simp [Src.get] at hy; omega) (by simp) (by simp [Src.get])
      (by have := List.length_pos_iff.2 hres.2; simp; omega)]
    simp only [Src.get, rawDiff, List.headD_cons, hc]
    rw [if_pos (by omega), show v - (mx + 1) + (mx + 1) = v by omega, Nat.mod_eq_of_lt hvw, trim_eq_self (by simp [NoLeadingZero]; omega)]
  have hl : ([1] : List Nat).length ≤ res.length := List.length_pos_iff.2 hres.2
  obtain ⟨r, er, hr⟩ := (okOr_absAdd hC.supported env (fuel := n) (out := res) (src := .other [1]) hres.1.1 hq.rng
    (by simp only [Src.get, List.length_singleton] at *; omega)).ok hm hd
  refine ⟨r, ?_, ?_, ?_⟩
  · unfold divBody
    simp only [copy_ample hm, ok_bind, one_store hC, hsh, hS, hsub]
    rw [if_pos hl, er]; rfl
  · rw [hr]; exact ⟨addFull_wf hB hres.1 ⟨hq.rng, .inl hq.nlz⟩, addFull_ne hB hres.1.1 hq.rng⟩
  · rw [hr]
    show natOf (mx + 1) (addFull (mx + 1) res [1] 0) = _
    rw [addFull_natOf hB hres.1.1 hq.rng (by omega)]; simp

theorem endless_loop {v : Nat} (hv : 2 * (mx + 1) ≤ v) (hvw : v < 2 ^ w) {n k : Nat} (hn : k + 3 ≤ n) : ∀ (f : Nat) (res : List Nat),
    (WFDigits (mx + 1) res ∧ res ≠ []) → natOf (mx + 1) res + f < 2 ^ k →
    loopWhile (fun s => absGe s.dividend [mx + 1]) (divBody (.custom w mx) env n [mx + 1]) f ⟨[v], res⟩ = .error .timeout := by
  intro f
  induction f with
  | zero => intros; rfl
  | succ f ih =>
    intro res hres hk
    obtain ⟨res', e, h', hv'⟩ := endless_round hw h1 h2 hm hd hv hvw hres (n := n) (by
      have := wf_length_le_pow (show 2 ≤ mx + 1 by omega) hres.1 (k := k) (by omega); omega)
    have hge : absGe [v] [mx + 1] = .ok true := by
      rw [absGe_eq (B := 2 ^ w) (by intro y hy; simp at hy; omega) (by intro y hy; simp at hy; omega)]
      exact congrArg _ (decide_eq_true (.inr ⟨rfl, by simp; omega⟩))
    rw [loopWhile]
    simp only
    rw [hge, ok_bind, if_pos rfl, e, ok_bind, ih res' h' (by omega)]

/-- A digit of at least twice the base, divided by the digit that equals the base: the operator never returns. -/
theorem C161_endless {t t' : Desc} (hs : Signed t) {v : Nat} (hv : 2 * (mx + 1) ≤ v) (hvw : v < 2 ^ w) :
    Diverges (fun n => (⟨t, [v]⟩ : Bignum).divAssign (.custom w mx) env n (.other ⟨t', [mx + 1]⟩)) := by
  have hC : Custom (Limits.custom w mx) := ⟨w, mx, hw, h1, h2, rfl⟩
  have key : ∀ n, 6 ≤ n → (⟨t, [v]⟩ : Bignum).divAssign (.custom w mx) env n (.other ⟨t', [mx + 1]⟩) = .timeout := by
    intro n hn
    rw [divAssign_general (a := ⟨t, [v]⟩) (r := .other ⟨t', [mx + 1]⟩) hs (by simp [Rhs.get]) (by simp [Rhs.get]; omega) (by simp)
      (by simp; omega), divTry]
    have hgt : absGt [v] [mx + 1] = .ok true := absGt_rawGe (w := w) (by intro y hy; simp at hy; omega) (by intro y hy; simp at hy; omega)
      (.inr ⟨rfl, by simp; omega⟩) (by simp; omega)
    simp only [Rhs.get]
    rw [hgt, ok_bind, if_pos rfl, absDiv, zero_store hC.supported, copy_ample hm, ok_bind,
      endless_loop hw h1 h2 hm hd hv hvw (n := n) (k := n - 3) (by omega) n [0] ⟨⟨by intro x hx; simp at hx; omega, .inr rfl⟩, by simp⟩ ?_]
    · rfl
    · obtain ⟨k, rfl⟩ : ∃ k, n = k + 6 := ⟨n - 6, by omega⟩
      have := Nat.lt_two_pow_self (n := k)
      simp only [natOf_cons, natOf_nil, show k + 6 - 3 = k + 3 by omega, pow_succ]
      omega
  intro n
  by_contra hne
  have := mono_divAssign (.custom w mx) env ⟨t, [v]⟩ (.other ⟨t', [mx + 1]⟩) n (n + 6) (by omega) hne
  simp only at this hne
  rw [key (n + 6) (by omega)] at this
  exact hne this.symm

end

/-! ### Instances -/

/-- 95 written as `[15, 8]`, divided by 7 in base 10. -/
example := C161_exact (w := 32) (mx := 9) (x := ⟨.neg, [15, 8]⟩) (r := .other ⟨.pos, [7]⟩) (j := 3) (.inr (.inr (.inl rfl))) (by sample) (by sample) Sample.ample rfl (by sample)
  (by sample) (by sample) (by sample) (by sample) (by sample) (by decide) (by decide) (by decide) (by simp [DiffsSmall, Rhs.get, doubled])

/-- 19 written as one digit comes before 11. -/
example := C161_after (w := 32) (mx := 9) (x := ⟨.pos, [19]⟩) (r := .other ⟨.pos, [1, 1]⟩) (.inr (.inr (.inl rfl))) (by sample) (by sample) Sample.ample (by sample) (by sample)
  (by sample) (by sample) (by sample) (by sample) (.inl (by decide))

/-- 17 / 2 in base 10. -/
example := C161_digit (w := 32) (mx := 9) (t := .pos) (t' := .pos) (v := 17) (d := 2) (j := 2) (.inr (.inr (.inl rfl))) (by sample) (by sample) Sample.ample rfl
  (by sample) (by sample) (by decide) (by decide) (by decide) (by decide) (by decide) (by decide)

/-- 4294967295 / 2 in base 10 is 4. -/
example := C161_wrong (w := 32) (mx := 9) (t := .pos) (t' := .pos) (v := 4294967295) (d := 2) (j := 2) (.inr (.inr (.inl rfl))) (by sample) (by sample) Sample.ample rfl
  (by sample) (by sample) (by decide) (by decide) (by decide) (by decide) (by decide) (by decide)

/-- 25 / 10 in base 10, both written as one digit. -/
example := C161_endless (w := 32) (mx := 9) (t := .pos) (t' := .neg) (v := 25) (.inr (.inr (.inl rfl))) (by sample) (by sample) Sample.ample rfl
  (by sample) (by decide) (by decide)

end BN
