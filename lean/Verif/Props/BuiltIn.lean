import Verif.Props.OwnOrder
/-
C150: conversions between numbers and `long long`, written by clients with push_back, setDescriptor, isNegative, size and subscripts.
-/
namespace BN
open Bignum

/-- `long long`. -/
def cLL : CTy := ⟨64, true⟩

/-- `const uint64_t BASE = uint64_t(bn_max_limit<bn_single>()) + 1;` -/
def baseU (L : Limits) : Res CVal := CVal.bin .add ⟨cU 64, L.maxLimit⟩ (CVal.cast (cU 64) ⟨cInt, 1⟩)

/-- `for (size_t i = x.size(); i--;) v = v * BASE + uint64_t(x[i]);` -/
def valueLoop (L : Limits) (x : Bignum) : Nat → CVal → Res CVal
  | 0, v => .ok v
  | i + 1, v => do
    let B ← baseU L
    let m ← CVal.bin .mul v B
    let d ← x.at_ i
    let s ← CVal.bin .add m ((L.digit d).raw.cast (cU 64))
    valueLoop L x i s

/-- `uint64_t v = 0; ...; return (long long)(x.isNegative() ? 0 - v : v);` -/
def toLL (L : Limits) (x : Bignum) : Res CVal := do
  let v ← valueLoop L x x.size ⟨cU 64, 0⟩
  let r ← if x.isNegative then CVal.bin .sub ⟨cU 64, 0⟩ v else .ok v
  .ok (r.cast cLL)

/-- `x.push_back((bn_single)(n % BASE)); n /= BASE;` -/
def digitsBody (L : Limits) (env : Env) (s : CVal × Bignum) : Res (CVal × Bignum) := do
  let B ← baseU L
  let r ← CVal.bin .mod s.1 B
  let x ← s.2.pushBack env (L.store ⟨.prim r.ty, r.val⟩)
  let q ← CVal.bin .div s.1 B
  .ok (q, x)

/-- `while (n != 0) { x.push_back((bn_single)(n % BASE)); n /= BASE; }` -/
def digitsLoop (L : Limits) (env : Env) (fuel : Nat) (n : CVal) : Res (CVal × Bignum) :=
  loopWhile (fun s => .ok (CVal.cmp .ne s.1 ⟨cInt, 0⟩)) (digitsBody L env) fuel (n, Bignum.default)

/-- `uint64_t n = z < 0 ? 0 - uint64_t(z) : uint64_t(z); Bignum x; ...; if (z < 0) x.setDescriptor(BN_NEG); return x;` -/
def fromLL (L : Limits) (env : Env) (fuel : Nat) (z : CVal) : Res Bignum := do
  let u := z.cast (cU 64)
  let n ← if z.val < 0 then CVal.bin .sub ⟨cU 64, 0⟩ u else .ok u
  let s ← digitsLoop L env fuel n
  .ok (if z.val < 0 then s.2.setDescriptor .neg else s.2)

theorem u64_add (a b : Int) : CVal.bin .add ⟨cU 64, a⟩ ⟨cU 64, b⟩ = .ok ⟨cU 64, (a + b) % 2 ^ 64⟩ := by
  simp [CVal.bin, cU, CTy.promote, CTy.common, CTy.wrap, CTy.result]

theorem u64_mul (a b : Int) : CVal.bin .mul ⟨cU 64, a⟩ ⟨cU 64, b⟩ = .ok ⟨cU 64, (a * b) % 2 ^ 64⟩ := by
  simp [CVal.bin, cU, CTy.promote, CTy.common, CTy.wrap, CTy.result, Int.mul_emod]

theorem u64_neg (a : Int) : CVal.bin .sub ⟨cU 64, 0⟩ ⟨cU 64, a⟩ = .ok ⟨cU 64, (-a) % 2 ^ 64⟩ := by
  simp [CVal.bin, cU, CTy.promote, CTy.common, CTy.wrap, CTy.result]
  omega

theorem u64_div {a b : Nat} (ha : a < 2 ^ 64) (hb : b < 2 ^ 64) (h0 : 0 < b) :
    CVal.bin .div ⟨cU 64, a⟩ ⟨cU 64, b⟩ = .ok ⟨cU 64, ((a / b : Nat) : Int)⟩ ∧
    CVal.bin .mod ⟨cU 64, a⟩ ⟨cU 64, b⟩ = .ok ⟨cU 64, ((a % b : Nat) : Int)⟩ := by
  have e1 : (a : Int) % 18446744073709551616 = a := Int.emod_eq_of_lt (by omega) (by exact_mod_cast ha)
  have e2 : (b : Int) % 18446744073709551616 = b := Int.emod_eq_of_lt (by omega) (by exact_mod_cast hb)
  have h1 : a / b ≤ a := Nat.div_le_self _ _
  have h2 : a % b ≤ a := Nat.mod_le _ _
  have e3 : ((a / b : Nat) : Int) % 18446744073709551616 = ((a / b : Nat) : Int) :=
    Int.emod_eq_of_lt (Int.natCast_nonneg _) (by exact_mod_cast lt_of_le_of_lt h1 ha)
  have e4 : ((a % b : Nat) : Int) % 18446744073709551616 = ((a % b : Nat) : Int) :=
    Int.emod_eq_of_lt (Int.natCast_nonneg _) (by exact_mod_cast lt_of_le_of_lt h2 ha)
  have h0' : (b : Int) ≠ 0 := by omega
  have t1 : (a : Int).tdiv b = ((a / b : Nat) : Int) := rfl
  have t2 : (a : Int).tmod b = ((a % b : Nat) : Int) := rfl
  constructor
  · simp only [CVal.bin, cU, CTy.promote, CTy.common, CTy.wrap, CTy.result]
    norm_num [e1, e2, h0', t1, e3]
    rw [if_neg (by omega)]
    simp only [← Int.natCast_ediv] at *
    rw [e3]
  · simp only [CVal.bin, cU, CTy.promote, CTy.common, CTy.wrap, CTy.result]
    norm_num [e1, e2, h0', t2, e4]
    rw [if_neg (by omega)]
    simp only [← Int.natCast_emod] at *
    rw [e4]

/-- What the conversions need of a digit type. -/
structure Fits64 (L : Limits) : Prop where
  two : 2 ≤ L.base
  lt : L.base < 2 ^ 64
  store : ∀ d : Nat, d < L.base → L.store ⟨.prim (cU 64), d⟩ = d

theorem fits64 {L : Limits} (h : Supported L) : Fits64 L := by
  have key : ∀ w max : Nat, ∀ d : Nat, d < max + 1 → max < 2 ^ w → ((d : Int) % 2 ^ w).toNat = d := by
    intro w max d hd hm
    rw [Int.emod_eq_of_lt (by omega) (by exact_mod_cast (by omega : d < 2 ^ w))]
    rfl
  rcases h with h | ⟨w, max, hw, h1, h2, rfl⟩
  · rcases h with _ | _ | _ | _ | _ | _ <;> refine ⟨by decide, by decide, fun d hd => ?_⟩
    · exact key 8 255 d hd (by decide)
    · exact key 16 65535 d hd (by decide)
    · exact key 32 (2 ^ 32 - 1) d hd (by decide)
    · exact key 8 255 d hd (by decide)
    · exact key 8 255 d hd (by decide)
    · exact key 16 65535 d hd (by decide)
  · refine ⟨show 2 ≤ max + 1 by omega, show max + 1 < 2 ^ 64 from ?_, fun d hd => key w max d hd (by omega)⟩
    rcases hw with rfl | rfl | rfl | rfl <;> norm_num at h2 ⊢ <;> omega

theorem baseU_eq {L : Limits} (h : Fits64 L) : baseU L = .ok ⟨cU 64, (L.base : Nat)⟩ := by
  unfold baseU
  have : CVal.cast (cU 64) ⟨cInt, 1⟩ = ⟨cU 64, 1⟩ := rfl
  rw [this, u64_add]
  have e : ((L.maxLimit : Int) + 1) % 2 ^ 64 = (L.base : Nat) := by
    have := h.lt
    unfold Limits.base at *
    push_cast
    exact Int.emod_eq_of_lt (by omega) (by exact_mod_cast this)
  rw [e]

theorem valueLoop_eq {L : Limits} (h : Fits64 L) {x : Bignum} : ∀ i, i ≤ x.digits.length → ∀ v : Int,
    valueLoop L x i ⟨cU 64, v % 2 ^ 64⟩ = .ok ⟨cU 64, (v * (L.base : Int) ^ i + natOf L.base (x.digits.take i)) % 2 ^ 64⟩
  | 0, _, v => by simp [valueLoop]
  | i + 1, hi, v => by
    have h1 : x.at_ i = .ok x.digits[i] := by unfold at_; rw [if_pos (by omega), rd_eq (by omega)]
    have h2 : ((L.digit x.digits[i]).raw.cast (cU 64)) = ⟨cU 64, (x.digits[i] : Int) % 2 ^ 64⟩ := rfl
    have e : (v % 2 ^ 64 * (L.base : Int) % 2 ^ 64 + (x.digits[i] : Int) % 2 ^ 64) % 2 ^ 64 = (v * L.base + x.digits[i]) % 2 ^ 64 := by
      rw [← Int.add_emod, Int.add_emod, Int.mul_emod, Int.emod_emod_of_dvd _ (dvd_refl _), ← Int.mul_emod, ← Int.add_emod]
    rw [valueLoop, baseU_eq h, ok_bind, u64_mul, ok_bind, h1, ok_bind, h2, u64_add, ok_bind, e, valueLoop_eq h i (by omega),
      natOf_take_succ L.base x.digits i (by omega)]
    congr 3
    push_cast
    ring

/-- C150: the conversion of any finite number, also with leading zeros, is its value modulo 2^64; so it is the value if a `long long` can hold it. -/
theorem C150_to {L : Limits} (h : Supported L) {x : Bignum} (hx : Signed x.desc) :
    ∃ v, toLL L x = .ok ⟨cLL, v⟩ ∧ -2 ^ 63 ≤ v ∧ v < 2 ^ 63 ∧ (2 ^ 64 : Int) ∣ x.toInt L - v ∧
    (v = x.toInt L ↔ -2 ^ 63 ≤ x.toInt L ∧ x.toInt L < 2 ^ 63) := by
  have hl := valueLoop_eq (fits64 h) (x := x) x.size (Nat.le_refl _) 0
  rw [show (0 : Int) % 2 ^ 64 = 0 from rfl, show x.digits.take x.size = x.digits from List.take_length, zero_mul, zero_add] at hl
  have main : toLL L x = .ok ⟨cLL, Int.bmod (x.toInt L) (2 ^ 64)⟩ := by
    unfold toLL
    rw [hl, ok_bind]
    rcases hx with hd | hd
    · have hn : x.isNegative = false := by unfold Bignum.isNegative; rw [hd]; rfl
      have ht : x.toInt L = (natOf L.base x.digits : Int) := by unfold Bignum.toInt; rw [hd]; rfl
      rw [hn, ht]
      simp [ok_bind, CVal.cast, CTy.wrap, cLL]
      exact Int.emod_bmod _ 18446744073709551616
    · have hn : x.isNegative = true := by unfold Bignum.isNegative; rw [hd]; rfl
      have ht : x.toInt L = -(natOf L.base x.digits : Int) := by unfold Bignum.toInt; rw [hd]; rfl
      rw [hn, ht, if_pos rfl, u64_neg]
      have e : (-((natOf L.base x.digits : Int) % 2 ^ 64)) % 2 ^ 64 = (-(natOf L.base x.digits : Int)) % 2 ^ 64 := by
        norm_num
        omega
      rw [e]
      simp [ok_bind, CVal.cast, CTy.wrap, cLL]
      exact Int.emod_bmod _ 18446744073709551616
  have b1 := Int.le_bmod (x := x.toInt L) (m := 2 ^ 64) (by decide)
  have b2 := Int.bmod_lt (x := x.toInt L) (m := 2 ^ 64) (by decide)
  norm_num at b1 b2
  have b3 : (2 ^ 64 : Int) ∣ x.toInt L - Int.bmod (x.toInt L) (2 ^ 64) := by
    have := Int.dvd_self_sub_bmod (x := x.toInt L) (m := 2 ^ 64)
    exact_mod_cast this
  refine ⟨_, main, by norm_num; omega, by norm_num; omega, b3, ?_⟩
  constructor
  · intro e
    rw [← e]
    norm_num
    omega
  · rintro ⟨h1, h2⟩
    generalize Int.bmod (x.toInt L) (2 ^ 64) = v at *
    norm_num at h1 h2 b3
    omega

example := C150_to (L := .base10) (.inr Sample.base10) (x := Sample.m23) (by sample)

theorem digitsLoop_spec {L : Limits} (h : Fits64 L) {env : Env} (ha : env.Ample) : ∀ (f n : Nat), n < 2 ^ 64 → n < 2 ^ f → ∀ (x : Bignum),
    InRange L.base x.digits → ∃ ds, (∀ g, f < g → loopWhile (fun s => .ok (CVal.cmp .ne s.1 ⟨cInt, 0⟩)) (digitsBody L env) g (⟨cU 64, (n : Int)⟩, x) = .ok (⟨cU 64, 0⟩, ⟨x.desc, x.digits ++ ds⟩)) ∧ InRange L.base ds ∧ NoLeadingZero ds ∧ natOf L.base ds = n
  | 0, n, _, hn, x, hx => by
    have : n = 0 := by simpa using hn
    subst this
    refine ⟨[], fun g hg => ?_, by simp [InRange], by simp [NoLeadingZero], rfl⟩
    obtain ⟨g, rfl⟩ : ∃ k, g = k + 1 := ⟨g - 1, by omega⟩
    simp only [loopWhile, ok_bind, List.append_nil]
    rfl
  | f + 1, n, hn, hf, x, hx => by
    by_cases h0 : n = 0
    · subst h0
      refine ⟨[], fun g hg => ?_, by simp [InRange], by simp [NoLeadingZero], rfl⟩
      obtain ⟨g, rfl⟩ : ∃ k, g = k + 1 := ⟨g - 1, by omega⟩
      simp only [loopWhile, ok_bind, List.append_nil]
      rfl
    · have hB := h.two
      have hdiv : n / L.base ≤ n / 2 := Nat.div_le_div_left hB (by omega)
      have hlt : n / L.base < 2 ^ f := by rw [pow_succ] at hf; omega
      have hmod : n % L.base < L.base := Nat.mod_lt _ (by omega)
      obtain ⟨ds, h1, h2, h3, h4⟩ := digitsLoop_spec h ha f (n / L.base) (lt_of_le_of_lt (Nat.div_le_self _ _) hn) hlt
        ⟨x.desc, x.digits ++ [n % L.base]⟩ (by
          intro d hd
          rcases List.mem_append.1 hd with hd | hd
          · exact hx d hd
          · rw [List.mem_singleton.1 hd]; exact hmod)
      refine ⟨n % L.base :: ds, fun g hg => ?_, ?_, ?_, ?_⟩
      · obtain ⟨g, rfl⟩ : ∃ k, g = k + 1 := ⟨g - 1, by omega⟩
        obtain ⟨q1, q2⟩ := u64_div hn h.lt (by omega : 0 < L.base)
        have hc : CVal.cmp .ne ⟨cU 64, (n : Int)⟩ ⟨cInt, 0⟩ = true := by
          have e : (n : Int) % 18446744073709551616 = n := Int.emod_eq_of_lt (by omega) (by exact_mod_cast hn)
          simp [CVal.cmp, CmpOp.eval, cU, cInt, CTy.promote, CTy.common, CTy.wrap, e, h0]
        have hp : Bignum.pushBack env x (n % L.base) = .ok ⟨x.desc, x.digits ++ [n % L.base]⟩ := by
          unfold Bignum.pushBack Vec.pushBack
          rw [if_pos (ha _)]; rfl
        have hb : digitsBody L env (⟨cU 64, (n : Int)⟩, x) = .ok (⟨cU 64, ((n / L.base : Nat) : Int)⟩, ⟨x.desc, x.digits ++ [n % L.base]⟩) := by
          unfold digitsBody
          simp only [ok_bind, baseU_eq h, q1, q2, h.store _ hmod, hp]
        rw [loopWhile]
        simp only [ok_bind, hc, if_true, hb]
        rw [h1 g (by omega)]
        simp
      · intro d hd
        rcases List.mem_cons.1 hd with rfl | hd
        · exact hmod
        · exact h2 d hd
      · intro hl
        cases ds with
        | nil =>
          simp only [List.getLast?_singleton, Option.some.injEq] at hl
          rw [natOf_nil] at h4
          have := Nat.div_add_mod n L.base
          rw [← h4, hl] at this
          omega
        | cons e es => exact h3 (by rwa [List.getLast?_cons_cons] at hl)
      · rw [natOf_cons, h4]
        exact Nat.mod_add_div n L.base

/-- C150: every `long long` is converted to a number with its value, without leading zeros and without a minus sign on zero. -/
theorem C150_from {L : Limits} (h : Supported L) {env : Env} (ha : env.Ample) {z : Int} (h1 : -2 ^ 63 ≤ z) (h2 : z < 2 ^ 63) :
    ∃ x, (∀ n, 64 < n → fromLL L env n ⟨cLL, z⟩ = .ok x) ∧ Proper L x ∧ x.toInt L = z := by
  have hn : z.natAbs < 2 ^ 64 := by norm_num at h1 h2 ⊢; omega
  obtain ⟨ds, g1, g2, g3, g4⟩ := digitsLoop_spec (fits64 h) ha 64 z.natAbs hn hn Bignum.default (by simp [InRange, Bignum.default])
  have hm : ∀ d, Bignum.mag L ⟨d, ds⟩ = z.natAbs := fun d => g4
  by_cases hz : z < 0
  · have hab : ((z.natAbs : Nat) : Int) = -z := by omega
    have e : ((-(z % 2 ^ 64)) % 2 ^ 64 : Int) = (z.natAbs : Nat) := by rw [hab]; norm_num at h1 h2 ⊢; omega
    refine ⟨⟨.neg, ds⟩, fun n hn => ?_, ⟨.inr rfl, ⟨g2, g3⟩, fun h0 => ?_⟩, ?_⟩
    · unfold fromLL digitsLoop
      simp only [hz, if_true]
      rw [show CVal.cast (cU 64) ⟨cLL, z⟩ = ⟨cU 64, z % 2 ^ 64⟩ from rfl, u64_neg, ok_bind, e, g1 n hn, ok_bind]
      rfl
    · have : ds = [] := h0
      rw [this, natOf_nil] at g4
      omega
    · unfold Bignum.toInt
      rw [hm, hab]
      simp
  · have hab : ((z.natAbs : Nat) : Int) = z := by omega
    have e : (z % 2 ^ 64 : Int) = (z.natAbs : Nat) := by rw [hab]; norm_num at h1 h2 ⊢; omega
    refine ⟨⟨.pos, ds⟩, fun n hn => ?_, ⟨.inl rfl, ⟨g2, g3⟩, fun _ => rfl⟩, ?_⟩
    · unfold fromLL digitsLoop
      simp only [hz, if_false]
      rw [show CVal.cast (cU 64) ⟨cLL, z⟩ = ⟨cU 64, z % 2 ^ 64⟩ from rfl, ok_bind, e, g1 n hn, ok_bind]
      rfl
    · unfold Bignum.toInt
      rw [hm, hab]
      simp

example := C150_from (L := .base10) (.inr Sample.base10) Sample.ample (z := -9223372036854775808) (by norm_num) (by norm_num)

/-- C150: there and back gives the `long long` again, and back and there gives the number again exactly if a `long long` can hold its value. -/
theorem C150_round_trip {L : Limits} (h : Supported L) {env : Env} (ha : env.Ample) :
    (∀ z : Int, -2 ^ 63 ≤ z → z < 2 ^ 63 → ∀ n, 64 < n → ∃ x, fromLL L env n ⟨cLL, z⟩ = .ok x ∧ toLL L x = .ok ⟨cLL, z⟩) ∧
    ∀ x, Proper L x → ∃ v y, toLL L x = .ok v ∧ (∀ n, 64 < n → fromLL L env n v = .ok y) ∧
      y.eq x = .ok (decide (-2 ^ 63 ≤ x.toInt L ∧ x.toInt L < 2 ^ 63)) := by
  constructor
  · intro z h1 h2 n hn
    obtain ⟨x, g1, g2, g3⟩ := C150_from h ha h1 h2
    obtain ⟨v, g4, -, -, -, g5⟩ := C150_to h g2.1
    refine ⟨x, g1 n hn, ?_⟩
    rw [g4, g5.2 (by rw [g3]; exact ⟨h1, h2⟩), g3]
  · intro x hx
    obtain ⟨v, g1, g2, g3, -, g4⟩ := C150_to h hx.1
    obtain ⟨y, g5, g6, g7⟩ := C150_from h ha g2 g3
    refine ⟨_, y, g1, g5, ?_⟩
    obtain ⟨r, e1, e2⟩ := C01_eq_structural y x
    rw [e1]
    congr 1
    rw [Bool.eq_iff_iff, e2, decide_eq_true_eq, ← g4, ← g7]
    constructor
    · rintro ⟨k1, k2⟩
      have : y = x := by cases y; cases x; simp_all
      rw [this]
    · intro e
      rw [proper_ext g6 hx e]
      exact ⟨rfl, rfl⟩

example := (C150_round_trip (L := .base10) (.inr Sample.base10) Sample.ample).2 _ Sample.proper23

end BN
