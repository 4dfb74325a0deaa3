import Verif.Spec
import Mathlib.Tactic.NormNum
import Mathlib.Tactic.Positivity
import Mathlib.Tactic.Ring
/-
Evaluation lemmas for the C++ integer semantics.
-/
namespace BN

theorem wrapU {w : Nat} {z : Int} (h0 : 0 ≤ z) (h1 : z < 2 ^ w) : (cU w).wrap z = z := by
  simp only [CTy.wrap, cU, Bool.false_eq_true, if_false]
  exact Int.emod_eq_of_lt h0 h1

theorem wrapU_eq (w : Nat) (z : Int) : (cU w).wrap z = z % 2 ^ w := by
  simp [CTy.wrap, cU]

theorem wrapI {z : Int} (h0 : -2147483648 ≤ z) (h1 : z < 2147483648) : cInt.wrap z = z := by
  simp only [CTy.wrap, cInt, if_true, Int.bmod_def]
  norm_num
  split <;> omega

theorem resI {z : Int} (h0 : -2147483648 ≤ z) (h1 : z < 2147483648) : cInt.result z = .ok ⟨cInt, z⟩ := by
  simp [CTy.result, CTy.fits, cInt, h0, h1]

theorem resU (w : Nat) (z : Int) : (cU w).result z = .ok ⟨cU w, z % 2 ^ w⟩ := by
  simp [CTy.result, cU]

/-- the arithmetic operators whose mathematical value is `f a b` -/
def BinOp.exact : BinOp → Int → Int → Int
  | .add, a, b => a + b
  | .sub, a, b => a - b
  | .mul, a, b => a * b
  | .div, a, b => a / b
  | .mod, a, b => a % b
  | _, _, _ => 0

def BinOp.arith : BinOp → Bool
  | .add => true | .sub => true | .mul => true | .div => true | .mod => true | _ => false

def BinOp.isDiv : BinOp → Bool
  | .div => true | .mod => true | _ => false

theorem cbin_int (op : BinOp) (hop : op.arith = true) {s t : CTy} (hT : s.promote.common t.promote = cInt)
    {a b : Int} (ha : -2147483648 ≤ a ∧ a < 2147483648) (hb : -2147483648 ≤ b ∧ b < 2147483648)
    (hz : op.isDiv = true → b ≠ 0 ∧ 0 ≤ a)
    (hr : -2147483648 ≤ op.exact a b ∧ op.exact a b < 2147483648) :
    CVal.bin op ⟨s, a⟩ ⟨t, b⟩ = .ok ⟨cInt, op.exact a b⟩ := by
  unfold CVal.bin
  simp only [hT, wrapI ha.1 ha.2, wrapI hb.1 hb.2]
  cases op <;> first
    | exact absurd hop (by decide)
    | exact resI hr.1 hr.2
    | (refine (if_neg (hz rfl).1).trans ?_; rw [Int.tdiv_eq_ediv_of_nonneg (hz rfl).2]; exact resI hr.1 hr.2)
    | (refine (if_neg (hz rfl).1).trans ?_; rw [Int.tmod_eq_emod_of_nonneg (hz rfl).2]; exact resI hr.1 hr.2)

theorem cbin_u (op : BinOp) (hop : op.arith = true) {s t : CTy} {w : Nat} (hT : s.promote.common t.promote = cU w)
    {a b : Int} (ha : 0 ≤ a ∧ a < 2 ^ w) (hb : 0 ≤ b ∧ b < 2 ^ w)
    (hz : op.isDiv = true → b ≠ 0) :
    CVal.bin op ⟨s, a⟩ ⟨t, b⟩ = .ok ⟨cU w, op.exact a b % 2 ^ w⟩ := by
  unfold CVal.bin
  simp only [hT, wrapU ha.1 ha.2, wrapU hb.1 hb.2]
  cases op <;> first
    | exact absurd hop (by decide)
    | exact resU _ _
    | (refine (if_neg (hz rfl)).trans ?_; rw [Int.tdiv_eq_ediv_of_nonneg ha.1]; exact resU _ _)
    | (refine (if_neg (hz rfl)).trans ?_; rw [Int.tmod_eq_emod_of_nonneg ha.1]; exact resU _ _)

theorem vbin_int (op : BinOp) (hop : op.arith = true) {s : CTy} {t : Ty}
    (hT : s.promote.common t.raw.promote = cInt)
    {a b : Int} (ha : -2147483648 ≤ a ∧ a < 2147483648) (hb : -2147483648 ≤ b ∧ b < 2147483648)
    (hz : op.isDiv = true → b ≠ 0 ∧ 0 ≤ a)
    (hr : -2147483648 ≤ op.exact a b ∧ op.exact a b < 2147483648) :
    Val.bin op ⟨.prim s, a⟩ ⟨t, b⟩ = .ok ⟨.prim cInt, op.exact a b⟩ := by
  simp only [Val.bin, Val.raw, Ty.raw.eq_1, cbin_int op hop hT ha hb hz hr]
  rfl

theorem vbin_u (op : BinOp) (hop : op.arith = true) {s : CTy} {t : Ty} {w : Nat}
    (hT : s.promote.common t.raw.promote = cU w)
    {a b : Int} (ha : 0 ≤ a ∧ a < 2 ^ w) (hb : 0 ≤ b ∧ b < 2 ^ w)
    (hz : op.isDiv = true → b ≠ 0) :
    Val.bin op ⟨.prim s, a⟩ ⟨t, b⟩ = .ok ⟨.prim (cU w), op.exact a b % 2 ^ w⟩ := by
  simp only [Val.bin, Val.raw, Ty.raw.eq_1, cbin_u op hop hT ha hb hz]
  rfl

/-- The four widths of `BNIntType`. -/
def IsWidth (w : Nat) : Prop := w = 8 ∨ w = 16 ∨ w = 32 ∨ w = 64

theorem IsWidth.promote {w : Nat} (h : IsWidth w) :
    ((cU w).promote.common (cU w).promote = cInt ∧ w < 32) ∨
    ((cU w).promote.common (cU w).promote = cU w ∧ 32 ≤ w) := by
  rcases h with rfl | rfl | rfl | rfl <;> decide

theorem pow_lt_of_width {w : Nat} (h : IsWidth w) (hw : w < 32) : w = 8 ∨ w = 16 := by
  rcases h with rfl | rfl | rfl | rfl <;> omega

/-- No signed overflow can occur for this operation on `w`-bit operands. -/
def BinOp.NoOverflow (op : BinOp) (w : Nat) (a b : Int) : Prop :=
  op = .mul → w = 16 → a * b < 2147483648

theorem BNInt.bin_eq (op : BinOp) (hop : op.arith = true) {w : Nat} (hw : IsWidth w) {a b : Nat}
    (ha : a < 2 ^ w) (hb : b < 2 ^ w) (hz : op.isDiv = true → b ≠ 0) (hm : op.NoOverflow w a b) :
    BNInt.bin w op a b = .ok (op.exact a b % 2 ^ w).toNat := by
  have ha' : (a : Int) < 2 ^ w := by exact_mod_cast ha
  have hb' : (b : Int) < 2 ^ w := by exact_mod_cast hb
  have hz' : op.isDiv = true → (b : Int) ≠ 0 := fun h => by exact_mod_cast hz h
  unfold BNInt.bin
  rcases hw.promote with ⟨hT, hlt⟩ | ⟨hT, hge⟩
  · have hr : -2147483648 ≤ op.exact a b ∧ op.exact a b < 2147483648 := by
      rcases pow_lt_of_width hw hlt with rfl | rfl
      · cases op <;> simp only [BinOp.exact] <;> try omega
        · constructor
          · have := Int.mul_nonneg (Int.natCast_nonneg a) (Int.natCast_nonneg b); omega
          · have : (a : Int) * b ≤ 255 * 255 := by
              apply Int.mul_le_mul <;> omega
            omega
        · have h1 := Int.ediv_nonneg (Int.natCast_nonneg a) (Int.natCast_nonneg b)
          have h2 := Int.ediv_le_self (b := (b : Int)) (Int.natCast_nonneg a)
          omega
        · rcases Nat.eq_zero_or_pos b with rfl | hb0
          · simp; omega
          · have := Int.emod_lt_of_pos (a : Int) (b := (b : Int)) (by omega)
            have := Int.emod_nonneg (a : Int) (b := (b : Int)) (by omega)
            omega
      · cases op <;> simp only [BinOp.exact] <;> try omega
        · constructor
          · have := Int.mul_nonneg (Int.natCast_nonneg a) (Int.natCast_nonneg b); omega
          · exact hm rfl rfl
        · have h1 := Int.ediv_nonneg (Int.natCast_nonneg a) (Int.natCast_nonneg b)
          have h2 := Int.ediv_le_self (b := (b : Int)) (Int.natCast_nonneg a)
          omega
        · rcases Nat.eq_zero_or_pos b with rfl | hb0
          · simp; omega
          · have := Int.emod_lt_of_pos (a : Int) (b := (b : Int)) (by omega)
            have := Int.emod_nonneg (a : Int) (b := (b : Int)) (by omega)
            omega
    have hA : -2147483648 ≤ (a : Int) ∧ (a : Int) < 2147483648 := by
      rcases pow_lt_of_width hw hlt with rfl | rfl <;> omega
    have hB : -2147483648 ≤ (b : Int) ∧ (b : Int) < 2147483648 := by
      rcases pow_lt_of_width hw hlt with rfl | rfl <;> omega
    rw [cbin_int op hop hT hA hB (fun h => ⟨hz' h, by omega⟩) hr]
    simp [bind, Except.bind, wrapU_eq]
  · rw [cbin_u op hop hT ⟨by omega, ha'⟩ ⟨by omega, hb'⟩ hz']
    simp [bind, Except.bind, wrapU_eq]

theorem vbin_bni (op : BinOp) (hop : op.arith = true) {w : Nat} {t : Ty} (hw : IsWidth w) {a b : Int}
    (ha : 0 ≤ a ∧ a < 2 ^ w) (hb : 0 ≤ b ∧ b < 2 ^ w) (hz : op.isDiv = true → b ≠ 0)
    (hm : op.NoOverflow w a b) :
    Val.bin op ⟨.bni w, a⟩ ⟨t, b⟩ = .ok ⟨.bni w, op.exact a b % 2 ^ w⟩ := by
  obtain ⟨a, rfl⟩ := Int.eq_ofNat_of_zero_le ha.1
  obtain ⟨b, rfl⟩ := Int.eq_ofNat_of_zero_le hb.1
  have hpow : (0 : Int) < 2 ^ w := by positivity
  simp only [Val.bin, wrapU hb.1 hb.2, Int.toNat_natCast]
  rw [BNInt.bin_eq op hop hw (by exact_mod_cast ha.2) (by exact_mod_cast hb.2)
    (fun h => by exact_mod_cast hz h) hm]
  simp [bind, Except.bind]
  exact Int.emod_nonneg _ (by omega)

theorem cmp_raw (op : CmpOp) {s t : Ty} {T : CTy} (hT : s.raw.promote.common t.raw.promote = T) {a b : Int}
    (ha : T.wrap a = a) (hb : T.wrap b = b) : Val.cmp op ⟨s, a⟩ ⟨t, b⟩ = op.eval a b := by
  simp [Val.cmp, Val.raw, CVal.cmp, hT, ha, hb]

theorem cmp_u (op : CmpOp) {s t : Ty} {w : Nat} (hT : s.raw.promote.common t.raw.promote = cU w) {a b : Int}
    (ha : 0 ≤ a ∧ a < 2 ^ w) (hb : 0 ≤ b ∧ b < 2 ^ w) : Val.cmp op ⟨s, a⟩ ⟨t, b⟩ = op.eval a b :=
  cmp_raw op hT (wrapU ha.1 ha.2) (wrapU hb.1 hb.2)

theorem cmp_int (op : CmpOp) {s t : Ty} (hT : s.raw.promote.common t.raw.promote = cInt) {a b : Int}
    (ha : -2147483648 ≤ a ∧ a < 2147483648) (hb : -2147483648 ≤ b ∧ b < 2147483648) :
    Val.cmp op ⟨s, a⟩ ⟨t, b⟩ = op.eval a b :=
  cmp_raw op hT (wrapI ha.1 ha.2) (wrapI hb.1 hb.2)

@[simp] theorem ok_bind {α β : Type} (x : α) (f : α → Res β) : ((Except.ok x : Res α) >>= f) = f x :=
  Eq.trans rfl rfl
@[simp] theorem error_bind {α β : Type} (x : Fault) (f : α → Res β) : ((Except.error x : Res α) >>= f) = .error x := rfl

theorem conv_u {t : Ty} {w : Nat} (ht : t.raw = cU w) (s : Ty) (a : Int) : Val.conv t ⟨s, a⟩ = ⟨t, a % 2 ^ w⟩ := by
  simp [Val.conv, ht, wrapU_eq]

end BN
