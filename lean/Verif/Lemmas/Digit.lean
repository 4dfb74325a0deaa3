import Verif.Lemmas.CInt
/-
Evaluation of the digit-level C++ expressions for the supported digit types.
-/
namespace BN

namespace Limits
/-- value of type bn_single / bn_double -/
def sgl (L : Limits) (n : Nat) : Val := ⟨L.single, n⟩
def dbl (L : Limits) (n : Nat) : Val := ⟨L.double, n⟩
end Limits

theorem supported_cases {P : Limits → Prop} {L : Limits} (h : Supported L)
    (h1 : P .lowp) (h2 : P .medp) (h3 : P .highp)
    (g1 : P (.pair 8 32)) (g2 : P (.pair 8 64)) (g3 : P (.pair 16 64))
    (h4 : ∀ max, 1 ≤ max → 2 * max + 1 < 256 → P (.custom 8 max))
    (h5 : ∀ max, 1 ≤ max → 2 * max + 1 < 65536 → P (.custom 16 max))
    (h6 : ∀ max, 1 ≤ max → 2 * max + 1 < 4294967296 → P (.custom 32 max))
    (h7 : ∀ max, 1 ≤ max → 2 * max + 1 < 18446744073709551616 → P (.custom 64 max)) : P L := by
  rcases h with h | ⟨w, max, hw, h1', h2', rfl⟩
  · cases h <;> assumption
  · rcases hw with rfl | rfl | rfl | rfl
    · exact h4 max h1' h2'
    · exact h5 max h1' h2'
    · exact h6 max h1' h2'
    · exact h7 max h1' h2'

/-- closes the side conditions of the evaluation lemmas -/
macro "cside" : tactic => `(tactic| first
  | omega
  | (simp only [BinOp.exact]; omega)
  | (simp only [BinOp.NoOverflow]; omega)
  | (intro h; exact absurd h (by decide))
  | (intro _ h; exact absurd h (by decide))
  | (with_reducible_and_instances rfl)
  | exact Or.inl rfl
  | exact Or.inr (Or.inl rfl)
  | exact Or.inr (Or.inr (Or.inl rfl))
  | exact Or.inr (Or.inr (Or.inr rfl))
  | (refine (?_ : (_ : CTy) = (_ : CTy)); decide))

macro "lim" : tactic => `(tactic| (
  simp only [Limits.base, Limits.lowp, Limits.medp, Limits.highp, Limits.pair, Limits.custom,
    Limits.toDouble, Limits.toSingle, Limits.digit, Limits.dbl, Limits.sgl, Limits.store, Ty.raw, wrapU_eq, BinOp.exact,
    ok_bind, Val.conv, Nat.reduceAdd, Nat.reduceSub, Nat.reducePow, Int.reducePow,
    Nat.cast_ofNat, Nat.cast_one, Nat.cast_zero, Int.reduceMod, Int.reduceAdd, CmpOp.eval, decide_eq_true_eq] at *
  try simp (disch := omega) only [Int.emod_eq_of_lt, Int.toNat_of_nonneg]))

macro "cI" op:term : tactic => `(tactic| (rw [vbin_int $op rfl] <;> try cside))
macro "cUu" w:term:max op:term : tactic => `(tactic| (rw [vbin_u $op rfl (w := $w)] <;> try cside))
macro "cB" op:term : tactic => `(tactic| (rw [vbin_bni $op rfl] <;> try cside))
macro "kI" : tactic => `(tactic| (rw [cmp_int] <;> try cside))
macro "kU" w:term:max : tactic => `(tactic| (rw [cmp_u (w := $w)] <;> try cside))
macro "fin" : tactic => `(tactic| (simp only [Except.ok.injEq, Prod.mk.injEq, Val.mk.injEq, true_and]; omega))

/-- one reduction step of an addition on a custom digit type followed by a carry -/
theorem mod_div_of_lt {x B : Nat} (h : x < B) : x % B = x ∧ x / B = 0 :=
  ⟨Nat.mod_eq_of_lt h, Nat.div_eq_of_lt h⟩

theorem mod_div_of_ge {x B : Nat} (h : B ≤ x) (h2 : x < 2 * B) : x % B = x - B ∧ x / B = 1 := by
  constructor
  · rw [Nat.mod_eq_sub_mod h, Nat.mod_eq_of_lt (by omega)]
  · rw [Nat.div_eq_sub_div (by omega) h, Nat.div_eq_of_lt (by omega)]

theorem emod_of_ge {x B : Int} (h : B ≤ x) (h2 : x < 2 * B) : x % B = x - B := by
  rw [← Int.sub_emod_right, Int.emod_eq_of_lt (by omega) (by omega)]

theorem addDigit_eq {L : Limits} (h : Supported L) {o i r : Nat}
    (ho : o < L.base) (hi : i < L.base) (hr : r ≤ 1) :
    addDigit L o (L.dbl i) (L.sgl r) = .ok ((o + i + r) % L.base, L.sgl ((o + i + r) / L.base)) := by
  revert ho hi
  refine supported_cases (P := fun L => o < L.base → i < L.base →
    addDigit L o (L.dbl i) (L.sgl r) = .ok ((o + i + r) % L.base, L.sgl ((o + i + r) / L.base))) h
    ?_ ?_ ?_ ?_ ?_ ?_ ?_ ?_ ?_ ?_
  · intro ho hi
    unfold addDigit
    lim; cI .add; lim; cI .add; lim; kI; lim
    split
    · cI .add; lim; cI .mod; lim; fin
    · fin
  · intro ho hi
    unfold addDigit
    lim; cUu 32 .add; lim; cUu 32 .add; lim; kU 32; lim
    split
    · cUu 32 .add; lim; cUu 32 .mod; lim; fin
    · fin
  · intro ho hi
    unfold addDigit
    lim; cUu 64 .add; lim; cUu 64 .add; lim; kU 64; lim
    split
    · cUu 64 .add; lim; cUu 64 .mod; lim; fin
    · fin
  · intro ho hi
    unfold addDigit
    lim; cUu 32 .add; lim; cUu 32 .add; lim; kU 32; lim
    split
    · cUu 32 .add; lim; cUu 32 .mod; lim; fin
    · fin
  · intro ho hi
    unfold addDigit
    lim; cUu 64 .add; lim; cUu 64 .add; lim; kU 64; lim
    split
    · cUu 64 .add; lim; cUu 64 .mod; lim; fin
    · fin
  · intro ho hi
    unfold addDigit
    lim; cUu 64 .add; lim; cUu 64 .add; lim; kU 64; lim
    split
    · cUu 64 .add; lim; cUu 64 .mod; lim; fin
    · fin
  · intro max h1 h2 ho hi
    unfold addDigit
    lim; cB .add; lim; cB .add; lim; kI; lim
    split
    · have ⟨e1, e2⟩ := mod_div_of_ge (x := o + i + r) (B := max + 1) (by omega) (by omega)
      cB .add; lim; cB .mod; lim
      rw [emod_of_ge (x := (o : Int) + i + r) (B := (max : Int) + 1) (by omega) (by omega)]
      fin
    · have ⟨e1, e2⟩ := mod_div_of_lt (x := o + i + r) (B := max + 1) (by omega)
      fin
  · intro max h1 h2 ho hi
    unfold addDigit
    lim; cB .add; lim; cB .add; lim; kI; lim
    split
    · have ⟨e1, e2⟩ := mod_div_of_ge (x := o + i + r) (B := max + 1) (by omega) (by omega)
      cB .add; lim; cB .mod; lim
      rw [emod_of_ge (x := (o : Int) + i + r) (B := (max : Int) + 1) (by omega) (by omega)]
      fin
    · have ⟨e1, e2⟩ := mod_div_of_lt (x := o + i + r) (B := max + 1) (by omega)
      fin
  · intro max h1 h2 ho hi
    unfold addDigit
    lim; cB .add; lim; cB .add; lim; kU 32; lim
    split
    · have ⟨e1, e2⟩ := mod_div_of_ge (x := o + i + r) (B := max + 1) (by omega) (by omega)
      cB .add; lim; cB .mod; lim
      rw [emod_of_ge (x := (o : Int) + i + r) (B := (max : Int) + 1) (by omega) (by omega)]
      fin
    · have ⟨e1, e2⟩ := mod_div_of_lt (x := o + i + r) (B := max + 1) (by omega)
      fin
  · intro max h1 h2 ho hi
    unfold addDigit
    lim; cB .add; lim; cB .add; lim; kU 64; lim
    split
    · have ⟨e1, e2⟩ := mod_div_of_ge (x := o + i + r) (B := max + 1) (by omega) (by omega)
      cB .add; lim; cB .mod; lim
      rw [emod_of_ge (x := (o : Int) + i + r) (B := (max : Int) + 1) (by omega) (by omega)]
      fin
    · have ⟨e1, e2⟩ := mod_div_of_lt (x := o + i + r) (B := max + 1) (by omega)
      fin


/-- Difference of two digits and a borrow. -/
theorem subDigit_eq {L : Limits} (h : Supported L) {o i r : Nat}
    (ho : o < L.base) (hi : i < L.base) (hr : r ≤ 1) :
    subDigit L o (L.dbl i) (L.dbl r) =
      .ok (if o < i + r then o + L.base - i - r else o - i - r, L.dbl (if o < i + r then 1 else 0)) := by
  revert ho hi
  refine supported_cases (P := fun L => o < L.base → i < L.base →
    subDigit L o (L.dbl i) (L.dbl r) =
      .ok (if o < i + r then o + L.base - i - r else o - i - r, L.dbl (if o < i + r then 1 else 0))) h
    ?_ ?_ ?_ ?_ ?_ ?_ ?_ ?_ ?_ ?_
  · intro ho hi
    unfold subDigit
    lim; cI .sub; lim; cI .sub; lim; kI; lim
    split
    · cI .add; lim; cI .add; lim
      rw [if_pos (by omega), if_pos (by omega)]
      fin
    · rw [if_neg (by omega), if_neg (by omega)]
      fin
  · intro ho hi
    unfold subDigit
    lim; cUu 32 .sub; lim; cUu 32 .sub; lim; kU 32; lim
    split
    · cUu 32 .add; lim; cUu 32 .add; lim
      rw [if_pos (by omega), if_pos (by omega)]
      fin
    · rw [if_neg (by omega), if_neg (by omega)]
      fin
  · intro ho hi
    unfold subDigit
    lim; cUu 64 .sub; lim; cUu 64 .sub; lim; kU 64; lim
    split
    · cUu 64 .add; lim; cUu 64 .add; lim
      rw [if_pos (by omega), if_pos (by omega)]
      fin
    · rw [if_neg (by omega), if_neg (by omega)]
      fin
  · intro ho hi
    unfold subDigit
    lim; cUu 32 .sub; lim; cUu 32 .sub; lim; kU 32; lim
    split
    · cUu 32 .add; lim; cUu 32 .add; lim
      rw [if_pos (by omega), if_pos (by omega)]
      fin
    · rw [if_neg (by omega), if_neg (by omega)]
      fin
  · intro ho hi
    unfold subDigit
    lim; cUu 64 .sub; lim; cUu 64 .sub; lim; kU 64; lim
    split
    · cUu 64 .add; lim; cUu 64 .add; lim
      rw [if_pos (by omega), if_pos (by omega)]
      fin
    · rw [if_neg (by omega), if_neg (by omega)]
      fin
  · intro ho hi
    unfold subDigit
    lim; cUu 64 .sub; lim; cUu 64 .sub; lim; kU 64; lim
    split
    · cUu 64 .add; lim; cUu 64 .add; lim
      rw [if_pos (by omega), if_pos (by omega)]
      fin
    · rw [if_neg (by omega), if_neg (by omega)]
      fin
  · intro max h1 h2 ho hi
    unfold subDigit
    lim; cB .sub; lim; cB .sub; lim; kI; lim
    split
    · cB .add; lim; cB .add; lim
      rw [if_pos (by omega), if_pos (by omega)]
      fin
    · rw [if_neg (by omega), if_neg (by omega)]
      fin
  · intro max h1 h2 ho hi
    unfold subDigit
    lim; cB .sub; lim; cB .sub; lim; kI; lim
    split
    · cB .add; lim; cB .add; lim
      rw [if_pos (by omega), if_pos (by omega)]
      fin
    · rw [if_neg (by omega), if_neg (by omega)]
      fin
  · intro max h1 h2 ho hi
    unfold subDigit
    lim; cB .sub; lim; cB .sub; lim; kU 32; lim
    split
    · cB .add; lim; cB .add; lim
      rw [if_pos (by omega), if_pos (by omega)]
      fin
    · rw [if_neg (by omega), if_neg (by omega)]
      fin
  · intro max h1 h2 ho hi
    unfold subDigit
    lim; cB .sub; lim; cB .sub; lim; kU 64; lim
    split
    · cB .add; lim; cB .add; lim
      rw [if_pos (by omega), if_pos (by omega)]
      fin
    · rw [if_neg (by omega), if_neg (by omega)]
      fin

theorem custom_cases {P : Limits → Prop} {L : Limits} (h : Custom L)
    (h4 : ∀ max, 1 ≤ max → 2 * max + 1 < 256 → P (.custom 8 max))
    (h5 : ∀ max, 1 ≤ max → 2 * max + 1 < 65536 → P (.custom 16 max))
    (h6 : ∀ max, 1 ≤ max → 2 * max + 1 < 4294967296 → P (.custom 32 max))
    (h7 : ∀ max, 1 ≤ max → 2 * max + 1 < 18446744073709551616 → P (.custom 64 max)) : P L := by
  obtain ⟨w, max, hw, h1', h2', rfl⟩ := h
  rcases hw with rfl | rfl | rfl | rfl
  · exact h4 max h1' h2'
  · exact h5 max h1' h2'
  · exact h6 max h1' h2'
  · exact h7 max h1' h2'

/-- Doubling of a digit plus a carry, in a custom base. -/
theorem shlDigit_eq {L : Limits} (h : Custom L) {d c : Nat} (hd : d < L.base) (hc : c ≤ 1) :
    shlDigit L d (L.sgl c) = .ok ((2 * d + c) % L.base, L.sgl ((2 * d + c) / L.base)) := by
  revert hd
  refine custom_cases (P := fun L => d < L.base →
    shlDigit L d (L.sgl c) = .ok ((2 * d + c) % L.base, L.sgl ((2 * d + c) / L.base))) h
    ?_ ?_ ?_ ?_
  · intro max h1 h2 hd
    unfold shlDigit divBaseLimit
    lim; cUu 64 .add; lim; cB .mul; lim; cB .add; lim; kI; lim
    cB .mod; lim
    split
    · have ⟨e1, e2⟩ := mod_div_of_ge (x := 2 * d + c) (B := max + 1) (by omega) (by omega)
      rw [emod_of_ge (x := (d : Int) * 2 + c) (B := (max : Int) + 1) (by omega) (by omega)]
      fin
    · have ⟨e1, e2⟩ := mod_div_of_lt (x := 2 * d + c) (B := max + 1) (by omega)
      try simp (disch := omega) only [Int.emod_eq_of_lt]
      fin
  · intro max h1 h2 hd
    unfold shlDigit divBaseLimit
    lim; cUu 64 .add; lim; cB .mul; lim; cB .add; lim; kI; lim
    cB .mod; lim
    split
    · have ⟨e1, e2⟩ := mod_div_of_ge (x := 2 * d + c) (B := max + 1) (by omega) (by omega)
      rw [emod_of_ge (x := (d : Int) * 2 + c) (B := (max : Int) + 1) (by omega) (by omega)]
      fin
    · have ⟨e1, e2⟩ := mod_div_of_lt (x := 2 * d + c) (B := max + 1) (by omega)
      try simp (disch := omega) only [Int.emod_eq_of_lt]
      fin
  · intro max h1 h2 hd
    unfold shlDigit divBaseLimit
    lim; cUu 64 .add; lim; cB .mul; lim; cB .add; lim; kU 32; lim
    cB .mod; lim
    split
    · have ⟨e1, e2⟩ := mod_div_of_ge (x := 2 * d + c) (B := max + 1) (by omega) (by omega)
      rw [emod_of_ge (x := (d : Int) * 2 + c) (B := (max : Int) + 1) (by omega) (by omega)]
      fin
    · have ⟨e1, e2⟩ := mod_div_of_lt (x := 2 * d + c) (B := max + 1) (by omega)
      try simp (disch := omega) only [Int.emod_eq_of_lt]
      fin
  · intro max h1 h2 hd
    unfold shlDigit divBaseLimit
    lim; cUu 64 .add; lim; cB .mul; lim; cB .add; lim; kU 64; lim
    cB .mod; lim
    split
    · have ⟨e1, e2⟩ := mod_div_of_ge (x := 2 * d + c) (B := max + 1) (by omega) (by omega)
      rw [emod_of_ge (x := (d : Int) * 2 + c) (B := (max : Int) + 1) (by omega) (by omega)]
      fin
    · have ⟨e1, e2⟩ := mod_div_of_lt (x := 2 * d + c) (B := max + 1) (by omega)
      try simp (disch := omega) only [Int.emod_eq_of_lt]
      fin

end BN
