import Verif.Model.Locale
import Verif.Props.Format
/-
C132, C133: output under a locale that groups digits.
-/
namespace BN
open Bignum

/-! ### Lemmas -/

theorem insertSep_short {s : Char} {g : List Nat} {t : List Char} (h : ∀ n rest, g = n :: rest → n = 0 ∨ t.length ≤ n) : insertSep s g t = t := by
  unfold insertSep
  cases g with
  | nil => rfl
  | cons n rest => exact if_neg (by have := h n rest rfl; omega)

theorem insertSep_length (s : Char) : ∀ (m : Nat) (g : List Nat) (t : List Char), t.length ≤ m → t.length ≤ (insertSep s g t).length := by
  intro m
  induction m with
  | zero => intro g t h; omega
  | succ m ih =>
    intro g t h
    unfold insertSep
    cases g with
    | nil => exact le_refl _
    | cons n rest =>
      simp only
      split
      · rename_i hn
        have := ih (if rest = [] then [n] else rest) (t.take (t.length - n)) (by simp; omega)
        simp only [List.length_append, List.length_cons, List.length_drop, List.length_take] at this ⊢
        omega
      · exact le_refl _

theorem insertSep_long {s : Char} {n : Nat} {rest : List Nat} {t : List Char} (h0 : 0 < n) (h : n < t.length) :
    t.length < (insertSep s (n :: rest) t).length := by
  unfold insertSep
  simp only [if_pos (And.intro h0 h)]
  have := insertSep_length s _ (if rest = [] then [n] else rest) (t.take (t.length - n)) (le_refl _)
  simp only [List.length_append, List.length_cons, List.length_drop, List.length_take] at this ⊢
  omega

/-- Apart from the separators the text stays as it is. -/
theorem insertSep_filter {s : Char} : ∀ (m : Nat) (g : List Nat) (t : List Char), t.length ≤ m → s ∉ t →
    (insertSep s g t).filter (· ≠ s) = t := by
  intro m
  induction m with
  | zero =>
    intro g t h _
    have : t = [] := List.length_eq_zero_iff.1 (by omega)
    subst this
    rw [insertSep_short (by intros; simp)]
    rfl
  | succ m ih =>
    intro g t h hs
    have hid : ∀ u : List Char, s ∉ u → u.filter (· ≠ s) = u := by
      intro u hu
      rw [List.filter_eq_self]
      intro a ha
      simp only [ne_eq, decide_not, Bool.not_eq_eq_eq_not, Bool.not_true, decide_eq_false_iff_not]
      rintro rfl
      exact hu ha
    unfold insertSep
    cases g with
    | nil => exact hid t hs
    | cons n rest =>
      simp only
      split
      · rw [List.filter_append, ih _ _ (by simp; omega) (fun hm => hs (List.mem_of_mem_take hm)), List.filter_cons_of_neg (by simp),
          hid _ (fun hm => hs (List.mem_of_mem_drop hm)), List.take_append_drop]
      · exact hid t hs

/-- With groups of n digits the separators stand before every n-th digit from the right. -/
theorem insertSep_block {s : Char} {n : Nat} (h0 : 0 < n) (u v : List Char) (hu : u ≠ []) (hv : v.length = n) :
    insertSep s [n] (u ++ v) = insertSep s [n] u ++ s :: v := by
  rw [insertSep]
  have hl : 0 < u.length := List.length_pos_iff.2 hu
  simp only [List.length_append, hv]
  rw [if_pos ⟨h0, by omega⟩]
  simp

theorem putIntL_short {l : Punct} {f : Fmt} {v : Nat} (h : v < f.radix.base) : f.putIntL l v = f.putInt v := by
  have h2 : 2 ≤ f.radix.base := by cases f.radix <;> decide
  unfold Fmt.putIntL Fmt.putInt
  have e : ∀ g s, insertSep s g ((Nat.toDigits f.radix.base v).map f.letter) = (Nat.toDigits f.radix.base v).map f.letter := by
    intro g s
    refine insertSep_short fun n rest _ => ?_
    rw [Nat.toDigits_of_lt_base h]
    simp
    omega
  simp only [e]
  cases f.adjust <;> rfl

theorem putDigitL_fmt (L : Limits) (l : Punct) (f : Fmt) (d : Nat) : (putDigitL L l f d).2 = { f with width := 0 } := by
  unfold putDigitL; split <;> rfl

theorem putDigitsL_eq {L : Limits} {l : Punct} : ∀ {ds : List Nat} {f : Fmt},
    (∀ d ∈ ds, ∀ f' : Fmt, f'.radix = f.radix → putDigitL L l f' d = putDigit L f' d) → putDigitsL L l f ds = putDigits L f ds
  | [], _, _ => rfl
  | d :: ds, f, h => by
    show ((putDigitL L l f d).1 ++ (putDigitsL L l (putDigitL L l f d).2 ds).1, (putDigitsL L l (putDigitL L l f d).2 ds).2) =
      ((putDigit L f d).1 ++ (putDigits L (putDigit L f d).2 ds).1, (putDigits L (putDigit L f d).2 ds).2)
    have e := h d (by simp) f rfl
    rw [e]
    have hr : (putDigit L f d).2.radix = f.radix := by rw [← e, putDigitL_fmt]
    rw [putDigitsL_eq (ds := ds) (f := (putDigit L f d).2) fun x hx f' hf => h x (by simp [hx]) f' (hf.trans hr)]

theorem putL_eq {L : Limits} {l : Punct} {f : Fmt} {b : Bignum}
    (h : ∀ d ∈ b.digits, ∀ f' : Fmt, f'.radix = f.radix → putDigitL L l f' d = putDigit L f' d) : putL L l f b = put L f b := by
  unfold putL put
  have e1 : putDigitsL L l f b.digits.reverse = putDigits L f b.digits.reverse := putDigitsL_eq fun d hd => h d (List.mem_reverse.1 hd)
  have e2 : putDigitsL L l (f.putText ['-']).2 b.digits.reverse = putDigits L (f.putText ['-']).2 b.digits.reverse :=
    putDigitsL_eq fun d hd f' hf => h d (List.mem_reverse.1 hd) f' hf
  cases b.desc <;> simp only [e1, e2]

/-- In the classic locale this is the output of C97 to C99. -/
theorem putL_classic (L : Limits) (f : Fmt) (b : Bignum) : putL L .classic f b = put L f b := by
  refine putL_eq fun d _ f' _ => ?_
  unfold putDigitL putDigit
  split
  · rfl
  · unfold Fmt.putIntL Fmt.putInt
    have : ∀ t, insertSep Punct.classic.sep Punct.classic.grouping t = t := fun t => insertSep_short (by intro _ _ h; cases h)
    simp only [this]
    cases f'.adjust <;> rfl

/-! ### C132 -/

/-- Numbers with 8-bit digits, and numbers whose base is not above the radix of the stream, print alike in every locale, with every
combination of flags; also numbers with leading zeros, infinities and NaN. -/
theorem C132_any_locale {L : Limits} {f : Fmt} (h : L.single.raw.bits = 8 ∨ L.base ≤ radixValue f.radix) {b : Bignum}
    (hb : InRange L.base b.digits) (l l' : Punct) : putL L l f b = putL L l' f b := by
  have key : ∀ l, putL L l f b = put L f b := fun l => by
    refine putL_eq fun d hd f' hf => ?_
    unfold putDigitL putDigit
    split
    · rfl
    · rename_i h8
      refine putIntL_short ?_
      have := hb d hd
      rw [hf, radix_base]
      exact this.trans_le (h.resolve_left h8)
  rw [key, key]

example := C132_any_locale (L := .base10) (f := { width := 9, fill := '*' }) (.inr (by decide)) (b := Sample.n199) (by sample) ⟨[3], '.'⟩ .classic

/-- In every locale the number is followed by the same formatting state. -/
theorem C132_state (L : Limits) (l : Punct) (f : Fmt) (b : Bignum) : (putL L l f b).2 = { f with width := 0 } := by
  have hd : ∀ (ds : List Nat) (f : Fmt), ds ≠ [] → (putDigitsL L l f ds).2 = { f with width := 0 } := by
    intro ds
    induction ds with
    | nil => intro f h; exact absurd rfl h
    | cons d ds ih =>
      intro f _
      unfold putDigitsL
      simp only
      by_cases h0 : ds = []
      · subst h0
        exact putDigitL_fmt L l f d
      · rw [ih _ h0, putDigitL_fmt]
  unfold putL
  cases b.desc <;> try rfl
  · simp only
    split
    · rfl
    · exact hd _ _ (by simpa using ‹¬ b.digits.length = 0›)
  · simp only
    split
    · rfl
    · rw [hd _ _ (by simpa using ‹¬ b.digits.length = 0›)]
      rfl

/-! ### C133 -/

/-- What a built-in integer of value n prints as: sign, and its numeral with the separators of the locale. -/
def groupedNumeral (l : Punct) (f : Fmt) (z : Int) : List Char :=
  (if z < 0 then ['-'] else []) ++ insertSep l.sep l.grouping ((Nat.toDigits (radixValue f.radix) z.natAbs).map (cased f.upper))

/-- A decimal number prints as a built-in integer exactly if it has no separator to show: its numeral fits into the first group, or the locale
does not group. -/
theorem C133_iff_partial {l : Punct} {f : Fmt} (hf : f.radix = .dec) (hw : f.width = 0) (hs : f.showbase = false) {b : Bignum}
    (hb : WF .base10 b) (hn : b.desc = .neg → b.mag .base10 ≠ 0) :
    (putL .base10 l f b).1 = groupedNumeral l f (b.toInt .base10) ↔
      l.grouping.head? = none ∨ l.grouping.head? = some 0 ∨ ∃ n, l.grouping.head? = some n ∧ b.mag .base10 < 10 ^ n := by
  have hr : Limits.base10.base ≤ radixValue f.radix := by rw [hf]; decide
  have e : (putL .base10 l f b).1 = (if b.desc = .neg then ['-'] else []) ++ (Nat.toDigits 10 (b.mag .base10)).map (cased f.upper) := by
    rw [C132_any_locale (.inr hr) hb.2.1 l .classic, putL_classic, C97_numeral (by decide) (by decide) hr hw hs hb]
    rfl
  have hz : (b.toInt .base10).natAbs = b.mag .base10 := by unfold Bignum.toInt; split <;> omega
  have hneg : (b.toInt .base10 < 0) ↔ b.desc = .neg := by
    unfold Bignum.toInt
    constructor
    · intro h; by_contra hd; rw [if_neg hd] at h; omega
    · intro h; rw [if_pos h]; have := hn h; omega
  rw [e]
  unfold groupedNumeral
  rw [hz]
  simp only [hneg, List.append_cancel_left_eq, hf]
  show _ = insertSep l.sep l.grouping ((Nat.toDigits 10 (b.mag .base10)).map (cased f.upper)) ↔ _
  cases hg : l.grouping with
  | nil => simp [insertSep_short]
  | cons n rest =>
    simp only [List.head?_cons, reduceCtorEq, false_or, Option.some.injEq]
    rcases Nat.eq_zero_or_pos n with rfl | h0
    · simp [insertSep_short (s := l.sep) (g := 0 :: rest) (fun n' _ h => .inl (by injection h with h; exact h.symm))]
    · have hlen : (Nat.toDigits 10 (b.mag .base10)).length ≤ n ↔ b.mag .base10 < 10 ^ n := Nat.length_toDigits_le_iff (by omega) h0
      constructor
      · intro h
        refine .inr ⟨n, rfl, hlen.1 ?_⟩
        by_contra hc
        have := insertSep_long (s := l.sep) (rest := rest) h0 (t := (Nat.toDigits 10 (b.mag .base10)).map (cased f.upper)) (by simp; omega)
        rw [← h] at this
        omega
      · rintro (h | ⟨m, rfl, h⟩)
        · omega
        · refine (insertSep_short fun n' _ h' => .inr ?_).symm
          injection h' with h' _
          subst h'
          simpa using hlen.2 h

example := C133_iff_partial (l := ⟨[3], ','⟩) (f := {}) rfl rfl rfl (b := Sample.n199) (by sample) (by decide)

/-- 1234567 of the decimal type on a stream that groups by thousands: no separator, while an `int` prints as 1,234,567. -/
theorem C133_refuted : (putL .base10 ⟨[3], ','⟩ {} ⟨.pos, [7, 6, 5, 4, 3, 2, 1]⟩).1 = "1234567".toList ∧
    groupedNumeral ⟨[3], ','⟩ {} 1234567 = "1,234,567".toList := by
  constructor
  · rw [C132_any_locale (.inr (by decide)) (by simp [InRange, Limits.base]; decide) _ .classic, putL_classic]; decide
  · unfold groupedNumeral
    have : (Nat.toDigits (radixValue ({} : Fmt).radix) (1234567 : Int).natAbs).map (cased ({} : Fmt).upper) = (['1'] ++ ['2', '3', '4']) ++ ['5', '6', '7'] := by decide
    rw [this]
    show [] ++ insertSep ',' [3] _ = _
    rw [insertSep_block (n := 3) (by decide) _ _ (by decide) rfl, insertSep_block (n := 3) (by decide) _ _ (by decide) rfl, insertSep_short (by intro n _ h; cases h; decide)]
    decide

/-- With digits above the radix of the stream (bases above 1000) every digit is grouped for itself. -/
theorem C133_each_digit {L : Limits} (h8 : L.single.raw.bits ≠ 8) (l : Punct) {f : Fmt} (hw : f.width = 0) (hs : f.showbase = false) {b : Bignum}
    (hd : Signed b.desc) (h0 : b.digits ≠ []) :
    (putL L l f b).1 = (if b.desc = .neg then ['-'] else []) ++ (b.digits.reverse.map fun d => groupedNumeral l f d).flatten := by
  have e : ({ f with width := 0 } : Fmt) = f := by cases f; simp_all
  have hdig : ∀ d, putDigitL L l f d = (groupedNumeral l f d, f) := by
    intro d
    unfold putDigitL
    rw [if_neg h8]
    unfold Fmt.putIntL groupedNumeral
    have hp : f.prefixOf d = [] := by simp [Fmt.prefixOf, hs]
    simp only [hp, padding_zero hw, e, radix_base, letter_cased]
    refine Prod.ext ?_ rfl
    simp only [Int.natAbs_natCast, show ¬ (d : Int) < 0 by omega, if_false]
    cases f.adjust <;> simp
  have hds : ∀ ds, putDigitsL L l f ds = ((ds.map fun d => groupedNumeral l f d).flatten, f) := by
    intro ds
    induction ds with
    | nil => rfl
    | cons d ds ih => unfold putDigitsL; simp only [hdig, ih]; rfl
  have hl : ¬ b.digits.length = 0 := by simpa using h0
  have ht : f.putText ['-'] = (['-'], f) := Prod.ext (putText_zero hw _) e
  unfold putL
  rcases hd with h | h
  · simp [h, hl, hds]
  · simp [h, hl, hds, ht]

example := C133_each_digit (L := .medp) (by decide) ⟨[3], ','⟩ (f := {}) rfl rfl (b := ⟨.neg, [12345, 1000]⟩) (.inr rfl) (by decide)

end BN
