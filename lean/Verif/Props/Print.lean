import Verif.Lemmas.Samples
import Verif.Model.Type
import Verif.Spec
import Verif.Lemmas.NatOf
/-
Streaming (C47, C48).
-/
namespace BN
open Bignum

theorem showDigits_decimal {L : Limits} (h8 : L.single.raw.bits ≠ 8) {ds : List Nat} (h : ∀ d ∈ ds, d < 10) :
    showDigits L ds = ds.reverse.map Nat.digitChar := by
  unfold showDigits
  have : ds.reverse.map (showDigit L) = (ds.reverse.map Nat.digitChar).map fun c => [c] := by
    rw [List.map_map]
    refine List.map_congr_left fun d hd => ?_
    unfold showDigit
    rw [if_neg h8, Nat.toDigits_of_lt_base (h d (List.mem_reverse.1 hd))]
    rfl
  rw [this]
  induction ds.reverse.map Nat.digitChar with
  | nil => rfl
  | cons c cs ih => simp [ih]

theorem toDigits_natOf {B : Nat} (hB : 2 ≤ B) : ∀ {ds : List Nat}, InRange B ds → NoLeadingZero ds → ds ≠ [] →
    Nat.toDigits B (natOf B ds) = ds.reverse.map Nat.digitChar
  | [], _, _, h => absurd rfl h
  | [d], hr, _, _ => by
    rw [show natOf B [d] = d by simp [natOf], Nat.toDigits_of_lt_base (hr d (by simp))]; rfl
  | d :: e :: ds, hr, hz, _ => by
    have hr' : InRange B (e :: ds) := fun x hx => hr x (List.mem_cons_of_mem _ hx)
    have hz' : NoLeadingZero (e :: ds) := by
      unfold NoLeadingZero at hz ⊢
      rwa [List.getLast?_cons_cons] at hz
    have hpos : 0 < natOf B (e :: ds) := by
      rcases Nat.eq_zero_or_pos (natOf B (e :: ds)) with h0 | h0
      · exact absurd ((natOf_eq_zero_iff (by omega) hz').1 h0) (by simp)
      · exact h0
    rw [show natOf B (d :: e :: ds) = B * natOf B (e :: ds) + d by simp [natOf]; ring,
      ← Nat.toDigits_append_toDigits (by omega) hpos (hr d (by simp)), toDigits_natOf hB hr' hz' (by simp),
      Nat.toDigits_of_lt_base (hr d (by simp))]
    simp

/-- Well-formed numbers in any custom base up to ten whose digits are not stored in 8 bits: the text is the sign and the
standard numeral in that base. -/
theorem C47_numeral {L : Limits} (h8 : L.single.raw.bits ≠ 8) (h2 : 2 ≤ L.base) (h10 : L.base ≤ 10) {b : Bignum} (hb : WF L b) :
    toStream L b = (if b.desc = .neg then ['-'] else []) ++ Nat.toDigits L.base (b.mag L) := by
  have hd : b.digits = [] ∨ b.digits ≠ [] := Decidable.em _
  have key : (if b.digits.length = 0 then (if b.desc = .neg then ['-'] else []) ++ ['0']
      else (if b.desc = .neg then ['-'] else []) ++ showDigits L b.digits) =
      (if b.desc = .neg then ['-'] else []) ++ Nat.toDigits L.base (b.mag L) := by
    rcases hd with h0 | h0
    · rw [if_pos (by rw [h0]; rfl)]
      unfold Bignum.mag
      rw [h0, show natOf L.base [] = 0 from rfl, Nat.toDigits_zero]
    · rw [if_neg (by simpa using h0), showDigits_decimal h8 (fun d hd => lt_of_lt_of_le (hb.2.1 d hd) h10)]
      congr 1
      rcases hb.2.2 with hz | hz
      · exact (toDigits_natOf h2 hb.2.1 hz h0).symm
      · unfold Bignum.mag
        rw [hz, show natOf L.base [0] = 0 by simp [natOf], Nat.toDigits_zero]; rfl
  unfold toStream
  rcases hb.1 with e | e
  · rw [e] at key ⊢; exact key
  · rw [e] at key ⊢; exact key

example := C47_numeral (L := .base10) (by decide) (by decide) (by decide) (b := Sample.m23) (by sample)

/-- Base 10: the usual decimal numeral. -/
theorem C47_decimal {b : Bignum} (hb : WF .base10 b) :
    toStream .base10 b = (if b.desc = .neg then ['-'] else []) ++ (toString (b.mag .base10)).toList := by
  rw [C47_numeral (by decide) (by decide) (by decide) hb, show Limits.base10.base = 10 from rfl, ← Nat.toList_repr]
  rfl

example := C47_decimal (b := Sample.m23) (by sample)

/-- Base 8: the usual octal numeral. -/
theorem C47_octal {b : Bignum} (hb : WF .base8 b) :
    toStream .base8 b = (if b.desc = .neg then ['-'] else []) ++ Nat.toDigits 8 (b.mag .base8) :=
  C47_numeral (by decide) (by decide) (by decide) hb

example := C47_octal (b := Sample.m23) (by sample)

theorem dash_not_digit {B n : Nat} (h2 : 2 ≤ B) (h10 : B ≤ 10) {t : List Char} : Nat.toDigits B n ≠ '-' :: t := by
  intro h
  have : ('-' : Char).isDigit := Nat.isDigit_of_mem_toDigits (b := B) (n := n) (by omega) h10 (by rw [h]; simp)
  exact absurd this (by decide)

/-- Hence in these bases the text determines sign and value. -/
theorem C47_text_determines_value {L : Limits} (h8 : L.single.raw.bits ≠ 8) (h2 : 2 ≤ L.base) (h10 : L.base ≤ 10) {x y : Bignum}
    (hx : WF L x) (hy : WF L y) (h : toStream L x = toStream L y) : x.desc = y.desc ∧ x.toInt L = y.toInt L := by
  rw [C47_numeral h8 h2 h10 hx, C47_numeral h8 h2 h10 hy] at h
  have inj : ∀ m n, Nat.toDigits L.base m = Nat.toDigits L.base n → m = n := by
    intro m n e
    rw [← Nat.ofDigitChars_toDigits (b := L.base) (n := m) (by omega) h10, e, Nat.ofDigitChars_toDigits (by omega) h10]
  unfold Bignum.toInt
  rcases hx.1 with ex | ex <;> rcases hy.1 with ey | ey <;> rw [ex, ey] at h ⊢ <;> simp at h
  · exact ⟨rfl, by rw [inj _ _ h]⟩
  · exact absurd h (dash_not_digit h2 h10)
  · exact absurd h.symm (dash_not_digit h2 h10)
  · exact ⟨rfl, by rw [inj _ _ h]⟩

example := C47_text_determines_value (L := .base10) (by decide) (by decide) (by decide) (x := ⟨.neg, []⟩) (y := ⟨.neg, [0]⟩) (by sample)
  (by sample) (by decide)

/-- ... and no number prints like NaN or an infinity. -/
theorem C47_special_text_distinct {L : Limits} (h8 : L.single.raw.bits ≠ 8) (h2 : 2 ≤ L.base) (h10 : L.base ≤ 10) {x y : Bignum}
    (hx : WF L x) (hy : ¬ Signed y.desc) : toStream L x ≠ toStream L y := by
  intro h
  rw [C47_numeral h8 h2 h10 hx] at h
  have dig : ∀ c ∈ Nat.toDigits L.base (x.mag L), c.isDigit := fun c hc => Nat.isDigit_of_mem_toDigits (by omega) h10 hc
  have hI : ¬ ('I' : Char).isDigit := by decide
  have hN : ¬ ('N' : Char).isDigit := by decide
  have hmem : ∀ c ∈ toStream L y, c = '-' ∨ c.isDigit := by
    intro c hc
    rw [← h] at hc
    rcases List.mem_append.1 hc with hc | hc
    · left
      split at hc
      · exact List.mem_singleton.1 hc
      · cases hc
    · exact .inr (dig c hc)
  have hN' : 'N' ∈ toStream L y := by
    unfold toStream
    unfold Signed at hy
    cases e : y.desc <;> simp_all
  rcases hmem _ hN' with h | h
  · exact absurd h (by decide)
  · exact hN h

example : WF .base10 ⟨.neg, [7, 0, 4]⟩ ∧ toStream .base10 ⟨.neg, [7, 0, 4]⟩ = ['-', '4', '0', '7'] := by
  refine ⟨⟨.inr rfl, ?_, .inl ?_⟩, by decide⟩
  · intro d hd; simp at hd; rcases hd with h | h | h <;> rw [h] <;> decide
  · simp [NoLeadingZero]

/-! ### C48 -/

theorem wf_lits {L : Limits} {ds : List Nat} (h1 : ∀ d ∈ ds, d < L.base) (h2 : NoLeadingZero ds) : WF L ⟨.pos, ds⟩ :=
  ⟨.inl rfl, h1, .inl h2⟩

/-- C48 is false in base 16: sixteen and ten both print as "10". -/
theorem C48_refuted_base16 : ∃ x y : Bignum, WF .base16 x ∧ WF .base16 y ∧ toStream .base16 x = toStream .base16 y ∧
    x.toInt .base16 ≠ y.toInt .base16 := by
  refine ⟨⟨.pos, [0, 1]⟩, ⟨.pos, [10]⟩, wf_lits (by decide) (by simp [NoLeadingZero]), wf_lits (by decide) (by simp [NoLeadingZero]),
    by decide, by decide⟩

/-- C48 is false for 16- and 32-bit native digits: the base and ten both print as "10". -/
theorem C48_refuted_native : ∀ L, L = Limits.medp ∨ L = Limits.highp → ∃ x y : Bignum, WF L x ∧ WF L y ∧
    toStream L x = toStream L y ∧ x.toInt L ≠ y.toInt L := by
  rintro L (rfl | rfl)
  · exact ⟨⟨.pos, [0, 1]⟩, ⟨.pos, [10]⟩, wf_lits (by decide) (by simp [NoLeadingZero]), wf_lits (by decide) (by simp [NoLeadingZero]),
      by decide, by decide⟩
  · exact ⟨⟨.pos, [0, 1]⟩, ⟨.pos, [10]⟩, wf_lits (by decide) (by simp [NoLeadingZero]), wf_lits (by decide) (by simp [NoLeadingZero]),
      by decide, by decide⟩

/-- C48 is false for 8-bit native digits, which are written as characters: zero without digits and forty-eight both print as "0". -/
theorem C48_refuted_lowp : ∃ x y : Bignum, WF .lowp x ∧ WF .lowp y ∧ toStream .lowp x = toStream .lowp y ∧
    x.toInt .lowp ≠ y.toInt .lowp := by
  refine ⟨⟨.pos, []⟩, ⟨.pos, [48]⟩, wf_lits (by decide) (by simp [NoLeadingZero]), wf_lits (by decide) (by simp [NoLeadingZero]),
    by decide, by decide⟩

/-- What holds (1): bases up to ten stored in more than 8 bits (bases 8 and 10). -/
theorem C48_small_base_partial {L : Limits} (h8 : L.single.raw.bits ≠ 8) (h2 : 2 ≤ L.base) (h10 : L.base ≤ 10) {x y : Bignum}
    (hx : WF L x) (hy : WF L y) (hne : x.toInt L ≠ y.toInt L) : toStream L x ≠ toStream L y :=
  fun h => hne (C47_text_determines_value h8 h2 h10 hx hy h).2

example := C48_small_base_partial (L := .base10) (by decide) (by decide) (by decide) (x := Sample.n23) (y := Sample.m23) (by sample)
  (by sample) (by sample)

theorem showDigits_bytes {L : Limits} (h8 : L.single.raw.bits = 8) (ds : List Nat) :
    showDigits L ds = ds.reverse.map Char.ofNat := by
  unfold showDigits
  have : ds.reverse.map (showDigit L) = (ds.reverse.map Char.ofNat).map fun c => [c] := by
    rw [List.map_map]
    refine List.map_congr_left fun d _ => ?_
    unfold showDigit
    rw [if_pos h8]; rfl
  rw [this]
  induction ds.reverse.map Char.ofNat with
  | nil => rfl
  | cons c cs ih => simp [ih]

theorem ofNat_inj {m n : Nat} (hm : m < 256) (hn : n < 256) (h : Char.ofNat m = Char.ofNat n) : m = n := by
  have hv : ∀ k, k < 256 → (Char.ofNat k).toNat = k := by decide +kernel
  rw [← hv m hm, h, hv n hn]

theorem map_ofNat_inj : ∀ {a b : List Nat}, (∀ d ∈ a, d < 256) → (∀ d ∈ b, d < 256) → a.map Char.ofNat = b.map Char.ofNat → a = b
  | [], [], _, _, _ => rfl
  | [], _ :: _, _, _, h => by simp at h
  | _ :: _, [], _, _, h => by simp at h
  | x :: xs, y :: ys, ha, hb, h => by
    simp only [List.map_cons, List.cons.injEq] at h
    rw [ofNat_inj (ha x (by simp)) (hb y (by simp)) h.1,
      map_ofNat_inj (fun d hd => ha d (List.mem_cons_of_mem _ hd)) (fun d hd => hb d (List.mem_cons_of_mem _ hd)) h.2]

/-- What holds (2): 8-bit digits in a base of at most forty-five (base 2), where no digit is the character '-' or '0'. -/
theorem C48_bytes_partial {L : Limits} (h8 : L.single.raw.bits = 8) (h45 : L.base ≤ 45) {x y : Bignum}
    (hx : WF L x) (hy : WF L y) (hne : x.toInt L ≠ y.toInt L) : toStream L x ≠ toStream L y := by
  intro h
  have form : ∀ b : Bignum, WF L b → toStream L b = (if b.desc = .neg then ['-'] else []) ++
      (if b.digits = [] then [48] else b.digits.reverse).map Char.ofNat := by
    intro b hb
    unfold toStream
    rw [showDigits_bytes h8]
    rcases hb.1 with e | e <;> by_cases h0 : b.digits = [] <;> simp [e, h0]
  have hr : ∀ b : Bignum, WF L b → ∀ d ∈ (if b.digits = [] then [48] else b.digits.reverse), d < 256 ∧ d ≠ 45 ∧ (d = 48 → b.digits = []) := by
    intro b hb d hd
    split at hd
    · rename_i h0
      rw [List.mem_singleton.1 hd]; exact ⟨by omega, by omega, fun _ => h0⟩
    · have := hb.2.1 d (List.mem_reverse.1 hd)
      exact ⟨by omega, by omega, fun h => by omega⟩
  have dash : ∀ b : Bignum, WF L b → ∀ t, (if b.digits = [] then [48] else b.digits.reverse).map Char.ofNat ≠ '-' :: t := by
    intro b hb t e
    have hm : '-' ∈ (if b.digits = [] then [48] else b.digits.reverse).map Char.ofNat := by rw [e]; simp
    obtain ⟨d, hd, e2⟩ := List.mem_map.1 hm
    exact (hr b hb d hd).2.1 (ofNat_inj (hr b hb d hd).1 (by omega) (e2.trans (by decide : '-' = Char.ofNat 45)))
  have same : ∀ {x y : Bignum}, WF L x → WF L y → (if x.digits = [] then [48] else x.digits.reverse).map Char.ofNat =
      (if y.digits = [] then [48] else y.digits.reverse).map Char.ofNat → x.mag L = y.mag L := by
    intro x y hx hy e
    have e1 := map_ofNat_inj (fun d hd => (hr x hx d hd).1) (fun d hd => (hr y hy d hd).1) e
    unfold Bignum.mag
    by_cases h1 : x.digits = []
    · have : y.digits = [] := (hr y hy 48 (by rw [← e1, if_pos h1]; simp)).2.2 rfl
      rw [h1, this]
    · by_cases h2 : y.digits = []
      · exact absurd ((hr x hx 48 (by rw [e1, if_pos h2]; simp)).2.2 rfl) h1
      · rw [if_neg h1, if_neg h2] at e1
        rw [List.reverse_injective e1]
  rw [form x hx, form y hy] at h
  apply hne
  unfold Bignum.toInt
  rcases hx.1 with ex | ex <;> rcases hy.1 with ey | ey <;> rw [ex, ey] at h ⊢ <;>
    simp only [if_true, List.singleton_append, List.nil_append, reduceCtorEq, if_false, List.cons.injEq, true_and] at h
  · rw [same hx hy h]
  · exact absurd h (dash x hx _)
  · exact absurd h.symm (dash y hy _)
  · rw [same hx hy h]

/-- The hypotheses of the two positive results are met by bases 8, 10 and 2. -/
example : (Limits.base8.single.raw.bits ≠ 8 ∧ 2 ≤ Limits.base8.base ∧ Limits.base8.base ≤ 10) ∧
    (Limits.base10.single.raw.bits ≠ 8 ∧ 2 ≤ Limits.base10.base ∧ Limits.base10.base ≤ 10) ∧
    (Limits.base2.single.raw.bits = 8 ∧ Limits.base2.base ≤ 45) := by decide

end BN
