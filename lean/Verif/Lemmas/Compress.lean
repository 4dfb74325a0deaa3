import Verif.Model.Compress
import Verif.Props.Padding
import Verif.Props.Multiplication
import Verif.Props.Addition
/-
The client program of tests/compress_test.cpp, step by step.
-/
namespace BN
namespace Compress
open Bignum

theorem wrapI_nat {n : Nat} (h : n < 2147483648) : cInt.wrap (n : Int) = n := wrapI (by omega) (by omega)

theorem patI_nat {n : Nat} (h : n < 2147483648) : cInt.pattern (n : Int) = n := by
  unfold CTy.pattern
  show ((n : Int) % (2 ^ 32)).toNat = n
  omega

theorem or_eq_add {a r n : Nat} (ha : a < 2 ^ n) : a ||| (r * 2 ^ n) = a + r * 2 ^ n := by
  rw [Nat.or_comm, Nat.mul_comm, ← Nat.two_pow_add_eq_or_of_lt ha]; omega

theorem packBit_eq {d r n : Nat} (hn : n < 16) (hd : d < 2 ^ n) (hr : r ≤ 1) : packBit d r n = .ok (d + r * 2 ^ n) := by
  have hp : 2 ^ n ≤ 2 ^ 15 := Nat.pow_le_pow_right (by omega) (by omega)
  have hrn : r * 2 ^ n ≤ 2 ^ 15 := by
    rcases Nat.le_one_iff_eq_zero_or_eq_one.1 hr with h | h <;> subst h <;> simp; exact hp
  have h1 : CVal.bin .shl ⟨cU 16, (r : Int)⟩ ⟨cU 64, (n : Int)⟩ = .ok ⟨cInt, ((r * 2 ^ n : Nat) : Int)⟩ := by
    show (if (n : Int) < 0 ∨ (32 : Int) ≤ n then _ else
      if (r : Int) < 0 ∨ (2 : Int) ^ 32 ≤ r * 2 ^ (n : Int).toNat then _ else
        Except.ok (⟨cInt, cInt.wrap (r * 2 ^ (n : Int).toNat)⟩ : CVal)) = _
    have hc : (r : Int) * 2 ^ (n : Int).toNat = ((r * 2 ^ n : Nat) : Int) := by push_cast; simp
    rw [if_neg (by omega), hc, if_neg (by omega), wrapI_nat (by omega)]
  have h2 : CVal.bin .or ⟨cU 16, (d : Int)⟩ ⟨cInt, ((r * 2 ^ n : Nat) : Int)⟩ = .ok ⟨cInt, ((d + r * 2 ^ n : Nat) : Int)⟩ := by
    show Except.ok (⟨cInt, cInt.wrap (cInt.pattern (cInt.wrap d) ||| cInt.pattern (cInt.wrap ((r * 2 ^ n : Nat) : Int)) : Nat)⟩ : CVal) = _
    rw [wrapI_nat (by omega : d < _), wrapI_nat (by omega : r * 2 ^ n < _), patI_nat (by omega), patI_nat (by omega), or_eq_add hd,
      wrapI_nat (by omega)]
  unfold packBit
  rw [h1, ok_bind, h2, ok_bind]
  have : (cU 16).wrap ((d + r * 2 ^ n : Nat) : Int) = ((d + r * 2 ^ n : Nat) : Int) := wrapU (by omega) (by omega)
  simp only [this]
  rfl

theorem getBit_eq {x n : Nat} (hx : x < 65536) (hn : n < 16) : getBit x n = .ok (x / 2 ^ n % 2) := by
  have hle : x / 2 ^ n ≤ x := Nat.div_le_self _ _
  have h1 : CVal.bin .shr ⟨cInt, (x : Int)⟩ ⟨cU 64, (n : Int)⟩ = .ok ⟨cInt, ((x / 2 ^ n : Nat) : Int)⟩ := by
    show (if (n : Int) < 0 ∨ (32 : Int) ≤ n then _ else
        Except.ok (⟨cInt, cInt.wrap ((x : Int) / 2 ^ (n : Int).toNat)⟩ : CVal)) = _
    have hc : (x : Int) / 2 ^ (n : Int).toNat = ((x / 2 ^ n : Nat) : Int) := by push_cast; simp
    rw [if_neg (by omega), hc, wrapI_nat (by omega)]
  have h2 : CVal.bin .and ⟨cInt, ((x / 2 ^ n : Nat) : Int)⟩ ⟨cInt, 1⟩ = .ok ⟨cInt, ((x / 2 ^ n % 2 : Nat) : Int)⟩ := by
    show Except.ok (⟨cInt, cInt.wrap (cInt.pattern (cInt.wrap ((x / 2 ^ n : Nat) : Int)) &&& cInt.pattern (cInt.wrap ((1 : Nat) : Int)) : Nat)⟩ : CVal) = _
    rw [wrapI_nat (n := x / 2 ^ n) (by omega), wrapI_nat (by omega : 1 < _), patI_nat (n := x / 2 ^ n) (by omega), patI_nat (by omega),
      Nat.and_one_is_mod,
      wrapI_nat (by omega)]
  unfold getBit
  rw [h1, ok_bind, h2, ok_bind]
  have : (cU 16).wrap ((x / 2 ^ n % 2 : Nat) : Int) = ((x / 2 ^ n % 2 : Nat) : Int) := wrapU (by omega) (by omega)
  simp only [this]
  rfl

theorem lowBit_eq {b : Bignum} {d : Nat} {ds : List Nat} (hb : b.digits = d :: ds) (hd : d < 65536) : lowBit b = .ok (d % 2) := by
  unfold lowBit
  rw [hb, rd_eq (by simp), ok_bind]
  have h2 : L.toSingle 2 = ⟨.bni 16, 2⟩ := by decide
  rw [h2]
  show (do let r ← Val.bin .mod ⟨.bni 16, (d : Int)⟩ ⟨.bni 16, 2⟩
           Except.ok (if r.truthy then 1 else 0) : Res Nat) = _
  rw [vbin_bni .mod rfl (by simp [IsWidth]) (by omega) (by omega) (by simp) (by simp [BinOp.NoOverflow]), ok_bind]
  have : BinOp.exact .mod (d : Int) 2 % 2 ^ 16 = ((d % 2 : Nat) : Int) := by
    show (d : Int) % 2 % 2 ^ 16 = _
    omega
  rw [this]
  rcases Nat.mod_two_eq_zero_or_one d with h | h <;> rw [h] <;> rfl

theorem custom256 : Custom L := ⟨16, 255, by decide, by decide, by decide, rfl⟩

theorem ofList_two {env : Env} (hm : env.Ample) : Bignum.ofList env .pos [2] = .ok ⟨.pos, [2]⟩ := by
  simp [ofList, countLeading, Vec.resize, hm 1, ctorLoop, Vec.wr]

theorem ofList_bit {env : Env} (hm : env.Ample) {b : Nat} (hb : b ≤ 1) :
    Bignum.ofList env .pos [b] = .ok ⟨.pos, if b = 0 then [] else [1]⟩ := by
  rcases Nat.le_one_iff_eq_zero_or_eq_one.1 hb with h | h <;> subst h <;>
  simp [ofList, countLeading, Vec.resize, hm 1, ctorLoop, Vec.wr]

theorem cond_eq {s : St} {d : Nat} {ds : List Nat} (hd : s.inNum.digits = d :: ds) (hlt : d < 65536) :
    cond s = .ok (decide (ds ≠ [] ∨ 1 < d)) := by
  unfold cond
  rw [hd]
  cases ds with
  | nil =>
    rw [if_neg (by simp), rd_eq (by simp), ok_bind]
    have h2 : L.toSingle 1 = ⟨.bni 16, 1⟩ := by decide
    rw [h2]
    show Except.ok (Val.cmp .gt ⟨.bni 16, (d : Int)⟩ ⟨.bni 16, 1⟩) = _
    rw [cmp_int .gt (by decide) (by omega) (by omega)]
    congr 1
    simp [CmpOp.eval]
  | cons e es => simp

/-- The first `k` bits of `V` are in `out` (16 per element) and `digit`. -/
structure Packed (V k : Nat) (out : List Nat) (digit bits : Nat) : Prop where
  rng : InRange 65536 out
  len : out.length = k / 16
  val : natOf 65536 out + 65536 ^ (k / 16) * digit = V % 2 ^ k
  dig : digit < 2 ^ (k % 16)
  bit : bits = k % 16

theorem Packed.step {env : Env} (hm : env.Ample) {V k : Nat} {o : Bignum} {digit bits : Nat}
    (h : Packed V k o.digits digit bits) :
    ∃ d o' d' b', packBit digit (V / 2 ^ k % 2) bits = .ok d ∧ flush env o d bits = .ok (o', d', b') ∧
      Packed V (k + 1) o'.digits d' b' := by
  have h2 := Nat.mod_lt k (show 0 < 16 by omega)
  have hr : V / 2 ^ k % 2 ≤ 1 := by omega
  have hb := h.bit
  subst hb
  have hpk := packBit_eq h2 h.dig hr
  refine ⟨digit + V / 2 ^ k % 2 * 2 ^ (k % 16), ?_⟩
  have hval := h.val
  have hk : 2 ^ k = 65536 ^ (k / 16) * 2 ^ (k % 16) := by
    rw [show (65536 : Nat) = 2 ^ 16 by norm_num, ← pow_mul, ← pow_add, Nat.div_add_mod]
  have hv : natOf 65536 o.digits + 65536 ^ (k / 16) * (digit + V / 2 ^ k % 2 * 2 ^ (k % 16)) = V % 2 ^ (k + 1) := by
    rw [Nat.mod_pow_succ, ← hval, Nat.mul_add]
    conv_rhs => rw [show 2 ^ k * (V / 2 ^ k % 2) = 65536 ^ (k / 16) * 2 ^ (k % 16) * (V / 2 ^ k % 2) by rw [← hk]]
    ring
  have hd : digit + V / 2 ^ k % 2 * 2 ^ (k % 16) < 2 ^ (k % 16 + 1) := by
    have := h.dig
    have : V / 2 ^ k % 2 * 2 ^ (k % 16) ≤ 1 * 2 ^ (k % 16) := Nat.mul_le_mul_right _ hr
    rw [pow_succ]; omega
  unfold flush
  by_cases hc : k % 16 + 1 = 16
  · rw [if_pos hc]
    refine ⟨⟨o.desc, o.digits ++ [digit + V / 2 ^ k % 2 * 2 ^ (k % 16)]⟩, 0, 0, hpk, ?_, ?_, ?_, ?_, ?_, ?_⟩
    · simp only [pushBack, Vec.pushBack, hm _, if_true, ok_bind]
    · refine h.rng.append ?_
      intro x hx
      rw [List.mem_singleton.1 hx]
      rw [hc] at hd; exact hd
    · simp only [List.length_append, List.length_singleton, h.len]; omega
    · rw [natOf_append, h.len, ← hv]; simp
    · simp
    · omega
  · rw [if_neg hc]
    refine ⟨o, _, _, hpk, rfl, h.rng, ?_, ?_, ?_, ?_⟩
    · rw [h.len]; omega
    · rw [← hv, show (k + 1) / 16 = k / 16 by omega]
    · rw [show (k + 1) % 16 = k % 16 + 1 by omega]; exact hd
    · omega

theorem base256 : L.base = 256 := rfl

/-- Halving a number of at least three. -/
theorem half {env : Env} (hm : env.Ample) (hd : env.debug = false) {ds : List Nat} (hw : WFDigits 256 ds)
    (h3 : 3 ≤ natOf 256 ds) {fuel : Nat} (hf : natOf 256 ds + 2 ≤ fuel) :
    ∃ c, leave (divAssign L env fuel ⟨.pos, ds⟩ (.other ⟨.pos, [2]⟩)) = .ok ⟨.pos, c⟩ ∧ WFDigits 256 c ∧ c ≠ [] ∧
      natOf 256 c = natOf 256 ds / 2 := by
  have h2 : WFDigits 256 [2] := ⟨by intro x hx; rw [List.mem_singleton.1 hx]; omega, .inl (by simp [NoLeadingZero])⟩
  obtain ⟨⟨cd, c⟩, h1, hwf, hc, hmag, -⟩ := C31_div_exact custom256 hm hd (a := ⟨.pos, ds⟩) (r := .other ⟨.pos, [2]⟩)
    ⟨.inl rfl, hw⟩ ⟨.inl rfl, h2⟩ (by show natOf 256 [2] ≠ 0; decide) (by show natOf 256 ds ≠ 2; omega)
  have h4 : cd = .pos := hc
  subst h4
  have hmag' : natOf 256 c = natOf 256 ds / 2 := hmag
  refine ⟨c, by rw [h1 fuel hf]; rfl, hwf.2, ?_, hmag'⟩
  rintro rfl
  simp at hmag'; omega

theorem half_two {env : Env} {ds : List Nat} (hw : WFDigits 256 ds) (h2 : natOf 256 ds = 2) {fuel : Nat} :
    leave (divAssign L env fuel ⟨.pos, ds⟩ (.other ⟨.pos, [2]⟩)) = .ok ⟨.pos, [0]⟩ := by
  have hw2 : WFDigits 256 [2] := ⟨by intro x hx; rw [List.mem_singleton.1 hx]; omega, .inl (by simp [NoLeadingZero])⟩
  rw [C32_self_division_is_zero custom256.supported (a := ⟨.pos, ds⟩) (r := .other ⟨.pos, [2]⟩) ⟨.inl rfl, hw⟩ ⟨.inl rfl, hw2⟩
    h2 (by show 2 ≤ natOf 256 ds; omega)]
  rfl

theorem cons_of_ne {l : List Nat} (h : l ≠ []) : ∃ d ds, l = d :: ds := List.exists_cons_of_ne_nil h

/-- What the loop condition and the low bit are for a non-empty well-formed number. -/
theorem head_facts {ds : List Nat} {d : Nat} {es : List Nat} (hw : InRange 256 ds) (h : ds = d :: es) :
    d < 65536 ∧ d % 2 = natOf 256 ds % 2 := by
  subst h
  have := hw d (by simp)
  refine ⟨by omega, ?_⟩
  rw [natOf_cons]; omega

theorem cond_true {s : St} {ds : List Nat} (hs : s.inNum.digits = ds) (hw : InRange 256 ds) (h2 : 2 ≤ natOf 256 ds) :
    cond s = .ok true := by
  have hne : ds ≠ [] := by rintro rfl; simp at h2
  obtain ⟨d, es, rfl⟩ := cons_of_ne hne
  rw [cond_eq hs (head_facts hw rfl).1]
  congr 1
  rw [decide_eq_true_eq]
  by_cases he : es = []
  · right; subst he; simp at h2; omega
  · left; exact he

/-- The loop from the second round on. -/
theorem loop {env : Env} (hm : env.Ample) (hd : env.debug = false) {V P : Nat} (hV : V < 2 ^ (P - 1)) {F : Nat}
    (hF : 2 ^ (P + 1) + 2 ≤ F) :
    ∀ (j fuel k : Nat) (s : St), k + j = P → 1 ≤ j → j < fuel → s.inNum.desc = .pos → WFDigits 256 s.inNum.digits →
      natOf 256 s.inNum.digits = (V + 2 ^ P) / 2 ^ k → Packed V k s.outNum.digits s.digit s.numBitsUsed →
      ∃ s', loopWhile cond (body env F ⟨.pos, [2]⟩) fuel s = .ok s' ∧ s'.inNum = ⟨.pos, [0]⟩ ∧
        Packed V P s'.outNum.digits s'.digit s'.numBitsUsed
  | 0, _, _, _, _, h, _, _, _, _, _ => by omega
  | _ + 1, 0, _, _, _, _, h, _, _, _, _ => by omega
  | j + 1, fuel + 1, k, ⟨⟨desc, ds⟩, out, digit, bits⟩, hk, _, hf, hp, hw, hv, hpack => by
    simp only at hp hw hv hpack
    subst hp
    have hP : 2 ^ P = 2 ^ k * 2 ^ (j + 1) := by rw [← pow_add, hk]
    have hdiv : (V + 2 ^ P) / 2 ^ k = V / 2 ^ k + 2 ^ (j + 1) := by
      rw [hP, Nat.add_mul_div_left _ _ (by positivity)]
    have hj1 : 2 ^ (j + 1) = 2 * 2 ^ j := by ring
    have hjp : 1 ≤ 2 ^ j := Nat.one_le_two_pow
    rw [hdiv] at hv
    have hge : 2 ≤ natOf 256 ds := by
      rw [hv, hj1]; exact Nat.le_trans (Nat.mul_le_mul_left 2 hjp) (Nat.le_add_left _ _)
    rw [loopWhile, cond_true rfl hw.1 hge, ok_bind]
    simp only [if_true]
    have hne : ds ≠ [] := by rintro rfl; simp at hge
    obtain ⟨d, es, hds⟩ := cons_of_ne hne
    obtain ⟨hd1, hd2⟩ := head_facts hw.1 hds
    have hbit : d % 2 = V / 2 ^ k % 2 := by rw [hd2, hv]; omega
    obtain ⟨d1, o', d', b', e1, e2, hpack'⟩ := hpack.step hm
    unfold body
    simp only
    rw [lowBit_eq (b := ⟨.pos, ds⟩) hds hd1, ok_bind, hbit, e1, ok_bind, e2, ok_bind]
    simp only
    have hle : natOf 256 ds ≤ 2 ^ (P + 1) := by
      have h1 : V / 2 ^ k ≤ V := Nat.div_le_self _ _
      have h2 : 2 ^ (P - 1) ≤ 2 ^ P := Nat.pow_le_pow_right (by omega) (by omega)
      have h3 : 2 ^ (j + 1) ≤ 2 ^ P := Nat.pow_le_pow_right (by omega) (by omega)
      rw [pow_succ]; omega
    by_cases h2 : natOf 256 ds = 2
    · have hj0 : j = 0 := by
        by_contra hc
        have h4 : 2 ^ 1 ≤ 2 ^ j := Nat.pow_le_pow_right (by omega) (by omega)
        rw [hv, hj1] at h2
        have h5 : 2 * 2 ^ 1 ≤ 2 * 2 ^ j := Nat.mul_le_mul_left 2 h4
        have h6 : 2 * 2 ^ j ≤ V / 2 ^ k + 2 * 2 ^ j := Nat.le_add_left _ _
        omega
      subst hj0
      rw [half_two hw h2, ok_bind, ok_bind]
      obtain ⟨f, rfl⟩ : ∃ f, fuel = f + 1 := ⟨fuel - 1, by omega⟩
      rw [loopWhile.eq_2, cond_eq (s := ⟨⟨.pos, [0]⟩, o', d', b'⟩) (d := 0) (ds := []) rfl (by omega), ok_bind]
      refine ⟨⟨⟨.pos, [0]⟩, o', d', b'⟩, by simp, rfl, ?_⟩
      rw [← hk]; exact hpack'
    · obtain ⟨c, hc, hcw, hcne, hcv⟩ := half hm hd hw (by omega) (fuel := F) (by omega)
      rw [hc, ok_bind, ok_bind]
      have hj0 : 1 ≤ j := by
        by_contra hc
        have hj : j = 0 := by omega
        subst hj
        have : V / 2 ^ k = 0 := Nat.div_eq_of_lt (by rw [show k = P - 1 by omega]; exact hV)
        omega
      exact loop hm hd hV hF j fuel (k + 1) ⟨⟨.pos, c⟩, o', d', b'⟩ (by omega) hj0 (by omega) rfl hcw
        (by simp only; rw [hcv, hv, ← hdiv, Nat.div_div_eq_div_mul, ← pow_succ]) hpack'

theorem charDigit_ascii {c : Nat} (h : c < 128) : charDigit c = c := by
  have h1 : (⟨8, true⟩ : CTy).wrap (c : Int) = c := by
    simp only [CTy.wrap, if_true, Int.bmod_def]
    norm_num
    omega
  unfold charDigit
  rw [h1, show (cU 16).wrap (c : Int) = c from wrapU (by omega) (by omega)]
  rfl

theorem pushChars_ascii {env : Env} (hm : env.Ample) : ∀ (s : List Nat) (b : Bignum), (∀ c ∈ s, c < 128) →
    pushChars env s b = .ok ⟨b.desc, b.digits ++ s⟩
  | [], b, _ => by simp [pushChars]
  | c :: cs, b, h => by
    unfold pushChars
    simp only [pushBack, Vec.pushBack, hm _, if_true, ok_bind]
    rw [pushChars_ascii hm cs _ (fun x hx => h x (by simp [hx])), charDigit_ascii (h c (by simp))]
    simp

/-- ASCII digits leave the top bit free. -/
theorem ascii_lt : ∀ {s : List Nat}, s ≠ [] → (∀ c ∈ s, c < 128) → natOf 256 s < 2 ^ (8 * s.length - 1)
  | [], h, _ => absurd rfl h
  | [c], _, h => by have := h c (by simp); simp; omega
  | c :: d :: ds, _, h => by
    have ih := ascii_lt (s := d :: ds) (by simp) (fun x hx => h x (by simp [hx]))
    have hc := h c (by simp)
    rw [natOf_cons, show 8 * (c :: d :: ds).length - 1 = 8 + (8 * (d :: ds).length - 1) by simp; omega, pow_add]
    omega

theorem bits_of_pow {k m : Nat} (h1 : 2 * 2 ^ k < 2 ^ m) (h2 : 2 ^ m ≤ 2 * 2 ^ (k + 1)) : m = k + 2 := by
  have e1 : 2 * 2 ^ k = 2 ^ (k + 1) := by ring
  have e2 : 2 * 2 ^ (k + 1) = 2 ^ (k + 2) := by ring
  rw [e1] at h1; rw [e2] at h2
  have := (Nat.pow_lt_pow_iff_right (a := 2) (by omega)).1 h1
  have := (Nat.pow_le_pow_iff_right (a := 2) (by omega)).1 h2
  omega

/-- `compress` on ASCII text: the 16-bit units hold the text as one number, one bit more than needed is recorded. -/
theorem compress_ascii {env : Env} (hm : env.Ample) (hd : env.debug = false) {s : List Nat} (hne : s ≠ [])
    (hs : ∀ c ∈ s, c < 128) {F : Nat} (hF : 2 ^ (8 * (s.length + 1) + 1) + 2 ≤ F) :
    ∃ o : Bignum, compress env F s = .ok (o, 8 * (s.length + 1) % 16 + 1) ∧ InRange 65536 o.digits ∧
      o.digits.length = 8 * (s.length + 1) / 16 + 1 ∧ natOf 65536 o.digits = natOf 256 s := by
  have hlen : 0 < s.length := List.length_pos_iff.2 hne
  have hr : InRange 256 s := fun c hc => by have := hs c hc; omega
  have h2 : WFDigits 256 [2] := ⟨by intro x hx; rw [List.mem_singleton.1 hx]; omega, .inl (by simp [NoLeadingZero])⟩
  have hV := ascii_lt hne hs
  have h256 : ∀ m, 256 ^ m = 2 ^ (8 * m) := fun m => by rw [pow_mul]; norm_num
  obtain ⟨⟨cd, c⟩, k, hc, hcw, hcne, hcd, k1, k2, hcv⟩ := C62_div_padded custom256 hm hd (a := ⟨.pos, s⟩) (b := ⟨.pos, [2]⟩)
    (.inl rfl) (.inl rfl) hr ⟨h2.1, by simp [NoLeadingZero], by simp⟩ (by simp) hlen
  have hcd' : cd = .pos := hcd
  subst hcd'
  have hb2 : Bignum.mag L ⟨.pos, [2]⟩ = 2 := by decide
  have hma : Bignum.mag L ⟨.pos, s⟩ = natOf 256 s := rfl
  have hmc : Bignum.mag L ⟨.pos, c⟩ = natOf 256 c := rfl
  rw [hb2, base256, h256] at k1 k2
  have hk := bits_of_pow k1 k2
  simp only at hk
  rw [hb2, hma, hmc, base256, if_neg (by
    have e : 2 * 2 ^ k = 2 ^ (8 * s.length - 1) := by rw [hk, show k + 2 - 1 = k + 1 by omega]; ring
    omega)] at hcv
  simp only at hcv
  rw [h256] at hcv
  rw [base256, h256] at hc
  simp only at hc
  have hpow : 2 ^ (8 * (s.length + 1) + 1) = 2 * 2 ^ (8 * (s.length + 1)) := by ring
  have hV2 : natOf 256 s < 2 ^ (8 * (s.length + 1) - 1) :=
    Nat.lt_of_lt_of_le hV (Nat.pow_le_pow_right (by omega) (by omega))
  have hP0 : Packed (natOf 256 s) 0 [] 0 0 := ⟨by simp [InRange], by simp, by simp [Nat.mod_one], by simp, rfl⟩
  obtain ⟨d1, o', d', b', e1, e2, hpack⟩ := Packed.step hm (o := ⟨.pos, []⟩) hP0
  obtain ⟨x, xs, rfl⟩ := cons_of_ne hne
  obtain ⟨hx1, hx2⟩ := head_facts hr rfl
  have hfl : 8 * ((x :: xs).length + 1) < 2 ^ (8 * ((x :: xs).length + 1)) := Nat.lt_two_pow_self
  obtain ⟨f, rfl⟩ : ∃ f, F = f + 1 := ⟨F - 1, by omega⟩
  obtain ⟨st, hst, hin, hp⟩ := loop hm hd (V := natOf 256 (x :: xs)) (P := 8 * ((x :: xs).length + 1)) hV2 hF
    (8 * ((x :: xs).length + 1) - 1) f 1 ⟨⟨.pos, c⟩, o', d', b'⟩ (by omega) (by omega) (by omega) rfl hcw.2
    (by show natOf 256 c = _; rw [hcv]; rfl) hpack
  have hrun : loopWhile cond (body env (f + 1) ⟨.pos, [2]⟩) (f + 1) ⟨padded ⟨.pos, x :: xs⟩, ⟨.pos, []⟩, 0, 0⟩ = .ok st := by
    rw [loopWhile, cond_eq (d := x) (ds := xs ++ [0]) rfl hx1, ok_bind]
    simp only [ne_eq, List.append_eq_nil_iff, List.cons_ne_self, and_false, not_false_eq_true, true_or, decide_true, if_true]
    unfold body
    simp only
    have hbit : x % 2 = natOf 256 (x :: xs) / 2 ^ 0 % 2 := by rw [hx2]; simp
    rw [lowBit_eq (b := padded ⟨.pos, x :: xs⟩) (ds := xs ++ [0]) rfl hx1, ok_bind, hbit, e1, ok_bind, e2, ok_bind]
    simp only
    rw [hc (f + 1) (by omega)]
    exact hst
  obtain ⟨⟨idesc, idig⟩, out, digit, bits⟩ := st
  simp only [Bignum.mk.injEq] at hin hp
  obtain ⟨rfl, rfl⟩ := hin
  have hP2 := Nat.mod_lt (8 * ((x :: xs).length + 1)) (show 0 < 16 by omega)
  have hpv := hp.val
  have hbits := hp.bit
  rw [Nat.mod_eq_of_lt (Nat.lt_of_lt_of_le hV2 (Nat.pow_le_pow_right (by omega) (by omega)))] at hpv
  have hd16 : digit < 65536 := Nat.lt_of_lt_of_le hp.dig (show 2 ^ _ ≤ 2 ^ 16 from Nat.pow_le_pow_right (by omega) (by omega))
  refine ⟨⟨out.desc, out.digits ++ [digit]⟩, ?_, ?_, ?_, ?_⟩
  · unfold compress
    rw [pushChars_ascii hm _ _ hs, ok_bind, (C62_padding_keeps_value (L := L) hm _).1, ok_bind, ofList_two hm, ok_bind]
    simp only [List.nil_append]
    rw [hrun, ok_bind, lowBit_eq (d := 0) (ds := []) rfl (by omega), ok_bind, hbits]
    rw [hbits] at hp
    rw [packBit_eq hP2 hp.dig (by omega), ok_bind]
    simp only [pushBack, Vec.pushBack, hm _, if_true, ok_bind]
    simp
  · exact hp.rng.append (by intro y hy; rw [List.mem_singleton.1 hy]; exact hd16)
  · simp only [List.length_append, List.length_singleton, hp.len]
  · rw [natOf_append, hp.len, ← hpv]; simp

/-- Doubling. -/
theorem mul_two {F : Type} {o : FloatOps F} (M : Ieee o) {env : Env} (hm : env.Ample) {ds : List Nat} (hw : WFDigits 256 ds)
    (hl : ds.length + 1 ≤ 2 ^ 25) {fuel : Nat} (hf : 32 < fuel) :
    ∃ c, mul o L env fuel ⟨.pos, ds⟩ ⟨.pos, [2]⟩ = .ok ⟨.pos, c⟩ ∧ WFDigits 256 c ∧ natOf 256 c = 2 * natOf 256 ds := by
  have h2 : WFDigits 256 [2] := ⟨by intro x hx; rw [List.mem_singleton.1 hx]; omega, .inl (by simp [NoLeadingZero])⟩
  obtain ⟨⟨d, c⟩, z1, z2, -, z4, z5⟩ := C24_exact_general M (.inr custom256) hm (x := ⟨.pos, ds⟩) (r := .other ⟨.pos, [2]⟩)
    ⟨.inl rfl, hw⟩ ⟨.inl rfl, h2⟩ (K := 25) (D := 255) (N := 1) (c2 := (65025 * 5793 : ℕ)) (by norm_num)
    (by simp [Rhs.get]) (by simpa [Rhs.get] using hl) (by decide) hw.1 h2.1 (by simp [Rhs.get]) (by decide) (by norm_num)
    (by norm_num) (Nat.cast_nonneg _) (by
      have h3 := Nat.mul_le_mul_left (255 ^ 4) (len_mul_le' (p := ds.length) (q := 1) (m := 1) hl (by omega))
      have h4 : (255 ^ 4 * (1 * (1 * 2 ^ 25)) : ℕ) ≤ (65025 * 5793) ^ 2 := by norm_num
      exact_mod_cast Nat.le_trans h3 h4) (by norm_num) (by norm_num [errBound, uro, eta])
  have hdp : d = .pos := z4
  subst hdp
  refine ⟨c, ?_, z2.2, ?_⟩
  · unfold mul viaCopy
    simp only [Bignum.copy, copy_ample hm, ok_bind, z1 fuel hf]
  · have h5 : (natOf 256 c : Int) = natOf 256 ds * natOf 256 [2] := z5
    simp at h5
    omega

/-- Adding a bit. -/
theorem add_bit {env : Env} (hm : env.Ample) {ds : List Nat} (hw : WFDigits 256 ds) {b : Nat} (hb : b ≤ 1) {fuel : Nat}
    (hf : ds.length + 1 < fuel) :
    ∃ c, add L env fuel ⟨.pos, ds⟩ ⟨.pos, if b = 0 then [] else [1]⟩ = .ok ⟨.pos, c⟩ ∧ WFDigits 256 c ∧ c ≠ [] ∧
      natOf 256 c = natOf 256 ds + b := by
  have hbw : WFDigits 256 (if b = 0 then [] else [1]) := by
    split
    · exact ⟨by simp [InRange], .inl (by simp [NoLeadingZero])⟩
    · exact ⟨by intro x hx; rw [List.mem_singleton.1 hx]; omega, .inl (by simp [NoLeadingZero])⟩
  have hbv : natOf 256 (if b = 0 then [] else [1]) = b := by
    split
    · simp; omega
    · simp; omega
  have hbl : (if b = 0 then [] else [1] : List Nat).length ≤ 1 := by split <;> simp
  refine ⟨addFull 256 ds (if b = 0 then [] else [1]) 0, ?_, addFull_wf (by omega) hw hbw, addFull_ne (by omega) hw.1 hbw.1, ?_⟩
  · unfold add viaCopy
    simp only [Bignum.copy, copy_ample hm, ok_bind]
    rw [addAssign_same_ok (.inr custom256) hm (n := fuel) (a := ⟨.pos, ds⟩) (r := .other ⟨.pos, if b = 0 then [] else [1]⟩) (.inl rfl) rfl hw.1
      hbw.1 (by simp only [Rhs.get]; omega)]
    rfl
  · rw [addFull_natOf (by omega) hw.1 hbw.1 (by omega), hbv]; omega

/-- A bit of a number given by 16-bit units. -/
theorem unit_bit : ∀ {w : List Nat} {i b : Nat}, InRange 65536 w → i < w.length → b < 16 →
    w.getD i 0 / 2 ^ b % 2 = natOf 65536 w / 2 ^ (16 * i + b) % 2
  | [], _, _, _, h, _ => by simp at h
  | x :: xs, 0, b, hr, _, hb => by
    have e : 65536 = 2 ^ b * (2 * 2 ^ (15 - b)) := by
      rw [← mul_assoc, ← pow_succ, ← pow_add, show b + 1 + (15 - b) = 16 by omega]; norm_num
    rw [natOf_cons]
    simp only [List.getD_cons_zero, Nat.mul_zero, Nat.zero_add]
    have e2 : x + 65536 * natOf 65536 xs = x + 2 ^ b * (2 * (2 ^ (15 - b) * natOf 65536 xs)) := by
      generalize natOf 65536 xs = y
      rw [e]; ring
    rw [e2, Nat.add_mul_div_left _ _ (by positivity), Nat.add_mul_mod_self_left]
  | x :: xs, i + 1, b, hr, h, hb => by
    have ih := unit_bit (i := i) (b := b) hr.tail (by simpa using h) hb
    have hx := hr.head
    rw [natOf_cons, show 16 * (i + 1) + b = 16 + (16 * i + b) by ring, pow_add, ← Nat.div_div_eq_div_mul]
    have : (x + 65536 * natOf 65536 xs) / 2 ^ 16 = natOf 65536 xs := by omega
    rw [this, ← ih]
    simp

theorem length_le_of_val {N : Nat} (hN : 1 ≤ N) {c : List Nat} (hw : WFDigits 256 c) (hlt : natOf 256 c < 256 ^ N) : c.length ≤ N := by
  rcases hw.2 with h | rfl
  · by_cases h0 : c = []
    · subst h0; simp
    · have h1 := le_natOf_of_noLeadingZero (B := 256) h h0
      by_contra hc
      have : 256 ^ N ≤ 256 ^ (c.length - 1) := Nat.pow_le_pow_right (by omega) (by omega)
      omega
  · simpa using hN

/-- The loop of `decompress` with `t` bits still to come. -/
theorem dloop {F : Type} {o : FloatOps F} (M : Ieee o) {env : Env} (hm : env.Ample) {num : Bignum} (hw : InRange 65536 num.digits)
    {N : Nat} (hN : 1 ≤ N) (hN2 : N + 1 ≤ 2 ^ 25) (hWN : natOf 65536 num.digits < 256 ^ N) {fu : Nat} (hfu : N + 32 < fu) :
    ∀ (t fuel : Nat) (s : Dst), (1 ≤ s.iter ∧ 1 ≤ s.numBitsUsed ∧ s.numBitsUsed ≤ 16 ∧ t = 16 * (s.iter - 1) + s.numBitsUsed) ∨
        (s.iter = 0 ∧ t = 0) → s.iter ≤ num.digits.length → t < fuel → s.outNum.desc = .pos → WFDigits 256 s.outNum.digits →
      natOf 256 s.outNum.digits = natOf 65536 num.digits / 2 ^ t → (t = 0 → s.outNum.digits ≠ []) →
      ∃ s', loopWhile (fun s => .ok (decide (0 < s.iter) && decide (0 < s.numBitsUsed)))
          (dbody o env fu num ⟨.pos, [2]⟩) fuel s = .ok s' ∧
        WFDigits 256 s'.outNum.digits ∧ s'.outNum.digits ≠ [] ∧ natOf 256 s'.outNum.digits = natOf 65536 num.digits
  | 0, 0, _, _, _, h, _, _, _, _ => by omega
  | 0, fuel + 1, s, hi, _, _, _, hwf, hv, h0 => by
    have hi0 : s.iter = 0 := by omega
    refine ⟨s, ?_, hwf, h0 rfl, by simpa using hv⟩
    rw [loopWhile, hi0]
    simp [ok_bind]
  | t + 1, 0, _, _, _, h, _, _, _, _ => by omega
  | t + 1, fuel + 1, ⟨⟨desc, ds⟩, iter, bits⟩, hi, hil, hf, hp, hwf, hv, _ => by
    simp only at hi hil hp hwf hv
    subst hp
    obtain ⟨i1, i2, i3, i4⟩ : 1 ≤ iter ∧ 1 ≤ bits ∧ bits ≤ 16 ∧ t + 1 = 16 * (iter - 1) + bits := by omega
    rw [loopWhile, ok_bind, show (decide (0 < iter) && decide (0 < bits)) = true by simp; omega]
    simp only [if_true]
    have hrd : num.digits.getD (iter - 1) 0 < 65536 := by
      rw [List.getD_eq_getElem _ _ (by omega)]; exact hw _ (List.getElem_mem _)
    have hbit := unit_bit (w := num.digits) (i := iter - 1) (b := bits - 1) hw (by omega) (by omega)
    rw [show 16 * (iter - 1) + (bits - 1) = t by omega] at hbit
    have hb1 : natOf 65536 num.digits / 2 ^ t % 2 ≤ 1 := by omega
    have hlenN : ds.length ≤ N := length_le_of_val hN hwf (by
      rw [hv]; exact Nat.lt_of_le_of_lt (Nat.div_le_self _ _) hWN)
    obtain ⟨p, p1, p2, p3⟩ := mul_two M hm hwf (by omega) (fuel := fu) (by omega)
    have hsplit : 2 * (natOf 65536 num.digits / 2 ^ (t + 1)) + natOf 65536 num.digits / 2 ^ t % 2 = natOf 65536 num.digits / 2 ^ t := by
      rw [pow_succ, ← Nat.div_div_eq_div_mul]; omega
    have hle : natOf 65536 num.digits / 2 ^ t ≤ natOf 65536 num.digits := Nat.div_le_self _ _
    have hplen : p.length ≤ N := length_le_of_val hN p2 (by rw [p3, hv]; omega)
    obtain ⟨c, c1, c2, c3, c4⟩ := add_bit hm p2 hb1 (fuel := fu) (by omega)
    rw [p3, hv, hsplit] at c4
    have hbody : dbody o env fu num ⟨.pos, [2]⟩ ⟨⟨.pos, ds⟩, iter, bits⟩ =
        .ok (if bits - 1 = 0 then ⟨⟨.pos, c⟩, iter - 1, 16⟩ else ⟨⟨.pos, c⟩, iter, bits - 1⟩) := by
      unfold dbody
      simp only
      rw [rd_eq (by omega), ok_bind, ← List.getD_eq_getElem num.digits 0 (by omega), getBit_eq hrd (by omega), ok_bind, hbit, ofList_bit hm hb1, ok_bind, p1, ok_bind, c1, ok_bind]
      split <;> rfl
    rw [hbody, ok_bind]
    split
    · rename_i hb0
      exact dloop M hm hw hN hN2 hWN hfu t fuel _ (by simp only; omega) (by simp only; omega) (by omega) rfl c2 c4 (fun _ => c3)
    · rename_i hb0
      exact dloop M hm hw hN hN2 hWN hfu t fuel _ (by simp only; omega) (by simp only; omega) (by omega) rfl c2 c4 (fun _ => c3)

/-- `decompress` writes the base-256 digits of the number given by the 16-bit units. -/
theorem decompress_value {F : Type} {o : FloatOps F} (M : Ieee o) {env : Env} (hm : env.Ample) {num : Bignum}
    (hw : InRange 65536 num.digits) {N b : Nat} (hN : 1 ≤ N) (hN2 : N + 1 ≤ 2 ^ 25) (hWN : natOf 65536 num.digits < 256 ^ N)
    (hl : 1 ≤ num.digits.length) (hb1 : 1 ≤ b) (hb : b ≤ 16)
    (hlast : natOf 65536 num.digits < 2 ^ (16 * (num.digits.length - 1) + b)) {fuel : Nat} (hfu : N + 32 < fuel)
    (hfu2 : 16 * num.digits.length < fuel) :
    ∃ c, decompress o env fuel num b = .ok c ∧ WFDigits 256 c ∧ c ≠ [] ∧ natOf 256 c = natOf 65536 num.digits := by
  have h0 : Bignum.ofList env .pos [0] = .ok ⟨.pos, []⟩ := by simpa using ofList_bit hm (b := 0) (by omega)
  obtain ⟨⟨⟨d, c⟩, i, bb⟩, h1, h2, h3, h4⟩ := dloop M hm hw hN hN2 hWN hfu (16 * (num.digits.length - 1) + b) fuel
    ⟨⟨.pos, []⟩, num.digits.length, b⟩ (.inl ⟨hl, hb1, hb, rfl⟩) (Nat.le_refl _) (by omega) rfl
    ⟨by simp [InRange], .inl (by simp [NoLeadingZero])⟩ (by rw [Nat.div_eq_of_lt hlast]; rfl) (by omega)
  refine ⟨c, ?_, h2, h3, h4⟩
  unfold decompress
  rw [h0, ok_bind, ofList_two hm, ok_bind, h1, ok_bind]
  congr 1
  simp only
  conv_rhs => rw [← List.map_id c]
  exact List.map_congr_left fun x hx => by rw [Nat.mod_eq_of_lt (h2.1 x hx)]; rfl

end Compress
end BN
