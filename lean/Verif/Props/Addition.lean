import Verif.Lemmas.Samples
import Verif.Lemmas.Signed
import Verif.Props.Compare
/-
C09–C14, C21: addition.
-/
namespace BN

/-- The only operand pair on which `+=` of well-formed numbers goes wrong: two digit-less zeros of
opposite sign. -/
def EmptyOpposite (a b : Bignum) : Prop := a.desc ≠ b.desc ∧ a.digits = [] ∧ b.digits = []

theorem toInt_of_signed {L : Limits} {b : Bignum} (h : Signed b.desc) :
    b.toInt L = if b.desc = .pos then (natOf L.base b.digits : Int) else -(natOf L.base b.digits : Int) := by
  unfold Bignum.toInt Bignum.mag
  rcases h with h | h <;> simp [h]

/-- Same signs: the outcome, with its iteration bound. -/
theorem addAssign_same_ok {L : Limits} (hL : Supported L) {env : Env} (hm : env.Ample) {a : Bignum} {r : Rhs}
    (hsa : Signed a.desc) (hs : (r.get a).desc = a.desc)
    (ha : InRange L.base a.digits) (hb : InRange L.base (r.get a).digits) {n : Nat}
    (hn : max a.digits.length (r.get a).digits.length < n) :
    a.addAssign L env n r = .ok ⟨a.desc, addFull L.base a.digits (r.get a).digits 0⟩ := by
  rw [addAssign_signed hsa, addTry_same hsa hs,
    absAdd_ok hL env ha (by rw [Rhs.src_get]; exact hb) (by rw [Rhs.src_get]; exact hn) (fun n _ _ => hm n),
    ok_bind, Rhs.src_get]
  rfl

/-- Core statement with an explicit iteration bound: `max(len a, len b) + 1` iterations suffice. -/
theorem add_core {L : Limits} (hL : Supported L) {env : Env} (hm : env.Ample) (hd : env.debug = false)
    {a : Bignum} {r : Rhs} (ha : WF L a) (hb : WF L (r.get a)) (hne : ¬ EmptyOpposite a (r.get a)) :
    ∃ c : Bignum, (∀ n, max a.digits.length (r.get a).digits.length < n → a.addAssign L env n r = .ok c) ∧
      WF L c ∧ c.toInt L = a.toInt L + (r.get a).toInt L := by
  have hB := hL.base_ge
  by_cases hs : (r.get a).desc = a.desc
  · refine ⟨⟨a.desc, addFull L.base a.digits (r.get a).digits 0⟩, ?_, ⟨ha.1, addFull_wf hB ha.2 hb.2⟩, ?_⟩
    · intro n hn
      exact addAssign_same_ok hL hm ha.1 hs ha.2.1 hb.2.1 hn
    · rw [toInt_of_signed ha.1, toInt_of_signed hb.1, toInt_of_signed (b := ⟨a.desc, addFull L.base a.digits (r.get a).digits 0⟩) ha.1, hs]
      simp only [addFull_natOf hB ha.2.1 hb.2.1 (Nat.zero_le 1)]
      split <;> push_cast <;> ring
  · have hne' : ¬ (a.digits = [] ∧ (r.get a).digits = []) := fun h => hne ⟨fun h' => hs h'.symm, h⟩
    obtain ⟨g, d, he, hr, hz, hg1, hg2, hg3⟩ := magDiff_ok hL env hd (fuel := max a.digits.length (r.get a).digits.length + 1)
      (r.get a).desc ha.2 hb.2 hne' (by omega) (hm _)
    refine ⟨⟨if g then a.desc else (r.get a).desc, d⟩, ?_, ?_, ?_⟩
    · intro n hn
      obtain ⟨g', d', he', hr', hz', hg1', hg2', hg3'⟩ := magDiff_ok hL env hd (fuel := n)
        (r.get a).desc ha.2 hb.2 hne' hn (hm _)
      have hgg : g' = g := by rw [Bool.eq_iff_iff, hg3, hg3']
      subst hgg
      have hdd : d' = d := by
        apply natOf_unique (B := L.base) (by omega) hr' hr hz' hz
        cases hgv : g'
        · rw [(hg2 hgv).2, (hg2' hgv).2]
        · rw [(hg1 hgv).2, (hg1' hgv).2]
      subst hdd
      rw [addAssign_signed ha.1, addTry_opp ha.1 hb.1 hs, he']; rfl
    · refine ⟨?_, hr, .inl hz⟩
      cases g
      · exact hb.1
      · exact ha.1
    · have hgs : Signed (if g then a.desc else (r.get a).desc) := by
        cases g
        · exact hb.1
        · exact ha.1
      rw [toInt_of_signed ha.1, toInt_of_signed hb.1, toInt_of_signed hgs]
      cases hgv : g
      · obtain ⟨h1, h2⟩ := hg2 hgv
        rcases ha.1 with h3 | h3 <;> rcases hb.1 with h4 | h4 <;> simp only [h3, h4] at hs ⊢ <;> simp at hs ⊢ <;> omega
      · obtain ⟨h1, h2⟩ := hg1 hgv
        rcases ha.1 with h3 | h3 <;> rcases hb.1 with h4 | h4 <;> simp only [h3, h4] at hs ⊢ <;> simp at hs ⊢ <;> omega

/-! ### C09, C11 (for +=) -/

/-- Exact addition. For every supported digit type, all well-formed signed numbers (either spelling of
zero), except two digit-less zeros of opposite sign: `a += b` terminates normally, the result denotes
`a + b` and is well formed. Covers `a += a` (`r = .self`). -/
theorem C09_add_exact {L : Limits} (hL : Supported L) {env : Env} (hm : env.Ample) (hd : env.debug = false)
    {a : Bignum} {r : Rhs} (ha : WF L a) (hb : WF L (r.get a)) (hne : ¬ EmptyOpposite a (r.get a)) :
    ∃ c : Bignum, Evaluates (fun n => a.addAssign L env n r) (.ok c) ∧ WF L c ∧
      c.toInt L = a.toInt L + (r.get a).toInt L := by
  obtain ⟨c, h1, h2, h3⟩ := add_core hL hm hd ha hb hne
  exact ⟨c, ⟨_, fun n hn => h1 n hn⟩, h2, h3⟩

example := C09_add_exact (L := .base10) (r := .other Sample.m23) (a := Sample.n199) (.inr Sample.base10) Sample.ample rfl
  (by sample) (by sample) (by simp [EmptyOpposite, Rhs.get])

theorem releaseEnv_ample : releaseEnv.Ample := fun _ => rfl

/-- Digits need not be normalised when the signs agree. -/
theorem C09_add_same_sign {L : Limits} (hL : Supported L) {env : Env} (hm : env.Ample)
    {a : Bignum} {r : Rhs} (hsa : Signed a.desc) (hs : (r.get a).desc = a.desc)
    (ha : InRange L.base a.digits) (hb : InRange L.base (r.get a).digits) :
    ∃ c : Bignum, Evaluates (fun n => a.addAssign L env n r) (.ok c) ∧ c.desc = a.desc ∧ InRange L.base c.digits ∧
      c.toInt L = a.toInt L + (r.get a).toInt L := by
  have hB := hL.base_ge
  refine ⟨⟨a.desc, addFull L.base a.digits (r.get a).digits 0⟩,
    ⟨max a.digits.length (r.get a).digits.length + 1, fun n hn => ?_⟩, rfl, addFull_inRange hB ha hb (by omega), ?_⟩
  · exact addAssign_same_ok hL hm hsa hs ha hb (by omega)
  · rw [toInt_of_signed hsa, toInt_of_signed (b := r.get a) (by rw [hs]; exact hsa), toInt_of_signed (b := ⟨a.desc, addFull L.base a.digits (r.get a).digits 0⟩) hsa, hs]
    simp only [addFull_natOf hB ha hb (Nat.zero_le 1)]
    split <;> push_cast <;> ring

/-- Sanity of the hypotheses: a mixed-sign pair over the 32-bit native digits and one in base 10. -/
example : ∃ (a b : Bignum), WF .highp a ∧ WF .highp b ∧ ¬ EmptyOpposite a b ∧
    a.toInt .highp = 4294967295 ∧ b.toInt .highp = -4294967297 :=
  ⟨⟨.pos, [4294967295]⟩, ⟨.neg, [1, 1]⟩, by
    simp [WF, Signed, WFDigits, InRange, NoLeadingZero, Limits.base, Limits.highp, EmptyOpposite, Bignum.toInt,
      Bignum.mag, natOf]⟩
example : Supported .base10 := .inr ⟨32, 9, by norm_num, by norm_num, by norm_num, rfl⟩
example : (⟨.pos, [9, 9]⟩ : Bignum).addAssign .base10 releaseEnv 10 (.other ⟨.pos, [1]⟩) = .ok ⟨.pos, [0, 0, 1]⟩ := by
  decide +kernel

/-! ### C10 -/

/-- `+=` of two well-formed numbers has undefined behaviour exactly for two digit-less zeros of opposite sign. -/
theorem C10_add_ub_iff {L : Limits} (hL : Supported L) {env : Env} (hm : env.Ample) (hd : env.debug = false)
    {a : Bignum} {r : Rhs} (ha : WF L a) (hb : WF L (r.get a)) :
    (∃ k, Evaluates (fun n => a.addAssign L env n r) (.ub k)) ↔ EmptyOpposite a (r.get a) := by
  constructor
  · rintro ⟨k, n₀, hk⟩
    by_contra hne
    obtain ⟨c, h1, -, -⟩ := add_core hL hm hd ha hb hne
    have e1 := hk (max n₀ (max a.digits.length (r.get a).digits.length + 1)) (by omega)
    simp only at e1
    rw [h1 _ (by omega)] at e1
    cases e1
  · rintro ⟨h1, h2, h3⟩
    refine ⟨.outOfBounds, 1, fun n hn => ?_⟩
    show a.addAssign L env n r = _
    rw [addAssign_signed ha.1, addTry_opp ha.1 hb.1 (fun h => h1 h.symm), magDiff_ub hL env _ h2 h3 (by omega)]
    rfl

example := C10_add_ub_iff (L := .base10) (r := .other Sample.m23) (a := Sample.n199) (.inr Sample.base10) Sample.ample rfl
  (by sample) (by sample)

/-- The undefined behaviour happens in every build and environment. -/
theorem C10_add_ub {L : Limits} (hL : Supported L) (env : Env) {a b : Bignum} (ha : Signed a.desc) (hb : Signed b.desc)
    (h : EmptyOpposite a b) : Evaluates (fun n => a.addAssign L env n (.other b)) (.ub .outOfBounds) := by
  refine ⟨1, fun n hn => ?_⟩
  show a.addAssign L env n (.other b) = _
  rw [addAssign_signed ha, addTry_opp (r := .other b) ha hb (fun e => h.1 e.symm), magDiff_ub (r := .other b) hL env _ h.2.1 h.2.2 (by omega)]
  rfl

example : EmptyOpposite ⟨.pos, []⟩ ⟨.neg, []⟩ ∧ WF .medp ⟨.pos, []⟩ ∧ WF .medp ⟨.neg, []⟩ := by
  simp [EmptyOpposite, WF, Signed, WFDigits, InRange, NoLeadingZero]

/-! ### C12 -/

theorem copy_ok {env : Env} (hm : env.Ample) (a : Bignum) : a.copy env = .ok a := by
  unfold Bignum.copy Vec.copy
  by_cases h : a.digits = []
  · cases a; simp_all [ok_bind]
  · cases a; simp_all [ok_bind, hm _]

/-- `operator+` gives what a copy followed by `+=` gives. -/
theorem C12_add_is_copy_then_assign {L : Limits} {env : Env} (hm : env.Ample) (n : Nat) (a b c : Bignum) :
    a.add L env n b = .ok c ↔ a.addAssign L env n (.other b) = .ok c := by
  unfold Bignum.add Bignum.viaCopy
  rw [copy_ok hm, ok_bind]
  cases a.addAssign L env n (.other b) <;> simp

example := C12_add_is_copy_then_assign (L := .base10) Sample.ample 9 Sample.n199 Sample.m23

theorem C12_add_exact {L : Limits} (hL : Supported L) {env : Env} (hm : env.Ample) (hd : env.debug = false)
    {a b : Bignum} (ha : WF L a) (hb : WF L b) (hne : ¬ EmptyOpposite a b) :
    ∃ c : Bignum, Evaluates (fun n => a.add L env n b) (.ok c) ∧ WF L c ∧ c.toInt L = a.toInt L + b.toInt L := by
  obtain ⟨c, ⟨n₀, h1⟩, h2, h3⟩ := C09_add_exact hL hm hd (r := .other b) ha hb hne
  exact ⟨c, ⟨n₀, fun n hn => (C12_add_is_copy_then_assign hm n a b c).2 (h1 n hn)⟩, h2, h3⟩

example := C12_add_exact (L := .base10) (a := Sample.n199) (b := Sample.m23) (.inr Sample.base10) Sample.ample rfl
  (by sample) (by sample) (by simp [EmptyOpposite])

/-- Commutativity. -/
theorem C12_add_comm {L : Limits} (hL : Supported L) {env : Env} (hm : env.Ample) (hd : env.debug = false)
    {a b : Bignum} (ha : WF L a) (hb : WF L b) (hne : ¬ EmptyOpposite a b) :
    ∃ c d : Bignum, Evaluates (fun n => a.add L env n b) (.ok c) ∧ Evaluates (fun n => b.add L env n a) (.ok d) ∧
      c.toInt L = d.toInt L := by
  obtain ⟨c, h1, -, h3⟩ := C12_add_exact hL hm hd ha hb hne
  obtain ⟨d, h4, -, h6⟩ := C12_add_exact hL hm hd hb ha (fun ⟨x, y, z⟩ => hne ⟨fun h => x h.symm, z, y⟩)
  exact ⟨c, d, h1, h4, by rw [h3, h6]; ring⟩

example := C12_add_comm (L := .base10) (a := Sample.n199) (b := Sample.m23) (.inr Sample.base10) Sample.ample rfl
  (by sample) (by sample) (by simp [EmptyOpposite])

/-- Same-sign addition is commutative on the nose: both orders give the identical object. -/
theorem C12_add_comm_same_sign {L : Limits} (hL : Supported L) {env : Env} (hm : env.Ample)
    {a b : Bignum} (hsa : Signed a.desc) (hs : b.desc = a.desc)
    (ha : InRange L.base a.digits) (hb : InRange L.base b.digits) :
    ∃ c : Bignum, Evaluates (fun n => a.add L env n b) (.ok c) ∧ Evaluates (fun n => b.add L env n a) (.ok c) := by
  refine ⟨⟨a.desc, addFull L.base a.digits b.digits 0⟩, ⟨max a.digits.length b.digits.length + 1, fun n hn => ?_⟩,
    ⟨max a.digits.length b.digits.length + 1, fun n hn => ?_⟩⟩
  · show a.add L env n b = _
    rw [C12_add_is_copy_then_assign hm]
    exact addAssign_same_ok (r := .other b) hL hm hsa hs ha hb (by show max _ b.digits.length < n; omega)
  · show b.add L env n a = _
    rw [C12_add_is_copy_then_assign hm,
      addAssign_same_ok (r := .other a) hL hm (by rw [hs]; exact hsa) hs.symm hb ha (by show max _ a.digits.length < n; omega), hs]
    have : addFull L.base b.digits a.digits 0 = addFull L.base a.digits b.digits 0 := by
      unfold addFull; rw [addRest_comm]; simp only [and_comm (a := b.digits = [])]
    exact congrArg (fun d => Out.ok ⟨a.desc, d⟩) this

example := C12_add_comm_same_sign (L := .base10) (a := Sample.n199) (b := ⟨.pos, [3, 0]⟩) (.inr Sample.base10) Sample.ample
  (by sample) rfl (by sample) (by sample)

/-- Associativity, for operands that are not digit-less zeros. -/
theorem C12_add_assoc {L : Limits} (hL : Supported L) {env : Env} (hm : env.Ample) (hd : env.debug = false)
    {a b c : Bignum} (ha : WF L a) (hb : WF L b) (hc : WF L c)
    (ha0 : a.digits ≠ []) (hb0 : b.digits ≠ []) (hc0 : c.digits ≠ []) :
    ∃ ab bc x y : Bignum, Evaluates (fun n => a.add L env n b) (.ok ab) ∧ Evaluates (fun n => ab.add L env n c) (.ok x) ∧
      Evaluates (fun n => b.add L env n c) (.ok bc) ∧ Evaluates (fun n => a.add L env n bc) (.ok y) ∧
      x.toInt L = a.toInt L + b.toInt L + c.toInt L ∧ y.toInt L = x.toInt L := by
  obtain ⟨ab, h1, h2, h3⟩ := C12_add_exact hL hm hd ha hb (fun h => ha0 h.2.1)
  obtain ⟨bc, h4, h5, h6⟩ := C12_add_exact hL hm hd hb hc (fun h => hb0 h.2.1)
  obtain ⟨x, h7, h8, h9⟩ := C12_add_exact hL hm hd h2 hc (fun h => hc0 h.2.2)
  obtain ⟨y, h10, h11, h12⟩ := C12_add_exact hL hm hd ha h5 (fun h => ha0 h.2.1)
  exact ⟨ab, bc, x, y, h1, h7, h4, h10, by rw [h9, h3], by rw [h9, h3, h12, h6]; ring⟩

example : ∃ a b c : Bignum, WF .base16 a ∧ WF .base16 b ∧ WF .base16 c ∧ a.digits ≠ [] ∧ b.digits ≠ [] ∧ c.digits ≠ [] ∧
    a.desc ≠ b.desc :=
  ⟨⟨.pos, [15, 3]⟩, ⟨.neg, [1]⟩, ⟨.pos, [0]⟩, by
    simp [WF, Signed, WFDigits, InRange, NoLeadingZero, Limits.base, Limits.base16, Limits.custom]⟩

/-- A sum that is computed at all is right. -/
theorem add_defined {L : Limits} (hL : Supported L) {env : Env} (hm : env.Ample) (hd : env.debug = false)
    {a b c : Bignum} (ha : WF L a) (hb : WF L b) (h : Evaluates (fun n => a.add L env n b) (.ok c)) :
    WF L c ∧ c.toInt L = a.toInt L + b.toInt L := by
  by_cases hne : EmptyOpposite a b
  · obtain ⟨n, hn⟩ := C10_add_ub hL env ha.1 hb.1 hne
    obtain ⟨m, hm'⟩ := h
    have h1 := (C12_add_is_copy_then_assign hm _ a b c).1 (hm' (max n m) (by omega))
    exact absurd ((hn (max n m) (by omega)).symm.trans h1) (by simp)
  · obtain ⟨d, ⟨n, hn⟩, h2, h3⟩ := C12_add_exact hL hm hd ha hb hne
    obtain ⟨m, hm'⟩ := h
    have h1 := (hn (max n m) (by omega)).symm.trans (hm' (max n m) (by omega))
    obtain rfl : d = c := by simpa using h1
    exact ⟨h2, h3⟩

/-- Associativity for all well-formed operands: if the four sums are computed, the two totals are the sum of the three
values. -/
theorem C12_add_assoc_defined {L : Limits} (hL : Supported L) {env : Env} (hm : env.Ample) (hd : env.debug = false)
    {a b c ab bc x y : Bignum} (ha : WF L a) (hb : WF L b) (hc : WF L c)
    (h1 : Evaluates (fun n => a.add L env n b) (.ok ab)) (h2 : Evaluates (fun n => ab.add L env n c) (.ok x))
    (h3 : Evaluates (fun n => b.add L env n c) (.ok bc)) (h4 : Evaluates (fun n => a.add L env n bc) (.ok y)) :
    x.toInt L = a.toInt L + b.toInt L + c.toInt L ∧ y.toInt L = x.toInt L := by
  obtain ⟨w1, e1⟩ := add_defined hL hm hd ha hb h1
  obtain ⟨-, e2⟩ := add_defined hL hm hd w1 hc h2
  obtain ⟨w3, e3⟩ := add_defined hL hm hd hb hc h3
  obtain ⟨-, e4⟩ := add_defined hL hm hd ha w3 h4
  exact ⟨by rw [e2, e1], by rw [e4, e3, e2, e1]; ring⟩

/-- The hypotheses are met by numbers without digits too: the sums of three positive empty zeros are computed. -/
example : ∃ a ab bc x y : Bignum, a.digits = [] ∧ WF .base10 a ∧
    Evaluates (fun n => a.add .base10 releaseEnv n a) (.ok ab) ∧ Evaluates (fun n => ab.add .base10 releaseEnv n a) (.ok x) ∧
    Evaluates (fun n => a.add .base10 releaseEnv n a) (.ok bc) ∧ Evaluates (fun n => a.add .base10 releaseEnv n bc) (.ok y) := by
  have w : WF .base10 ⟨.pos, []⟩ := by sample
  have hL : Supported .base10 := .inr Sample.base10
  obtain ⟨ab, e1, w1, -⟩ := C12_add_exact hL releaseEnv_ample rfl w w (fun h => h.1 rfl)
  have hab : ab.digits ≠ [] := by
    obtain ⟨n, hn⟩ := e1
    have h1 := hn (n + 2) (by omega)
    rw [C12_add_is_copy_then_assign releaseEnv_ample,
      addAssign_same_ok (r := .other ⟨.pos, []⟩) hL releaseEnv_ample (.inl rfl) rfl w.2.1 w.2.1 (by show max 0 0 < n + 2; omega)] at h1
    obtain rfl := (Out.ok.inj h1).symm
    simp [addFull, Rhs.get]
  obtain ⟨x, e2, -, -⟩ := C12_add_exact hL releaseEnv_ample rfl w1 w (fun h => hab h.2.1)
  obtain ⟨y, e4, -, -⟩ := C12_add_exact hL releaseEnv_ample rfl w w1 (fun h => hab h.2.2)
  exact ⟨⟨.pos, []⟩, ab, ab, x, y, rfl, w, e1, e2, e1, e4⟩

/-! ### C13 -/

/-- `a += a` doubles, for every sign and every digit list in range (normalised or not). -/
theorem C13_self_add_doubles {L : Limits} (hL : Supported L) {env : Env} (hm : env.Ample)
    {a : Bignum} (hs : Signed a.desc) (ha : InRange L.base a.digits) :
    ∃ c : Bignum, Evaluates (fun n => a.addAssign L env n .self) (.ok c) ∧ c.desc = a.desc ∧
      c.toInt L = 2 * a.toInt L := by
  obtain ⟨c, h1, h2, -, h3⟩ := C09_add_same_sign hL hm (r := .self) hs rfl ha ha
  exact ⟨c, h1, h2, by rw [h3]; show a.toInt L + a.toInt L = _; ring⟩

example := C13_self_add_doubles (L := .lowp) (a := ⟨.neg, [255, 0, 255]⟩) (.inl .lowp) Sample.ample (by sample) (by sample)

/-- and it is indistinguishable from adding a separate copy. -/
theorem C13_self_add_eq_copy_add {L : Limits} (hL : Supported L) {env : Env} (hm : env.Ample)
    {a : Bignum} (hs : Signed a.desc) (ha : InRange L.base a.digits) :
    ∃ o, Evaluates (fun n => a.addAssign L env n .self) o ∧ Evaluates (fun n => a.addAssign L env n (.other a)) o := by
  refine ⟨.ok ⟨a.desc, addFull L.base a.digits a.digits 0⟩, ⟨a.digits.length + 1, fun n hn => ?_⟩, ⟨a.digits.length + 1, fun n hn => ?_⟩⟩
  · exact addAssign_same_ok (r := .self) hL hm hs rfl ha ha (by show max _ a.digits.length < n; omega)
  · exact addAssign_same_ok (r := .other a) hL hm hs rfl ha ha (by show max _ a.digits.length < n; omega)

example : (⟨.neg, [255, 255]⟩ : Bignum).addAssign .lowp releaseEnv 5 .self = .ok ⟨.neg, [254, 255, 1]⟩ := by
  decide +kernel

/-! ### C14 -/

/-- `for (b : bs) a += b;` -/
def sumInto (L : Limits) (env : Env) (n : Nat) : Bignum → List Bignum → Out
  | a, [] => .ok a
  | a, b :: bs =>
    match a.addAssign L env n (.other b) with
    | .ok c => sumInto L env n c bs
    | o => o

/-- Any history of additions ends in the exact sum: no drift at any prefix. Operands may have mixed signs as
long as they carry at least one digit. -/
theorem C14_accumulate {L : Limits} (hL : Supported L) {env : Env} (hm : env.Ample) (hd : env.debug = false) :
    ∀ (bs : List Bignum) {a : Bignum}, WF L a → (∀ b ∈ bs, WF L b ∧ b.digits ≠ []) →
    ∃ c : Bignum, Evaluates (fun n => sumInto L env n a bs) (.ok c) ∧ WF L c ∧
      c.toInt L = a.toInt L + (bs.map (Bignum.toInt L)).sum
  | [], a, ha, _ => ⟨a, ⟨0, fun _ _ => rfl⟩, ha, by simp⟩
  | b :: bs, a, ha, hbs => by
    obtain ⟨hb, hb0⟩ := hbs b (by simp)
    obtain ⟨c, ⟨n₁, h1⟩, h2, h3⟩ := C09_add_exact hL hm hd (r := .other b) ha hb (fun h => hb0 h.2.2)
    obtain ⟨d, ⟨n₂, h4⟩, h5, h6⟩ := C14_accumulate hL hm hd bs h2 (fun b' h' => hbs b' (by simp [h']))
    refine ⟨d, ⟨max n₁ n₂, fun n hn => ?_⟩, h5, ?_⟩
    · have e1 := h1 n (by omega)
      have e2 := h4 n (by omega)
      simp only at e1 e2
      simp only [sumInto]
      rw [e1]; exact e2
    · rw [h6, h3]; simp only [List.map_cons, List.sum_cons]
      show _ + b.toInt L + _ = _; ring

example := C14_accumulate (L := .base10) (.inr Sample.base10) Sample.ample rfl [Sample.n199, Sample.m23] (a := ⟨.pos, []⟩)
  (by sample) (by sample)

/-- All operands of one sign (digit-less zeros allowed). -/
theorem C14_accumulate_same_sign {L : Limits} (hL : Supported L) {env : Env} (hm : env.Ample) (s : Desc) (hs : Signed s) :
    ∀ (bs : List Bignum) {a : Bignum}, a.desc = s → InRange L.base a.digits →
      (∀ b ∈ bs, b.desc = s ∧ InRange L.base b.digits) →
    ∃ c : Bignum, Evaluates (fun n => sumInto L env n a bs) (.ok c) ∧ c.desc = s ∧ InRange L.base c.digits ∧
      c.toInt L = a.toInt L + (bs.map (Bignum.toInt L)).sum
  | [], a, ha, ha', _ => ⟨a, ⟨0, fun _ _ => rfl⟩, ha, ha', by simp⟩
  | b :: bs, a, ha, ha', hbs => by
    obtain ⟨hb, hb'⟩ := hbs b (by simp)
    obtain ⟨c, ⟨n₁, h1⟩, h2, h2', h3⟩ := C09_add_same_sign hL hm (a := a) (r := .other b) (by rw [ha]; exact hs)
      (by rw [ha]; exact hb) ha' hb'
    obtain ⟨d, ⟨n₂, h4⟩, h5, h5', h6⟩ := C14_accumulate_same_sign hL hm s hs bs (h2.trans ha) h2' (fun b' h' => hbs b' (by simp [h']))
    refine ⟨d, ⟨max n₁ n₂, fun n hn => ?_⟩, h5, h5', ?_⟩
    · have e1 := h1 n (by omega)
      have e2 := h4 n (by omega)
      simp only at e1 e2
      simp only [sumInto]
      rw [e1]; exact e2
    · rw [h6, h3]; simp only [List.map_cons, List.sum_cons]
      show _ + b.toInt L + _ = _; ring

example : sumInto .base10 releaseEnv 9 ⟨.pos, []⟩ [⟨.pos, [9]⟩, ⟨.neg, [3, 1]⟩, ⟨.pos, [4]⟩] = .ok ⟨.neg, []⟩ := by
  decide +kernel

/-! ### C21 -/

/-- Contract of `abs_val_add(out, in)`, also for `in` = `out` and for unnormalised digits. -/
theorem C21_absAdd_contract {L : Limits} (hL : Supported L) {env : Env} (hm : env.Ample) {out : List Nat} {src : Src}
    (ho : InRange L.base out) (hi : InRange L.base (src.get out)) :
    ∃ res, (∀ n, max out.length (src.get out).length < n → absAdd L env n out src = .ok res) ∧
      natOf L.base res = natOf L.base out + natOf L.base (src.get out) ∧ InRange L.base res ∧
      max 1 (max out.length (src.get out).length) ≤ res.length ∧
      res.length ≤ max out.length (src.get out).length + 1 := by
  have hB := hL.base_ge
  have hl := addFull_length hB ho hi (Nat.zero_le 1)
  exact ⟨_, fun n hn => absAdd_ok hL env ho hi hn (fun n _ _ => hm n), by
    rw [addFull_natOf hB ho hi (Nat.zero_le 1)]; omega, addFull_inRange hB ho hi (Nat.zero_le 1), hl.1, by omega⟩

example : ∃ (out : List Nat), InRange Limits.lowp.base out ∧ 2 < out.length ∧
    absAdd .lowp releaseEnv 9 out (.other [1]) = .ok [0, 0, 0, 1] :=
  ⟨[255, 255, 255], by simp [InRange, Limits.base, Limits.lowp], by decide, by decide +kernel⟩

end BN
