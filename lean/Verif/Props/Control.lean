import Verif.Lemmas.Samples
import Verif.Model.Control
import Verif.Props.Algebra
import Verif.Props.AnyEnvironment
import Mathlib.Logic.Relation
/-
C127: programs with conditions and loops compute what they compute over the integers, and end exactly when they end there.
-/
namespace BN
open Bignum

/-! ### Conditions over the integers -/

/-- What the comparison operators should say. -/
def Compare.Rel : Compare → Int → Int → Prop
  | .eq, a, b => a = b
  | .ne, a, b => a ≠ b
  | .gt, a, b => b < a
  | .ge, a, b => b ≤ a
  | .lt, a, b => a < b
  | .le, a, b => a ≤ b

instance (k : Compare) (a b : Int) : Decidable (k.Rel a b) := by
  cases k <;> unfold Compare.Rel <;> infer_instance

/-- To base `B`, `x` and `y` are equally long and `x` has a digit greater than that of `y` at the same place. -/
def Mixed (B x y : Nat) : Prop :=
  (Nat.digits B x).length = (Nat.digits B y).length ∧ ∃ i, (Nat.digits B y).getD i 0 < (Nat.digits B x).getD i 0

/-- When a comparison of integers that are not both zero is answered correctly. -/
def Compare.Fine (B : Nat) : Compare → Int → Int → Prop
  | .eq, _, _ => True
  | .ne, _, _ => True
  | .gt, a, b => (0 ≤ a → 0 ≤ b → a ≤ b → ¬ Mixed B a.natAbs b.natAbs) ∧ (a ≤ 0 → b ≤ 0 → a ≠ b)
  | .lt, a, b => (0 ≤ a → 0 ≤ b → b ≤ a → ¬ Mixed B b.natAbs a.natAbs) ∧ (a ≤ 0 → b ≤ 0 → b ≤ a → ¬ Mixed B a.natAbs b.natAbs)
  | .ge, a, b => a ≤ 0 → b ≤ 0 → a ≠ b ∧ (a < b → ¬ Mixed B b.natAbs a.natAbs)
  | .le, a, b => a ≤ 0 → b ≤ 0 → a ≠ b ∧ (b < a → ¬ Mixed B a.natAbs b.natAbs)

/-- The conditions that are allowed in programs. -/
def Compare.Guard (B : Nat) (k : Compare) (a b : Int) : Prop := ¬ (a = 0 ∧ b = 0) ∧ k.Fine B a b

theorem absGt_mixed {B : Nat} (hB : 2 ≤ B) {l m : List Nat} (hl : WFDigits B l) (hm : WFDigits B m)
    (h0 : ¬ (natOf B l = 0 ∧ natOf B m = 0)) :
    ∃ r, absGt l m = .ok r ∧ (r = true ↔ natOf B m < natOf B l ∨ Mixed B (natOf B l) (natOf B m)) := by
  rw [absGt_eq]
  refine ⟨_, rfl, ?_⟩
  rw [decide_eq_true_iff]
  have hdig : ∀ {l : List Nat}, NZ B l → Nat.digits B (natOf B l) = l := fun h =>
    natOf_unique (by omega) (digits_inRange hB _) h.rng (digits_nlz _ _) h.nlz (natOf_digits _ _)
  rcases wf_cases hB hl with ⟨h1, e1⟩ | ⟨h1, e1⟩ <;> rcases wf_cases hB hm with ⟨h2, e2⟩ | ⟨h2, e2⟩
  · exact absurd ⟨e1, e2⟩ h0
  · have hlen := List.length_pos_iff.2 h2.ne
    unfold Mixed
    rw [e1, hdig h2, Nat.digits_zero]
    constructor
    · rintro (h | ⟨h, i, hi, h'⟩)
      · rcases h1 with rfl | rfl <;> simp only [List.length_nil, List.length_singleton] at h <;> omega
      · rcases h1 with rfl | rfl
        · simp at hi
        · rw [show i = 0 by simpa using hi] at h'
          simp at h'
    · rintro (h | ⟨h, -⟩)
      · omega
      · simp at h; omega
  · refine ⟨fun _ => .inl (by omega), fun _ => ?_⟩
    have hlen := List.length_pos_iff.2 h1.ne
    rcases h2 with rfl | rfl
    · exact .inl (by simpa using hlen)
    · by_cases h : l.length = 1
      · obtain ⟨d, rfl⟩ := List.length_eq_one_iff.1 h
        refine .inr ⟨rfl, 0, by simp, ?_⟩
        simp [natOf] at e1
        simpa using Nat.pos_of_ne_zero e1
      · exact .inl (by simp; omega)
  · unfold Mixed
    rw [hdig h1, hdig h2]
    constructor
    · rintro (h | ⟨h, i, -, h'⟩)
      · exact .inl (by
          by_contra hc
          exact absurd (length_le_of_natOf_le hB h2.rng h1.nlz (by omega) : l.length ≤ m.length) (by omega))
      · exact .inr ⟨h, i, h'⟩
    · rintro (h | ⟨h, i, h'⟩)
      · have hle : m.length ≤ l.length := length_le_of_natOf_le hB h1.rng h2.nlz (by omega)
        rcases Nat.lt_or_ge m.length l.length with h3 | h3
        · exact .inl h3
        · exact .inr ⟨by omega, exists_digit_gt h2.rng (by omega) h⟩
      · refine .inr ⟨h, i, ?_, h'⟩
        by_contra hc
        rw [List.getD_eq_default l _ (by omega)] at h'
        omega

theorem absLe_wf {B : Nat} (hB : 2 ≤ B) {l m : List Nat} (hl : WFDigits B l) (hm : WFDigits B m)
    (h0 : ¬ (natOf B l = 0 ∧ natOf B m = 0)) : absLe l m = .ok (decide (natOf B l ≤ natOf B m)) := by
  rw [absLe_eq hl.1 hm.1]
  congr 1
  rw [Bool.eq_iff_iff, decide_eq_true_iff, decide_eq_true_iff]
  rcases wf_cases hB hl with ⟨h1, e1⟩ | ⟨h1, e1⟩ <;> rcases wf_cases hB hm with ⟨h2, e2⟩ | ⟨h2, e2⟩
  · exact absurd ⟨e1, e2⟩ h0
  · have hlen := List.length_pos_iff.2 h2.ne
    refine ⟨fun _ => by omega, fun _ => ?_⟩
    rcases h1 with rfl | rfl
    · exact .inl hlen
    · rcases Nat.lt_or_ge 1 m.length with h | h
      · exact .inl h
      · exact .inr ⟨by simp; omega, by omega⟩
  · have hlen := List.length_pos_iff.2 h1.ne
    refine ⟨?_, fun h => absurd h (by omega)⟩
    rintro (h | h)
    · rcases h2 with rfl | rfl <;> simp only [List.length_nil, List.length_singleton] at h <;> omega
    · omega
  · constructor
    · rintro (h | h)
      · by_contra hc
        exact absurd (length_le_of_natOf_le hB h1.rng h2.nlz (by omega) : m.length ≤ l.length) (by omega)
      · exact h.2
    · intro h
      have := length_le_of_natOf_le hB h2.rng h1.nlz h
      rcases Nat.lt_or_ge l.length m.length with h3 | h3
      · exact .inl h3
      · exact .inr ⟨by omega, h⟩

theorem absGe_absLe {B : Nat} {l m : List Nat} (hl : InRange B l) (hm : InRange B m) : absGe l m = absLe m l := by
  rw [absGe_eq hl hm, absLe_eq hm hl]
  congr 1
  rw [Bool.eq_iff_iff, decide_eq_true_iff, decide_eq_true_iff]
  refine or_congr Iff.rfl (and_congr eq_comm Iff.rfl)

theorem mixed_self (B x : Nat) : ¬ Mixed B x x := fun h => by obtain ⟨-, i, h⟩ := h; omega

theorem mixed_ne_zero {B x y : Nat} (h : Mixed B x y) : x ≠ 0 ∧ y ≠ 0 := by
  have hx : x ≠ 0 := by
    rintro rfl
    obtain ⟨-, i, h⟩ := h
    simp at h
  refine ⟨hx, ?_⟩
  rintro rfl
  have h1 := h.1
  rw [Nat.digits_zero] at h1
  exact hx (Nat.digits_eq_nil_iff_eq_zero.1 (List.length_eq_zero_iff.1 h1))

/-- C127. Exactly which comparisons of well-formed numbers that are not both zero are answered correctly. -/
theorem C127_test_iff {L : Limits} (hB : 2 ≤ L.base) {a b : Bignum} (ha : WF L a) (hb : WF L b)
    (h0 : ¬ (a.toInt L = 0 ∧ b.toInt L = 0)) (k : Compare) :
    ∃ r, k.eval a b = .ok r ∧ ((r = true ↔ k.Rel (a.toInt L) (b.toInt L)) ↔ k.Fine L.base (a.toInt L) (b.toInt L)) := by
  have h0' : ¬ (a.mag L = 0 ∧ b.mag L = 0) := fun h => h0 ⟨toInt_eq_zero.2 h.1, toInt_eq_zero.2 h.2⟩
  have hne : (a.desc = b.desc ∧ a.digits = b.digits) ↔ a.toInt L = b.toInt L := by
    constructor
    · rintro ⟨h1, h2⟩; unfold Bignum.toInt Bignum.mag; rw [h1, h2]
    · intro h
      have : a = b := by
        by_cases ha0 : a.toInt L = 0
        · exact absurd ⟨ha0, h ▸ ha0⟩ h0
        · exact wf_determined hB ha hb ha0 h
      rw [this]; exact ⟨rfl, rfl⟩
  obtain ⟨rg, eg, hg⟩ := absGt_mixed hB ha.2 hb.2 h0'
  obtain ⟨rl, el, hl⟩ := absGt_mixed hB hb.2 ha.2 (fun h => h0' h.symm)
  have ele := absLe_wf hB ha.2 hb.2 h0'
  have ege : absGe a.digits b.digits = _ := (absGe_absLe ha.2.1 hb.2.1).trans (absLe_wf hB hb.2 ha.2 (fun h => h0' h.symm))
  have elt : absLt a.digits b.digits = .ok rl := (absLt_eq _ _).trans el
  change (rg = true ↔ b.mag L < a.mag L ∨ Mixed L.base (a.mag L) (b.mag L)) at hg
  change (rl = true ↔ a.mag L < b.mag L ∨ Mixed L.base (b.mag L) (a.mag L)) at hl
  change _ = Except.ok (decide (a.mag L ≤ b.mag L)) at ele
  change _ = Except.ok (decide (b.mag L ≤ a.mag L)) at ege
  have hP0 := mixed_ne_zero (B := L.base) (x := a.mag L) (y := b.mag L)
  have hQ0 := mixed_ne_zero (B := L.base) (x := b.mag L) (y := a.mag L)
  have hPQ : a.mag L = b.mag L → ¬ Mixed L.base (a.mag L) (b.mag L) ∧ ¬ Mixed L.base (b.mag L) (a.mag L) := by
    intro h; rw [h]; exact ⟨mixed_self _ _, mixed_self _ _⟩
  cases k with
  | eq =>
    obtain ⟨r, h1, h2⟩ := C01_eq_structural a b
    exact ⟨r, h1, iff_of_true (h2.trans hne) trivial⟩
  | ne =>
    obtain ⟨r, h1, h2⟩ := C01_eq_structural a b
    obtain ⟨r', h3, h4⟩ := C01_ne_is_not_eq a b
    rw [h1] at h3
    cases h3
    refine ⟨!r, h4, iff_of_true ?_ trivial⟩
    show (!r) = true ↔ a.toInt L ≠ b.toInt L
    rw [Ne, ← hne, ← h2]
    cases r <;> simp
  | _ =>
    simp only [Compare.eval, Bignum.gt, Bignum.lt, Bignum.ge, Bignum.le, Compare.Fine, Compare.Rel]
    rcases ha.1 with h1 | h1 <;> rcases hb.1 with h2 | h2 <;>
    simp only [h1, h2, reduceCtorEq, and_true, and_false, if_true, if_false, eg, elt, ele, ege] <;>
    refine ⟨_, rfl, ?_⟩ <;>
    simp only [Bignum.toInt, h1, h2, reduceCtorEq, if_true, if_false, Int.natAbs_neg, Int.natAbs_natCast, hg, hl, decide_eq_true_iff,
      Bool.false_eq_true, false_iff, true_iff] <;>
    clear hg hl eg el ele ege elt hne h0 <;>
    generalize Mixed L.base (a.mag L) (b.mag L) = P at * <;>
    generalize Mixed L.base (b.mag L) (a.mag L) = Q at * <;>
    generalize a.mag L = x at * <;>
    generalize b.mag L = y at * <;>
    by_cases hP : P <;> by_cases hQ : Q <;>
    simp only [hP, hQ, or_true, or_false, not_true, not_false_iff, true_implies, imp_true_iff, and_true, iff_true, true_iff, imp_false,
      true_and, and_false] at * <;> omega

example := C127_test_iff (L := .base10) (by decide) (a := Sample.n199) (b := Sample.m23) (by sample) (by sample) (by sample) .gt

/-! ### Programs over the integers -/

/-- One step of a program over integer variables, as long as statements and conditions are allowed ones. -/
def IntFlow (B K : Nat) : List Prog × Vars → List Prog × Vars → Prop :=
  Flow (IntStep B K) fun v k i j r => k.Guard B (v i) (v j) ∧ r = decide (k.Rel (v i) (v j))

/-- From `c` the configuration `d` is reached. -/
abbrev Reaches {α : Type} (R : α → α → Prop) (c d : α) : Prop := Relation.ReflTransGen R c d

/-- The integer program never comes to a statement or condition that is not allowed. -/
def Allowed (B K : Nat) (c : List Prog × Vars) : Prop :=
  ∀ d, Reaches (IntFlow B K) c d → d.1 = [] ∨ ∃ e, IntFlow B K d e

theorem test_eval {L : Limits} (hB : 2 ≤ L.base) {a b : Bignum} (ha : WF L a) (hb : WF L b) {k : Compare}
    (hg : k.Guard L.base (a.toInt L) (b.toInt L)) : k.eval a b = .ok (decide (k.Rel (a.toInt L) (b.toInt L))) := by
  obtain ⟨r, h1, h2⟩ := C127_test_iff hB ha hb hg.1 k
  rw [h1]
  congr 1
  rw [Bool.eq_iff_iff, decide_eq_true_iff]
  exact h2.2 hg.2

section
variable {F : Type} {o : FloatOps F} {L : Limits} {K : Nat} {env : Nat → Env}

theorem flow_step (hL : Custom L) (hK : 1 ≤ K) (hmul : MulExact o L K) (he : ∀ k, (env k).Ample ∧ (env k).debug = false)
    {c d : List Prog × Vars} (h : IntFlow L.base K c d) {s : Running} (hs : Holds L s.1 c.2) :
    ∃ s', ProgStep o L env (c.1, s) (d.1, s') ∧ Holds L s'.1 d.2 := by
  have hB := hL.supported.base_ge
  have htest : ∀ {v : Vars} {k : Compare} {i j : Nat} {r : Bool}, Holds L s.1 v →
      (k.Guard L.base (v i) (v j) ∧ r = decide (k.Rel (v i) (v j))) → s.test k i j r := by
    intro v k i j r hv hg
    have := test_eval hB (hv i).1 (hv j).1 (k := k) (by rw [(hv i).2, (hv j).2]; exact hg.1)
    rw [(hv i).2, (hv j).2, ← hg.2] at this
    exact this
  cases h with
  | skip => exact ⟨s, .skip, hs⟩
  | op h =>
    obtain ⟨s', h1, h2⟩ := int_step (o := o) hL hK hmul (he s.2).1 (he s.2).2 hs h
    exact ⟨(s', s.2 + 1), .op ⟨rfl, h1⟩, h2⟩
  | seq => exact ⟨s, .seq, hs⟩
  | «then» h => exact ⟨s, .then (htest hs h), hs⟩
  | «else» h => exact ⟨s, .else (htest hs h), hs⟩
  | again h => exact ⟨s, .again (htest hs h), hs⟩
  | leave h => exact ⟨s, .leave (htest hs h), hs⟩

/-- C127. Whatever an integer program with allowed statements and conditions reaches, the program over objects reaches, and
its objects hold the values of the variables. -/
theorem C127_simulates (hL : Custom L) (hK : 1 ≤ K) (hmul : MulExact o L K) (he : ∀ k, (env k).Ample ∧ (env k).debug = false)
    {c d : List Prog × Vars} (h : Reaches (IntFlow L.base K) c d) {s : Running} (hs : Holds L s.1 c.2) :
    ∃ s', Reaches (ProgStep o L env) (c.1, s) (d.1, s') ∧ Holds L s'.1 d.2 := by
  induction h with
  | refl => exact ⟨s, .refl, hs⟩
  | tail _ h ih =>
    obtain ⟨s1, h1, hs1⟩ := ih
    obtain ⟨s2, h2, hs2⟩ := flow_step hL hK hmul he h hs1
    exact ⟨s2, h1.tail h2, hs2⟩

theorem flow_det {S : Type} {stmt : S → Op → S → Prop} {test : S → Compare → Nat → Nat → Bool → Prop}
    (h1 : ∀ s op s' s'', stmt s op s' → stmt s op s'' → s' = s'') (h2 : ∀ s k i j, ¬ (test s k i j true ∧ test s k i j false))
    {c d e : List Prog × S} (hd : Flow stmt test c d) (he : Flow stmt test c e) : d = e := by
  cases hd with
  | skip => cases he; rfl
  | op h => cases he with | op h' => rw [h1 _ _ _ _ h h']
  | seq => cases he; rfl
  | «then» h =>
    cases he with
    | «then» _ => rfl
    | «else» h' => exact absurd ⟨h, h'⟩ (h2 _ _ _ _)
  | «else» h =>
    cases he with
    | «then» h' => exact absurd ⟨h', h⟩ (h2 _ _ _ _)
    | «else» _ => rfl
  | again h =>
    cases he with
    | again _ => rfl
    | leave h' => exact absurd ⟨h, h'⟩ (h2 _ _ _ _)
  | leave h =>
    cases he with
    | again h' => exact absurd ⟨h', h⟩ (h2 _ _ _ _)
    | leave _ => rfl

/-- C127. A program has at most one course, whatever its statements do. -/
theorem C127_one_course {c d e : List Prog × Running} (hd : ProgStep o L env c d) (he : ProgStep o L env c e) : d = e := by
  refine flow_det ?_ ?_ hd he
  · rintro ⟨s, m⟩ op ⟨s1, m1⟩ ⟨s2, m2⟩ ⟨e1, n1, h1⟩ ⟨e2, n2, h2⟩
    have := (h1 (max n1 n2) (le_max_left _ _)).symm.trans (h2 (max n1 n2) (le_max_right _ _))
    exact Prod.ext (Option.some.inj this) (e1.trans e2.symm)
  · rintro s k i j ⟨h1, h2⟩
    unfold Running.test at h1 h2
    rw [h1] at h2
    cases h2

/-- C127. While the integer program stays with allowed statements and conditions, the program over objects never has undefined
behaviour, no statement runs for ever, and it is always where the integer program is at some time, with the same values. -/
theorem C127_follows (hL : Custom L) (hK : 1 ≤ K) (hmul : MulExact o L K) (he : ∀ k, (env k).Ample ∧ (env k).debug = false)
    {c : List Prog × Vars} (ha : Allowed L.base K c) {s : Running} (hs : Holds L s.1 c.2) {q : List Prog × Running}
    (h : Reaches (ProgStep o L env) (c.1, s) q) :
    (∃ v, Reaches (IntFlow L.base K) c (q.1, v) ∧ Holds L q.2.1 v) ∧ (q.1 = [] ∨ ∃ q', ProgStep o L env q q') := by
  have key : ∃ v, Reaches (IntFlow L.base K) c (q.1, v) ∧ Holds L q.2.1 v := by
    induction h with
    | refl => exact ⟨c.2, .refl, hs⟩
    | @tail p q _ hq ih =>
      obtain ⟨v, h1, h2⟩ := ih
      rcases ha _ h1 with h3 | ⟨e, h3⟩
      · obtain ⟨p1, p2⟩ := p
        simp only at h3
        subst h3
        cases hq
      · obtain ⟨s', h4, h5⟩ := flow_step (env := env) hL hK hmul he h3 (s := p.2) h2
        have := C127_one_course hq h4
        subst this
        exact ⟨e.2, h1.tail h3, h5⟩
  refine ⟨key, ?_⟩
  obtain ⟨v, h1, h2⟩ := key
  rcases ha _ h1 with h3 | ⟨e, h3⟩
  · exact .inl h3
  · obtain ⟨s', h4, -⟩ := flow_step (env := env) hL hK hmul he h3 (s := q.2) h2
    exact .inr ⟨_, h4⟩

/-- C127. The program over objects ends exactly if the integer program ends, ... -/
theorem C127_ends_iff (hL : Custom L) (hK : 1 ≤ K) (hmul : MulExact o L K) (he : ∀ k, (env k).Ample ∧ (env k).debug = false)
    {c : List Prog × Vars} (ha : Allowed L.base K c) {s : Running} (hs : Holds L s.1 c.2) :
    (∃ s', Reaches (ProgStep o L env) (c.1, s) ([], s')) ↔ ∃ v, Reaches (IntFlow L.base K) c ([], v) := by
  constructor
  · rintro ⟨s', h⟩
    obtain ⟨⟨v, h1, -⟩, -⟩ := C127_follows hL hK hmul he ha hs h
    exact ⟨v, h1⟩
  · rintro ⟨v, h⟩
    obtain ⟨s', h1, -⟩ := C127_simulates (env := env) hL hK hmul he h hs
    exact ⟨s', h1⟩

/-- C127. ... and otherwise runs for ever. -/
theorem C127_forever (hL : Custom L) (hK : 1 ≤ K) (hmul : MulExact o L K) (he : ∀ k, (env k).Ample ∧ (env k).debug = false)
    {c : List Prog × Vars} (ha : Allowed L.base K c) (hn : ∀ v, ¬ Reaches (IntFlow L.base K) c ([], v)) {s : Running}
    (hs : Holds L s.1 c.2) : ∃ g : Nat → List Prog × Running, g 0 = (c.1, s) ∧ ∀ n, ProgStep o L env (g n) (g (n + 1)) := by
  have next : ∀ q : {q // Reaches (ProgStep o L env) (c.1, s) q}, ∃ q' : {q // Reaches (ProgStep o L env) (c.1, s) q},
      ProgStep o L env q.1 q'.1 := by
    rintro ⟨q, hq⟩
    obtain ⟨⟨v, h1, -⟩, h2⟩ := C127_follows hL hK hmul he ha hs hq
    rcases h2 with h2 | ⟨q', h2⟩
    · exact absurd (h2 ▸ h1) (hn v)
    · exact ⟨⟨q', hq.tail h2⟩, h2⟩
  choose f hf using next
  refine ⟨fun n => (f^[n] ⟨_, .refl⟩).1, rfl, fun n => ?_⟩
  simp only [Function.iterate_succ_apply']
  exact hf _

theorem store_mono {f : Nat → Out} (hf : MonoOut f) {s : Store} {i n m : Nat} (hnm : n ≤ m) {s' : Store} (h : (f n).store s i = some s') :
    (f m).store s i = some s' := by
  rw [hf n m hnm (fun ht => by rw [ht] at h; cases h)]
  exact h

theorem step_mono {op : Op} {e : Env} {s s' : Store} {n m : Nat} (hnm : n ≤ m) (h : op.step o L e n s = some s') :
    op.step o L e m s = some s' := by
  cases op with
  | arith k i j => exact store_mono (mono_assign o L e k _ _) hnm h
  | binary k i j l =>
    refine store_mono (f := fun n => strong (s i) (k.binary o L e n (s j) (s l))) ?_ hnm h
    intro n m hnm h
    simp only [Arith.binary, viaCopy] at h ⊢
    cases hc : (s j).copy e with
    | error f => rfl
    | ok z =>
      rw [hc, ok_bind] at h
      rw [ok_bind, ok_bind]
      rw [show k.assign o L e m z (.other (s l)) = k.assign o L e n z (.other (s l)) from
        mono_assign o L e k z (.other (s l)) n m hnm (fun ht => h (by simp only at ht; rw [ht]; rfl))]
  | _ => exact h

/-- C127. Without conditions and loops this is the meaning of programs used in C64. -/
theorem C127_straight (ops : List Op) (s s' : Store) (k : Nat) :
    (∃ k', Reaches (ProgStep o L env) (ops.map .op, s, k) ([], s', k')) ↔
      Evaluates (fun n => run o L n (fun i => env (k + i)) s ops) (some s') := by
  induction ops generalizing s k with
  | nil =>
    constructor
    · rintro ⟨k', h⟩
      rcases Relation.ReflTransGen.cases_head h with h | ⟨_, h, -⟩
      · cases h; exact ⟨0, fun _ _ => rfl⟩
      · cases h
    · rintro ⟨n, h⟩
      have := h n le_rfl
      cases this
      exact ⟨k, .refl⟩
  | cons op ops ih =>
    have hrun : ∀ n, run o L n (fun i => env (k + i)) s (op :: ops) =
        (op.step o L (env k) n s).bind fun s1 => run o L n (fun i => env (k + 1 + i)) s1 ops := by
      intro n
      simp only [run, Nat.add_zero]
      congr 1
      funext s1
      congr 1
      funext i
      congr 1
      omega
    constructor
    · rintro ⟨k', h⟩
      rcases Relation.ReflTransGen.cases_head h with h | ⟨d, h, h'⟩
      · cases h
      · cases h with
        | @op _ _ s1 _ h1 =>
          obtain ⟨s1, k1⟩ := s1
          obtain ⟨e1, n1, h1⟩ := h1
          simp only at e1 h1
          subst e1
          obtain ⟨n2, h2⟩ := (ih s1 (k + 1)).1 ⟨k', h'⟩
          refine ⟨max n1 n2, fun n hn => ?_⟩
          simp only [hrun]
          rw [h1 n (le_trans (le_max_left _ _) hn)]
          exact h2 n (le_trans (le_max_right _ _) hn)
    · rintro ⟨n₀, h⟩
      have h0 := h n₀ le_rfl
      simp only [hrun] at h0 h
      cases hs : op.step o L (env k) n₀ s with
      | none => rw [hs] at h0; cases h0
      | some s1 =>
        obtain ⟨k', h'⟩ := (ih s1 (k + 1)).2 ⟨n₀, fun n hn => by
          have := h n hn
          rw [step_mono hn hs] at this
          exact this⟩
        exact ⟨k', .head (.op ⟨rfl, n₀, fun n hn => step_mono hn hs⟩) h'⟩

end

/-! ### Any build and any allocator -/

/-- As `ProgStep`, but the statement returns without an exception. -/
def ReturningStep {F : Type} (o : FloatOps F) (L : Limits) (env : Nat → Env) : List Prog × Running → List Prog × Running → Prop :=
  Flow (fun s op s' => Running.stmt o L env s op s' ∧ ∃ n₀, ∀ n, n₀ ≤ n → op.Returns o L (env s.2) n s.1) Running.test

theorem returning_step {F : Type} {o : FloatOps F} {L : Limits} {env : Nat → Env} {c d : List Prog × Running}
    (h : ReturningStep o L env c d) : ProgStep o L (fun _ => releaseEnv) c d := by
  cases h with
  | skip => exact .skip
  | op h =>
    obtain ⟨⟨h1, n1, h2⟩, n2, h3⟩ := h
    exact .op ⟨h1, max n1 n2, fun n hn => (step_any (h3 n (le_trans (le_max_right _ _) hn))).trans (h2 n (le_trans (le_max_left _ _) hn))⟩
  | seq => exact .seq
  | «then» h => exact .then h
  | «else» h => exact .else h
  | again h => exact .again h
  | leave h => exact .leave h

/-- C127. In a debug build as in a release build and with any allocator: as long as no statement throws, the program is where
the integer program is, with the same values. -/
theorem C127_any_environment {F : Type} {o : FloatOps F} {L : Limits} {K : Nat} {env : Nat → Env} (hL : Custom L) (hK : 1 ≤ K)
    (hmul : MulExact o L K) {c : List Prog × Vars} (ha : Allowed L.base K c) {s : Running} (hs : Holds L s.1 c.2)
    {q : List Prog × Running} (h : Reaches (ReturningStep o L env) (c.1, s) q) :
    ∃ v, Reaches (IntFlow L.base K) c (q.1, v) ∧ Holds L q.2.1 v :=
  (C127_follows hL hK hmul (env := fun _ => releaseEnv) (fun _ => ⟨fun _ => rfl, rfl⟩) ha hs
    (Relation.ReflTransGen.mono (fun _ _ h => returning_step h) _ _ h)).1

/-! ### What a program computes, by its structure -/

/-- The values a program over integer variables ends with, if it comes to allowed statements and conditions only. -/
inductive IntExec (B K : Nat) : Prog → Vars → Vars → Prop
  | skip (v) : IntExec B K .skip v v
  | op {v v' op} (h : IntStep B K v op v') : IntExec B K (.op op) v v'
  | seq {v v' v'' p q} (h : IntExec B K p v v') (h' : IntExec B K q v' v'') : IntExec B K (.seq p q) v v''
  | ifTrue {v v' k i j p q} (hg : Compare.Guard B k (v i) (v j)) (hr : k.Rel (v i) (v j)) (h : IntExec B K p v v') :
    IntExec B K (.ite k i j p q) v v'
  | ifFalse {v v' k i j p q} (hg : Compare.Guard B k (v i) (v j)) (hr : ¬ k.Rel (v i) (v j)) (h : IntExec B K q v v') :
    IntExec B K (.ite k i j p q) v v'
  | whileTrue {v v' v'' k i j p} (hg : Compare.Guard B k (v i) (v j)) (hr : k.Rel (v i) (v j)) (h : IntExec B K p v v')
    (h' : IntExec B K (.loop k i j p) v' v'') : IntExec B K (.loop k i j p) v v''
  | whileFalse {v k i j p} (hg : Compare.Guard B k (v i) (v j)) (hr : ¬ k.Rel (v i) (v j)) : IntExec B K (.loop k i j p) v v

theorem exec_reaches {B K : Nat} {p : Prog} {v v' : Vars} (h : IntExec B K p v v') (ps : List Prog) :
    Reaches (IntFlow B K) (p :: ps, v) (ps, v') := by
  induction h generalizing ps with
  | skip => exact .single .skip
  | op h => exact .single (.op h)
  | seq _ _ ih ih' => exact .head .seq ((ih _).trans (ih' _))
  | ifTrue hg hr _ ih => exact .head (.then ⟨hg, (decide_eq_true hr).symm⟩) (ih _)
  | ifFalse hg hr _ ih => exact .head (.else ⟨hg, (decide_eq_false hr).symm⟩) (ih _)
  | whileTrue hg hr _ _ ih ih' => exact .head (.again ⟨hg, (decide_eq_true hr).symm⟩) ((ih _).trans (ih' _))
  | whileFalse hg hr => exact .single (.leave ⟨hg, (decide_eq_false hr).symm⟩)

/-- A list of programs, one after the other. -/
inductive IntExecs (B K : Nat) : List Prog → Vars → Vars → Prop
  | nil (v) : IntExecs B K [] v v
  | cons {p ps v v' v''} (h : IntExec B K p v v') (h' : IntExecs B K ps v' v'') : IntExecs B K (p :: ps) v v''

theorem reaches_execs {B K : Nat} {c : List Prog × Vars} {v' : Vars} (h : Reaches (IntFlow B K) c ([], v')) : IntExecs B K c.1 c.2 v' := by
  induction h using Relation.ReflTransGen.head_induction_on with
  | refl => exact .nil _
  | @head c d h _ ih =>
    cases h with
    | skip => exact .cons (.skip _) ih
    | op h => exact .cons (.op h) ih
    | seq =>
      cases ih with
      | cons h1 h2 => cases h2 with | cons h2 h3 => exact .cons (.seq h1 h2) h3
    | «then» h => cases ih with | cons h1 h2 => exact .cons (.ifTrue h.1 (of_decide_eq_true h.2.symm) h1) h2
    | «else» h => cases ih with | cons h1 h2 => exact .cons (.ifFalse h.1 (of_decide_eq_false h.2.symm) h1) h2
    | again h =>
      cases ih with
      | cons h1 h2 => cases h2 with | cons h2 h3 => exact .cons (.whileTrue h.1 (of_decide_eq_true h.2.symm) h1 h2) h3
    | leave h => exact .cons (.whileFalse h.1 (of_decide_eq_false h.2.symm)) ih

/-- C127. The control flow is that of the structure of the program. -/
theorem C127_structured {B K : Nat} (p : Prog) (v v' : Vars) : Reaches (IntFlow B K) ([p], v) ([], v') ↔ IntExec B K p v v' := by
  refine ⟨fun h => ?_, fun h => exec_reaches h []⟩
  have := reaches_execs h
  cases this with
  | cons h1 h2 => cases h2; exact h1

/-- C127. What a program computes over the integers, by its structure, it computes over objects. -/
theorem C127_computes {F : Type} {o : FloatOps F} {L : Limits} {K : Nat} {env : Nat → Env} (hL : Custom L) (hK : 1 ≤ K)
    (hmul : MulExact o L K) (he : ∀ k, (env k).Ample ∧ (env k).debug = false) {p : Prog} {v v' : Vars} (h : IntExec L.base K p v v')
    {s : Running} (hs : Holds L s.1 v) : ∃ s', Reaches (ProgStep o L env) ([p], s) ([], s') ∧ Holds L s'.1 v' :=
  C127_simulates (c := ([p], v)) hL hK hmul he (exec_reaches h []) hs

/-! ### The preset types, and a program -/

theorem mulExact_preset {F : Type} {o : FloatOps F} (M : Ieee o) {L : Limits} {K : Nat} (hp : Preset L K) : MulExact o L (K / 2) := by
  cases hp
  · exact mulExact_base2 M
  · exact mulExact_base8 M
  · exact mulExact_base10 M
  · exact mulExact_base16 M

theorem Preset.half_pos {L : Limits} {K : Nat} (hp : Preset L K) : 1 ≤ K / 2 := by
  cases hp <;> norm_num

/-- C127 for the preset types: as long as the integer program stays with allowed statements and conditions, the program over
objects is where the integer program is, and it ends if and only if the integer program does. -/
theorem C127_presets {F : Type} {o : FloatOps F} (M : Ieee o) {L : Limits} {K : Nat} (hp : Preset L K) {env : Nat → Env}
    (he : ∀ k, (env k).Ample ∧ (env k).debug = false) {c : List Prog × Vars} (ha : Allowed L.base (K / 2) c) {s : Running}
    (hs : Holds L s.1 c.2) :
    (∀ q, Reaches (ProgStep o L env) (c.1, s) q →
      (∃ v, Reaches (IntFlow L.base (K / 2)) c (q.1, v) ∧ Holds L q.2.1 v) ∧ (q.1 = [] ∨ ∃ q', ProgStep o L env q q')) ∧
    ((∃ s', Reaches (ProgStep o L env) (c.1, s) ([], s')) ↔ ∃ v, Reaches (IntFlow L.base (K / 2)) c ([], v)) :=
  ⟨fun _ h => C127_follows hp.custom hp.half_pos (mulExact_preset M hp) he ha hs h,
    C127_ends_iff hp.custom hp.half_pos (mulExact_preset M hp) he ha hs⟩

/-- `while (x_1 >= x_2) { x_0 += x_1; x_1 -= x_2; }` -/
def triangle : Prog := .loop .ge 1 2 (.seq (.op (.arith .add 0 1)) (.op (.arith .sub 1 2)))

theorem triangle_run (B K : Nat) : ∀ (n : Nat) (v : Vars), v 1 = n → v 2 = 1 → 0 ≤ v 0 →
    ∃ v', Reaches (IntFlow B K) ([triangle], v) ([], v') ∧ v' 0 = v 0 + n * (n + 1) / 2 ∧ v' 1 = 0 ∧ v' 2 = 1
  | 0, v, h1, h2, h0 => by
    refine ⟨v, .single (.leave ⟨⟨by rw [h2]; omega, fun _ h => by rw [h2] at h; omega⟩, ?_⟩), by simp, h1, h2⟩
    rw [h1, h2]; decide
  | n + 1, v, h1, h2, h0 => by
    let v1 := v.set 0 (v 0 + v 1)
    let v2 := v1.set 1 (v1 1 - v1 2)
    have e1 : v2 1 = n := by show v 1 - v 2 = n; rw [h1, h2]; push_cast; omega
    have e2 : v2 2 = 1 := h2
    have e0 : v2 0 = v 0 + (n + 1) := by show v 0 + v 1 = _; rw [h1]; push_cast; rfl
    obtain ⟨v', h3, h4, h5, h6⟩ := triangle_run B K n v2 e1 e2 (by omega)
    refine ⟨v', .head (.again ⟨⟨by rw [h2]; omega, fun _ h => by rw [h2] at h; omega⟩, ?_⟩) (.head .seq (.head (.op (.arith .add 0 1 ?_))
      (.head (.op (.arith .sub 1 2 ?_)) h3))), ?_, h5, h6⟩
    · rw [h1, h2]; simp [Compare.Rel]
    · show ¬ (v 0 = 0 ∧ v 1 = 0); rw [h1]; push_cast; omega
    · show v 1 ≠ 0 ∧ 0 ≤ v 1 * v 2
      rw [h1, h2]; push_cast; omega
    · rw [h4, e0]
      push_cast
      have : ((n : Int) + 1) * (n + 1 + 1) = n * (n + 1) + 2 * (n + 1) := by ring
      rw [this]
      omega

/-- C127, applied: for every natural number the loop ends with the triangular number, by reasoning about integers only. -/
theorem C127_triangle {F : Type} {o : FloatOps F} (M : Ieee o) {L : Limits} {K : Nat} (hp : Preset L K) {env : Nat → Env}
    (he : ∀ k, (env k).Ample ∧ (env k).debug = false) (n : Nat) {s : Running}
    (hs : Holds L s.1 fun i => if i = 1 then n else if i = 2 then 1 else 0) :
    ∃ s', Reaches (ProgStep o L env) ([triangle], s) ([], s') ∧ (s'.1 0).toInt L = n * (n + 1) / 2 := by
  obtain ⟨v', h1, h2, -⟩ := triangle_run L.base (K / 2) n (fun i => if i = 1 then n else if i = 2 then 1 else 0) rfl rfl le_rfl
  obtain ⟨s', h3, h4⟩ := C127_simulates (env := env) hp.custom hp.half_pos (mulExact_preset M hp) he h1 hs
  refine ⟨s', h3, ?_⟩
  rw [(h4 0).2]
  exact h2.trans (by simp)

theorem intFlow_det {B K : Nat} {c d e : List Prog × Vars} (hd : IntFlow B K c d) (he : IntFlow B K c e) : d = e := by
  refine flow_det ?_ ?_ hd he
  · intro v op v1 v2 h1 h2
    cases h1 <;> cases h2 <;> rfl
  · rintro v k i j ⟨⟨-, h1⟩, -, h2⟩
    rw [← h1] at h2
    cases h2

/-- A program that ends is allowed all the way. -/
theorem allowed_of_ends {B K : Nat} {c : List Prog × Vars} {v : Vars} (h : Reaches (IntFlow B K) c ([], v)) : Allowed B K c := by
  intro d hd
  induction hd with
  | refl =>
    rcases Relation.ReflTransGen.cases_head h with h | ⟨d, h, -⟩
    · rw [h]; exact .inl rfl
    · exact .inr ⟨d, h⟩
  | @tail d e hd hde ih =>
    have key : ∀ {d}, Reaches (IntFlow B K) c d → Reaches (IntFlow B K) d ([], v) := by
      intro d hd
      induction hd with
      | refl => exact h
      | tail _ h2 ih2 =>
        rcases Relation.ReflTransGen.cases_head ih2 with h3 | ⟨x, h3, h4⟩
        · rw [h3] at h2; cases h2
        · rw [intFlow_det h2 h3]; exact h4
    rcases Relation.ReflTransGen.cases_head (key (hd.tail hde)) with h3 | ⟨x, h3, -⟩
    · rw [h3]; exact .inl rfl
    · exact .inr ⟨x, h3⟩

/-! ### Cases that meet the hypotheses -/

/-- Objects 0, 12, 1 and so on. -/
def Sample.twelve : Running := (fun i => if i = 1 then ⟨.pos, [2, 1]⟩ else if i = 2 then ⟨.pos, [1]⟩ else ⟨.pos, []⟩, 0)

theorem Sample.twelve_holds : Holds .base10 Sample.twelve.1 fun i => if i = 1 then (12 : Nat) else if i = 2 then 1 else 0 := by
  intro i
  simp only [Sample.twelve]
  by_cases h1 : i = 1
  · simp only [h1, if_true]
    exact ⟨⟨.inl rfl, wfd_lits (by decide) (by simp [NoLeadingZero])⟩, by decide⟩
  · by_cases h2 : i = 2
    · simp only [h2, if_true, if_false, Nat.reduceEqDiff]
      exact ⟨⟨.inl rfl, wfd_lits (by decide) (by simp [NoLeadingZero])⟩, by decide⟩
    · simp only [h1, h2, if_false]
      exact wf_default _

example {F : Type} {o : FloatOps F} (M : Ieee o) := C127_triangle M .base10 (env := fun _ => releaseEnv)
  (fun _ => ⟨Sample.ample, rfl⟩) 12 Sample.twelve_holds

example {F : Type} {o : FloatOps F} (M : Ieee o) := C127_presets M .base10 (env := fun _ => releaseEnv)
  (fun _ => ⟨Sample.ample, rfl⟩) (allowed_of_ends (triangle_run 10 (2 ^ 25 / 2) 12 (fun i => if i = 1 then (12 : Nat) else if i = 2 then 1 else 0)
    rfl rfl le_rfl).choose_spec.1) Sample.twelve_holds

example {F : Type} {o : FloatOps F} (M : Ieee o) := C127_ends_iff (o := o) custom_base10 (by norm_num) (mulExact_base10 M)
  (env := fun _ => releaseEnv) (fun _ => ⟨Sample.ample, rfl⟩) (allowed_of_ends (triangle_run 10 (2 ^ 24) 12
    (fun i => if i = 1 then (12 : Nat) else if i = 2 then 1 else 0) rfl rfl le_rfl).choose_spec.1) Sample.twelve_holds

example {F : Type} {o : FloatOps F} (M : Ieee o) := C127_simulates (o := o) custom_base10 (by norm_num) (mulExact_base10 M)
  (env := fun _ => releaseEnv) (fun _ => ⟨Sample.ample, rfl⟩) (triangle_run 10 (2 ^ 24) 12
    (fun i => if i = 1 then (12 : Nat) else if i = 2 then 1 else 0) rfl rfl le_rfl).choose_spec.1 Sample.twelve_holds

example {F : Type} {o : FloatOps F} (M : Ieee o) := C127_follows (o := o) custom_base10 (by norm_num) (mulExact_base10 M)
  (env := fun _ => releaseEnv) (fun _ => ⟨Sample.ample, rfl⟩) (allowed_of_ends (triangle_run 10 (2 ^ 24) 12
    (fun i => if i = 1 then (12 : Nat) else if i = 2 then 1 else 0) rfl rfl le_rfl).choose_spec.1) Sample.twelve_holds .refl

example {F : Type} {o : FloatOps F} (M : Ieee o) := C127_computes (o := o) (env := fun _ => releaseEnv) custom_base10 (by norm_num) (mulExact_base10 M)
  (fun _ => ⟨Sample.ample, rfl⟩) (p := .ite .gt 1 2 (.op (.copy 0 1)) (.op (.copy 0 2)))
  (.ifTrue ⟨by simp, ⟨by simp, by simp⟩⟩ (by simp [Compare.Rel]) (.op (.copy 0 1))) Sample.twelve_holds

/-- 12 >= 1, 0 + 12 = 12 in a debug build with room for two digits. -/
theorem Sample.twelve_returning {F : Type} (o : FloatOps F) : ∃ s, Reaches (ReturningStep o .base10 fun _ => ⟨fun n => decide (n ≤ 2), true⟩)
    ([triangle], Sample.twelve) ([.op (.arith .sub 1 2), triangle], s) := by
  refine ⟨(Sample.twelve.1.set 0 ⟨.pos, [2, 1]⟩, 1), .head (.again (by show _ = _; decide)) (.head .seq (.single (.op ⟨⟨rfl, 3, ?_⟩, 3, ?_⟩)))⟩
  · intro n hn
    have h := mono_addAssign .base10 ⟨fun n => decide (n ≤ 2), true⟩ (Sample.twelve.1 0) (rhsOf Sample.twelve.1 0 1) 3 n hn (by decide +kernel)
    simp only [Op.step, Arith.assign]
    rw [show addAssign _ _ n _ _ = .ok ⟨.pos, [2, 1]⟩ from h.trans (by decide +kernel)]
    rfl
  · intro n hn
    have h := mono_addAssign .base10 ⟨fun n => decide (n ≤ 2), true⟩ (Sample.twelve.1 0) (rhsOf Sample.twelve.1 0 1) 3 n hn (by decide +kernel)
    exact ⟨⟨.pos, [2, 1]⟩, h.trans (by decide +kernel)⟩

example {F : Type} {o : FloatOps F} (M : Ieee o) := C127_any_environment (o := o) custom_base10 (by norm_num) (mulExact_base10 M)
  (allowed_of_ends (triangle_run 10 (2 ^ 24) 12 (fun i => if i = 1 then (12 : Nat) else if i = 2 then 1 else 0) rfl rfl le_rfl).choose_spec.1)
  Sample.twelve_holds (Sample.twelve_returning o).choose_spec

/-- `while (x_1 >= x_2) x_0 = x_1;` -/
def idle : Prog := .loop .ge 1 2 (.op (.copy 0 1))

theorem idle_run {B K : Nat} {v : Vars} (h1 : v 1 = 12) (h2 : v 2 = 1) {d : List Prog × Vars} (h : Reaches (IntFlow B K) ([idle], v) d) :
    (d.1 = [idle] ∨ d.1 = [.op (.copy 0 1), idle]) ∧ d.2 1 = 12 ∧ d.2 2 = 1 := by
  induction h with
  | refl => exact ⟨.inl rfl, h1, h2⟩
  | @tail d e _ hde ih =>
    obtain ⟨ps, w⟩ := d
    obtain ⟨h3, h4, h5⟩ := ih
    simp only at h3 h4 h5
    rcases h3 with rfl | rfl
    · cases hde with
      | again h => exact ⟨.inr rfl, h4, h5⟩
      | leave h =>
        have := h.2
        simp only [h4, h5] at this
        exact absurd this (by decide)
    · cases hde with
      | op h => cases h; exact ⟨.inl rfl, h4, h5⟩

theorem idle_allowed {B K : Nat} {v : Vars} (h1 : v 1 = 12) (h2 : v 2 = 1) : Allowed B K ([idle], v) := by
  intro d hd
  obtain ⟨h3, h4, h5⟩ := idle_run h1 h2 hd
  obtain ⟨ps, w⟩ := d
  simp only at h3 h4 h5
  rcases h3 with rfl | rfl
  · refine .inr ⟨_, .again ⟨⟨by omega, fun h => by omega⟩, ?_⟩⟩
    rw [h4, h5]; decide
  · exact .inr ⟨_, .op (.copy 0 1)⟩

example {F : Type} {o : FloatOps F} (M : Ieee o) := C127_forever (o := o) custom_base10 (by norm_num) (mulExact_base10 M)
  (env := fun _ => releaseEnv) (fun _ => ⟨Sample.ample, rfl⟩) (c := ([idle], fun i => if i = 1 then (12 : Nat) else if i = 2 then 1 else 0))
  (idle_allowed rfl rfl) (fun v h => by have := (idle_run rfl rfl h).1; simp at this) Sample.twelve_holds

end BN
