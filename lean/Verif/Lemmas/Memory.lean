import Verif.Lemmas.Div
import Verif.Lemmas.Mono
import Verif.Lemmas.Pow2
import Verif.Lemmas.Faults
import Verif.Model.Program
/-
Runs in little memory against runs in more memory, and how much storage the operators ask for.
-/
namespace BN
open Bignum

/-- Whatever the first surroundings grant, the second grant too; the builds are the same. -/
structure Env.Le (e e' : Env) : Prop where
  alloc : ∀ n, e.alloc n = true → e'.alloc n = true
  debug : e'.debug = e.debug

/-- The outcome `d` is the outcome `r`, or the failure of an allocation. -/
def Scarce {α : Type} (d r : Res α) : Prop := d = r ∨ d = .error (.exn .badAlloc)

theorem Scarce.refl {α : Type} (r : Res α) : Scarce r r := .inl rfl

theorem Scarce.bind {α β : Type} {d r : Res α} {f g : α → Res β} (h : Scarce d r) (hf : ∀ x, Scarce (f x) (g x)) :
    Scarce (d >>= f) (r >>= g) := by
  rcases h with rfl | rfl
  · cases d with
    | ok x => simpa only [ok_bind] using hf x
    | error e => exact .inl rfl
  · exact .inr rfl

theorem Scarce.ite {α : Type} {p : Prop} [Decidable p] {a b c d : Res α} (h1 : Scarce a b) (h2 : Scarce c d) :
    Scarce (if p then a else c) (if p then b else d) := by
  by_cases hp : p
  · rwa [if_pos hp, if_pos hp]
  · rwa [if_neg hp, if_neg hp]

theorem Scarce.while {σ : Type} (c : σ → Res Bool) {b b' : σ → Res σ} (h : ∀ s, Scarce (b s) (b' s)) :
    ∀ (n : Nat) (s : σ), Scarce (loopWhile c b n s) (loopWhile c b' n s)
  | 0, _ => .refl _
  | n + 1, s => by
    rw [loopWhile, loopWhile]
    exact .bind (.refl _) fun t => .ite (.bind (h s) fun s' => Scarce.while c h n s') (.refl _)

theorem Scarce.forever {σ : Type} {b b' : σ → Res (σ × Bool)} (h : ∀ s, Scarce (b s) (b' s)) :
    ∀ (n : Nat) (s : σ), Scarce (loopForever b n s) (loopForever b' n s)
  | 0, _ => .refl _
  | n + 1, s => by
    rw [loopForever, loopForever]
    exact .bind (h s) fun t => .ite (.refl _) (Scarce.forever h n t.1)

section
variable {e e' : Env} (he : e.Le e')
include he

theorem scarce_alloc {α : Type} (n : Nat) (r : Res α) :
    Scarce (if e.alloc n then r else .error (.exn .badAlloc)) (if e'.alloc n then r else .error (.exn .badAlloc)) := by
  by_cases h : e.alloc n = true
  · rw [if_pos h, if_pos (he.alloc n h)]; exact .refl _
  · rw [if_neg h]; exact .inr rfl

theorem scarce_pushBack (v : List Nat) (d : Nat) : Scarce (Vec.pushBack e v d) (Vec.pushBack e' v d) := scarce_alloc he _ _

theorem scarce_insert (v : List Nat) (p d : Nat) : Scarce (Vec.insert e v p d) (Vec.insert e' v p d) :=
  .ite (.refl _) (scarce_alloc he _ _)

theorem scarce_resize (v : List Nat) (n d : Nat) : Scarce (Vec.resize e v n d) (Vec.resize e' v n d) :=
  .ite (.refl _) (scarce_alloc he _ _)

theorem scarce_vcopy (v : List Nat) : Scarce (Vec.copy e v) (Vec.copy e' v) := .ite (.refl _) (scarce_alloc he _ _)

theorem scarce_copy (b : Bignum) : Scarce (b.copy e) (b.copy e') := .bind (scarce_vcopy he _) fun _ => .refl _

theorem absSub_env (L : Limits) (n : Nat) (a : List Nat) (src : Src) : absSub L e n a src = absSub L e' n a src := by
  unfold absSub subDebugCheck
  rw [he.debug]

theorem scarce_absAdd (L : Limits) (n : Nat) (a : List Nat) (src : Src) : Scarce (absAdd L e n a src) (absAdd L e' n a src) := by
  refine .bind (.forever (fun s => ?_) n _) fun _ => .refl _
  exact .bind (.ite (scarce_pushBack he _ _) (.refl _)) fun _ => .refl _

theorem scarce_shl (L : Limits) (c : List Nat) : Scarce (shiftLeft1 L e c) (shiftLeft1 L e' c) :=
  .ite (.refl _) (.bind (.refl _) fun _ => .ite (.bind (.refl _) fun _ => scarce_pushBack he _ _) (.refl _))

theorem scarce_divBody (L : Limits) (n : Nat) (dv : List Nat) (s : DivSt) : Scarce (divBody L e n dv s) (divBody L e' n dv s) := by
  unfold divBody
  refine .bind (scarce_vcopy he _) fun _ => .bind (scarce_vcopy he _) fun _ => .bind (scarce_vcopy he _) fun _ =>
    .bind (scarce_shl he L _) fun _ => .bind (.while _ (fun t => ?_) n _) fun t => ?_
  · exact .bind (scarce_vcopy he _) fun _ => .bind (scarce_shl he L _) fun _ => .bind (scarce_shl he L _) fun _ => .refl _
  · rw [absSub_env he]
    exact .bind (.refl _) fun _ => .ite (.bind (scarce_absAdd he L n _ _) fun _ => .refl _)
      (.bind (scarce_absAdd he L n _ _) fun _ => .refl _)

theorem scarce_absDiv (L : Limits) (n : Nat) (a b : List Nat) : Scarce (absDiv L e n a b) (absDiv L e' n a b) :=
  .bind (scarce_vcopy he _) fun _ => .bind (.while _ (scarce_divBody he L n b) n _) fun _ => .refl _

theorem scarce_addTry (L : Limits) (n : Nat) (x : Bignum) (r : Rhs) : Scarce (addTry L e n x r) (addTry L e' n x r) := by
  unfold addTry
  simp only [absSub_env he]
  have h : ∀ a s d, Scarce (do let d' ← absAdd L e n a s; Except.ok (⟨d, d'⟩ : Bignum))
      (do let d' ← absAdd L e' n a s; Except.ok (⟨d, d'⟩ : Bignum)) :=
    fun a s d => .bind (scarce_absAdd he L n a s) fun _ => .refl _
  exact .ite (h _ _ _) (.ite (.bind (.refl _) fun _ => .ite (.refl _) (.bind (scarce_copy he _) fun _ => .refl _))
    (.ite (.bind (.refl _) fun _ => .ite (.refl _) (.bind (scarce_copy he _) fun _ => .refl _)) (h _ _ _)))

theorem scarce_subTry (L : Limits) (n : Nat) (x : Bignum) (r : Rhs) : Scarce (subTry L e n x r) (subTry L e' n x r) := by
  unfold subTry
  simp only [absSub_env he]
  exact .ite (.bind (.refl _) fun _ => .ite (.refl _) (.bind (scarce_copy he _) fun _ => .refl _))
    (.ite (.bind (.refl _) fun _ => .bind (scarce_vcopy he _) fun _ => .refl _)
    (.ite (.bind (.refl _) fun _ => .bind (scarce_vcopy he _) fun _ => .refl _)
    (.bind (.refl _) fun _ => .ite (.refl _) (.bind (scarce_copy he _) fun _ => .refl _))))

theorem scarce_divTry (L : Limits) (n : Nat) (x : Bignum) (dv : List Nat) : Scarce (divTry L e n x dv) (divTry L e' n x dv) :=
  .bind (.refl _) fun _ => .ite (.bind (scarce_absDiv he L n _ _) fun _ => .refl _) (.refl _)

theorem scarce_mulStrassen {F : Type} (o : FloatOps F) (L : Limits) (n : Nat) (a b : List Nat) :
    Scarce (mulStrassen o L e n a b) (mulStrassen o L e' n a b) := by
  unfold mulStrassen
  by_cases h : e.alloc (fftTableSize a.length b.length) = true
  · rw [if_neg (by simpa using h), if_neg (by simpa using he.alloc _ h)]
    exact .bind (.refl _) fun _ => .bind (.refl _) fun _ => .bind (.refl _) fun _ => .bind (.refl _) fun _ => .bind (.refl _) fun _ => scarce_resize he _ _ _
  · rw [if_pos h]; exact .inr rfl

end

/-! ### Demands -/

/-- A result satisfying `P`, or the debug check; never a failed allocation. -/
def Fit {α : Type} (r : Res α) (P : α → Prop) : Prop := (∃ x, r = .ok x ∧ P x) ∨ r = .error (.exn .bnUnderflow)

theorem Fit.bind {α β : Type} {r : Res α} {P : α → Prop} {f : α → Res β} {Q : β → Prop}
    (h : Fit r P) (hf : ∀ x, P x → Fit (f x) Q) : Fit (r >>= f) Q := by
  rcases h with ⟨x, rfl, hx⟩ | rfl
  · rw [ok_bind]; exact hf x hx
  · exact .inr rfl

theorem Fit.pure {α : Type} {x : α} {P : α → Prop} (h : P x) : Fit (.ok x) P := .inl ⟨x, rfl, h⟩

theorem Fit.mono {α : Type} {r : Res α} {P Q : α → Prop} (h : Fit r P) (hpq : ∀ x, P x → Q x) : Fit r Q := by
  rcases h with ⟨x, rfl, hx⟩ | h
  · exact .inl ⟨x, rfl, hpq x hx⟩
  · exact .inr h

theorem Fit.ne {α : Type} {r : Res α} {P : α → Prop} (h : Fit r P) : r ≠ .error (.exn .badAlloc) := by
  rcases h with ⟨x, rfl, -⟩ | rfl <;> intro h <;> cases h

/-- The same build with unlimited memory. -/
def Env.full (env : Env) : Env := ⟨fun _ => true, env.debug⟩

theorem Env.le_full (env : Env) : env.Le env.full := ⟨fun _ _ => rfl, rfl⟩

theorem OkOr.fit {α : Type} {env : Env} {r : Res α} {P : α → Prop} (h : OkOr env.full r P) : Fit r P := by
  rcases h with h | ⟨e, (⟨-, n, hn⟩ | ⟨rfl, -⟩), rfl⟩
  · exact .inl h
  · cases hn
  · exact .inr rfl

theorem fit_copy {env : Env} {N : Nat} (hA : ∀ n, n ≤ N → env.alloc n = true) {v : List Nat} (hv : v.length ≤ N) :
    Fit (Vec.copy env v) (fun x => x = v) := by
  unfold Vec.copy
  by_cases h0 : v = []
  · rw [if_pos h0]; exact .pure h0.symm
  · rw [if_neg h0, if_pos (hA _ hv)]; exact .pure rfl

theorem fit_absAdd {L : Limits} (h : Supported L) {env : Env} {N : Nat} (hA : ∀ n, n ≤ N → env.alloc n = true) {fuel : Nat}
    {out : List Nat} {src : Src} (hR : InRange L.base out) (hS : InRange L.base (src.get out))
    (hf : max out.length (src.get out).length < fuel) (hN : (addFull L.base out (src.get out) 0).length ≤ N) :
    Fit (absAdd L env fuel out src) (fun x => x = addFull L.base out (src.get out) 0) := by
  rw [absAdd_ok h env hR hS hf fun n _ h2 => hA n (by omega)]
  exact .pure rfl

theorem fit_absSub {L : Limits} (h : Supported L) (env : Env) {fuel : Nat} {a : List Nat} {src : Src}
    (hR : InRange L.base a) (hS : InRange L.base (src.get a)) (hne : a ≠ []) (hlen : (src.get a).length ≤ a.length)
    (hf : a.length < fuel) :
    Fit (absSub L env fuel a src) (fun x => x = trim (subRest L.base a (src.get a) 0)) := by
  rw [absSub_env env.le_full]
  exact (okOr_absSub h env.full hR hS hne hlen hf).fit

theorem fit_shl {L : Limits} (h : Custom L) {env : Env} {N : Nat} (hA : ∀ n, n ≤ N → env.alloc n = true) {l : List Nat}
    (hl : InRange L.base l) (hN : (addRest L.base l l 0).length ≤ N) :
    Fit (shiftLeft1 L env l) (fun x => x = addRest L.base l l 0) := by
  unfold shiftLeft1
  by_cases h0 : l = []
  · subst h0; rw [if_pos rfl]; exact .pure (by simp [addRest])
  · rw [if_neg h0]
    obtain ⟨l', c', h1, h2, h3, h4⟩ := shlLoop_eq h l 0 hl (by omega)
    have e : L.toSingle 0 = L.sgl 0 := toSingle_small h.supported (n := 0) (by omega)
    rw [e, h1, ok_bind]
    simp only [sgl_truthy]
    by_cases hc : c' = 0
    · subst hc; simp only [ne_eq, not_true_eq_false, decide_false, Bool.false_eq_true, if_false]
      exact .pure (by rw [h4]; simp)
    · simp only [ne_eq, hc, not_false_eq_true, decide_true, if_true]
      rw [min_plus_one h, ok_bind, store_sgl_one h]
      unfold Vec.pushBack
      rw [h4, if_neg hc] at hN
      rw [if_pos (hA _ (by simpa using hN))]
      exact .pure (by rw [h4, if_neg hc])

/-- Doubling a number not above `n` takes at most one digit more than `n` has. -/
theorem double_length {B : Nat} (hB : 2 ≤ B) {n l : List Nat} (hn : InRange B n) (hl : NZ B l) (hle : natOf B l ≤ natOf B n) :
    (addRest B l l 0).length ≤ n.length + 1 := by
  have h1 := (hl.double hB).1.nlz
  have h2 := (hl.double hB).2
  have h3 := natOf_lt hn
  by_contra hc
  have h4 := le_natOf_of_noLeadingZero (B := B) h1 (hl.double hB).1.ne
  have h5 : B ^ (n.length + 1) ≤ B ^ ((addRest B l l 0).length - 1) := Nat.pow_le_pow_right (by omega) (by omega)
  have h6 : 2 * B ^ n.length ≤ B ^ (n.length + 1) := by rw [pow_succ, Nat.mul_comm]; exact Nat.mul_le_mul_left _ hB
  omega

theorem fit_search {L : Limits} (h : Custom L) {env : Env} {N : Nat} (hA : ∀ n, n ≤ N → env.alloc n = true)
    {n : List Nat} (hn : NZ L.base n) (hN : n.length + 1 ≤ N) (D : Nat) (hD : 1 ≤ D) :
    ∀ (fuel : Nat) (b0 b1 q : List Nat), NZ L.base b0 → NZ L.base b1 → NZ L.base q →
      natOf L.base b0 = D * natOf L.base q → natOf L.base b1 = 2 * natOf L.base b0 →
      natOf L.base b0 ≤ natOf L.base n → natOf L.base n < natOf L.base b0 * 2 ^ fuel →
      Fit (loopWhile (fun t => absGe n t.bsrch1) (searchBody L env) fuel ⟨b0, b1, q⟩) (fun t =>
        NZ L.base t.bsrch0 ∧ NZ L.base t.q ∧ natOf L.base t.bsrch0 = D * natOf L.base t.q ∧
        natOf L.base t.bsrch0 ≤ natOf L.base n ∧ natOf L.base n < 2 * natOf L.base t.bsrch0)
  | 0, b0, b1, q, _, _, _, _, _, h6, h7 => by rw [pow_zero] at h7; omega
  | fuel + 1, b0, b1, q, h1, h2, h3, h4, h5, h6, h7 => by
    have hB := h.supported.base_ge
    have hqn : natOf L.base q ≤ natOf L.base n := by
      have : 1 * natOf L.base q ≤ D * natOf L.base q := Nat.mul_le_mul_right _ hD
      omega
    rw [loopWhile]
    simp only
    rw [absGe_normal (B := L.base) (by omega) hn.rng h2.rng hn.nlz h2.nlz, ok_bind]
    by_cases hge : natOf L.base b1 ≤ natOf L.base n
    · simp only [hge, decide_true, if_true]
      refine Fit.bind (P := fun t => t = ⟨b1, addRest L.base b1 b1 0, addRest L.base q q 0⟩) ?_ ?_
      · unfold searchBody
        have hb1 := length_le_of_natOf_le hB hn.rng h2.nlz hge
        have g1 := double_length hB hn.rng h2 hge
        have g2 := double_length hB hn.rng h3 hqn
        refine (fit_copy hA (v := b1) (by omega)).bind ?_
        rintro x rfl
        refine (fit_shl h hA h2.rng (by omega)).bind ?_
        rintro y rfl
        refine (fit_shl h hA h3.rng (by omega)).bind ?_
        rintro z rfl
        exact .pure rfl
      · rintro t rfl
        have hp := h1.pos hB
        obtain ⟨d1, d2⟩ := h2.double hB
        obtain ⟨e1, e2⟩ := h3.double hB
        exact fit_search h hA hn hN D hD fuel b1 _ _ h2 d1 e1 (by rw [e2, h5, h4]; ring) d2 hge
          (by rw [h5, Nat.mul_comm 2, Nat.mul_assoc, ← pow_succ']; exact h7)
    · simp only [hge, decide_false, Bool.false_eq_true, if_false]
      exact .pure ⟨h1, h3, h4, h6, by simp only; omega⟩

theorem fit_divBody {L : Limits} (h : Custom L) {env : Env} {A : List Nat} (hAr : InRange L.base A)
    (hA : ∀ n, n ≤ A.length + 1 → env.alloc n = true) {fuel : Nat} {dv : List Nat} (hdv : NZ L.base dv)
    {n res : List Nat} (hn : NZ L.base n) (hres : WFDigits L.base res) (hge : natOf L.base dv ≤ natOf L.base n)
    (hsum : natOf L.base n + natOf L.base res ≤ natOf L.base A)
    {k : Nat} (hf : natOf L.base n + natOf L.base res < 2 ^ k) (hk : k + 2 ≤ fuel) :
    Fit (divBody L env fuel dv ⟨n, res⟩) (fun s =>
      InRange L.base s.dividend ∧ NoLeadingZero s.dividend ∧ (WFDigits L.base s.res ∧ s.res ≠ []) ∧
      2 * natOf L.base s.dividend < natOf L.base n ∧
      natOf L.base s.dividend + natOf L.base s.res ≤ natOf L.base n + natOf L.base res) := by
  have hB := h.supported.base_ge
  have hnA := length_le_of_natOf_le hB hAr hn.nlz (by omega)
  have hdn := length_le_of_natOf_le hB hn.rng hdv.nlz hge
  have hn1 : 1 ≤ n.length := List.length_pos_iff.2 hn.ne
  unfold divBody
  refine (fit_copy hA (v := dv) (by omega)).bind ?_
  rintro b0 rfl
  refine (fit_copy hA (v := b0) (by omega)).bind ?_
  rintro b1 rfl
  rw [one_store h]
  refine (fit_copy hA (v := [1]) (by simp)).bind ?_
  rintro q rfl
  have g0 := double_length hB hn.rng hdv hge
  refine (fit_shl h hA hdv.rng (by omega)).bind ?_
  rintro b1' rfl
  obtain ⟨d1, d2⟩ := hdv.double hB
  have hq1 : NZ L.base [1] := ⟨by intro x hx; simp at hx; omega, by simp [NoLeadingZero], by simp⟩
  have hp := hdv.pos hB
  have hpow : natOf L.base n < natOf L.base b1 * 2 ^ fuel := by
    have h1 : 2 ^ k ≤ 2 ^ fuel := Nat.pow_le_pow_right (by omega) (by omega)
    have h2 : 1 * 2 ^ fuel ≤ natOf L.base b1 * 2 ^ fuel := Nat.mul_le_mul_right _ hp
    omega
  refine (fit_search h hA hn (by omega) (natOf L.base b1) hp fuel b1 _ [1] hdv d1 hq1 (by simp) d2 hge hpow).bind ?_
  rintro ⟨t0, t1, tq⟩ ⟨g1, g2, g3, g4, g5⟩
  simp only at g1 g2 g3 g4 g5 ⊢
  have hlen := length_le_of_natOf_le hB hn.rng g1.nlz g4
  have hnl := length_lt_of_lt_pow hB hn.nlz (k := k) (by omega)
  refine (fit_absSub h.supported env (src := .other t0) hn.rng g1.rng hn.ne hlen (by omega)).bind ?_
  rintro n' rfl
  have hsub := subRest_exact hB hn.rng g1.rng hlen g4
  have hqpos := g2.pos hB
  have hqle : natOf L.base tq ≤ natOf L.base t0 := by rw [g3]; exact Nat.le_mul_of_pos_left _ (by omega)
  have hrl := wf_length_le_pow hB hres (k := k) (by omega)
  have hql := length_lt_of_lt_pow hB g2.nlz (k := k) (by omega)
  have htp := g1.pos hB
  have key : ∀ res', (WFDigits L.base res' ∧ res' ≠ []) → natOf L.base res' = natOf L.base tq + natOf L.base res →
      InRange L.base (trim (subRest L.base n t0 0)) ∧ NoLeadingZero (trim (subRest L.base n t0 0)) ∧
      (WFDigits L.base res' ∧ res' ≠ []) ∧
      2 * natOf L.base (trim (subRest L.base n t0 0)) < natOf L.base n ∧
      natOf L.base (trim (subRest L.base n t0 0)) + natOf L.base res' ≤ natOf L.base n + natOf L.base res := by
    intro res' hw hv
    refine ⟨trim_inRange (subRest_inRange hB _ _ _ hn.rng g1.rng (by omega)), trim_noLeadingZero _, hw, ?_, ?_⟩ <;>
      rw [natOf_trim, hsub]
    · omega
    · rw [hv]; omega
  have hsrc : ∀ l out, (Src.other l).get out = l := fun _ _ => rfl
  have small : ∀ res', WFDigits L.base res' → natOf L.base res' = natOf L.base tq + natOf L.base res → res'.length ≤ A.length + 1 := by
    intro res' hw hv
    rcases hw.2 with h1 | rfl
    · have := length_le_of_natOf_le hB hAr h1 (by omega); omega
    · simp
  by_cases hcmp : tq.length ≤ res.length
  · simp only [hcmp, if_true]
    have hw := addFull_wf hB hres ⟨g2.rng, .inl g2.nlz⟩
    have hv : natOf L.base (addFull L.base res tq 0) = natOf L.base tq + natOf L.base res := by
      rw [addFull_natOf hB hres.1 g2.rng (by omega)]; omega
    refine (fit_absAdd h.supported hA (src := .other tq) hres.1 g2.rng (by simp only [hsrc]; omega) (small _ hw hv)).bind ?_
    rintro r rfl
    exact .pure (key _ ⟨hw, addFull_ne hB hres.1 g2.rng⟩ hv)
  · simp only [hcmp, if_false]
    have hw := addFull_wf hB ⟨g2.rng, .inl g2.nlz⟩ hres
    have hv : natOf L.base (addFull L.base tq res 0) = natOf L.base tq + natOf L.base res := by
      rw [addFull_natOf hB g2.rng hres.1 (by omega)]; omega
    refine (fit_absAdd h.supported hA (src := .other res) g2.rng hres.1 (by simp only [hsrc]; omega) (small _ hw hv)).bind ?_
    rintro r rfl
    exact .pure (key _ ⟨hw, addFull_ne hB g2.rng hres.1⟩ hv)

theorem fit_divLoop {L : Limits} (h : Custom L) {env : Env} {A : List Nat} (hAr : InRange L.base A)
    (hA : ∀ n, n ≤ A.length + 1 → env.alloc n = true) {dv : List Nat} (hdv : NZ L.base dv) (bfuel k : Nat) (hk : k + 2 ≤ bfuel) :
    ∀ (fuel : Nat) (n res : List Nat), InRange L.base n → NoLeadingZero n → (WFDigits L.base res ∧ res ≠ []) →
      natOf L.base n + natOf L.base res ≤ natOf L.base A →
      natOf L.base n + natOf L.base res < 2 ^ k → 2 * natOf L.base n + 1 < 2 ^ fuel →
      Fit (loopWhile (fun s => absGe s.dividend dv) (divBody L env bfuel dv) fuel ⟨n, res⟩) (fun _ => True)
  | 0, _, _, _, _, _, _, _, h7 => by rw [pow_zero] at h7; omega
  | fuel + 1, n, res, h1, h2, h3, hs, h4, h5 => by
    have hB := h.supported.base_ge
    rw [loopWhile]
    simp only
    rw [absGe_normal (B := L.base) (by omega) h1 hdv.rng h2 hdv.nlz, ok_bind]
    by_cases hge : natOf L.base dv ≤ natOf L.base n
    · simp only [hge, decide_true, if_true]
      have hp := hdv.pos hB
      have hnz : NZ L.base n := ⟨h1, h2, by rintro rfl; simp at hge; omega⟩
      rw [pow_succ] at h5
      refine (fit_divBody h hAr hA hdv hnz h3.1 hge hs h4 hk).bind ?_
      rintro ⟨n', res'⟩ ⟨g1, g2, g3, g4, g5⟩
      simp only at g1 g2 g3 g4 g5
      exact fit_divLoop h hAr hA hdv bfuel k hk fuel n' res' g1 g2 g3 (by omega) (by omega) (by omega)
    · simp only [hge, decide_false, Bool.false_eq_true, if_false]
      exact .pure trivial

/-- Division with room for one digit more than the dividend has never fails to allocate. -/
theorem fit_absDiv {L : Limits} (h : Custom L) {env : Env} {n dv : List Nat} (hA : ∀ m, m ≤ n.length + 1 → env.alloc m = true)
    (hdv : NZ L.base dv) (h1 : InRange L.base n) (h2 : NoLeadingZero n) (fuel : Nat) :
    absDiv L env fuel n dv ≠ .error (.exn .badAlloc) := by
  have hB := h.supported.base_ge
  intro hbad
  have hbig : absDiv L env (fuel + natOf L.base n + 3) n dv = .error (.exn .badAlloc) := by
    have := mono_absDiv L env n dv fuel (fuel + natOf L.base n + 3) (by omega) (by simp only [hbad]; intro h; cases h)
    simp only [hbad] at this
    exact this
  refine (Fit.ne (P := fun _ => True) ?_) hbig
  unfold absDiv
  rw [zero_store h.supported]
  refine (fit_copy hA (v := [0]) (by simp)).bind ?_
  rintro r rfl
  have hw : WFDigits L.base [0] := ⟨by intro x hx; simp at hx; omega, .inr rfl⟩
  have hk : natOf L.base n < 2 ^ (fuel + natOf L.base n + 1) :=
    Nat.lt_of_lt_of_le Nat.lt_two_pow_self (Nat.pow_le_pow_right (by omega) (by omega))
  refine (fit_divLoop h h1 hA hdv _ (fuel + natOf L.base n + 1) (by omega) _ n [0] h1 h2 ⟨hw, by simp⟩ (by simp) (by simpa using hk) ?_).bind ?_
  · rw [show fuel + natOf L.base n + 3 = fuel + natOf L.base n + 1 + 1 + 1 by omega, pow_succ, pow_succ]
    omega
  · intro s _
    exact .pure trivial

end BN
