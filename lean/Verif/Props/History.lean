import Verif.Lemmas.Samples
import Verif.Lemmas.Mono
import Verif.Model.Program
import Verif.Props.Special
import Verif.Props.Object
/-
C11: results are well formed.  C55: histories.  C58: termination.
-/
namespace BN
open Bignum

/-! ### Lemmas -/

theorem wfd_lits {B : Nat} {ds : List Nat} (h1 : ∀ d ∈ ds, d < B) (h2 : NoLeadingZero ds) : WFDigits B ds := ⟨h1, .inl h2⟩

/-- What holds of the result for some larger budget holds for any budget. -/
theorem Keeps.of_mono {α : Type} {f : Nat → Res α} {P : α → Prop} (hf : Mono f) {n m : Nat} (hnm : n ≤ m) (h : Keeps (f m) P) :
    Keeps (f n) P := by
  intro x hx
  refine h x ?_
  rw [hf n m hnm (by rw [hx]; simp), hx]

theorem Keeps.and {α : Type} {r : Res α} {P Q : α → Prop} (hp : Keeps r P) (hq : Keeps r Q) : Keeps r (fun x => P x ∧ Q x) :=
  fun x hx => ⟨hp x hx, hq x hx⟩

theorem keeps_absSub_trim (L : Limits) (env : Env) (fuel : Nat) (a : List Nat) (src : Src) :
    Keeps (absSub L env fuel a src) NoLeadingZero := by
  refine .bind (.any _) fun _ _ => .bind (.any _) fun s _ => ?_
  rw [popZeros_eq]
  exact .ok (trim_noLeadingZero _)

theorem keeps_absAdd_wf {L : Limits} (h : Supported L) (env : Env) (fuel : Nat) {a : List Nat} {src : Src} (ha : WFDigits L.base a)
    (hs : WFDigits L.base (src.get a)) : Keeps (absAdd L env fuel a src) (WFDigits L.base) := by
  refine .of_mono (mono_absAdd L env a src) (m := fuel + max a.length (src.get a).length + 1) (by omega) ?_
  refine (okOr_absAdd h env ha.1 hs.1 (by omega)).keeps.mono ?_
  rintro _ rfl
  exact addFull_wf h.base_ge ha hs

theorem keeps_magDiff_wf {L : Limits} (h : Supported L) (env : Env) (fuel : Nat) {x : Bignum} {r : Rhs} (t : Desc)
    (hx : InRange L.base x.digits) (hr : InRange L.base (r.get x).digits) :
    Keeps (magDiff L env fuel x r t) (fun z => (z.desc = x.desc ∨ z.desc = t) ∧ WFDigits L.base z.digits ∧ NoLeadingZero z.digits) := by
  unfold magDiff
  refine .bind (.any _) fun _ _ => .ite (fun _ => ?_) fun _ => ?_
  · exact .bind ((keeps_absSub h env fuel hx (Rhs.src_in hr)).and (keeps_absSub_trim _ _ _ _ _)) fun d hd =>
      .ok ⟨.inl rfl, ⟨hd.1, .inl hd.2⟩, hd.2⟩
  · refine .bind (keeps_bcopy env _) ?_
    rintro _ rfl
    exact .bind ((keeps_absSub h env fuel hr (src := .other x.digits) (.other hx)).and (keeps_absSub_trim _ _ _ _ _)) fun d hd =>
      .ok ⟨.inr rfl, ⟨hd.1, .inl hd.2⟩, hd.2⟩

theorem keeps_addTry_wf {L : Limits} (h : Supported L) (env : Env) (fuel : Nat) {x : Bignum} {r : Rhs}
    (hx : WFDigits L.base x.digits) (hr : WFDigits L.base (r.get x).digits) :
    Keeps (addTry L env fuel x r) (fun z => (Signed x.desc → Signed z.desc) ∧ WFDigits L.base z.digits) := by
  have hadd := keeps_absAdd_wf h env fuel (src := r.src) hx (by rw [Rhs.src_get]; exact hr)
  unfold addTry
  refine .ite (fun _ => .bind hadd fun d hd => .ok ⟨id, hd⟩) fun _ => .ite (fun _ => ?_) fun _ => .ite (fun _ => ?_) fun _ =>
    .bind hadd fun d hd => .ok ⟨id, hd⟩
  · refine (keeps_magDiff_wf h env fuel .neg hx.1 hr.1).mono fun z hz => ⟨fun hs => ?_, hz.2.1⟩
    rcases hz.1 with e | e <;> rw [e]
    · exact hs
    · exact .inr rfl
  · refine (keeps_magDiff_wf h env fuel .pos hx.1 hr.1).mono fun z hz => ⟨fun hs => ?_, hz.2.1⟩
    rcases hz.1 with e | e <;> rw [e]
    · exact hs
    · exact .inl rfl

theorem keeps_subTry_wf {L : Limits} (h : Supported L) (env : Env) (fuel : Nat) {x : Bignum} {r : Rhs}
    (hx : WFDigits L.base x.digits) (hr : WFDigits L.base (r.get x).digits) :
    Keeps (subTry L env fuel x r) (fun z => (Signed x.desc → Signed z.desc) ∧ WFDigits L.base z.digits ∧ NoLeadingZero z.digits) := by
  have hc : Keeps (do
      let g ← absGt x.digits (r.get x).digits
      let temp ← Vec.copy env (if g then x.digits else (r.get x).digits)
      let temp ← absSub L env fuel temp (.other (r.get x).digits)
      .ok ⟨x.desc, temp⟩ : Res Bignum) (fun z => (Signed x.desc → Signed z.desc) ∧ WFDigits L.base z.digits ∧ NoLeadingZero z.digits) := by
    refine .bind (.any _) fun g _ => .bind (keeps_copy env _) ?_
    rintro _ rfl
    refine .bind ((keeps_absSub h env fuel (src := .other (r.get x).digits) ?_ (.other hr.1)).and (keeps_absSub_trim _ _ _ _ _)) fun d hd =>
      .ok ⟨id, ⟨hd.1, .inl hd.2⟩, hd.2⟩
    split
    · exact hx.1
    · exact hr.1
  unfold subTry
  refine .ite (fun _ => ?_) fun _ => .ite (fun _ => hc) fun _ => .ite (fun _ => hc) fun _ => ?_
  · refine (keeps_magDiff_wf h env fuel .neg hx.1 hr.1).mono fun z hz => ⟨fun hs => ?_, hz.2⟩
    rcases hz.1 with e | e <;> rw [e]
    · exact hs
    · exact .inr rfl
  · refine (keeps_magDiff_wf h env fuel .pos hx.1 hr.1).mono fun z hz => ⟨fun hs => ?_, hz.2⟩
    rcases hz.1 with e | e <;> rw [e]
    · exact hs
    · exact .inl rfl

theorem absDiv_native_not_ok {L : Limits} (h : Native L) (env : Env) (fuel : Nat) {n dv : List Nat}
    (hd : InRange L.base dv) (hdv : dv ≠ []) (hge : absGe n dv = .ok true) : Keeps (absDiv L env fuel n dv) (fun _ => False) := by
  cases fuel with
  | zero => exact .bind (keeps_copy env _) fun _ _ => Keeps.error
  | succ k =>
    refine .bind (keeps_copy env _) fun res _ => ?_
    rw [loopWhile]
    simp only [hge, ok_bind, if_true]
    refine .bind (P := fun _ => False) (.bind (P := fun _ => False) ?_ fun _ hx => hx.elim) fun _ hx => hx.elim
    refine .bind (keeps_copy env _) fun _ _ => .bind (keeps_copy env _) ?_
    rintro _ rfl
    refine .bind (keeps_copy env _) fun _ _ => ?_
    rw [shl_native h env hd hdv]
    exact Keeps.error

theorem keeps_divTry_wf {L : Limits} (h : Supported L) (env : Env) (fuel : Nat) {d : Desc} {a b : List Nat}
    (ha : NZ L.base a) (hb : WFDigits L.base b) (hb0 : b ≠ [0]) :
    Keeps (divTry L env fuel ⟨d, a⟩ b) (fun c => c.desc = d ∧ WFDigits L.base c.digits) := by
  have hB := h.base_ge
  rcases wf_cases hB hb with ⟨rfl | h0, -⟩ | ⟨hbz, -⟩
  · have hg : absGt a [] = .ok true := by
      unfold absGt; rw [if_pos (by simpa using List.length_pos_iff.2 ha.ne)]
    unfold divTry
    simp only [hg, ok_bind, if_true]
    refine .bind (P := fun _ => False) (fun q hq => ?_) fun _ hx => hx.elim
    exact absurd hq (absDiv_empty_not_ok L env ha.ne _ _)
  · exact absurd h0 hb0
  · by_cases hle : natOf L.base a ≤ natOf L.base b
    · refine .of_mono (mono_divTry L env ⟨d, a⟩ b) (m := fuel + 1) (by omega) ?_
      refine (okOr_divTry_le h env ha hbz hle (by omega)).keeps.mono ?_
      rintro _ rfl
      exact ⟨rfl, by intro x hx; rw [List.mem_singleton.1 hx]; omega, .inr rfl⟩
    · rcases h with h | h
      · have hge : absGe a b = .ok true := by
          rw [absGe_normal (B := L.base) (by omega) ha.rng hbz.rng ha.nlz hbz.nlz]
          exact congrArg Except.ok (decide_eq_true (by omega))
        unfold divTry
        simp only [absGt_of_lt hB ha.rng hbz.rng hbz.nlz (by omega), ok_bind, if_true]
        exact .bind (absDiv_native_not_ok h env fuel hbz.rng hbz.ne hge) fun _ hx => hx.elim
      · refine .of_mono (mono_divTry L env ⟨d, a⟩ b) (m := fuel + natOf L.base a + 2) (by omega) ?_
        exact (okOr_divTry h env ha hbz (by omega) (by omega)).keeps.mono fun c hc => ⟨hc.1, hc.2.1⟩

/-- The objects an operation can leave behind. -/
def Out.All (r : Out) (P : Bignum → Prop) : Prop :=
  match r with
  | .ok b => P b
  | .threw _ b => P b
  | .ub _ => True
  | .timeout => True

theorem all_handle {this : Bignum} {d : Desc} {r : Res Bignum} {P : Bignum → Prop} (h : Keeps r P) (ht : P this)
    (hi : ∀ d, P ⟨d, []⟩) : (handle this d r).All P := by
  rcases hr : r with (k | e | _) | b
  · trivial
  · cases e <;> first | exact hi _ | exact ht
  · trivial
  · exact h b hr

theorem all_strong {this : Bignum} {r : Res Bignum} {P : Bignum → Prop} (h : Keeps r P) (ht : P this) : (strong this r).All P := by
  rcases hr : r with (k | e | _) | b
  · trivial
  · exact ht
  · trivial
  · exact h b hr

/-- Digits stay in range under the compound operators, whatever the operands. -/
theorem all_assign_inRange {F : Type} (o : FloatOps F) {L : Limits} (h : Supported L) (env : Env) (fuel : Nat) (k : Arith)
    {x : Bignum} {r : Rhs} (hx : InRange L.base x.digits) (hr : InRange L.base (r.get x).digits) :
    (k.assign o L env fuel x r).All (fun z => InRange L.base z.digits) := by
  have hn : ∀ d, InRange L.base (⟨d, []⟩ : Bignum).digits := fun _ => .nil _
  have hnc : ∀ y, y = notComputable x r → InRange L.base y.digits := by rintro _ rfl; exact .nil _
  cases k with
  | add =>
    show (addAssign L env fuel x r).All _
    unfold addAssign
    split
    · exact hnc _ rfl
    · exact all_handle (keeps_addTry h env fuel hx hr) hx hn
  | sub =>
    show (subAssign L env fuel x r).All _
    unfold subAssign
    split
    · exact hnc _ rfl
    · exact all_handle (keeps_subTry h env fuel hx hr) hx hn
  | mul =>
    show (mulAssign o L env fuel x r).All _
    unfold mulAssign
    split
    · exact hnc _ rfl
    · exact all_handle (.bind (keeps_mulStrassen o h env fuel _ _) fun d hd => .ok hd.1) hx hn
  | div =>
    show (divAssign L env fuel x r).All _
    rcases hc : isComputable x.desc with _ | _
    · unfold divAssign; rw [hc]; exact hnc _ rfl
    · unfold divAssign
      simp only [hc, Bool.not_true, Bool.false_eq_true, if_false]
      split
      · exact .nil _
      · split
        · exact hx
        · split
          · exact hx
          · exact all_handle (keeps_divTry h env fuel hx (by rw [Rhs.get_digits]; exact hr)) hx hn

/-- Digits stay well formed under the compound operators, whatever the descriptors. -/
theorem all_assign_wf {F : Type} (o : FloatOps F) {L : Limits} (h : Supported L) (env : Env) (fuel : Nat) (k : Arith)
    {x : Bignum} {r : Rhs} (hx : WFDigits L.base x.digits) (hr : WFDigits L.base (r.get x).digits) :
    (k.assign o L env fuel x r).All (fun z => WFDigits L.base z.digits) := by
  have hn : ∀ d, WFDigits L.base (⟨d, []⟩ : Bignum).digits := fun _ => .nil _
  have hnc : ∀ y, y = notComputable x r → WFDigits L.base y.digits := by rintro _ rfl; exact .nil _
  cases k with
  | add =>
    show (addAssign L env fuel x r).All _
    unfold addAssign
    split
    · exact hnc _ rfl
    · exact all_handle ((keeps_addTry_wf h env fuel hx hr).mono fun _ hz => hz.2) hx hn
  | sub =>
    show (subAssign L env fuel x r).All _
    unfold subAssign
    split
    · exact hnc _ rfl
    · exact all_handle ((keeps_subTry_wf h env fuel hx hr).mono fun _ hz => hz.2.1) hx hn
  | mul =>
    show (mulAssign o L env fuel x r).All _
    unfold mulAssign
    split
    · exact hnc _ rfl
    · exact all_handle (.bind (keeps_mulStrassen o h env fuel _ _) fun d hd => .ok ⟨hd.1, .inl hd.2⟩) hx hn
  | div =>
    show (divAssign L env fuel x r).All _
    rcases hc : isComputable x.desc with _ | _
    · unfold divAssign; rw [hc]; exact hnc _ rfl
    · unfold divAssign
      simp only [hc, Bool.not_true, Bool.false_eq_true, if_false, Rhs.get_digits]
      split
      · exact .nil _
      · rename_i h0
        split
        · exact hx
        · split
          · exact hx
          · rename_i h2
            rw [isOneDigit_iff] at h0
            rw [isOneDigit_iff] at h2
            rcases wf_cases h.base_ge hx with ⟨hz, -⟩ | ⟨hz, -⟩
            · exact absurd hz h2
            · exact all_handle ((keeps_divTry_wf h env fuel hz hr h0).mono fun _ hz => hz.2) hx hn

theorem handle_ok {this : Bignum} {d : Desc} {r : Res Bignum} {c : Bignum} (h : handle this d r = .ok c) : r = .ok c := by
  rcases r with (k | e | _) | b
  · cases h
  · cases e <;> cases h
  · cases h
  · cases h; rfl

/-! ### C11 -/

/-- C11: whenever `a += b` returns on well-formed operands (any build, any memory situation), the result is well formed. -/
theorem C11_add {L : Limits} (h : Supported L) (env : Env) (fuel : Nat) {a : Bignum} {r : Rhs} (ha : WF L a) (hb : WF L (r.get a))
    {c : Bignum} (hc : addAssign L env fuel a r = .ok c) : WF L c := by
  rw [addAssign_signed ha.1] at hc
  have := keeps_addTry_wf h env fuel ha.2 hb.2 c (handle_ok hc)
  exact ⟨this.1 ha.1, this.2⟩

example := C11_add (L := .base10) (.inr Sample.base10) releaseEnv 9 (a := Sample.n199) (r := .other Sample.m23) (by sample) (by sample)
  (c := ⟨.pos, [6, 7, 1]⟩) (by decide +kernel)

/-- C11 for `a -= b`, all signs; the result moreover has no leading zero at all. -/
theorem C11_sub {L : Limits} (h : Supported L) (env : Env) (fuel : Nat) {a : Bignum} {r : Rhs} (ha : WF L a) (hb : WF L (r.get a))
    {c : Bignum} (hc : subAssign L env fuel a r = .ok c) : WF L c ∧ NoLeadingZero c.digits := by
  rw [subAssign_signed ha.1] at hc
  have := keeps_subTry_wf h env fuel ha.2 hb.2 c (handle_ok hc)
  exact ⟨⟨this.1 ha.1, this.2.1⟩, this.2.2⟩

example := C11_sub (L := .base10) (.inr Sample.base10) releaseEnv 9 (a := Sample.n199) (r := .other Sample.n23) (by sample) (by sample)
  (c := ⟨.pos, [6, 7, 1]⟩) (by decide +kernel)

/-- C11 for `a *= b`: well formed whatever the floating-point operations do (also when the value is wrong). -/
theorem C11_mul {F : Type} (o : FloatOps F) {L : Limits} (h : Supported L) (env : Env) (fuel : Nat) {a : Bignum} {r : Rhs}
    (ha : Signed a.desc) {c : Bignum} (hc : mulAssign o L env fuel a r = .ok c) : WF L c ∧ NoLeadingZero c.digits := by
  unfold mulAssign at hc
  simp only [isComputable_signed ha, Bool.not_true, Bool.false_eq_true, if_false] at hc
  have h1 := handle_ok hc
  have : Keeps (do
      let d ← mulStrassen o L env fuel a.digits (r.get a).digits
      .ok ⟨mulSign a.desc (r.get a).desc, d⟩ : Res Bignum) (fun c => WF L c ∧ NoLeadingZero c.digits) :=
    .bind (keeps_mulStrassen o h env fuel _ _) fun d hd => .ok ⟨⟨mulSign_mem _ _, hd.1, .inl hd.2⟩, hd.2⟩
  exact this c h1

/-- One digit times one digit in base 10, on any arithmetic that returns. -/
example {F : Type} (o : FloatOps F) (c : Bignum) (hc : mulAssign o .base10 releaseEnv 40 Sample.n2 (.other Sample.m23) = .ok c) :=
  C11_mul o (.inr Sample.base10) releaseEnv 40 (.inl rfl) hc

/-- C11 for `a /= b`: the divisor is not the one-digit zero (then the result is infinite, C33). -/
theorem C11_div {L : Limits} (h : Supported L) (env : Env) (fuel : Nat) {a : Bignum} {r : Rhs} (ha : WF L a) (hb : WF L (r.get a))
    (hb0 : (r.get a).digits ≠ [0]) {c : Bignum} (hc : divAssign L env fuel a r = .ok c) : WF L c := by
  by_cases h1 : (r.get a).digits = [1]
  · rw [divAssign_by_one ha.1 h1] at hc
    cases hc
    exact ⟨mulSign_mem _ _, ha.2⟩
  rcases wf_cases h.base_ge ha.2 with ⟨hz, -⟩ | ⟨hz, -⟩
  · rw [divAssign_of_zero ha.1 hb0 hz] at hc
    cases hc
    exact ⟨mulSign_mem _ _, ha.2⟩
  · rw [divAssign_general ha.1 hb0 h1 hz.ne hz.ne_zero] at hc
    have := keeps_divTry_wf h env fuel hz hb.2 hb0 c (handle_ok hc)
    exact ⟨by rw [this.1]; exact mulSign_mem _ _, this.2⟩

/-- 999 + 1, 100 - 99, 100 / 7 in base 10: operands meeting the hypotheses, and the operators do return. -/
example : addAssign .base10 releaseEnv 10 ⟨.pos, [9, 9, 9]⟩ (.other ⟨.pos, [1]⟩) = .ok ⟨.pos, [0, 0, 0, 1]⟩ ∧
    subAssign .base10 releaseEnv 10 ⟨.neg, [0, 0, 1]⟩ (.other ⟨.neg, [9, 9]⟩) = .ok ⟨.neg, [1]⟩ ∧
    divAssign .base10 releaseEnv 200 ⟨.pos, [0, 0, 1]⟩ (.other ⟨.neg, [7]⟩) = .ok ⟨.neg, [4, 1]⟩ := by
  decide +kernel

/-! ### C55 -/

/-- The digits a statement brings in are digits of base `B`. -/
def Op.DigitsBelow (B : Nat) : Op → Prop
  | .make _ _ l => InRange B l
  | .resize _ _ d => d < B
  | .pushFront _ d => d < B
  | .pushBack _ d => d < B
  | .push _ d _ => d < B
  | .setAt _ _ d => d < B
  | _ => True

theorem rhsOf_get (s : Store) (i j : Nat) : (rhsOf s i j).get (s i) = s j := by
  unfold rhsOf
  split
  · rename_i h; rw [h]; rfl
  · rfl

theorem store_all {s : Store} {i : Nat} {r : Out} {P : Bignum → Prop} (hs : ∀ j, P (s j)) (hr : r.All P) {s' : Store}
    (h : r.store s i = some s') : ∀ j, P (s' j) := by
  intro j
  cases r with
  | ok b => cases h; unfold Store.set; split; exact hr; exact hs j
  | threw e b => cases h; unfold Store.set; split; exact hr; exact hs j
  | ub k => cases h
  | timeout => cases h

theorem set_all {s : Store} {i : Nat} {b : Bignum} {P : Bignum → Prop} (hs : ∀ j, P (s j)) (hb : P b) : ∀ j, P (s.set i b j) := by
  intro j; unfold Store.set; split; exact hb; exact hs j

/-- The constructor, in whatever memory situation it succeeds. -/
theorem keeps_ofList (env : Env) (d : Desc) (l : List Nat) :
    Keeps (ofList env d l) (· = ⟨d, (l.dropWhile (· == 0)).reverse⟩) := by
  intro b hb
  have h1 : ofList releaseEnv d l = .ok b := by
    unfold ofList at hb ⊢
    split
    · rename_i h0; simpa [h0] using hb
    · rename_i h0
      simp only [h0, if_false] at hb ⊢
      unfold Vec.resize at hb ⊢
      split
      · rename_i h2; simpa only [h2, if_true] using hb
      · rename_i h2
        simp only [h2, if_false] at hb
        cases ha : env.alloc (l.length - countLeading l) with
        | true => rw [ha] at hb; exact hb
        | false => rw [ha] at hb; cases hb
  rw [ofList_eq (env := releaseEnv) (fun _ => rfl)] at h1
  cases h1; rfl

theorem all_copyAssign {env : Env} {x y : Bignum} {P : List Nat → Prop} (hx : P x.digits) (hy : P y.digits) :
    (copyAssign env x y).All (fun z => P z.digits) := by
  unfold copyAssign
  rcases hc : Vec.copy env y.digits with (k | e | _) | d
  · trivial
  · exact hx
  · trivial
  · have := keeps_copy env _ _ hc
    rw [this]; exact hy

theorem keeps_viaCopy {env : Env} {f : Bignum → Rhs → Out} {x y : Bignum} {P : Bignum → Prop} (h : (f x (.other y)).All P) :
    Keeps (viaCopy env f x y) P := by
  refine .bind (keeps_bcopy env x) ?_
  rintro _ rfl
  cases hf : f _ (.other y) with
  | ok b => rw [hf] at h; exact .ok h
  | threw e b => exact Keeps.error
  | ub k => exact Keeps.error
  | timeout => exact Keeps.error

theorem InRange.set {B : Nat} {l : List Nat} (h : InRange B l) {d : Nat} (hd : d < B) (i : Nat) : InRange B (l.set i d) := by
  intro x hx
  rcases List.mem_or_eq_of_mem_set hx with h1 | h1
  · exact h x h1
  · rw [h1]; exact hd

theorem step_inRange {F : Type} (o : FloatOps F) {L : Limits} (h : Supported L) (env : Env) (fuel : Nat) {s s' : Store} {op : Op}
    (hs : ∀ i, InRange L.base (s i).digits) (hop : op.DigitsBelow L.base) (hr : op.step o L env fuel s = some s') :
    ∀ i, InRange L.base (s' i).digits := by
  have hins : ∀ (i p d : Nat), d < L.base → Keeps (Vec.insert env (s i).digits p d) (InRange L.base) := by
    intro i p d hd
    unfold Vec.insert
    refine .ite (fun _ => Keeps.error) fun _ => .ite (fun _ => .ok ?_) fun _ => Keeps.error
    refine .of_append ?_ ?_
    · exact fun x hx => hs i x (List.mem_of_mem_take hx)
    · intro x hx
      rcases List.mem_cons.1 hx with h1 | h1
      · rw [h1]; exact hd
      · exact hs i x (List.mem_of_mem_drop h1)
  have hera : ∀ (i p : Nat), Keeps (Vec.erase (s i).digits p) (InRange L.base) := by
    intro i p
    exact .ite (fun _ => .ok fun x hx => hs i x (List.mem_of_mem_eraseIdx hx)) fun _ => Keeps.error
  cases op with
  | make i d l =>
    refine store_all (P := fun b => InRange L.base b.digits) hs (all_strong ((keeps_ofList env d l).mono ?_) (hs i)) hr
    rintro _ rfl
    intro x hx
    exact hop x (List.dropWhile_sublist _ |>.subset (List.mem_reverse.1 hx))
  | copy i j =>
    simp only [Op.step] at hr
    split at hr
    · cases hr; exact hs
    · exact store_all (P := fun b => InRange L.base b.digits) hs (all_copyAssign (hs i) (hs j)) hr
  | move i j =>
    simp only [Op.step] at hr
    split at hr
    · cases hr
    · cases hr
      exact set_all (P := fun b => InRange L.base b.digits) (set_all (P := fun b => InRange L.base b.digits) hs (hs j)) (.nil _)
  | setDescriptor i d =>
    cases hr
    refine set_all (P := fun b => InRange L.base b.digits) hs ?_
    cases d <;> first | exact hs i | exact .nil _
  | resize i n d =>
    refine store_all (P := fun b => InRange L.base b.digits) hs (all_strong (.bind (P := InRange L.base) ?_ fun _ hd => .ok hd) (hs i)) hr
    unfold Vec.resize
    refine .ite (fun _ => .ok fun x hx => hs i x (List.mem_of_mem_take hx)) fun _ => .ite (fun _ => .ok ?_) fun _ => Keeps.error
    exact .of_append (hs i) fun x hx => by rw [List.eq_of_mem_replicate hx]; exact hop
  | pushFront i d => exact store_all (P := fun b => InRange L.base b.digits) hs (all_strong (.bind (hins i 0 d hop) fun _ hd => .ok hd) (hs i)) hr
  | popFront i => exact store_all (P := fun b => InRange L.base b.digits) hs (all_strong (.bind (hera i 0) fun _ hd => .ok hd) (hs i)) hr
  | pushBack i d =>
    refine store_all (P := fun b => InRange L.base b.digits) hs (all_strong (.bind (P := InRange L.base) ?_ fun _ hd => .ok hd) (hs i)) hr
    exact .ite (fun _ => .ok (.of_append (hs i) (.single hop))) fun _ => Keeps.error
  | popBack i =>
    refine store_all (P := fun b => InRange L.base b.digits) hs (all_strong (.bind (P := InRange L.base) ?_ fun _ hd => .ok hd) (hs i)) hr
    exact .ite (fun _ => Keeps.error) fun _ => .ok fun x hx => hs i x (List.mem_of_mem_dropLast hx)
  | push i d p => exact store_all (P := fun b => InRange L.base b.digits) hs (all_strong (.bind (hins i p d hop) fun _ hd => .ok hd) (hs i)) hr
  | pop i p => exact store_all (P := fun b => InRange L.base b.digits) hs (all_strong (.bind (hera i p) fun _ hd => .ok hd) (hs i)) hr
  | setAt i k d =>
    refine store_all (P := fun b => InRange L.base b.digits) hs (all_strong (.ite (fun _ => .bind (P := InRange L.base) ?_ fun _ hd => .ok hd) fun _ => Keeps.error) (hs i)) hr
    exact .ite (fun _ => .ok ((hs i).set hop k)) fun _ => Keeps.error
  | clear i => cases hr; exact set_all (P := fun b => InRange L.base b.digits) hs (.nil _)
  | arith k i j => exact store_all (P := fun b => InRange L.base b.digits) hs (all_assign_inRange o h env fuel k (hs i) (by rw [rhsOf_get]; exact hs j)) hr
  | binary k i j l =>
    exact store_all (P := fun b => InRange L.base b.digits) hs (all_strong (keeps_viaCopy (all_assign_inRange o h env fuel k (r := .other (s l)) (hs j) (hs l))) (hs i)) hr

/-- C55: after any sequence of statements — including ones that throw — every digit of every object is a digit of the base,
for every digit type, whatever the floating-point unit and the allocator do. -/
theorem C55_digits_in_range {F : Type} (o : FloatOps F) {L : Limits} (h : Supported L) (fuel : Nat) :
    ∀ (ops : List Op) (env : Nat → Env) (s s' : Store), (∀ i, InRange L.base (s i).digits) →
      (∀ op ∈ ops, op.DigitsBelow L.base) → run o L fuel env s ops = some s' → ∀ i, InRange L.base (s' i).digits
  | [], _, s, s', hs, _, hr => by cases hr; exact hs
  | op :: ops, env, s, s', hs, hops, hr => by
    unfold run at hr
    cases hst : op.step o L (env 0) fuel s with
    | none => rw [hst] at hr; cases hr
    | some s1 =>
      rw [hst] at hr
      exact C55_digits_in_range o h fuel ops _ s1 s' (step_inRange o h (env 0) fuel hs (hops op (by simp)) hst)
        (fun op' ho => hops op' (by simp [ho])) hr

example {F : Type} (o : FloatOps F) := C55_digits_in_range o (L := .base10) (.inr Sample.base10) 9 [.pushFront 0 7, .arith .add 0 1]
  (fun _ => releaseEnv) (fun _ => Sample.n199) _ (fun _ => by sample) (by simp [Op.DigitsBelow]; decide) rfl

/-- A program starts with default-constructed objects. -/
theorem C55_from_start {F : Type} (o : FloatOps F) {L : Limits} (h : Supported L) (env : Nat → Env) (fuel : Nat) (ops : List Op)
    (hops : ∀ op ∈ ops, op.DigitsBelow L.base) (s' : Store) (hr : run o L fuel env (fun _ => Bignum.default) ops = some s') (i k : Nat)
    (d : Nat) (hd : (s' i).at_ k = .ok d) : d < L.base := by
  have := C55_digits_in_range o h fuel ops env _ s' (fun _ => .nil _) hops hr i
  unfold at_ at hd
  split at hd
  · unfold Vec.rd at hd
    rename_i hk
    rw [List.getElem?_eq_getElem hk] at hd
    cases hd
    exact this _ (List.getElem_mem hk)
  · cases hd

/-- A history with a statement that throws (subscript out of range), an aliased addition and a subtraction. -/
example {F : Type} (o : FloatOps F) : ∃ s', run o .base10 10 (fun _ => releaseEnv) (fun _ => Bignum.default)
      [.make 0 .pos [0, 9, 9], .setAt 0 5 1, .arith .add 0 0, .pushFront 0 7, .make 1 .pos [8], .binary .sub 2 0 1, .copy 3 2] = some s' ∧
    s' 0 = ⟨.pos, [7, 8, 9, 1]⟩ ∧ s' 2 = ⟨.pos, [9, 7, 9, 1]⟩ ∧ s' 3 = s' 2 ∧
    ∀ op ∈ [Op.make 0 .pos [0, 9, 9], .setAt 0 5 1, .arith .add 0 0, .pushFront 0 7, .make 1 .pos [8], .binary .sub 2 0 1, .copy 3 2],
      op.DigitsBelow Limits.base10.base :=
  ⟨_, rfl, rfl, rfl, rfl, by
    simp [Op.DigitsBelow, InRange, Limits.base, Limits.base10, Limits.custom]⟩

/-! ### C58 -/

/-- C58: addition returns, throws or faults within max(len)+1 rounds, for all operands (no well-formedness needed). -/
theorem C58_add_terminates {L : Limits} (h : Supported L) (env : Env) (x : Bignum) (r : Rhs) {fuel : Nat}
    (hf : max x.digits.length (r.get x).digits.length < fuel) : addAssign L env fuel x r ≠ .timeout := by
  unfold addAssign
  split
  · simp
  · exact handle_halts (halts_addTry h env hf).1

example := C58_add_terminates (L := .base10) (.inr Sample.base10) ⟨fun n => decide (n < 2), true⟩ Sample.n199 (.other Sample.m23)
  (fuel := 4) (by decide)

/-- C58 for subtraction. -/
theorem C58_sub_terminates (L : Limits) (env : Env) (x : Bignum) (r : Rhs) {fuel : Nat}
    (hf : max x.digits.length (r.get x).digits.length < fuel) : subAssign L env fuel x r ≠ .timeout := by
  unfold subAssign
  split
  · simp
  · exact handle_halts (halts_subTry L env hf).1

example := C58_sub_terminates .base10 ⟨fun n => decide (n < 2), true⟩ Sample.n199 (.other Sample.m23) (fuel := 4) (by decide)

/-- C58 for division by a non-zero divisor with a custom base: every loop needs at most value(a)+2 rounds. -/
theorem C58_div_terminates {L : Limits} (h : Custom L) (env : Env) {a : Bignum} {r : Rhs} (ha : WF L a) (hb : WF L (r.get a))
    (hb0 : (r.get a).mag L ≠ 0) {fuel : Nat} (hf : a.mag L + 2 ≤ fuel) : divAssign L env fuel a r ≠ .timeout := by
  have hB := h.supported.base_ge
  by_cases hne : a.mag L = (r.get a).mag L
  · by_cases h2 : 2 ≤ a.mag L
    · rw [C32_self_division_is_zero h.supported ha hb hne h2]; simp
    · have h1 : (r.get a).digits = [1] := by
        rcases wf_cases hB hb.2 with ⟨-, h0⟩ | ⟨hz, -⟩
        · exact absurd h0 hb0
        · refine natOf_unique (B := L.base) (by omega) hz.rng ?_ hz.nlz (by simp [NoLeadingZero]) ?_
          · intro d hd; rw [List.mem_singleton.1 hd]; omega
          · have : natOf L.base (r.get a).digits = 1 := by unfold Bignum.mag at hb0 hne h2; omega
            rw [this]; simp [natOf]
      rw [divAssign_by_one ha.1 h1]; simp
  · cases r with
    | self => exact absurd rfl hne
    | other b =>
      rcases C40_div (b := b) h env ha hb hb0 hne hf with ⟨c, hc, -⟩ | hc <;> rw [hc] <;> simp

example := C58_div_terminates (L := .base10) Sample.base10 ⟨fun n => decide (n < 2), true⟩ (a := Sample.n199) (r := .other Sample.m23)
  (by sample) (by sample) (by sample) (fuel := 201) (by decide)

/-- Once an operator has come to an end, a larger budget changes nothing: outcomes do not depend on the budget. -/
theorem C58_budget_irrelevant {F : Type} (o : FloatOps F) (L : Limits) (env : Env) (k : Arith) (x : Bignum) (r : Rhs) {n m : Nat}
    (hnm : n ≤ m) (h : k.assign o L env n x r ≠ .timeout) : k.assign o L env m x r = k.assign o L env n x r := by
  cases k with
  | add => exact mono_addAssign L env x r n m hnm h
  | sub => exact mono_subAssign L env x r n m hnm h
  | mul => exact mono_mulAssign o L env x r n m hnm h
  | div => exact mono_divAssign L env x r n m hnm h

example {F : Type} (o : FloatOps F) := C58_budget_irrelevant o .base10 releaseEnv .add Sample.n199 (.other Sample.n23) (n := 4) (m := 9)
  (by decide) (show addAssign .base10 releaseEnv 4 Sample.n199 (.other Sample.n23) ≠ .timeout by decide +kernel)

/-- Every operator call either comes to one definite end or runs forever. -/
theorem C58_one_outcome {F : Type} (o : FloatOps F) (L : Limits) (env : Env) (k : Arith) (x : Bignum) (r : Rhs) :
    Diverges (fun n => k.assign o L env n x r) ∨ ∃ out, out ≠ .timeout ∧ Evaluates (fun n => k.assign o L env n x r) out := by
  by_cases h : ∃ n, k.assign o L env n x r ≠ .timeout
  · obtain ⟨n, hn⟩ := h
    exact .inr ⟨_, hn, n, fun m hm => C58_budget_irrelevant o L env k x r hm hn⟩
  · exact .inl fun n => not_not.1 fun hn => h ⟨n, hn⟩

example : WF .base10 ⟨.pos, [3, 2, 1]⟩ ∧ WF .base10 ⟨.neg, [7]⟩ ∧ (⟨.neg, [7]⟩ : Bignum).mag .base10 ≠ 0 :=
  ⟨⟨.inl rfl, wfd_lits (by decide) (by simp [NoLeadingZero])⟩, ⟨.inr rfl, wfd_lits (by decide) (by simp [NoLeadingZero])⟩, by decide⟩

/-! ### C59 -/

/-- Statements that treat numbers as a whole: no digit is pushed, popped, resized or assigned by hand. -/
def Op.Whole : Op → Prop
  | .make _ _ _ => True
  | .copy _ _ => True
  | .move _ _ => True
  | .setDescriptor _ _ => True
  | .clear _ => True
  | .arith _ _ _ => True
  | .binary _ _ _ _ => True
  | _ => False

theorem dropWhile_noLeadingZero (l : List Nat) : NoLeadingZero (l.dropWhile (· == 0)).reverse := by
  unfold NoLeadingZero
  rw [List.getLast?_reverse]
  intro h
  have := List.head?_dropWhile_not (fun x : Nat => x == 0) l
  rw [h] at this
  simp at this

theorem step_wf {F : Type} (o : FloatOps F) {L : Limits} (h : Supported L) (env : Env) (fuel : Nat) {s s' : Store} {op : Op}
    (hs : ∀ i, WFDigits L.base (s i).digits) (hop : op.DigitsBelow L.base) (hw : op.Whole) (hr : op.step o L env fuel s = some s') :
    ∀ i, WFDigits L.base (s' i).digits := by
  cases op with
  | make i d l =>
    refine store_all (P := fun b => WFDigits L.base b.digits) hs (all_strong ((keeps_ofList env d l).mono ?_) (hs i)) hr
    rintro _ rfl
    exact ⟨fun x hx => hop x (List.dropWhile_sublist _ |>.subset (List.mem_reverse.1 hx)), .inl (dropWhile_noLeadingZero l)⟩
  | copy i j =>
    simp only [Op.step] at hr
    split at hr
    · cases hr; exact hs
    · exact store_all (P := fun b => WFDigits L.base b.digits) hs (all_copyAssign (hs i) (hs j)) hr
  | move i j =>
    simp only [Op.step] at hr
    split at hr
    · cases hr
    · cases hr
      exact set_all (P := fun b => WFDigits L.base b.digits) (set_all (P := fun b => WFDigits L.base b.digits) hs (hs j)) (.nil _)
  | setDescriptor i d =>
    cases hr
    refine set_all (P := fun b => WFDigits L.base b.digits) hs ?_
    cases d <;> first | exact hs i | exact .nil _
  | clear i => cases hr; exact set_all (P := fun b => WFDigits L.base b.digits) hs (.nil _)
  | arith k i j =>
    exact store_all (P := fun b => WFDigits L.base b.digits) hs (all_assign_wf o h env fuel k (hs i) (by rw [rhsOf_get]; exact hs j)) hr
  | binary k i j l =>
    exact store_all (P := fun b => WFDigits L.base b.digits) hs
      (all_strong (keeps_viaCopy (all_assign_wf o h env fuel k (r := .other (s l)) (hs j) (hs l))) (hs i)) hr
  | resize => exact hw.elim
  | pushFront => exact hw.elim
  | popFront => exact hw.elim
  | pushBack => exact hw.elim
  | popBack => exact hw.elim
  | push => exact hw.elim
  | pop => exact hw.elim
  | setAt => exact hw.elim

/-- C59: a program that never edits digits by hand only ever holds well-formed numbers (digits in range, no leading zero
except the one-digit zero), whatever signs and special values occur and whatever exceptions are thrown on the way. -/
theorem C59_well_formed {F : Type} (o : FloatOps F) {L : Limits} (h : Supported L) (fuel : Nat) :
    ∀ (ops : List Op) (env : Nat → Env) (s s' : Store), (∀ i, WFDigits L.base (s i).digits) →
      (∀ op ∈ ops, op.Whole ∧ op.DigitsBelow L.base) → run o L fuel env s ops = some s' →
      ∀ i, WFDigits L.base (s' i).digits ∧ (Signed (s' i).desc → WF L (s' i))
  | [], _, s, s', hs, _, hr => by cases hr; exact fun i => ⟨hs i, fun hd => ⟨hd, hs i⟩⟩
  | op :: ops, env, s, s', hs, hops, hr => by
    unfold run at hr
    cases hst : op.step o L (env 0) fuel s with
    | none => rw [hst] at hr; cases hr
    | some s1 =>
      rw [hst] at hr
      exact C59_well_formed o h fuel ops _ s1 s' (step_wf o h (env 0) fuel hs (hops op (by simp)).2 (hops op (by simp)).1 hst)
        (fun op' ho => hops op' (by simp [ho])) hr

/-- 21 - 21 = 0 without digits, then 0 + 0, a negation and 100 / 7. -/
example {F : Type} (o : FloatOps F) : ∃ s', run o .base10 150 (fun _ => releaseEnv) (fun _ => Bignum.default)
      [.make 0 .pos [2, 1], .arith .sub 0 0, .arith .add 0 0, .make 1 .neg [1, 0, 0], .make 2 .neg [7], .binary .div 3 1 2,
       .setDescriptor 3 .neg] = some s' ∧ s' 0 = ⟨.pos, [0]⟩ ∧ s' 3 = ⟨.neg, [4, 1]⟩ ∧
    ∀ op ∈ [Op.make 0 .pos [2, 1], .arith .sub 0 0, .arith .add 0 0, .make 1 .neg [1, 0, 0], .make 2 .neg [7], .binary .div 3 1 2,
       .setDescriptor 3 .neg], op.Whole ∧ op.DigitsBelow Limits.base10.base :=
  ⟨_, rfl, by decide +kernel, by decide +kernel, by
    simp [Op.DigitsBelow, Op.Whole, InRange, Limits.base, Limits.base10, Limits.custom]⟩

/-! ### C60 -/

/-- C60 fails: when the digits cannot be copied, `x = y` throws but has already changed the sign of `x`. -/
theorem C60_refuted : ∃ (env : Env) (x y s : Bignum), WF .base10 x ∧ WF .base10 y ∧
    copyAssign env x y = .threw .badAlloc s ∧ s.toInt .base10 ≠ x.toInt .base10 ∧ s.toInt .base10 ≠ y.toInt .base10 :=
  ⟨⟨fun n => decide (n < 2), false⟩, ⟨.pos, [5]⟩, ⟨.neg, [1, 2]⟩, ⟨.neg, [5]⟩,
    ⟨.inl rfl, wfd_lits (by decide) (by simp [NoLeadingZero])⟩, ⟨.inr rfl, wfd_lits (by decide) (by simp [NoLeadingZero])⟩,
    by decide, by decide, by decide⟩

/-- What holds: copy assignment yields the source, or throws `bad_alloc` keeping the digits under the source's descriptor; so it is
all-or-nothing when the descriptors agree. Missing: operands with different descriptors. -/
theorem C60_copy_assign_partial (env : Env) (x y : Bignum) :
    copyAssign env x y = .ok y ∨
    (copyAssign env x y = .threw .badAlloc ⟨y.desc, x.digits⟩ ∧ env.alloc y.digits.length = false ∧
      (x.desc = y.desc → (⟨y.desc, x.digits⟩ : Bignum) = x)) := by
  unfold copyAssign Vec.copy
  by_cases h0 : y.digits = []
  · left; rw [if_pos h0, ← h0]
  · rw [if_neg h0]
    cases ha : env.alloc y.digits.length with
    | true => left; rfl
    | false => right; exact ⟨rfl, rfl, fun h => by rw [← h]⟩

/-- The binary operators leave their operands alone and, when they throw, the target of the assignment too. -/
theorem C60_binary_throw_keeps {F : Type} (o : FloatOps F) (L : Limits) (env : Env) (fuel : Nat) (k : Arith) (i j l : Nat) (s s' : Store)
    (e : Exn) (he : k.binary o L env fuel (s j) (s l) = .error (.exn e))
    (hr : (Op.binary k i j l).step o L env fuel s = some s') : s' = s := by
  simp only [Op.step, he, strong, Out.store, Option.some.injEq] at hr
  rw [← hr]
  funext n
  unfold Store.set
  split
  · rename_i h; rw [h]
  · rfl

example {F : Type} (o : FloatOps F) := C60_binary_throw_keeps o .base10 ⟨fun n => decide (n < 2), false⟩ 9 .add 0 0 1
  (fun i => if i = 0 then Sample.n199 else Sample.n1) _ .badAlloc rfl rfl

end BN
