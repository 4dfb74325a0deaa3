import Verif.Lemmas.Outcome
import Verif.Lemmas.Div
import Verif.Lemmas.MulStrassen
/-
Partial correctness: what holds of a result if there is one, whatever the fuel; digit ranges through all operations.
-/
namespace BN

/-- If the computation returns normally, the result satisfies `P`. -/
def Keeps {α : Type} (r : Res α) (P : α → Prop) : Prop := ∀ x, r = .ok x → P x

theorem Keeps.ok {α : Type} {x : α} {P : α → Prop} (h : P x) : Keeps (.ok x) P := by intro y hy; cases hy; exact h
theorem Keeps.error {α : Type} {f : Fault} {P : α → Prop} : Keeps (.error f : Res α) P := by intro y hy; cases hy
theorem Keeps.bind {α β : Type} {r : Res α} {P : α → Prop} {f : α → Res β} {Q : β → Prop} (h : Keeps r P)
    (hf : ∀ x, P x → Keeps (f x) Q) : Keeps (r >>= f) Q := by
  cases r with
  | ok x => rw [ok_bind]; exact hf x (h x rfl)
  | error e => rw [error_bind]; exact .error
theorem Keeps.any {α : Type} (r : Res α) : Keeps r (fun _ => True) := fun _ _ => trivial
theorem Keeps.ite {α : Type} {p : Prop} [Decidable p] {x y : Res α} {P : α → Prop} (hx : p → Keeps x P) (hy : ¬ p → Keeps y P) :
    Keeps (if p then x else y) P := by
  split
  · exact hx ‹_›
  · exact hy ‹_›
theorem Keeps.mono {α : Type} {r : Res α} {P Q : α → Prop} (h : Keeps r P) (hpq : ∀ x, P x → Q x) : Keeps r Q :=
  fun x hx => hpq x (h x hx)
theorem OkOr.keeps {α : Type} {env : Env} {r : Res α} {P : α → Prop} (h : OkOr env r P) : Keeps r P := by
  rcases h with ⟨x, rfl, hx⟩ | ⟨e, -, rfl⟩
  · exact .ok hx
  · exact .error

theorem keeps_forever {σ : Type} {body : σ → Res (σ × Bool)} {I : σ → Prop} (h : ∀ s, I s → Keeps (body s) (fun p => I p.1)) :
    ∀ (n : Nat) (s : σ), I s → Keeps (loopForever body n s) I
  | 0, _, _ => .error
  | n + 1, s, hs => by
    rw [loopForever]
    exact .bind (h s hs) fun p hp => .ite (fun _ => .ok hp) fun _ => keeps_forever h n _ hp
theorem keeps_while {σ : Type} {cond : σ → Res Bool} {body : σ → Res σ} {I : σ → Prop} (h : ∀ s, I s → Keeps (body s) I) :
    ∀ (n : Nat) (s : σ), I s → Keeps (loopWhile cond body n s) I
  | 0, _, _ => .error
  | n + 1, s, hs => by
    rw [loopWhile]
    exact .bind (.any _) fun p _ => .ite (fun _ => .bind (h s hs) fun s' hs' => keeps_while h n s' hs') fun _ => .ok hs

theorem InRange.parts {B : Nat} {l m : List Nat} (h : InRange B (l ++ m)) : InRange B l ∧ InRange B m :=
  ⟨fun d hd => h d (List.mem_append_left _ hd), fun d hd => h d (List.mem_append_right _ hd)⟩
theorem InRange.of_append {B : Nat} {l m : List Nat} (hl : InRange B l) (hm : InRange B m) : InRange B (l ++ m) := by
  intro d hd; rcases List.mem_append.1 hd with h | h
  · exact hl d h
  · exact hm d h
theorem InRange.single {B d : Nat} (h : d < B) : InRange B [d] := by intro x hx; rw [List.mem_singleton.1 hx]; exact h
theorem InRange.dropp {B : Nat} {l : List Nat} (h : InRange B l) (n : Nat) : InRange B (l.drop n) :=
  fun d hd => h d (List.mem_of_mem_drop hd)
theorem InRange.takee {B : Nat} {l : List Nat} (h : InRange B l) (n : Nat) : InRange B (l.take n) :=
  fun d hd => h d (List.mem_of_mem_take hd)

/-- The digits of a source are in range whenever those of the modified container are. -/
def SrcIn (B : Nat) (src : Src) : Prop := ∀ out, InRange B out → InRange B (src.get out)

theorem SrcIn.other {B : Nat} {l : List Nat} (h : InRange B l) : SrcIn B (.other l) := fun _ _ => h
theorem SrcIn.self {B : Nat} : SrcIn B .self := fun _ h => h
theorem SrcIn.suffix {B : Nat} {src : Src} (h : SrcIn B src) {P R : List Nat} (hR : InRange B (P ++ R)) :
    InRange B (src.suffix P R) := by
  cases src with
  | other l => exact (h _ hR : InRange B l).dropp _
  | self => exact hR.parts.2

/-- Invariant of the addition loop. -/
def AddInv (L : Limits) (s : AddSt) : Prop :=
  ∃ P R c, c ≤ 1 ∧ s = ⟨P ++ R, P.length, P.length, L.sgl c⟩ ∧ InRange L.base (P ++ R)

theorem keeps_addBody {L : Limits} (h : Supported L) (env : Env) {src : Src} (hs : SrcIn L.base src) (s : AddSt) (hi : AddInv L s) :
    Keeps (addBody L env src s) (fun p => AddInv L p.1) := by
  obtain ⟨P, R, c, hc, rfl, hr⟩ := hi
  have hB := h.base_ge
  have hS := hs.suffix hr
  rw [addBody_eq h env src P R hc hr.parts.2 hS]
  refine .ite (fun _ => .error) fun _ => .ok ⟨_, _, _, ?_, rfl, ?_⟩
  · exact carry_le (headD_lt hB hr.parts.2) (headD_lt hB hS) hc
  · exact ((hr.parts.1).of_append (.single (Nat.mod_lt _ (by omega)))).of_append hr.parts.2.tl

theorem keeps_absAdd {L : Limits} (h : Supported L) (env : Env) (fuel : Nat) {out : List Nat} {src : Src} (ho : InRange L.base out)
    (hs : SrcIn L.base src) : Keeps (absAdd L env fuel out src) (InRange L.base) := by
  refine .bind (keeps_forever (I := AddInv L) (keeps_addBody h env hs) fuel _ ⟨[], out, 0, by omega, ?_, ho⟩) ?_
  · rw [← toSingle_small h (by omega : (0 : Nat) ≤ 1)]; rfl
  · rintro _ ⟨P, R, c, -, rfl, hr⟩
    exact .ok hr

/-- Invariant of the subtraction loop. -/
def SubInv (L : Limits) (s : SubSt) : Prop :=
  ∃ P R b, b ≤ 1 ∧ s = ⟨P ++ R, P.length, P.length, L.dbl b⟩ ∧ InRange L.base (P ++ R)

theorem keeps_subBody {L : Limits} (h : Supported L) {src : Src} (hs : SrcIn L.base src) (s : SubSt) (hi : SubInv L s) :
    Keeps (subBody L src s) (fun p => SubInv L p.1) := by
  obtain ⟨P, R, b, hb, rfl, hr⟩ := hi
  have hB := h.base_ge
  have hS := hs.suffix hr
  cases R with
  | nil =>
    rw [List.append_nil, subBody_ub h src P b hS]; exact .error
  | cons x R =>
    rw [subBody_eq h src P x R hb hr.parts.2 hS]
    have hx : x < L.base := hr x (by simp)
    have hy := headD_lt hB hS
    refine .ok ⟨_, _, _, ?_, rfl, ((hr.parts.1).of_append (.single ?_)).of_append hr.parts.2.tl⟩
    · split <;> omega
    · split <;> omega

theorem keeps_absSub {L : Limits} (h : Supported L) (env : Env) (fuel : Nat) {a : List Nat} {src : Src} (ha : InRange L.base a)
    (hs : SrcIn L.base src) : Keeps (absSub L env fuel a src) (InRange L.base) := by
  refine .bind (.any _) fun _ _ => .bind (keeps_forever (I := SubInv L) (keeps_subBody h hs) fuel _ ⟨[], a, 0, by omega, ?_, ha⟩) ?_
  · rw [← toDouble_small h (by omega : (0 : Nat) ≤ 1)]; rfl
  · rintro _ ⟨P, R, b, -, rfl, hr⟩
    rw [popZeros_eq]
    exact .ok (trim_inRange hr)

theorem keeps_shl {L : Limits} (h : Supported L) (env : Env) {l : List Nat} (hl : InRange L.base l) :
    Keeps (shiftLeft1 L env l) (InRange L.base) := by
  rcases h with h | h
  · by_cases hne : l = []
    · rw [hne]; exact .ok (.nil _)
    · rw [shl_native h env hl hne]; exact .error
  · refine (okOr_shl h env hl).keeps.mono ?_
    rintro _ rfl
    exact addRest_inRange h.supported.base_ge _ _ _ hl hl (by omega)

theorem keeps_copy (env : Env) (v : List Nat) : Keeps (Vec.copy env v) (· = v) := (okOr_copy env v).keeps

theorem store_small {L : Limits} (h : Supported L) {n : Nat} (hn : n ≤ 1) : L.store (L.toSingle n) < L.base := by
  have hB := h.base_ge
  rw [toSingle_small h hn]
  have : L.store (L.sgl n) = n := by
    have hn' : n = 0 ∨ n = 1 := by omega
    refine supported_cases (P := fun L => L.store (L.sgl n) = n) h ?_ ?_ ?_ ?_ ?_ ?_ ?_ ?_ ?_ ?_ <;> rcases hn' with rfl | rfl
    all_goals first | rfl | (intros; rfl)
  omega

theorem keeps_search {L : Limits} (h : Supported L) (env : Env) (n : List Nat) (fuel : Nat) {s : SearchSt}
    (hs : InRange L.base s.bsrch0 ∧ InRange L.base s.bsrch1 ∧ InRange L.base s.q) :
    Keeps (loopWhile (fun t => absGe n t.bsrch1) (searchBody L env) fuel s)
      (fun s => InRange L.base s.bsrch0 ∧ InRange L.base s.bsrch1 ∧ InRange L.base s.q) := by
  refine keeps_while (fun s hs => ?_) fuel s hs
  unfold searchBody
  refine .bind (keeps_copy env _) ?_
  rintro _ rfl
  exact .bind (keeps_shl h env hs.2.1) fun b1 hb1 => .bind (keeps_shl h env hs.2.2) fun q hq => .ok ⟨hs.2.1, hb1, hq⟩

theorem keeps_divBody {L : Limits} (h : Supported L) (env : Env) (fuel : Nat) {dv : List Nat} (hdv : InRange L.base dv) (s : DivSt)
    (hs : InRange L.base s.dividend ∧ InRange L.base s.res) :
    Keeps (divBody L env fuel dv s) (fun s => InRange L.base s.dividend ∧ InRange L.base s.res) := by
  unfold divBody
  refine .bind (keeps_copy env _) ?_
  rintro _ rfl
  refine .bind (keeps_copy env _) ?_
  rintro _ rfl
  refine .bind (keeps_copy env _) ?_
  rintro _ rfl
  refine .bind (keeps_shl h env hdv) fun b1 hb1 => .bind (keeps_search h env _ fuel ⟨hdv, hb1, .single (store_small h (n := 1) (by omega))⟩) ?_
  rintro t ⟨h0, -, hq⟩
  refine .bind (keeps_absSub h env fuel hs.1 (.other h0)) fun d hd => .ite (fun _ => ?_) fun _ => ?_
  · exact .bind (keeps_absAdd h env fuel hs.2 (.other hq)) fun r hr => .ok ⟨hd, hr⟩
  · exact .bind (keeps_absAdd h env fuel hq (.other hs.2)) fun r hr => .ok ⟨hd, hr⟩

theorem keeps_absDiv {L : Limits} (h : Supported L) (env : Env) (fuel : Nat) {n dv : List Nat} (hn : InRange L.base n)
    (hdv : InRange L.base dv) : Keeps (absDiv L env fuel n dv) (InRange L.base) := by
  unfold absDiv
  refine .bind (keeps_copy env _) ?_
  rintro _ rfl
  refine .bind (keeps_while (I := fun s => InRange L.base s.dividend ∧ InRange L.base s.res) (keeps_divBody h env fuel hdv) fuel _
    ⟨hn, .single (store_small h (n := 0) (by omega))⟩) fun s hs => .ok hs.2

theorem keeps_mulStrassen {F : Type} (o : FloatOps F) {L : Limits} (h : Supported L) (env : Env) (fuel : Nat) (a b : List Nat) :
    Keeps (mulStrassen o L env fuel a b) (fun c => InRange L.base c ∧ NoLeadingZero c) := by
  unfold mulStrassen
  refine .ite (fun _ => .error) fun _ => .bind (.any _) fun _ _ => .bind (.any _) fun _ _ => .bind (.any _) fun inv _ => ?_
  rcases carryLoop_cases o h (inv.map Cx.re) 0 with e | ⟨ds, e, -, hr⟩
  · rw [e]; exact .error
  · rw [e, ok_bind, stripTop_eq]
    exact .ok ⟨trim_inRange hr, trim_noLeadingZero _⟩

open Bignum

theorem Rhs.src_in {B : Nat} {r : Rhs} {x : Bignum} (hr : InRange B (r.get x).digits) : SrcIn B r.src := by
  cases r with
  | other b => exact .other hr
  | self => exact .self

theorem keeps_bcopy (env : Env) (b : Bignum) : Keeps (b.copy env) (· = b) := by
  refine .bind (keeps_copy env _) ?_
  rintro _ rfl; exact .ok rfl

theorem keeps_magDiff {L : Limits} (h : Supported L) (env : Env) (fuel : Nat) {x : Bignum} {r : Rhs} (t : Desc)
    (hx : InRange L.base x.digits) (hr : InRange L.base (r.get x).digits) :
    Keeps (magDiff L env fuel x r t) (fun z => InRange L.base z.digits) := by
  unfold magDiff
  refine .bind (.any _) fun g _ => .ite (fun _ => ?_) fun _ => ?_
  · exact .bind (keeps_absSub h env fuel hx (r.src_in hr)) fun d hd => .ok hd
  · refine .bind (keeps_bcopy env _) ?_
    rintro _ rfl
    exact .bind (keeps_absSub h env fuel hr (.other hx)) fun d hd => .ok hd

theorem keeps_addTry {L : Limits} (h : Supported L) (env : Env) (fuel : Nat) {x : Bignum} {r : Rhs}
    (hx : InRange L.base x.digits) (hr : InRange L.base (r.get x).digits) :
    Keeps (addTry L env fuel x r) (fun z => InRange L.base z.digits) := by
  have ha : Keeps (do let d ← absAdd L env fuel x.digits r.src; .ok ⟨x.desc, d⟩ : Res Bignum) (fun z => InRange L.base z.digits) :=
    .bind (keeps_absAdd h env fuel hx (r.src_in hr)) fun d hd => .ok hd
  exact .ite (fun _ => ha) fun _ => .ite (fun _ => keeps_magDiff h env fuel _ hx hr) fun _ =>
    .ite (fun _ => keeps_magDiff h env fuel _ hx hr) fun _ => ha

theorem keeps_subTry {L : Limits} (h : Supported L) (env : Env) (fuel : Nat) {x : Bignum} {r : Rhs}
    (hx : InRange L.base x.digits) (hr : InRange L.base (r.get x).digits) :
    Keeps (subTry L env fuel x r) (fun z => InRange L.base z.digits) := by
  have hc : Keeps (do
      let g ← absGt x.digits (r.get x).digits
      let temp ← Vec.copy env (if g then x.digits else (r.get x).digits)
      let temp ← absSub L env fuel temp (.other (r.get x).digits)
      .ok ⟨x.desc, temp⟩ : Res Bignum) (fun z => InRange L.base z.digits) := by
    refine .bind (.any _) fun g _ => .bind (keeps_copy env _) ?_
    rintro _ rfl
    refine .bind (keeps_absSub h env fuel ?_ (.other hr)) fun d hd => .ok hd
    split <;> assumption
  exact .ite (fun _ => keeps_magDiff h env fuel _ hx hr) fun _ => .ite (fun _ => hc) fun _ =>
    .ite (fun _ => hc) fun _ => keeps_magDiff h env fuel _ hx hr

theorem keeps_divTry {L : Limits} (h : Supported L) (env : Env) (fuel : Nat) {x : Bignum} {dv : List Nat}
    (hx : InRange L.base x.digits) (hr : InRange L.base dv) :
    Keeps (divTry L env fuel x dv) (fun z => InRange L.base z.digits) :=
  .bind (.any _) fun _ _ => .ite (fun _ => .bind (keeps_absDiv h env fuel hx hr) fun _ hd => .ok hd)
    fun _ => .ok (.single (store_small h (n := 0) (by omega)))

end BN
