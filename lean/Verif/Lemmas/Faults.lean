import Verif.Lemmas.Outcome
import Verif.Lemmas.Div
/-
Which exceptions the modelled code can raise, whatever the operands: only those that the surroundings cause.
-/
namespace BN

/-- Every exception that leaves is a soft one. -/
def ExnSoft {α : Type} (env : Env) (r : Res α) : Prop := ∀ e, r = .error (.exn e) → Soft env e

variable {env : Env}

theorem ExnSoft.ok {α : Type} (x : α) : ExnSoft env (.ok x : Res α) := by intro e h; cases h
theorem ExnSoft.ub {α : Type} (k : UB) : ExnSoft env (.error (.ub k) : Res α) := by intro e h; cases h
theorem ExnSoft.timeout {α : Type} : ExnSoft env (.error .timeout : Res α) := by intro e h; cases h
theorem ExnSoft.alloc {α : Type} {n : Nat} (h : env.alloc n = false) : ExnSoft env (.error (.exn .badAlloc) : Res α) := by
  intro e he; cases he; exact .inl ⟨rfl, n, h⟩
theorem ExnSoft.under {α : Type} (h : env.debug = true) : ExnSoft env (.error (.exn .bnUnderflow) : Res α) := by
  intro e he; cases he; exact .inr ⟨rfl, h⟩

theorem ExnSoft.bind {α β : Type} {r : Res α} {f : α → Res β} (h : ExnSoft env r) (hf : ∀ x, ExnSoft env (f x)) :
    ExnSoft env (r >>= f) := by
  cases r with
  | ok x => rw [ok_bind]; exact hf x
  | error f => intro e he; rw [error_bind] at he; cases he; exact h e rfl

theorem ExnSoft.ite {α : Type} {p : Prop} [Decidable p] {x y : Res α} (hx : p → ExnSoft env x) (hy : ¬ p → ExnSoft env y) :
    ExnSoft env (if p then x else y) := by
  split
  · exact hx ‹_›
  · exact hy ‹_›

theorem soft_rd (v : List Nat) (i : Nat) : ExnSoft env (Vec.rd v i) := by
  unfold Vec.rd; split
  · exact .ok _
  · exact .ub _
theorem soft_wr (v : List Nat) (i d : Nat) : ExnSoft env (Vec.wr v i d) := .ite (fun _ => .ok _) (fun _ => .ub _)
theorem soft_pushBack (v : List Nat) (d : Nat) : ExnSoft env (Vec.pushBack env v d) :=
  .ite (fun _ => .ok _) (fun h => .alloc (by simpa using h))
theorem soft_popBack (v : List Nat) : ExnSoft env (Vec.popBack v) := .ite (fun _ => .ub _) (fun _ => .ok _)
theorem soft_copy (v : List Nat) : ExnSoft env (Vec.copy env v) :=
  .ite (fun _ => .ok _) (fun _ => .ite (fun _ => .ok _) (fun h => .alloc (by simpa using h)))
theorem soft_resize (v : List Nat) (n d : Nat) : ExnSoft env (Vec.resize env v n d) :=
  .ite (fun _ => .ok _) (fun _ => .ite (fun _ => .ok _) (fun h => .alloc (by simpa using h)))
theorem soft_bcopy (b : Bignum) : ExnSoft env (b.copy env) := .bind (soft_copy _) fun _ => .ok _

theorem soft_result (t : CTy) (z : Int) : ExnSoft env (t.result z) :=
  .ite (fun _ => .ite (fun _ => .ok _) (fun _ => .ub _)) (fun _ => .ok _)
theorem soft_cbin (op : BinOp) (x y : CVal) : ExnSoft env (CVal.bin op x y) := by
  cases op <;> simp only [CVal.bin]
  case add => exact soft_result _ _
  case sub => exact soft_result _ _
  case mul => exact soft_result _ _
  case div => exact .ite (fun _ => .ub _) (fun _ => soft_result _ _)
  case mod => exact .ite (fun _ => .ub _) (fun _ => soft_result _ _)
  case and => exact .ok _
  case or => exact .ok _
  case xor => exact .ok _
  case shr => exact .ite (fun _ => .ub _) (fun _ => .ok _)
  case shl => exact .ite (fun _ => .ub _) (fun _ => .ite (fun _ => .ite (fun _ => .ub _) (fun _ => .ok _)) (fun _ => .ok _))
theorem soft_vbin (op : BinOp) (x y : Val) : ExnSoft env (Val.bin op x y) := by
  unfold Val.bin
  split
  · exact .bind (.bind (soft_cbin _ _ _) fun _ => .ok _) fun _ => .ok _
  · exact .bind (soft_cbin _ _ _) fun _ => .ok _

theorem soft_forever {σ : Type} {body : σ → Res (σ × Bool)} (h : ∀ s, ExnSoft env (body s)) :
    ∀ (n : Nat) (s : σ), ExnSoft env (loopForever body n s)
  | 0, _ => .timeout
  | n + 1, s => by
    rw [loopForever]
    exact .bind (h s) fun p => .ite (fun _ => .ok _) fun _ => soft_forever h n _
theorem soft_while {σ : Type} {cond : σ → Res Bool} {body : σ → Res σ} (hc : ∀ s, ExnSoft env (cond s))
    (h : ∀ s, ExnSoft env (body s)) : ∀ (n : Nat) (s : σ), ExnSoft env (loopWhile cond body n s)
  | 0, _ => .timeout
  | n + 1, s => by
    rw [loopWhile]
    exact .bind (hc s) fun p => .ite (fun _ => .bind (h s) fun s' => soft_while hc h n s') fun _ => .ok _

theorem soft_gtLoop (a b : List Nat) : ∀ n, ExnSoft env (gtLoop a b n)
  | 0 => .ok _
  | n + 1 => .bind (soft_rd _ _) fun _ => .bind (soft_rd _ _) fun _ => .ite (fun _ => .ok _) fun _ => soft_gtLoop a b n
theorem soft_geLoop (a b : List Nat) : ∀ n, ExnSoft env (geLoop a b n)
  | 0 => .ok _
  | n + 1 => .bind (soft_rd _ _) fun _ => .bind (soft_rd _ _) fun _ => .ite (fun _ => .ok _) fun _ =>
      .ite (fun _ => .ok _) fun _ => soft_geLoop a b n
theorem soft_ltLoop (a b : List Nat) : ∀ n, ExnSoft env (ltLoop a b n)
  | 0 => .ok _
  | n + 1 => .bind (soft_rd _ _) fun _ => .bind (soft_rd _ _) fun _ => .ite (fun _ => .ok _) fun _ => soft_ltLoop a b n
theorem soft_absGt (a b : List Nat) : ExnSoft env (absGt a b) :=
  .ite (fun _ => .ok _) fun _ => .ite (fun _ => .ok _) fun _ => soft_gtLoop _ _ _
theorem soft_absGe (a b : List Nat) : ExnSoft env (absGe a b) :=
  .ite (fun _ => .ok _) fun _ => .ite (fun _ => .ok _) fun _ => soft_geLoop _ _ _
theorem soft_absLt (a b : List Nat) : ExnSoft env (absLt a b) :=
  .ite (fun _ => .ok _) fun _ => .ite (fun _ => .ok _) fun _ => soft_ltLoop _ _ _

theorem soft_digitOrZero (L : Limits) (v : List Nat) (i : Nat) : ExnSoft env (digitOrZero L v i) :=
  .ite (fun _ => .bind (soft_rd _ _) fun _ => .ok _) fun _ => .ok _
theorem soft_addDigit (L : Limits) (o : Nat) (x r : Val) : ExnSoft env (addDigit L o x r) :=
  .bind (soft_vbin _ _ _) fun _ => .bind (soft_vbin _ _ _) fun _ =>
    .ite (fun _ => .bind (soft_vbin _ _ _) fun _ => .bind (soft_vbin _ _ _) fun _ => .ok _) fun _ => .ok _
theorem soft_addBody (L : Limits) (src : Src) (s : AddSt) : ExnSoft env (addBody L env src s) :=
  .bind (.ite (fun _ => soft_pushBack _ _) fun _ => .ok _) fun _ => .bind (soft_digitOrZero _ _ _) fun _ =>
    .bind (soft_rd _ _) fun _ => .bind (soft_addDigit _ _ _ _) fun _ => .bind (soft_wr _ _ _) fun _ => .ok _
theorem soft_absAdd (L : Limits) (fuel : Nat) (out : List Nat) (src : Src) : ExnSoft env (absAdd L env fuel out src) :=
  .bind (soft_forever (soft_addBody L src) _ _) fun _ => .ok _

theorem soft_subDigit (L : Limits) (o : Nat) (x r : Val) : ExnSoft env (subDigit L o x r) :=
  .bind (soft_vbin _ _ _) fun _ => .bind (soft_vbin _ _ _) fun _ =>
    .ite (fun _ => .bind (soft_vbin _ _ _) fun _ => .bind (soft_vbin _ _ _) fun _ => .ok _) fun _ => .ok _
theorem soft_subBody (L : Limits) (src : Src) (s : SubSt) : ExnSoft env (subBody L src s) :=
  .bind (soft_digitOrZero _ _ _) fun _ => .bind (soft_rd _ _) fun _ => .bind (soft_subDigit _ _ _ _) fun _ =>
    .bind (soft_wr _ _ _) fun _ => .ok _
theorem soft_popZeros : ∀ (n : Nat) (v : List Nat), ExnSoft env (popZeros v n)
  | 0, _ => .ok _
  | n + 1, _ => .bind (soft_rd _ _) fun _ => .ite (fun _ => .bind (soft_popBack _) fun v' => soft_popZeros n v') fun _ => .ok _
theorem soft_check (a b : List Nat) : ExnSoft env (subDebugCheck env a b) :=
  .ite (fun h => .ite (fun _ => .under h) fun _ => .bind (soft_absLt _ _) fun _ => .ite (fun _ => .under h) fun _ => .ok _)
    fun _ => .ok _
theorem soft_absSub (L : Limits) (fuel : Nat) (a : List Nat) (src : Src) : ExnSoft env (absSub L env fuel a src) :=
  .bind (soft_check _ _) fun _ => .bind (soft_forever (soft_subBody L src) _ _) fun _ => soft_popZeros _ _

theorem soft_shlDigit (L : Limits) (d : Nat) (c : Val) : ExnSoft env (shlDigit L d c) :=
  .bind (.bind (soft_vbin _ _ _) fun _ => .ok _) fun _ => .bind (soft_vbin _ _ _) fun _ => .bind (soft_vbin _ _ _) fun _ =>
    .bind (soft_vbin _ _ _) fun _ => .ok _
theorem soft_shlLoop (L : Limits) : ∀ (l : List Nat) (c : Val), ExnSoft env (shlLoop L l c)
  | [], _ => .ok _
  | _ :: ds, _ => .bind (soft_shlDigit _ _ _) fun p => .bind (soft_shlLoop L ds p.2) fun _ => .ok _
theorem soft_shiftLeft1 (L : Limits) (c : List Nat) : ExnSoft env (shiftLeft1 L env c) :=
  .ite (fun _ => .ok _) fun _ => .bind (soft_shlLoop _ _ _) fun _ =>
    .ite (fun _ => .bind (soft_vbin _ _ _) fun _ => soft_pushBack _ _) fun _ => .ok _
theorem soft_searchBody (L : Limits) (s : SearchSt) : ExnSoft env (searchBody L env s) :=
  .bind (soft_copy _) fun _ => .bind (soft_shiftLeft1 _ _) fun _ => .bind (soft_shiftLeft1 _ _) fun _ => .ok _
theorem soft_divBody (L : Limits) (fuel : Nat) (dv : List Nat) (s : DivSt) : ExnSoft env (divBody L env fuel dv s) :=
  .bind (soft_copy _) fun _ => .bind (soft_copy _) fun _ => .bind (soft_copy _) fun _ => .bind (soft_shiftLeft1 _ _) fun _ =>
    .bind (soft_while (fun _ => soft_absGe _ _) (soft_searchBody L) _ _) fun _ => .bind (soft_absSub _ _ _ _) fun _ =>
      .ite (fun _ => .bind (soft_absAdd _ _ _ _) fun _ => .ok _) fun _ => .bind (soft_absAdd _ _ _ _) fun _ => .ok _
theorem soft_absDiv (L : Limits) (fuel : Nat) (n dv : List Nat) : ExnSoft env (absDiv L env fuel n dv) :=
  .bind (soft_copy _) fun _ => .bind (soft_while (fun _ => soft_absGe _ _) (soft_divBody L fuel dv) _ _) fun _ => .ok _

section
variable {F : Type} (o : FloatOps F)
theorem soft_rdAt {α : Type} (v : List α) (i : Nat) : ExnSoft env (rdAt v i) := by
  unfold rdAt; split
  · exact .ok _
  · exact .ub _
theorem soft_partition (x : List (Cx F)) (h : Nat) : ∀ i, ExnSoft env (fftPartition x h i)
  | 0 => .ok _
  | i + 1 => .bind (soft_partition x h i) fun _ => .ite (fun _ => .bind (soft_rdAt _ _) fun _ => .bind (soft_rdAt _ _) fun _ => .ok _)
      fun _ => .ub _
theorem soft_combine (len h : Nat) (e d : List (Cx F)) : ∀ k x, ExnSoft env (fftCombine o len h e d k x)
  | 0, _ => .ok _
  | k + 1, x => .bind (soft_combine len h e d k x) fun _ => .bind (soft_rdAt _ _) fun _ => .bind (soft_rdAt _ _) fun _ =>
      .ite (fun _ => .ok _) fun _ => .ub _
theorem soft_fft : ∀ (n : Nat) (x : List (Cx F)), ExnSoft env (fftComplex o n x)
  | 0, _ => .timeout
  | n + 1, _ => .ite (fun _ => .ok _) fun _ => .bind (soft_partition _ _ _) fun _ => .bind (soft_fft n _) fun _ =>
      .bind (soft_fft n _) fun _ => soft_combine o _ _ _ _ _ _
theorem soft_ifft (n : Nat) (x : List (Cx F)) : ExnSoft env (ifftComplex o n x) := .bind (soft_fft o _ _) fun _ => .ok _
theorem soft_mapM {α β : Type} {f : α → Res β} (h : ∀ x, ExnSoft env (f x)) : ∀ l : List α, ExnSoft env (l.mapM f)
  | [] => .ok _
  | x :: l => by
    rw [List.mapM_cons]
    exact .bind (h x) fun _ => .bind (soft_mapM h l) fun _ => .ok _
theorem soft_cell (v : List Nat) (i : Nat) : ExnSoft env (cellOrZero v i) := .ite (fun _ => soft_rdAt _ _) fun _ => .ok _
theorem soft_table (a b : List Nat) : ExnSoft env (createFftTable o a b) :=
  soft_mapM (fun _ => .bind (soft_cell _ _) fun _ => .bind (soft_cell _ _) fun _ => .ok _) _
theorem soft_convolute (n : Nat) (x : List (Cx F)) : ExnSoft env (convoluteFft o n x) :=
  .bind (soft_fft o _ _) fun _ => soft_mapM (fun _ => .bind (soft_rdAt _ _) fun _ => .bind (soft_rdAt _ _) fun _ => .ok _) _
theorem soft_carryLoop (L : Limits) : ∀ (xs : List F) (c : Nat), ExnSoft env (carryLoop o L c xs)
  | [], _ => .ok _
  | _ :: xs, _ => .bind (.bind (.ite (fun _ => .ok _) fun _ => .ub _) fun _ => .bind (soft_vbin _ _ _) fun _ =>
      .bind (soft_vbin _ _ _) fun _ => .ok _) fun _ => .bind (soft_carryLoop L xs _) fun _ => .ok _
theorem soft_topZeros (v : List Nat) : ∀ i n, ExnSoft env (countTopZeros v i n)
  | 0, _ => .ok _
  | i + 1, _ => .bind (soft_rd _ _) fun _ => .ite (fun _ => .ok _) fun _ => soft_topZeros v i _
theorem soft_mulStrassen (L : Limits) (fuel : Nat) (a b : List Nat) : ExnSoft env (mulStrassen o L env fuel a b) :=
  .ite (fun h => .alloc (by simpa using h)) fun _ => .bind (soft_table o _ _) fun _ => .bind (soft_convolute o _ _) fun _ => .bind (soft_ifft o _ _) fun _ =>
    .bind (soft_carryLoop o L _ _) fun _ => .bind (soft_topZeros _ _ _) fun _ => soft_resize _ _ _
end

theorem soft_addTry (L : Limits) (fuel : Nat) (x : Bignum) (r : Rhs) : ExnSoft env (Bignum.addTry L env fuel x r) := by
  unfold Bignum.addTry
  have h1 : ∀ d, ExnSoft env (do let d' ← absAdd L env fuel x.digits r.src; (.ok ⟨d, d'⟩ : Res Bignum)) :=
    fun d => .bind (soft_absAdd _ _ _ _) fun _ => .ok _
  have h2 : ∀ t : Desc, ExnSoft env (magDiff L env fuel x r t) := fun t =>
    .bind (soft_absGe _ _) fun _ => .ite (fun _ => .bind (soft_absSub _ _ _ _) fun _ => .ok _) fun _ =>
      .bind (soft_bcopy _) fun _ => .bind (soft_absSub _ _ _ _) fun _ => .ok _
  exact .ite (fun _ => h1 _) fun _ => .ite (fun _ => h2 _) fun _ => .ite (fun _ => h2 _) fun _ => h1 _

theorem soft_subTry (L : Limits) (fuel : Nat) (x : Bignum) (r : Rhs) : ExnSoft env (Bignum.subTry L env fuel x r) := by
  unfold Bignum.subTry
  have h1 : ExnSoft env (do
      let g ← absGt x.digits (r.get x).digits
      let temp ← Vec.copy env (if g then x.digits else (r.get x).digits)
      let temp ← absSub L env fuel temp (.other (r.get x).digits)
      (.ok ⟨x.desc, temp⟩ : Res Bignum)) :=
    .bind (soft_absGt _ _) fun _ => .bind (soft_copy _) fun _ => .bind (soft_absSub _ _ _ _) fun _ => .ok _
  have h2 : ∀ t : Desc, ExnSoft env (magDiff L env fuel x r t) := fun t =>
    .bind (soft_absGe _ _) fun _ => .ite (fun _ => .bind (soft_absSub _ _ _ _) fun _ => .ok _) fun _ =>
      .bind (soft_bcopy _) fun _ => .bind (soft_absSub _ _ _ _) fun _ => .ok _
  exact .ite (fun _ => h2 _) fun _ => .ite (fun _ => h1) fun _ => .ite (fun _ => h1) fun _ => h2 _

theorem soft_divTry (L : Limits) (fuel : Nat) (x : Bignum) (dv : List Nat) : ExnSoft env (Bignum.divTry L env fuel x dv) :=
  .bind (soft_absGt _ _) fun _ => .ite (fun _ => .bind (soft_absDiv _ _ _ _) fun _ => .ok _) fun _ => .ok _

end BN
