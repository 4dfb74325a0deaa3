import Verif.Model.World
import Verif.Lemmas.HeapFit
import Verif.Props.Storage
import Verif.Lemmas.CostMul
/-
Programs on a machine with so many bytes: each statement ends as with an allocator that grants, or refuses, all requests.
-/
namespace BN
open Bignum

/-- An allocator that refuses every request. -/
def refusing (debug : Bool) : Env := ⟨fun _ => false, debug⟩

theorem refusing_le (dbg : Bool) : (refusing dbg).Le (freely dbg) := ⟨fun _ h => absurd h Bool.false_ne_true, rfl⟩

variable {c : Plant}

/-- The outcome is `f`, or a failed allocation and then `n` is one, too; `n` itself is `f` or a failed allocation. -/
structure Tied {α : Type} (m : HeapM α) (f n : Res α) : Prop where
  two : ∀ h, (m h).1 = f ∨ ((m h).1 = .error (.exn .badAlloc) ∧ n = .error (.exn .badAlloc))
  scarce : Scarce n f

namespace Tied
variable {α β : Type}

theorem lift (r : Res α) : Tied (HeapM.lift r) r r := ⟨fun _ => .inl rfl, .inl rfl⟩
theorem pure (x : α) : Tied (Pure.pure x : HeapM α) (.ok x) (.ok x) := ⟨fun _ => .inl rfl, .inl rfl⟩

/-- If the allocator that refuses makes the computation fail anyway. -/
theorem of_refused {m : HeapM α} {f n : Res α} (hm : Scarcely m f) (hn : n = .error (.exn .badAlloc)) : Tied m f n :=
  ⟨fun h => (hm h).imp_right fun e => ⟨e, hn⟩, .inr hn⟩

theorem bind {m : HeapM α} {k : α → HeapM β} {f n : Res α} {g p : α → Res β} (hm : Tied m f n) (hk : ∀ x, Tied (k x) (g x) (p x)) :
    Tied (m >>= k) (f >>= g) (n >>= p) := by
  refine ⟨fun h => ?_, hm.scarce.bind fun x => (hk x).scarce⟩
  rw [heap_bind]
  have h1 := hm.two h
  rcases hr : m h with ⟨r, h'⟩
  rw [hr] at h1
  rcases h1 with rfl | ⟨rfl, hn⟩
  · cases r with
    | error e => exact .inl rfl
    | ok x =>
      rcases (hk x).two h' with e | ⟨e1, e2⟩
      · exact .inl e
      · refine .inr ⟨e1, ?_⟩
        rcases hm.scarce with e | e
        · rw [e]; exact e2
        · rw [e]; rfl
  · exact .inr ⟨rfl, by rw [hn]; rfl⟩

theorem ite {p : Prop} [Decidable p] {a b : HeapM α} {f f' n n' : Res α} (ha : Tied a f n) (hb : Tied b f' n') :
    Tied (if p then a else b) (if p then f else f') (if p then n else n') := by
  split <;> assumption

theorem forever {σ : Type} {b : σ → HeapM (σ × Bool)} {f n : σ → Res (σ × Bool)} (hb : ∀ s, Tied (b s) (f s) (n s)) :
    ∀ k s, Tied (loopForeverH b k s) (loopForever f k s) (loopForever n k s)
  | 0, _ => lift _
  | k + 1, s => by
    rw [loopForeverH, loopForever, loopForever]
    exact bind (hb s) fun t => ite (pure _) (forever hb k _)

end Tied

section
variable (L : Limits) (dbg : Bool) (n : Nat)

theorem tied_addBody (v : Var) (src : Src) (s : AddSt) :
    Tied (addBodyV c L dbg v src s) (addBody L (freely dbg) src s) (addBody L (refusing dbg) src s) := by
  by_cases h : s.outIter = s.out.length
  · refine .of_refused (.then' (.growIf _ _ _) (.lift _)) ?_
    unfold addBody growTo
    rw [if_pos h]
    rfl
  · refine ⟨fun g => .inl ?_, .inl ?_⟩
    · unfold addBodyV growIf
      simp only [h, decide_false, Bool.false_eq_true, if_false]
      rfl
    · unfold addBody growTo
      rw [if_neg h, if_neg h]

theorem tied_absAdd (v : Var) (out : List Nat) (src : Src) :
    Tied (absAddV c L dbg n v out src) (absAdd L (freely dbg) n out src) (absAdd L (refusing dbg) n out src) :=
  .bind (.forever (fun _ => tied_addBody L dbg v src _) _ _) fun _ => .pure _

theorem tied_absSub (a : List Nat) (src : Src) : Tied (HeapM.lift (absSub L (freely dbg) n a src)) (absSub L (freely dbg) n a src)
    (absSub L (refusing dbg) n a src) := by
  rw [absSub_env (refusing_le dbg)]
  exact .lift _

theorem tied_subCopy (a : List Nat) (b : Bignum) (d : Desc) : Tied (subCopyV c L dbg n a b.digits d)
    (do let tempNum ← b.copy (freely dbg); let d' ← absSub L (freely dbg) n tempNum.digits (.other a); .ok ⟨d, d'⟩)
    (do let tempNum ← b.copy (refusing dbg); let d' ← absSub L (refusing dbg) n tempNum.digits (.other a); .ok ⟨d, d'⟩) := by
  by_cases hb : b.digits = []
  · refine ⟨fun h => .inl (subCopyV_eq L dbg n (by rw [hb]; simp) d), .inl ?_⟩
    unfold Bignum.copy Vec.copy
    rw [if_pos hb, if_pos hb]
    simp only [absSub_env (refusing_le dbg)]
  · refine .of_refused (scarcely_subCopyV L dbg n a b d) ?_
    unfold Bignum.copy Vec.copy
    rw [if_neg hb]
    rfl

theorem tied_subMixed (a b : Bignum) : Tied (subMixedV c L dbg n a b)
    (do let g ← absGt a.digits b.digits; let temp ← Vec.copy (freely dbg) (if g then a.digits else b.digits)
        let d ← absSub L (freely dbg) n temp (.other b.digits); .ok ⟨a.desc, d⟩)
    (do let g ← absGt a.digits b.digits; let temp ← Vec.copy (refusing dbg) (if g then a.digits else b.digits)
        let d ← absSub L (refusing dbg) n temp (.other b.digits); .ok ⟨a.desc, d⟩) := by
  obtain ⟨g, hg⟩ := absGt_total a.digits b.digits
  by_cases ht : (if g then a.digits else b.digits) = []
  · refine ⟨fun h => .inl ?_, .inl ?_⟩
    · simp only [hg, ok_bind, copy_freely]
      simp only [subMixedV, scope, heap_bind, HeapM.lift, hg, ht, List.length_nil]
      have := takeFor_ok (c := c) (h := h) (m := 0) (by simp) .result
      rcases htk : takeFor c .result 0 h with ⟨r, h'⟩
      rw [htk] at this
      cases this
      cases absSub L (freely dbg) n [] (.other b.digits) <;> rfl
    · simp only [hg, ok_bind, ht, absSub_env (refusing_le dbg)]
      rfl
  · refine .of_refused (scarcely_subMixedV L dbg n a b) ?_
    rw [hg, ok_bind]
    unfold Vec.copy
    rw [if_neg ht]
    rfl

theorem tied_addTry (x : Bignum) (r : Rhs) : Tied (addTryV c L dbg n x r) (addTry L (freely dbg) n x r) (addTry L (refusing dbg) n x r) :=
  .ite (.bind (tied_absAdd L dbg n _ _ _) fun _ => .pure _) (.ite
    (.bind (.lift _) fun _ => .ite (.bind (tied_absSub L dbg n _ _) fun _ => .pure _) (tied_subCopy L dbg n _ _ _)) (.ite
    (.bind (.lift _) fun _ => .ite (.bind (tied_absSub L dbg n _ _) fun _ => .pure _) (tied_subCopy L dbg n _ _ _))
    (.bind (tied_absAdd L dbg n _ _ _) fun _ => .pure _)))

theorem tied_subTry (x : Bignum) (r : Rhs) : Tied (subTryV c L dbg n x r) (subTry L (freely dbg) n x r) (subTry L (refusing dbg) n x r) :=
  .ite (.bind (.lift _) fun _ => .ite (.bind (tied_absSub L dbg n _ _) fun _ => .pure _) (tied_subCopy L dbg n _ _ _)) (.ite
    (tied_subMixed L dbg n _ _) (.ite (tied_subMixed L dbg n _ _)
    (.bind (.lift _) fun _ => .ite (.bind (tied_absSub L dbg n _ _) fun _ => .pure _) (tied_subCopy L dbg n _ _ _))))

theorem tied_absDiv (a b : List Nat) : Tied (absDivV c L dbg n a b) (absDiv L (freely dbg) n a b) (absDiv L (refusing dbg) n a b) :=
  .of_refused (scarcely_absDivV L dbg n a b) rfl

variable {F : Type} (o : FloatOps F)

theorem tied_mulStrassen (a b : List Nat) : Tied (mulStrassenV c o L n a b) (mulStrassen o L (freely dbg) n a b)
    (mulStrassen o L (refusing dbg) n a b) := .of_refused (scarcely_mulStrassenV L dbg n o a b) rfl

theorem handleV_two {this : Bignum} {d : Desc} {m : HeapM Bignum} {f p : Res Bignum} (hm : Tied m f p) (h : Mem) :
    (handleV this d m h).1 = handle this d f ∨ (handleV this d m h).1 = handle this d p := by
  unfold handleV
  rcases hm.two h with e | ⟨e1, e2⟩
  · exact .inl (by rw [e])
  · exact .inr (by rw [e1, e2])

/-- An operator ends as with an allocator that grants everything, or as with one that refuses everything. -/
theorem assignV_two (k : Arith) (x : Bignum) (r : Rhs) {h : Mem} (hc : x.size ≤ h.cap .this) :
    (k.assignV c o L dbg n x r h).1 = k.assign o L (freely dbg) n x r ∨ (k.assignV c o L dbg n x r h).1 = k.assign o L (refusing dbg) n x r := by
  by_cases hx : (!isComputable x.desc) = true
  · left
    cases k <;> simp only [Arith.assignV, Arith.assign, addAssign, subAssign, mulAssign, divAssign, if_pos hx]
  · cases k with
    | add =>
      simp only [Arith.assignV, Arith.assign, addAssign, if_neg hx]
      exact handleV_two (tied_addTry L dbg n x r) h
    | sub =>
      simp only [Arith.assignV, Arith.assign, subAssign, if_neg hx]
      exact handleV_two (tied_subTry L dbg n x r) h
    | mul =>
      simp only [Arith.assignV, Arith.assign, mulAssign, if_neg hx]
      refine handleV_two (.of_refused (.scope (.bind (scarcely_mulStrassenV L dbg n o _ _) fun _ => .then' (.steal _ _) (.pure _))) rfl) h
    | div =>
      simp only [Arith.assignV, Arith.assign, divAssign, if_neg hx]
      split
      · exact .inl rfl
      · split
        · exact .inl rfl
        · split
          · exact .inl rfl
          · next hq =>
            unfold divTry handleV
            simp only [heap_bind, HeapM.lift]
            obtain ⟨g, hg⟩ := absGt_total x.digits (r.get ⟨mulSign x.desc (r.get x).desc, x.digits⟩).digits
            rw [hg]
            cases g
            · left
              show handle _ _ ((takeFor c .this 1 >>= fun _ => pure _ : HeapM Bignum) h).1 = _
              have hpos : 1 ≤ h.cap .this := by
                refine le_trans ?_ hc
                exact List.length_pos_iff.2 (not_or.1 hq).1
              rw [heap_bind]
              unfold takeFor
              rw [if_pos hpos]
              rfl
            · exact handleV_two (.bind (tied_absDiv L dbg n _ _) fun _ => .pure _) h

end

/-! ### The capacity is never below the length -/

/-- From `P` on, if the computation returns, `Q` holds. -/
def Grants {α : Type} (P : (Var → Nat) → Prop) (m : HeapM α) (Q : α → (Var → Nat) → Prop) : Prop := ∀ h : Mem, P h.cap → ∀ a h', m h = (.ok a, h') → Q a h'.cap

namespace Grants
variable {α β : Type} {P : (Var → Nat) → Prop}

theorem bind {m : HeapM α} {f : α → HeapM β} {Q : α → (Var → Nat) → Prop} {R : β → (Var → Nat) → Prop} (hm : Grants P m Q) (hf : ∀ a, Grants (Q a) (f a) R) :
    Grants P (m >>= f) R := fun h hP b h' he => by
  rw [heap_bind] at he
  rcases hr : m h with ⟨r, g⟩
  rw [hr] at he
  cases r with
  | ok a => exact hf a g (hm h hP a g hr) b h' he
  | error e => cases he

theorem lift {r : Res α} {Q : α → (Var → Nat) → Prop} (hQ : ∀ a h, P h → r = .ok a → Q a h) : Grants P (HeapM.lift r) Q := fun h hP a h' he => by
  cases he
  exact hQ a _ hP rfl

theorem pure {x : α} {Q : α → (Var → Nat) → Prop} (hQ : ∀ h, P h → Q x h) : Grants P (Pure.pure x : HeapM α) Q := fun h hP a h' he => by
  cases he
  exact hQ _ hP

theorem ite {p : Prop} [Decidable p] {a b : HeapM α} {Q : α → (Var → Nat) → Prop} (ha : p → Grants P a Q) (hb : ¬ p → Grants P b Q) :
    Grants P (if p then a else b) Q := by
  by_cases h : p
  · rw [if_pos h]; exact ha h
  · rw [if_neg h]; exact hb h

theorem forever {σ : Type} {I : σ → (Var → Nat) → Prop} {b : σ → HeapM (σ × Bool)} (hb : ∀ s, Grants (I s) (b s) fun t => I t.1) :
    ∀ k s, Grants (I s) (loopForeverH b k s) I
  | 0, _ => .lift fun _ _ _ h => by cases h
  | k + 1, s => by
    rw [loopForeverH]
    exact bind (hb s) fun t => ite (fun _ => pure fun _ h => h) fun _ => forever hb k _

theorem loop {σ : Type} {I : σ → (Var → Nat) → Prop} {cond : σ → Res Bool} {b : σ → HeapM σ} (hb : ∀ s, Grants (I s) (b s) I) :
    ∀ k s, Grants (I s) (loopWhileH cond b k s) I
  | 0, _ => .lift fun _ _ _ h => by cases h
  | k + 1, s => by
    rw [loopWhileH]
    exact bind (lift (Q := fun _ => I s) fun _ _ h _ => h) fun t => ite (fun _ => bind (hb s) fun _ => Grants.loop hb k _) fun _ => pure fun _ h => h

theorem mono {m : HeapM α} {Q R : α → (Var → Nat) → Prop} {P' : (Var → Nat) → Prop} (hm : Grants P m Q) (hP : ∀ h, P' h → P h) (hQ : ∀ a h, Q a h → R a h) :
    Grants P' m R := fun h h' a g he => hQ _ _ (hm h (hP _ h') a g he)

end Grants

/-- Lower bounds for the capacities. -/
def Has (B : Var → Nat) (h : Var → Nat) : Prop := ∀ w, B w ≤ h w

theorem grants_takeFor (B : Var → Nat) (v : Var) (n : Nat) :
    Grants (Has B) (takeFor c v n) fun _ h => Has B h ∧ n ≤ h v := fun h hP a h' he => by
  unfold takeFor at he
  split at he
  · cases he; exact ⟨hP, by assumption⟩
  · split at he
    · cases he
      refine ⟨fun w => ?_, by simp [Mem.setCap]⟩
      by_cases e : w = v
      · subst e
        have := hP w
        simp only [Mem.setCap, if_true]
        omega
      · simp only [Mem.setCap, if_neg e]; exact hP w
    · cases he

theorem grants_growIf (B : Var → Nat) (v : Var) (n : Nat) (b : Bool) :
    Grants (fun h => Has B h ∧ n ≤ h v) (growIf c v n b) fun _ h => Has B h ∧ (if b then n + 1 else n) ≤ h v := by
  unfold growIf
  cases b
  · exact .pure fun h hP => hP
  · simp only [if_true]
    intro h hP a h' he
    unfold growBy1 at he
    split at he
    · cases he; exact ⟨hP.1, by assumption⟩
    · have := grants_takeFor B v (c.grow n) h hP.1 a h' he
      exact ⟨this.1, le_trans (c.grow_gt n) this.2⟩

section
variable (L : Limits) (dbg : Bool) (n : Nat) (B : Var → Nat)

theorem addBody_length {env : Env} {src : Src} {s : AddSt} : Keeps (addBody L env src s) fun t =>
    t.1.out.length = if s.outIter = s.out.length then s.out.length + 1 else s.out.length := by
  unfold addBody growTo
  refine .bind (P := fun out => out.length = if s.outIter = s.out.length then s.out.length + 1 else s.out.length) ?_ fun out ho =>
    .bind (.any _) fun _ _ => .bind (.any _) fun _ _ => .bind (.any _) fun _ _ => .bind (P := fun o => o.length = out.length) ?_ fun o hl =>
    .ok (hl.trans ho)
  · refine .ite (fun h => ?_) fun h => .ok ?_
    · unfold Vec.pushBack
      exact .ite (fun _ => .ok (by simp [h])) fun _ => .error
    · rw [if_neg h]
  · unfold Vec.wr
    exact .ite (fun _ => .ok (by simp)) fun _ => .error

theorem grants_absAdd (v : Var) (out : List Nat) (src : Src) :
    Grants (fun h => Has B h ∧ out.length ≤ h v) (absAddV c L dbg n v out src) fun d h => Has B h ∧ d.length ≤ h v := by
  refine .bind (.forever (I := fun (s : AddSt) h => Has B h ∧ s.out.length ≤ h v) (fun s => ?_) n ⟨out, 0, 0, L.toSingle 0⟩) fun s =>
    .pure fun h hh => hh
  refine .bind (grants_growIf B v _ _) fun _ => .lift fun t h hh ht => ⟨hh.1, ?_⟩
  rw [addBody_length L _ ht]
  simpa using hh.2

theorem grants_shl (v : Var) (x : List Nat) : Grants (fun h => Has B h ∧ x.length ≤ h v) (shiftLeft1V c L dbg v x)
    fun y h => Has B h ∧ y.length ≤ h v := by
  have hl : Keeps (shiftLeft1 L (freely dbg) x) fun y => y.length ≤ x.length + 1 := by
    unfold shiftLeft1
    refine .ite (fun _ => .ok (Nat.zero_le _)) fun _ => .bind (shlLoop_length L _ _) fun p hp => .ite (fun _ => .bind (.any _) fun _ _ => ?_) fun _ =>
      .ok (by omega)
    unfold Vec.pushBack
    exact .ite (fun _ => .ok (by simp [hp])) fun _ => .error
  refine .bind (.lift (Q := fun y h => y.length ≤ x.length + 1 ∧ Has B h ∧ x.length ≤ h v) fun y h hh hy => ⟨hl y hy, hh⟩) fun y => ?_
  intro h hh
  have hy := hh.1
  refine (Grants.bind (R := fun (y : List Nat) h => Has B h ∧ y.length ≤ h v) (grants_growIf B v x.length (x.length < y.length))
    (fun _ => .pure fun g hg => ⟨hg.1, ?_⟩)) h hh.2
  have := hg.2
  by_cases e : x.length < y.length
  · simp only [e, decide_true, if_true] at this; omega
  · simp only [e, decide_false, Bool.false_eq_true, if_false] at this; omega

theorem Grants.steal {P : (Var → Nat) → Prop} {v w : Var} : Grants P (BN.steal c v w) fun _ h => ∃ g, P g ∧ h = fun u => if u = v then g w else if u = w then 0 else g u :=
  fun h hP a h' he => by cases he; exact ⟨_, hP, rfl⟩

theorem Grants.scope {α : Type} {P : (Var → Nat) → Prop} {v : Var} {m : HeapM α} {Q : α → (Var → Nat) → Prop} (hm : Grants P m Q) :
    Grants P (BN.scope c v m) fun a h => ∃ g, Q a g ∧ h = fun u => if u = v then 0 else g u := fun h hP a h' he => by
  unfold BN.scope at he
  rcases hr : m h with ⟨r, h''⟩
  rw [hr] at he
  cases he
  exact ⟨_, hm h hP a h'' hr, rfl⟩

theorem Grants.during {α : Type} {P : (Var → Nat) → Prop} {k : Nat} {m : HeapM α} {Q : α → (Var → Nat) → Prop} (hm : Grants P m Q) :
    Grants P (BN.during k m) Q := fun h hP a h' he => by
  unfold BN.during at he
  split at he
  · rcases hr : m { h with free := h.free - k } with ⟨r, h''⟩
    rw [hr] at he
    cases he
    exact hm { h with free := h.free - k } hP a h'' hr
  · cases he

/-- Lower bounds for the vectors of a division. -/
def atLeast (R b q : Nat) : Var → Nat
  | .result => R
  | .bsrch1 => b
  | .q => q
  | _ => 0

theorem has_atLeast {R b q : Nat} {h : Var → Nat} : Has (atLeast R b q) h ↔ R ≤ h .result ∧ b ≤ h .bsrch1 ∧ q ≤ h .q := by
  refine ⟨fun H => ⟨H .result, H .bsrch1, H .q⟩, fun H w => ?_⟩
  cases w
  · exact Nat.zero_le _
  · exact H.1
  · exact Nat.zero_le _
  · exact H.2.1
  · exact H.2.2

theorem grants_divBody (dv : List Nat) (s : DivSt) : Grants (fun h => s.res.length ≤ h .result) (divBodyV c L dbg n dv s)
    fun t h => t.res.length ≤ h .result := by
  have inner : Grants (fun h => s.res.length ≤ h .result) (do
      takeFor c .bsrch0 dv.length
      takeFor c .bsrch1 dv.length
      takeFor c .q 1
      let bsrch1 ← shiftLeft1V c L dbg .bsrch1 dv
      let t ← loopWhileH (fun t => absGe s.dividend t.bsrch1) (searchBodyV c L dbg) n ⟨dv, bsrch1, [L.store (L.toSingle 1)]⟩
      let dividend ← HeapM.lift (absSub L (freely dbg) n s.dividend (.other t.bsrch0))
      if t.q.length ≤ s.res.length then do
        let res ← absAddV c L dbg n .result s.res (.other t.q)
        pure (⟨dividend, res⟩ : DivSt)
      else do
        let q ← absAddV c L dbg n .q t.q (.other s.res)
        steal c .result .q
        pure ⟨dividend, q⟩) fun t h => t.res.length ≤ h .result := by
    refine .bind (Q := fun _ h => Has (atLeast s.res.length 0 0) h)
      ((grants_takeFor (atLeast s.res.length 0 0) .bsrch0 _).mono (fun h hh => has_atLeast.2 ⟨hh, Nat.zero_le _, Nat.zero_le _⟩) fun _ _ h => h.1) fun _ => ?_
    refine .bind (Q := fun _ h => Has (atLeast s.res.length dv.length 0) h)
      ((grants_takeFor (atLeast s.res.length 0 0) .bsrch1 _).mono (fun h hh => hh) fun _ _ h => has_atLeast.2 ⟨h.1 .result, h.2, Nat.zero_le _⟩) fun _ => ?_
    refine .bind (Q := fun _ h => Has (atLeast s.res.length dv.length 1) h)
      ((grants_takeFor (atLeast s.res.length dv.length 0) .q _).mono (fun h hh => hh) fun _ _ h => has_atLeast.2 ⟨h.1 .result, h.1 .bsrch1, h.2⟩) fun _ => ?_
    refine .bind (Q := fun y h => Has (atLeast s.res.length y.length 1) h)
      ((grants_shl L dbg (atLeast s.res.length dv.length 1) .bsrch1 dv).mono (fun h hh => ⟨hh, hh .bsrch1⟩) fun _ _ h =>
        has_atLeast.2 ⟨h.1 .result, h.2, h.1 .q⟩) fun b1 => ?_
    refine .bind (Grants.loop (I := fun (t : SearchSt) h => Has (atLeast s.res.length t.bsrch1.length t.q.length) h) (fun t => ?_) n
      ⟨dv, b1, [L.store (L.toSingle 1)]⟩) fun t => ?_
    · refine .bind (Q := fun _ h => Has (atLeast s.res.length t.bsrch1.length t.q.length) h) ((grants_takeFor _ .bsrch0 _).mono (fun _ h => h) fun _ _ h => h.1)
        fun _ => ?_
      refine .bind (Q := fun y h => Has (atLeast s.res.length y.length t.q.length) h) ((grants_shl L dbg _ .bsrch1 _).mono (fun h hh => ⟨hh, hh .bsrch1⟩)
        fun _ _ h => has_atLeast.2 ⟨h.1 .result, h.2, h.1 .q⟩) fun y => ?_
      refine .bind (Q := fun z h => Has (atLeast s.res.length y.length z.length) h) ((grants_shl L dbg _ .q _).mono (fun h hh => ⟨hh, hh .q⟩)
        fun _ _ h => has_atLeast.2 ⟨h.1 .result, h.1 .bsrch1, h.2⟩) fun z => ?_
      exact .pure fun _ h => h
    · refine .bind (.lift (Q := fun _ h => Has (atLeast s.res.length t.bsrch1.length t.q.length) h) fun _ _ h _ => h) fun d => .ite (fun _ => ?_) fun _ => ?_
      · exact .bind ((grants_absAdd L dbg n (fun _ => 0) .result _ _).mono (fun h hh => ⟨fun _ => Nat.zero_le _, hh .result⟩) fun _ _ h => h)
          fun d => .pure fun _ h => h.2
      · refine .bind ((grants_absAdd L dbg n (fun _ => 0) .q _ _).mono (fun h hh => ⟨fun _ => Nat.zero_le _, hh .q⟩) fun _ _ h => h) fun d =>
          .bind .steal fun _ => .pure fun h hh => ?_
        obtain ⟨g, hg, rfl⟩ := hh
        simpa using hg.2
  unfold divBodyV
  refine (Grants.scope (Grants.scope (Grants.scope inner))).mono (fun _ h => h) fun t h hh => ?_
  obtain ⟨g0, ⟨g1, ⟨g2, h2, rfl⟩, rfl⟩, rfl⟩ := hh
  simpa using h2

theorem grants_absDiv (a b : List Nat) : Grants (fun _ => True) (absDivV c L dbg n a b) fun d h => d.length ≤ h .this := by
  unfold absDivV
  refine (Grants.scope (Q := fun d h => d.length ≤ h .this) (.bind (Q := fun _ h => 1 ≤ h .result) ((grants_takeFor (fun _ => 0) .result 1).mono
    (fun _ _ _ => Nat.zero_le _) fun _ _ h => h.2) fun _ => .bind (Grants.loop (I := fun (s : DivSt) h => s.res.length ≤ h .result)
    (fun s => grants_divBody L dbg n b s) n ⟨a, [L.store (L.toSingle 0)]⟩) fun s => .bind .steal fun _ => .pure fun h hh => ?_)).mono (fun _ h => h) fun d h hh => ?_
  · obtain ⟨g, hg, rfl⟩ := hh
    simpa using hg
  · obtain ⟨g, hg, rfl⟩ := hh
    simpa using hg

theorem grants_subCopy (a b : List Nat) (d : Desc) : Grants (fun _ => True) (subCopyV c L dbg n a b d) fun x h => x.size ≤ h .this := by
  unfold subCopyV
  refine (Grants.scope (Q := fun (x : Bignum) h => x.size ≤ h .this) (.bind (Q := fun _ h => b.length ≤ h .result) ((grants_takeFor (fun _ => 0) .result _).mono
    (fun _ _ _ => Nat.zero_le _) fun _ _ h => h.2) fun _ => .bind (.lift (Q := fun d h => d.length ≤ h .result) fun d h hh hd =>
    (absSub_shorter hd).trans hh) fun d' => .bind .steal fun _ => .pure fun h hh => ?_)).mono (fun _ h => h) fun d h hh => ?_
  · obtain ⟨g, hg, rfl⟩ := hh
    simpa [Bignum.size] using hg
  · obtain ⟨g, hg, rfl⟩ := hh
    simpa using hg

theorem grants_subMixed (a b : Bignum) : Grants (fun _ => True) (subMixedV c L dbg n a b) fun x h => x.size ≤ h .this := by
  unfold subMixedV
  refine (Grants.scope (Q := fun (x : Bignum) h => x.size ≤ h .this) (.bind (.lift (Q := fun _ _ => True) fun _ _ _ _ => trivial) fun g =>
    .bind (Q := fun _ h => (if g then a.digits else b.digits).length ≤ h .result) ((grants_takeFor (fun _ => 0) .result _).mono
    (fun _ _ _ => Nat.zero_le _) fun _ _ h => h.2) fun _ => .bind (.lift (Q := fun d h => d.length ≤ h .result) fun d h hh hd =>
    (absSub_shorter hd).trans hh) fun d' => .bind .steal fun _ => .pure fun h hh => ?_)).mono (fun _ h => h) fun d h hh => ?_
  · obtain ⟨g, hg, rfl⟩ := hh
    simpa [Bignum.size] using hg
  · obtain ⟨g, hg, rfl⟩ := hh
    simpa using hg

theorem grants_inPlace (x : Bignum) (r : Rhs) : Grants (fun h => x.size ≤ h .this) (subInPlaceV L dbg n x r) fun b h => b.size ≤ h .this :=
  .bind (.lift (Q := fun d h => d.length ≤ h .this) fun _ _ hh hd => (absSub_shorter hd).trans hh) fun _ => .pure fun _ h => h

theorem grants_addTry (x : Bignum) (r : Rhs) : Grants (fun h => x.size ≤ h .this) (addTryV c L dbg n x r) fun b h => b.size ≤ h .this := by
  have h1 : Grants (fun h => x.size ≤ h .this) (do let d ← absAddV c L dbg n .this x.digits r.src; pure (⟨x.desc, d⟩ : Bignum))
      fun b h => b.size ≤ h .this :=
    .bind ((grants_absAdd L dbg n (fun _ => 0) .this _ _).mono (fun h hh => ⟨fun _ => Nat.zero_le _, hh⟩) fun _ _ h => h) fun d => .pure fun _ h => h.2
  have h2 : ∀ d, Grants (fun h => x.size ≤ h .this) (do
      let ge ← HeapM.lift (absGe x.digits (r.get x).digits)
      if ge then subInPlaceV L dbg n x r else subCopyV c L dbg n x.digits (r.get x).digits d) fun b h => b.size ≤ h .this := fun d =>
    .bind (.lift (Q := fun _ h => x.size ≤ h .this) fun _ _ h _ => h) fun ge => .ite (fun _ => grants_inPlace L dbg n x r) fun _ =>
      (grants_subCopy L dbg n _ _ d).mono (fun _ _ => trivial) fun _ _ h => h
  exact .ite (fun _ => h1) fun _ => .ite (fun _ => h2 _) fun _ => .ite (fun _ => h2 _) fun _ => h1

theorem grants_subTry (x : Bignum) (r : Rhs) : Grants (fun h => x.size ≤ h .this) (subTryV c L dbg n x r) fun b h => b.size ≤ h .this := by
  have h1 : Grants (fun h => x.size ≤ h .this) (subMixedV c L dbg n x (r.get x)) fun b h => b.size ≤ h .this :=
    (grants_subMixed L dbg n _ _).mono (fun _ _ => trivial) fun _ _ h => h
  have h2 : ∀ d, Grants (fun h => x.size ≤ h .this) (do
      let ge ← HeapM.lift (absGe x.digits (r.get x).digits)
      if ge then subInPlaceV L dbg n x r else subCopyV c L dbg n x.digits (r.get x).digits d) fun b h => b.size ≤ h .this := fun d =>
    .bind (.lift (Q := fun _ h => x.size ≤ h .this) fun _ _ h _ => h) fun ge => .ite (fun _ => grants_inPlace L dbg n x r) fun _ =>
      (grants_subCopy L dbg n _ _ d).mono (fun _ _ => trivial) fun _ _ h => h
  exact .ite (fun _ => h2 _) fun _ => .ite (fun _ => h1) fun _ => .ite (fun _ => h1) fun _ => h2 _

theorem grants_any {α : Type} (m : HeapM α) : Grants (fun _ => True) m fun _ _ => True := fun _ _ _ _ _ => trivial

theorem grants_mul {F : Type} (o : FloatOps F) (a b : List Nat) : Grants (fun _ => True) (mulStrassenV c o L n a b) fun d h => d.length ≤ h .result := by
  refine .during (.bind (grants_any _) fun _ => .bind (grants_any _) fun _ => .bind (grants_any _) fun inv => ?_)
  refine .bind (Q := fun _ h => inv.length ≤ h .result) ((grants_takeFor (fun _ => 0) .result _).mono
    (fun _ _ _ => Nat.zero_le _) fun _ _ h => h.2) fun _ => .bind (.lift (Q := fun d h => d.length ≤ h .result) fun d h hh hd => ?_) fun ret =>
    .bind (.lift (Q := fun _ h => ret.length ≤ h .result) fun _ _ h _ => h) fun z => .pure fun h hh => ?_
  · rw [carry_length o L _ _ hd]; simpa using hh
  · rw [List.length_take]; omega

/-- The storage of the number itself does not shrink. -/
def Grows {α : Type} (m : HeapM α) : Prop := ∀ h, h.cap .this ≤ (m h).2.cap .this

/-- Nor does it if an exception leaves. -/
def Spares {α : Type} (m : HeapM α) : Prop := ∀ h e, (m h).1 = .error e → h.cap .this ≤ (m h).2.cap .this

namespace Grows
variable {α β : Type}

theorem lift (r : Res α) : Grows (HeapM.lift r) := fun _ => le_rfl
theorem pure (x : α) : Grows (Pure.pure x : HeapM α) := fun _ => le_rfl

theorem bind {m : HeapM α} {f : α → HeapM β} (hm : Grows m) (hf : ∀ a, Grows (f a)) : Grows (m >>= f) := fun h => by
  rw [heap_bind]
  have h1 := hm h
  rcases hr : m h with ⟨r, g⟩
  rw [hr] at h1
  cases r with
  | ok a => exact le_trans h1 (hf a g)
  | error e => exact h1

theorem ite {p : Prop} [Decidable p] {a b : HeapM α} (ha : Grows a) (hb : Grows b) : Grows (if p then a else b) := by split <;> assumption

theorem forever {σ : Type} {b : σ → HeapM (σ × Bool)} (hb : ∀ s, Grows (b s)) : ∀ k s, Grows (loopForeverH b k s)
  | 0, _ => lift _
  | k + 1, s => by
    rw [loopForeverH]
    exact bind (hb s) fun t => ite (pure _) (forever hb k _)

theorem loop {σ : Type} {cond : σ → Res Bool} {b : σ → HeapM σ} (hb : ∀ s, Grows (b s)) : ∀ k s, Grows (loopWhileH cond b k s)
  | 0, _ => lift _
  | k + 1, s => by
    rw [loopWhileH]
    exact bind (lift _) fun t => ite (bind (hb s) fun _ => Grows.loop hb k _) (pure _)

theorem takeFor (v : Var) (k : Nat) : Grows (BN.takeFor c v k) := fun h => by
  unfold BN.takeFor
  split
  · exact le_rfl
  · split
    · by_cases e : Var.this = v
      · subst e; simp only [Mem.setCap, if_true]; omega
      · simp [Mem.setCap, e]
    · exact le_rfl

theorem growIf (v : Var) (k : Nat) (b : Bool) : Grows (BN.growIf c v k b) := by
  unfold BN.growIf
  refine ite (fun h => ?_) (pure _)
  unfold BN.growBy1
  split
  · exact le_rfl
  · exact takeFor v _ h

theorem scope {v : Var} (hv : v ≠ .this) {m : HeapM α} (hm : Grows m) : Grows (BN.scope c v m) := fun h => by
  have := hm h
  simpa [BN.scope, Mem.release, Mem.setCap, hv.symm] using this

theorem during {k : Nat} {m : HeapM α} (hm : Grows m) : Grows (BN.during k m) := fun h => by
  unfold BN.during
  split
  · exact hm { h with free := h.free - k }
  · exact le_rfl

theorem steal {v w : Var} (hv : v ≠ .this) (hw : w ≠ .this) : Grows (BN.steal c v w) := fun h => by
  simp [BN.steal, hv.symm, hw.symm]

theorem spares {m : HeapM α} (hm : Grows m) : Spares m := fun h _ _ => hm h

end Grows

namespace Spares
variable {α β : Type}

theorem bind {m : HeapM α} {f : α → HeapM β} (hm : Grows m) (hf : ∀ a, Spares (f a)) : Spares (m >>= f) := fun h e he => by
  rw [heap_bind] at he ⊢
  have h1 := hm h
  rcases hr : m h with ⟨r, g⟩
  rw [hr] at h1 he
  cases r with
  | ok a => exact le_trans h1 (hf a g e he)
  | error e => exact h1

theorem ite {p : Prop} [Decidable p] {a b : HeapM α} (ha : Spares a) (hb : Spares b) : Spares (if p then a else b) := by split <;> assumption

theorem scope {v : Var} (hv : v ≠ .this) {m : HeapM α} (hm : Spares m) : Spares (BN.scope c v m) := fun h e he => by
  have := hm h e he
  simpa [BN.scope, Mem.release, Mem.setCap, hv.symm] using this

theorem map {m : HeapM α} (f : α → β) (hm : Spares m) : Spares (m >>= fun a => Pure.pure (f a)) := fun h e he => by
  rw [heap_bind] at he ⊢
  have h1 := hm h
  rcases hr : m h with ⟨r, g⟩
  rw [hr] at h1 he
  cases r with
  | ok a => cases he
  | error e => exact h1 e rfl

theorem ends (v w : Var) (x : α) : Spares (BN.steal c v w >>= fun _ => (Pure.pure x : HeapM α)) := fun h e he => by
  rw [heap_bind] at he
  cases he

end Spares

theorem grows_absAdd (v : Var) (out : List Nat) (src : Src) : Grows (absAddV c L dbg n v out src) :=
  .bind (.forever (fun _ => .bind (.growIf _ _ _) fun _ => .lift _) _ _) fun _ => .pure _

theorem grows_shl (v : Var) (x : List Nat) : Grows (shiftLeft1V c L dbg v x) := .bind (.lift _) fun _ => .bind (.growIf _ _ _) fun _ => .pure _

theorem grows_divBody (dv : List Nat) (s : DivSt) : Grows (divBodyV c L dbg n dv s) :=
  .scope (by decide) (.scope (by decide) (.scope (by decide) (.bind (.takeFor _ _) fun _ => .bind (.takeFor _ _) fun _ => .bind (.takeFor _ _) fun _ =>
    .bind (grows_shl L dbg _ _) fun _ => .bind (.loop (fun _ => .bind (.takeFor _ _) fun _ => .bind (grows_shl L dbg _ _) fun _ =>
    .bind (grows_shl L dbg _ _) fun _ => .pure _) _ _) fun _ => .bind (.lift _) fun _ => .ite (.bind (grows_absAdd L dbg n _ _ _) fun _ => .pure _)
    (.bind (grows_absAdd L dbg n _ _ _) fun _ => .bind (.steal (by decide) (by decide)) fun _ => .pure _))))

theorem spares_absDiv (a b : List Nat) : Spares (absDivV c L dbg n a b) :=
  .scope (by decide) (.bind (.takeFor _ _) fun _ => .bind (.loop (fun _ => grows_divBody L dbg n _ _) _ _) fun _ => .ends _ _ _)

theorem spares_subCopy (a b : List Nat) (d : Desc) : Spares (subCopyV c L dbg n a b d) :=
  .scope (by decide) (.bind (.takeFor _ _) fun _ => .bind (.lift _) fun _ => .ends _ _ _)

theorem spares_subMixed (a b : Bignum) : Spares (subMixedV c L dbg n a b) :=
  .scope (by decide) (.bind (.lift _) fun _ => .bind (.takeFor _ _) fun _ => .bind (.lift _) fun _ => .ends _ _ _)

theorem spares_addTry (x : Bignum) (r : Rhs) : Spares (addTryV c L dbg n x r) :=
  .ite (.bind (grows_absAdd L dbg n _ _ _) fun _ => (Grows.pure _).spares) (.ite
    (.bind (.lift _) fun _ => .ite (.bind (.lift _) fun _ => (Grows.pure _).spares) (spares_subCopy L dbg n _ _ _)) (.ite
    (.bind (.lift _) fun _ => .ite (.bind (.lift _) fun _ => (Grows.pure _).spares) (spares_subCopy L dbg n _ _ _))
    (.bind (grows_absAdd L dbg n _ _ _) fun _ => (Grows.pure _).spares)))

theorem spares_subTry (x : Bignum) (r : Rhs) : Spares (subTryV c L dbg n x r) :=
  .ite (.bind (.lift _) fun _ => .ite (.bind (.lift _) fun _ => (Grows.pure _).spares) (spares_subCopy L dbg n _ _ _)) (.ite
    (spares_subMixed L dbg n _ _) (.ite (spares_subMixed L dbg n _ _)
    (.bind (.lift _) fun _ => .ite (.bind (.lift _) fun _ => (Grows.pure _).spares) (spares_subCopy L dbg n _ _ _))))

section
variable {F : Type} (o : FloatOps F)

theorem grows_fft : ∀ (k : Nat) (x : List (Cx F)), Grows (fftComplexV c o k x)
  | 0, _ => .lift _
  | k + 1, x => by
    rw [fftComplexV]
    exact .ite (.during (.pure _)) (.during (.during (.bind (.lift _) fun p => .bind (grows_fft k _) fun _ => .bind (grows_fft k _) fun _ => .lift _)))

theorem grows_mul (a b : List Nat) : Grows (mulStrassenV c o L n a b) :=
  .during (.bind (.lift _) fun _ => .bind (.during (.bind (grows_fft o n _) fun _ => .lift _)) fun _ =>
    .bind (.bind (grows_fft o n _) fun _ => .pure _) fun _ => .bind (.takeFor _ _) fun _ => .bind (.lift _) fun _ => .bind (.lift _) fun _ => .pure _)

/-- The number after an operator, whether it returned or threw, has no more digits than its storage holds. -/
theorem assignV_cap (k : Arith) (x : Bignum) (r : Rhs) {h : Mem} (hc : x.size ≤ h.cap .this) {b : Bignum}
    (hb : (k.assignV c o L dbg n x r h).1 = .ok b ∨ ∃ e, (k.assignV c o L dbg n x r h).1 = .threw e b) :
    b.size ≤ (k.assignV c o L dbg n x r h).2.cap .this := by
  have key : ∀ {this : Bignum} {d : Desc} {m : HeapM Bignum}, this.size = x.size → Grants (fun h => x.size ≤ h .this) m (fun b h => b.size ≤ h .this) →
      Spares m → ((handleV this d m h).1 = .ok b ∨ ∃ e, (handleV this d m h).1 = .threw e b) → b.size ≤ (handleV this d m h).2.cap .this := by
    intro this d m ht hg hs hb
    unfold handleV at hb ⊢
    rcases hr : m h with ⟨res, h'⟩
    have hs' := hs h
    rw [hr] at hb hs'
    cases res with
    | ok a =>
      rcases hb with e | ⟨e, he⟩
      · cases e; exact hg h hc _ _ hr
      · cases he
    | error f =>
      have h2 := hs' f rfl
      cases f with
      | ub u => rcases hb with e | ⟨e, he⟩; cases e; cases he
      | timeout => rcases hb with e | ⟨e, he⟩; cases e; cases he
      | exn t =>
        rcases hb with e | ⟨e, he⟩
        · cases t <;> cases e
        · cases t <;> cases he <;> first | exact Nat.zero_le _ | exact ht.trans_le (hc.trans h2)
  unfold Arith.assignV at hb ⊢
  split at hb
  · next hx =>
    rw [if_pos hx]
    rcases hb with e | ⟨e, he⟩
    · cases e; exact Nat.zero_le _
    · cases he
  · next hx =>
    rw [if_neg hx]
    cases k with
    | add => exact key rfl (grants_addTry L dbg n x r) (spares_addTry L dbg n x r) hb
    | sub => exact key rfl (grants_subTry L dbg n x r) (spares_subTry L dbg n x r) hb
    | mul =>
      refine key rfl ?_ (.scope (by decide) (.bind (grows_mul L n o _ _) fun _ => .ends _ _ _)) hb
      refine (Grants.scope (Q := fun (x : Bignum) h => x.size ≤ h .this) (.bind ((grants_mul L n o _ _).mono (fun _ _ => trivial) fun _ _ h => h) fun d' =>
        .bind .steal fun _ => .pure fun h hh => ?_)).mono (fun _ h => h) fun d h hh => ?_
      · obtain ⟨g, hg, rfl⟩ := hh
        simpa [Bignum.size] using hg
      · obtain ⟨g, hg, rfl⟩ := hh
        simpa using hg
    | div =>
      simp only at hb ⊢
      split at hb
      · next h0 =>
        rw [if_pos h0]
        rcases hb with e | ⟨e, he⟩
        · cases e; exact Nat.zero_le _
        · cases he
      · next h0 =>
        rw [if_neg h0]
        split at hb
        · next h1 =>
          rw [if_pos h1]
          rcases hb with e | ⟨e, he⟩
          · cases e; exact hc
          · cases he
        · next h1 =>
          rw [if_neg h1]
          split at hb
          · next h2 =>
            rw [if_pos h2]
            rcases hb with e | ⟨e, he⟩
            · cases e; exact hc
            · cases he
          · next h2 =>
            rw [if_neg h2]
            refine key rfl ?_ ?_ hb
            · refine .bind (.lift (Q := fun _ h => x.size ≤ h .this) fun _ _ h _ => h) fun g => .ite (fun _ => ?_) fun _ => ?_
              · exact .bind ((grants_absDiv L dbg n _ _).mono (fun _ _ => trivial) fun _ _ h => h) fun _ => .pure fun _ h => h
              · exact .bind ((grants_takeFor (fun _ => 0) .this 1).mono (fun _ _ _ => Nat.zero_le _) fun _ _ h => h.2) fun _ => .pure fun _ h => h
            · exact .bind (.lift _) fun g => .ite (.map _ (spares_absDiv L dbg n _ _)) (.bind (.takeFor _ _) fun _ => (Grows.pure _).spares)

end

end

end BN
