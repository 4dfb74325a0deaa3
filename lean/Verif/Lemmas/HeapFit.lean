import Verif.Lemmas.Heap
import Verif.Lemmas.RequestsDiv
import Verif.Lemmas.FftShape
/-
How much memory is enough: for sums, differences and quotients a bound, for products the exact amount.
-/
namespace BN
open Bignum

variable {c : Plant}

/-- Vectors of at most `N` digits. -/
def upTo (N : Nat) (dbg : Bool) : Env := ⟨fun m => decide (m ≤ N), dbg⟩

/-- With the capacities within `B`, and all memory `T`: the outcome is `r`, unless `r` is a failed allocation. -/
def Suffices (c : Plant) (B : Var → Nat) (T : Nat) {α : Type} (m : HeapM α) (r : Res α) : Prop :=
  ∀ h : Mem, h.total c = T → (∀ v, h.cap v ≤ B v) → r = .error (.exn .badAlloc) ∨ (m h).1 = r ∧ (m h).2.total c = T ∧ ∀ v, (m h).2.cap v ≤ B v

namespace Suffices
variable {α β : Type} {B : Var → Nat} {T : Nat}

theorem lift (r : Res α) : Suffices c B T (HeapM.lift r) r := fun _ hT hB => .inr ⟨rfl, hT, hB⟩
theorem pure (x : α) : Suffices c B T (Pure.pure x : HeapM α) (.ok x) := fun _ hT hB => .inr ⟨rfl, hT, hB⟩

theorem bind {m : HeapM α} {f : α → HeapM β} {r : Res α} {g : α → Res β} (hm : Suffices c B T m r) (hf : ∀ x, Suffices c B T (f x) (g x)) :
    Suffices c B T (m >>= f) (r >>= g) := fun h hT hB => by
  rw [heap_bind]
  have h1 := hm h hT hB
  rcases hr : m h with ⟨r', h'⟩
  rw [hr] at h1
  rcases h1 with rfl | ⟨rfl, h1⟩
  · exact .inl rfl
  · cases r' with
    | ok x => exact hf x h' h1.1 h1.2
    | error e => exact .inr ⟨rfl, h1⟩

theorem then' {m : HeapM Unit} {f : HeapM β} {r : Res β} (hm : Suffices c B T m (.ok ())) (hf : Suffices c B T f r) :
    Suffices c B T (m >>= fun _ => f) r := Suffices.bind (g := fun _ => r) hm fun _ => hf

theorem ite {p : Prop} [Decidable p] {a b : HeapM α} {r s : Res α} (ha : Suffices c B T a r) (hb : Suffices c B T b s) :
    Suffices c B T (if p then a else b) (if p then r else s) := by
  split <;> assumption

theorem forever {σ : Type} {b : σ → HeapM (σ × Bool)} {b' : σ → Res (σ × Bool)} (hb : ∀ s, Suffices c B T (b s) (b' s)) :
    ∀ n s, Suffices c B T (loopForeverH b n s) (loopForever b' n s)
  | 0, _ => lift _
  | n + 1, s => by
    rw [loopForeverH, loopForever]
    exact bind (hb s) fun t => ite (pure _) (forever hb n _)

theorem loop {σ : Type} {cond : σ → Res Bool} {b : σ → HeapM σ} {b' : σ → Res σ} (hb : ∀ s, Suffices c B T (b s) (b' s)) :
    ∀ n s, Suffices c B T (loopWhileH cond b n s) (loopWhile cond b' n s)
  | 0, _ => lift _
  | n + 1, s => by
    rw [loopWhileH, loopWhile]
    exact bind (lift _) fun t => ite (bind (hb s) fun _ => Suffices.loop hb n _) (pure _)

theorem scope {v : Var} {m : HeapM α} {r : Res α} (hm : Suffices c B T m r) : Suffices c B T (BN.scope c v m) r := fun h hT hB => by
  rcases hm h hT hB with h1 | ⟨h1, h2, h3⟩
  · exact .inl h1
  · refine .inr ⟨h1, (total_release _ v).trans h2, fun w => ?_⟩
    simp only [BN.scope, Mem.release, Mem.setCap]
    split
    · exact Nat.zero_le _
    · exact h3 w

theorem steal {v w : Var} (hvw : v ≠ w) (hB : B w ≤ B v) : Suffices c B T (BN.steal c v w) (.ok ()) := fun h hT hc => by
  refine .inr ⟨rfl, (total_steal h hvw).trans hT, fun u => ?_⟩
  simp only [BN.steal]
  split
  · next e => rw [e]; exact (hc w).trans hB
  · split
    · exact Nat.zero_le _
    · exact hc u

/-- A request is granted if the capacities at their bounds leave room for it. -/
theorem takeFor {v : Var} {n : Nat} (hn : n ≤ B v)
    (hT : c.digit * n + c.digit * B .this + c.digit * B .result + c.digit * B .bsrch0 + c.digit * B .bsrch1 + c.digit * B .q ≤ T) :
    Suffices c B T (BN.takeFor c v n) (.ok ()) := fun h h1 h2 => by
  refine .inr ⟨?_, (total_takeFor h v n).trans h1, ?_⟩
  · unfold BN.takeFor
    split
    · rfl
    · rw [if_pos ?_]
      have a1 := Nat.mul_le_mul_left c.digit (h2 .this)
      have a2 := Nat.mul_le_mul_left c.digit (h2 .result)
      have a3 := Nat.mul_le_mul_left c.digit (h2 .bsrch0)
      have a4 := Nat.mul_le_mul_left c.digit (h2 .bsrch1)
      have a5 := Nat.mul_le_mul_left c.digit (h2 .q)
      unfold Mem.total at h1
      omega
  · intro w
    unfold BN.takeFor
    split
    · exact h2 w
    · split
      · simp only [Mem.setCap]
        split
        · next e => rw [e]; exact hn
        · exact h2 w
      · exact h2 w

end Suffices

/-- As `Suffices`, where the memory afterwards does not matter. -/
def EndsAs (c : Plant) (B : Var → Nat) (T : Nat) {α : Type} (m : HeapM α) (r : Res α) : Prop :=
  ∀ h : Mem, h.total c = T → (∀ v, h.cap v ≤ B v) → r = .error (.exn .badAlloc) ∨ (m h).1 = r

namespace EndsAs
variable {α β : Type} {B : Var → Nat} {T : Nat}

theorem of {m : HeapM α} {r : Res α} (hm : Suffices c B T m r) : EndsAs c B T m r := fun h h1 h2 => (hm h h1 h2).imp_right And.left
theorem scope {v : Var} {m : HeapM α} {r : Res α} (hm : EndsAs c B T m r) : EndsAs c B T (BN.scope c v m) r := hm
theorem bind {m : HeapM α} {f : α → HeapM β} {r : Res α} {g : α → Res β} (hm : Suffices c B T m r) (hf : ∀ x, EndsAs c B T (f x) (g x)) :
    EndsAs c B T (m >>= f) (r >>= g) := fun h hT hB => by
  rw [heap_bind]
  have h1 := hm h hT hB
  rcases hr : m h with ⟨r', h'⟩
  rw [hr] at h1
  rcases h1 with rfl | ⟨rfl, h1⟩
  · exact .inl rfl
  · cases r' with
    | ok x => exact hf x h' h1.1 h1.2
    | error e => exact .inr rfl

theorem andThen {m : HeapM α} {f : α → β} {r : Res α} (hm : EndsAs c B T m r) : EndsAs c B T (m >>= fun x => Pure.pure (f x)) (r >>= fun x => .ok (f x)) :=
  fun h hT hB => by
    rw [heap_bind]
    have h1 := hm h hT hB
    rcases hr : m h with ⟨r', h'⟩
    rw [hr] at h1
    rcases h1 with rfl | rfl
    · exact .inl rfl
    · cases r' <;> exact .inr rfl

theorem steal (v w : Var) (x : α) : EndsAs c B T (BN.steal c v w >>= fun _ => Pure.pure x) (.ok x) := fun _ _ _ => .inr rfl

theorem ite {p : Prop} [Decidable p] {a b : HeapM α} {r s : Res α} (ha : EndsAs c B T a r) (hb : EndsAs c B T b s) :
    EndsAs c B T (if p then a else b) (if p then r else s) := by
  split <;> assumption

end EndsAs

/-- Room for vectors of `N` digits: `A` bounds the capacities they ask for, and there is room for one more of `A` beside the bounds. -/
structure Spacious (c : Plant) (B : Var → Nat) (T N A : Nat) : Prop where
  len : N ≤ A
  grow : ∀ n, n < N → c.grow n ≤ A
  all : c.digit * A + c.digit * B .this + c.digit * B .result + c.digit * B .bsrch0 + c.digit * B .bsrch1 + c.digit * B .q ≤ T

section
variable {B : Var → Nat} {T N A : Nat} (sp : Spacious c B T N A) (L : Limits) (dbg : Bool) (n : Nat)
include sp

theorem Spacious.take {v : Var} (hv : A ≤ B v) {m : Nat} (hm : m ≤ A) : Suffices c B T (takeFor c v m) (.ok ()) :=
  .takeFor (hm.trans hv) (by have := Nat.mul_le_mul_left c.digit hm; have := sp.all; omega)

theorem Spacious.growBy1 {v : Var} (hv : A ≤ B v) {m : Nat} (hm : m < N) : Suffices c B T (growBy1 c v m) (.ok ()) := fun h h1 h2 => by
  unfold BN.growBy1
  split
  · exact .inr ⟨rfl, h1, h2⟩
  · exact sp.take hv (sp.grow m hm) h h1 h2

/-- Copies, which fail if they are too long. -/
theorem Spacious.copy {α : Type} {v : Var} (hv : A ≤ B v) {l : List Nat} {f : HeapM α} {g : List Nat → Res α} (hf : Suffices c B T f (g l)) :
    Suffices c B T (takeFor c v l.length >>= fun _ => f) (Vec.copy (upTo N dbg) l >>= g) := by
  unfold Vec.copy
  split
  · next h =>
    rw [ok_bind, ← h]
    exact .then' (sp.take hv (by rw [h]; exact Nat.zero_le _)) hf
  · by_cases hl : l.length ≤ N
    · rw [if_pos (show (upTo N dbg).alloc l.length = true from decide_eq_true hl), ok_bind]
      exact .then' (sp.take hv (hl.trans sp.len)) hf
    · rw [if_neg (by simpa [upTo] using hl)]
      exact fun _ _ _ => .inl rfl

theorem Spacious.copyEnds {α : Type} {v : Var} (hv : A ≤ B v) {l : List Nat} {f : HeapM α} {g : List Nat → Res α} (hf : EndsAs c B T f (g l)) :
    EndsAs c B T (takeFor c v l.length >>= fun _ => f) (Vec.copy (upTo N dbg) l >>= g) := by
  unfold Vec.copy
  split
  · next h =>
    rw [ok_bind, ← h]
    exact EndsAs.bind (r := .ok ()) (g := fun _ => g l) (sp.take hv (by rw [h]; exact Nat.zero_le _)) fun _ => hf
  · by_cases hl : l.length ≤ N
    · rw [if_pos (show (upTo N dbg).alloc l.length = true from decide_eq_true hl), ok_bind]
      exact EndsAs.bind (r := .ok ()) (g := fun _ => g l) (sp.take hv (hl.trans sp.len)) fun _ => hf
    · rw [if_neg (by simpa [upTo] using hl)]
      exact fun _ _ _ => .inl rfl

theorem suffices_addBody {v : Var} (hv : A ≤ B v) (src : Src) (s : AddSt) :
    Suffices c B T (addBodyV c L dbg v src s) (addBody L (upTo N dbg) src s) := by
  unfold addBodyV
  by_cases h : s.outIter = s.out.length
  · by_cases hl : s.out.length + 1 ≤ N
    · have e : addBody L (upTo N dbg) src s = addBody L (freely dbg) src s := by
        unfold addBody growTo Vec.pushBack upTo freely
        simp only [h, if_true, hl, decide_true]
      rw [e]
      refine .then' ?_ (.lift _)
      unfold growIf
      rw [if_pos (decide_eq_true h)]
      exact sp.growBy1 hv (by omega)
    · have e : addBody L (upTo N dbg) src s = .error (.exn .badAlloc) := by
        unfold addBody growTo Vec.pushBack upTo
        simp only [h, if_true, hl, decide_false]
        rfl
      rw [e]
      exact fun _ _ _ => .inl rfl
  · have e : addBody L (upTo N dbg) src s = addBody L (freely dbg) src s := by
      unfold addBody growTo
      rw [if_neg h, if_neg h]
    rw [e]
    refine .then' ?_ (.lift _)
    unfold growIf
    rw [if_neg (by simpa using h)]
    exact .pure _

theorem suffices_absAdd {v : Var} (hv : A ≤ B v) (out : List Nat) (src : Src) :
    Suffices c B T (absAddV c L dbg n v out src) (absAdd L (upTo N dbg) n out src) :=
  .bind (.forever (fun _ => suffices_addBody sp L dbg hv _ _) _ _) fun _ => .pure _

omit sp in
theorem shl_or_fail (N : Nat) (x : List Nat) : shiftLeft1 L (upTo N dbg) x = .error (.exn .badAlloc) ∨
    shiftLeft1 L (upTo N dbg) x = shiftLeft1 L (freely dbg) x ∧ ∀ y, shiftLeft1 L (freely dbg) x = .ok y → x.length < y.length → x.length < N := by
  unfold shiftLeft1
  split
  · right
    refine ⟨rfl, fun y hy hl => ?_⟩
    cases hy
    exact absurd hl (Nat.not_lt_zero _)
  · have hk := shlLoop_length L x (L.toSingle 0)
    cases hr : shlLoop L x (L.toSingle 0) with
    | error e => exact .inr ⟨rfl, fun y hy => by cases hy⟩
    | ok p =>
      have hp : p.1.length = x.length := hk _ hr
      simp only [ok_bind]
      split
      · cases Val.bin .add ((L.toDouble L.minLimit).conv L.single) (L.toSingle 1) with
        | error e => exact .inr ⟨rfl, fun y hy => by cases hy⟩
        | ok one =>
          simp only [ok_bind, Vec.pushBack, upTo, freely, hp]
          by_cases hl : x.length + 1 ≤ N
          · exact .inr ⟨by rw [if_pos (decide_eq_true hl)]; rfl, fun _ _ _ => by omega⟩
          · exact .inl (by rw [if_neg (by simpa using hl)])
      · refine .inr ⟨rfl, fun y hy hl => ?_⟩
        cases hy
        omega

theorem suffices_shl {v : Var} (hv : A ≤ B v) (x : List Nat) : Suffices c B T (shiftLeft1V c L dbg v x) (shiftLeft1 L (upTo N dbg) x) := by
  rcases shl_or_fail L dbg N x with h | ⟨h, hy⟩
  · rw [h]; exact fun _ _ _ => .inl rfl
  · rw [h]
    intro m h1 h2
    right
    unfold shiftLeft1V
    rw [heap_bind]
    cases hr : shiftLeft1 L (freely dbg) x with
    | error e => exact ⟨rfl, h1, h2⟩
    | ok y =>
      refine ((?_ : Suffices c B T (growIf c v x.length (x.length < y.length) >>= fun _ => pure y) (.ok y)) m h1 h2).resolve_left (by intro h; cases h)
      refine .then' ?_ (.pure _)
      unfold growIf
      split
      · next hd => exact sp.growBy1 hv (hy y hr (by simpa using hd))
      · exact .pure _

theorem suffices_divBody (hr : A ≤ B .result) (h0 : A ≤ B .bsrch0) (h1 : A ≤ B .bsrch1) (hq : A ≤ B .q) (hqr : B .q ≤ B .result)
    (dv : List Nat) (s : DivSt) : Suffices c B T (divBodyV c L dbg n dv s) (divBody L (upTo N dbg) n dv s) := by
  unfold divBodyV divBody
  refine .scope (.scope (.scope (sp.copy dbg h0 (sp.copy dbg h1 (sp.copy dbg (l := [L.store (L.toSingle 1)]) hq
    (.bind (suffices_shl sp L dbg h1 _) fun _ => .bind (.loop (fun t => ?_) _ _) fun _ => .bind ?_ fun _ => .ite ?_ ?_))))))
  · exact sp.copy dbg h0 (.bind (suffices_shl sp L dbg h1 _) fun _ => .bind (suffices_shl sp L dbg hq _) fun _ => .pure _)
  · exact .lift _
  · exact .bind (suffices_absAdd sp L dbg n hr _ _) fun _ => .pure _
  · exact .bind (suffices_absAdd sp L dbg n hq _ _) fun _ => .then' (.steal (by decide) hqr) (.pure _)

end

/-! ### Operators -/

section
variable {B : Var → Nat} {T N A : Nat} (sp : Spacious c B T N A) (L : Limits) (dbg : Bool) (n : Nat)
include sp

theorem endsAs_absDiv (hr : A ≤ B .result) (h0 : A ≤ B .bsrch0) (h1 : A ≤ B .bsrch1) (hq : A ≤ B .q) (hqr : B .q ≤ B .result)
    (a b : List Nat) : EndsAs c B T (absDivV c L dbg n a b) (absDiv L (upTo N dbg) n a b) := by
  unfold absDivV absDiv
  exact .scope (sp.copyEnds dbg (l := [L.store (L.toSingle 0)]) hr
    (.bind (.loop (fun s => suffices_divBody sp L dbg n hr h0 h1 hq hqr b s) _ _) fun s => .steal _ _ _))

theorem endsAs_absAdd (ht : A ≤ B .this) (x : Bignum) (r : Rhs) : EndsAs c B T (do let d ← absAddV c L dbg n .this x.digits r.src; pure ⟨x.desc, d⟩)
    (do let d ← absAdd L (upTo N dbg) n x.digits r.src; .ok (⟨x.desc, d⟩ : Bignum)) :=
  .bind (suffices_absAdd sp L dbg n ht _ _) fun _ => .of (.pure _)

end

/-! ### Copies -/

section
variable (L : Limits) (dbg : Bool) (n : Nat) {h : Mem}

theorem takeFor_ok {m : Nat} (hf : c.digit * m ≤ h.free) (v : Var) : (takeFor c v m h).1 = .ok () := by
  unfold takeFor
  rw [if_pos hf]
  split <;> rfl

theorem subCopyV_eq {a : List Nat} {b : Bignum} (hf : c.digit * b.digits.length ≤ h.free) (d : Desc) : (subCopyV c L dbg n a b.digits d h).1 =
    (do let tempNum ← b.copy (freely dbg); let d' ← absSub L (freely dbg) n tempNum.digits (.other a); .ok ⟨d, d'⟩) := by
  rw [bcopy_freely, ok_bind]
  simp only [subCopyV, scope, heap_bind]
  have := takeFor_ok hf .result
  rcases htk : takeFor c .result b.digits.length h with ⟨r, h'⟩
  rw [htk] at this
  cases this
  simp only [HeapM.lift]
  cases absSub L (freely dbg) n b.digits (.other a) <;> rfl

theorem subMixedV_eq {a b : Bignum} (hf : c.digit * max a.digits.length b.digits.length ≤ h.free) : (subMixedV c L dbg n a b h).1 =
    (do let g ← absGt a.digits b.digits; let temp ← Vec.copy (freely dbg) (if g then a.digits else b.digits)
        let d ← absSub L (freely dbg) n temp (.other b.digits); .ok ⟨a.desc, d⟩) := by
  simp only [copy_freely, ok_bind]
  simp only [subMixedV, scope, heap_bind, HeapM.lift]
  cases absGt a.digits b.digits with
  | error e => rfl
  | ok g =>
    simp only [ok_bind]
    have := takeFor_ok (c := c) (h := h) (m := (if g then a.digits else b.digits).length)
      ((Nat.mul_le_mul_left _ (by split; exacts [le_max_left _ _, le_max_right _ _])).trans hf) .result
    rcases htk : takeFor c .result (if g then a.digits else b.digits).length h with ⟨r, h'⟩
    rw [htk] at this
    cases this
    simp only
    cases absSub L (freely dbg) n (if g then a.digits else b.digits) (.other b.digits) <;> rfl

theorem subInPlaceV_eq (x : Bignum) (r : Rhs) : (subInPlaceV L dbg n x r h).1 =
    (do let d ← absSub L (freely dbg) n x.digits r.src; .ok ⟨x.desc, d⟩) := by
  simp only [subInPlaceV, heap_bind, HeapM.lift]
  cases absSub L (freely dbg) n x.digits r.src <;> rfl

theorem diffV_eq {x : Bignum} {r : Rhs} {d : Desc} (hf : c.digit * max x.digits.length (r.get x).digits.length ≤ h.free) :
    ((do let ge ← HeapM.lift (absGe x.digits (r.get x).digits)
         if ge then subInPlaceV L dbg n x r else subCopyV c L dbg n x.digits (r.get x).digits d) h).1 =
    (do if ← absGe x.digits (r.get x).digits then
          let d ← absSub L (freely dbg) n x.digits r.src
          .ok ⟨x.desc, d⟩
        else
          let tempNum ← (r.get x).copy (freely dbg)
          let d' ← absSub L (freely dbg) n tempNum.digits (.other x.digits)
          .ok ⟨d, d'⟩) := by
  rw [heap_bind]
  simp only [HeapM.lift]
  cases absGe x.digits (r.get x).digits with
  | error e => rfl
  | ok g =>
    simp only [ok_bind]
    cases g
    · exact subCopyV_eq L dbg n ((Nat.mul_le_mul_left _ (le_max_right _ _)).trans hf) d
    · exact subInPlaceV_eq L dbg n x r

theorem subTryV_eq {x : Bignum} {r : Rhs} (hf : c.digit * max x.digits.length (r.get x).digits.length ≤ h.free) :
    (subTryV c L dbg n x r h).1 = subTry L (freely dbg) n x r := by
  unfold subTryV subTry
  simp only
  split
  · exact diffV_eq L dbg n hf
  · split
    · exact subMixedV_eq L dbg n hf
    · split
      · exact subMixedV_eq L dbg n hf
      · exact diffV_eq L dbg n hf

theorem addTryV_mixed {x : Bignum} {r : Rhs} (hx : Signed x.desc) (hr : Signed (r.get x).desc) (hne : x.desc ≠ (r.get x).desc)
    (hf : c.digit * max x.digits.length (r.get x).digits.length ≤ h.free) : (addTryV c L dbg n x r h).1 = addTry L (freely dbg) n x r := by
  unfold addTryV addTry
  simp only
  split
  · next e => exact absurd (e.1.trans e.2.symm) hne
  · split
    · exact diffV_eq L dbg n hf
    · split
      · exact diffV_eq L dbg n hf
      · next h1 h2 h3 =>
        rcases hx with hx | hx <;> rcases hr with hr | hr <;> simp_all

end

/-! ### Products: the exact amount -/

/-- The computation ends as `r` if `N` bytes are free, and throws otherwise; either way it returns all memory. -/
def Needs {α : Type} (m : HeapM α) (N : Nat) (r : Res α) : Prop :=
  ∀ h : Mem, m h = if N ≤ h.free then (r, h) else (.error (.exn .badAlloc), h)

namespace Needs
variable {α β : Type}

theorem lift (r : Res α) : Needs (HeapM.lift r) 0 r := fun _ => (if_pos (Nat.zero_le _)).symm

theorem pure (x : α) : Needs (Pure.pure x : HeapM α) 0 (.ok x) := fun _ => (if_pos (Nat.zero_le _)).symm

theorem bind {m : HeapM α} {f : α → HeapM β} {x : α} {r : Res β} {N M K : Nat} (hm : Needs m N (.ok x)) (hf : Needs (f x) M r) (hK : K = max N M) :
    Needs (m >>= f) K r := fun h => by
  rw [heap_bind, hm h]
  by_cases h1 : N ≤ h.free
  · rw [if_pos h1]
    simp only
    rw [hf h]
    by_cases h2 : M ≤ h.free
    · rw [if_pos h2, if_pos (by omega)]
    · rw [if_neg h2, if_neg (by omega)]
  · rw [if_neg h1, if_neg (by omega)]

theorem during {n N K : Nat} {m : HeapM α} {r : Res α} (hm : Needs m N r) (hK : K = n + N) : Needs (BN.during n m) K r := fun h => by
  unfold BN.during
  by_cases h1 : n ≤ h.free
  · rw [if_pos h1, hm]
    simp only
    by_cases h2 : N ≤ h.free - n
    · rw [if_pos h2, if_pos (by omega)]
      simp only [Prod.mk.injEq, true_and]
      rcases h with ⟨f, g⟩
      simp only [Mem.mk.injEq, and_true] at h1 ⊢
      omega
    · rw [if_neg h2, if_neg (by omega)]
      simp only [Prod.mk.injEq, true_and]
      rcases h with ⟨f, g⟩
      simp only [Mem.mk.injEq, and_true] at h1 ⊢
      omega
  · rw [if_neg h1, if_neg (by omega)]

end Needs

section
variable {F : Type} (o : FloatOps F)

/-- A transform of 2^k points needs room for 2·2^k - 1 cells. -/
theorem needs_fft : ∀ (k : Nat) (f : Nat → Cx F) {n : Nat}, k < n →
    Needs (fftComplexV c o n (tab (2 ^ k) f)) (c.cell * (2 * 2 ^ k - 1)) (.ok (tab (2 ^ k) (fftF o k f)))
  | 0, f, n, hn => by
    obtain ⟨n, rfl⟩ : ∃ m, n = m + 1 := ⟨n - 1, by omega⟩
    have := fftComplex_eq o 0 f (fuel := n + 1) (by omega)
    rw [fftComplex] at this
    rw [fftComplexV]
    simp only [tab_length, pow_zero, if_true] at this ⊢
    rw [← this]
    exact .during (.pure _) (by simp)
  | k + 1, f, n, hn => by
    obtain ⟨n, rfl⟩ : ∃ m, n = m + 1 := ⟨n - 1, by omega⟩
    have h2 : 2 ^ (k + 1) = 2 * 2 ^ k := by ring
    have hpos : 0 < 2 ^ k := Nat.two_pow_pos k
    have hlen : (tab (2 ^ (k + 1)) f).length = 2 * 2 ^ k := by rw [h2]; simp [tab]
    have hne : ¬ (tab (2 ^ (k + 1)) f).length = 1 := by omega
    have hhalf : (tab (2 ^ (k + 1)) f).length / 2 = 2 ^ k := by omega
    have hpart := fftPartition_eq (h := 2 ^ k) f (2 ^ k) le_rfl
    rw [← h2] at hpart
    have key := fftComplex_eq o (k + 1) f (fuel := n + 1) hn
    rw [fftComplex] at key
    simp only [if_neg hne, hhalf, hpart, ok_bind, fftComplex_eq o k _ (show k < n by omega)] at key
    rw [fftComplexV]
    simp only [if_neg hne, hhalf, hpart]
    rw [← key]
    have e : c.cell * (2 * 2 ^ (k + 1) - 1) = c.cell * 2 ^ k + (c.cell * 2 ^ k + c.cell * (2 * 2 ^ k - 1)) := by
      rw [← Nat.mul_add, ← Nat.mul_add]; congr 1; omega
    exact .during (.during (.bind (.lift _) (.bind (needs_fft k _ (by omega)) (.bind (needs_fft k _ (by omega)) (.lift _) rfl) rfl) rfl) rfl)
      (by rw [e]; simp)

theorem needs_ifft (k : Nat) (f : Nat → Cx F) {n : Nat} (hn : k < n) :
    Needs (ifftComplexV c o n (tab (2 ^ k) f)) (c.cell * (2 * 2 ^ k - 1)) (.ok (tab (2 ^ k) (ifftF o k f))) := by
  have key := ifftComplex_eq o k f hn
  unfold ifftComplex at key
  unfold ifftComplexV
  simp only [tab_map] at key ⊢
  rw [fftComplex_eq o k _ hn, ok_bind] at key
  rw [← key]
  exact .bind (needs_fft o k _ hn) (.pure _) (by simp)

theorem needs_convolute {k : Nat} (hk : k ≤ 64) (f : Nat → Cx F) {n : Nat} (hn : k < n) :
    Needs (convoluteFftV c o n (tab (2 ^ k) f)) (c.cell * (3 * 2 ^ k - 1)) (.ok (tab (2 ^ k) (pointF o (2 ^ k) (fftF o k f)))) := by
  have key := convoluteFft_eq o hk f hn
  unfold convoluteFft at key
  rw [fftComplex_eq o k f hn, ok_bind] at key
  have hpos : 0 < 2 ^ k := Nat.two_pow_pos k
  unfold convoluteFftV
  rw [← key]
  refine .during (.bind (needs_fft o k _ hn) (.lift _) rfl) ?_
  rw [Nat.max_zero, tab_length, ← Nat.mul_add]
  congr 1
  omega

/-- A product with a table of 2^k entries needs room for 4·2^k - 1 cells; then the digits get room for 2^k. -/
theorem mulStrassenV_eq (L : Limits) (dbg : Bool) {k : Nat} (hk : k ≤ 32) {a b : List Nat} (hs : fftTableSize a.length b.length = 2 ^ k)
    {n : Nat} (hn : 32 < n) (hc : c.digit ≤ 2 * c.cell) (h : Mem) (h0 : h.cap .result = 0) :
    mulStrassenV c o L n a b h = if c.cell * (4 * 2 ^ k - 1) ≤ h.free then
      (mulStrassen o L (freely dbg) n a b, ⟨h.free - c.digit * 2 ^ k, h.setCap .result (2 ^ k)⟩) else (.error (.exn .badAlloc), h) := by
  have hpos : 0 < 2 ^ k := Nat.two_pow_pos k
  have hplain : mulStrassen o L (freely dbg) n a b = (do
      let ret ← carryLoop o L 0 ((tab (2 ^ k) (ifftF o k (pointF o (2 ^ k) (fftF o k (packF o a b))))).map Cx.re)
      let z ← countTopZeros ret ret.length 0
      .ok (ret.take (ret.length - z))) := by
    unfold mulStrassen
    rw [if_neg (by simp [freely]), createFftTable_eq, hs, ok_bind, convoluteFft_eq o (by omega) _ (show k < n by omega), ok_bind,
      ifftComplex_eq o k _ (show k < n by omega), ok_bind]
    simp only [Vec.resize, if_pos (Nat.sub_le _ _)]
  rw [hplain]
  unfold mulStrassenV
  rw [createFftTable_eq, hs]
  have e4 : c.cell * (4 * 2 ^ k - 1) = c.cell * 2 ^ k + c.cell * (3 * 2 ^ k - 1) := by rw [← Nat.mul_add]; congr 1; omega
  have e3 : c.cell * (2 * 2 ^ k - 1) ≤ c.cell * (3 * 2 ^ k - 1) := Nat.mul_le_mul_left _ (by omega)
  have e2 : c.digit * 2 ^ k ≤ c.cell * (3 * 2 ^ k - 1) := by
    refine (Nat.mul_le_mul_right _ hc).trans ?_
    rw [Nat.mul_comm 2, Nat.mul_assoc]
    exact Nat.mul_le_mul_left _ (by omega)
  unfold during
  by_cases h1 : c.cell * 2 ^ k ≤ h.free
  · rw [if_pos h1]
    simp only [heap_bind, HeapM.lift]
    rw [needs_convolute o (by omega) _ (show k < n by omega)]
    by_cases h2 : c.cell * (3 * 2 ^ k - 1) ≤ h.free - c.cell * 2 ^ k
    · rw [if_pos h2, if_pos (by omega)]
      simp only
      rw [needs_ifft o k _ (show k < n by omega), if_pos (e3.trans h2)]
      simp only [tab_length]
      unfold takeFor
      simp only
      rw [h0, if_neg (by omega), if_pos (e2.trans h2)]
      simp only
      cases hcl : carryLoop o L 0 ((tab (2 ^ k) (ifftF o k (pointF o (2 ^ k) (fftF o k (packF o a b))))).map Cx.re) with
      | error e => 
        simp only [Prod.mk.injEq, Mem.mk.injEq]
        exact ⟨rfl, by omega, rfl⟩
      | ok ret =>
        simp only [ok_bind]
        cases hcz : countTopZeros ret ret.length 0 with
        | error e =>
          simp only [Prod.mk.injEq, Mem.mk.injEq]
          exact ⟨rfl, by omega, rfl⟩
        | ok z =>
          simp only [ok_bind, heap_pure, Prod.mk.injEq, Mem.mk.injEq]
          exact ⟨trivial, by omega, rfl⟩
    · rw [if_neg h2, if_neg (by omega)]
      simp only [Prod.mk.injEq, true_and]
      rcases h with ⟨f, g⟩
      simp only [Mem.mk.injEq, and_true] at h1 ⊢
      omega
  · rw [if_neg h1, if_neg (by omega)]

end
end BN
