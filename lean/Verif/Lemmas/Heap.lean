import Verif.Model.Heap
import Verif.Lemmas.Memory
/-
What the operators do with memory: they return all of it (`Tidy`), end as usual or throw (`Scarcely`), and do not throw if there is
enough (`Suffices`).
-/
namespace BN
open Bignum

theorem heap_bind {α β : Type} (m : HeapM α) (f : α → HeapM β) (h : Mem) :
    (m >>= f) h = match m h with
      | (.ok x, h') => f x h'
      | (.error e, h') => (.error e, h') := rfl

theorem heap_pure {α : Type} (x : α) (h : Mem) : (pure x : HeapM α) h = (.ok x, h) := rfl

/-- All memory: what is free and what the vectors have. -/
def Mem.total (c : Plant) (h : Mem) : Nat :=
  h.free + c.digit * h.cap .this + c.digit * h.cap .result + c.digit * h.cap .bsrch0 + c.digit * h.cap .bsrch1 + c.digit * h.cap .q

/-- Vectors outside `S` have no storage. -/
def Mem.Only (S : Var → Prop) (h : Mem) : Prop := ∀ v, ¬ S v → h.cap v = 0

variable {c : Plant}

theorem total_release (h : Mem) (v : Var) : (h.release c v).total c = h.total c := by
  cases v <;> simp only [Mem.total, Mem.release, Mem.setCap, reduceCtorEq, if_true, if_false, Nat.mul_zero] <;> omega

theorem total_steal (h : Mem) {v w : Var} (hvw : v ≠ w) : (steal c v w h).2.total c = h.total c := by
  cases v <;> cases w <;> first | exact absurd rfl hvw | (simp [Mem.total, steal] <;> omega)

theorem total_takeFor (h : Mem) (v : Var) (n : Nat) : (takeFor c v n h).2.total c = h.total c := by
  unfold takeFor
  split
  · rfl
  · split
    · cases v <;> simp [Mem.total, Mem.setCap] <;> omega
    · rfl

theorem total_growBy1 (h : Mem) (v : Var) (n : Nat) : (growBy1 c v n h).2.total c = h.total c := by
  unfold growBy1
  split
  · rfl
  · exact total_takeFor _ _ _

/-! ### All memory comes back -/

/-- Nothing is lost, and vectors outside `S` that had no storage have none afterwards. -/
def Tidy (c : Plant) (S : Var → Prop) {α : Type} (m : HeapM α) : Prop :=
  ∀ h, h.Only S → (m h).2.Only S ∧ (m h).2.total c = h.total c

namespace Tidy
variable {α β : Type} {S : Var → Prop}

theorem lift (r : Res α) : Tidy c S (HeapM.lift r) := fun _ hS => ⟨hS, rfl⟩
theorem pure (x : α) : Tidy c S (Pure.pure x : HeapM α) := fun _ hS => ⟨hS, rfl⟩

theorem bind {m : HeapM α} {f : α → HeapM β} (hm : Tidy c S m) (hf : ∀ x, Tidy c S (f x)) : Tidy c S (m >>= f) := fun h hS => by
  rw [heap_bind]
  have h1 := hm h hS
  rcases hr : m h with ⟨r, h'⟩
  rw [hr] at h1
  cases r with
  | ok x => exact ⟨(hf x h' h1.1).1, (hf x h' h1.1).2.trans h1.2⟩
  | error e => exact h1

theorem ite {p : Prop} [Decidable p] {a b : HeapM α} (ha : Tidy c S a) (hb : Tidy c S b) : Tidy c S (if p then a else b) := by
  split <;> assumption

theorem forever {σ : Type} {b : σ → HeapM (σ × Bool)} (hb : ∀ s, Tidy c S (b s)) : ∀ n s, Tidy c S (loopForeverH b n s)
  | 0, _ => lift _
  | n + 1, s => by
    rw [loopForeverH]
    exact bind (hb s) fun t => ite (pure _) (forever hb n _)

theorem loop {σ : Type} {cond : σ → Res Bool} {b : σ → HeapM σ} (hb : ∀ s, Tidy c S (b s)) : ∀ n s, Tidy c S (loopWhileH cond b n s)
  | 0, _ => lift _
  | n + 1, s => by
    rw [loopWhileH]
    exact bind (lift _) fun t => ite (bind (hb s) fun _ => Tidy.loop hb n _) (pure _)

theorem during {n : Nat} {m : HeapM α} (hm : Tidy c S m) : Tidy c S (BN.during n m) := fun h hS => by
  unfold BN.during
  split
  · next hn =>
    have h1 := hm { h with free := h.free - n } hS
    refine ⟨h1.1, ?_⟩
    have h2 := h1.2
    simp only [Mem.total] at h2 ⊢
    omega
  · exact ⟨hS, rfl⟩

theorem takeFor {v : Var} (hv : S v) (n : Nat) : Tidy c S (BN.takeFor c v n) := fun h hS => by
  refine ⟨?_, total_takeFor h v n⟩
  unfold BN.takeFor
  split
  · exact hS
  · split
    · intro w hw
      have : w ≠ v := fun e => hw (e ▸ hv)
      simp only [Mem.setCap, if_neg this]
      exact hS w hw
    · exact hS

theorem growBy1 {v : Var} (hv : S v) (n : Nat) : Tidy c S (BN.growBy1 c v n) := fun h hS => by
  unfold BN.growBy1
  split
  · exact ⟨hS, rfl⟩
  · exact takeFor hv _ h hS

theorem growIf {v : Var} (hv : S v) (n : Nat) (b : Bool) : Tidy c S (BN.growIf c v n b) := .ite (growBy1 hv n) (pure _)

theorem steal {v w : Var} (hvw : v ≠ w) (hv : S v) (hw : S w) : Tidy c S (BN.steal c v w) := fun h hS => by
  refine ⟨fun u hu => ?_, total_steal h hvw⟩
  have h1 : u ≠ v := fun e => hu (e ▸ hv)
  have h2 : u ≠ w := fun e => hu (e ▸ hw)
  simp only [BN.steal, if_neg h1, if_neg h2]
  exact hS u hu

theorem scope {v : Var} {m : HeapM α} (hm : Tidy c (fun w => S w ∨ w = v) m) : Tidy c S (BN.scope c v m) := fun h hS => by
  have h1 := hm h fun w hw => hS w fun hs => hw (.inl hs)
  refine ⟨fun w hw => ?_, (total_release _ v).trans h1.2⟩
  simp only [BN.scope, Mem.release, Mem.setCap]
  by_cases e : w = v
  · rw [if_pos e]
  · rw [if_neg e]; exact h1.1 w fun hs => hs.elim hw e

end Tidy

section
variable {S : Var → Prop} (L : Limits) (dbg : Bool) (n : Nat)

theorem tidy_absAddV {v : Var} (hv : S v) (out : List Nat) (src : Src) : Tidy c S (absAddV c L dbg n v out src) :=
  .bind (.forever (fun _ => .bind (.growIf hv _ _) fun _ => .lift _) _ _) fun _ => .pure _

theorem tidy_shl {v : Var} (hv : S v) (x : List Nat) : Tidy c S (shiftLeft1V c L dbg v x) :=
  .bind (.lift _) fun _ => .bind (.growIf hv _ _) fun _ => .pure _

theorem tidy_divBodyV (hr : S .result) (dv : List Nat) (s : DivSt) : Tidy c S (divBodyV c L dbg n dv s) := by
  unfold divBodyV
  refine .scope (.scope (.scope ?_))
  have h0 : ((S .bsrch0 ∨ Var.bsrch0 = .bsrch0) ∨ Var.bsrch0 = .bsrch1) ∨ Var.bsrch0 = .q := .inl (.inl (.inr rfl))
  have h1 : ((S .bsrch1 ∨ Var.bsrch1 = .bsrch0) ∨ Var.bsrch1 = .bsrch1) ∨ Var.bsrch1 = .q := .inl (.inr rfl)
  have h2 : ((S .q ∨ Var.q = .bsrch0) ∨ Var.q = .bsrch1) ∨ Var.q = .q := .inr rfl
  have h3 : ((S .result ∨ Var.result = .bsrch0) ∨ Var.result = .bsrch1) ∨ Var.result = .q := .inl (.inl (.inl hr))
  refine .bind (.takeFor h0 _) fun _ => .bind (.takeFor h1 _) fun _ => .bind (.takeFor h2 _) fun _ => .bind (tidy_shl L dbg h1 _) fun _ =>
    .bind (.loop (fun s => ?_) _ _) fun _ => .bind (.lift _) fun _ => .ite ?_ ?_
  · exact .bind (.takeFor h0 _) fun _ => .bind (tidy_shl L dbg h1 _) fun _ => .bind (tidy_shl L dbg h2 _) fun _ => .pure _
  · exact .bind (tidy_absAddV L dbg n h3 _ _) fun _ => .pure _
  · exact .bind (tidy_absAddV L dbg n h2 _ _) fun _ => .bind (.steal (by decide) h3 h2) fun _ => .pure _

theorem tidy_absDivV (ht : S .this) (a b : List Nat) : Tidy c S (absDivV c L dbg n a b) :=
  .scope (.bind (.takeFor (.inr rfl) _) fun _ => .bind (.loop (fun _ => tidy_divBodyV L dbg n (.inr rfl) _ _) _ _) fun _ =>
    .bind (.steal (by decide) (.inl ht) (.inr rfl)) fun _ => .pure _)

theorem tidy_subCopyV (ht : S .this) (a b : List Nat) (d : Desc) : Tidy c S (subCopyV c L dbg n a b d) :=
  .scope (.bind (.takeFor (.inr rfl) _) fun _ => .bind (.lift _) fun _ => .bind (.steal (by decide) (.inl ht) (.inr rfl)) fun _ => .pure _)

theorem tidy_subMixedV (ht : S .this) (a b : Bignum) : Tidy c S (subMixedV c L dbg n a b) :=
  .scope (.bind (.lift _) fun _ => .bind (.takeFor (.inr rfl) _) fun _ => .bind (.lift _) fun _ =>
    .bind (.steal (by decide) (.inl ht) (.inr rfl)) fun _ => .pure _)

theorem tidy_addTryV (ht : S .this) (x : Bignum) (r : Rhs) : Tidy c S (addTryV c L dbg n x r) :=
  .ite (.bind (tidy_absAddV L dbg n ht _ _) fun _ => .pure _) (.ite
    (.bind (.lift _) fun _ => .ite (.bind (.lift _) fun _ => .pure _) (tidy_subCopyV L dbg n ht _ _ _)) (.ite
    (.bind (.lift _) fun _ => .ite (.bind (.lift _) fun _ => .pure _) (tidy_subCopyV L dbg n ht _ _ _))
    (.bind (tidy_absAddV L dbg n ht _ _) fun _ => .pure _)))

theorem tidy_subTryV (ht : S .this) (x : Bignum) (r : Rhs) : Tidy c S (subTryV c L dbg n x r) :=
  .ite (.bind (.lift _) fun _ => .ite (.bind (.lift _) fun _ => .pure _) (tidy_subCopyV L dbg n ht _ _ _)) (.ite
    (tidy_subMixedV L dbg n ht _ _) (.ite (tidy_subMixedV L dbg n ht _ _)
    (.bind (.lift _) fun _ => .ite (.bind (.lift _) fun _ => .pure _) (tidy_subCopyV L dbg n ht _ _ _))))

variable {F : Type} (o : FloatOps F)

theorem tidy_fftV : ∀ (n : Nat) (x : List (Cx F)), Tidy c S (fftComplexV c o n x)
  | 0, _ => .lift _
  | n + 1, x => by
    rw [fftComplexV]
    exact .ite (.during (.pure _)) (.during (.during (.bind (.lift _) fun p => .bind (tidy_fftV n _) fun _ => .bind (tidy_fftV n _) fun _ => .lift _)))

theorem tidy_mulStrassenV (hr : S .result) (a b : List Nat) : Tidy c S (mulStrassenV c o L n a b) :=
  .during (.bind (.lift _) fun _ => .bind (.during (.bind (tidy_fftV o n _) fun _ => .lift _)) fun _ =>
    .bind (.bind (tidy_fftV o n _) fun _ => .pure _) fun _ => .bind (.takeFor hr _) fun _ => .bind (.lift _) fun _ => .bind (.lift _) fun _ => .pure _)

/-- Only the number itself keeps storage. -/
def JustThis (v : Var) : Prop := v = .this

theorem tidy_assignV (k : Arith) (x : Bignum) (r : Rhs) (h : Mem) (hS : h.Only JustThis) :
    (k.assignV c o L dbg n x r h).2.Only JustThis ∧ (k.assignV c o L dbg n x r h).2.total c = h.total c := by
  have ht : JustThis .this := rfl
  unfold Arith.assignV
  split
  · exact ⟨hS, rfl⟩
  · cases k with
    | add => exact tidy_addTryV L dbg n ht x r h hS
    | sub => exact tidy_subTryV L dbg n ht x r h hS
    | mul =>
      exact Tidy.scope (S := JustThis) (.bind (tidy_mulStrassenV L n o (.inr rfl) _ _) fun _ => .bind (.steal (by decide) (.inl ht) (.inr rfl)) fun _ => .pure _) h hS
    | div =>
      dsimp only
      split
      · exact ⟨hS, rfl⟩
      · split
        · exact ⟨hS, rfl⟩
        · split
          · exact ⟨hS, rfl⟩
          · exact Tidy.bind (S := JustThis) (.lift _) (fun _ => .ite (.bind (tidy_absDivV L dbg n ht _ _) fun _ => .pure _)
              (.bind (.takeFor ht _) fun _ => .pure _)) h hS

end

/-! ### The usual outcome or an exception -/

/-- The outcome is `r`, or an allocation failed. -/
def Scarcely {α : Type} (m : HeapM α) (r : Res α) : Prop := ∀ h, Scarce (m h).1 r

namespace Scarcely
variable {α β : Type}

theorem lift (r : Res α) : Scarcely (HeapM.lift r) r := fun _ => .inl rfl
theorem pure (x : α) : Scarcely (Pure.pure x : HeapM α) (.ok x) := fun _ => .inl rfl

theorem bind {m : HeapM α} {f : α → HeapM β} {r : Res α} {g : α → Res β} (hm : Scarcely m r) (hf : ∀ x, Scarcely (f x) (g x)) :
    Scarcely (m >>= f) (r >>= g) := fun h => by
  rw [heap_bind]
  have h1 := hm h
  rcases hr : m h with ⟨r', h'⟩
  rw [hr] at h1
  rcases h1 with rfl | rfl
  · cases r' with
    | ok x => exact hf x h'
    | error e => exact .inl rfl
  · exact .inr rfl

/-- Computations that only ask for memory. -/
theorem then' {m : HeapM Unit} {f : HeapM β} {r : Res β} (hm : Scarcely m (.ok ())) (hf : Scarcely f r) : Scarcely (m >>= fun _ => f) r :=
  Scarcely.bind (g := fun _ => r) hm fun _ => hf

theorem ite {p : Prop} [Decidable p] {a b : HeapM α} {r s : Res α} (ha : Scarcely a r) (hb : Scarcely b s) :
    Scarcely (if p then a else b) (if p then r else s) := by
  split <;> assumption

theorem forever {σ : Type} {b : σ → HeapM (σ × Bool)} {b' : σ → Res (σ × Bool)} (hb : ∀ s, Scarcely (b s) (b' s)) :
    ∀ n s, Scarcely (loopForeverH b n s) (loopForever b' n s)
  | 0, _ => lift _
  | n + 1, s => by
    rw [loopForeverH, loopForever]
    exact bind (hb s) fun t => ite (pure _) (forever hb n _)

theorem loop {σ : Type} {cond : σ → Res Bool} {b : σ → HeapM σ} {b' : σ → Res σ} (hb : ∀ s, Scarcely (b s) (b' s)) :
    ∀ n s, Scarcely (loopWhileH cond b n s) (loopWhile cond b' n s)
  | 0, _ => lift _
  | n + 1, s => by
    rw [loopWhileH, loopWhile]
    exact bind (lift _) fun t => ite (bind (hb s) fun _ => Scarcely.loop hb n _) (pure _)

theorem during {n : Nat} {m : HeapM α} {r : Res α} (hm : Scarcely m r) : Scarcely (BN.during n m) r := fun h => by
  unfold BN.during
  split
  · exact hm _
  · exact .inr rfl

theorem takeFor (v : Var) (n : Nat) : Scarcely (BN.takeFor c v n) (.ok ()) := fun h => by
  unfold BN.takeFor
  split
  · exact .inl rfl
  · split
    · exact .inl rfl
    · exact .inr rfl

theorem growBy1 (v : Var) (n : Nat) : Scarcely (BN.growBy1 c v n) (.ok ()) := fun h => by
  unfold BN.growBy1
  split
  · exact .inl rfl
  · exact takeFor v _ h

theorem growIf (v : Var) (n : Nat) (b : Bool) : Scarcely (BN.growIf c v n b) (.ok ()) := by
  unfold BN.growIf
  split
  · exact growBy1 v n
  · exact pure _

theorem steal (v w : Var) : Scarcely (BN.steal c v w) (.ok ()) := fun _ => .inl rfl

theorem scope {v : Var} {m : HeapM α} {r : Res α} (hm : Scarcely m r) : Scarcely (BN.scope c v m) r := fun h => hm h

end Scarcely

section
variable (L : Limits) (dbg : Bool) (n : Nat)

theorem scarcely_absAddV (v : Var) (out : List Nat) (src : Src) : Scarcely (absAddV c L dbg n v out src) (absAdd L (freely dbg) n out src) :=
  .bind (.forever (fun _ => Scarcely.then' (.growIf _ _ _) (.lift _)) _ _) fun _ => .pure _

theorem scarcely_shl (v : Var) (x : List Nat) : Scarcely (shiftLeft1V c L dbg v x) (shiftLeft1 L (freely dbg) x) := by
  have := Scarcely.bind (g := fun y => (.ok y : Res (List Nat))) (Scarcely.lift (shiftLeft1 L (freely dbg) x))
    (f := fun y => growIf c v x.length (x.length < y.length) >>= fun _ => pure y)
    fun y => .then' (.growIf _ _ _) (.pure _)
  have e : (shiftLeft1 L (freely dbg) x >>= fun y => (.ok y : Res (List Nat))) = shiftLeft1 L (freely dbg) x := by
    cases shiftLeft1 L (freely dbg) x <;> rfl
  rw [e] at this
  exact this

theorem copy_freely (v : List Nat) : Vec.copy (freely dbg) v = .ok v := by
  unfold Vec.copy freely
  split
  · next h => rw [h]
  · rfl

theorem scarcely_divBodyV (dv : List Nat) (s : DivSt) : Scarcely (divBodyV c L dbg n dv s) (divBody L (freely dbg) n dv s) := by
  unfold divBodyV divBody searchBody
  simp only [copy_freely, ok_bind]
  refine .scope (.scope (.scope (.then' (.takeFor _ _) (.then' (.takeFor _ _) (.then' (.takeFor _ _) (.bind (scarcely_shl L dbg _ _) fun _ =>
    .bind (.loop (fun s => ?_) _ _) fun _ => .bind (.lift _) fun _ => .ite ?_ ?_))))))
  · exact .then' (.takeFor _ _) (.bind (scarcely_shl L dbg _ _) fun _ => .bind (scarcely_shl L dbg _ _) fun _ => .pure _)
  · exact .bind (scarcely_absAddV L dbg n _ _ _) fun _ => .pure _
  · exact .bind (scarcely_absAddV L dbg n _ _ _) fun _ => .then' (.steal _ _) (.pure _)

theorem scarcely_absDivV (a b : List Nat) : Scarcely (absDivV c L dbg n a b) (absDiv L (freely dbg) n a b) := by
  unfold absDivV absDiv
  simp only [copy_freely, ok_bind]
  exact .scope (.then' (.takeFor _ _) (.bind (.loop (fun _ => scarcely_divBodyV L dbg n _ _) _ _) fun _ => .then' (.steal _ _) (.pure _)))

theorem bcopy_freely (b : Bignum) : b.copy (freely dbg) = .ok b := by
  unfold Bignum.copy
  rw [copy_freely]
  rfl

theorem scarcely_subCopyV (a : List Nat) (b : Bignum) (d : Desc) : Scarcely (subCopyV c L dbg n a b.digits d)
    (do let tempNum ← b.copy (freely dbg); let d' ← absSub L (freely dbg) n tempNum.digits (.other a); .ok ⟨d, d'⟩) := by
  rw [bcopy_freely, ok_bind]
  exact .scope (.then' (.takeFor _ _) (.bind (.lift _) fun _ => .then' (.steal _ _) (.pure _)))

theorem scarcely_subMixedV (a b : Bignum) : Scarcely (subMixedV c L dbg n a b)
    (do let g ← absGt a.digits b.digits; let temp ← Vec.copy (freely dbg) (if g then a.digits else b.digits)
        let d ← absSub L (freely dbg) n temp (.other b.digits); .ok ⟨a.desc, d⟩) := by
  simp only [copy_freely, ok_bind]
  exact .scope (.bind (.lift _) fun _ => .then' (.takeFor _ _) (.bind (.lift _) fun _ => .then' (.steal _ _) (.pure _)))

theorem scarcely_addTryV (x : Bignum) (r : Rhs) : Scarcely (addTryV c L dbg n x r) (addTry L (freely dbg) n x r) :=
  .ite (.bind (scarcely_absAddV L dbg n _ _ _) fun _ => .pure _) (.ite
    (.bind (.lift _) fun _ => .ite (.bind (.lift _) fun _ => .pure _) (scarcely_subCopyV L dbg n _ _ _)) (.ite
    (.bind (.lift _) fun _ => .ite (.bind (.lift _) fun _ => .pure _) (scarcely_subCopyV L dbg n _ _ _))
    (.bind (scarcely_absAddV L dbg n _ _ _) fun _ => .pure _)))

theorem scarcely_subTryV (x : Bignum) (r : Rhs) : Scarcely (subTryV c L dbg n x r) (subTry L (freely dbg) n x r) :=
  .ite (.bind (.lift _) fun _ => .ite (.bind (.lift _) fun _ => .pure _) (scarcely_subCopyV L dbg n _ _ _)) (.ite
    (scarcely_subMixedV L dbg n _ _) (.ite (scarcely_subMixedV L dbg n _ _)
    (.bind (.lift _) fun _ => .ite (.bind (.lift _) fun _ => .pure _) (scarcely_subCopyV L dbg n _ _ _))))

variable {F : Type} (o : FloatOps F)

theorem scarcely_fftV : ∀ (n : Nat) (x : List (Cx F)), Scarcely (fftComplexV c o n x) (fftComplex o n x)
  | 0, _ => .lift _
  | n + 1, x => by
    rw [fftComplexV, fftComplex]
    exact .ite (.during (.pure _)) (.during (.during (.bind (.lift _) fun p => .bind (scarcely_fftV n _) fun _ => .bind (scarcely_fftV n _) fun _ => .lift _)))

theorem scarcely_mulStrassenV (a b : List Nat) : Scarcely (mulStrassenV c o L n a b) (mulStrassen o L (freely dbg) n a b) := by
  unfold mulStrassen
  rw [if_neg (by simp [freely])]
  refine .during (.bind (.lift _) fun _ => .bind (.during (.bind (scarcely_fftV o n _) fun _ => .lift _)) fun _ =>
    .bind (.bind (scarcely_fftV o n _) fun _ => .pure _) fun _ => .then' (.takeFor _ _) (.bind (.lift _) fun ret => .bind (.lift _) fun z => ?_))
  have : Vec.resize (freely dbg) ret (ret.length - z) 0 = .ok (ret.take (ret.length - z)) := by
    unfold Vec.resize
    rw [if_pos (Nat.sub_le _ _)]
  rw [this]
  exact .pure _

end

end BN
