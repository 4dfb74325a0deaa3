import Verif.Lemmas.World
import Verif.Props.Heap
import Verif.Props.Retry
import Mathlib.Algebra.BigOperators.Intervals
/-
One statement on a machine with finite memory.
-/
namespace BN
open Bignum

/-- No number has more digits than its storage holds. -/
def World.Fits (w : World) : Prop := ∀ i, (w.store i).size ≤ w.cap i

/-- What is free and what the first `N` numbers hold. -/
def World.bytes (c : Plant) (N : Nat) (w : World) : Nat := w.free + c.digit * ∑ i ∈ Finset.range N, w.cap i

/-- The numbers that a statement names. -/
def Op.names : Op → List Nat
  | .make i _ _ => [i]
  | .copy i j => [i, j]
  | .move i j => [i, j]
  | .setDescriptor i _ => [i]
  | .resize i _ _ => [i]
  | .pushFront i _ => [i]
  | .popFront i => [i]
  | .pushBack i _ => [i]
  | .popBack i => [i]
  | .push i _ _ => [i]
  | .pop i _ => [i]
  | .setAt i _ _ => [i]
  | .clear i => [i]
  | .arith _ i j => [i, j]
  | .binary _ i j l => [i, j, l]

variable {c : Computer} {w : World}

theorem after_store (i : Nat) (r : Out × Mem) : (w.after i r).map World.store = r.1.store w.store i := by
  unfold World.after Out.store
  split <;> rename_i e <;> rw [e] <;> rfl

theorem put_fits (hw : w.Fits) {i : Nat} {b : Bignum} {h : Mem} (hb : b.size ≤ h.cap .this) : (w.put i b h).Fits := fun j => by
  unfold World.put Store.set
  by_cases e : j = i
  · simpa [e] using hb
  · simpa [e] using hw j

theorem after_fits (hw : w.Fits) {i : Nat} {r : Out × Mem} (hr : ∀ b, (r.1 = .ok b ∨ ∃ e, r.1 = .threw e b) → b.size ≤ r.2.cap .this) {w' : World}
    (he : w.after i r = some w') : w'.Fits := by
  unfold World.after at he
  split at he
  · cases he; exact put_fits hw (hr _ (.inl ‹_›))
  · cases he; exact put_fits hw (hr _ (.inr ⟨_, ‹_›⟩))
  · cases he
  · cases he

theorem sum_put (cap : Nat → Nat) {N i : Nat} (hi : i < N) (a : Nat) :
    (∑ j ∈ Finset.range N, if j = i then a else cap j) + cap i = (∑ j ∈ Finset.range N, cap j) + a := by
  have hm : i ∈ Finset.range N := Finset.mem_range.2 hi
  rw [← Finset.add_sum_erase _ _ hm, ← Finset.add_sum_erase _ cap hm]
  have : ∑ x ∈ (Finset.range N).erase i, (if x = i then a else cap x) = ∑ x ∈ (Finset.range N).erase i, cap x :=
    Finset.sum_congr rfl fun x hx => if_neg (Finset.ne_of_mem_erase hx)
  rw [this, if_pos rfl]
  omega

theorem put_bytes {N i : Nat} (hi : i < N) {b : Bignum} {h : Mem} (hh : h.free + c.digit * h.cap .this = w.free + c.digit * w.cap i) :
    (w.put i b h).bytes c.toPlant N = w.bytes c.toPlant N := by
  unfold World.bytes World.put
  have h1 := congrArg (c.digit * ·) (sum_put w.cap hi (h.cap .this))
  simp only [Nat.mul_add] at h1
  simp only
  omega

theorem after_bytes {N i : Nat} (hi : i < N) {r : Out × Mem} (hr : r.2.free + c.digit * r.2.cap .this = w.free + c.digit * w.cap i) {w' : World}
    (he : w.after i r = some w') : w'.bytes c.toPlant N = w.bytes c.toPlant N := by
  unfold World.after at he
  split at he
  · cases he; exact put_bytes hi hr
  · cases he; exact put_bytes hi hr
  · cases he
  · cases he

/-- The bytes of the number itself and the free ones together. -/
abbrev own (c : Computer) (h : Mem) : Nat := h.free + c.digit * h.cap .this

theorem own_takeFor (k : Nat) (h : Mem) : own c (takeFor c.toPlant .this k h).2 = own c h := by
  unfold takeFor own
  split
  · rfl
  · split
    · simp only [Mem.setCap, if_true]; omega
    · rfl

theorem own_fitTo (len k : Nat) (h : Mem) : own c (fitTo c .this len k h).2 = own c h := by
  unfold fitTo
  split
  · rfl
  · exact own_takeFor _ _

theorem own_growBy1 (len : Nat) (h : Mem) : own c (growBy1 c.toPlant .this len h).2 = own c h := by
  unfold growBy1
  split
  · rfl
  · exact own_takeFor _ _

theorem takeFor_end (v : Var) (k : Nat) (h : Mem) : (∃ h', takeFor c.toPlant v k h = (.ok (), h') ∧ k ≤ h'.cap v) ∨
    takeFor c.toPlant v k h = (.error (.exn .badAlloc), h) ∧ h.cap v < k := by
  unfold takeFor
  split
  · exact .inl ⟨_, rfl, ‹_›⟩
  · split
    · exact .inl ⟨_, rfl, by simp [Mem.setCap]⟩
    · exact .inr ⟨rfl, by omega⟩

theorem growBy1_end (v : Var) (len : Nat) (h : Mem) : (∃ h', growBy1 c.toPlant v len h = (.ok (), h') ∧ len + 1 ≤ h'.cap v) ∨
    growBy1 c.toPlant v len h = (.error (.exn .badAlloc), h) := by
  unfold growBy1
  split
  · exact .inl ⟨_, rfl, ‹_›⟩
  · rcases takeFor_end v (c.grow len) h with ⟨h', e, hk⟩ | ⟨e, -⟩
    · exact .inl ⟨h', e, Nat.le_trans (c.grow_gt len) hk⟩
    · exact .inr e

theorem fitTo_end (v : Var) (len k : Nat) (h : Mem) : (∃ h', fitTo c v len k h = (.ok (), h') ∧ k ≤ h'.cap v) ∨
    fitTo c v len k h = (.error (.exn .badAlloc), h) ∧ h.cap v < k := by
  unfold fitTo
  split
  · exact .inl ⟨_, rfl, ‹_›⟩
  · rcases takeFor_end v (c.fit len k) h with ⟨h', e, hk⟩ | ⟨e, -⟩
    · exact .inl ⟨h', e, (c.fit_ge len k).trans hk⟩
    · exact .inr ⟨e, by omega⟩

/-- A member function that changes nothing when it throws: one of the two surroundings explains it, and the number fits. -/
structure Plain (this : Bignum) (f p : Res Bignum) (h : Mem) (r : Out × Mem) : Prop where
  two : r.1 = strong this f ∨ r.1 = strong this p
  cap : this.size ≤ h.cap .this → ∀ b, (r.1 = .ok b ∨ ∃ e, r.1 = .threw e b) → b.size ≤ r.2.cap .this
  own : own c r.2 = own c h

theorem plain_lift {this : Bignum} {f : Res Bignum} (hf : ∀ b, f = .ok b → b.size ≤ this.size) (h : Mem) : Plain (c := c) this f f h (strong this f, h) := by
  refine ⟨.inl rfl, fun hc b hb => ?_, rfl⟩
  rcases f with (u | t | _) | x <;> simp only [strong] at hb
  · rcases hb with e | ⟨e, he⟩; cases e; cases he
  · rcases hb with e | ⟨e, he⟩
    · cases e
    · cases he; exact hc
  · rcases hb with e | ⟨e, he⟩; cases e; cases he
  · rcases hb with e | ⟨e, he⟩
    · cases e; exact (hf _ rfl).trans hc
    · cases he

theorem plain_oneMore {this : Bignum} {f p : Res Bignum} (hf : ∀ b, f = .ok b → b.size = this.size + 1 ∧ p = .error (.exn .badAlloc)) (h : Mem) :
    Plain (c := c) this f p h (strongV this (oneMore c f this.digits.length) h) := by
  unfold strongV oneMore
  rw [heap_bind]
  rcases hfe : f with e | x
  · have := plain_lift (c := c) (this := this) (f := .error e) (fun _ h => by cases h) h
    exact ⟨.inl rfl, this.2, this.3⟩
  · obtain ⟨h1, h2⟩ := hf x hfe
    have ho := own_growBy1 (c := c) this.digits.length h
    simp only [HeapM.lift]
    rcases growBy1_end (c := c) .this this.digits.length h with ⟨h', e, hk⟩ | e
    · rw [e] at ho
      simp only [heap_bind, e]
      refine ⟨.inl rfl, fun _ b hb => ?_, ho⟩
      rcases hb with e | ⟨e, he⟩
      · cases e; exact h1.le.trans hk
      · cases he
    · simp only [heap_bind, e]
      refine ⟨.inr (by rw [h2]), fun hc b hb => ?_, rfl⟩
      rcases hb with e | ⟨e, he⟩
      · cases e
      · cases he; exact hc

theorem plain_resize {this : Bignum} (k digit : Nat) (dbg : Bool) (h : Mem) (hc : this.size ≤ h.cap .this) :
    Plain (c := c) this (this.resize (freely dbg) k digit) (this.resize (refusing dbg) k digit) h (strongV this (resizeV c this k digit) h) := by
  have hr : this.resize (freely false) k digit = this.resize (freely dbg) k digit := rfl
  unfold strongV resizeV
  rw [heap_bind, hr]
  obtain ⟨b, hb, hs⟩ : ∃ b, this.resize (freely dbg) k digit = .ok b ∧ b.size = k := by
    unfold Bignum.resize Vec.resize freely
    split
    · exact ⟨_, rfl, by simp [Bignum.size]; omega⟩
    · exact ⟨_, rfl, by simp [Bignum.size]; omega⟩
  rw [hb]
  have ho := own_fitTo (c := c) this.digits.length k h
  simp only [HeapM.lift]
  rcases fitTo_end (c := c) .this this.digits.length k h with ⟨h', e, hk⟩ | ⟨e, hk⟩
  · rw [e] at ho
    simp only [heap_bind, e]
    refine ⟨.inl rfl, fun _ b hb => ?_, ho⟩
    rcases hb with e | ⟨e, he⟩
    · cases e; exact hs.le.trans hk
    · cases he
  · simp only [heap_bind, e]
    refine ⟨.inr ?_, fun hc b hb => ?_, rfl⟩
    · unfold Bignum.resize Vec.resize refusing
      rw [if_neg (show ¬ k ≤ this.digits.length by unfold Bignum.size at hc; omega)]
      rfl
    · rcases hb with e | ⟨e, he⟩
      · cases e
      · cases he; exact hc

theorem ctorLoop_empty : ∀ (l : List Nat) (lz : Nat) {d : List Nat}, ctorLoop l lz 0 [] = .ok d → d = []
  | [], _, _, h => by cases h; rfl
  | _ :: l, 0, _, h => by cases h
  | _ :: l, lz + 1, _, h => ctorLoop_empty l lz h

theorem ofList_two (d : Desc) (l : List Nat) (dbg : Bool) {b : Bignum} (hb : ofList (freely dbg) d l = .ok b) (h0 : b.digits ≠ []) :
    ofList (refusing dbg) d l = .error (.exn .badAlloc) := by
  unfold ofList at hb ⊢
  split at hb
  · cases hb; exact absurd rfl h0
  · rename_i hl
    rw [if_neg hl]
    by_cases hz : l.length - countLeading l = 0
    · exfalso
      simp only [hz, Vec.resize, List.length_nil, Nat.le_refl, if_true, List.take_nil, ok_bind] at hb
      rcases hd : ctorLoop l (countLeading l) 0 [] with e | x
      · rw [hd] at hb; cases hb
      · rw [hd] at hb
        cases hb
        exact h0 (ctorLoop_empty _ _ hd)
    · simp only [Vec.resize, List.length_nil, Nat.le_zero, hz, if_false, refusing]
      rfl

theorem plain_make {this : Bignum} (d : Desc) (l : List Nat) (dbg : Bool) (h : Mem) (hS : ∀ v, v ≠ .this → h.cap v = 0) :
    Plain (c := c) this (ofList (freely dbg) d l) (ofList (refusing dbg) d l) h (strongV this (makeV c d l) h) := by
  have hr : ofList (freely false) d l = ofList (freely dbg) d l := rfl
  unfold strongV makeV scope
  simp only [heap_bind, hr]
  have h0 := hS .result (by decide)
  rcases hfe : ofList (freely dbg) d l with e | x
  · have := plain_lift (c := c) (this := this) (f := .error e) (fun _ h => by cases h) h
    refine ⟨.inl rfl, fun hc b hb => ?_, ?_⟩
    · simpa [Mem.release, Mem.setCap, HeapM.lift] using this.2 hc b hb
    · simp [own, Mem.release, Mem.setCap, HeapM.lift, h0]
  · simp only [HeapM.lift]
    rcases fitTo_end (c := c) .result 0 x.digits.length h with ⟨h', e, hk⟩ | ⟨e, hk⟩
    · have hcap : h'.cap .this = h.cap .this ∧ h'.free + c.digit * h'.cap .result = h.free := by
        unfold fitTo takeFor at e
        split at e
        · cases e; simp [h0]
        · split at e
          · cases e
            simp [h0]
          · split at e
            · rename_i hf
              cases e
              simp only [Mem.setCap, h0, if_true]
              refine ⟨by simp, by omega⟩
            · cases e
      simp only [e, steal, Pure.pure]
      refine ⟨.inl rfl, fun _ b hb => ?_, ?_⟩
      · rcases hb with e | ⟨e, he⟩
        · cases e
          simpa [Mem.release, Mem.setCap, Bignum.size] using hk
        · cases he
      · simp only [own, Mem.release, Mem.setCap]
        simp
        rw [hcap.1]
        omega
    · simp only [e]
      refine ⟨.inr (by rw [ofList_two d l dbg hfe (by intro h; rw [h] at hk; simp at hk)]), fun hc b hb => ?_, ?_⟩
      · rcases hb with e | ⟨e, he⟩
        · cases e
        · cases he; simpa [Mem.release, Mem.setCap] using hc
      · simp [own, Mem.release, Mem.setCap, h0]

theorem copyAssignV_two (this num : Bignum) (dbg : Bool) (h : Mem) :
    (copyAssignV c this num h).1 = copyAssign (freely dbg) this num ∨ (copyAssignV c this num h).1 = copyAssign (refusing dbg) this num := by
  unfold copyAssignV copyAssign Vec.copy
  rcases takeFor_end (c := c) .this num.digits.length h with ⟨h', e, -⟩ | ⟨e, hk⟩
  · left
    rw [e]
    by_cases hn : num.digits = []
    · simp only [hn, if_true]; rw [← hn]
    · simp only [hn, if_false, freely, if_true]
  · right
    rw [e, if_neg (by intro h; rw [h] at hk; simp at hk)]
    rfl

theorem copyAssignV_cap (this num : Bignum) (h : Mem) (hc : this.size ≤ h.cap .this) (b : Bignum)
    (hb : (copyAssignV c this num h).1 = .ok b ∨ ∃ e, (copyAssignV c this num h).1 = .threw e b) : b.size ≤ (copyAssignV c this num h).2.cap .this := by
  unfold copyAssignV at hb ⊢
  rcases takeFor_end (c := c) .this num.digits.length h with ⟨h', e, hk⟩ | ⟨e, hk⟩
  · rw [e] at hb ⊢
    rcases hb with e | ⟨e, he⟩
    · cases e; exact hk
    · cases he
  · rw [e] at hb ⊢
    rcases hb with e | ⟨e, he⟩
    · cases e
    · cases he; exact hc

theorem copyAssignV_own (this num : Bignum) (h : Mem) : own c (copyAssignV c this num h).2 = own c h := by
  have h1 := own_takeFor (c := c) num.digits.length h
  unfold copyAssignV
  rcases takeFor_end (c := c) .this num.digits.length h with ⟨h', e, hk⟩ | ⟨e, hk⟩
  · rw [e] at h1 ⊢; exact h1
  · rw [e]

section
variable {F : Type} (o : FloatOps F) (L : Limits) (dbg : Bool) (n : Nat)

/-- `x op y` as a value is what one of the two surroundings makes of it, up to the type of an exception. -/
theorem binaryV_two (k : Arith) (x y : Bignum) (h : Mem) (this : Bignum) (s : Store) (i : Nat) :
    (strong this (k.binaryV c.toPlant o L dbg n x y h).1).store s i = (strong this (k.binary o L (freely dbg) n x y)).store s i ∨
    (strong this (k.binaryV c.toPlant o L dbg n x y h).1).store s i = (strong this (k.binary o L (refusing dbg) n x y)).store s i := by
  have free : x.copy (freely dbg) = .ok x := by
    unfold Bignum.copy Vec.copy freely
    split
    · next hx => rw [← hx]; rfl
    · rfl
  unfold Arith.binaryV Arith.binary viaCopy
  rcases takeFor_end (c := c) .this x.digits.length h with ⟨h', e, hk⟩ | ⟨e, hk⟩
  · rw [e, free]
    simp only [ok_bind]
    have h1 := assignV_two (c := c.toPlant) L dbg n o k x (.other y) (h := h') hk
    have h2 := C156_outcome c.toPlant o L dbg n k x (.other y) h'
    rcases hr : k.assignV c.toPlant o L dbg n x (.other y) h' with ⟨out, g⟩
    rw [hr] at h1 h2
    rcases h1 with h1 | h1
    · left
      simp only at h1
      rw [← h1]
      cases out <;> rfl
    · rcases h2 with h2 | ⟨d, -, h2⟩
      · left
        simp only [freely] at h2 ⊢
        rw [← h2]
        cases out <;> rfl
      · right
        simp only at h1 h2
        by_cases hx : x.digits = []
        · have : x.copy (refusing dbg) = .ok x := by
            unfold Bignum.copy Vec.copy
            rw [if_pos hx, ← hx]; rfl
          rw [this]
          simp only [ok_bind, ← h1, h2]
        · have : x.copy (refusing dbg) = .error (.exn .badAlloc) := by
            unfold Bignum.copy Vec.copy refusing
            rw [if_neg hx]; rfl
          rw [this, h2]
          rfl
  · right
    have : x.copy (refusing dbg) = .error (.exn .badAlloc) := by
      unfold Bignum.copy Vec.copy refusing
      rw [if_neg (by intro h; rw [h] at hk; simp at hk)]; rfl
    rw [e, this]
    rfl

theorem binaryV_cap (k : Arith) (x y : Bignum) (h : Mem) {b : Bignum} (hb : (k.binaryV c.toPlant o L dbg n x y h).1 = .ok b) :
    b.size ≤ (k.binaryV c.toPlant o L dbg n x y h).2.cap .this := by
  unfold Arith.binaryV at hb ⊢
  rcases takeFor_end (c := c) .this x.digits.length h with ⟨h', e, hk⟩ | ⟨e, hk⟩
  · rw [e] at hb ⊢
    simp only at hb ⊢
    have h1 := assignV_cap (c := c.toPlant) L dbg n o k x (.other y) (h := h') hk (b := b)
    rcases hr : k.assignV c.toPlant o L dbg n x (.other y) h' with ⟨out, g⟩
    rw [hr] at h1 hb
    cases out with
    | ok z => cases hb; exact h1 (.inl rfl)
    | threw t z => cases hb
    | ub u => cases hb
    | timeout => cases hb
  · rw [e] at hb
    cases hb

theorem mem_this (i : Nat) : (w.mem i).cap .this = w.cap i := by simp [World.mem]
theorem mem_only (i : Nat) (v : Var) (hv : v ≠ .this) : (w.mem i).cap v = 0 := if_neg hv

theorem insert_size {E : Env} {x : List Nat} {p d : Nat} {y : List Nat} (h : Vec.insert E x p d = .ok y) : y.length = x.length + 1 := by
  unfold Vec.insert at h
  split at h
  · cases h
  · split at h
    · cases h; simp; omega
    · cases h

theorem step_plain {i : Nat} {f p : Res Bignum} {r : Out × Mem} (hw : w.Fits) (hr : Plain (c := c) (w.store i) f p (w.mem i) r)
    {step : Env → Option Store} (h1 : step (freely dbg) = (strong (w.store i) f).store w.store i) (h2 : step (refusing dbg) = (strong (w.store i) p).store w.store i) :
    (∃ E, (E = freely dbg ∨ E = refusing dbg) ∧ (w.after i r).map World.store = step E) ∧
    (∀ w', w.after i r = some w' → w'.Fits) ∧
    ∀ w' N, w.after i r = some w' → i < N → w'.bytes c.toPlant N = w.bytes c.toPlant N := by
  refine ⟨?_, fun w' he => after_fits hw (hr.cap (by rw [mem_this]; exact hw i)) he, fun w' N he hi => after_bytes hi ?_ he⟩
  · rcases hr.two with e | e
    · exact ⟨_, .inl rfl, by rw [after_store, e, h1]⟩
    · exact ⟨_, .inr rfl, by rw [after_store, e, h2]⟩
  · have := hr.own
    unfold own at this
    rw [this, mem_this]; rfl

theorem erase_size {x : List Nat} {p : Nat} {y : List Nat} (h : Vec.erase x p = .ok y) : y.length ≤ x.length := by
  unfold Vec.erase at h
  split at h
  · cases h; exact List.length_eraseIdx_le x p
  · cases h

/-- What a statement does to the objects, and what it leaves of the memory. -/
def StepV (c : Computer) (w : World) (dbg : Bool) (names : List Nat) (r : Option World) (step : Env → Option Store) : Prop :=
  (∃ E, (E = freely dbg ∨ E = refusing dbg) ∧ r.map World.store = step E) ∧
  (∀ w', r = some w' → w'.Fits) ∧
  ∀ w' N, r = some w' → (∀ i ∈ names, i < N) → w'.bytes c.toPlant N = w.bytes c.toPlant N

theorem stepV_plain {i : Nat} {f p : Res Bignum} {r : Out × Mem} (hw : w.Fits) (hr : Plain (c := c) (w.store i) f p (w.mem i) r)
    {step : Env → Option Store} (h1 : step (freely dbg) = (strong (w.store i) f).store w.store i)
    (h2 : step (refusing dbg) = (strong (w.store i) p).store w.store i) : StepV c w dbg [i] (w.after i r) step := by
  obtain ⟨a, b, d⟩ := step_plain dbg hw hr h1 h2
  exact ⟨a, b, fun w' N he hi => d w' N he (hi i (by simp))⟩

theorem push_more {b x : Bignum} {m m' : Res (List Nat)} (hm : ∀ y, m = .ok y → y.length = b.digits.length + 1 ∧ m' = .error (.exn .badAlloc))
    (h : (do let d ← m; Except.ok (⟨b.desc, d⟩ : Bignum)) = .ok x) :
    x.size = b.size + 1 ∧ (do let d ← m'; Except.ok (⟨b.desc, d⟩ : Bignum) : Res Bignum) = .error (.exn .badAlloc) := by
  rcases m with e | d
  · cases h
  · cases h
    obtain ⟨h1, h2⟩ := hm d rfl
    exact ⟨h1, by rw [h2]; rfl⟩

theorem insert_two (x : List Nat) (p d : Nat) (y : List Nat) (h : Vec.insert (freely false) x p d = .ok y) :
    y.length = x.length + 1 ∧ Vec.insert (refusing dbg) x p d = .error (.exn .badAlloc) := by
  refine ⟨insert_size h, ?_⟩
  unfold Vec.insert at h ⊢
  split at h
  · cases h
  · rw [if_neg ‹_›]; rfl

theorem pushBack_two (x : List Nat) (d : Nat) (y : List Nat) (h : Vec.pushBack (freely false) x d = .ok y) :
    y.length = x.length + 1 ∧ Vec.pushBack (refusing dbg) x d = .error (.exn .badAlloc) := by
  unfold Vec.pushBack freely at h
  cases h
  exact ⟨by simp, rfl⟩

theorem fewer {b x : Bignum} {m : Res (List Nat)} (hm : ∀ y, m = .ok y → y.length ≤ b.digits.length) (h : (do let d ← m; Except.ok (⟨b.desc, d⟩ : Bignum)) = .ok x) :
    x.size ≤ b.size := by
  rcases m with e | d
  · cases h
  · cases h; exact hm d rfl

theorem set_fits (hw : w.Fits) {i : Nat} {b : Bignum} (hb : b.size ≤ (w.store i).size) : ({ w with store := w.store.set i b } : World).Fits := fun j => by
  unfold Store.set
  by_cases e : j = i
  · simpa [e] using hb.trans (hw i)
  · simpa [e] using hw j

theorem stepV_none (names : List Nat) {step : Env → Option Store} (h : step (freely dbg) = none) : StepV c w dbg names none step :=
  ⟨⟨_, .inl rfl, h.symm⟩, (fun w' e => by cases e), fun w' N e _ => by cases e⟩

theorem stepV_spec (hw : w.Fits) (op : Op) : StepV c w dbg op.names (op.stepV c o L dbg n w) (fun E => op.step o L E n w.store) := by
  cases op with
  | make i d l => exact stepV_plain dbg hw (plain_make d l dbg _ (mem_only i)) rfl rfl
  | copy i j =>
    unfold Op.stepV Op.step
    by_cases h : i = j
    · simp only [h, if_true]
      exact ⟨⟨_, .inl rfl, rfl⟩, fun w' e => by cases e; exact hw, fun w' N e _ => by cases e; rfl⟩
    · simp only [h, if_false]
      refine ⟨?_, fun w' he => after_fits hw (copyAssignV_cap _ _ _ (by rw [mem_this]; exact hw i)) he, fun w' N he hN => after_bytes (hN i (by simp [Op.names])) ?_ he⟩
      · rcases copyAssignV_two (c := c) (w.store i) (w.store j) dbg (w.mem i) with e | e
        · exact ⟨_, .inl rfl, by rw [after_store, e]⟩
        · exact ⟨_, .inr rfl, by rw [after_store, e]⟩
      · have := copyAssignV_own (c := c) (w.store i) (w.store j) (w.mem i)
        unfold own at this
        rw [this, mem_this]; rfl
  | move i j =>
    unfold Op.stepV Op.step
    by_cases h : i = j
    · simp only [h, if_true]
      exact stepV_none dbg _ rfl
    · simp only [h, if_false]
      refine ⟨⟨_, .inl rfl, rfl⟩, fun w' e => ?_, fun w' N e hN => ?_⟩
      · cases e
        intro k
        unfold World.move Store.set moveAssign
        by_cases hj : k = j
        · subst hj
          simp [Bignum.size]
        · by_cases hi : k = i
          · subst hi
            simpa [h] using hw j
          · simpa [hi, hj] using hw k
      · cases e
        have hi := hN i (by simp [Op.names])
        have hj := hN j (by simp [Op.names])
        unfold World.bytes World.move
        have h1 := sum_put w.cap hj 0
        have h2 := sum_put (fun k => if k = j then 0 else w.cap k) hi (w.cap j)
        simp only [h, if_false] at h2
        have h3 := congrArg (c.digit * ·) h1
        have h4 := congrArg (c.digit * ·) h2
        simp only [Nat.mul_add] at h3 h4
        simp only
        omega
  | setDescriptor i d =>
    refine ⟨⟨_, .inl rfl, rfl⟩, fun w' e => ?_, fun w' N e _ => by cases e; rfl⟩
    cases e
    refine set_fits hw ?_
    cases d <;> simp [setDescriptor, Bignum.size]
  | resize i k d => exact stepV_plain dbg hw (plain_resize k d dbg _ (by rw [mem_this]; exact hw i)) rfl rfl
  | pushFront i d => exact stepV_plain dbg hw (plain_oneMore (fun b hb => push_more (insert_two dbg _ 0 d) hb) _) rfl rfl
  | popFront i => exact stepV_plain dbg hw (plain_lift (fun b hb => fewer (fun y hy => erase_size hy) hb) _) rfl rfl
  | pushBack i d => exact stepV_plain dbg hw (plain_oneMore (fun b hb => push_more (pushBack_two dbg _ d) hb) _) rfl rfl
  | popBack i =>
    refine stepV_plain dbg hw (plain_lift (fun b hb => fewer (fun y hy => ?_) hb) _) rfl rfl
    unfold Vec.popBack at hy
    split at hy
    · cases hy
    · cases hy; simp
  | push i d p => exact stepV_plain dbg hw (plain_oneMore (fun b hb => push_more (insert_two dbg _ p d) hb) _) rfl rfl
  | pop i p => exact stepV_plain dbg hw (plain_lift (fun b hb => fewer (fun y hy => erase_size hy) hb) _) rfl rfl
  | setAt i k d =>
    refine stepV_plain dbg hw (plain_lift (fun b hb => ?_) _) rfl rfl
    unfold setAt at hb
    split at hb
    · refine fewer (fun y hy => ?_) hb
      unfold Vec.wr at hy
      split at hy <;> cases hy <;> simp
    · cases hb
  | clear i =>
    refine ⟨⟨_, .inl rfl, rfl⟩, fun w' e => ?_, fun w' N e _ => by cases e; rfl⟩
    cases e
    exact set_fits hw (Nat.zero_le _)
  | arith k i j =>
    unfold Op.stepV Op.step
    have hc : (w.store i).size ≤ (w.mem i).cap .this := by rw [mem_this]; exact hw i
    refine ⟨?_, fun w' he => after_fits hw (fun b hb => assignV_cap (c := c.toPlant) L dbg n o k _ _ hc hb) he,
      fun w' N he hN => after_bytes (hN i (by simp [Op.names])) ?_ he⟩
    · rcases assignV_two (c := c.toPlant) L dbg n o k (w.store i) (rhsOf w.store i j) hc with e | e
      · exact ⟨_, .inl rfl, by rw [after_store, e]⟩
      · exact ⟨_, .inr rfl, by rw [after_store, e]⟩
    · have := (C156_returned c.toPlant o L dbg n k (w.store i) (rhsOf w.store i j) (mem_only (w := w) i)).2
      rw [this, mem_this]; rfl
  | binary k i j l =>
    show StepV c w dbg _ (binaryAssignV c o L dbg n k w i j l) fun E => (strong (w.store i) (k.binary o L E n (w.store j) (w.store l))).store w.store i
    unfold binaryAssignV
    have h1 := binaryV_two (c := c) o L dbg n k (w.store j) (w.store l) ⟨w.free, fun _ => 0⟩ (w.store i) w.store i
    have h2 := fun b => binaryV_cap (c := c) o L dbg n k (w.store j) (w.store l) ⟨w.free, fun _ => 0⟩ (b := b)
    have h3 := C156_binary c.toPlant o L dbg n k (w.store j) (w.store l) (h := ⟨w.free, fun _ => 0⟩) (fun _ => rfl)
    rcases hr : k.binaryV c.toPlant o L dbg n (w.store j) (w.store l) ⟨w.free, fun _ => 0⟩ with ⟨res, g⟩
    rw [hr] at h1 h2 h3
    simp only
    have two : ∀ {r : Option World}, r.map World.store = (strong (w.store i) res).store w.store i →
        ∃ E, (E = freely dbg ∨ E = refusing dbg) ∧ r.map World.store = (strong (w.store i) (k.binary o L E n (w.store j) (w.store l))).store w.store i := by
      intro r hr
      rcases h1 with e | e
      · exact ⟨_, .inl rfl, hr.trans e⟩
      · exact ⟨_, .inr rfl, hr.trans e⟩
    rcases res with (u | t | _) | b
    · exact ⟨two (r := none) rfl, (fun w' e => by cases e), fun w' N e _ => by cases e⟩
    · refine ⟨two ?_, fun w' e => by cases e; exact hw, fun w' N e _ => ?_⟩
      · simp [strong, Out.store, Store.set_self]
      · cases e
        have := h3.2 ⟨t, rfl⟩
        simp only at this
        rw [this]
    · exact ⟨two (r := none) rfl, (fun w' e => by cases e), fun w' N e _ => by cases e⟩
    · refine ⟨two rfl, fun w' e => ?_, fun w' N e hN => ?_⟩
      · cases e
        exact put_fits hw (h2 b rfl)
      · cases e
        refine put_bytes (hN i (by simp [Op.names])) ?_
        have := (h3.1 (.inl ⟨b, rfl⟩)).2
        simp only at this ⊢
        omega

end

end BN
