import Verif.Lemmas.WorldStep
/-
Enough memory: from some amount on the outcome does not depend on how much is free.
-/
namespace BN
open Bignum

/-- With at least so many free bytes the outcome is `r`, the capacities do not depend on how many there are, and of more bytes more are left. -/
def Settles {β : Type} (m : Mem → β × Mem) (r : β) : Prop :=
  ∀ cap, ∃ T cap', ∀ f, T ≤ f → ∃ f', f ≤ f' + T ∧ m ⟨f, cap⟩ = (r, ⟨f', cap'⟩)

variable {c : Plant}

namespace Settles
variable {α β : Type}

theorem lift (r : Res α) : Settles (HeapM.lift r) r := fun cap => ⟨0, cap, fun f _ => ⟨f, le_rfl, rfl⟩⟩
theorem pure (x : α) : Settles (Pure.pure x : HeapM α) (.ok x) := fun cap => ⟨0, cap, fun f _ => ⟨f, le_rfl, rfl⟩⟩

theorem bind {m : HeapM α} {f : α → HeapM β} {r : Res α} {g : α → Res β} (hm : Settles m r) (hf : ∀ x, Settles (f x) (g x)) :
    Settles (m >>= f) (r >>= g) := fun cap => by
  obtain ⟨T, cap', h1⟩ := hm cap
  cases r with
  | error e =>
    refine ⟨T, cap', fun k hk => ?_⟩
    obtain ⟨k', hk', e⟩ := h1 k hk
    exact ⟨k', hk', by rw [heap_bind, e]; rfl⟩
  | ok x =>
    obtain ⟨S, cap'', h2⟩ := hf x cap'
    refine ⟨T + S, cap'', fun k hk => ?_⟩
    obtain ⟨k', hk', e⟩ := h1 k (by omega)
    obtain ⟨l, hl, e'⟩ := h2 k' (by omega)
    exact ⟨l, by omega, by rw [heap_bind, e]; exact e'⟩

/-- Computations that only ask for memory. -/
theorem then' {m : HeapM Unit} {f : HeapM β} {r : Res β} (hm : Settles m (.ok ())) (hf : Settles f r) : Settles (m >>= fun _ => f) r :=
  Settles.bind (g := fun _ => r) hm fun _ => hf

theorem ite {p : Prop} [d : Decidable p] {a b : HeapM α} {r s : Res α} (ha : Settles a r) (hb : Settles b s) :
    Settles (if p then a else b) (if p then r else s) := by
  cases d with
  | isTrue h => exact ha
  | isFalse h => exact hb

theorem forever {σ : Type} {b : σ → HeapM (σ × Bool)} {b' : σ → Res (σ × Bool)} (hb : ∀ s, Settles (b s) (b' s)) :
    ∀ n s, Settles (loopForeverH b n s) (loopForever b' n s)
  | 0, _ => lift _
  | n + 1, s => by
    rw [loopForeverH, loopForever]
    exact bind (hb s) fun t => ite (pure _) (forever hb n _)

theorem loop {σ : Type} {cond : σ → Res Bool} {b : σ → HeapM σ} {b' : σ → Res σ} (hb : ∀ s, Settles (b s) (b' s)) :
    ∀ n s, Settles (loopWhileH cond b n s) (loopWhile cond b' n s)
  | 0, _ => lift _
  | n + 1, s => by
    rw [loopWhileH, loopWhile]
    exact bind (lift _) fun t => ite (bind (hb s) fun _ => Settles.loop hb n _) (pure _)

theorem during {n : Nat} {m : HeapM α} {r : Res α} (hm : Settles m r) : Settles (BN.during n m) r := fun cap => by
  obtain ⟨T, cap', h1⟩ := hm cap
  refine ⟨T + n, cap', fun f hf => ?_⟩
  obtain ⟨f', hf', e⟩ := h1 (f - n) (by omega)
  unfold BN.during
  rw [if_pos (show n ≤ f by omega)]
  simp only [e]
  exact ⟨f' + n, by omega, rfl⟩

theorem takeFor (v : Var) (n : Nat) : Settles (BN.takeFor c v n) (.ok ()) := fun cap => by
  unfold BN.takeFor
  by_cases h : n ≤ cap v
  · exact ⟨0, cap, fun f _ => ⟨f, le_rfl, by rw [if_pos h]⟩⟩
  · exact ⟨c.digit * n, fun w => if w = v then n else cap w, fun f hf => ⟨f - c.digit * n + c.digit * cap v, by omega, by rw [if_neg h, if_pos hf]; rfl⟩⟩

theorem growBy1 (v : Var) (n : Nat) : Settles (BN.growBy1 c v n) (.ok ()) := fun cap => by
  by_cases h : n + 1 ≤ cap v
  · exact ⟨0, cap, fun f _ => ⟨f, le_rfl, by unfold BN.growBy1; rw [if_pos h]⟩⟩
  · obtain ⟨T, cap', h1⟩ := takeFor (c := c) v (c.grow n) cap
    refine ⟨T, cap', fun f hf => ?_⟩
    obtain ⟨f', hf', e⟩ := h1 f hf
    exact ⟨f', hf', by unfold BN.growBy1; rw [if_neg h, e]⟩

theorem growIf (v : Var) (n : Nat) (b : Bool) : Settles (BN.growIf c v n b) (.ok ()) := by
  unfold BN.growIf
  split
  · exact growBy1 v n
  · exact pure _

theorem steal (v w : Var) : Settles (BN.steal c v w) (.ok ()) := fun cap =>
  ⟨0, fun u => if u = v then cap w else if u = w then 0 else cap u, fun f _ => ⟨f + c.digit * cap v, by omega, rfl⟩⟩

theorem scope {v : Var} {m : HeapM α} {r : Res α} (hm : Settles m r) : Settles (BN.scope c v m) r := fun cap => by
  obtain ⟨T, cap', h1⟩ := hm cap
  refine ⟨T, fun w => if w = v then 0 else cap' w, fun f hf => ?_⟩
  obtain ⟨f', hf', e⟩ := h1 f hf
  refine ⟨f' + c.digit * cap' v, by omega, ?_⟩
  unfold BN.scope
  rw [e]
  rfl

theorem out {r : Res α} {β : Type} (g : Res α → β) {m : HeapM α} (hm : Settles m r) : Settles (fun h => (g (m h).1, (m h).2)) (g r) := fun cap => by
  obtain ⟨T, cap', h1⟩ := hm cap
  refine ⟨T, cap', fun f hf => ?_⟩
  obtain ⟨f', hf', e⟩ := h1 f hf
  refine ⟨f', hf', ?_⟩
  show (g (m ⟨f, cap⟩).1, (m ⟨f, cap⟩).2) = _
  rw [e]

end Settles

section
variable (L : Limits) (dbg : Bool) (n : Nat)

theorem settles_absAddV (v : Var) (out : List Nat) (src : Src) : Settles (absAddV c L dbg n v out src) (absAdd L (freely dbg) n out src) :=
  .bind (.forever (fun _ => Settles.then' (.growIf _ _ _) (.lift _)) _ _) fun _ => .pure _

theorem settles_shl (v : Var) (x : List Nat) : Settles (shiftLeft1V c L dbg v x) (shiftLeft1 L (freely dbg) x) := by
  have := Settles.bind (g := fun y => (.ok y : Res (List Nat))) (Settles.lift (shiftLeft1 L (freely dbg) x))
    (f := fun y => growIf c v x.length (x.length < y.length) >>= fun _ => pure y)
    fun y => .then' (.growIf _ _ _) (.pure _)
  have e : (shiftLeft1 L (freely dbg) x >>= fun y => (.ok y : Res (List Nat))) = shiftLeft1 L (freely dbg) x := by
    cases shiftLeft1 L (freely dbg) x <;> rfl
  rw [e] at this
  exact this

theorem settles_divBodyV (dv : List Nat) (s : DivSt) : Settles (divBodyV c L dbg n dv s) (divBody L (freely dbg) n dv s) := by
  unfold divBodyV divBody searchBody
  simp only [copy_freely, ok_bind]
  refine .scope (.scope (.scope (.then' (.takeFor _ _) (.then' (.takeFor _ _) (.then' (.takeFor _ _) (.bind (settles_shl L dbg _ _) fun _ =>
    .bind (.loop (fun s => ?_) _ _) fun _ => .bind (.lift _) fun _ => .ite ?_ ?_))))))
  · exact .then' (.takeFor _ _) (.bind (settles_shl L dbg _ _) fun _ => .bind (settles_shl L dbg _ _) fun _ => .pure _)
  · exact .bind (settles_absAddV L dbg n _ _ _) fun _ => .pure _
  · exact .bind (settles_absAddV L dbg n _ _ _) fun _ => .then' (.steal _ _) (.pure _)

theorem settles_absDivV (a b : List Nat) : Settles (absDivV c L dbg n a b) (absDiv L (freely dbg) n a b) := by
  unfold absDivV absDiv
  simp only [copy_freely, ok_bind]
  exact .scope (.then' (.takeFor _ _) (.bind (.loop (fun _ => settles_divBodyV L dbg n _ _) _ _) fun _ => .then' (.steal _ _) (.pure _)))

theorem settles_subCopyV (a : List Nat) (b : Bignum) (d : Desc) : Settles (subCopyV c L dbg n a b.digits d)
    (do let tempNum ← b.copy (freely dbg); let d' ← absSub L (freely dbg) n tempNum.digits (.other a); .ok ⟨d, d'⟩) := by
  rw [bcopy_freely, ok_bind]
  exact .scope (.then' (.takeFor _ _) (.bind (.lift _) fun _ => .then' (.steal _ _) (.pure _)))

theorem settles_subMixedV (a b : Bignum) : Settles (subMixedV c L dbg n a b)
    (do let g ← absGt a.digits b.digits; let temp ← Vec.copy (freely dbg) (if g then a.digits else b.digits)
        let d ← absSub L (freely dbg) n temp (.other b.digits); .ok ⟨a.desc, d⟩) := by
  simp only [copy_freely, ok_bind]
  exact .scope (.bind (.lift _) fun _ => .then' (.takeFor _ _) (.bind (.lift _) fun _ => .then' (.steal _ _) (.pure _)))

theorem settles_addTryV (x : Bignum) (r : Rhs) : Settles (addTryV c L dbg n x r) (addTry L (freely dbg) n x r) :=
  .ite (.bind (settles_absAddV L dbg n _ _ _) fun _ => .pure _) (.ite
    (.bind (.lift _) fun _ => .ite (.bind (.lift _) fun _ => .pure _) (settles_subCopyV L dbg n _ _ _)) (.ite
    (.bind (.lift _) fun _ => .ite (.bind (.lift _) fun _ => .pure _) (settles_subCopyV L dbg n _ _ _))
    (.bind (settles_absAddV L dbg n _ _ _) fun _ => .pure _)))

theorem settles_subTryV (x : Bignum) (r : Rhs) : Settles (subTryV c L dbg n x r) (subTry L (freely dbg) n x r) :=
  .ite (.bind (.lift _) fun _ => .ite (.bind (.lift _) fun _ => .pure _) (settles_subCopyV L dbg n _ _ _)) (.ite
    (settles_subMixedV L dbg n _ _) (.ite (settles_subMixedV L dbg n _ _)
    (.bind (.lift _) fun _ => .ite (.bind (.lift _) fun _ => .pure _) (settles_subCopyV L dbg n _ _ _))))

variable {F : Type} (o : FloatOps F)

theorem settles_fftV : ∀ (n : Nat) (x : List (Cx F)), Settles (fftComplexV c o n x) (fftComplex o n x)
  | 0, _ => .lift _
  | n + 1, x => by
    rw [fftComplexV, fftComplex]
    exact .ite (.during (.pure _)) (.during (.during (.bind (.lift _) fun p => .bind (settles_fftV n _) fun _ => .bind (settles_fftV n _) fun _ => .lift _)))

theorem settles_mulStrassenV (a b : List Nat) : Settles (mulStrassenV c o L n a b) (mulStrassen o L (freely dbg) n a b) := by
  unfold mulStrassen
  rw [if_neg (by simp [freely])]
  refine .during (.bind (.lift _) fun _ => .bind (.during (.bind (settles_fftV o n _) fun _ => .lift _)) fun _ =>
    .bind (.bind (settles_fftV o n _) fun _ => .pure _) fun _ => .then' (.takeFor _ _) (.bind (.lift _) fun ret => .bind (.lift _) fun z => ?_))
  have : Vec.resize (freely dbg) ret (ret.length - z) 0 = .ok (ret.take (ret.length - z)) := by
    unfold Vec.resize
    rw [if_pos (Nat.sub_le _ _)]
  rw [this]
  exact .pure _

theorem settles_const {β : Type} (r : β) : Settles (fun h => (r, h)) r := fun cap => ⟨0, cap, fun f _ => ⟨f, le_rfl, rfl⟩⟩

theorem settles_assignV (k : Arith) (x : Bignum) (r : Rhs) : Settles (k.assignV c o L dbg n x r) (k.assign o L (freely dbg) n x r) := by
  unfold Arith.assignV
  by_cases hx : (!isComputable x.desc) = true
  · simp only [if_pos hx]
    cases k <;> simp only [Arith.assign, addAssign, subAssign, mulAssign, divAssign, if_pos hx] <;> exact settles_const _
  · simp only [if_neg hx]
    cases k with
    | add =>
      simp only [Arith.assign, addAssign, if_neg hx]
      exact (settles_addTryV L dbg n x r).out _
    | sub =>
      simp only [Arith.assign, subAssign, if_neg hx]
      exact (settles_subTryV L dbg n x r).out _
    | mul =>
      simp only [Arith.assign, mulAssign, if_neg hx]
      exact (Settles.scope (.bind (settles_mulStrassenV L dbg n o _ _) fun d => .then' (.steal _ _) (.pure _))).out _
    | div =>
      simp only [Arith.assign, divAssign, if_neg hx]
      by_cases h0 : isOneDigit (r.get (⟨mulSign x.desc (r.get x).desc, x.digits⟩ : Bignum)).digits 0 = true
      · simp only [if_pos h0]; exact settles_const _
      · simp only [if_neg h0]
        by_cases h1 : isOneDigit (r.get (⟨mulSign x.desc (r.get x).desc, x.digits⟩ : Bignum)).digits 1 = true
        · simp only [if_pos h1]; exact settles_const _
        · simp only [if_neg h1]
          by_cases h2 : x.digits = [] ∨ isOneDigit x.digits 0 = true
          · simp only [if_pos h2]; exact settles_const _
          · simp only [if_neg h2]
            unfold divTry
            exact (Settles.bind (.lift _) fun g => .ite (.bind (settles_absDivV L dbg n _ _) fun _ => .pure _) (.then' (.takeFor _ _) (.pure _))).out _

theorem settles_binaryV (k : Arith) (x y : Bignum) : Settles (k.binaryV c o L dbg n x y) (k.binary o L (freely dbg) n x y) := fun cap => by
  obtain ⟨T, cap', h1⟩ := Settles.takeFor (c := c) .this x.digits.length cap
  obtain ⟨S, cap'', h2⟩ := settles_assignV (c := c) L dbg n o k x (.other y) cap'
  refine ⟨T + S, match k.assign o L (freely dbg) n x (.other y) with
    | .threw _ _ => fun w => if w = .this then 0 else cap'' w
    | _ => cap'', fun f hf => ?_⟩
  obtain ⟨f', hf', e1⟩ := h1 f (by omega)
  obtain ⟨f'', hf'', e2⟩ := h2 f' (by omega)
  unfold Arith.binaryV Arith.binary viaCopy
  rw [bcopy_freely]
  simp only [ok_bind, e1, e2]
  cases k.assign o L (freely dbg) n x (.other y) with
  | ok b => exact ⟨f'', by omega, rfl⟩
  | threw e b => exact ⟨f'' + c.digit * cap'' .this, by omega, rfl⟩
  | ub u => exact ⟨f'', by omega, rfl⟩
  | timeout => exact ⟨f'', by omega, rfl⟩

end

section
variable {c : Computer} {F : Type} (o : FloatOps F) (L : Limits) (dbg : Bool) (n : Nat)

theorem Settles.fitTo (v : Var) (len k : Nat) : Settles (BN.fitTo c v len k) (.ok ()) := fun cap => by
  by_cases h : k ≤ cap v
  · exact ⟨0, cap, fun f _ => ⟨f, le_rfl, by unfold BN.fitTo; rw [if_pos h]⟩⟩
  · obtain ⟨T, cap', h1⟩ := Settles.takeFor (c := c.toPlant) v (c.fit len k) cap
    refine ⟨T, cap', fun f hf => ?_⟩
    obtain ⟨f', hf', e⟩ := h1 f hf
    exact ⟨f', hf', by unfold BN.fitTo; rw [if_neg h, e]⟩

theorem map_id (r : Res Bignum) : (r >>= fun b => (.ok b : Res Bignum)) = r := by cases r <;> rfl

theorem settles_make (d : Desc) (l : List Nat) : Settles (makeV c d l) (ofList (freely dbg) d l) := by
  have := Settles.bind (g := fun b => (.ok b : Res Bignum)) (Settles.lift (ofList (freely false) d l))
    (f := fun b => fitTo c .result 0 b.digits.length >>= fun _ => steal c.toPlant .this .result >>= fun _ => pure b)
    fun b => .then' (.fitTo _ _ _) (.then' (.steal _ _) (.pure _))
  rw [map_id] at this
  exact this.scope

theorem settles_resize (x : Bignum) (k d : Nat) : Settles (resizeV c x k d) (x.resize (freely dbg) k d) := by
  have := Settles.bind (g := fun b => (.ok b : Res Bignum)) (Settles.lift (x.resize (freely false) k d))
    (f := fun b => fitTo c .this x.digits.length k >>= fun _ => pure b) fun b => .then' (.fitTo _ _ _) (.pure _)
  rw [map_id] at this
  exact this

theorem settles_oneMore (r : Res Bignum) (len : Nat) : Settles (oneMore c r len) r := by
  have := Settles.bind (g := fun b => (.ok b : Res Bignum)) (Settles.lift r)
    (f := fun b => growBy1 c.toPlant .this len >>= fun _ => pure b) fun b => .then' (.growBy1 _ _) (.pure _)
  rw [map_id] at this
  exact this

theorem settles_copyAssign (this num : Bignum) : Settles (copyAssignV c this num) (copyAssign (freely dbg) this num) := fun cap => by
  obtain ⟨T, cap', h1⟩ := Settles.takeFor (c := c.toPlant) .this num.digits.length cap
  refine ⟨T, cap', fun f hf => ?_⟩
  obtain ⟨f', hf', e⟩ := h1 f hf
  refine ⟨f', hf', ?_⟩
  unfold copyAssignV copyAssign
  rw [e, copy_freely]

/-- A statement with enough memory. -/
def Enough (stepV : Nat → Option World) (r : Option Store) : Prop :=
  ∃ T cap', ∀ f, T ≤ f → ∃ f', f ≤ f' + T ∧ stepV f = r.map fun s => ⟨s, cap', f'⟩

theorem enough_after {s : Store} {cap : Nat → Nat} {i : Nat} {m : Mem → Out × Mem} {out : Out} (hm : Settles m out) :
    Enough (fun f => World.after ⟨s, cap, f⟩ i (m (World.mem ⟨s, cap, f⟩ i))) (out.store s i) := by
  obtain ⟨T, cap', h⟩ := hm fun v => if v = .this then cap i else 0
  refine ⟨T, fun j => if j = i then cap' .this else cap j, fun f hf => ?_⟩
  obtain ⟨f', hf', e⟩ := h f hf
  refine ⟨f', hf', ?_⟩
  simp only [World.mem]
  rw [e]
  cases out <;> rfl

theorem stepV_enough (s : Store) (cap : Nat → Nat) (op : Op) : Enough (fun f => op.stepV c o L dbg n ⟨s, cap, f⟩) (op.step o L (freely dbg) n s) := by
  have const : ∀ (s' : Store), Enough (fun f => some ⟨s', cap, f⟩) (some s') := fun s' => ⟨0, cap, fun f _ => ⟨f, le_rfl, rfl⟩⟩
  cases op with
  | make i d l => simp only [Op.stepV, Op.step]; exact enough_after (s := s) (cap := cap) (i := i) ((settles_make dbg d l).out _)
  | copy i j =>
    unfold Op.stepV Op.step
    by_cases h : i = j
    · simp only [h, if_true]; exact const s
    · simp only [h, if_false]; exact enough_after (settles_copyAssign dbg _ _)
  | move i j =>
    unfold Op.stepV Op.step
    by_cases h : i = j
    · simp only [h, if_true]; exact ⟨0, cap, fun f _ => ⟨f, le_rfl, rfl⟩⟩
    · simp only [h, if_false]
      exact ⟨0, fun k => if k = i then cap j else if k = j then 0 else cap k, fun f _ => ⟨f + c.digit * cap i, by omega, rfl⟩⟩
  | setDescriptor i d => simp only [Op.stepV, Op.step]; exact const _
  | resize i k d => simp only [Op.stepV, Op.step]; exact enough_after (s := s) (cap := cap) (i := i) ((settles_resize dbg _ k d).out _)
  | pushFront i d => simp only [Op.stepV, Op.step]; exact enough_after (s := s) (cap := cap) (i := i) ((settles_oneMore _ _).out _)
  | popFront i => simp only [Op.stepV, Op.step]; exact enough_after (s := s) (cap := cap) (i := i) (settles_const _)
  | pushBack i d => simp only [Op.stepV, Op.step]; exact enough_after (s := s) (cap := cap) (i := i) ((settles_oneMore _ _).out _)
  | popBack i => simp only [Op.stepV, Op.step]; exact enough_after (s := s) (cap := cap) (i := i) (settles_const _)
  | push i d p => simp only [Op.stepV, Op.step]; exact enough_after (s := s) (cap := cap) (i := i) ((settles_oneMore _ _).out _)
  | pop i p => simp only [Op.stepV, Op.step]; exact enough_after (s := s) (cap := cap) (i := i) (settles_const _)
  | setAt i k d => simp only [Op.stepV, Op.step]; exact enough_after (s := s) (cap := cap) (i := i) (settles_const _)
  | clear i => simp only [Op.stepV, Op.step]; exact const _
  | arith k i j => simp only [Op.stepV, Op.step]; exact enough_after (s := s) (cap := cap) (i := i) (settles_assignV L dbg n o k _ _)
  | binary k i j l =>
    obtain ⟨T, cap', h⟩ := settles_binaryV (c := c.toPlant) L dbg n o k (s j) (s l) fun _ => 0
    simp only [Op.stepV, Op.step, binaryAssignV]
    rcases hr : k.binary o L (freely dbg) n (s j) (s l) with (u | t | _) | b <;> rw [hr] at h
    · refine ⟨T, cap, fun f hf => ?_⟩
      obtain ⟨f', hf', e⟩ := h f hf
      exact ⟨f', hf', by beta_reduce; rw [e]; rfl⟩
    · refine ⟨T, cap, fun f hf => ?_⟩
      obtain ⟨f', hf', e⟩ := h f hf
      exact ⟨f', hf', by beta_reduce; rw [e]; simp [strong, Out.store, Store.set_self]⟩
    · refine ⟨T, cap, fun f hf => ?_⟩
      obtain ⟨f', hf', e⟩ := h f hf
      exact ⟨f', hf', by beta_reduce; rw [e]; rfl⟩
    · refine ⟨T, fun j => if j = i then cap' .this else cap j, fun f hf => ?_⟩
      obtain ⟨f', hf', e⟩ := h f hf
      exact ⟨f' + c.digit * cap i, by omega, by beta_reduce; rw [e]; rfl⟩

theorem runV_enough : ∀ (ops : List Op) (s : Store) (cap : Nat → Nat),
    Enough (fun f => runV c o L dbg n ⟨s, cap, f⟩ ops) (run o L n (fun _ => freely dbg) s ops)
  | [], s, cap => ⟨0, cap, fun f _ => ⟨f, le_rfl, rfl⟩⟩
  | op :: ops, s, cap => by
    obtain ⟨T, cap', h⟩ := stepV_enough (c := c) o L dbg n s cap op
    simp only [runV, run]
    rcases hs : op.step o L (freely dbg) n s with _ | s' <;> rw [hs] at h
    · refine ⟨T, cap', fun f hf => ?_⟩
      obtain ⟨f', hf', e⟩ := h f hf
      exact ⟨f', hf', by beta_reduce at e ⊢; rw [e]; rfl⟩
    · obtain ⟨S, cap'', h2⟩ := runV_enough ops s' cap'
      refine ⟨T + S, cap'', fun f hf => ?_⟩
      obtain ⟨f', hf', e⟩ := h f (by omega)
      obtain ⟨f'', hf'', e'⟩ := h2 f' (by omega)
      exact ⟨f'', by omega, by beta_reduce at e ⊢; rw [e]; exact e'⟩

end

end BN
