import Verif.Lemmas.Keeps
/-
Termination of the addition and subtraction loops on arbitrary digit sequences.
-/
namespace BN

/-- The fuel does not run out, and a normal result satisfies `P`. -/
def Halts {α : Type} (r : Res α) (P : α → Prop) : Prop := r ≠ .error .timeout ∧ Keeps r P

theorem Halts.ok {α : Type} {x : α} {P : α → Prop} (h : P x) : Halts (.ok x) P := ⟨by simp, .ok h⟩
theorem Halts.ub {α : Type} {k : UB} {P : α → Prop} : Halts (.error (.ub k) : Res α) P := ⟨by simp, .error⟩
theorem Halts.exn {α : Type} {e : Exn} {P : α → Prop} : Halts (.error (.exn e) : Res α) P := ⟨by simp, .error⟩
theorem Halts.bind {α β : Type} {r : Res α} {P : α → Prop} {f : α → Res β} {Q : β → Prop} (h : Halts r P)
    (hf : ∀ x, P x → Halts (f x) Q) : Halts (r >>= f) Q := by
  cases r with
  | ok x => rw [ok_bind]; exact hf x (h.2 x rfl)
  | error e =>
    rw [error_bind]
    refine ⟨fun he => ?_, .error⟩
    cases he; exact h.1 rfl
theorem Halts.ite {α : Type} {p : Prop} [Decidable p] {x y : Res α} {P : α → Prop} (hx : p → Halts x P) (hy : ¬ p → Halts y P) :
    Halts (if p then x else y) P := by
  split
  · exact hx ‹_›
  · exact hy ‹_›
theorem Halts.mono {α : Type} {r : Res α} {P Q : α → Prop} (h : Halts r P) (hpq : ∀ x, P x → Q x) : Halts r Q :=
  ⟨h.1, h.2.mono hpq⟩

theorem halts_forever {σ : Type} {body : σ → Res (σ × Bool)} {I : Nat → σ → Prop} (h0 : ∀ s, ¬ I 0 s)
    (h : ∀ k s, I (k + 1) s → Halts (body s) (fun p => p.2 = true ∨ I k p.1)) :
    ∀ (fuel k : Nat) (s : σ), k ≤ fuel → I k s → Halts (loopForever body fuel s) (fun _ => True)
  | 0, k, s, hk, hs => by
    obtain rfl : k = 0 := by omega
    exact absurd hs (h0 s)
  | n + 1, 0, s, _, hs => absurd hs (h0 s)
  | n + 1, k + 1, s, hk, hs => by
    rw [loopForever]
    exact .bind (h k s hs) fun p hp => .ite (fun _ => .ok trivial) fun hb =>
      halts_forever h0 h n k _ (by omega) (hp.resolve_left hb)

theorem halts_rd (v : List Nat) (i : Nat) : Halts (Vec.rd v i) (fun _ => i < v.length) := by
  unfold Vec.rd; split
  · rename_i h
    exact .ok (List.getElem?_eq_some_iff.1 h).1
  · exact .ub
theorem halts_wr (v : List Nat) (i d : Nat) : Halts (Vec.wr v i d) (fun w => w.length = v.length) :=
  .ite (fun _ => .ok (by simp)) (fun _ => .ub)
theorem halts_pushBack (env : Env) (v : List Nat) (d : Nat) : Halts (Vec.pushBack env v d) (· = v ++ [d]) :=
  .ite (fun _ => .ok rfl) (fun _ => .exn)
theorem halts_popBack (v : List Nat) : Halts (Vec.popBack v) (fun _ => True) := .ite (fun _ => .ub) (fun _ => .ok trivial)
theorem halts_copy (env : Env) (v : List Nat) : Halts (Vec.copy env v) (· = v) :=
  .ite (fun h => .ok h.symm) (fun _ => .ite (fun _ => .ok rfl) (fun _ => .exn))

theorem halts_result (t : CTy) (z : Int) : Halts (t.result z) (fun _ => True) :=
  .ite (fun _ => .ite (fun _ => .ok trivial) (fun _ => .ub)) (fun _ => .ok trivial)
theorem halts_cbin (op : BinOp) (x y : CVal) : Halts (CVal.bin op x y) (fun _ => True) := by
  cases op <;> simp only [CVal.bin]
  case add => exact halts_result _ _
  case sub => exact halts_result _ _
  case mul => exact halts_result _ _
  case div => exact .ite (fun _ => .ub) (fun _ => halts_result _ _)
  case mod => exact .ite (fun _ => .ub) (fun _ => halts_result _ _)
  case and => exact .ok trivial
  case or => exact .ok trivial
  case xor => exact .ok trivial
  case shr => exact .ite (fun _ => .ub) (fun _ => .ok trivial)
  case shl => exact .ite (fun _ => .ub) (fun _ => .ite (fun _ => .ite (fun _ => .ub) (fun _ => .ok trivial)) (fun _ => .ok trivial))
theorem halts_vbin (op : BinOp) (x y : Val) : Halts (Val.bin op x y) (fun _ => True) := by
  unfold Val.bin
  split
  · exact .bind (P := fun _ => True) (.bind (halts_cbin _ _ _) fun _ _ => .ok trivial) fun _ _ => .ok trivial
  · exact .bind (halts_cbin _ _ _) fun _ _ => .ok trivial

theorem halts_addDigit (L : Limits) (o : Nat) (i r : Val) :
    Halts (addDigit L o i r) (fun p => p.2 = L.toSingle 1 ∨ p.2 = L.toSingle 0) :=
  .bind (halts_vbin _ _ _) fun _ _ => .bind (halts_vbin _ _ _) fun _ _ => .ite
    (fun _ => .bind (halts_vbin _ _ _) fun _ _ => .bind (halts_vbin _ _ _) fun _ _ => .ok (.inl rfl))
    (fun _ => .ok (.inr rfl))

theorem halts_digitOrZero (L : Limits) (v : List Nat) (i : Nat) : Halts (digitOrZero L v i) (fun _ => True) :=
  .ite (fun _ => .bind (halts_rd _ _) fun _ _ => .ok trivial) (fun _ => .ok trivial)

/-- Length of the source while the modified container has length `n`. -/
def Src.len (src : Src) (n : Nat) : Nat :=
  match src with
  | .other l => l.length
  | .self => n
theorem Src.length_get (src : Src) (out : List Nat) : (src.get out).length = src.len out.length := by cases src <;> rfl

/-- At most `k` iterations of the addition loop are left. -/
def AddLeft (L : Limits) (src : Src) (k : Nat) (s : AddSt) : Prop :=
  s.inIter = s.outIter ∧ s.outIter ≤ s.out.length ∧ (s.remainder = L.toSingle 1 ∨ s.remainder = L.toSingle 0) ∧
  s.outIter ≤ max s.out.length (src.len s.out.length) ∧ max s.out.length (src.len s.out.length) + 1 - s.outIter ≤ k

theorem addBody_last {L : Limits} (h : Supported L) (env : Env) {src : Src} {out : List Nat} {c : Nat} (hc : c ≤ 1)
    (hs : src.len out.length ≤ out.length) :
    Halts (addBody L env src ⟨out, out.length, out.length, L.sgl c⟩) (fun p => p.2 = true) := by
  have hB := h.base_ge
  have hsuf : src.suffix out [] = [] := by
    cases src with
    | other l => exact List.drop_eq_nil_of_le hs
    | self => rfl
  have := addBody_eq h env src out [] hc (.nil _) (by rw [hsuf]; exact .nil _)
  rw [List.append_nil] at this
  rw [this]
  refine .ite (fun _ => .exn) fun _ => .ok ?_
  rw [hsuf]
  have : c / L.base = 0 := Nat.div_eq_of_lt (by omega)
  simp [this]

theorem halts_addBody {L : Limits} (h : Supported L) (env : Env) (src : Src) (k : Nat) (s : AddSt) (hs : AddLeft L src (k + 1) s) :
    Halts (addBody L env src s) (fun p => p.2 = true ∨ AddLeft L src k p.1) := by
  obtain ⟨out, i, j, r⟩ := s
  obtain ⟨h1, h2, h3, h4, h5⟩ := hs
  simp only at h1 h2 h3 h4 h5
  subst h1
  by_cases hi : j = max out.length (src.len out.length)
  · have hj : j = out.length := by omega
    subst hj
    obtain ⟨c, hc, rfl⟩ : ∃ c : Nat, c ≤ 1 ∧ r = L.sgl c := by
      rcases h3 with rfl | rfl
      · exact ⟨1, by omega, toSingle_small h (n := 1) (by omega)⟩
      · exact ⟨0, by omega, toSingle_small h (n := 0) (by omega)⟩
    exact (addBody_last h env hc (by omega)).mono fun _ hp => .inl hp
  · unfold addBody growTo
    have hg : Halts (if j = out.length then Vec.pushBack env out 0 else .ok out) (fun o => o.length = max out.length (j + 1)) := by
      refine .ite (fun he => (halts_pushBack env out 0).mono ?_) fun he => .ok (by omega)
      rintro _ rfl
      simp; omega
    refine .bind hg fun o ho => .bind (halts_digitOrZero _ _ _) fun d _ => .bind (halts_rd _ _) fun x _ =>
      .bind (halts_addDigit _ _ _ _) ?_
    rintro ⟨d', r'⟩ hr'
    refine .bind (halts_wr _ _ _) fun w hw => .ok (.inr ?_)
    have hl : w.length = max out.length (j + 1) := by rw [hw, ho]
    refine ⟨rfl, ?_, hr', ?_, ?_⟩ <;> simp only
    · omega
    · omega
    · rw [hl]
      cases src with
      | other l => simp only [Src.len] at *; omega
      | self => simp only [Src.len] at *; omega

theorem halts_absAdd {L : Limits} (h : Supported L) (env : Env) {fuel : Nat} {out : List Nat} {src : Src}
    (hf : max out.length (src.get out).length < fuel) : Halts (absAdd L env fuel out src) (fun _ => True) := by
  rw [Src.length_get] at hf
  refine .bind (halts_forever (I := AddLeft L src) ?_ (halts_addBody h env src) fuel _ _ hf
    ⟨rfl, by simp, .inr rfl, by simp, by simp⟩) fun _ _ => .ok trivial
  rintro s ⟨-, -, -, h1, h2⟩
  omega

theorem halts_subDigit (L : Limits) (o : Nat) (i r : Val) : Halts (subDigit L o i r) (fun _ => True) :=
  .bind (halts_vbin _ _ _) fun _ _ => .bind (halts_vbin _ _ _) fun _ _ => .ite
    (fun _ => .bind (halts_vbin _ _ _) fun _ _ => .bind (halts_vbin _ _ _) fun _ _ => .ok trivial)
    (fun _ => .ok trivial)

/-- At most `k` iterations of the subtraction loop are left. -/
def SubLeft (k : Nat) (s : SubSt) : Prop := s.outIter ≤ s.larger.length ∧ s.larger.length + 1 - s.outIter ≤ k

theorem halts_subBody (L : Limits) (src : Src) (k : Nat) (s : SubSt) (hs : SubLeft (k + 1) s) :
    Halts (subBody L src s) (fun p => p.2 = true ∨ SubLeft k p.1) := by
  obtain ⟨h1, h2⟩ := hs
  refine .bind (halts_digitOrZero _ _ _) fun d _ => .bind (halts_rd _ _) fun x hx => .bind (halts_subDigit _ _ _ _) ?_
  rintro ⟨d', b'⟩ -
  refine .bind (halts_wr _ _ _) fun w hw => .ok (.inr ⟨?_, ?_⟩) <;> simp only <;> omega

theorem halts_ltLoop (a b : List Nat) : ∀ n, Halts (ltLoop a b n) (fun _ => True)
  | 0 => .ok trivial
  | n + 1 => .bind (halts_rd _ _) fun _ _ => .bind (halts_rd _ _) fun _ _ => .ite (fun _ => .ok trivial) fun _ => halts_ltLoop a b n
theorem halts_gtLoop (a b : List Nat) : ∀ n, Halts (gtLoop a b n) (fun _ => True)
  | 0 => .ok trivial
  | n + 1 => .bind (halts_rd _ _) fun _ _ => .bind (halts_rd _ _) fun _ _ => .ite (fun _ => .ok trivial) fun _ => halts_gtLoop a b n
theorem halts_geLoop (a b : List Nat) : ∀ n, Halts (geLoop a b n) (fun _ => True)
  | 0 => .ok trivial
  | n + 1 => .bind (halts_rd _ _) fun _ _ => .bind (halts_rd _ _) fun _ _ => .ite (fun _ => .ok trivial) fun _ =>
      .ite (fun _ => .ok trivial) fun _ => halts_geLoop a b n
theorem halts_absLt (a b : List Nat) : Halts (absLt a b) (fun _ => True) :=
  .ite (fun _ => .ok trivial) fun _ => .ite (fun _ => .ok trivial) fun _ => halts_ltLoop a b _
theorem halts_absGt (a b : List Nat) : Halts (absGt a b) (fun _ => True) :=
  .ite (fun _ => .ok trivial) fun _ => .ite (fun _ => .ok trivial) fun _ => halts_gtLoop a b _
theorem absGe_shorter {a b : List Nat} (h : a.length < b.length) : absGe a b = .ok false := by
  unfold absGe; rw [if_neg (by omega), if_pos h]
theorem halts_absGe (a b : List Nat) : Halts (absGe a b) (fun _ => True) :=
  .ite (fun _ => .ok trivial) fun _ => .ite (fun _ => .ok trivial) fun _ => halts_geLoop a b _

theorem halts_subDebugCheck (env : Env) (a b : List Nat) : Halts (subDebugCheck env a b) (fun _ => True) :=
  .ite (fun _ => .ite (fun _ => .exn) fun _ => .bind (halts_absLt _ _) fun _ _ => .ite (fun _ => .exn) fun _ => .ok trivial)
    fun _ => .ok trivial

theorem halts_popZeros : ∀ (n : Nat) (v : List Nat), Halts (popZeros v n) (fun _ => True)
  | 0, _ => .ok trivial
  | n + 1, _ => .bind (halts_rd _ _) fun _ _ => .ite (fun _ => .bind (halts_popBack _) fun v' _ => halts_popZeros n v') fun _ => .ok trivial

theorem halts_absSub (L : Limits) (env : Env) {fuel : Nat} {a : List Nat} (src : Src) (hf : a.length < fuel) :
    Halts (absSub L env fuel a src) (fun _ => True) := by
  refine .bind (halts_subDebugCheck _ _ _) fun _ _ => .bind (halts_forever (I := SubLeft) ?_ (halts_subBody L src) fuel (a.length + 1) _
    hf ⟨by simp, by simp⟩) fun s _ => halts_popZeros _ _
  rintro s ⟨h1, h2⟩
  omega

open Bignum

theorem Rhs.get_length {r : Rhs} {x : Bignum} : (r.src.get x.digits).length = (r.get x).digits.length := by cases r <;> rfl

theorem halts_bcopy (env : Env) (b : Bignum) : Halts (b.copy env) (· = b) := by
  refine .bind (halts_copy env _) ?_
  rintro _ rfl; exact .ok rfl

theorem halts_magDiff (L : Limits) (env : Env) {fuel : Nat} {x : Bignum} {r : Rhs} (t : Desc)
    (hf : max x.digits.length (r.get x).digits.length < fuel) : Halts (magDiff L env fuel x r t) (fun _ => True) := by
  unfold magDiff
  refine .bind (halts_absGe _ _) fun g _ => .ite (fun _ => ?_) fun _ => ?_
  · exact .bind (halts_absSub L env _ (by omega)) fun d hd => .ok trivial
  · refine .bind (halts_bcopy env _) ?_
    rintro _ rfl
    exact .bind (halts_absSub L env _ (by omega)) fun d hd => .ok trivial

theorem halts_addTry {L : Limits} (h : Supported L) (env : Env) {fuel : Nat} {x : Bignum} {r : Rhs}
    (hf : max x.digits.length (r.get x).digits.length < fuel) : Halts (addTry L env fuel x r) (fun _ => True) := by
  have ha : Halts (do let d ← absAdd L env fuel x.digits r.src; .ok ⟨x.desc, d⟩ : Res Bignum) (fun _ => True) :=
    .bind (halts_absAdd h env (by rw [Rhs.get_length]; exact hf)) fun d hd => .ok trivial
  exact .ite (fun _ => ha) fun _ => .ite (fun _ => halts_magDiff L env _ hf) fun _ =>
    .ite (fun _ => halts_magDiff L env _ hf) fun _ => ha

theorem halts_subTry (L : Limits) (env : Env) {fuel : Nat} {x : Bignum} {r : Rhs}
    (hf : max x.digits.length (r.get x).digits.length < fuel) : Halts (subTry L env fuel x r) (fun _ => True) := by
  have hc : Halts (do
      let g ← absGt x.digits (r.get x).digits
      let temp ← Vec.copy env (if g then x.digits else (r.get x).digits)
      let temp ← absSub L env fuel temp (.other (r.get x).digits)
      .ok ⟨x.desc, temp⟩ : Res Bignum) (fun _ => True) := by
    refine .bind (halts_absGt _ _) fun g _ => .bind (halts_copy env _) ?_
    rintro _ rfl
    refine .bind (halts_absSub L env _ ?_) fun d hd => .ok trivial
    split <;> omega
  exact .ite (fun _ => halts_magDiff L env _ hf) fun _ => .ite (fun _ => hc) fun _ =>
    .ite (fun _ => hc) fun _ => halts_magDiff L env _ hf

theorem handle_halts {this : Bignum} {d : Desc} {r : Res Bignum} (h : r ≠ .error .timeout) : handle this d r ≠ .timeout := by
  unfold handle
  split
  · simp
  · simp
  · simp
  · simp
  · exact absurd rfl h

end BN
