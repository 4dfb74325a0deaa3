import Verif.Props.RawDigits
import Verif.Lemmas.Sub
/-
Computations that never end in undefined behaviour, whatever the digits and the allocator.
-/
namespace BN

/-- Every result satisfies `P`; there may be an exception or no result, but no undefined behaviour. -/
def Harmless {α : Type} (P : α → Prop) : Res α → Prop
  | .ok x => P x
  | .error (.ub _) => False
  | .error _ => True

theorem Harmless.bind {α β : Type} {P : α → Prop} {Q : β → Prop} {r : Res α} {f : α → Res β} (h : Harmless P r)
    (hf : ∀ x, P x → Harmless Q (f x)) : Harmless Q (r >>= f) := by
  rcases r with (_ | _ | _) | x
  · exact h
  · exact trivial
  · exact trivial
  · exact hf x h

theorem Harmless.mono {α : Type} {P Q : α → Prop} {r : Res α} (h : Harmless P r) (hf : ∀ x, P x → Q x) : Harmless Q r := by
  rcases r with (_ | _ | _) | x
  · exact h
  · exact trivial
  · exact trivial
  · exact hf x h

theorem Harmless.forever {σ : Type} {I Q : σ → Prop} {body : σ → Res (σ × Bool)}
    (hb : ∀ s, I s → Harmless (fun p => if p.2 = true then Q p.1 else I p.1) (body s)) :
    ∀ (n : Nat) (s : σ), I s → Harmless Q (loopForever body n s)
  | 0, _, _ => trivial
  | n + 1, s, hs => by
    refine (hb s hs).bind ?_
    rintro ⟨s', brk⟩ h
    cases brk
    · exact Harmless.forever hb n s' h
    · exact h

theorem Harmless.while_ {σ : Type} {I Q : σ → Prop} {cond : σ → Res Bool} {body : σ → Res σ}
    (hc : ∀ s, I s → ∃ b, cond s = .ok b ∧ (b = true → Harmless I (body s)) ∧ (b = false → Q s)) :
    ∀ (n : Nat) (s : σ), I s → Harmless Q (loopWhile cond body n s)
  | 0, _, _ => trivial
  | n + 1, s, hs => by
    obtain ⟨b, e, h1, h2⟩ := hc s hs
    unfold loopWhile
    rw [e, ok_bind]
    cases b
    · exact h2 rfl
    · exact (h1 rfl).bind (fun s' h => Harmless.while_ hc n s' h)

/-- The number of values of the digit type. -/
def Limits.values (L : Limits) : Nat := 2 ^ L.single.raw.bits

theorem native_values {L : Limits} (h : Native L) : L.values = L.base := by cases h <;> rfl

theorem values_pos (L : Limits) : 0 < L.values := Nat.two_pow_pos _

theorem vbin_raw_sub {w : Nat} (hw : IsWidth w) {t : Ty} {a b : Nat} (ha : a < 2 ^ w) (hb : b < 2 ^ w) :
    Val.bin .sub ⟨.bni w, a⟩ ⟨t, b⟩ = .ok ⟨.bni w, ((a + (2 ^ w - b)) % 2 ^ w : Nat)⟩ := by
  unfold Val.bin
  simp only
  rw [wrap_self hb, Int.toNat_natCast, C49_sub hw ha hb]
  rfl

theorem vbin_raw_mul {w : Nat} (hw : IsWidth w) {t : Ty} {a b : Nat} (ha : a < 2 ^ w) (hb : b < 2 ^ w) (h16 : w = 16 → a * b < 2 ^ 31) :
    Val.bin .mul ⟨.bni w, a⟩ ⟨t, b⟩ = .ok ⟨.bni w, ((a * b) % 2 ^ w : Nat)⟩ := by
  unfold Val.bin
  simp only
  rw [wrap_self hb, Int.toNat_natCast, C49_mul hw ha hb h16]
  rfl

theorem addDigit_harmless {L : Limits} (h : Supported L) {o i r : Nat} (ho : o < L.values) (hi : i < L.values) (hr : r ≤ 1) :
    ∃ d c, addDigit L o (L.dbl i) (L.sgl r) = .ok (d, L.sgl c) ∧ d < L.values ∧ c ≤ 1 := by
  rcases h with h | ⟨w, mx, hw, h1, h2, rfl⟩
  · rw [native_values h] at ho hi ⊢
    refine ⟨_, _, addDigit_eq (.inl h) ho hi hr, Nat.mod_lt _ (by omega), ?_⟩
    have : (o + i + r) / L.base < 2 := by rw [Nat.div_lt_iff_lt_mul (by omega)]; omega
    omega
  · refine ⟨_, _, addDigit_raw hw h1 h2 ho hi hr, ?_, ?_⟩
    · exact lt_of_le_of_lt (Nat.mod_le _ _) (Nat.mod_lt _ (Nat.two_pow_pos _))
    · split <;> omega

theorem subDigit_harmless {L : Limits} (h : Supported L) {o i r : Nat} (ho : o < L.values) (hi : i < L.values) (hr : r ≤ 1) :
    ∃ d c, subDigit L o (L.dbl i) (L.dbl r) = .ok (d, L.dbl c) ∧ d < L.values ∧ c ≤ 1 := by
  rcases h with h | ⟨w, mx, hw, h1, h2, rfl⟩
  · rw [native_values h] at ho hi ⊢
    refine ⟨_, _, subDigit_eq (.inl h) ho hi hr, ?_, ?_⟩
    · split <;> omega
    · split <;> omega
  · have hp : 0 < 2 ^ w := Nat.two_pow_pos _
    have hr' : r < 2 ^ w := by omega
    have e1 : Val.bin .sub ((Limits.custom w mx).digit o) ((Limits.custom w mx).dbl r) = .ok ⟨.bni w, ((o + (2 ^ w - r)) % 2 ^ w : Nat)⟩ :=
      vbin_raw_sub hw ho hr'
    obtain ⟨t, ht, e2⟩ : ∃ t, t < 2 ^ w ∧ Val.bin .sub (⟨.bni w, ((o + (2 ^ w - r)) % 2 ^ w : Nat)⟩ : Val) ((Limits.custom w mx).dbl i) =
        .ok ⟨.bni w, (t : Nat)⟩ := ⟨_, Nat.mod_lt _ hp, vbin_raw_sub hw (Nat.mod_lt _ hp) hi⟩
    have e3 : (Val.conv (Limits.custom w mx).double ⟨.bni w, (t : Nat)⟩) = ⟨.bni w, (t : Nat)⟩ := raw_conv ht
    have e4 : (Limits.custom w mx).toDouble ((Limits.custom w mx).maxLimit) = ⟨.bni w, (mx : Nat)⟩ := (raw_const (show mx < 2 ^ w by omega)).1
    have e5 : (Limits.custom w mx).toDouble 1 = ⟨.bni w, (1 : Nat)⟩ := (raw_const (show 1 < 2 ^ w by omega)).1
    have e6 : (Limits.custom w mx).toDouble 0 = ⟨.bni w, (0 : Nat)⟩ := (raw_const (show 0 < 2 ^ w by omega)).1
    unfold subDigit
    simp only [e1, e2, ok_bind, e3, e4]
    split
    · have e7 := vbin_raw_add hw (t := .bni w) ht (show mx < 2 ^ w by omega)
      have e8 := vbin_raw_add hw (t := .bni w) (Nat.mod_lt (t + mx) hp) (show 1 < 2 ^ w by omega)
      rw [e5, e7, ok_bind, e8, ok_bind, raw_store (Nat.mod_lt _ hp)]
      exact ⟨_, 1, rfl, Nat.mod_lt _ hp, le_rfl⟩
    · rw [raw_store ht, e6]
      exact ⟨t, 0, rfl, ht, by omega⟩

theorem shlDigit_harmless {w mx : Nat} (hw : IsWidth w) (h1 : 1 ≤ mx) (h2 : 2 * mx + 1 < 2 ^ w) {d r : Nat} (hd : d < 2 ^ w) (hr : r ≤ 1) :
    ∃ d' c, shlDigit (.custom w mx) d ((Limits.custom w mx).sgl r) = .ok (d', (Limits.custom w mx).sgl c) ∧ d' < 2 ^ w ∧ c ≤ 1 := by
  have hp : 0 < 2 ^ w := Nat.two_pow_pos _
  have hb : divBaseLimit (.custom w mx) = .ok ⟨.bni w, (mx + 1 : Nat)⟩ := by
    unfold divBaseLimit
    rcases hw with rfl | rfl | rfl | rfl
    all_goals
      norm_num at h2
      lim; cUu 64 .add; lim; rfl
  have hmul : Val.bin .mul ((Limits.custom w mx).digit d) ((Limits.custom w mx).toSingle 2) = .ok ⟨.bni w, ((d * 2) % 2 ^ w : Nat)⟩ := by
    rw [show (Limits.custom w mx).toSingle 2 = ⟨.bni w, (2 : Nat)⟩ from (raw_const (show 2 < 2 ^ w by omega)).2]
    exact vbin_raw_mul hw hd (by omega) (by intro e; subst e; norm_num at hd ⊢; omega)
  obtain ⟨t, ht, hadd⟩ : ∃ t, t < 2 ^ w ∧ Val.bin .add (⟨.bni w, ((d * 2) % 2 ^ w : Nat)⟩ : Val) ((Limits.custom w mx).sgl r) =
      .ok ⟨.bni w, (t : Nat)⟩ := ⟨_, Nat.mod_lt _ hp, vbin_raw_add hw (Nat.mod_lt _ hp) (by omega)⟩
  have e3 : (Val.conv (Limits.custom w mx).single ⟨.bni w, (t : Nat)⟩) = ⟨.bni w, (t : Nat)⟩ := raw_conv ht
  have e4 : (Val.conv (Limits.custom w mx).single ⟨.bni w, (mx + 1 : Nat)⟩) = ⟨.bni w, (mx + 1 : Nat)⟩ := raw_conv (by omega)
  have e5 := vbin_raw_mod hw (t := .bni w) ht (show mx + 1 < 2 ^ w by omega) (by omega)
  have hlt : t % (mx + 1) < 2 ^ w := lt_of_le_of_lt (Nat.mod_le _ _) ht
  unfold shlDigit
  simp only [hb, hmul, hadd, ok_bind, e3, e4, e5]
  rw [raw_store hlt]
  have e6 : ∀ n : Nat, n ≤ 1 → (Limits.custom w mx).toSingle n = (Limits.custom w mx).sgl n := fun n hn => (raw_const (show n < 2 ^ w by omega)).2
  split
  · exact ⟨_, 1, congrArg Except.ok (congrArg _ (e6 1 le_rfl)), hlt, le_rfl⟩
  · exact ⟨_, 0, congrArg Except.ok (congrArg _ (e6 0 (by omega))), hlt, by omega⟩

theorem digitOrZero_harmless {L : Limits} (h : Supported L) {l : List Nat} (hl : InRange L.values l) (i : Nat) :
    ∃ d, digitOrZero L l i = .ok (L.dbl d) ∧ d < L.values := by
  have hd : InRange L.values (l.drop i) := fun d hd => hl d (List.mem_of_mem_drop hd)
  have hlt : (l.drop i).headD 0 < L.values := raw_headD (values_pos L) hd
  rcases h with h | ⟨w, mx, hw, h1, h2, rfl⟩
  · exact ⟨_, digitOrZero_other (.inl h) l i (by rwa [native_values h] at hd), hlt⟩
  · exact ⟨_, digitOrZero_raw l i hd, hlt⟩

theorem inRange_set {B : Nat} {l : List Nat} (h : InRange B l) {d : Nat} (hd : d < B) (i : Nat) : InRange B (l.set i d) := by
  intro x hx
  rcases List.mem_or_eq_of_mem_set hx with h' | rfl
  · exact h x h'
  · exact hd

theorem inRange_getElem {B : Nat} {l : List Nat} (h : InRange B l) {i : Nat} (hi : i < l.length) : l[i] < B := h _ (List.getElem_mem hi)

/-- What the argument holds. -/
def Src.InRange (B : Nat) : Src → Prop
  | .other l => BN.InRange B l
  | .self => True

theorem Src.InRange.get {B : Nat} {s : Src} (h : s.InRange B) {l : List Nat} (hl : BN.InRange B l) : BN.InRange B (s.get l) := by
  cases s with
  | other m => exact h
  | self => exact hl

theorem pushBack_harmless (env : Env) {B : Nat} {l : List Nat} (hl : InRange B l) {d : Nat} (hd : d < B) :
    Harmless (fun m => InRange B m ∧ m.length = l.length + 1) (Vec.pushBack env l d) := by
  unfold Vec.pushBack
  split
  · refine ⟨?_, by simp⟩
    intro x hx
    rcases List.mem_append.mp hx with h | h
    · exact hl x h
    · rw [List.mem_singleton.mp h]; exact hd
  · exact trivial

theorem copyVec_harmless (env : Env) (l : List Nat) : Harmless (fun m => m = l) (Vec.copy env l) := by
  unfold Vec.copy
  split
  · rename_i h; exact h.symm
  · split
    · exact rfl
    · exact trivial

theorem absAdd_harmless {L : Limits} (h : Supported L) (env : Env) (n : Nat) {out : List Nat} {src : Src} (ho : InRange L.values out)
    (hs : src.InRange L.values) : Harmless (InRange L.values) (absAdd L env n out src) := by
  have hp := values_pos L
  unfold absAdd
  refine (Harmless.forever (I := fun s => s.outIter ≤ s.out.length ∧ InRange L.values s.out ∧ ∃ r ≤ 1, s.remainder = L.sgl r)
    (Q := fun s => InRange L.values s.out) ?_ n _ ⟨Nat.zero_le _, ho, 0, by omega, toSingle_small h (n := 0) (by omega)⟩).bind (fun s (hs : InRange L.values s.out) => show Harmless (InRange L.values) (Except.ok s.out) from hs)
  rintro ⟨out, k, j, rem⟩ ⟨hk, hout, r, hr, rfl⟩
  unfold addBody
  refine Harmless.bind (P := fun m => k < m.length ∧ InRange L.values m) ?_ ?_
  · unfold growTo
    split
    · exact (pushBack_harmless env hout hp).mono (fun m hm => ⟨by simp only at *; omega, hm.1⟩)
    · exact ⟨by simp only at *; omega, hout⟩
  · rintro m ⟨hkm, hm⟩
    obtain ⟨i, e1, hi⟩ := digitOrZero_harmless h (hs.get hm) j
    obtain ⟨d, c, e2, hd, hc⟩ := addDigit_harmless h (inRange_getElem hm hkm) hi hr
    simp only [e1, ok_bind, rd_eq hkm, e2]
    rw [show Vec.wr m k d = .ok (m.set k d) by unfold Vec.wr; rw [if_pos hkm], ok_bind]
    have hset := inRange_set hm hd k
    show Harmless _ (Except.ok _)
    unfold Harmless
    simp only
    split
    · exact hset
    · exact ⟨by simp; omega, hset, c, hc, rfl⟩

theorem popZeros_harmless {B : Nat} : ∀ (n : Nat) (l : List Nat), InRange B l → n = l.length → Harmless (InRange B) (popZeros l n)
  | 0, l, hl, _ => hl
  | n + 1, l, hl, hn => by
    unfold popZeros
    rw [rd_eq (show n < l.length by omega), ok_bind]
    split
    · unfold Vec.popBack
      rw [if_neg (by intro e; subst e; simp at hn), ok_bind]
      exact popZeros_harmless n l.dropLast (fun x hx => hl x (List.dropLast_subset l hx)) (by simp; omega)
    · exact hl

theorem absSub_harmless {L : Limits} (h : Supported L) (env : Env) (n : Nat) {l : List Nat} {src : Src} (hl : InRange L.values l)
    (hs : src.InRange L.values) (h0 : l ≠ []) (hlen : (src.get l).length ≤ l.length) : Harmless (InRange L.values) (absSub L env n l src) := by
  have hp := values_pos L
  unfold absSub
  refine Harmless.bind (P := fun _ => True) ?_ (fun _ _ => ?_)
  · rw [subDebugCheck_eq]; split <;> exact trivial
  refine (Harmless.forever (I := fun s => s.outIter < s.larger.length ∧ s.inIter = s.outIter ∧ (src.get s.larger).length ≤ s.larger.length ∧
      InRange L.values s.larger ∧ ∃ r ≤ 1, s.numBorrowed = L.dbl r)
    (Q := fun s => InRange L.values s.larger) ?_ n _
    ⟨List.length_pos_iff.mpr h0, rfl, hlen, hl, 0, by omega, toDouble_small h (n := 0) (by omega)⟩).bind
    (fun s hs => popZeros_harmless _ _ hs rfl)
  rintro ⟨m, k, j, bor⟩ ⟨hk, hj, hln, hm, r, hr, rfl⟩
  simp only at hk hj hln hm
  subst hj
  unfold subBody
  obtain ⟨i, e1, hi⟩ := digitOrZero_harmless h (hs.get hm) j
  obtain ⟨d, c, e2, hd, hc⟩ := subDigit_harmless h (inRange_getElem hm hk) hi hr
  simp only [e1, ok_bind, rd_eq hk, e2]
  rw [show Vec.wr m j d = .ok (m.set j d) by unfold Vec.wr; rw [if_pos hk], ok_bind]
  have hset := inRange_set hm hd j
  have hl' : (src.get (m.set j d)).length ≤ (m.set j d).length := by
    cases src with
    | other l => simpa [Src.get] using hln
    | self => exact le_rfl
  show Harmless _ (Except.ok _)
  unfold Harmless
  simp only
  split
  · exact hset
  · rename_i hb
    refine ⟨?_, trivial, hl', hset, c, hc, rfl⟩
    simp only [Bool.and_eq_true, decide_eq_true_eq, not_and] at hb
    have : (m.set j d).length = m.length := List.length_set
    by_contra hge
    exact hb (by omega) (by omega)

theorem shlLoop_harmless {w mx : Nat} (hw : IsWidth w) (h1 : 1 ≤ mx) (h2 : 2 * mx + 1 < 2 ^ w) : ∀ (l : List Nat) (r : Nat), InRange (2 ^ w) l → r ≤ 1 →
    ∃ m c, shlLoop (.custom w mx) l ((Limits.custom w mx).sgl r) = .ok (m, (Limits.custom w mx).sgl c) ∧ InRange (2 ^ w) m ∧ c ≤ 1
  | [], r, _, hr => ⟨[], r, rfl, fun _ hx => absurd hx List.not_mem_nil, hr⟩
  | d :: l, r, hl, hr => by
    obtain ⟨d', c, e, hd, hc⟩ := shlDigit_harmless hw h1 h2 (hl d List.mem_cons_self) hr
    obtain ⟨m, c', e', hm, hc'⟩ := shlLoop_harmless hw h1 h2 l c (fun x hx => hl x (List.mem_cons_of_mem _ hx)) hc
    refine ⟨d' :: m, c', ?_, ?_, hc'⟩
    · unfold shlLoop
      simp only [e, ok_bind, e']
    · intro x hx
      rcases List.mem_cons.mp hx with rfl | hx
      · exact hd
      · exact hm x hx

theorem shiftLeft1_harmless {w mx : Nat} (hw : IsWidth w) (h1 : 1 ≤ mx) (h2 : 2 * mx + 1 < 2 ^ w) (env : Env) {l : List Nat} (hl : InRange (2 ^ w) l) :
    Harmless (fun m => InRange (2 ^ w) m ∧ (l = [] → m = [])) (shiftLeft1 (.custom w mx) env l) := by
  unfold shiftLeft1
  split
  · exact ⟨fun _ hx => absurd hx List.not_mem_nil, fun _ => rfl⟩
  · rename_i hne
    have e0 : (Limits.custom w mx).toSingle 0 = (Limits.custom w mx).sgl 0 := (raw_const (show 0 < 2 ^ w by omega)).2
    obtain ⟨m, c, e, hm, hc⟩ := shlLoop_harmless hw h1 h2 l 0 hl (by omega)
    simp only [e0, e, ok_bind]
    split
    · have e1 : Val.bin .add (((Limits.custom w mx).toDouble (Limits.custom w mx).minLimit).conv (Limits.custom w mx).single)
          ((Limits.custom w mx).toSingle 1) = .ok ⟨.bni w, (1 : Nat)⟩ := by
        rw [show (Limits.custom w mx).toDouble (Limits.custom w mx).minLimit = ⟨.bni w, (0 : Nat)⟩ from (raw_const (show 0 < 2 ^ w by omega)).1,
          show (Limits.custom w mx).toSingle 1 = ⟨.bni w, (1 : Nat)⟩ from (raw_const (show 1 < 2 ^ w by omega)).2,
          show Val.conv (Limits.custom w mx).single ⟨.bni w, (0 : Nat)⟩ = ⟨.bni w, (0 : Nat)⟩ from raw_conv (by omega),
          vbin_raw_add hw (by omega) (by omega), Nat.mod_eq_of_lt (by omega)]
      rw [e1, ok_bind, raw_store (by omega)]
      exact (pushBack_harmless env hm (by omega)).mono (fun _ h => ⟨h.1, fun e => absurd e hne⟩)
    · exact ⟨hm, fun e => absurd e hne⟩

theorem absGe_total {B : Nat} {a b : List Nat} (ha : InRange B a) (hb : InRange B b) :
    ∃ r, absGe a b = .ok r ∧ (r = true → b.length ≤ a.length) ∧ (r = false → a.length ≤ b.length ∧ b ≠ []) := by
  rw [absGe_eq ha hb]
  refine ⟨_, rfl, ?_, ?_⟩
  · intro h
    rw [decide_eq_true_iff] at h
    omega
  · intro h
    rw [decide_eq_false_iff_not] at h
    refine ⟨by omega, ?_⟩
    rintro rfl
    rcases a with _ | ⟨x, a⟩
    · exact h (.inr ⟨rfl, le_rfl⟩)
    · exact h (.inl (by simp))

theorem absDiv_harmless {w mx : Nat} (hw : IsWidth w) (h1 : 1 ≤ mx) (h2 : 2 * mx + 1 < 2 ^ w) (env : Env) (n : Nat) {a b : List Nat}
    (ha : InRange (2 ^ w) a) (hb : InRange (2 ^ w) b) : Harmless (InRange (2 ^ w)) (absDiv (.custom w mx) env n a b) := by
  have hsup : Supported (.custom w mx) := .inr ⟨w, mx, hw, h1, h2, rfl⟩
  have hone : ∀ d : Nat, d ≤ 1 → InRange (2 ^ w) [(Limits.custom w mx).store ((Limits.custom w mx).toSingle d)] := by
    intro d hd x hx
    rw [List.mem_singleton.mp hx, (raw_const (show d < 2 ^ w by omega)).2, raw_store (by omega)]
    omega
  unfold absDiv
  refine (copyVec_harmless env _).bind ?_
  rintro res rfl
  refine (Harmless.while_ (I := fun s => InRange (2 ^ w) s.dividend ∧ InRange (2 ^ w) s.res) (Q := fun s => InRange (2 ^ w) s.res) ?_ n _
    ⟨ha, hone 0 (by omega)⟩).bind (fun s (hs : InRange (2 ^ w) s.res) => show Harmless (InRange (2 ^ w)) (Except.ok s.res) from hs)
  rintro ⟨dv, res⟩ ⟨hdv, hres⟩
  simp only at hdv hres
  obtain ⟨g, eg, hg, -⟩ := absGe_total hdv hb
  refine ⟨g, eg, fun hgt => ?_, fun _ => hres⟩
  unfold divBody
  refine (copyVec_harmless env _).bind ?_
  rintro b0 rfl
  refine (copyVec_harmless env _).bind ?_
  rintro _ rfl
  refine (copyVec_harmless env _).bind ?_
  rintro q rfl
  refine (shiftLeft1_harmless hw h1 h2 env hb).bind ?_
  rintro b1 ⟨hb1, hb1'⟩
  refine Harmless.bind (P := fun t : SearchSt => InRange (2 ^ w) t.bsrch0 ∧ InRange (2 ^ w) t.q ∧ t.bsrch0.length ≤ dv.length ∧ dv ≠ []) ?_ ?_
  · refine Harmless.while_ (I := fun t => InRange (2 ^ w) t.bsrch0 ∧ InRange (2 ^ w) t.bsrch1 ∧ InRange (2 ^ w) t.q ∧ t.bsrch0.length ≤ dv.length ∧
      (t.bsrch0 = [] → t.bsrch1 = [])) ?_ n _ ⟨hb, hb1, hone 1 le_rfl, hg hgt, hb1'⟩
    rintro ⟨t0, t1, q⟩ ⟨ht0, ht1, hq, hlen, hnil⟩
    simp only at ht0 ht1 hq hlen hnil
    obtain ⟨g', eg', hg', hg''⟩ := absGe_total hdv ht1
    refine ⟨g', eg', fun hgt' => ?_, fun hf => ⟨ht0, hq, hlen, ?_⟩⟩
    · unfold searchBody
      refine (copyVec_harmless env _).bind ?_
      rintro b0 rfl
      refine (shiftLeft1_harmless hw h1 h2 env ht1).bind ?_
      rintro m ⟨hm, hm'⟩
      refine (shiftLeft1_harmless hw h1 h2 env hq).bind ?_
      rintro q' ⟨hq', -⟩
      exact ⟨ht1, hm, hq', hg' hgt', hm'⟩
    · rintro rfl
      exact (hg'' hf).2 (hnil (List.length_eq_zero_iff.mp (Nat.le_zero.mp hlen)))
  · rintro ⟨t0, t1, q⟩ ⟨ht0, hq, hlen, hne⟩
    refine (absSub_harmless hsup env n (src := .other t0) hdv ht0 hne hlen).bind ?_
    intro dv' hdv'
    simp only
    split
    · exact (absAdd_harmless hsup env n (src := .other q) hres hq).bind (fun m hm => ⟨hdv', hm⟩)
    · exact (absAdd_harmless hsup env n (src := .other res) hq hres).bind (fun m hm => ⟨hdv', hm⟩)

end BN
