import Verif.Lemmas.Signed
/-
Outcomes up to "soft" failures: an exception because storage was refused, or the `BN_DEBUG` check.
-/
namespace BN

/-- The exceptions that the surroundings can cause. -/
def Soft (env : Env) (e : Exn) : Prop :=
  (e = .badAlloc ∧ ∃ n, env.alloc n = false) ∨ (e = .bnUnderflow ∧ env.debug = true)

/-- Normal result satisfying `P`, or a soft exception. -/
def OkOr {α : Type} (env : Env) (r : Res α) (P : α → Prop) : Prop :=
  (∃ x, r = .ok x ∧ P x) ∨ ∃ e, Soft env e ∧ r = .error (.exn e)

theorem OkOr.bind {α β : Type} {env : Env} {r : Res α} {P : α → Prop} {f : α → Res β} {Q : β → Prop}
    (h : OkOr env r P) (hf : ∀ x, P x → OkOr env (f x) Q) : OkOr env (r >>= f) Q := by
  rcases h with ⟨x, rfl, hx⟩ | ⟨e, he, rfl⟩
  · rw [ok_bind]; exact hf x hx
  · rw [error_bind]; exact .inr ⟨e, he, rfl⟩

theorem OkOr.pure {α : Type} {env : Env} {x : α} {P : α → Prop} (h : P x) : OkOr env (.ok x) P :=
  .inl ⟨x, rfl, h⟩

theorem OkOr.mono {α : Type} {env : Env} {r : Res α} {P Q : α → Prop} (h : OkOr env r P) (hpq : ∀ x, P x → Q x) :
    OkOr env r Q := by
  rcases h with ⟨x, rfl, hx⟩ | h
  · exact .inl ⟨x, rfl, hpq x hx⟩
  · exact .inr h

/-- With ample memory in a release build there are no soft failures. -/
theorem OkOr.ok {α : Type} {env : Env} {r : Res α} {P : α → Prop} (h : OkOr env r P) (hm : env.Ample)
    (hd : env.debug = false) : ∃ x, r = .ok x ∧ P x := by
  rcases h with h | ⟨e, (⟨-, n, hn⟩ | ⟨-, hn⟩), -⟩
  · exact h
  · rw [hm n] at hn; cases hn
  · rw [hd] at hn; cases hn

theorem okOr_copy (env : Env) (v : List Nat) : OkOr env (Vec.copy env v) (fun x => x = v) := by
  unfold Vec.copy
  split
  · rename_i h; exact .pure h.symm
  · split
    · exact .pure rfl
    · rename_i h; exact .inr ⟨_, .inl ⟨rfl, _, by simpa using h⟩, rfl⟩

theorem okOr_absAdd {L : Limits} (h : Supported L) (env : Env) {fuel : Nat} {out : List Nat} {src : Src}
    (hR : InRange L.base out) (hS : InRange L.base (src.get out))
    (hf : max out.length (src.get out).length < fuel) :
    OkOr env (absAdd L env fuel out src) (fun x => x = addFull L.base out (src.get out) 0) := by
  by_cases hall : ∀ n, out.length < n → n ≤ (addFull L.base out (src.get out) 0).length → env.alloc n = true
  · rw [absAdd_ok h env hR hS hf hall]; exact .pure rfl
  · simp only [not_forall] at hall
    obtain ⟨n, h1, h2, h3⟩ := hall
    rw [absAdd_fail h env hR hS hf ⟨n, h1, h2, by simpa using h3⟩]
    exact .inr ⟨_, .inl ⟨rfl, n, by simpa using h3⟩, rfl⟩

theorem okOr_absSub {L : Limits} (h : Supported L) (env : Env) {fuel : Nat} {a : List Nat} {src : Src}
    (hR : InRange L.base a) (hS : InRange L.base (src.get a)) (hne : a ≠ []) (hlen : (src.get a).length ≤ a.length)
    (hf : a.length < fuel) :
    OkOr env (absSub L env fuel a src) (fun x => x = trim (subRest L.base a (src.get a) 0)) := by
  by_cases hd : env.debug = true ∧ (a.length < (src.get a).length ∨ (a.length = (src.get a).length ∧ ∃ i < a.length, a.getD i 0 < (src.get a).getD i 0))
  · have hc := subDebugCheck_eq env a (src.get a)
    rw [if_pos hd] at hc
    refine .inr ⟨_, .inr ⟨rfl, hd.1⟩, ?_⟩
    unfold absSub
    rw [hc]; rfl
  · have hc := subDebugCheck_eq env a (src.get a)
    rw [if_neg hd] at hc
    rw [absSub_ok h env hc hR hS hne hlen hf]
    exact .pure rfl

end BN
