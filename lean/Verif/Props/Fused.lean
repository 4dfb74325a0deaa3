import Verif.Props.Binary64
/-
C130: compilers may evaluate x * y ± z * w with a fused multiply-add.
-/
namespace BN
open Bignum B64

/-- The fused operation of the model rounds x · y + z once, to the nearest number of the format. -/
theorem C130_once_rounded {x y z : B64} (hx : x.Finite) (hy : y.Finite) (hz : z.Finite)
    (h : |toRat x * toRat y + toRat z| < 2 ^ 1024 - 2 ^ 970) : Rounded (toRat x * toRat y + toRat z) (fma x y z) := by
  obtain ⟨b, hb⟩ := fma_eq hx hy hz
  rw [hb]
  exact C113_rounding b h

/-- (1 + 2^-52)^2 - 1, where the second summand is the rounded square less 2^-51. -/
example := C130_once_rounded (x := num false (2 ^ 52 + 1) (-52)) (y := num false (2 ^ 52 + 1) (-52)) (z := num true (2 ^ 52) (-52))
  (by simp [B64.Finite]) (by simp [B64.Finite]) (by simp [B64.Finite]) (by decide +kernel)

/-- Fusing does change what the transforms compute with: x · x - x · x is 0 if both products are rounded and 2^-104 if only
one is, for x = 1 + 2^-52. -/
theorem C130_values_differ (lib : MathLib) :
    ∃ x : B64, x.Finite ∧ toRat ((binary64 lib fun _ _ _ _ => .separate).mulSub x x x x) = 0 ∧
      toRat ((binary64 lib fun _ _ _ _ => .first).mulSub x x x x) = 1 / 2 ^ 104 :=
  ⟨num false (2 ^ 52 + 1) (-52), by simp [B64.Finite],
    show toRat (sub (mul _ _) (mul _ _)) = 0 by decide +kernel, show toRat (fma _ _ (neg (mul _ _))) = 1 / 2 ^ 104 by decide +kernel⟩

/-- Products end identically (same object, same failure) whatever the compiler fuses and whatever accurate library is
linked, with every allocator and in both builds. -/
theorem C130_products {lib lib' : MathLib} (h : lib.Accurate) (h' : lib'.Accurate) (fuse fuse' : Fusing) {L : Limits} {K : Nat}
    (hp : Preset L K) (env : Env) {x : Bignum} {r : Rhs} (hx : WF L x) (hy : WF L (r.get x))
    (h1 : 1 ≤ x.size + (r.get x).size) (h2 : x.size + (r.get x).size ≤ K) {n : Nat} (hn : 32 < n) :
    mulAssign (binary64 lib fuse) L env n x r = mulAssign (binary64 lib' fuse') L env n x r :=
  C108_products_agree (ieee64 lib h fuse) (ieee64 lib' h' fuse') hp env hx hy h1 h2 hn

example := C130_products C113_accurate_library.choose_spec C113_accurate_library.choose_spec (fun _ _ _ _ => .separate)
  (fun x y _ _ => if x = y then .first else .second) .base10 releaseEnv (x := Sample.n199) (r := .other Sample.m23) (by sample) (by sample)
  (by decide) (by decide) (n := 33) (by decide)

/-- So do programs: every program, store, allocator and build. -/
theorem C130_programs {lib lib' : MathLib} (h : lib.Accurate) (h' : lib'.Accurate) (fuse fuse' : Fusing) {L : Limits} {K : Nat}
    (hp : Preset L K) {n : Nat} (hn : 32 < n) (ops : List Op) (env : Nat → Env) (s : Store)
    (hw : WithinRun (binary64 lib fuse) L K n env s ops) :
    run (binary64 lib' fuse') L n env s ops = run (binary64 lib fuse) L n env s ops :=
  C108_programs_agree (ieee64 lib h fuse) (ieee64 lib' h' fuse') hp hn ops env s hw

example := C130_programs C113_accurate_library.choose_spec C113_accurate_library.choose_spec (fun _ _ _ _ => .separate)
  (fun _ _ _ _ => .second) .base10 (n := 33) (by decide) [.binary .mul 0 1 2, .arith .sub 0 1] (fun _ => releaseEnv) (fun _ => Sample.m23)
  ⟨⟨by sample, by sample, by decide, by decide⟩, fun _ _ => ⟨trivial, fun _ _ => trivial⟩⟩

end BN
