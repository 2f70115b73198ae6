import Verif.Spec.Vehicle

/-! # Specification: the exact answer of the safety filter -/

namespace Verif.ASIF

open Verif.QPSpec

variable {X U F : Type*} {nx nu : ℕ} [Field F] [LinearOrder F]

/-- Correction `mu` and slack `s` are admissible in a call: input constraints, barrier conditions up to `s`, `s` nonnegative. -/
structure Allowed (env : Env X U F nx nu) (d : Dyn X U F nx nu) (prm : FPrm U F nu) (c : Call X U F nx) (steps : ℕ → List F) (mu : Fin nu → F) (s : F) : Prop where
  bounds : InPoly prm.ulim (env.uminus c.udes prm.ulim.c + mu)
  safe : Safe env d c.b c.h ⟨prm.T, c.g, c.udes, prm.W, prm.ulim⟩ prm.asif steps mu s
  nonneg : 0 ≤ s

/-- They are the best ones: least weighted squares of correction and slack. -/
def Best (env : Env X U F nx nu) (d : Dyn X U F nx nu) (prm : FPrm U F nu) (c : Call X U F nx) (steps : ℕ → List F) (mu : Fin nu → F) (s : F) : Prop :=
  Allowed env d prm c steps mu s ∧ ∀ mu' s', Allowed env d prm c steps mu' s' →
    ∑ i, prm.W i * mu i ^ 2 + prm.asif.relax * s ^ 2 ≤ ∑ i, prm.W i * mu' i ^ 2 + prm.asif.relax * s' ^ 2

end Verif.ASIF
