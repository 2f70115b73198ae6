import Mathlib.LinearAlgebra.Matrix.Defs
import Mathlib.Data.Matrix.Mul

/-!
# The Lie group functions that the flattening uses (smooth library, external)

`ocp_flatten.hpp` calls `rplus`, `exp`, `Ad`, `ad`, `dr_exp`, `dr_expinv`, `d2r_exp`, `d2r_expinv` and `generators_sparse` of the
smooth library. They are fields of a record; what is assumed about them is in `Verif/Spec/Lie.lean`. The sparse variants
(`dr_exp_sparse` and so on) return the same numbers.
-/

namespace Verif.Lie

/-- A Lie group with elements `X`, scalars `F` and dimension `n`. -/
structure LieOps (X F : Type*) (n : ℕ) where
  /-- `rplus(x, a)`, also written `x + a` -/
  rplus : X → (Fin n → F) → X
  /-- `exp<X>(a)` -/
  exp : (Fin n → F) → X
  /-- `Ad<X>(x)` -/
  Ad : X → Matrix (Fin n) (Fin n) F
  /-- `ad<X>(a)` -/
  ad : (Fin n → F) → Matrix (Fin n) (Fin n) F
  /-- `dr_exp<X>(a)` -/
  drExp : (Fin n → F) → Matrix (Fin n) (Fin n) F
  /-- `dr_expinv<X>(a)` -/
  drExpinv : (Fin n → F) → Matrix (Fin n) (Fin n) F
  /-- block `k` of `d2r_exp<X>(a)`: entry `(r, c)` is the derivative of entry `(k, r)` of `dr_exp` by `a_c` -/
  d2rExp : (Fin n → F) → Fin n → Matrix (Fin n) (Fin n) F
  /-- block `k` of `d2r_expinv<X>(a)`, in the same order -/
  d2rExpinv : (Fin n → F) → Fin n → Matrix (Fin n) (Fin n) F
  /-- `generators_sparse<X>[i]` -/
  gen : Fin n → Matrix (Fin n) (Fin n) F

end Verif.Lie
