import Verif.Model.OCPNLP

/-! # Specification: stored positions -/

namespace Verif.Pattern

open Verif.Sparse Verif.MeshFn

variable {F : Type*} [Field F]

/-- Something is stored at this position. -/
def pat (A : Sp F) (i j : ℕ) : Prop := (A.ent i j).isSome = true

/-- The same size and the same positions. -/
structure SameP (A B : Sp F) : Prop where
  rows : A.rows = B.rows
  cols : A.cols = B.cols
  pat : ∀ i j, pat A i j ↔ pat B i j

/-- The derivatives of a function always store the same positions (dense derivatives do). -/
structure FixedFn {nx nu nf : ℕ} (fn : Fn F nx nu nf) : Prop where
  jac : ∀ p q, SameP (fn.jac p) (fn.jac q)
  hess : ∀ p q, SameP (fn.hess p) (fn.hess q)

/-- The same for a function of the end points. -/
structure FixedEFn {nx nq n : ℕ} (fn : NLP.EFn F nx nq n) : Prop where
  jac : ∀ p q, SameP (fn.jac p) (fn.jac q)
  hess : ∀ p q, SameP (fn.hess p) (fn.hess q)

/-- All functions of a problem. -/
structure FixedOCP {nx nu nq ncr nce : ℕ} (ocp : NLP.OCP F nx nu nq ncr nce) : Prop where
  theta : FixedEFn ocp.theta
  f : FixedFn ocp.f
  g : FixedFn ocp.g
  cr : FixedFn ocp.cr
  ce : FixedEFn ocp.ce

end Verif.Pattern
