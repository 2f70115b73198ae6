import Mathlib.Algebra.Order.Field.Basic
import Mathlib.Algebra.BigOperators.Group.Finset.Basic

/-!
# Model of `test_ocp_derivatives` (ocp.hpp:156-336)

The random points are a parameter (a list, one element per trial), and so are the derivatives: what the functors of the problem return
(`diff::dr<K, diff::Type::Analytic>`), where they have a member `jacobian` or `hessian`, and what the differentiation method `DT` returns.
Left out: everything that is printed.
-/

namespace Verif.OCPTest

/-- `Eigen::MatrixXd`, or a sparse matrix with the same numbers. -/
structure DMat (F : Type*) where
  rows : ℕ
  cols : ℕ
  val : ℕ → ℕ → F

variable {F X U : Type*} {nq : ℕ}

/-- A functor of the problem with arguments `A`: `jac` if it is `diffable_order1`, `hess` if it is `diffable_order2`, and what the method
`DT` makes of its values. -/
structure Fun (A F : Type*) where
  jac : Option (A → DMat F)
  hess : Option (A → DMat F)
  refJac : A → DMat F
  refHess : A → DMat F

/-- `(tf, x0, xf, q)` -/
structure EndArgs (F X : Type*) (nq : ℕ) where
  tf : F
  x0 : X
  xf : X
  q : Fin nq → F

/-- `(t, x, u)` -/
structure RunArgs (F X U : Type*) where
  t : F
  x : X
  u : U

/-- The random points of one trial (ocp.hpp:213-219). -/
structure Trial (F X U : Type*) (nq : ℕ) where
  e : EndArgs F X nq
  r : RunArgs F X U

/-- The functors of the problem. -/
structure Problem (F X U : Type*) (nq : ℕ) where
  theta : Fun (EndArgs F X nq) F
  f : Fun (RunArgs F X U) F
  g : Fun (RunArgs F X U) F
  cr : Fun (RunArgs F X U) F
  ce : Fun (EndArgs F X nq) F

variable [Field F] [LinearOrder F]

/-- `m.cwiseAbs2().sum()` -/
def abs2 (m : DMat F) : F := ∑ i ∈ Finset.range m.rows, ∑ j ∈ Finset.range m.cols, m.val i j * m.val i j

/-- `m1 - m2` -/
def DMat.sub (a b : DMat F) : DMat F := ⟨a.rows, a.cols, fun i j => a.val i j - b.val i j⟩

/-- `m1.isApprox(m2, prec)` (Eigen) -/
def isApprox (prec : F) (a b : DMat F) : Prop := abs2 (a.sub b) ≤ prec * prec * min (abs2 a) (abs2 b)

/-- `m.cwiseAbs().maxCoeff() < eps` (Eigen), for a matrix that has entries. -/
def maxCoeffLt (eps : F) (m : DMat F) : Prop := ∀ i ∈ Finset.range m.rows, ∀ j ∈ Finset.range m.cols, max (m.val i j) (-m.val i j) < eps

instance (prec : F) (a b : DMat F) : Decidable (isApprox prec a b) := by unfold isApprox; infer_instance
instance (eps : F) (m : DMat F) : Decidable (maxCoeffLt eps m) := by unfold maxCoeffLt; infer_instance

/-- The lambda `cmp` (ocp.hpp:196-207). -/
def cmp (eps : F) (m1 m2 : DMat F) : Bool :=
  m1.cols = m2.cols && m1.rows = m2.rows && (isApprox (1 / 10000) m1 m2 || maxCoeffLt eps (m1.sub m2))

/-- One comparison, if the functor has the derivative (e.g. ocp.hpp:222-243). -/
def check {A : Type*} (eps : F) (d : Option (A → DMat F)) (ref : A → DMat F) (a : A) (success : Bool) : Bool :=
  match d with
  | none => success
  | some d => if cmp eps (d a) (ref a) then success else false

/-- Both comparisons of a functor. -/
def checkFun {A : Type*} (eps : F) (fn : Fun A F) (a : A) (success : Bool) : Bool :=
  check eps fn.hess fn.refHess a (check eps fn.jac fn.refJac a success)

/-- The body of the loop (ocp.hpp:211-333). -/
def trial (eps : F) (p : Problem F X U nq) (success : Bool) (z : Trial F X U nq) : Bool :=
  let s := checkFun eps p.theta z.e success
  let s := checkFun eps p.ce z.e s
  let s := checkFun eps p.f z.r s
  let s := checkFun eps p.g z.r s
  checkFun eps p.cr z.r s

/-- `test_ocp_derivatives(ocp, num_trials, eps)`, with the points that the `num_trials` iterations draw. -/
def testDerivatives (eps : F) (p : Problem F X U nq) (zs : List (Trial F X U nq)) : Bool := zs.foldl (trial eps p) true

end Verif.OCPTest
