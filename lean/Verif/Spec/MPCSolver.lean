import Verif.Model.MPC
import Verif.Spec.MPC
import Verif.Spec.Pattern

/-! # Specification: what a user sees of a history of calls -/

namespace Verif.MPC

open Verif.OQP Verif.Pattern

variable {T F σ τ X U : Type*} [Field F] [LinearOrder F] {nx nu ncr : ℕ}

/-- The results of a history of calls, up to and including the first that does not return. -/
def outs (sys : Sys T F σ X U nx nu) : List (Op T F X U nx nu ncr) → World T F σ X U nx nu ncr → List (Option (Option (Out X U)))
  | [], _ => []
  | op :: l, w =>
    match w.step sys op with
    | none => [none]
    | some r => some r.2 :: outs sys l r.1

/-- The same surroundings with another solver. -/
def Sys.withSolver (sys : Sys T F σ X U nx nu) (s : Solver F τ) : Sys T F τ X U nx nu :=
  ⟨sys.env, sys.plus, sys.t00, s, sys.LX, sys.LU, sys.rminus, sys.pat, sys.comm, sys.dfltX, sys.dfltU⟩

/-- Two programs store the same positions, in the same order. -/
structure SameSparsity (a b : QPD F) : Prop where
  P : SameP a.P b.P
  A : SameP a.A b.A
  orderP : a.P.rowMajor = b.P.rowMajor
  orderA : a.A.rowMajor = b.A.rowMajor

/-- The current state is on the desired trajectory, which satisfies the dynamics at the collocation points; the running constraints hold
there (or, if they have no `set_time`, at the default elements, around which they are linearised). -/
structure OnDesired (sys : Sys T ℝ σ X U nx nu) (m : Mesh.Mesh ℝ) (a : Args T ℝ X U nx nu ncr) (xd : T → X) (dxd : T → Fin nx → ℝ) (ud : T → U) (t : T) (x : X) :
    Prop where
  state : sys.rminus (xd (sys.plus t 0)) x = 0
  dynamics : ∀ i : Fin (Mesh.nColloc m), a.f.val (seen a.f (nodeTime sys m a.tf t i)) (xd (nodeTime sys m a.tf t i)) (ud (nodeTime sys m a.tf t i)) =
    dxd (nodeTime sys m a.tf t i)
  running : ∀ (i : Fin (Mesh.nColloc m)) (k : Fin ncr), Within (a.crl k) (a.cru k)
    (if a.cr.timed then a.cr.val (seen a.cr (nodeTime sys m a.tf t i)) (xd (nodeTime sys m a.tf t i)) (ud (nodeTime sys m a.tf t i)) k
    else a.cr.val none sys.dfltX sys.dfltU k)

/-- The object holds no solution to start from, or one that is zero. -/
def World.ColdAt (w : World T ℝ σ X U nx nu ncr) (i : ℕ) : Prop := ∀ s, w.warm i = some s → (∀ j, s.primal.val j = 0) ∧ ∀ j, s.dual.val j = 0

end Verif.MPC
