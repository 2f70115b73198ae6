import Verif.Model.ASIF
import Verif.Spec.QP

/-!
# Specification of the safety filter

Only data types come from the model.
-/

namespace Verif.ASIF

open Verif.QPSpec
open Verif.QP (Ext Status)

variable {X U F : Type*} {nx nu : ℕ} [Field F] [LinearOrder F]

/-- The state reached from `x` at time `t` by Euler steps of the closed loop with these lengths. -/
def march (env : Env X U F nx nu) (d : Dyn X U F nx nu) (b : Backup X U F nx) : List F → F → X → X
  | [], _, x => x
  | e :: l, t, x => march env d b l (t + e) (env.xplus x (e • d.f x (b.bu t x)))

/-- The sensitivity along these steps, as the filter computes it: the derivative is taken at the new state and the old time. -/
def sens (env : Env X U F nx nu) (d : Dyn X U F nx nu) (b : Backup X U F nx) : List F → F → X → Matrix (Fin nx) (Fin nx) F → Matrix (Fin nx) (Fin nx) F
  | [], _, _, S => S
  | e :: l, t, x, S =>
    let y := env.xplus x (e • d.f x (b.bu t x))
    sens env d b l (t + e) y (S + e • ((b.dcl t y - env.ad (d.f y (b.bu t y))) * S))

/-- The derivative of the Euler steps in a vector space: the product of `1 + e Df` at the states before the steps. -/
def exactSens (env : Env X U F nx nu) (d : Dyn X U F nx nu) (b : Backup X U F nx) : List F → F → X → Matrix (Fin nx) (Fin nx) F → Matrix (Fin nx) (Fin nx) F
  | [], _, _, S => S
  | e :: l, t, x, S => exactSens env d b l (t + e) (env.xplus x (e • d.f x (b.bu t x))) (S + e • (b.dcl t x * S))

/-- `steps k` are the integration steps before constraint `k`: between constraints `k` and `k + 1` steps of length
`min dt (tau (k + 1) - t)` are taken, with `t` the time of constraint `k`, until the time `tau (k + 1)` is reached or passed. -/
structure Schedule (K : ℕ) (tau dt : F) (steps : ℕ → List F) : Prop where
  zero : steps 0 = []
  rule : ∀ k < K, ∃ n : ℕ, steps (k + 1) = steps k ++ List.replicate n (min dt (tau * ((k + 1 : ℕ) : F) - (steps k).sum)) ∧
    (∀ i < n, (steps k).sum + i * min dt (tau * ((k + 1 : ℕ) : F) - (steps k).sum) < tau * ((k + 1 : ℕ) : F)) ∧
    tau * ((k + 1 : ℕ) : F) ≤ (steps (k + 1)).sum

/-- The variables of the program: correction and slack. -/
def corr (v : Fin (nu + 1) → F) : Fin nu → F := fun i => v i.castSucc
def slack (v : Fin (nu + 1) → F) : F := v (Fin.last nu)

/-- The program as a problem of given sizes. -/
def DQP.pbm (qp : DQP F) (n m : ℕ) : QP.Pbm F n m where
  P := fun i j => qp.P.val i j
  q := fun i => qp.q.val i
  A := fun i j => qp.A.val i j
  l := fun i => qp.l.val i
  u := fun i => qp.u.val i

/-- The sizes of the program. -/
structure HasSize (qp : DQP F) (n m : ℕ) : Prop where
  P : qp.P.rows = n ∧ qp.P.cols = n
  q : qp.q.size = n
  A : qp.A.rows = m ∧ qp.A.cols = n
  l : qp.l.size = m
  u : qp.u.size = m

/-- The left-hand side of the barrier condition at time `t` and state `x` with sensitivity `S`:
`d/dt h + alpha h` along the initial velocity `f(x0, u_des) + Df mu`, component `j`. -/
def barrier (d : Dyn X U F nx nu) (h : Barrier X F nx) (alpha : F) (x0 : X) (udes : U) (t : F) (x : X) (S : Matrix (Fin nx) (Fin nx) F)
    (mu : Fin nu → F) (j : Fin h.nh) : F :=
  h.dt t x j + (h.dx t x).mulVec (S.mulVec (d.f x0 udes + (d.du x0 udes).mulVec mu)) j + alpha * h.h t x j

/-- The barrier conditions hold up to `s`, with the given steps. -/
def Safe (env : Env X U F nx nu) (d : Dyn X U F nx nu) (b : Backup X U F nx) (h : Barrier X F nx) (p : Pbm X U F nu) (prm : Prm F)
    (steps : ℕ → List F) (mu : Fin nu → F) (s : F) : Prop :=
  ∀ k < prm.K, ∀ j, 0 ≤ barrier d h prm.alpha p.x0 p.udes (steps k).sum (march env d b (steps k) 0 p.x0) (sens env d b (steps k) 0 p.x0 1) mu j + s

/-- The vector lies in the polyhedron `l ≤ A w ≤ u` of a bound set. -/
def InPoly (B : Bounds U F nu) (w : Fin nu → F) : Prop := ∀ i, lower (B.l i) (B.A.mulVec w i) ∧ upper (B.u i) (B.A.mulVec w i)

/-- The input lies in the bound set (common.hpp:14-16). -/
def InBounds (env : Env X U F nx nu) (B : Bounds U F nu) (u : U) : Prop := InPoly B (env.uminus u B.c)

/-- A vector space of inputs. -/
structure FlatInput (env : Env X (Fin nu → F) F nx nu) : Prop where
  plus : ∀ u v, env.uplus u v = u + v
  minus : ∀ u v, env.uminus u v = u - v

/-- The solver returns minimisers when it says so. -/
def Exact (s : Solver F) : Prop := ∀ qp warm r, s qp warm = some r → r.code = .optimal → r.primal.size = qp.q.size ∧
  Minimiser (qp.pbm qp.q.size qp.l.size) fun i => r.primal.val i

end Verif.ASIF
