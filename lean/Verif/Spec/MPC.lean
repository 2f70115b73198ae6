import Verif.Model.MPC
import Verif.Spec.OCPQP
import Verif.Spec.Lie
import Verif.Spec.FlattenDeriv

/-! # Specification of model-predictive control -/

namespace Verif.MPC

open scoped Matrix

open Verif.Mesh Verif.Sparse Verif.MeshFn Verif.NLP Verif.OQP Verif.QPSpec Verif.Lie Verif.Flatten
open Verif.QP (Ext Status)

variable {T σ X U : Type*} {nx nu ncr n N : ℕ}

/-- What is assumed of the groups of states and inputs. -/
structure Sys.IsLie {𝔸 𝔹 : Type*} [NormedRing 𝔸] [NormedAlgebra ℝ 𝔸] [NormedRing 𝔹] [NormedAlgebra ℝ 𝔹] (sys : Sys T ℝ σ X U nx nu)
    (mat : X → 𝔸) (hat : (Fin nx → ℝ) →ₗ[ℝ] 𝔸) (matU : U → 𝔹) (hatU : (Fin nu → ℝ) →ₗ[ℝ] 𝔹) : Prop where
  x : Lie.IsLie sys.LX mat hat
  u : Lie.IsLie sys.LU matU hatU
  /-- `IsCommutative` is right -/
  comm : sys.comm = true → ∀ a, sys.LX.ad a = 0
  /-- the pattern covers every entry that can differ from zero -/
  pat : ∀ a k l, sys.pat k l = false → sys.LX.drExpinv a k l = 0
  /-- `y ⊕ (x ⊖ y) = x`, with a difference at which `dr_exp` is regular -/
  rminus : ∀ x y, sys.LX.rplus y (sys.rminus x y) = x ∧ IsUnit (sys.LX.drExp (sys.rminus x y)).det

/-- A functor near `(x, u)`, the time fixed. -/
def near (LX : LieOps X ℝ nx) (LU : LieOps U ℝ nu) (f : UFn T ℝ X U nx nu n) (t : Option T) (x : X) (u : U) (δ : Arg nx nu → ℝ) : Fin n → ℝ :=
  f.val t (LX.rplus x fun k => δ (.x k)) (LU.rplus u fun k => δ (.u k))

/-- The derivatives of a user's functor are right. -/
def IsUFn (sys : Sys T ℝ σ X U nx nu) (f : UFn T ℝ X U nx nu n) : Prop := ∀ t x u k, HasPd (fun δ => near sys.LX sys.LU f t x u δ k)
  (fun a => match a with | .t => 0 | .x l => f.dx t x u k l | .u l => f.du t x u k l) 0

/-- First-order expansion of a functor at `(x, u)`, the time fixed. -/
noncomputable def expand (sys : Sys T ℝ σ X U nx nu) (f : UFn T ℝ X U nx nu n) (t : Option T) (x : X) (u : U) (d : Arg nx nu → ℝ) (k : Fin n) : ℝ :=
  taylor1 (fun δ => near sys.LX sys.LU f t x u δ k) 0 d

/-- The velocity of the error `e` to a trajectory that passes through `x` with velocity `dx`, when `x ⊕ e` satisfies the dynamics:
`dr_exp(e)⁻¹ (f(x ⊕ e, u ⊕ v) - Ad_{exp(-e)} dx)`. -/
def errVel (sys : Sys T ℝ σ X U nx nu) (f : UFn T ℝ X U nx nu nx) (t : Option T) (x : X) (dx : Fin nx → ℝ) (u : U) (δ : Arg nx nu → ℝ) : Fin nx → ℝ :=
  sys.LX.drExpinv (fun k => δ (.x k)) *ᵥ (near sys.LX sys.LU f t x u δ - sys.LX.Ad (sys.LX.exp (-fun k => δ (.x k))) *ᵥ dx)

/-- A functor that is affine in state and input. -/
def Affine (sys : Sys T ℝ σ X U nx nu) (f : UFn T ℝ X U nx nu n) : Prop := ∀ t x u k, ∃ (A : Fin nx → ℝ) (B : Fin nu → ℝ),
  ∀ dx du, f.val t (sys.LX.rplus x dx) (sys.LU.rplus u du) k = f.val t x u k + (∑ l, A l * dx l + ∑ l, B l * du l)

/-- The time that a functor sees at the absolute time `s`. -/
def seen (f : UFn T ℝ X U nx nu n) (s : T) : Option T := if f.timed then some s else none

/-- The value lies between the bounds. -/
def Within (l u : Ext ℝ) (a : ℝ) : Prop := lower l a ∧ upper u a

/-- The deviation of state and input at a collocation point. -/
def dxAt (z : QVar N nx nu → ℝ) (i : Fin N) : Fin nx → ℝ := fun k => z (.x i.castSucc k)
def duAt (z : QVar N nx nu → ℝ) (i : Fin N) : Fin nu → ℝ := fun k => z (.u i k)

/-- The absolute time of a collocation point for a call at time `t`. -/
noncomputable def nodeTime (sys : Sys T ℝ σ X U nx nu) (m : Mesh ℝ) (tf : ℝ) (t : T) (i : ℕ) : T := sys.plus t (tf * tauAt sys.env m i)

/-- The collocated linearised dynamics around the desired trajectory `xd` with velocity `dxd` and input `ud`, from time `t` and
state `x` on. -/
structure Horizon (sys : Sys T ℝ σ X U nx nu) (m : Mesh ℝ) (a : Args T ℝ X U nx nu ncr) (xd : T → X) (dxd : T → Fin nx → ℝ) (ud : T → U) (t : T)
    (x : X) (z : QVar (nColloc m) nx nu → ℝ) : Prop where
  dynamics : ∀ (i : Fin (nColloc m)) (k : Fin nx),
    slope sys.env (spans 1 m) (fun j => if h : j < nColloc m + 1 then z (.x ⟨j, h⟩ k) else 0) i =
      a.tf * taylor1 (fun δ => errVel sys a.f (seen a.f (nodeTime sys m a.tf t i)) (xd (nodeTime sys m a.tf t i)) (dxd (nodeTime sys m a.tf t i))
        (ud (nodeTime sys m a.tf t i)) δ k) 0 (dev z i)
  initial : (fun k => z (.x 0 k)) = -sys.rminus (xd (sys.plus t 0)) x

/-- The linearised running constraints around the desired trajectory. -/
def RunningAround (sys : Sys T ℝ σ X U nx nu) (m : Mesh ℝ) (a : Args T ℝ X U nx nu ncr) (xd : T → X) (ud : T → U) (t : T)
    (z : QVar (nColloc m) nx nu → ℝ) : Prop :=
  ∀ (i : Fin (nColloc m)) (k : Fin ncr), Within (a.crl k) (a.cru k)
    (expand sys a.cr (seen a.cr (nodeTime sys m a.tf t i)) (xd (nodeTime sys m a.tf t i)) (ud (nodeTime sys m a.tf t i)) (dev z i) k)

/-- The linearised running constraints around the default elements. -/
def RunningAtDefault (sys : Sys T ℝ σ X U nx nu) (m : Mesh ℝ) (a : Args T ℝ X U nx nu ncr) (z : QVar (nColloc m) nx nu → ℝ) : Prop :=
  ∀ (i : Fin (nColloc m)) (k : Fin ncr), Within (a.crl k) (a.cru k) (expand sys a.cr none sys.dfltX sys.dfltU (dev z i) k)

/-- The cost with weights `Q`, `R` and `Qtf`, as documented (mpc.hpp:338-346), by quadrature and with a factor one half
(mpc.hpp:82, 183). -/
noncomputable def docCost (env : Mesh.Env ℝ) (m : Mesh ℝ) (tf : ℝ) (Q Qtf : Fin nx → Fin nx → ℝ) (R : Fin nu → Fin nu → ℝ)
    (z : QVar (nColloc m) nx nu → ℝ) : ℝ :=
  (tf * ∑ i : Fin (nColloc m), wAt env m i *
      (∑ k, ∑ l, Q k l * dxAt z i k * dxAt z i l + ∑ k, ∑ l, R k l * duAt z i k * duAt z i l) +
    ∑ k, ∑ l, Qtf k l * z (.x (Fin.last _) k) * z (.x (Fin.last _) l)) / 2

/-- The cost that is minimised: unit weights on states and inputs, and a quarter of the square of the first state. -/
noncomputable def unitCost (env : Mesh.Env ℝ) (m : Mesh ℝ) (tf : ℝ) (z : QVar (nColloc m) nx nu → ℝ) : ℝ :=
  tf / 2 * ∑ i : Fin (nColloc m), wAt env m i * (∑ k, dxAt z i k ^ 2 + ∑ k, duAt z i k ^ 2) + 1 / 4 * ∑ k, z (.x 0 k) ^ 2

/-- The deviation that a primal solution holds. -/
def zOf (v : Vec ℝ) : QVar N nx nu → ℝ := fun q => v.val q.pos

/-- The program that a call of `operator()` on object `i` hands to the solver. -/
noncomputable def World.program (sys : Sys T ℝ σ X U nx nu) (w : World T ℝ σ X U nx nu ncr) (i : ℕ) (t : T) (x : X) : Option (QPD ℝ) :=
  w.objs[i]?.bind fun o => w.xs[o.xp]?.bind fun xc => w.us[o.up]?.bind fun uc =>
    (o.transcribe sys { xc with t0 := t } { uc with t0 := t } t x).map fun o' => o'.qp

/-- Object `i` was made with the arguments `a`, and the desired trajectories it follows are `xd`, `dxd` and `ud`. -/
def World.Follows (w : World T ℝ σ X U nx nu ncr) (i : ℕ) (a : Args T ℝ X U nx nu ncr) (xd : T → X) (dxd : T → Fin nx → ℝ) (ud : T → U) : Prop :=
  ∃ o xc uc, w.objs[i]? = some o ∧ o.args = a ∧ w.xs[o.xp]? = some xc ∧ w.us[o.up]? = some uc ∧
    xc.xdes = xd ∧ xc.dxdes = dxd ∧ uc.udes = ud

/-- The mesh of a controller. -/
noncomputable def meshOf (a : Args T ℝ X U nx nu ncr) : Mesh ℝ :=
  (uniform a.Kmesh a.Kmesh ((a.K + a.Kmesh - 1) / a.Kmesh) a.Kmesh).getD []

/-- The desired trajectories that a history without copies and assignments sets for object `i`: the last ones, or the default. -/
def lastX (i : ℕ) : List (Op T ℝ X U nx nu ncr) → (T → X) × (T → Fin nx → ℝ) → (T → X) × (T → Fin nx → ℝ)
  | [], d => d
  | .setX j xd dxd :: l, d => lastX i l (if j = i then (xd, dxd) else d)
  | _ :: l, d => lastX i l d
def lastU (i : ℕ) : List (Op T ℝ X U nx nu ncr) → (T → U) → T → U
  | [], d => d
  | .setU j ud :: l, d => lastU i l (if j = i then ud else d)
  | _ :: l, d => lastU i l d

/-- The arguments of the constructor calls. -/
def made : List (Op T ℝ X U nx nu ncr) → List (Args T ℝ X U nx nu ncr)
  | [] => []
  | .new a :: l => a :: made l
  | _ :: l => made l

/-- An operation that makes two objects share their trajectories. -/
def Op.shares : Op T ℝ X U nx nu ncr → Bool
  | .copy _ => true
  | .assign _ _ => true
  | _ => false

/-- The object that an operation is called on. -/
def Op.on : Op T ℝ X U nx nu ncr → Option ℕ
  | .new _ => none
  | .copy _ => none
  | .assign i _ => some i
  | .call i _ _ => some i
  | .setX i _ _ => some i
  | .setU i _ => some i
  | .setW i _ _ _ => some i
  | .reset i => some i

/-- The operation sets a desired trajectory. -/
def Op.sets : Op T ℝ X U nx nu ncr → Bool
  | .setX _ _ _ => true
  | .setU _ _ => true
  | _ => false

/-- Assumption on the solver: what it calls optimal satisfies the constraints and has the length of the program. -/
def Exact (s : Solver ℝ σ) : Prop := ∀ qp warm st r, s.solve qp warm st = some r → r.1.code = .optimal → r.1.primal.size = qp.q.size ∧
  Feasible (toPbm qp qp.q.size qp.l.size) fun i => r.1.primal.val i

/-- Two objects share a desired trajectory. -/
def World.Share (w : World T ℝ σ X U nx nu ncr) (i j : ℕ) : Prop :=
  ∃ o p, w.objs[i]? = some o ∧ w.objs[j]? = some p ∧ (o.xp = p.xp ∨ o.up = p.up)

/-- The solution that object `i` keeps to start the next solve from. -/
def World.warm (w : World T ℝ σ X U nx nu ncr) (i : ℕ) : Option (QSol ℝ) := w.objs[i]?.bind Obj.warm

/-- What the solver answers to a call on object `i`. -/
noncomputable def World.answer (sys : Sys T ℝ σ X U nx nu) (w : World T ℝ σ X U nx nu ncr) (i : ℕ) (t : T) (x : X) : Option (QSol ℝ) :=
  w.objs[i]?.bind fun o => (w.program sys i t x).bind fun qp => (sys.solver.solve qp (w.warm i) o.solver).map (·.1)

end Verif.MPC
