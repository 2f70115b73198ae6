import Verif.Model.QPSolver

/-!
# The quadratic program solver in rounded arithmetic (include/smooth/feedback/qp_solver.hpp)

The functions of `Model/QPSolver.lean` once more, with a rounding after every operation in the order in which the code writes
them, and with the 32-bit iteration counter. Simplifications: no overflow and no NaN (a rounded value is a number), polishing is left out
(the model is of the code with `prm_.polish == false`), Eigen's products, sums and inner products and the LDLT factorisation are parameters.
-/

namespace Verif.QP

open Matrix

/-- Arithmetic: the rounding of the result of one operation, and Eigen's matrix-vector product, inner product and sum, whose
order of evaluation is not fixed. -/
structure Arith (F : Type*) where
  fl : F → F
  mv : {k l : ℕ} → Matrix (Fin k) (Fin l) F → (Fin l → F) → Fin k → F
  dot : {k : ℕ} → (Fin k → F) → (Fin k → F) → F
  sum : {k : ℕ} → (Fin k → F) → F

section

variable {F : Type*} [Field F] [LinearOrder F] {n m : ℕ}

/-- Arithmetic without rounding. -/
def Arith.exact : Arith F where
  fl := id
  mv := fun M x => M *ᵥ x
  dot := fun v w => v ⬝ᵥ w
  sum := fun v => ∑ i, v i

/-- `sy_.cwiseProduct(pbm.l)` (qp_solver.hpp:473-474). -/
def scaleR (ar : Arith F) (s : F) : Ext F → Ext F
  | .neg => .neg
  | .fin a => .fin (ar.fl (s * a))
  | .pos => .pos

/-! ### Scaling -/

/-- `c_` (qp_solver.hpp:693). -/
def costScaleR (ar : Arith F) (p : Pbm F n m) : F :=
  ar.fl (1 / max (max (1 / 1000000) (ar.fl (ar.sum (costInc p) / (n : F)))) (norm p.q))

/-- `sx_inc_` of one round (qp_solver.hpp:699-721). -/
def sxIncR (ar : Arith F) (p : Pbm F n m) (s : Scaling F n m) (j : Fin n) : F :=
  nz (max (norm fun i => ar.fl (ar.fl (ar.fl (s.c * s.sx i) * s.sx j) * p.P i j))
    (norm fun i => ar.fl (ar.fl (s.sy i * s.sx j) * p.A i j)))

/-- `sy_inc_` of one round (qp_solver.hpp:700-724). -/
def syIncR (ar : Arith F) (p : Pbm F n m) (s : Scaling F n m) (i : Fin m) : F :=
  nz (norm fun j => ar.fl (ar.fl (s.sy i * s.sx j) * p.A i j))

/-- `inc.cwiseMax(1e-8).cwiseInverse().cwiseSqrt()` (qp_solver.hpp:726-727). -/
def incFactorR (ar : Arith F) (sqrt : F → F) (a : F) : F := ar.fl (sqrt (ar.fl (1 / max a (1 / 100000000))))

/-- One round of the do-while loop (qp_solver.hpp:699-727). -/
def scaleRoundR (ar : Arith F) (sqrt : F → F) (p : Pbm F n m) (s : Scaling F n m) : Scaling F n m :=
  { s with sx := fun j => ar.fl (incFactorR ar sqrt (sxIncR ar p s j) * s.sx j)
           sy := fun i => ar.fl (incFactorR ar sqrt (syIncR ar p s i) * s.sy i) }

/-- The do-while loop (qp_solver.hpp:695-729). -/
def scaleLoopR (ar : Arith F) (sqrt : F → F) (p : Pbm F n m) : ℕ → Scaling F n m → Scaling F n m
  | 0, s => scaleRoundR ar sqrt p s
  | r + 1, s =>
    if 1 / 10 < max (norm fun j => ar.fl (sxIncR ar p s j - 1)) (norm fun i => ar.fl (syIncR ar p s i - 1)) then
      scaleLoopR ar sqrt p r (scaleRoundR ar sqrt p s)
    else scaleRoundR ar sqrt p s

/-- `scale` (qp_solver.hpp:673-730). -/
def scaleAllR (ar : Arith F) (sqrt : F → F) (p : Pbm F n m) : Option (Scaling F n m) :=
  if n = 0 ∨ m = 0 then none
  else some (scaleLoopR ar sqrt p 10 ⟨costScaleR ar p, fun _ => 1, fun _ => 1⟩)

/-! ### The iteration -/

/-- Trivially empty row (qp_solver.hpp:362). -/
def emptyRowR (ar : Arith F) : Ext F → Ext F → Bool
  | .pos, _ => true
  | _, .neg => true
  | .fin a, .fin b => decide (ar.fl (b - a) < 0)
  | _, _ => false

/-- `rho_(i)` (qp_solver.hpp:367-373). -/
def rhoOfR (ar : Arith F) (rhoBar sy : F) : Ext F → Ext F → F
  | .neg, .pos => 1 / 1000000
  | .fin a, .fin b => if ar.fl (sy * |ar.fl (a - b)|) < 1 / 100000 then ar.fl (1000 * rhoBar) else rhoBar
  | _, _ => rhoBar

/-- `rho_` (qp_solver.hpp:367-373). -/
def rhoVecR (ar : Arith F) (prm : Params F) (p : Pbm F n m) (s : Scaling F n m) (i : Fin m) : F :=
  rhoOfR ar prm.rho (s.sy i) (p.l i) (p.u i)

/-- The matrix `H_` (qp_solver.hpp:400-404, dense). -/
def kktR (ar : Arith F) (sigma : F) (p : Pbm F n m) (s : Scaling F n m) (rho : Fin m → F) :
    Matrix (Fin n ⊕ Fin m) (Fin n ⊕ Fin m) F :=
  fun a b => match a, b with
  | .inl i, .inl j => ar.fl (ar.fl (ar.fl (ar.fl (s.c * s.sx i) * p.P i j) * s.sx j) + (if i = j then sigma else 0))
  | .inl i, .inr j => ar.fl (ar.fl (s.sy j * p.A j i) * s.sx i)
  | .inr _, .inl _ => 0
  | .inr i, .inr j => if i = j then ar.fl ((-rho i)⁻¹) else 0

/-- `alpha_comp` (qp_solver.hpp:355). -/
def alphaComp (ar : Arith F) (alpha : F) : F := ar.fl (1 - alpha)

/-- The right-hand side of the linear system (qp_solver.hpp:450-451). -/
def rhsR (ar : Arith F) (sigma : F) (p : Pbm F n m) (s : Scaling F n m) (rho : Fin m → F) (it : It F n m) :
    Fin n ⊕ Fin m → F :=
  Sum.elim (fun j => ar.fl (ar.fl (sigma * it.x j) - ar.fl (ar.fl (s.c * s.sx j) * p.q j)))
    (fun i => ar.fl (it.z i - ar.fl (ar.fl (rho i)⁻¹ * it.y i)))

/-- One entry of the argument of the projection (qp_solver.hpp:471-472). -/
def preZ (ar : Arith F) (alpha rho w y z : F) : F :=
  ar.fl (ar.fl (ar.fl (alpha * ar.fl (ar.fl rho⁻¹ * w)) + ar.fl (alphaComp ar alpha * ar.fl (ar.fl rho⁻¹ * y))) + z)

/-- One entry of `z_next_` (qp_solver.hpp:471-474). -/
def nextZ (ar : Arith F) (sy : F) (l u : Ext F) (v : F) : F := minE (maxE v (scaleR ar sy l)) (scaleR ar sy u)

/-- One entry of the new `sol_.dual` (qp_solver.hpp:475-476). -/
def nextY (ar : Arith F) (alpha rho w y z zn : F) : F :=
  ar.fl (ar.fl (ar.fl (ar.fl (alphaComp ar alpha * y) + ar.fl (alpha * w)) + ar.fl (rho * z)) - ar.fl (rho * zn))

/-- One pass of the main loop without the stopping check (qp_solver.hpp:450-477). -/
def stepR (ar : Arith F) (alpha sigma : F) (p : Pbm F n m) (s : Scaling F n m) (rho : Fin m → F)
    (solve : (Fin n ⊕ Fin m → F) → (Fin n ⊕ Fin m → F)) (it : It F n m) : It F n m :=
  let sol := solve (rhsR ar sigma p s rho it)
  let zn : Fin m → F := fun i => nextZ ar (s.sy i) (p.l i) (p.u i) (preZ ar alpha (rho i) (sol (.inr i)) (it.y i) (it.z i))
  { x := fun j => ar.fl (ar.fl (alpha * sol (.inl j)) + ar.fl (alphaComp ar alpha * it.x j))
    y := fun i => nextY ar alpha (rho i) (sol (.inr i)) (it.y i) (it.z i) (zn i)
    z := zn }

/-- The sum of the primal infeasibility test (qp_solver.hpp:601-617). -/
def dySumR (ar : Arith F) (eps : F) (p : Pbm F n m) (dy : Fin m → F) (bound : F) : List (Fin m) → F → Option F
  | [], acc => some acc
  | i :: is, acc =>
    match (match p.u i with
      | .pos => if ar.fl (eps * bound) < dy i then none else some acc
      | .fin b => some (ar.fl (acc + ar.fl (b * max 0 (dy i))))
      | .neg => some acc) with
    | none => none
    | some acc =>
      match (match p.l i with
        | .neg => if dy i < ar.fl (-eps * bound) then none else some acc
        | .fin a => some (ar.fl (acc + ar.fl (a * min 0 (dy i))))
        | .pos => some acc) with
      | none => none
      | some acc => dySumR ar eps p dy bound is acc

/-- The row part of the dual infeasibility test (qp_solver.hpp:632-638). -/
def dualRowR (ar : Arith F) (eps dxn Adx : F) : Ext F → Ext F → Bool
  | _, .pos => decide (ar.fl (-eps * dxn) ≤ Adx)
  | .neg, _ => decide (Adx ≤ ar.fl (eps * dxn))
  | _, _ => decide (|Adx| < ar.fl (eps * dxn))

/-- The optimality test (qp_solver.hpp:584-594). -/
def optimalTestR (ar : Arith F) (prm : Params F) (p : Pbm F n m) (x : Fin n → F) (y z : Fin m → F) : Bool :=
  decide (norm (fun i => ar.fl (ar.mv p.A x i - z i)) ≤
    ar.fl (prm.epsAbs + ar.fl (prm.epsRel * max (norm (ar.mv p.A x)) (norm z)))) &&
  decide (norm (fun j => ar.fl (ar.mv p.P x j + ar.fl (p.q j + ar.mv p.Aᵀ y j))) ≤
    ar.fl (prm.epsAbs + ar.fl (prm.epsRel * max (max (norm (ar.mv p.P x)) (norm p.q)) (norm (ar.mv p.Aᵀ y)))))

/-- The primal infeasibility test (qp_solver.hpp:598-621). -/
def primalInfTestR (ar : Arith F) (prm : Params F) (p : Pbm F n m) (dy : Fin m → F) : Bool :=
  match dySumR ar prm.epsPrimalInf p dy (norm dy) (List.finRange m) 0 with
  | none => false
  | some S => decide (max (norm (ar.mv p.Aᵀ dy)) S < ar.fl (prm.epsPrimalInf * norm dy))

/-- The dual infeasibility test (qp_solver.hpp:625-641). -/
def dualInfTestR (ar : Arith F) (prm : Params F) (p : Pbm F n m) (dx : Fin n → F) : Bool :=
  decide (norm (ar.mv p.P dx) ≤ ar.fl (prm.epsDualInf * norm dx)) && decide (ar.dot p.q dx ≤ ar.fl (prm.epsDualInf * norm dx)) &&
  (List.finRange m).all fun i => dualRowR ar prm.epsDualInf (norm dx) (ar.mv p.A dx i) (p.l i) (p.u i)

/-- `check_stopping` (qp_solver.hpp:574-644). -/
def checkStoppingR (ar : Arith F) (prm : Params F) (p : Pbm F n m) (x : Fin n → F) (y z : Fin m → F) (dx : Fin n → F)
    (dy : Fin m → F) : Option Status :=
  if optimalTestR ar prm p x y z then some .optimal
  else if primalInfTestR ar prm p dy then some .primalInfeasible
  else if dualInfTestR ar prm p dx then some .dualInfeasible
  else none

/-- Unscaling of the primal (qp_solver.hpp:481, 545). -/
def unXR (ar : Arith F) (s : Scaling F n m) (x : Fin n → F) : Fin n → F := fun j => ar.fl (s.sx j * x j)
/-- Unscaling of the dual (qp_solver.hpp:482, 546). -/
def unYR (ar : Arith F) (s : Scaling F n m) (y : Fin m → F) : Fin m → F := fun i => ar.fl (ar.fl (s.sy i * y i) / s.c)
/-- Unscaling of `z_` (qp_solver.hpp:483). -/
def unZR (ar : Arith F) (s : Scaling F n m) (z : Fin m → F) : Fin m → F := fun i => ar.fl (ar.fl (s.sy i)⁻¹ * z i)

/-- The stopping check of one iteration (qp_solver.hpp:465-468, 479-508); the differences are rounded before they are unscaled. -/
def checkR (ar : Arith F) (env : Env F n) (prm : Params F) (p : Pbm F n m) (s : Scaling F n m) (iter : ℕ) (old new : It F n m) :
    Option Status :=
  match checkStoppingR ar prm p (unXR ar s new.x) (unYR ar s new.y) (unZR ar s new.z)
      (unXR ar s fun j => ar.fl (new.x j - old.x j)) (unYR ar s fun i => ar.fl (new.y i - old.y i)) with
  | some c => some c
  | none =>
    match prm.maxTime with
    | some t => if env.t0 + t < env.now iter then some .maxTime else none
    | none => none

/-- The main loop (qp_solver.hpp:448-510) with its `unsigned int` counter. -/
def loopR (ar : Arith F) (env : Env F n) (prm : Params F) (p : Pbm F n m) (s : Scaling F n m) (next : It F n m → It F n m) :
    ℕ → ℕ → Option Status → It F n m → Out (ℕ × Option Status × It F n m)
  | 0, _, _, _ => .timeout
  | fuel + 1, iter, ret, it =>
    if (prm.maxIter ≠ some iter) ∧ ret = none then
      if prm.stopCheckIter = 0 then .undef
      else
        loopR ar env prm p s next fuel ((iter + 1) % 2 ^ 32)
          (if iter % prm.stopCheckIter = 1 then checkR ar env prm p s iter it (next it) else none) (next it)
    else .ok (iter, ret, it)

/-! ### Solve -/

/-- Start of the iteration (qp_solver.hpp:436-445). -/
def startR (ar : Arith F) (p : Pbm F n m) (s : Scaling F n m) : Option ((Fin n → F) × (Fin m → F)) → It F n m
  | some w => ⟨fun j => ar.fl (ar.fl (s.sx j)⁻¹ * w.1 j), fun i => ar.fl (s.c * ar.fl (ar.fl (s.sy i)⁻¹ * w.2 i)),
      ar.mv (fun i j => ar.fl (s.sy i * p.A i j)) w.1⟩
  | none => ⟨0, 0, 0⟩

/-- The end of `solve` (qp_solver.hpp:544-548). -/
def finishR (ar : Arith F) (p : Pbm F n m) (s : Scaling F n m) (iter : ℕ) (ret : Option Status) (x : Fin n → F) (y : Fin m → F) :
    Sol F n m :=
  { code := ret.getD .maxIterations
    iter := iter
    primal := unXR ar s x
    dual := unYR ar s y
    objective := ar.dot (unXR ar s x) fun j => ar.fl (ar.mv (fun i k => ar.fl (1 / 2 * p.P i k)) (unXR ar s x) j + p.q j) }

/-- The pre-check (qp_solver.hpp:359-364). -/
def precheckR (ar : Arith F) (p : Pbm F n m) : Option Status :=
  if (List.finRange m).any (fun i => emptyRowR ar (p.l i) (p.u i)) then some .primalInfeasible else none

/-- The solve function and the preset return code (qp_solver.hpp:359-364, 422-433). -/
def prepareR (ar : Arith F) (env : Env F n) (prm : Params F) (p : Pbm F n m) (s : Scaling F n m) :
    ((Fin n ⊕ Fin m → F) → (Fin n ⊕ Fin m → F)) × Option Status :=
  match env.factor m (kktR ar prm.sigma p s (rhoVecR ar prm p s)) with
  | none => (id, some .unknown)
  | some slv => (slv, precheckR ar p)

/-- `solve` after scaling (qp_solver.hpp:350-568), polishing off. -/
def solveScaledR (ar : Arith F) (env : Env F n) (prm : Params F) (p : Pbm F n m) (s : Scaling F n m)
    (ws : Option ((Fin n → F) × (Fin m → F))) (fuel : ℕ) : Out (Sol F n m) :=
  match loopR ar env prm p s (stepR ar prm.alpha prm.sigma p s (rhoVecR ar prm p s) (prepareR ar env prm p s).1) fuel 0
      (prepareR ar env prm p s).2 (startR ar p s ws) with
  | .ok (iter, ret, it) => .ok (finishR ar p s iter ret it.x it.y)
  | .undef => .undef
  | .timeout => .timeout

/-- `solve_qp` (qp_solver.hpp:779-787), polishing off. -/
def solveQPR (ar : Arith F) (env : Env F n) (prm : Params F) (p : Pbm F n m) (ws : Option ((Fin n → F) × (Fin m → F)))
    (fuel : ℕ) : Out (Sol F n m) :=
  match (if prm.scaling then scaleAllR ar env.sqrt p else some Scaling.unit) with
  | none => .undef
  | some s => solveScaledR ar env prm p s ws fuel

end

end Verif.QP
