import Mathlib.Data.Matrix.Mul
import Mathlib.Data.Matrix.Block
import Mathlib.Data.List.FinRange
import Mathlib.Algebra.Order.Field.Basic
import Mathlib.Algebra.BigOperators.Fin
import Mathlib.Logic.Function.Basic

/-!
# The quadratic program solver (include/smooth/feedback/qp_solver.hpp, qp.hpp)

Simplifications, all repeated in DESIGN.md:
* scalars are exact elements of an ordered field; bounds may be infinite, NaN does not exist;
* the iteration counter is a natural number (the code's `auto iter = 0u` wraps after 2^32 steps);
* Eigen's LDLT is the parameter `Env.factor`, `sqrt` the parameter `Env.sqrt`, the clock `Env.t0`/`Env.now`;
* verbose printing is left out.
-/

namespace Verif.QP

open Matrix

/-- A bound: a scalar or an infinity (`std::numeric_limits<Scalar>::infinity()`, qp_solver.hpp:105,261). -/
inductive Ext (F : Type*) where
  | neg
  | fin (a : F)
  | pos
deriving DecidableEq

/-- `QPSolutionStatus` (qp.hpp:81-93). -/
inductive Status where
  | optimal | polishFailed | primalInfeasible | dualInfeasible | maxIterations | maxTime | unknown
deriving DecidableEq, Repr

/-- Outcome of code that may loop for ever: a value, undefined behaviour, or the fuel ran out. -/
inductive Out (α : Type*) where
  | ok (a : α)
  | undef
  | timeout

/-- `QuadraticProgram` (qp.hpp:31-45) and, as far as values are concerned, `QuadraticProgramSparse` (qp.hpp:61-79). -/
structure Pbm (F : Type*) (n m : ℕ) where
  P : Matrix (Fin n) (Fin n) F
  q : Fin n → F
  A : Matrix (Fin m) (Fin n) F
  l : Fin m → Ext F
  u : Fin m → Ext F

/-- `QPSolverParams` (qp_solver.hpp:29-68) without `verbose`; `maxTime` counts nanoseconds. -/
structure Params (F : Type*) where
  alpha : F
  rho : F
  sigma : F
  scaling : Bool
  epsAbs : F
  epsRel : F
  epsPrimalInf : F
  epsDualInf : F
  maxIter : Option ℕ
  maxTime : Option ℤ
  stopCheckIter : ℕ
  polish : Bool
  polishIter : ℕ
  delta : F

/-- `QPSolution` (qp.hpp:96-109). -/
structure Sol (F : Type*) (n m : ℕ) where
  code : Status
  iter : ℕ
  primal : Fin n → F
  dual : Fin m → F
  objective : F

/-- What the solver takes from outside: `std::sqrt` through `cwiseSqrt` (qp_solver.hpp:726-727), the machine
epsilon (106), Eigen's LDLT of a symmetric matrix given by its upper triangle (187,259: `none` when `info()`
reports a failure, else the solve function) and the clock (376: `t0`; 505: `now iter`). -/
structure Env (F : Type*) (n : ℕ) where
  sqrt : F → F
  eps : F
  factor : (k : ℕ) → Matrix (Fin n ⊕ Fin k) (Fin n ⊕ Fin k) F → Option ((Fin n ⊕ Fin k → F) → (Fin n ⊕ Fin k → F))
  t0 : ℤ
  now : ℕ → ℤ

section

variable {F : Type*} [Field F] [LinearOrder F] {n m : ℕ}

/-- The default parameters (qp_solver.hpp:35-67), as decimal numbers (the code rounds them to `float`). -/
def Params.default : Params F where
  alpha := 16 / 10
  rho := 1 / 10
  sigma := 1 / 1000000
  scaling := true
  epsAbs := 1 / 1000
  epsRel := 1 / 1000
  epsPrimalInf := 1 / 10000
  epsDualInf := 1 / 10000
  maxIter := none
  maxTime := none
  stopCheckIter := 25
  polish := true
  polishIter := 5
  delta := 1 / 1000000

/-- Entrywise product with a positive scale factor: `sy_.cwiseProduct(pbm.l)` (qp_solver.hpp:473-474). -/
def Ext.scale (s : F) : Ext F → Ext F
  | .neg => .neg
  | .fin a => .fin (s * a)
  | .pos => .pos

/-- One entry of `.cwiseMax(l)` (qp_solver.hpp:473). `l = inf` cannot occur: the loop is not entered then (362,449). -/
def maxE (v : F) : Ext F → F
  | .neg => v
  | .fin a => max v a
  | .pos => v

/-- One entry of `.cwiseMin(u)` (qp_solver.hpp:474). `u = -inf` cannot occur: the loop is not entered then (362,449). -/
def minE (v : F) : Ext F → F
  | .neg => v
  | .fin a => min v a
  | .pos => v

/-- Value of a bound known to be finite (qp_solver.hpp:181-182 are reached only for finite bounds, 121-122). -/
def Ext.val : Ext F → F
  | .fin a => a
  | _ => 0

/-- `lpNorm<Eigen::Infinity>()` (qp_solver.hpp:579), zero for an empty vector. -/
def norm {k : ℕ} (v : Fin k → F) : F := (List.finRange k).foldr (fun i a => max |v i| a) 0

/-! ### Scaling -/

/-- Scaling members `c_`, `sx_`, `sy_` (qp_solver.hpp:740-742). -/
structure Scaling (F : Type*) (n m : ℕ) where
  c : F
  sx : Fin n → F
  sy : Fin m → F

/-- What `analyze` sets (qp_solver.hpp:306-308). -/
def Scaling.unit : Scaling F n m := ⟨1, fun _ => 1, fun _ => 1⟩

/-- "If there are zero cols": a zero becomes one (qp_solver.hpp:688-690, 719-724). -/
def nz (a : F) : F := if a = 0 then 1 else a

/-- `sx_inc_` after the cost loop (qp_solver.hpp:681-690). -/
def costInc (p : Pbm F n m) (j : Fin n) : F := nz (norm fun i => p.P i j)

/-- `c_` (qp_solver.hpp:693). -/
def costScale (p : Pbm F n m) : F :=
  1 / max (max (1 / 1000000) ((∑ j, costInc p j) / (n : F))) (norm p.q)

/-- `sx_inc_` of one round (qp_solver.hpp:699-721): infinity norm of a column of `[Ps; As]`. -/
def sxInc (p : Pbm F n m) (s : Scaling F n m) (j : Fin n) : F :=
  nz (max (norm fun i => s.c * s.sx i * s.sx j * p.P i j) (norm fun i => s.sy i * s.sx j * p.A i j))

/-- `sy_inc_` of one round (qp_solver.hpp:700-724): infinity norm of a row of `As`. -/
def syInc (p : Pbm F n m) (s : Scaling F n m) (i : Fin m) : F := nz (norm fun j => s.sy i * s.sx j * p.A i j)

/-- The factor applied to a scale: `inc.cwiseMax(1e-8).cwiseInverse().cwiseSqrt()` (qp_solver.hpp:726-727). -/
def incFactor (sqrt : F → F) (a : F) : F := sqrt (1 / max a (1 / 100000000))

/-- One round of the do-while loop (qp_solver.hpp:699-727). -/
def scaleRound (sqrt : F → F) (p : Pbm F n m) (s : Scaling F n m) : Scaling F n m :=
  { s with sx := fun j => incFactor sqrt (sxInc p s j) * s.sx j
           sy := fun i => incFactor sqrt (syInc p s i) * s.sy i }

/-- The do-while loop (qp_solver.hpp:695-729); `r` counts the repetitions that `iter++ < 10` still allows. -/
def scaleLoop (sqrt : F → F) (p : Pbm F n m) : ℕ → Scaling F n m → Scaling F n m
  | 0, s => scaleRound sqrt p s
  | r + 1, s =>
    if 1 / 10 < max (norm fun j => sxInc p s j - 1) (norm fun i => syInc p s i - 1) then
      scaleLoop sqrt p r (scaleRound sqrt p s)
    else scaleRound sqrt p s

/-- `scale` (qp_solver.hpp:673-730). Undefined when there are no variables or no constraints: `maxCoeff` (729) and
`mean` (693) need a non-empty vector. -/
def scale (sqrt : F → F) (p : Pbm F n m) : Option (Scaling F n m) :=
  if n = 0 ∨ m = 0 then none
  else some (scaleLoop sqrt p 10 ⟨costScale p, fun _ => 1, fun _ => 1⟩)

/-! ### The iteration -/

/-- Iterates `sol_.primal`, `sol_.dual`, `z_` (qp_solver.hpp:737,745), in scaled variables. -/
structure It (F : Type*) (n m : ℕ) where
  x : Fin n → F
  y : Fin m → F
  z : Fin m → F

/-- Trivially empty row (qp_solver.hpp:362). -/
def emptyRow : Ext F → Ext F → Bool
  | .pos, _ => true
  | _, .neg => true
  | .fin a, .fin b => decide (b - a < 0)
  | _, _ => false

/-- `rho_(i)` (qp_solver.hpp:367-373). -/
def rhoOf (rhoBar sy : F) : Ext F → Ext F → F
  | .neg, .pos => 1 / 1000000
  | .fin a, .fin b => if sy * |a - b| < 1 / 100000 then 1000 * rhoBar else rhoBar
  | _, _ => rhoBar

/-- The matrix `H_` (qp_solver.hpp:379-405); only its upper triangle is filled and used. -/
def kkt (sigma : F) (p : Pbm F n m) (s : Scaling F n m) (rho : Fin m → F) :
    Matrix (Fin n ⊕ Fin m) (Fin n ⊕ Fin m) F :=
  fun a b => match a, b with
  | .inl i, .inl j => s.c * s.sx i * p.P i j * s.sx j + (if i = j then sigma else 0)
  | .inl i, .inr j => s.sy j * p.A j i * s.sx i
  | .inr _, .inl _ => 0
  | .inr i, .inr j => if i = j then (-rho i)⁻¹ else 0

/-- One pass of the main loop without the stopping check (qp_solver.hpp:450-477). -/
def step (alpha sigma : F) (p : Pbm F n m) (s : Scaling F n m) (rho : Fin m → F)
    (solve : (Fin n ⊕ Fin m → F) → (Fin n ⊕ Fin m → F)) (it : It F n m) : It F n m :=
  let sol := solve (Sum.elim (fun j => sigma * it.x j - s.c * s.sx j * p.q j) (fun i => it.z i - (rho i)⁻¹ * it.y i))
  let zn : Fin m → F := fun i =>
    minE (maxE (alpha * ((rho i)⁻¹ * sol (.inr i)) + (1 - alpha) * ((rho i)⁻¹ * it.y i) + it.z i)
      ((p.l i).scale (s.sy i))) ((p.u i).scale (s.sy i))
  { x := fun j => alpha * sol (.inl j) + (1 - alpha) * it.x j
    y := fun i => (1 - alpha) * it.y i + alpha * sol (.inr i) + rho i * it.z i - rho i * zn i
    z := zn }

/-- The sum of the primal infeasibility test (qp_solver.hpp:601-617); `none` is `+inf`. -/
def dySum (eps : F) (p : Pbm F n m) (dy : Fin m → F) (bound : F) : List (Fin m) → F → Option F
  | [], acc => some acc
  | i :: is, acc =>
    match (match p.u i with
      | .pos => if eps * bound < dy i then none else some acc
      | .fin b => some (acc + b * max 0 (dy i))
      | .neg => some acc) with
    | none => none
    | some acc =>
      match (match p.l i with
        | .neg => if dy i < -eps * bound then none else some acc
        | .fin a => some (acc + a * min 0 (dy i))
        | .pos => some acc) with
      | none => none
      | some acc => dySum eps p dy bound is acc

/-- The row part of the dual infeasibility test (qp_solver.hpp:632-638). -/
def dualRow (eps dxn Adx : F) : Ext F → Ext F → Bool
  | _, .pos => decide (-eps * dxn ≤ Adx)
  | .neg, _ => decide (Adx ≤ eps * dxn)
  | _, _ => decide (|Adx| < eps * dxn)

/-- The optimality test (qp_solver.hpp:584-594). -/
def optimalTest (prm : Params F) (p : Pbm F n m) (x : Fin n → F) (y z : Fin m → F) : Bool :=
  decide (norm (p.A *ᵥ x - z) ≤ prm.epsAbs + prm.epsRel * max (norm (p.A *ᵥ x)) (norm z)) &&
  decide (norm (p.P *ᵥ x + (p.q + p.Aᵀ *ᵥ y)) ≤
    prm.epsAbs + prm.epsRel * max (max (norm (p.P *ᵥ x)) (norm p.q)) (norm (p.Aᵀ *ᵥ y)))

/-- The primal infeasibility test (qp_solver.hpp:598-621). -/
def primalInfTest (prm : Params F) (p : Pbm F n m) (dy : Fin m → F) : Bool :=
  match dySum prm.epsPrimalInf p dy (norm dy) (List.finRange m) 0 with
  | none => false
  | some S => decide (max (norm (p.Aᵀ *ᵥ dy)) S < prm.epsPrimalInf * norm dy)

/-- The dual infeasibility test (qp_solver.hpp:625-641). -/
def dualInfTest (prm : Params F) (p : Pbm F n m) (dx : Fin n → F) : Bool :=
  decide (norm (p.P *ᵥ dx) ≤ prm.epsDualInf * norm dx) && decide (p.q ⬝ᵥ dx ≤ prm.epsDualInf * norm dx) &&
  (List.finRange m).all fun i => dualRow prm.epsDualInf (norm dx) ((p.A *ᵥ dx) i) (p.l i) (p.u i)

/-- `check_stopping` (qp_solver.hpp:574-644). -/
def checkStopping (prm : Params F) (p : Pbm F n m) (x : Fin n → F) (y z : Fin m → F) (dx : Fin n → F)
    (dy : Fin m → F) : Option Status :=
  if optimalTest prm p x y z then some .optimal
  else if primalInfTest prm p dy then some .primalInfeasible
  else if dualInfTest prm p dx then some .dualInfeasible
  else none

/-- Unscaling of the primal (qp_solver.hpp:481, 545). -/
def Scaling.unX (s : Scaling F n m) (x : Fin n → F) : Fin n → F := fun j => s.sx j * x j
/-- Unscaling of the dual (qp_solver.hpp:482, 546). -/
def Scaling.unY (s : Scaling F n m) (y : Fin m → F) : Fin m → F := fun i => s.sy i * y i / s.c
/-- Unscaling of `z_` (qp_solver.hpp:483). -/
def Scaling.unZ (s : Scaling F n m) (z : Fin m → F) : Fin m → F := fun i => (s.sy i)⁻¹ * z i

/-- The stopping check of one iteration, `old` before and `new` after the step (qp_solver.hpp:465-468, 479-508). -/
def check (env : Env F n) (prm : Params F) (p : Pbm F n m) (s : Scaling F n m) (iter : ℕ) (old new : It F n m) :
    Option Status :=
  match checkStopping prm p (s.unX new.x) (s.unY new.y) (s.unZ new.z) (s.unX (new.x - old.x)) (s.unY (new.y - old.y)) with
  | some c => some c
  | none =>
    match prm.maxTime with
    | some t => if env.t0 + t < env.now iter then some .maxTime else none
    | none => none

/-- The main loop (qp_solver.hpp:448-510). `iter % 0` is undefined behaviour. -/
def loop (env : Env F n) (prm : Params F) (p : Pbm F n m) (s : Scaling F n m) (next : It F n m → It F n m) :
    ℕ → ℕ → Option Status → It F n m → Out (ℕ × Option Status × It F n m)
  | 0, _, _, _ => .timeout
  | fuel + 1, iter, ret, it =>
    if (prm.maxIter ≠ some iter) ∧ ret = none then
      if prm.stopCheckIter = 0 then .undef
      else
        loop env prm p s next fuel (iter + 1)
          (if iter % prm.stopCheckIter = 1 then check env prm p s iter it (next it) else none) (next it)
    else .ok (iter, ret, it)

/-! ### Polishing -/

/-- The row counts as active at its lower bound (qp_solver.hpp:115, 121). -/
def lowActive (eps : F) (p : Pbm F n m) (y : Fin m → F) (i : Fin m) : Bool :=
  decide (y i < -100 * eps) && (match p.l i with | .neg => false | _ => true)

/-- The row counts as active at its upper bound (qp_solver.hpp:116, 122). -/
def upActive (eps : F) (p : Pbm F n m) (y : Fin m → F) (i : Fin m) : Bool :=
  decide (100 * eps < y i) && (match p.u i with | .pos => false | _ => true)

/-- The counting loop (qp_solver.hpp:113-117): `(nl, nu)`. -/
def countActive (lo up : Fin m → Bool) : List (Fin m) → ℕ × ℕ → ℕ × ℕ
  | [], c => c
  | i :: is, (nl, nu) =>
    countActive lo up is ((if lo i then nl + 1 else nl), (if up i then nu + 1 else nu))

/-- The loop filling `LU_idx` (qp_solver.hpp:120-123); unwritten entries are `none`. -/
def fillActive (lo up : Fin m → Bool) (nl : ℕ) : List (Fin m) → ℕ → ℕ → List (Option (Fin m)) → List (Option (Fin m))
  | [], _, _, a => a
  | i :: is, lc, uc, a =>
    let a1 := if lo i then a.set lc (some i) else a
    let lc1 := if lo i then lc + 1 else lc
    let a2 := if up i then a1.set (nl + uc) (some i) else a1
    let uc1 := if up i then uc + 1 else uc
    fillActive lo up nl is lc1 uc1 a2

/-- `LU_idx` and `nl` (qp_solver.hpp:113-123). -/
def luIdx (lo up : Fin m → Bool) : ℕ × List (Option (Fin m)) :=
  let c := countActive lo up (List.finRange m) (0, 0)
  (c.1, fillActive lo up c.1 (List.finRange m) 0 0 (List.replicate (c.1 + c.2) none))

/-- The reduced matrix `H` of the polish step (qp_solver.hpp:127-166), its upper triangle. -/
def polishH (p : Pbm F n m) (s : Scaling F n m) (L : List (Fin m)) :
    Matrix (Fin n ⊕ Fin L.length) (Fin n ⊕ Fin L.length) F :=
  fun a b => match a, b with
  | .inl i, .inl j => s.c * s.sx i * p.P i j * s.sx j
  | .inl i, .inr j => s.sy (L.get j) * p.A (L.get j) i * s.sx i
  | .inr _, .inl _ => 0
  | .inr _, .inr _ => 0

/-- The perturbation that turns `H` into `Hp` (qp_solver.hpp:169-177). -/
def polishReg (delta : F) (k : ℕ) : Matrix (Fin n ⊕ Fin k) (Fin n ⊕ Fin k) F :=
  fun a b => if a = b then (match a with | .inl _ => delta | .inr _ => -delta) else 0

/-- The right-hand side `h` (qp_solver.hpp:179-182). -/
def polishRhs (p : Pbm F n m) (s : Scaling F n m) (nl : ℕ) (L : List (Fin m)) : Fin n ⊕ Fin L.length → F
  | .inl j => -s.c * (s.sx j * p.q j)
  | .inr i => if (i : ℕ) < nl then s.sy (L.get i) * (p.l (L.get i)).val else s.sy (L.get i) * (p.u (L.get i)).val

/-- `selfadjointView<Eigen::Upper>` of a block matrix: the symmetric matrix that has the upper triangle of `M`. -/
def symUpper {k : ℕ} (M : Matrix (Fin n ⊕ Fin k) (Fin n ⊕ Fin k) F) : Matrix (Fin n ⊕ Fin k) (Fin n ⊕ Fin k) F :=
  fun a b => match a, b with
  | .inl i, .inl j => if i ≤ j then M (.inl i) (.inl j) else M (.inl j) (.inl i)
  | .inl i, .inr j => M (.inl i) (.inr j)
  | .inr i, .inl j => M (.inl j) (.inr i)
  | .inr i, .inr j => if i ≤ j then M (.inr i) (.inr j) else M (.inr j) (.inr i)

/-- Iterative refinement (qp_solver.hpp:192-195). -/
def refine {ι : Type*} [Fintype ι] (H : Matrix ι ι F) (h : ι → F) (solve : (ι → F) → (ι → F)) : ℕ → (ι → F) → (ι → F)
  | 0, t => t
  | k + 1, t => refine H h solve k (t + solve (h - H *ᵥ t))

/-- The write-back of the multipliers (qp_solver.hpp:200-201). -/
def writeDual (L : List (Fin m)) (t : Fin L.length → F) (y : Fin m → F) : Fin m → F :=
  (List.finRange L.length).foldl (fun y i => Function.update y (L.get i) (t i)) y

/-- `polish_qp` once the active rows are known (qp_solver.hpp:125-204): `none` is `return false`. -/
def polishWith (env : Env F n) (prm : Params F) (p : Pbm F n m) (s : Scaling F n m) (y : Fin m → F) (nl : ℕ)
    (L : List (Fin m)) : Option ((Fin n → F) × (Fin m → F)) :=
  match env.factor L.length (polishH p s L + polishReg prm.delta L.length) with
  | none => none
  | some slv =>
    let t := refine (symUpper (polishH p s L)) (polishRhs p s nl L) slv prm.polishIter 0
    some (fun j => t (.inl j), writeDual L (fun i => t (.inr i)) y)

/-- `polish_qp` (qp_solver.hpp:92-204), in scaled variables; reading an unwritten entry of `LU_idx` would be
undefined. The old primal is not read. -/
def polish (env : Env F n) (prm : Params F) (p : Pbm F n m) (s : Scaling F n m) (y : Fin m → F) :
    Out (Option ((Fin n → F) × (Fin m → F))) :=
  match (luIdx (lowActive env.eps p y) (upActive env.eps p y)).2.mapM id with
  | none => .undef
  | some L => .ok (polishWith env prm p s y (luIdx (lowActive env.eps p y) (upActive env.eps p y)).1 L)

/-! ### Solve -/

/-- Start of the iteration (qp_solver.hpp:436-445). -/
def start (p : Pbm F n m) (s : Scaling F n m) : Option ((Fin n → F) × (Fin m → F)) → It F n m
  | some w => ⟨fun j => (s.sx j)⁻¹ * w.1 j, fun i => s.c * ((s.sy i)⁻¹ * w.2 i), fun i => s.sy i * (p.A *ᵥ w.1) i⟩
  | none => ⟨0, 0, 0⟩

/-- The end of `solve` (qp_solver.hpp:544-548): the code is set from `ret` whatever polishing did. -/
def finish (p : Pbm F n m) (s : Scaling F n m) (iter : ℕ) (ret : Option Status) (x : Fin n → F) (y : Fin m → F) :
    Sol F n m :=
  { code := ret.getD .maxIterations
    iter := iter
    primal := s.unX x
    dual := s.unY y
    objective := s.unX x ⬝ᵥ ((fun j => 1 / 2 * (p.P *ᵥ s.unX x) j) + p.q) }

/-- Polishing and the end of `solve` (qp_solver.hpp:514-548). A failed polish leaves the iterate as it is; the
`PolishFailed` written at 537 is overwritten at 544. -/
def conclude (env : Env F n) (prm : Params F) (p : Pbm F n m) (s : Scaling F n m) (iter : ℕ) (ret : Option Status)
    (it : It F n m) : Out (Sol F n m) :=
  if ret = some .optimal ∧ prm.polish = true then
    match polish env prm p s it.y with
    | .ok (some (x, y)) => .ok (finish p s iter ret x y)
    | .ok none => .ok (finish p s iter ret it.x it.y)
    | .undef => .undef
    | .timeout => .timeout
  else .ok (finish p s iter ret it.x it.y)

/-- The pre-check (qp_solver.hpp:359-364). -/
def precheck (p : Pbm F n m) : Option Status :=
  if (List.finRange m).any (fun i => emptyRow (p.l i) (p.u i)) then some .primalInfeasible else none

/-- `rho_` (qp_solver.hpp:367-373). -/
def rhoVec (prm : Params F) (p : Pbm F n m) (s : Scaling F n m) (i : Fin m) : F :=
  rhoOf prm.rho (s.sy i) (p.l i) (p.u i)

/-- The solve function of the factorised system and the preset return code (qp_solver.hpp:359-364, 422-433): a failed
factorisation overrides the pre-check. -/
def prepare (env : Env F n) (prm : Params F) (p : Pbm F n m) (s : Scaling F n m) :
    ((Fin n ⊕ Fin m → F) → (Fin n ⊕ Fin m → F)) × Option Status :=
  match env.factor m (kkt prm.sigma p s (rhoVec prm p s)) with
  | none => (id, some .unknown)
  | some slv => (slv, precheck p)

/-- `solve` after scaling (qp_solver.hpp:350-568). -/
def solveScaled (env : Env F n) (prm : Params F) (p : Pbm F n m) (s : Scaling F n m)
    (ws : Option ((Fin n → F) × (Fin m → F))) (fuel : ℕ) : Out (Sol F n m) :=
  match loop env prm p s (step prm.alpha prm.sigma p s (rhoVec prm p s) (prepare env prm p s).1) fuel 0
      (prepare env prm p s).2 (start p s ws) with
  | .ok (iter, ret, it) => conclude env prm p s iter ret it
  | .undef => .undef
  | .timeout => .timeout

/-- `QPSolver::solve` (qp_solver.hpp:343-568) on an object whose scaling members are `mem`; returns also the members
it leaves behind. -/
def solve (env : Env F n) (prm : Params F) (mem : Scaling F n m) (p : Pbm F n m)
    (ws : Option ((Fin n → F) × (Fin m → F))) (fuel : ℕ) : Out (Sol F n m × Scaling F n m) :=
  match (if prm.scaling then scale env.sqrt p else some mem) with
  | none => .undef
  | some s =>
    match solveScaled env prm p s ws fuel with
    | .ok r => .ok (r, s)
    | .undef => .undef
    | .timeout => .timeout

/-- `solve_qp` (qp_solver.hpp:779-787): a fresh object, whose constructor calls `analyze` (276, 306-308). -/
def solveQP (env : Env F n) (prm : Params F) (p : Pbm F n m) (ws : Option ((Fin n → F) × (Fin m → F))) (fuel : ℕ) :
    Out (Sol F n m) :=
  match solve env prm Scaling.unit p ws fuel with
  | .ok r => .ok r.1
  | .undef => .undef
  | .timeout => .timeout

end

end Verif.QP
