import Verif.Model.QPSolver

/-!
# The safety filter (include/smooth/feedback/asif_func.hpp, asif.hpp, common.hpp)

Simplifications, repeated in DESIGN.md:
* the state and input manifolds enter through `rplus`, `rminus` and `ad`; the dynamics, the barrier and the backup controller are
  records of values and derivatives (`diff::dr<1, DT>`);
* `boost::numeric::odeint::euler::do_step` is `x ⊕ dt * dx/dt`;
* the row count `M` and the counter `k` are natural numbers (the code uses `int` and `unsigned`);
* an inner loop that does not end within the fuel is `none`, as is a failed assertion or an index out of range;
* the QP solver is a parameter.
-/

namespace Verif.ASIF

open Verif.QP (Ext Status)

variable {X U F : Type*} {nx nu : ℕ}

/-- A dense matrix and a dense vector. -/
structure DM (F : Type*) where
  rows : ℕ
  cols : ℕ
  val : ℕ → ℕ → F
structure DV (F : Type*) where
  size : ℕ
  val : ℕ → F

/-- `QuadraticProgram<-1, -1, double>` (qp.hpp:31-45). -/
structure DQP (F : Type*) where
  P : DM F
  q : DV F
  A : DM F
  l : DV (Ext F)
  u : DV (Ext F)

/-- The manifolds: `rplus` on states, `ad<X>`, `rplus` and `rminus` on inputs. -/
structure Env (X U F : Type*) (nx nu : ℕ) where
  xplus : X → (Fin nx → F) → X
  ad : (Fin nx → F) → Matrix (Fin nx) (Fin nx) F
  uplus : U → (Fin nu → F) → U
  uminus : U → U → Fin nu → F

/-- The dynamics `f(x, u)` with its derivative by `u`. -/
structure Dyn (X U F : Type*) (nx nu : ℕ) where
  f : X → U → Fin nx → F
  du : X → U → Matrix (Fin nx) (Fin nu) F

/-- The backup controller `bu(t, x)` with the derivative by `x` of `f(x, bu(t, x))` (asif_func.hpp:149-150). -/
structure Backup (X U F : Type*) (nx : ℕ) where
  bu : F → X → U
  dcl : F → X → Matrix (Fin nx) (Fin nx) F

/-- The barrier `h(t, x)` with its `nh` components and its derivatives (asif_func.hpp:161-165). -/
structure Barrier (X F : Type*) (nx : ℕ) where
  nh : ℕ
  h : F → X → Fin nh → F
  dt : F → X → Fin nh → F
  dx : F → X → Matrix (Fin nh) (Fin nx) F

/-- `ManifoldBounds` (common.hpp:19-33). -/
structure Bounds (U F : Type*) (nu : ℕ) where
  rows : ℕ
  A : Matrix (Fin rows) (Fin nu) F
  c : U
  l : Fin rows → Ext F
  u : Fin rows → Ext F

/-- `ASIFProblem` (asif_func.hpp:39-53). -/
structure Pbm (X U F : Type*) (nu : ℕ) where
  T : F
  x0 : X
  udes : U
  W : Fin nu → F
  ulim : Bounds U F nu

/-- `ASIFtoQPParams` (asif_func.hpp:58-68). -/
structure Prm (F : Type*) where
  K : ℕ
  alpha : F
  dt : F
  relax : F

/-- The iteration variables `t`, `x`, `dx_dx0` (asif_func.hpp:141-143). -/
structure St (X F : Type*) (nx : ℕ) where
  t : F
  x : X
  S : Matrix (Fin nx) (Fin nx) F

section

variable [Field F] [LinearOrder F]

/-- `M.block(r0, c0, nr, nc) = g`. -/
def DM.setBlock (M : DM F) (r0 c0 nr nc : ℕ) (g : ℕ → ℕ → F) : Option (DM F) :=
  if r0 + nr ≤ M.rows ∧ c0 + nc ≤ M.cols then
    some ⟨M.rows, M.cols, fun r c => if r0 ≤ r ∧ r < r0 + nr ∧ c0 ≤ c ∧ c < c0 + nc then g (r - r0) (c - c0) else M.val r c⟩
  else none

/-- `v.segment(r0, n) = g`. -/
def DV.setSeg {α : Type*} (v : DV α) (r0 n : ℕ) (g : ℕ → α) : Option (DV α) :=
  if r0 + n ≤ v.size then some ⟨v.size, fun r => if r0 ≤ r ∧ r < r0 + n then g (r - r0) else v.val r⟩ else none

/-- A short vector or matrix as a function of all indices. -/
def extV {α : Type*} [Inhabited α] {n : ℕ} (g : Fin n → α) (j : ℕ) : α := if h : j < n then g ⟨j, h⟩ else default
def extM {m n : ℕ} (g : Matrix (Fin m) (Fin n) F) (i j : ℕ) : F := if h : i < m ∧ j < n then g ⟨i, h.1⟩ ⟨j, h.2⟩ else 0

instance : Inhabited (Ext F) := ⟨.neg⟩

/-- `b - a` for a bound `b` that may be infinite. -/
def extSub : Ext F → F → Ext F
  | .neg, _ => .neg
  | .fin b, a => .fin (b - a)
  | .pos, _ => .pos

/-- `asif_to_qp_allocate` (asif_func.hpp:78-97). -/
def allocate (nu K nuIneq nh : ℕ) : DQP F :=
  let M := K * nh + nuIneq + 1
  let N := nu + 1
  { A := ⟨M, N, fun _ _ => 0⟩, l := ⟨M, fun _ => .fin 0⟩, u := ⟨M, fun _ => .fin 0⟩, P := ⟨N, N, fun _ _ => 0⟩, q := ⟨N, fun _ => 0⟩ }

/-- `f(x, bu(t, x))` (asif_func.hpp:146, 149). -/
def fcl (d : Dyn X U F nx nu) (b : Backup X U F nx) (t : F) (x : X) : Fin nx → F := d.f x (b.bu t x)

/-- One turn of the inner loop (asif_func.hpp:176-178): the state first; `dx_dx0_ode` then sees the new state (it captures `x` by
reference, 148) and the old time. -/
def odeStep (env : Env X U F nx nu) (d : Dyn X U F nx nu) (b : Backup X U F nx) (dt : F) (s : St X F nx) : St X F nx :=
  let x' := env.xplus s.x (dt • fcl d b s.t s.x)
  { t := s.t + dt, x := x', S := s.S + dt • ((-env.ad (fcl d b s.t x') + b.dcl s.t x') * s.S) }

/-- `while (t < tau * (k + 1))` (asif_func.hpp:175-179). -/
def advance (env : Env X U F nx nu) (d : Dyn X U F nx nu) (b : Backup X U F nx) (target dt : F) : ℕ → St X F nx → Option (St X F nx)
  | 0, _ => none
  | fuel + 1, s => if s.t < target then advance env d b target dt fuel (odeStep env d b dt s) else some s

/-- The rows of constraint `k` (asif_func.hpp:160-171). -/
def barrierRows (nu : ℕ) (alpha : F) (h : Barrier X F nx) (f0 : Fin nx → F) (df0 : Matrix (Fin nx) (Fin nu) F) (k : ℕ) (s : St X F nx)
    (qp : DQP F) : Option (DQP F) :=
  let hval := h.h s.t s.x
  let dh_dt := h.dt s.t s.x
  let dh_dx0 := h.dx s.t s.x * s.S
  (qp.A.setBlock (k * h.nh) 0 h.nh nu (extM (dh_dx0 * df0))).bind fun A =>
  (qp.l.setSeg (k * h.nh) h.nh (extV fun i => .fin (-dh_dt i - alpha * hval i - (dh_dx0.mulVec f0) i))).bind fun l =>
  (qp.u.setSeg (k * h.nh) h.nh fun _ => .pos).map fun u => { qp with A := A, l := l, u := u }

/-- The loop over `k` (asif_func.hpp:159-180, with `dt_act` at 174); `n` turns are left. -/
def barrierLoop (env : Env X U F nx nu) (d : Dyn X U F nx nu) (b : Backup X U F nx) (h : Barrier X F nx) (alpha tau dt : F)
    (f0 : Fin nx → F) (df0 : Matrix (Fin nx) (Fin nu) F) (fuel : ℕ) : (n k : ℕ) → St X F nx → DQP F → Option (DQP F)
  | 0, _, _, qp => some qp
  | n + 1, k, s, qp =>
    (barrierRows nu alpha h f0 df0 k s qp).bind fun qp =>
    let target := tau * ((k + 1 : ℕ) : F)
    (advance env d b target (min dt (target - s.t)) fuel s).bind fun s => barrierLoop env d b h alpha tau dt f0 df0 fuel n (k + 1) s qp

/-- The assertions (asif_func.hpp:129-136). -/
def sizesOk (qp : DQP F) (M N : ℕ) : Bool :=
  qp.A.rows = M ∧ qp.A.cols = N ∧ qp.l.size = M ∧ qp.u.size = M ∧ qp.P.rows = N ∧ qp.P.cols = N ∧ qp.q.size = N

/-- The rows that do not depend on the flow (asif_func.hpp:182-198). -/
def tailRows (env : Env X U F nx nu) (p : Pbm X U F nu) (prm : Prm F) (nh : ℕ) (qp : DQP F) : Option (DQP F) :=
  let n := prm.K * nh
  let m := p.ulim.rows
  let sh := p.ulim.A.mulVec (env.uminus p.udes p.ulim.c)
  (qp.A.setBlock 0 nu n 1 fun _ _ => 1).bind fun A =>
  (A.setBlock n 0 m nu (extM p.ulim.A)).bind fun A =>
  (qp.l.setSeg n m (extV fun i => extSub (p.ulim.l i) (sh i))).bind fun l =>
  (qp.u.setSeg n m (extV fun i => extSub (p.ulim.u i) (sh i))).bind fun u =>
  (A.setBlock (n + m) nu 1 1 fun _ _ => 1).bind fun A =>
  (l.setSeg (n + m) 1 fun _ => .fin 0).bind fun l =>
  (u.setSeg (n + m) 1 fun _ => .pos).bind fun u =>
  (qp.P.setBlock 0 0 nu nu (extM (Matrix.diagonal p.W))).bind fun P =>
  (P.setBlock nu nu 1 1 fun _ _ => prm.relax).bind fun P =>
  (qp.q.setSeg nu 1 fun _ => 0).map fun q => ⟨P, q, A, l, u⟩

/-- `asif_to_qp_update` (asif_func.hpp:104-199). -/
def update (env : Env X U F nx nu) (d : Dyn X U F nx nu) (b : Backup X U F nx) (h : Barrier X F nx) (p : Pbm X U F nu) (prm : Prm F)
    (fuel : ℕ) (qp : DQP F) : Option (DQP F) :=
  if sizesOk qp (prm.K * h.nh + p.ulim.rows + 1) (nu + 1) then
    let tau := p.T / (prm.K : F)
    let dt := min prm.dt tau
    (barrierLoop env d b h prm.alpha tau dt (d.f p.x0 p.udes) (d.du p.x0 p.udes) fuel prm.K 0 ⟨0, p.x0, 1⟩ qp).bind fun qp =>
    tailRows env p prm h.nh qp
  else none

/-- `asif_to_qp` (asif_func.hpp:244-260). -/
def toQP (env : Env X U F nx nu) (d : Dyn X U F nx nu) (b : Backup X U F nx) (h : Barrier X F nx) (p : Pbm X U F nu) (prm : Prm F)
    (fuel : ℕ) : Option (DQP F) :=
  update env d b h p prm fuel (allocate nu prm.K p.ulim.rows h.nh)

/-! ### The filter -/

/-- What is read of a `QPSolution` (qp.hpp:96-116). -/
structure QSol (F : Type*) where
  code : Status
  primal : DV F
  dual : DV F

/-- `solve_qp(qp, prm, warmstart)` (qp_solver.hpp:779-787). -/
abbrev Solver (F : Type*) := DQP F → Option (QSol F) → Option (QSol F)

/-- `solve_qp` as modelled in `Model/QPSolver.lean`, called with a dense dynamic program of `nu + 1` variables (asif.hpp:97). -/
def withQP (qenv : QP.Env F (nu + 1)) (prm : QP.Params F) (fuel : ℕ) : Solver F := fun qp warm =>
  let p : QP.Pbm F (nu + 1) qp.l.size :=
    ⟨fun i j => qp.P.val i j, fun i => qp.q.val i, fun i j => qp.A.val i j, fun i => qp.l.val i, fun i => qp.u.val i⟩
  match QP.solveQP qenv prm p (warm.map fun w => (fun j => w.primal.val j, fun i => w.dual.val i)) fuel with
  | .ok s => some ⟨s.code, ⟨nu + 1, fun j => if h : j < nu + 1 then s.primal ⟨j, h⟩ else 0⟩,
      ⟨qp.l.size, fun i => if h : i < qp.l.size then s.dual ⟨i, h⟩ else 0⟩⟩
  | .undef => none
  | .timeout => none

/-- `ASIFilterParams` (asif.hpp:17-32); the parameters of the solver are in the solver. -/
structure FPrm (U F : Type*) (nu : ℕ) where
  T : F
  nh : ℕ
  W : Fin nu → F
  ulim : Bounds U F nu
  asif : Prm F

/-- The members of `ASIFilter` (asif.hpp:105-109). -/
structure Filter (X U F : Type*) (nx nu : ℕ) where
  d : Dyn X U F nx nu
  qp : DQP F
  prm : FPrm U F nu
  warm : Option (QSol F)

/-- The constructors (asif.hpp:52-63). -/
def Filter.new (d : Dyn X U F nx nu) (prm : FPrm U F nu) : Filter X U F nx nu :=
  ⟨d, allocate nu prm.asif.K prm.ulim.rows prm.nh, prm, none⟩

/-- The arguments of `operator()` (asif.hpp:82). -/
structure Call (X U F : Type*) (nx : ℕ) where
  g : X
  udes : U
  h : Barrier X F nx
  b : Backup X U F nx

/-- The problem of a call (asif.hpp:88-94). -/
def FPrm.pbm (prm : FPrm U F nu) (c : Call X U F nx) : Pbm X U F nu := ⟨prm.T, c.g, c.udes, prm.W, prm.ulim⟩

/-- `operator()` (asif.hpp:82-102): the filter afterwards, the input and the code. -/
def Filter.call (env : Env X U F nx nu) (solver : Solver F) (fuel : ℕ) (s : Filter X U F nx nu) (c : Call X U F nx) :
    Option (Filter X U F nx nu × U × Status) :=
  if s.prm.nh = c.h.nh then
    (update env s.d c.b c.h (s.prm.pbm c) s.prm.asif fuel s.qp).bind fun qp =>
    (solver qp s.warm).bind fun sol =>
    if nu ≤ sol.primal.size then
      some ({ s with qp := qp, warm := if sol.code = .optimal then some sol else s.warm },
        env.uplus c.udes (fun i => sol.primal.val i), sol.code)
    else none
  else none

/-- A history of calls. -/
def Filter.run (env : Env X U F nx nu) (solver : Solver F) (fuel : ℕ) : List (Call X U F nx) → Filter X U F nx nu → Option (Filter X U F nx nu)
  | [], s => some s
  | c :: l, s => (s.call env solver fuel c).bind fun r => Filter.run env solver fuel l r.1

end

end Verif.ASIF
