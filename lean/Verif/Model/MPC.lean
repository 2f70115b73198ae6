import Verif.Model.OCPQPLie

/-!
# Model-predictive control (include/smooth/feedback/mpc.hpp)

Simplifications, repeated in DESIGN.md:
* the functions of the Lie groups of states and inputs are parameters (`Model/Lie.lean`), as are `rminus`, the default elements, the
  constant `IsCommutative` and the pattern `d_exp_sparse_pattern` in which `dr_expinv_sparse` stores its numbers;
* `time_trait<T>::plus` is a parameter; `Model/Time.lean` has its instances;
* the user's dynamics and running constraints are records of value and right derivatives (`diff::dr<1, DT>` is exact); a functor with a
  member `set_time` gets the time as `some t` (it is set before every evaluation, mpc.hpp:137, 144, 250, 257), one without gets `none`;
* the QP solver is a parameter;
* the assertions `xf_des.isApprox(xf)` and `(*xdes)(t_rel).isApprox(x)` (mpc.hpp:87-210) compare a number with itself and are left out;
* `makeCompressed` is invisible;
* `ocp_to_qp_allocate<DT>` (mpc.hpp:422) sees the same functors as the later updates, which use `Analytic`;
* the trajectories `u_traj` and `x_traj` are always computed (the code skips those not asked for);
* an object is created by the constructor with arguments, copied or assigned; default-constructed and moved-from objects, whose
  pointers are null, are left out.
-/

namespace Verif.MPC

open Verif.Mesh Verif.Sparse Verif.MeshFn Verif.NLP Verif.OQP Verif.Lie Verif.Flatten
open Verif.QP (Ext Status)

variable {T F σ X U : Type*} {nx nu ncr : ℕ}

/-- The user's functor: `timed` tells whether it has `set_time`. -/
structure UFn (T F X U : Type*) (nx nu n : ℕ) where
  timed : Bool
  val : Option T → X → U → Fin n → F
  dx : Option T → X → U → Fin n → Fin nx → F
  du : Option T → X → U → Fin n → Fin nu → F

/-- `XDes` (mpc.hpp:22-40) behind its shared pointer. -/
structure XCell (T F X : Type*) (nx : ℕ) where
  t0 : T
  xdes : T → X
  dxdes : T → Fin nx → F

/-- `UDes` (mpc.hpp:45-56) behind its shared pointer. -/
structure UCell (T U : Type*) where
  t0 : T
  udes : T → U

/-- What is read of a `QPSolution` (qp.hpp:96-116). -/
structure QSol (F : Type*) where
  code : Status
  primal : Vec F
  dual : Vec F

/-- `QPSolver<QuadraticProgramSparse<double>>` (qp_solver.hpp:270-343): the object's state is a `σ`. -/
structure Solver (F σ : Type*) where
  init : σ
  copy : σ → σ
  analyze : QPD F → σ → Option σ
  solve : QPD F → Option (QSol F) → σ → Option (QSol F × σ)

/-- What is outside: the collocation functions, time arithmetic, the time `T{}`, the solver, the groups of states and inputs. -/
structure Sys (T F σ X U : Type*) (nx nu : ℕ) where
  env : Mesh.Env F
  plus : T → F → T
  t00 : T
  solver : Solver F σ
  LX : LieOps X F nx
  LU : LieOps U F nu
  /-- `rminus(x, y)` -/
  rminus : X → X → Fin nx → F
  /-- the entries of `d_exp_sparse_pattern<X>` -/
  pat : Fin nx → Fin nx → Bool
  /-- `IsCommutative<X>` -/
  comm : Bool
  /-- `Default<X>()` and `Default<U>()` -/
  dfltX : X
  dfltU : U

/-- The arguments of the constructor (mpc.hpp:405-406) with the template parameter `Kmesh` and the fields of `MPCParams`
(mpc.hpp:309-334). -/
structure Args (T F X U : Type*) (nx nu ncr : ℕ) where
  f : UFn T F X U nx nu nx
  cr : UFn T F X U nx nu ncr
  crl : Fin ncr → Ext F
  cru : Fin ncr → Ext F
  K : ℕ
  tf : F
  warmstart : Bool
  Kmesh : ℕ

/-- The members of `MPC` (mpc.hpp:606-635): the shared pointers are numbers of cells, the functors of `ocp_` are flattened. -/
structure Obj (T F σ X U : Type*) (nx nu ncr : ℕ) where
  xp : ℕ
  up : ℕ
  mesh : Mesh F
  args : Args T F X U nx nu ncr
  xfDes : X
  Qtf : Fin nx → Fin nx → F
  thetaH : Sp F
  Q : Fin nx → Fin nx → F
  R : Fin nu → Fin nu → F
  gH : Sp F
  ft0 : T
  crt0 : T
  x0fix : X
  work : Work F
  qp : QPD F
  solver : σ
  warm : Option (QSol F)

/-- What `operator()` returns: the input and the code, `u_traj`, `x_traj`. -/
structure Out (X U : Type*) where
  u : U
  code : Status
  uTraj : List U
  xTraj : List X

section

variable [Field F] [LinearOrder F]

/-! ### The functors of the internal problem -/

/-- `M(i, j)` for a fixed-size matrix; out of range is undefined. -/
def entryAt {n : ℕ} (M : Fin n → Fin n → F) (i j : ℕ) : Option F :=
  if h : i < n ∧ j < n then some (M ⟨i, h.1⟩ ⟨j, h.2⟩) else none

/-- The double loops of the Hessians (mpc.hpp:110-114, 214-223): where `cond(i, j) != 0`, write `val(i, j)`. -/
def writeLoop (cond val : ℕ → ℕ → Option F) (off : ℕ) : List (ℕ × ℕ) → Sp F → Option (Sp F)
  | [], A => some A
  | (i, j) :: l, A =>
    match cond i j with
    | none => none
    | some c =>
      if c ≠ 0 then
        match val i j with
        | none => none
        | some v =>
          match A.update (off + i) (off + j) (fun _ => v) with
          | none => none
          | some B => writeLoop cond val off l B
      else writeLoop cond val off l A

/-- The pairs of a double loop. -/
def pairs (n : ℕ) : List (ℕ × ℕ) := (List.range n).flatMap fun i => (List.range n).map fun j => (i, j)

/-- `MPCObj::hessian` (mpc.hpp:103-118) on the buffer `hess`. -/
def thetaHess (Qtf : Fin nx → Fin nx → F) (hess : Sp F) : Option (Sp F) :=
  writeLoop (entryAt Qtf) (entryAt Qtf) 1 (pairs nx) (setZero hess)

/-- `MPCIntegrand::hessian` (mpc.hpp:206-227) on the buffer `hess`; the condition of the second loop reads `Q`. -/
def gHess (Q : Fin nx → Fin nx → F) (R : Fin nu → Fin nu → F) (hess : Sp F) : Option (Sp F) :=
  (writeLoop (entryAt Q) (entryAt Q) 1 (pairs nx) (setZero hess)).bind fun A =>
  writeLoop (entryAt Q) (entryAt R) (1 + nx) (pairs nu) A

/-- `if constexpr (requires { fvar.set_time(tvar); }) f.set_time(plus(t0, t))` (mpc.hpp:137, 144, 250, 257). -/
def timeOf {n : ℕ} (plus : T → F → T) (f : UFn T F X U nx nu n) (t0 : T) (t : F) : Option T :=
  if f.timed then some (plus t0 t) else none

/-- The derivative `df` with respect to `(x, u)`. -/
def dfAt {n : ℕ} (f : UFn T F X U nx nu n) (t : Option T) (x : X) (u : U) (r c : ℕ) : F :=
  if c < nx then ext (fun k => ext (f.dx t x u k) c) r else ext (fun k => ext (f.du t x u k) (c - nx)) r

/-- `MPCDyn` (mpc.hpp:124-152): the Jacobian is `[0, df]`. -/
def dynFn (plus : T → F → T) (f : UFn T F X U nx nu nx) (t0 : T) : GFn X U F nx where
  val t x u := f.val (timeOf plus f t0 t) x u
  jac t x u := dense nx (1 + nx + nu) fun r c => if c < 1 then 0 else dfAt f (timeOf plus f t0 t) x u r (c - 1)
  hess _ _ _ := Sp.empty (1 + nx + nu) (nx * (1 + nx + nu))

/-- `MPCCR` (mpc.hpp:233-265): `block_write(jac, 0, 1, df)` stores everything but the first column, whatever the buffer held. -/
def crFn (plus : T → F → T) (f : UFn T F X U nx nu ncr) (t0 : T) : GFn X U F ncr where
  val t x u := f.val (timeOf plus f t0 t) x u
  jac t x u := ⟨ncr, 1 + nx + nu, false, fun r c =>
    if r < ncr ∧ 1 ≤ c ∧ c < 1 + nx + nu then some (dfAt f (timeOf plus f t0 t) x u r (c - 1)) else none⟩
  hess _ _ _ := Sp.empty (1 + nx + nu) (ncr * (1 + nx + nu))

/-- `MPCIntegrand` (mpc.hpp:165-228) with the Hessian buffer as `hessian` left it. -/
def gFn (nx nu : ℕ) (gH : Sp F) : GFn X U F 1 where
  val _ _ _ _ := 0
  jac _ _ _ := dense 1 (1 + nx + nu) fun _ _ => 0
  hess _ _ _ := gH

/-- `MPCObj` (mpc.hpp:68-119) with the Hessian buffer as `hessian` left it. -/
def thetaFn (nx : ℕ) (thetaH : Sp F) : GEFn X F 1 1 where
  val _ _ _ _ _ := 1
  jac _ _ _ _ := dense 1 (1 + 2 * nx + 1) fun _ c => if c = 1 + 2 * nx then 1 else 0
  hess _ _ _ _ := thetaH

/-- `MPCCE` (mpc.hpp:275-302): `dr_expinv_sparse` writes the entries of the pattern, `jac.middleCols(1, Nx) = dexpinv_tmp`. -/
def ceFn (sys : Sys T F σ X U nx nu) (x0fix : X) : GEFn X F 1 nx where
  val _ x0 _ _ := sys.rminus x0 x0fix
  jac _ x0 _ _ := ⟨nx, 1 + 2 * nx + 1, false, fun r c =>
    if h : r < nx ∧ 1 ≤ c ∧ c - 1 < nx then
      if sys.pat ⟨r, h.1⟩ ⟨c - 1, h.2.2⟩ then some (sys.LX.drExpinv (sys.rminus x0 x0fix) ⟨r, h.1⟩ ⟨c - 1, h.2.2⟩) else none
    else none⟩
  hess _ _ _ _ := Sp.empty (1 + 2 * nx + 1) (nx * (1 + 2 * nx + 1))

/-- `ocp_` (mpc.hpp:409-419). -/
def Obj.ocp (sys : Sys T F σ X U nx nu) (o : Obj T F σ X U nx nu ncr) : GOCP X U F nx 1 ncr nx where
  theta := thetaFn nx o.thetaH
  f := dynFn sys.plus o.args.f o.ft0
  g := gFn nx nu o.gH
  cr := crFn sys.plus o.args.cr o.crt0
  crl := o.args.crl
  cru := o.args.cru
  ce := ceFn sys o.x0fix
  cel _ := .fin 0
  ceu _ := .fin 0

/-- `XDes::operator()`, `XDes::jacobian`, `UDes::operator()` (mpc.hpp:29-39, 51-55) as the linearisation. -/
def linOf (plus : T → F → T) (xc : XCell T F X nx) (uc : UCell T U) : GLin X U F nx where
  x t := xc.xdes (plus xc.t0 t)
  dx t := xc.dxdes (plus xc.t0 t)
  u t := uc.udes (plus uc.t0 t)

/-! ### The object -/

/-- The identity matrix, the default weight (mpc.hpp:75, 175-176). -/
def eye (n : ℕ) : Fin n → Fin n → F := fun i j => if i = j then 1 else 0

/-- The cells that the constructor makes (mpc.hpp:407). -/
def newX (sys : Sys T F σ X U nx nu) : XCell T F X nx := ⟨sys.t00, fun _ => sys.dfltX, fun _ _ => 0⟩
def newU (sys : Sys T F σ X U nx nu) : UCell T U := ⟨sys.t00, fun _ => sys.dfltU⟩

/-- The constructor (mpc.hpp:405-425); the new cells have the numbers `xp` and `up`. -/
def Obj.new (sys : Sys T F σ X U nx nu) (a : Args T F X U nx nu ncr) (xp up : ℕ) : Option (Obj T F σ X U nx nu ncr) :=
  if a.Kmesh = 0 then none
  else
    (uniform a.Kmesh a.Kmesh ((a.K + a.Kmesh - 1) / a.Kmesh) a.Kmesh).bind fun mesh =>
    (thetaHess (eye nx) (Sp.empty (1 + 2 * nx + 1) (1 + 2 * nx + 1))).bind fun thetaH =>
    (gHess (eye nx) (eye nu) (Sp.empty (1 + nx + nu) (1 + nx + nu))).bind fun gH =>
    let o : Obj T F σ X U nx nu ncr :=
      { xp := xp, up := up, mesh := mesh, args := a, xfDes := sys.dfltX, Qtf := eye nx, thetaH := thetaH, Q := eye nx, R := eye nu,
        gH := gH, ft0 := sys.t00, crt0 := sys.t00, x0fix := sys.dfltX, work := ⟨freshMV, freshMV⟩,
        qp := ⟨Sp.empty 0 0, ⟨0, fun _ => 0⟩, Sp.empty 0 0 true, ⟨0, fun _ => .fin 0⟩, ⟨0, fun _ => .fin 0⟩⟩,
        solver := sys.solver.init, warm := none }
    (allocateG nu sys.dfltX sys.dfltU sys.env mesh (o.ocp sys) o.work).bind fun s =>
    (updateG nu sys.env mesh sys.LX sys.comm (o.ocp sys) a.tf (linOf sys.plus (newX sys) (newU sys)) s).bind fun s' =>
    (sys.solver.analyze s'.1 o.solver).map fun st => { o with qp := s'.1, work := s'.2, solver := st }

/-- The first part of `operator()` (mpc.hpp:473-488), after `xdes_->t0` and `udes_->t0` have been set: the program is updated. -/
def Obj.transcribe (sys : Sys T F σ X U nx nu) (o : Obj T F σ X U nx nu ncr) (xc : XCell T F X nx) (uc : UCell T U) (t : T) (x : X) :
    Option (Obj T F σ X U nx nu ncr) :=
  let lin := linOf sys.plus xc uc
  let o := { o with xfDes := lin.x o.args.tf, ft0 := t, crt0 := t, x0fix := x }
  (updateDynG nu sys.env o.mesh sys.LX sys.comm (o.ocp sys) o.args.tf lin (o.qp, o.work)).bind fun s =>
  (if o.args.cr.timed then updateCrG nu sys.env o.mesh (o.ocp sys) o.args.tf lin s else some s).bind fun s =>
  (updateCeG o.mesh (o.ocp sys) o.args.tf lin s).map fun s => { o with qp := s.1, work := s.2 }

/-- `primal.segment<n>(b)`. -/
def seg (v : Vec F) (b n : ℕ) : Option (Fin n → F) := if b + n ≤ v.size then some fun k => v.val (b + k) else none

/-- One element after another, as far as all are defined. -/
def collect {α : Type*} : List (Option α) → Option (List α)
  | [] => some []
  | none :: _ => none
  | some a :: l => (collect l).map (a :: ·)

/-- The loop that fills a trajectory (mpc.hpp:494-500, 501-507). -/
def trajOf {G : Type*} {n : ℕ} (env : Mesh.Env F) (m : Mesh F) (tf : F) (L : LieOps G F n) (des : F → G) (primal : Vec F) (b N : ℕ) :
    Option (List G) :=
  collect (((List.range N).zip (allNodes env m)).map fun it => (seg primal (b + it.1 * n) n).map fun d => L.rplus (des (tf * it.2)) d)

/-- Whether the solution is kept (mpc.hpp:512). -/
def keeps (c : Status) : Bool := c = .optimal ∨ c = .maxTime ∨ c = .maxIterations

/-- `operator()` (mpc.hpp:458-519) on an object and its cells. -/
def Obj.call (sys : Sys T F σ X U nx nu) (o : Obj T F σ X U nx nu ncr) (xc : XCell T F X nx) (uc : UCell T U) (t : T) (x : X) :
    Option (XCell T F X nx × UCell T U × Obj T F σ X U nx nu ncr × Out X U) :=
  let xc := { xc with t0 := t }
  let uc := { uc with t0 := t }
  let lin := linOf sys.plus xc uc
  let N := nColloc o.mesh
  let xvarL := nx * (N + 1)
  (o.transcribe sys xc uc t x).bind fun o =>
  (sys.solver.solve o.qp o.warm o.solver).bind fun r =>
  (trajOf sys.env o.mesh o.args.tf sys.LU lin.u r.1.primal xvarL N).bind fun uTraj =>
  (trajOf sys.env o.mesh o.args.tf sys.LX lin.x r.1.primal 0 (N + 1)).bind fun xTraj =>
  (seg r.1.primal xvarL nu).map fun d =>
    (xc, uc, { o with solver := r.2, warm := if o.args.warmstart ∧ keeps r.1.code then some r.1 else o.warm },
      ⟨sys.LU.rplus (lin.u 0) d, r.1.code, uTraj, xTraj⟩)

/-- `set_weights` (mpc.hpp:593-598). -/
def Obj.setWeights (o : Obj T F σ X U nx nu ncr) (Q Qtf : Fin nx → Fin nx → F) (R : Fin nu → Fin nu → F) : Obj T F σ X U nx nu ncr :=
  { o with R := R, Q := Q, Qtf := Qtf }

/-- `reset_warmstart` (mpc.hpp:603). -/
def Obj.reset (o : Obj T F σ X U nx nu ncr) : Obj T F σ X U nx nu ncr := { o with warm := none }

/-- Defaulted copy construction and assignment (mpc.hpp:438, 442): member by member, so the pointers are shared. -/
def Obj.copy (sys : Sys T F σ X U nx nu) (o : Obj T F σ X U nx nu ncr) : Obj T F σ X U nx nu ncr := { o with solver := sys.solver.copy o.solver }

/-- The function that `set_udes_rel` and `set_xdes_rel` store (mpc.hpp:541-544, 577-580). -/
def relDes {G : Type*} (minus : T → T → F) (f : F → G) (t0 : T) : T → G := fun t => f (minus t t0)

/-! ### A program with several objects -/

/-- The objects and the cells that they point to. -/
structure World (T F σ X U : Type*) (nx nu ncr : ℕ) where
  xs : List (XCell T F X nx)
  us : List (UCell T U)
  objs : List (Obj T F σ X U nx nu ncr)

/-- Calls of the program: `copy i` makes a new object from object `i`, `assign i j` assigns object `j` to object `i`. -/
inductive Op (T F X U : Type*) (nx nu ncr : ℕ) where
  | new (a : Args T F X U nx nu ncr)
  | copy (i : ℕ)
  | assign (i j : ℕ)
  | call (i : ℕ) (t : T) (x : X)
  | setX (i : ℕ) (xdes : T → X) (dxdes : T → Fin nx → F)
  | setU (i : ℕ) (udes : T → U)
  | setW (i : ℕ) (Q Qtf : Fin nx → Fin nx → F) (R : Fin nu → Fin nu → F)
  | reset (i : ℕ)

/-- `set_xdes_rel(f, t0)` (mpc.hpp:574-588); `df` is `std::get<1>(diff::dr<1, DT>(f, wrt(t_rel)))`. -/
def Op.setXRel (minus : T → T → F) (i : ℕ) (f : F → X) (df : F → Fin nx → F) (t0 : T) : Op T F X U nx nu ncr :=
  .setX i (relDes minus f t0) (relDes minus df t0)

/-- `set_udes_rel(f, t0)` (mpc.hpp:538-545). -/
def Op.setURel (minus : T → T → F) (i : ℕ) (f : F → U) (t0 : T) : Op T F X U nx nu ncr := .setU i (relDes minus f t0)

/-- One call: the world afterwards and what `operator()` returned. -/
def World.step (sys : Sys T F σ X U nx nu) (w : World T F σ X U nx nu ncr) : Op T F X U nx nu ncr → Option (World T F σ X U nx nu ncr × Option (Out X U))
  | .new a =>
    (Obj.new sys a w.xs.length w.us.length).map fun o => (⟨w.xs ++ [newX sys], w.us ++ [newU sys], w.objs ++ [o]⟩, none)
  | .copy i => w.objs[i]?.map fun o => ({ w with objs := w.objs ++ [o.copy sys] }, none)
  | .assign i j =>
    w.objs[i]?.bind fun _ => w.objs[j]?.map fun o => ({ w with objs := w.objs.set i (o.copy sys) }, none)
  | .call i t x =>
    w.objs[i]?.bind fun o => w.xs[o.xp]?.bind fun xc => w.us[o.up]?.bind fun uc => (o.call sys xc uc t x).map fun r =>
      (⟨w.xs.set o.xp r.1, w.us.set o.up r.2.1, w.objs.set i r.2.2.1⟩, some r.2.2.2)
  | .setX i xd dxd =>
    w.objs[i]?.bind fun o => w.xs[o.xp]?.map fun xc => ({ w with xs := w.xs.set o.xp { xc with xdes := xd, dxdes := dxd } }, none)
  | .setU i ud =>
    w.objs[i]?.bind fun o => w.us[o.up]?.map fun uc => ({ w with us := w.us.set o.up { uc with udes := ud } }, none)
  | .setW i Q Qtf R => w.objs[i]?.map fun o => ({ w with objs := w.objs.set i (o.setWeights Q Qtf R) }, none)
  | .reset i => w.objs[i]?.map fun o => ({ w with objs := w.objs.set i o.reset }, none)

/-- A history of calls. -/
def World.run (sys : Sys T F σ X U nx nu) : List (Op T F X U nx nu ncr) → World T F σ X U nx nu ncr → Option (World T F σ X U nx nu ncr)
  | [], w => some w
  | op :: l, w => (w.step sys op).bind fun r => World.run sys l r.1

/-- The program before any object exists. -/
def World.empty : World T F σ X U nx nu ncr := ⟨[], [], []⟩

end

end Verif.MPC
