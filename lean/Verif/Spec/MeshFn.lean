import Verif.Model.MeshFn
import Verif.Spec.Mesh
import Verif.Spec.Partial

/-! # Specification of functions over a mesh -/

namespace Verif.MeshFn

open Verif.Mesh Verif.Sparse

/-- The scalar variables of a function over a mesh with `N` collocation points: `t0`, `tf`, the states `x_0 .. x_N` and the
inputs `u_0 .. u_{N-1}`. -/
inductive Var (N nx nu : ℕ) where
  | t0
  | tf
  | x (i : Fin (N + 1)) (k : Fin nx)
  | u (i : Fin N) (k : Fin nu)
deriving DecidableEq, Fintype

/-- Where a variable sits: the table in the documentation of `MeshValue` (mesh_function.hpp:27-34). -/
def Var.pos {N nx nu : ℕ} : Var N nx nu → ℕ
  | .t0 => 0
  | .tf => 1
  | .x i k => 2 + nx * i + k
  | .u i k => 2 + nx * (N + 1) + nu * i + k

/-- The number of variables. -/
def numVars (N nx nu : ℕ) : ℕ := 2 + nx * (N + 1) + nu * N

/-- The order of the arguments in `wrt(t, x, u)`. -/
def Arg.pos {nx nu : ℕ} : Arg nx nu → ℕ
  | .t => 0
  | .x k => 1 + k
  | .u k => 1 + nx + k

/-- The states and inputs of a variable assignment, as the ranges that are passed to the functions. -/
def states {N nx nu : ℕ} (z : Var N nx nu → ℝ) : List (Fin nx → ℝ) := List.ofFn fun i k => z (.x i k)
def inputs {N nx nu : ℕ} (z : Var N nx nu → ℝ) : List (Fin nu → ℝ) := List.ofFn fun i k => z (.u i k)

/-- Assumption on `diff::dr<2>` (external): the Jacobian is `nf` by `1 + nx + nu`, the Hessian consists of `nf` square blocks
side by side, and they hold the partial derivatives. -/
structure IsDr {nx nu nf : ℕ} (fn : Fn ℝ nx nu nf) : Prop where
  smooth : ∀ j, ContDiff ℝ 2 fun p => fn.val p j
  jac_rows : ∀ p, (fn.jac p).rows = nf
  jac_cols : ∀ p, (fn.jac p).cols = 1 + nx + nu
  hess_rows : ∀ p, (fn.hess p).rows = 1 + nx + nu
  hess_cols : ∀ p, (fn.hess p).cols = nf * (1 + nx + nu)
  jac_val : ∀ p (j : Fin nf) (a : Arg nx nu), (fn.jac p).val j a.pos = pd (fun p => fn.val p j) a p
  hess_val : ∀ p (j : Fin nf) (a b : Arg nx nu),
    (fn.hess p).val a.pos ((1 + nx + nu) * j + b.pos) = pd (pd (fun p => fn.val p j) a) b p

/-- The point `(t_i, x_i, u_i)` with `t_i = t0 + (tf - t0) τ_i`. -/
def nodePt {N nx nu : ℕ} (tau : ℝ) (i : Fin N) (z : Var N nx nu → ℝ) : Arg nx nu → ℝ
  | .t => z .t0 + (z .tf - z .t0) * tau
  | .x k => z (.x i.castSucc k)
  | .u k => z (.u i k)

/-- The `i`-th mesh node and quadrature weight. -/
noncomputable def tauAt (env : Env ℝ) (m : Mesh ℝ) (i : ℕ) : ℝ := (allNodes env m).getD i 0
noncomputable def wAt (env : Env ℝ) (m : Mesh ℝ) (i : ℕ) : ℝ := (allWeights env m).getD i 0

/-- `w_i f_j(t_i, x_i, u_i)`, with `w_i = 1` unless scaled. -/
noncomputable def evalSpec {nx nu nf : ℕ} (env : Env ℝ) (m : Mesh ℝ) (f : (Arg nx nu → ℝ) → Fin nf → ℝ) (scale : Bool)
    (i : Fin (nColloc m)) (j : Fin nf) (z : Var (nColloc m) nx nu → ℝ) : ℝ :=
  (if scale then wAt env m i else 1) * f (nodePt (tauAt env m i) i z) j

/-- `(tf - t0) Σ_i w_i f_j(t_i, x_i, u_i)`. -/
noncomputable def integralSpec {nx nu nf : ℕ} (env : Env ℝ) (m : Mesh ℝ) (f : (Arg nx nu → ℝ) → Fin nf → ℝ) (j : Fin nf)
    (z : Var (nColloc m) nx nu → ℝ) : ℝ :=
  (z .tf - z .t0) * ∑ i : Fin (nColloc m), wAt env m i * f (nodePt (tauAt env m i) i z) j

/-- `Σ_k D_{k,p} X_k` over the interval that contains the collocation point with index `p`: the intervals with their ends
are walked, `X` are the values at the nodes of the remaining intervals. -/
noncomputable def slope (env : Env ℝ) : List (Ival ℝ × ℝ) → (ℕ → ℝ) → ℕ → ℝ
  | [], _, _ => 0
  | (v, b) :: r, X, p =>
    if h : p < v.K then ∑ k : Fin (v.K + 1), diffmat env v.K v.tau0 b k ⟨p, h⟩ * X k
    else slope env r (fun k => X (v.K + k)) (p - v.K)

/-- The `k`-th coordinates of the states, by node index. -/
def coordAt {N nx nu : ℕ} (z : Var N nx nu → ℝ) (k : Fin nx) (i : ℕ) : ℝ := if h : i < N + 1 then z (.x ⟨i, h⟩ k) else 0

/-- The collocation defect `w_i ((tf - t0) f_k(t_i, x_i, u_i) - Σ_l D_{l,i} x_{l,k})`. -/
noncomputable def dynSpec {nx nu : ℕ} (env : Env ℝ) (m : Mesh ℝ) (f : (Arg nx nu → ℝ) → Fin nx → ℝ) (i : Fin (nColloc m))
    (k : Fin nx) (z : Var (nColloc m) nx nu → ℝ) : ℝ :=
  wAt env m i * ((z .tf - z .t0) * f (nodePt (tauAt env m i) i z) k - slope env (spans 1 m) (coordAt z k) i)

/-- A buffer that may be passed: fresh, or with the sizes of an earlier call; with second derivatives the multipliers must have
been set. -/
structure Usable (d M V : ℕ) (o : MV ℝ) : Prop where
  size : o.allocated = true → o.F.size = M
  dF_shape : o.allocated = true → 1 ≤ d → o.dF.rows = M ∧ o.dF.cols = V
  d2F_shape : o.allocated = true → 2 ≤ d → o.d2F.rows = V ∧ o.d2F.cols = V
  lambda_size : 2 ≤ d → o.lambda.size = M

/-- What a call leaves: `M` values, the one with index `r : ρ` in row `row r`, with `d ≥ 1` their partial derivatives, with
`d ≥ 2` the upper triangle of the second derivatives of `Σ_r λ_r F_r`. -/
structure Holds {N nx nu : ℕ} {ρ : Type} [Fintype ρ] (d M : ℕ) (row : ρ → ℕ) (F : ρ → (Var N nx nu → ℝ) → ℝ)
    (z : Var N nx nu → ℝ) (lambda : Vec ℝ) (o : MV ℝ) : Prop where
  allocated : o.allocated = true
  lambda_kept : o.lambda = lambda
  size : o.F.size = M
  value : ∀ r, o.F.val (row r) = F r z
  dF_shape : 1 ≤ d → o.dF.rows = M ∧ o.dF.cols = numVars N nx nu
  jac : 1 ≤ d → ∀ r (v : Var N nx nu), o.dF.val (row r) v.pos = pd (F r) v z
  d2F_shape : 2 ≤ d → o.d2F.rows = numVars N nx nu ∧ o.d2F.cols = numVars N nx nu
  hess : 2 ≤ d → ∀ v w : Var N nx nu, o.d2F.val v.pos w.pos =
    if v.pos ≤ w.pos then pd (pd (fun z => ∑ r, lambda.val (row r) * F r z) v) w z else 0

/-- The rows of a function with `n` components at every collocation point. -/
def rowOf {N n : ℕ} (r : Fin N × Fin n) : ℕ := n * r.1 + r.2

/-- Two buffers with the same numbers in them, as far as `Deriv = d` goes. -/
structure Same (d : ℕ) (o o' : MV ℝ) : Prop where
  size : o.F.size = o'.F.size
  value : ∀ r < o.F.size, o.F.val r = o'.F.val r
  dF_shape : 1 ≤ d → o.dF.rows = o'.dF.rows ∧ o.dF.cols = o'.dF.cols
  jac : 1 ≤ d → ∀ i < o.dF.rows, ∀ j < o.dF.cols, o.dF.val i j = o'.dF.val i j
  d2F_shape : 2 ≤ d → o.d2F.rows = o'.d2F.rows ∧ o.d2F.cols = o'.d2F.cols
  hess : 2 ≤ d → ∀ i < o.d2F.rows, ∀ j < o.d2F.cols, o.d2F.val i j = o'.d2F.val i j

/-- A call of one of the three functions that fills `M` rows, at some point and with some multipliers. -/
inductive Call (m : Mesh ℝ) (nx nu : ℕ) : ℕ → Type where
  | eval {nf : ℕ} (fn : Fn ℝ nx nu nf) (scale : Bool) (z : Var (nColloc m) nx nu → ℝ) (lambda : Vec ℝ) : Call m nx nu (nf * nColloc m)
  | integrate {nf : ℕ} (fn : Fn ℝ nx nu nf) (z : Var (nColloc m) nx nu → ℝ) (lambda : Vec ℝ) : Call m nx nu nf
  | dyn (fn : Fn ℝ nx nu nx) (z : Var (nColloc m) nx nu → ℝ) (lambda : Vec ℝ) : Call m nx nu (nx * nColloc m)

/-- The multipliers are stored in the buffer, then the function is called. -/
noncomputable def Call.run {m : Mesh ℝ} {nx nu M : ℕ} (d : ℕ) (env : Env ℝ) : Call m nx nu M → MV ℝ → Option (MV ℝ)
  | .eval fn scale z lambda, o => meshEval d env m fn (z .t0) (z .tf) (states z) (inputs z) scale { o with lambda := lambda }
  | .integrate fn z lambda, o => meshIntegrate d env m fn (z .t0) (z .tf) (states z) (inputs z) { o with lambda := lambda }
  | .dyn fn z lambda, o => meshDyn d env m fn (z .t0) (z .tf) (states z) (inputs z) { o with lambda := lambda }

/-- The derivatives that are used are right, and with second derivatives there is a multiplier for every row, and an integral has a row. -/
def Call.Ok {m : Mesh ℝ} {nx nu M : ℕ} (d : ℕ) : Call m nx nu M → Prop
  | .eval fn _ _ lambda => (1 ≤ d → IsDr fn) ∧ (2 ≤ d → lambda.size = M)
  | .integrate fn _ lambda => (1 ≤ d → IsDr fn) ∧ (2 ≤ d → lambda.size = M) ∧ (2 ≤ d → 1 ≤ M)
  | .dyn fn _ lambda => (1 ≤ d → IsDr fn) ∧ (2 ≤ d → lambda.size = M)

/-- A buffer that went through a list of calls. -/
noncomputable def runAll {m : Mesh ℝ} {nx nu M : ℕ} (d : ℕ) (env : Env ℝ) : List (Call m nx nu M) → MV ℝ → Option (MV ℝ)
  | [], o => some o
  | c :: l, o => (c.run d env o).bind (runAll d env l)

end Verif.MeshFn
