import Verif.Model.Mesh
import Verif.Model.Sparse
import Mathlib.Tactic.DeriveFintype

/-!
# Functions over a mesh (include/smooth/feedback/collocation/mesh_function.hpp)

Simplifications, repeated in DESIGN.md:
* states and inputs are vectors (`X = ℝ^nx`, `U = ℝ^nu`), as in the flattened problems these functions are used on;
* `diff::dr<Deriv>(f, wrt(t, x, u))` of the `smooth` library is the record `Fn`: value, Jacobian and Hessian at a point,
  the last two as (dense or sparse) matrices;
* one model covers `Deriv = 0, 1, 2` (the argument `d`): members that a smaller `MeshValue` does not have are left alone;
* `reserve` is invisible; `resize` of a vector leaves its contents unspecified (here: what was there);
* a failed assertion, a segment or a position out of range is the outcome `none`.
-/

namespace Verif.MeshFn

open Verif.Mesh Verif.Sparse

/-- The scalar arguments of `f(t, x, u)`. -/
inductive Arg (nx nu : ℕ) where
  | t
  | x (k : Fin nx)
  | u (k : Fin nu)
deriving DecidableEq, Fintype

/-- The point `(t, x, u)`. -/
def pt {F : Type*} {nx nu : ℕ} (t : F) (x : Fin nx → F) (u : Fin nu → F) : Arg nx nu → F
  | .t => t
  | .x k => x k
  | .u k => u k

/-- `diff::dr<2>(f, wrt(t, x, u))` (mesh_function.hpp:190, 345, 542) as a function of the point. -/
structure Fn (F : Type*) (nx nu nf : ℕ) where
  val : (Arg nx nu → F) → Fin nf → F
  jac : (Arg nx nu → F) → Sp F
  hess : (Arg nx nu → F) → Sp F

/-- A dense vector. -/
structure Vec (F : Type*) where
  size : ℕ
  val : ℕ → F

/-- `MeshValue<2>` (mesh_function.hpp:36-71). -/
structure MV (R : Type*) where
  F : Vec R
  dF : Sp R
  d2F : Sp R
  lambda : Vec R
  allocated : Bool

section

variable {F : Type*} [Field F] [LinearOrder F]

/-- `v.segment(r0, n) += g`. -/
def Vec.addSeg (v : Vec F) (r0 n : ℕ) (g : ℕ → F) : Option (Vec F) :=
  if r0 + n ≤ v.size then some ⟨v.size, fun r => if r0 ≤ r ∧ r < r0 + n then v.val r + g (r - r0) else v.val r⟩ else none

/-- `v.segment(r0, n) = g`. -/
def Vec.setSeg (v : Vec F) (r0 n : ℕ) (g : ℕ → F) : Option (Vec F) :=
  if r0 + n ≤ v.size then some ⟨v.size, fun r => if r0 ≤ r ∧ r < r0 + n then g (r - r0) else v.val r⟩ else none

/-- A short vector as a function of all indices. -/
def ext {n : ℕ} (g : Fin n → F) (j : ℕ) : F := if h : j < n then g ⟨j, h⟩ else 0

/-- `set_zero(MeshValue)` (mesh_function.hpp:79-85). -/
def MV.setZero (d : ℕ) (o : MV F) : MV F :=
  { o with
    F := ⟨o.F.size, fun _ => 0⟩
    dF := if 1 ≤ d then Sparse.setZero o.dF else o.dF
    d2F := if 2 ≤ d then Sparse.setZero o.d2F else o.d2F }

/-- The allocation blocks (mesh_function.hpp:143-178, 301-334, 478-524). -/
def MV.alloc (d numOuts numVars : ℕ) (o : MV F) : MV F :=
  if o.allocated then o
  else
    { o with
      F := ⟨numOuts, o.F.val⟩
      dF := if 1 ≤ d then Sp.empty numOuts numVars else o.dF
      d2F := if 2 ≤ d then Sp.empty numVars numVars else o.d2F
      allocated := true }

/-- `zip(iota(0u, N), m.all_nodes(), m.all_weights(), xs, us)` (mesh_function.hpp:182, 338, 534). -/
def pointList {nx nu : ℕ} (env : Env F) (m : Mesh F) (xs : List (Fin nx → F)) (us : List (Fin nu → F)) :
    List (ℕ × F × F × (Fin nx → F) × (Fin nu → F)) :=
  (List.range (nColloc m)).zip ((allNodes env m).zip ((allWeights env m).zip (xs.zip us)))

/-- One pass of a loop over the points: the value, with `Deriv ≥ 1` the Jacobian blocks, with `Deriv ≥ 2` the check of the
multiplier size and the Hessian blocks. -/
def pointStep (d numOuts : ℕ) (fop : Vec F → Option (Vec F)) (J H : List (Blk F)) (o : MV F) : Option (MV F) :=
  match fop o.F with
  | none => none
  | some F' =>
    match (if 1 ≤ d then blockAdds J o.dF else some o.dF) with
    | none => none
    | some dF' =>
      match (if 2 ≤ d then (if o.lambda.size = numOuts then blockAdds H o.d2F else none) else some o.d2F) with
      | none => none
      | some d2F' => some { o with F := F', dF := dF', d2F := d2F' }

/-- A loop that may fail. -/
def iter {α σ : Type*} (step : α → σ → Option σ) : List α → σ → Option σ
  | [], o => some o
  | a :: l, o =>
    match step a o with
    | none => none
    | some o' => iter step l o'

/-! ### mesh_eval -/

/-- The Jacobian blocks of one point (mesh_function.hpp:198-201). -/
def evalJac (nx nu nf N i : ℕ) (w tau : F) (df : Sp F) : List (Blk F) :=
  let row0 := nf * i
  let mtau := 1 - tau
  [⟨row0, 0, df.middleCols 0 1, w * mtau, false⟩,
   ⟨row0, 1, df.middleCols 0 1, w * tau, false⟩,
   ⟨row0, 2 + i * nx, df.middleCols 1 nx, w, false⟩,
   ⟨row0, 2 + nx * (N + 1) + nu * i, df.middleCols (1 + nx) nu, w, false⟩]

/-- The Hessian blocks of one point and one component (mesh_function.hpp:209-240). -/
def evalHess (nx nu N i j : ℕ) (wl tau : F) (d2f : Sp F) : List (Blk F) :=
  let mtau := 1 - tau
  let t0_d := 0
  let tf_d := 1
  let x_d := 2 + i * nx
  let u_d := 2 + (N + 1) * nx + i * nu
  let b_s := (1 + nx + nu) * j
  let t_s := 0
  let x_s := 1
  let u_s := 1 + nx
  [⟨t0_d, t0_d, d2f.block t_s (b_s + t_s) 1 1, wl * mtau * mtau, true⟩,
   ⟨t0_d, tf_d, d2f.block t_s (b_s + t_s) 1 1, wl * mtau * tau, true⟩,
   ⟨t0_d, x_d, d2f.block t_s (b_s + x_s) 1 nx, wl * mtau, true⟩,
   ⟨t0_d, u_d, d2f.block t_s (b_s + u_s) 1 nu, wl * mtau, true⟩,
   ⟨tf_d, tf_d, d2f.block t_s (b_s + t_s) 1 1, wl * tau * tau, true⟩,
   ⟨tf_d, x_d, d2f.block t_s (b_s + x_s) 1 nx, wl * tau, true⟩,
   ⟨tf_d, u_d, d2f.block t_s (b_s + u_s) 1 nu, wl * tau, true⟩,
   ⟨x_d, x_d, d2f.block x_s (b_s + x_s) nx nx, wl, true⟩,
   ⟨x_d, u_d, d2f.block x_s (b_s + u_s) nx nu, wl, true⟩,
   ⟨u_d, u_d, d2f.block u_s (b_s + u_s) nu nu, wl, true⟩]

/-- The loop body of `mesh_eval` (mesh_function.hpp:183-244). -/
def evalPoint {nx nu nf : ℕ} (d N : ℕ) (fn : Fn F nx nu nf) (t0 tf : F) (scale : Bool)
    (q : ℕ × F × F × (Fin nx → F) × (Fin nu → F)) (o : MV F) : Option (MV F) :=
  let i := q.1
  let tau := q.2.1
  let p := pt (t0 + (tf - t0) * tau) q.2.2.2.1 q.2.2.2.2
  let w := if scale then q.2.2.1 else 1
  pointStep d (nf * N) (fun v => v.setSeg (i * nf) nf (ext fun j => w * fn.val p j))
    (evalJac nx nu nf N i w tau (fn.jac p))
    ((List.range nf).flatMap fun j => evalHess nx nu N i j (w * o.lambda.val (nf * i + j)) tau (fn.hess p)) o

/-- `mesh_eval` (mesh_function.hpp:114-246). -/
def meshEval {nx nu nf : ℕ} (d : ℕ) (env : Env F) (m : Mesh F) (fn : Fn F nx nu nf) (t0 tf : F)
    (xs : List (Fin nx → F)) (us : List (Fin nu → F)) (scale : Bool) (out : MV F) : Option (MV F) :=
  let N := nColloc m
  iter (evalPoint d N fn t0 tf scale) (pointList env m xs us)
    ((out.alloc d (nf * N) (2 + nx * (N + 1) + nu * N)).setZero d)

/-! ### mesh_integrate -/

/-- The Jacobian blocks of one point, into the rows from `row0` on (mesh_function.hpp:351-361 with `row0 = 0`, and
548-560 of `mesh_dyn`, which lists the two blocks for each of `t0`, `tf` in the other order). -/
def intJac (nx nu nf N i row0 : ℕ) (w tau span : F) (fval : Fin nf → F) (df : Sp F) : List (Blk F) :=
  let mtau := 1 - tau
  [⟨row0, 0, df.middleCols 0 1, w * span * mtau, false⟩,
   ⟨row0, 0, dense nf 1 fun j _ => ext fval j, -w, false⟩,
   ⟨row0, 1, df.middleCols 0 1, w * span * tau, false⟩,
   ⟨row0, 1, dense nf 1 fun j _ => ext fval j, w, false⟩,
   ⟨row0, 2 + i * nx, df.middleCols 1 nx, w * span, false⟩,
   ⟨row0, 2 + nx * (N + 1) + nu * i, df.middleCols (1 + nx) nu, w * span, false⟩]

/-- The Hessian blocks of one point and one component (mesh_function.hpp:369-413, and 569-613 of `mesh_dyn`);
`span` is `tf - t0`. -/
def intHess (nx nu N i j : ℕ) (wl tau span : F) (df d2f : Sp F) : List (Blk F) :=
  let mtau := 1 - tau
  let b_s := (1 + nx + nu) * j
  let t_s := 0
  let x_s := 1
  let u_s := 1 + nx
  let t0_d := 0
  let tf_d := 1
  let x_d := 2 + nx * i
  let u_d := 2 + nx * (N + 1) + nu * i
  [⟨t0_d, t0_d, d2f.block t_s (b_s + t_s) 1 1, wl * span * mtau * mtau, true⟩,
   ⟨t0_d, t0_d, df.block j t_s 1 1, -wl * 2 * mtau, true⟩,
   ⟨t0_d, tf_d, d2f.block t_s (b_s + t_s) 1 1, wl * span * mtau * tau, true⟩,
   ⟨t0_d, tf_d, df.block j t_s 1 1, wl * (1 - 2 * tau), true⟩,
   ⟨t0_d, x_d, d2f.block t_s (b_s + x_s) 1 nx, wl * span * mtau, true⟩,
   ⟨t0_d, x_d, df.block j x_s 1 nx, -wl, true⟩,
   ⟨t0_d, u_d, d2f.block t_s (b_s + u_s) 1 nu, wl * span * mtau, true⟩,
   ⟨t0_d, u_d, df.block j u_s 1 nu, -wl, true⟩,
   ⟨tf_d, tf_d, d2f.block t_s (b_s + t_s) 1 1, wl * span * tau * tau, true⟩,
   ⟨tf_d, tf_d, df.block j t_s 1 1, wl * 2 * tau, true⟩,
   ⟨tf_d, x_d, d2f.block t_s (b_s + x_s) 1 nx, wl * span * tau, true⟩,
   ⟨tf_d, x_d, df.block j x_s 1 nx, wl, true⟩,
   ⟨tf_d, u_d, d2f.block t_s (b_s + u_s) 1 nu, wl * span * tau, true⟩,
   ⟨tf_d, u_d, df.block j u_s 1 nu, wl, true⟩,
   ⟨x_d, x_d, d2f.block x_s (b_s + x_s) nx nx, wl * span, true⟩,
   ⟨x_d, u_d, d2f.block x_s (b_s + u_s) nx nu, wl * span, true⟩,
   ⟨u_d, u_d, d2f.block u_s (b_s + u_s) nu nu, wl * span, true⟩]

/-- The loop body of `mesh_integrate` (mesh_function.hpp:339-418). -/
def intPoint {nx nu nf : ℕ} (d N : ℕ) (fn : Fn F nx nu nf) (t0 tf : F)
    (q : ℕ × F × F × (Fin nx → F) × (Fin nu → F)) (o : MV F) : Option (MV F) :=
  let i := q.1
  let tau := q.2.1
  let w := q.2.2.1
  let p := pt (t0 + (tf - t0) * tau) q.2.2.2.1 q.2.2.2.2
  pointStep d nf (fun v => v.addSeg 0 nf (ext fun j => w * (tf - t0) * fn.val p j))
    (intJac nx nu nf N i 0 w tau (tf - t0) (fn.val p) (fn.jac p))
    ((List.range nf).flatMap fun j => intHess nx nu N i j (w * o.lambda.val j) tau (tf - t0) (fn.jac p) (fn.hess p)) o

/-- `mesh_integrate` (mesh_function.hpp:273-419). A fresh buffer with second derivatives reserves with
`pattern.replicate(numOuts, 1).reshaped()` (mesh_function.hpp:330), of which the first `numVars` entries are read: without
outputs there are none. -/
def meshIntegrate {nx nu nf : ℕ} (d : ℕ) (env : Env F) (m : Mesh F) (fn : Fn F nx nu nf) (t0 tf : F)
    (xs : List (Fin nx → F)) (us : List (Fin nu → F)) (out : MV F) : Option (MV F) :=
  let N := nColloc m
  if out.allocated = false ∧ 2 ≤ d ∧ nf = 0 then none
  else iter (intPoint d N fn t0 tf) (pointList env m xs us) ((out.alloc d nf (2 + nx * (N + 1) + nu * N)).setZero d)

/-! ### mesh_dyn -/

/-- The body of the first loop of `mesh_dyn` (mesh_function.hpp:535-617). -/
def dynPoint {nx nu : ℕ} (d N : ℕ) (fn : Fn F nx nu nx) (t0 tf : F)
    (q : ℕ × F × F × (Fin nx → F) × (Fin nu → F)) (o : MV F) : Option (MV F) :=
  let i := q.1
  let tau := q.2.1
  let w := q.2.2.1
  let p := pt (t0 + (tf - t0) * tau) q.2.2.2.1 q.2.2.2.2
  pointStep d (nx * N) (fun v => v.addSeg (nx * i) nx (ext fun j => w * (tf - t0) * fn.val p j))
    (intJac nx nu nx N i (nx * i) w tau (tf - t0) (fn.val p) (fn.jac p))
    ((List.range nx).flatMap fun j =>
      intHess nx nu N i j (w * o.lambda.val (nx * i + j)) tau (tf - t0) (fn.jac p) (fn.hess p)) o

/-- `Dus(k, j)` of `interval_diffmat_unscaled` for degree `K`; `none` out of range. -/
def dusAt (env : Env F) (K k j : ℕ) : Option F :=
  if h : k < K + 1 ∧ j < K then some (diffmatUnscaled env K ⟨k, h.1⟩ ⟨j, h.2⟩) else none

/-- The body of the inner loops of the second part (mesh_function.hpp:631-639, 653-661): row block `idx0 + j` for the
state `x` with index `i`. -/
def dynEntry {nx : ℕ} (env : Env F) (d : ℕ) (K : ℕ) (alpha : F) (idx0 i : ℕ) (x : Fin nx → F) (jw : ℕ × F) (o : MV F) :
    Option (MV F) :=
  match dusAt env K (i - idx0) jw.1 with
  | none => none
  | some D =>
    let row0 := (idx0 + jw.1) * nx
    let coef := -jw.2 * alpha * D
    match o.F.addSeg row0 nx (ext fun k => coef * x k) with
    | none => none
    | some F' =>
      match (if 1 ≤ d then blockAddIdentity o.dF row0 (2 + nx * i) nx coef else some o.dF) with
      | none => none
      | some dF' => some { o with F := F', dF := dF' }

/-- The two identical inner loops (mesh_function.hpp:629-640, 651-662) for interval `ival`. -/
def dynAdd {nx : ℕ} (env : Env F) (d : ℕ) (m : Mesh F) (ival idx0 Nival i : ℕ) (x : Fin nx → F) (o : MV F) :
    Option (MV F) :=
  match m[ival]? with
  | none => none
  | some v =>
    iter (dynEntry env d v.K (diffmatScale v.tau0 (tauf m ival)) idx0 i x)
      ((List.range Nival).zip (intervalWeights env m ival)) o

/-- The second loop of `mesh_dyn` (mesh_function.hpp:626-664) over the remaining states, with the loop variables `ival`,
`ival_idx0`, `Nival`. -/
def dynWalk {nx : ℕ} (env : Env F) (d : ℕ) (m : Mesh F) (N : ℕ) :
    List (ℕ × (Fin nx → F)) → ℕ → ℕ → ℕ → MV F → Option (MV F)
  | [], _, _, _, o => some o
  | (i, x) :: l, ival, idx0, Nival, o =>
    if i = idx0 + Nival then
      match dynAdd env d m ival idx0 Nival i x o with
      | none => none
      | some o1 =>
        match m[ival + 1]? with
        | some v =>
          if i < N then
            match dynAdd env d m (ival + 1) (idx0 + Nival) v.K i x o1 with
            | none => none
            | some o2 => dynWalk env d m N l (ival + 1) (idx0 + Nival) v.K o2
          else dynWalk env d m N l (ival + 1) (idx0 + Nival) v.K o1
        | none =>
          if i < N then
            match dynAdd env d m (ival + 1) idx0 Nival i x o1 with
            | none => none
            | some o2 => dynWalk env d m N l (ival + 1) idx0 Nival o2
          else dynWalk env d m N l (ival + 1) idx0 Nival o1
    else if i < N then
      match dynAdd env d m ival idx0 Nival i x o with
      | none => none
      | some o1 => dynWalk env d m N l ival idx0 Nival o1
    else dynWalk env d m N l ival idx0 Nival o

/-- `mesh_dyn` (mesh_function.hpp:450-665). An empty mesh has no interval 0. -/
def meshDyn {nx nu : ℕ} (d : ℕ) (env : Env F) (m : Mesh F) (fn : Fn F nx nu nx) (t0 tf : F)
    (xs : List (Fin nx → F)) (us : List (Fin nu → F)) (out : MV F) : Option (MV F) :=
  let N := nColloc m
  match iter (dynPoint d N fn t0 tf) (pointList env m xs us)
      ((out.alloc d (nx * N) (2 + nx * (N + 1) + nu * N)).setZero d) with
  | none => none
  | some o =>
    match nCollocIval m 0 with
    | none => none
    | some K0 => dynWalk env d m N ((List.range (N + 1)).zip xs) 0 0 K0 o

end

end Verif.MeshFn
