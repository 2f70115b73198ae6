import Verif.Model.QPSolver

/-!
# The sparse solver object over its life time (include/smooth/feedback/qp_solver.hpp)

What survives from one call to the next: the scaling members, the sparse matrix `H_` with its pattern, and the symbolic
analysis inside the LDLT object. `Env.factor` stands for the numerical factorisation; Eigen requires the pattern of
`factorize` to be that of `analyzePattern`, anything else is undefined. The remaining members (`z_`, `p_`, ...) are written before
they are read in every call (qp_solver.hpp:367-373, 436-445, 450-451, 479-483) and are left out; sizes do not change.
-/

namespace Verif.QP

open Matrix

/-- `Eigen::SparseMatrix`: `none` is not stored, `some a` is a stored coefficient. -/
abbrev SpMat (ι : Type*) (F : Type*) := ι → ι → Option F

section

variable {F : Type*} [Field F] [LinearOrder F] {n m : ℕ}

/-- `M.coeffRef(a, b) = f(M.coeffRef(a, b))`: stores the coefficient if it is not there. -/
def SpMat.modify {ι : Type*} [DecidableEq ι] (M : SpMat ι F) (a b : ι) (f : F → F) : SpMat ι F :=
  fun i j => if i = a ∧ j = b then some (f ((M a b).getD 0)) else M i j

/-- Structural nonzeros of a `QuadraticProgramSparse` (qp.hpp:61-79) in iteration order. -/
structure Pattern (n m : ℕ) where
  P : List (Fin n × Fin n)
  A : List (Fin m × Fin n)

/-- The values fit the pattern: what is not stored is zero. -/
def Pattern.Fits (t : Pattern n m) (p : Pbm F n m) : Prop :=
  (∀ i j, (i, j) ∉ t.P → p.P i j = 0) ∧ ∀ i j, (i, j) ∉ t.A → p.A i j = 0

/-- The fill loops of `solve` for sparse problems (qp_solver.hpp:381-397) on a matrix `M`. -/
def fillH (sigma : F) (t : Pattern n m) (p : Pbm F n m) (s : Scaling F n m) (rho : Fin m → F)
    (M : SpMat (Fin n ⊕ Fin m) F) : SpMat (Fin n ⊕ Fin m) F :=
  let M1 := t.P.foldl (fun M e => if e.1 ≤ e.2 then
      M.modify (.inl e.1) (.inl e.2) (fun _ => s.c * s.sx e.1 * s.sx e.2 * p.P e.1 e.2) else M) M
  let M2 := (List.finRange n).foldl (fun M i => M.modify (.inl i) (.inl i) (fun a => a + sigma)) M1
  let M3 := t.A.foldl (fun M e => M.modify (.inl e.2) (.inr e.1) (fun _ => s.sy e.1 * s.sx e.2 * p.A e.1 e.2)) M2
  (List.finRange m).foldl (fun M i => M.modify (.inr i) (.inr i) (fun _ => -1 / rho i)) M3

/-- Members of `QPSolver` that a later call reads (qp_solver.hpp:740-760, 207-214): the scaling, `H_`, whether `H_` is
compressed, and the pattern of the last `analyzePattern` (`none` while `ldlt_.first` is true). -/
structure Solver (F : Type*) (n m : ℕ) where
  sc : Scaling F n m
  H : SpMat (Fin n ⊕ Fin m) F
  compressed : Bool
  analysed : Option (Fin n ⊕ Fin m → Fin n ⊕ Fin m → Bool)

/-- The stored positions. -/
def SpMat.pattern {ι : Type*} (M : SpMat ι F) : ι → ι → Bool := fun a b => (M a b).isSome

/-- `analyze` (qp_solver.hpp:297-337): scaling members to one, `H_` emptied and uncompressed by `reserve`. The LDLT
object and its flag `first` are not touched. -/
def Solver.analyze (o : Solver F n m) : Solver F n m :=
  { o with sc := Scaling.unit, H := fun _ _ => none, compressed := false }

/-- Constructor from a problem (qp_solver.hpp:276). -/
def Solver.new : Solver F n m :=
  Solver.analyze ⟨⟨0, fun _ => 0, fun _ => 0⟩, fun _ _ => none, true, none⟩

/-- Copy or move construction or assignment from `o` (qp_solver.hpp:215-228, 278-285): the decomposition is not copied. -/
def Solver.copy (o : Solver F n m) : Solver F n m := { o with analysed := none }

/-- `H_` after the fill (qp_solver.hpp:381-399). -/
def Solver.filled (o : Solver F n m) (prm : Params F) (t : Pattern n m) (p : Pbm F n m) (s : Scaling F n m) :
    SpMat (Fin n ⊕ Fin m) F :=
  fillH prm.sigma t p s (rhoVec prm p s) (if o.compressed then fun a b => (o.H a b).map fun _ => 0 else o.H)

/-- `prepare` with the matrix taken from `H_` (qp_solver.hpp:422-433). -/
def prepareFrom (env : Env F n) (p : Pbm F n m) (H : SpMat (Fin n ⊕ Fin m) F) :
    ((Fin n ⊕ Fin m → F) → (Fin n ⊕ Fin m → F)) × Option Status :=
  match env.factor m (fun a b => (H a b).getD 0) with
  | none => (id, some .unknown)
  | some slv => (slv, precheck p)

/-- `solve` on the object, sparse case (qp_solver.hpp:343-568): the result and the object afterwards. -/
def Solver.solve (env : Env F n) (prm : Params F) (o : Solver F n m) (t : Pattern n m) (p : Pbm F n m)
    (ws : Option ((Fin n → F) × (Fin m → F))) (fuel : ℕ) : Out (Sol F n m × Solver F n m) :=
  match (if prm.scaling then scale env.sqrt p else some o.sc) with
  | none => .undef
  | some s =>
    let H := o.filled prm t p s
    let an := o.analysed.getD H.pattern
    if an ≠ H.pattern then .undef
    else
      match loop env prm p s (step prm.alpha prm.sigma p s (rhoVec prm p s) (prepareFrom env p H).1) fuel 0
          (prepareFrom env p H).2 (start p s ws) with
      | .ok (iter, ret, it) =>
        match conclude env prm p s iter ret it with
        | .ok r => .ok (r, ⟨s, H, true, some an⟩)
        | .undef => .undef
        | .timeout => .timeout
      | .undef => .undef
      | .timeout => .timeout

/-- A call on the object. -/
inductive Op (F : Type*) (n m : ℕ) where
  | analyze
  | copy
  | solve (t : Pattern n m) (p : Pbm F n m) (ws : Option ((Fin n → F) × (Fin m → F))) (fuel : ℕ)

/-- The object after a history of calls. -/
def Solver.run (env : Env F n) (prm : Params F) : Solver F n m → List (Op F n m) → Out (Solver F n m)
  | o, [] => .ok o
  | o, .analyze :: ops => Solver.run env prm o.analyze ops
  | o, .copy :: ops => Solver.run env prm o.copy ops
  | o, .solve t p ws fuel :: ops =>
    match o.solve env prm t p ws fuel with
    | .ok r => Solver.run env prm r.2 ops
    | .undef => .undef
    | .timeout => .timeout

end

end Verif.QP
