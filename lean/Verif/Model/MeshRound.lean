import Verif.Model.Mesh

/-!
# The collocation mesh in rounded arithmetic (include/smooth/feedback/collocation/mesh.hpp)

The operations of `Verif.Model.Mesh` that compute with `double`, with every result rounded by `fl`. The LGR nodes and weights and the
real functions in `refine_errors` are the (already rounded) values of `Env`; sums of degrees are as in `Verif.Model.Mesh`.
-/

namespace Verif.Mesh

section

variable {F : Type*} [Field F] [LinearOrder F]

/-- `Mesh(n, k)` (mesh.hpp:92-103). -/
def uniformR (fl : F → F) (Kmin Kmax n k : ℕ) : Option (Mesh F) :=
  if Kmin ≤ k ∧ k ≤ Kmax + 1 then
    some (if n < 2 then [⟨k, 0⟩]
      else
        let dx := fl (1 / fl (n : F))
        (List.range n).map fun i : ℕ => ⟨k, fl (fl (i : F) * dx)⟩)
  else none

/-- The loop `while (n-- > 1)` of `refine_ph` (mesh.hpp:154-158); the first argument is `n` at the test. -/
def splitLoopR (fl : F → F) (Kmin i : ℕ) (tau0 taum : F) : ℕ → Mesh F → Mesh F
  | 0, m => m
  | 1, m => m
  | n + 2, m =>
    splitLoopR fl Kmin i tau0 taum (n + 1) (m.insertIdx (i + 1) ⟨Kmin, fl (tau0 + fl (fl ((n + 1 : ℕ) : F) * taum))⟩)

/-- `refine_ph` (mesh.hpp:143-165). With `Kmin = 0` the division (mesh.hpp:148) is undefined. -/
def refinePhR (fl : F → F) (Kmin Kmax : ℕ) (m : Mesh F) (i D : ℕ) : Option (Mesh F) :=
  match m[i]? with
  | none => none
  | some v =>
    if Kmax < D ∨ Kmax < v.K then
      if Kmin = 0 then none
      else
        let n := max 2 ((D + Kmin - 1) / Kmin)
        let tau0 := v.tau0
        let taum := fl (fl (tauf m i - tau0) / fl (n : F))
        some (splitLoopR fl Kmin i tau0 taum n m)
    else if D < v.K then some m
    else if D ≤ Kmax then some (m.set i ⟨D, v.tau0⟩)
    else some m

/-- One pass of the loop of `refine_errors` at index `i` with error `e` (mesh.hpp:178-187). -/
def refineErrorsStepR (fl : F → F) (env : Env F) (Kmin Kmax : ℕ) (target : F) (m : Mesh F) (i : ℕ) (e : F) : Option (Mesh F) :=
  match nCollocIval m i with
  | none => none
  | some Ki => if target < e then refinePhR fl Kmin Kmax m i (Ki + env.growth Ki e target) else some m

/-- The loop of `refine_errors` (mesh.hpp:178-188) over the remaining (index, error) pairs. -/
def refineErrorsLoopR (fl : F → F) (env : Env F) (Kmin Kmax : ℕ) (target : F) : List (ℕ × F) → Mesh F → Option (Mesh F)
  | [], m => some m
  | (i, e) :: r, m =>
    match refineErrorsStepR fl env Kmin Kmax target m i e with
    | none => none
    | some m' => refineErrorsLoopR fl env Kmin Kmax target r m'

/-- `refine_errors` (mesh.hpp:172-189). -/
def refineErrorsR (fl : F → F) (env : Env F) (Kmin Kmax : ℕ) (m : Mesh F) (errs : List F) (target : F) : Option (Mesh F) :=
  if m.length = errs.length then
    refineErrorsLoopR fl env Kmin Kmax target ((List.range m.length).reverse.zip errs.reverse) m
  else none

/-- One operation; `none` when it does not return normally. The other operations do not compute with `double`. -/
def stepR (fl : F → F) (env : Env F) (Kmin Kmax : ℕ) (m : Mesh F) : Op F → Option (Mesh F)
  | .refinePh i D => refinePhR fl Kmin Kmax m i D
  | .refineErrors errs target => refineErrorsR fl env Kmin Kmax m errs target
  | .setNColloc i K => setNColloc Kmin Kmax m i K
  | .increaseDegrees => some (increaseDegrees Kmax m)
  | .decreaseDegrees => some (decreaseDegrees Kmin m)

/-- A history of operations, oldest first. -/
def runR (fl : F → F) (env : Env F) (Kmin Kmax : ℕ) : Mesh F → List (Op F) → Option (Mesh F)
  | m, [] => some m
  | m, o :: os =>
    match stepR fl env Kmin Kmax m o with
    | none => none
    | some m' => runR fl env Kmin Kmax m' os

/-- `interval_nodes` (mesh.hpp:208-232). -/
def intervalNodesR (fl : F → F) (env : Env F) (m : Mesh F) (i : ℕ) : List F :=
  match m[i]? with
  | none => []
  | some v =>
    let al := fl (fl (tauf m i - v.tau0) / 2)
    (List.range (v.K + 1)).map fun j => fl (v.tau0 + fl (al * fl (nodeExt env v.K j + 1)))

/-- `interval_weights` (mesh.hpp:258-283). -/
def intervalWeightsR (fl : F → F) (env : Env F) (m : Mesh F) (i : ℕ) : List F :=
  match m[i]? with
  | none => []
  | some v =>
    let al := fl (fl (tauf m i - v.tau0) / 2)
    (List.range (v.K + 1)).map fun j => fl (al * weightExt env v.K j)

/-- `all_nodes` (mesh.hpp:241-251). -/
def allNodesR (fl : F → F) (env : Env F) (m : Mesh F) : List F :=
  (List.range m.length).flatMap fun i => (intervalNodesR fl env m i).take (nTake m i)

/-- `all_weights` (mesh.hpp:292-302). -/
def allWeightsR (fl : F → F) (env : Env F) (m : Mesh F) : List F :=
  (List.range m.length).flatMap fun i => (intervalWeightsR fl env m i).take (nTake m i)

/-- The factor `2. / (tauf - tau0)` of `interval_diffmat` and `interval_diffmat_unscaled` (mesh.hpp:331, 364); `none` is an infinite
value. -/
def diffmatScaleR (fl : F → F) (tau0 tauf : F) : Option F :=
  let w := fl (tauf - tau0)
  if w = 0 then none else some (fl (2 / w))

end

end Verif.Mesh
