import Verif.Spec.Mesh

/-! # Specification of mesh refinement: what a finer mesh is, and which trajectory values on two meshes describe -/

namespace Verif.Mesh

section

variable {F : Type*} [Field F] [LinearOrder F]

/-- Every interval of `m'` lies in an interval of `m` of no higher degree. -/
def Finer (m m' : Mesh F) : Prop :=
  ∀ p' ∈ spans 1 m', ∃ p ∈ spans 1 m, p.1.tau0 ≤ p'.1.tau0 ∧ p'.2 ≤ p.2 ∧ p.1.K ≤ p'.1.K

/-- The values `r'` are those that the trajectory `x` has at the nodes of the mesh, without the last node if `ext` is false. -/
def SampledAt {V : Type*} (nodes : List F) (ext : Bool) (x : F → Option V) (r' : List V) : Prop :=
  r'.length + (if ext then 0 else 1) = nodes.length ∧ ∀ (k : ℕ) (t : F), k < r'.length → nodes[k]? = some t → x t = r'[k]?

/-- No interval of more than the least degree `Kmin` has to be split: an interval whose error exceeds the target has degree
`Kmin`, or the degree it is raised to is at most `Kmax`. -/
def NoSplit (Kmin Kmax : ℕ) (growth : ℕ → F → F → ℕ) (target : F) (m : Mesh F) (errs : List F) : Prop :=
  ∀ x ∈ m.zip errs, target < x.2 → x.1.K = Kmin ∨ (x.1.K + growth x.1.K x.2 target ≤ Kmax ∧ x.1.K ≤ Kmax)

end

end Verif.Mesh
