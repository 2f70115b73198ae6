import Verif.Proofs.LGR
import Verif.Props.Mesh
import Verif.Props.MeshNodes
import Verif.Props.MeshPoly

/-!
# What is assumed of the external functions of the mesh can be met, for every number of points and in one way only
-/

namespace Verif.Mesh

open Polynomial

/-- **C95, existence.** Over the reals there are functions in the places of `lgr_nodes`, `lagrange_basis`,
`binary_interval_search` and the formula of `refine_errors` that meet everything assumed of them, for every number of points. -/
theorem mesh_environment_exists : ∃ env : Env ℝ, (∀ K, 1 ≤ K → IsLGR env K) ∧ IsLagrange env ∧ IsSearch env ∧ GrowthPos env ∧
    ∀ K e target, env.growth K e target = ⌊Real.log (e / target) / Real.log K + 1 + 1 / 2⌋₊ :=
  ⟨realEnv, realEnv_lgr, realEnv_lagrange, realEnv_search, realEnv_growth, fun _ _ _ => rfl⟩

/-- **C95, uniqueness.** Nodes and weights of the rule with `K` points are determined by the assumptions, so every mesh has
the same collocation points and weights for all families of rules that meet them. -/
theorem mesh_rule_unique {F : Type*} [Field F] [LinearOrder F] [IsStrictOrderedRing F] (e1 e2 : Env F) (Kmin Kmax : ℕ) (h1 : 1 ≤ Kmin)
    (m : Mesh F) (hm : Valid Kmin Kmax m) (hL1 : ∀ K, Kmin ≤ K → K ≤ Kmax + 1 → IsLGR e1 K)
    (hL2 : ∀ K, Kmin ≤ K → K ≤ Kmax + 1 → IsLGR e2 K) :
    allNodes e1 m = allNodes e2 m ∧ allWeights e1 m = allWeights e2 m := by
  have hu : ∀ v ∈ m, ∀ j, nodeExt e1 v.K j = nodeExt e2 v.K j ∧ weightExt e1 v.K j = weightExt e2 v.K j := by
    intro v hv j
    have hd := hm.degree v hv
    by_cases hj : j < v.K
    · have := lgr_unique e1 e2 v.K (h1.trans hd.1) (hL1 _ hd.1 hd.2) (hL2 _ hd.1 hd.2) j hj
      simp [nodeExt, weightExt, hj, this]
    · simp [nodeExt, weightExt, hj]
  have hi : ∀ i, intervalNodes e1 m i = intervalNodes e2 m i ∧ intervalWeights e1 m i = intervalWeights e2 m i := by
    intro i
    unfold intervalNodes intervalWeights
    cases hv : m[i]? with
    | none => exact ⟨rfl, rfl⟩
    | some v =>
      have := hu v (List.mem_of_getElem? hv)
      exact ⟨by simp only [(this _).1], by simp only [(this _).2]⟩
  exact ⟨by simp only [allNodes, (hi _).1], by simp only [allWeights, (hi _).2]⟩

/-- **C19 and C95.** Without any assumption: on every mesh, with the rules of `realEnv`. -/
theorem quadrature_integral_real (Kmin Kmax : ℕ) (h1 : 1 ≤ Kmin) (m : Mesh ℝ) (hm : Valid Kmin Kmax m) (f : ℝ[X])
    (hf : f.natDegree ≤ 2 * Kmin - 2) :
    (((allNodes realEnv m).zip (allWeights realEnv m)).map fun x => x.2 * f.eval x.1).sum = ∫ τ in (0 : ℝ)..1, f.eval τ :=
  quadrature_integral realEnv Kmin Kmax h1 m hm (fun K hK _ => realEnv_lgr K (h1.trans hK)) f hf

/-- The default degree of the optimal-control examples, five points in each of two intervals, and a polynomial of degree eight. -/
example : (((allNodes realEnv [⟨5, 0⟩, ⟨5, 1 / 2⟩]).zip (allWeights realEnv [⟨5, 0⟩, ⟨5, 1 / 2⟩])).map
    fun x => x.2 * ((X : ℝ[X]) ^ 8).eval x.1).sum = 1 / 9 := by
  have hv : Valid 5 10 ([⟨5, 0⟩, ⟨5, 1 / 2⟩] : Mesh ℝ) := by
    refine ⟨by simp, by simp, ?_, ?_⟩ <;> intro v hv <;> simp at hv <;> rcases hv with rfl | rfl <;> norm_num
  rw [quadrature_integral_real 5 10 (by norm_num) _ hv _ (by simp)]
  norm_num

/-- The two-point rule is −1, 1/3 with weights 1/2, 3/2, whatever family of rules one takes. -/
example (env : Env ℝ) (h : IsLGR env 2) : env.node 2 1 = 1 / 3 ∧ env.weight 2 1 = 3 / 2 := by
  have := lgr_unique env (lowEnv ℝ) 2 (by norm_num) h (lowEnv_lgr 2 (by norm_num) (by norm_num)) 1 (by norm_num)
  simpa [lowEnv] using this

end Verif.Mesh
