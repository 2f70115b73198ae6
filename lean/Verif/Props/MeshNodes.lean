import Verif.Proofs.MeshEnv
import Mathlib.Analysis.SpecialFunctions.Integrals.Basic
import Mathlib.MeasureTheory.Integral.IntervalIntegral.FundThmCalculus
import Mathlib.Analysis.Calculus.Deriv.Polynomial
import Mathlib.Topology.Algebra.Polynomial

/-! # Nodes and weights (C18, C19) -/

set_option linter.unusedSectionVars false

namespace Verif.Mesh

open Polynomial

variable {F : Type*} [Field F] [LinearOrder F] [IsStrictOrderedRing F]

/-- **C18.** `all_nodes` has `N_colloc + 1` strictly increasing entries, starting at 0 and ending at 1: for each interval
`[a, b)` in order its own nodes `a + (b - a)/2 (x_j + 1)`, `j < K`, then 1. `all_weights` has the same length: for each
interval the weights `(b - a)/2 w_j`, then 0. -/
theorem nodes_complete (env : Env F) (Kmin Kmax : ℕ) (h1 : 1 ≤ Kmin) (m : Mesh F) (hm : Valid Kmin Kmax m)
    (hL : ∀ K, Kmin ≤ K → K ≤ Kmax + 1 → IsLGR env K) :
    (allNodes env m).length = nColloc m + 1 ∧ nColloc m = (m.map Ival.K).sum ∧
    (allNodes env m).Pairwise (· < ·) ∧ (allNodes env m).head? = some 0 ∧ (allNodes env m).getLast? = some 1 ∧
    allNodes env m = ((spans 1 m).flatMap fun p =>
      (List.range p.1.K).map fun j => p.1.tau0 + (p.2 - p.1.tau0) / 2 * (env.node p.1.K j + 1)) ++ [1] ∧
    allWeights env m = ((spans 1 m).flatMap fun p =>
      (List.range p.1.K).map fun j => (p.2 - p.1.tau0) / 2 * env.weight p.1.K j) ++ [0] ∧
    (allWeights env m).length = (allNodes env m).length := by
  have hne := hm.ne_nil
  refine ⟨?_, nColloc_eq m, allNodes_pairwise hm hL, ?_, ?_, allNodes_eq env m hne, allWeights_eq env m hne, ?_⟩
  · rw [allNodes_eq env m hne, List.length_append, flatMap_length_localNodes, nColloc_eq]; rfl
  · rw [allNodes_eq env m hne]
    have hs := hm.starts
    cases m with
    | nil => exact absurd rfl hne
    | cons v m =>
      have hK := hm.degree v (by simp)
      simp only [List.map_cons, List.head?_cons, Option.some.injEq] at hs
      have hl : ∀ b, (localNodes env (v, b)).head? = some 0 := by
        intro b
        obtain ⟨k, hk⟩ : ∃ k, v.K = k + 1 := ⟨v.K - 1, by omega⟩
        have := (hL v.K hK.1 hK.2).first
        unfold localNodes
        rw [hk] at this ⊢
        rw [List.range_succ_eq_map]
        simp [this, hs]
      cases m with
      | nil => simp only [spans, List.flatMap_cons, List.flatMap_nil, List.append_nil, List.head?_append, hl]; rfl
      | cons w r => simp only [spans, List.flatMap_cons, List.head?_append, hl]; rfl
  · rw [allNodes_eq env m hne]; simp
  · rw [allNodes_eq env m hne, allWeights_eq env m hne, List.length_append, List.length_append, flatMap_length_localNodes,
      flatMap_length_localWeights]; rfl

/-- The nodes of a mesh with two intervals of degrees one and two. -/
example : allNodes ratEnv [⟨1, 0⟩, ⟨2, 1 / 4⟩] = [0, 1 / 4, 3 / 4, 1] ∧
    allWeights ratEnv [⟨1, 0⟩, ⟨2, 1 / 4⟩] = [1 / 4, 3 / 16, 9 / 16, 0] := by
  refine ⟨?_, ?_⟩ <;> norm_num [allNodes, allWeights, intervalNodes, intervalWeights, nTake, tauf, nodeExt, weightExt, ratEnv, lowEnv,
    List.range_succ]

/-- **C19.** Let `f` agree on every interval `[a, b)` with the derivative of a polynomial `P` of degree at most `2 K - 1`.
Then the weighted sum of `f` over the mesh nodes is the sum of the exact integrals `P(b) - P(a)`. -/
theorem quadrature_exact (env : Env F) (Kmin Kmax : ℕ) (m : Mesh F) (hm : Valid Kmin Kmax m)
    (hL : ∀ K, Kmin ≤ K → K ≤ Kmax + 1 → IsLGR env K) (f : F → F) (P : Ival F × F → F[X])
    (hP : ∀ p ∈ spans 1 m, (P p).natDegree ≤ 2 * p.1.K - 1)
    (hf : ∀ p ∈ spans 1 m, ∀ x, p.1.tau0 ≤ x → x < p.2 → f x = (P p).derivative.eval x) :
    (((allNodes env m).zip (allWeights env m)).map fun x => x.2 * f x.1).sum =
      ((spans 1 m).map fun p => (P p).eval p.2 - (P p).eval p.1.tau0).sum :=
  mesh_quad hm hL f P hP hf

/-- **C19, weights.** They are nonnegative and sum to one. -/
theorem weights_nonneg_sum_one (env : Env F) (Kmin Kmax : ℕ) (h1 : 1 ≤ Kmin) (m : Mesh F) (hm : Valid Kmin Kmax m)
    (hL : ∀ K, Kmin ≤ K → K ≤ Kmax + 1 → IsLGR env K) :
    (∀ w ∈ allWeights env m, 0 ≤ w) ∧ (allWeights env m).sum = 1 := by
  have hdeg : ∀ p ∈ spans 1 m, Kmin ≤ p.1.K ∧ p.1.K ≤ Kmax + 1 := fun p hp => hm.degree _ (mem_spans_fst hp)
  constructor
  · intro w hw
    rw [allWeights_eq env m hm.ne_nil, List.mem_append] at hw
    rcases hw with hw | hw
    · obtain ⟨p, hp, hw⟩ := List.mem_flatMap.1 hw
      simp only [localWeights, List.mem_map, List.mem_range] at hw
      obtain ⟨j, hj, rfl⟩ := hw
      have h2 := (spans_ordered hm.increasing hm.below).1 p hp
      have h3 := (hL p.1.K (hdeg p hp).1 (hdeg p hp).2).positive j hj
      have : 0 < (p.2 - p.1.tau0) / 2 := by linarith [h2.1]
      positivity
    · rw [List.mem_singleton.1 hw]
  · have hq := mesh_quad hm hL (fun _ => 1) (fun _ => X)
      (fun p hp => by rw [natDegree_X]; have := hdeg p hp; omega) (fun p hp x _ _ => by simp)
    have hlen : (allNodes env m).length = (allWeights env m).length := by
      rw [allNodes_eq env m hm.ne_nil, allWeights_eq env m hm.ne_nil, List.length_append, List.length_append,
        flatMap_length_localNodes, flatMap_length_localWeights]; rfl
    have he : quad (allNodes env m) (allWeights env m) (fun _ => 1) = (allWeights env m).sum := by
      unfold quad
      congr 1
      have : ∀ (xs ws : List F), xs.length = ws.length → (xs.zip ws).map (fun x => x.2 * 1) = ws := by
        intro xs
        induction xs with
        | nil => intro ws h; simp at h; simp [List.eq_nil_of_length_eq_zero h.symm]
        | cons x xs ih =>
          intro ws h
          cases ws with
          | nil => simp at h
          | cons w ws => simpa using ih ws (by simpa using h)
      exact this _ _ hlen
    rw [← he, hq]
    have ht := spans_telescope (fun x : F => x) 1 m
    rw [if_neg hm.ne_nil] at ht
    simp only [eval_X]
    rw [ht]
    have hs := hm.starts
    cases m with
    | nil => exact absurd rfl hm.ne_nil
    | cons v m => simp only [List.map_cons, List.head?_cons, Option.some.injEq] at hs; simp [headOr, hs]

/-- **C19, over the reals.** The weighted sum of a polynomial of degree at most `2 Kmin - 2` is its integral over `[0, 1]`. -/
theorem quadrature_integral (env : Env ℝ) (Kmin Kmax : ℕ) (h1 : 1 ≤ Kmin) (m : Mesh ℝ) (hm : Valid Kmin Kmax m)
    (hL : ∀ K, Kmin ≤ K → K ≤ Kmax + 1 → IsLGR env K) (f : ℝ[X]) (hf : f.natDegree ≤ 2 * Kmin - 2) :
    (((allNodes env m).zip (allWeights env m)).map fun x => x.2 * f.eval x.1).sum = ∫ τ in (0 : ℝ)..1, f.eval τ := by
  -- an antiderivative
  obtain ⟨P, hP, hdP⟩ : ∃ P : ℝ[X], P.derivative = f ∧ P.natDegree ≤ 2 * Kmin - 1 := by
    refine ⟨∑ k ∈ Finset.range (f.natDegree + 1), monomial (k + 1) (f.coeff k / (k + 1)), ?_, ?_⟩
    · conv_rhs => rw [as_sum_range f]
      rw [derivative_sum]
      apply Finset.sum_congr rfl
      intro k _
      rw [derivative_monomial]
      congr 1
      have : (k : ℝ) + 1 ≠ 0 := by positivity
      push_cast; field_simp
    · refine natDegree_sum_le_of_forall_le _ _ ?_
      intro k hk
      have := natDegree_monomial_le (f.coeff k / ((k : ℝ) + 1)) (m := k + 1)
      have := Finset.mem_range.1 hk
      omega
  change quad (allNodes env m) (allWeights env m) (fun x => f.eval x) = _
  rw [mesh_quad hm hL (fun x => f.eval x) (fun _ => P)]
  · have ht := spans_telescope (fun x => P.eval x) 1 m
    rw [if_neg hm.ne_nil] at ht
    rw [ht]
    have hs := hm.starts
    have h0 : headOr 1 m = 0 := by
      cases m with
      | nil => exact absurd rfl hm.ne_nil
      | cons v m => simpa [headOr] using hs
    rw [h0]
    symm
    apply intervalIntegral.integral_eq_sub_of_hasDerivAt (f := fun x => P.eval x) (f' := fun x => f.eval x)
    · intro x _
      have := P.hasDerivAt x
      rwa [hP] at this
    · exact (f.continuous).intervalIntegrable _ _
  · intro p hp
    have := hm.degree _ (mem_spans_fst hp)
    omega
  · intro p _ x _ _
    rw [hP]

/-- A valid two-interval mesh: the rule applied to `3 x^2` on the second interval only and 1 on the first. -/
example : Valid 1 1 ([⟨1, 0⟩, ⟨2, 1 / 4⟩] : Mesh ℚ) ∧ (∀ K, 1 ≤ K → K ≤ 1 + 1 → IsLGR ratEnv K) ∧
    (((allNodes ratEnv [⟨1, 0⟩, ⟨2, 1 / 4⟩]).zip (allWeights ratEnv [⟨1, 0⟩, ⟨2, 1 / 4⟩])).map fun x =>
      x.2 * (if x.1 < 1 / 4 then 1 else 3 * x.1 ^ 2)).sum = 1 / 4 + (1 - (1 / 4) ^ 3) := by
  refine ⟨⟨by simp, by norm_num, by norm_num, by norm_num⟩, ratEnv_lgr, ?_⟩
  norm_num [allNodes, allWeights, intervalNodes, intervalWeights, nTake, tauf, nodeExt, weightExt, ratEnv, lowEnv, List.range_succ]

end Verif.Mesh
