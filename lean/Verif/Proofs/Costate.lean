import Verif.Spec.Costate
import Verif.Proofs.MeshFnSlope
import Verif.Proofs.MeshNodes

/-! # Summation by parts on a mesh -/

set_option linter.unusedSectionVars false

namespace Verif.MeshFn

open Verif.Mesh Verif.Sparse Polynomial Matrix

theorem localWeights_length (env : Env ℝ) (p : Ival ℝ × ℝ) : (localWeights env p).length = p.1.K := by simp [localWeights]

theorem slope_zero (env : Env ℝ) (r : List (Ival ℝ × ℝ)) (i : ℕ) : slope env r (fun _ => 0) i = 0 := by
  induction r generalizing i with
  | nil => rfl
  | cons p r ih =>
    obtain ⟨v, b⟩ := p
    rw [slope]
    split_ifs with h
    · simp
    · exact ih _

/-- The rule of one interval as a sum. -/
theorem local_quad_sum {env : Env ℝ} {p : Ival ℝ × ℝ} (hK : IsLGR env p.1.K) (P : ℝ[X]) (hP : P.natDegree ≤ 2 * p.1.K - 1) :
    ∑ i ∈ Finset.range p.1.K, (localWeights env p).getD i 0 * P.derivative.eval ((localNodes env p).getD i 0) =
      P.eval p.2 - P.eval p.1.tau0 := by
  rw [← local_quad hK P hP, localNodes, localWeights, List.zip_map', List.map_map]
  have : ∀ f : ℕ → ℝ, ((List.range p.1.K).map f).sum = ∑ j ∈ Finset.range p.1.K, f j := fun f => rfl
  rw [this]
  refine Finset.sum_congr rfl fun i hi => ?_
  have hi' := Finset.mem_range.1 hi
  simp [List.getD_eq_getElem?_getD, List.getElem?_map, List.getElem?_range hi']

/-- Summation by parts in one interval. -/
theorem local_parts {env : Env ℝ} {p : Ival ℝ × ℝ} (hK : IsLGR env p.1.K) (P Λ : ℝ[X]) (hP : P.natDegree ≤ p.1.K)
    (hΛ : Λ.natDegree < p.1.K) :
    ∑ i ∈ Finset.range p.1.K, (localWeights env p).getD i 0 *
        (Λ.eval ((localNodes env p).getD i 0) * P.derivative.eval ((localNodes env p).getD i 0)) =
      Λ.eval p.2 * P.eval p.2 - Λ.eval p.1.tau0 * P.eval p.1.tau0 -
        ∑ i ∈ Finset.range p.1.K, (localWeights env p).getD i 0 *
          (Λ.derivative.eval ((localNodes env p).getD i 0) * P.eval ((localNodes env p).getD i 0)) := by
  have h := local_quad_sum (p := p) hK (Λ * P) (natDegree_mul_le.trans (by omega))
  rw [eval_mul, eval_mul] at h
  rw [← h, ← Finset.sum_sub_distrib]
  refine Finset.sum_congr rfl fun i _ => ?_
  rw [derivative_mul, eval_add, eval_mul, eval_mul]
  ring

/-- Summation by parts: the derivative of `Σ_i w_i λ_i x'(τ_i)` by the value of `x` at a node. `R`, `L` and `D` are the values of the
pieces from the right and from the left, and their slopes from the right. -/
theorem by_parts {env : Env ℝ} (hB : IsLagrange env) {b : ℝ} {m : Mesh ℝ} (hi : (m.map Ival.tau0).Pairwise (· < ·))
    (hb : ∀ v ∈ m, v.tau0 < b) (hL : ∀ v ∈ m, 1 ≤ v.K ∧ IsLGR env v.K) (Λ : Ival ℝ × ℝ → ℝ[X])
    (hΛ : ∀ p ∈ spans b m, (Λ p).natDegree < p.1.K) (R L D : ℝ → ℝ)
    (hR : ∀ p ∈ spans b m, ∀ x, p.1.tau0 ≤ x → x < p.2 → R x = (Λ p).eval x)
    (hLe : ∀ p ∈ spans b m, ∀ x, p.1.tau0 < x → x ≤ p.2 → L x = (Λ p).eval x)
    (hD : ∀ p ∈ spans b m, ∀ x, p.1.tau0 ≤ x → x < p.2 → D x = (Λ p).derivative.eval x) (j : ℕ) (hj : j ≤ points m) :
    ∑ i ∈ Finset.range (points m), ((spans b m).flatMap (localWeights env)).getD i 0 *
        (R (((spans b m).flatMap (localNodes env) ++ [b]).getD i 0) * slope env (spans b m) (fun k => if k = j then 1 else 0) i) =
      (if 0 < j then L (((spans b m).flatMap (localNodes env) ++ [b]).getD j 0) else 0) -
        if j < points m then R (((spans b m).flatMap (localNodes env) ++ [b]).getD j 0) +
          ((spans b m).flatMap (localWeights env)).getD j 0 * D (((spans b m).flatMap (localNodes env) ++ [b]).getD j 0) else 0 := by
  induction m generalizing j with
  | nil => 
    have : j = 0 := by simpa [points] using hj
    simp [points, this]
  | cons v m ih =>
    have hsp : spans b (v :: m) = (v, headOr b m) :: spans b m := by cases m <;> simp [spans, headOr]
    obtain ⟨hK, hv⟩ := hL v (by simp)
    have hp : v.tau0 < headOr b m := by
      have := (spans_ordered hi hb).1 (v, headOr b m) (by rw [hsp]; simp)
      exact this.1
    have hmem : (v, headOr b m) ∈ spans b (v :: m) := by rw [hsp]; simp
    have hpts : points (v :: m) = v.K + points m := by simp [points]
    have hlen := localNodes_length env (v, headOr b m)
    have hwlen := localWeights_length env (v, headOr b m)
    have hnode : ∀ k, k < v.K → ((spans b (v :: m)).flatMap (localNodes env) ++ [b]).getD k 0 =
        (localNodes env (v, headOr b m)).getD k 0 := by
      intro k hk
      rw [hsp, List.flatMap_cons, List.append_assoc, getD_append_left _ _ _ (by rw [hlen]; exact hk)]
    have hnext : ∀ k, ((spans b (v :: m)).flatMap (localNodes env) ++ [b]).getD (v.K + k) 0 =
        ((spans b m).flatMap (localNodes env) ++ [b]).getD k 0 := by
      intro k
      rw [hsp, List.flatMap_cons, List.append_assoc, getD_append_right' _ _ _ (by rw [hlen]; simp), hlen]
      simp
    have hwt : ∀ k, k < v.K → ((spans b (v :: m)).flatMap (localWeights env)).getD k 0 = (localWeights env (v, headOr b m)).getD k 0 := by
      intro k hk
      rw [hsp, List.flatMap_cons, getD_append_left _ _ _ (by rw [hwlen]; exact hk)]
    have hwnext : ∀ k, ((spans b (v :: m)).flatMap (localWeights env)).getD (v.K + k) 0 =
        ((spans b m).flatMap (localWeights env)).getD k 0 := by
      intro k
      rw [hsp, List.flatMap_cons, getD_append_right' _ _ _ (by rw [hwlen]; simp), hwlen]
      simp
    have hbound : ∀ k, k < v.K → v.tau0 ≤ (localNodes env (v, headOr b m)).getD k 0 ∧
        (localNodes env (v, headOr b m)).getD k 0 < headOr b m := by
      intro k hk
      rw [localNodes_getD _ _ hk]
      apply (localNodes_bounds (p := (v, headOr b m)) hv hp).1
      simp only [localNodes, List.mem_map, List.mem_range]
      exact ⟨k, hk, rfl⟩
    have hfirst : (localNodes env (v, headOr b m)).getD 0 0 = v.tau0 := by
      rw [localNodes_getD _ _ hK, toMesh, hv.first]; ring
    have hlt : ∀ k, 0 < k → k < v.K → v.tau0 < (localNodes env (v, headOr b m)).getD k 0 := by
      intro k hk hkK
      rw [← hfirst, localNodes_getD _ _ hK, localNodes_getD _ _ hkK, toMesh, toMesh]
      have := hv.increasing 0 k hk hkK
      have h2 : 0 < (headOr b m - v.tau0) / 2 := by linarith
      have := mul_lt_mul_of_pos_left this h2
      simp only
      linarith
    have hi' : (m.map Ival.tau0).Pairwise (· < ·) := by
      rw [List.map_cons, List.pairwise_cons] at hi; exact hi.2
    have sub : ∀ p ∈ spans b m, p ∈ spans b (v :: m) := fun p hp => by rw [hsp]; exact List.mem_cons_of_mem _ hp
    -- the polynomial with the values in the first interval
    obtain ⟨P, hPd, hPv⟩ := exists_poly hv hp fun k : Fin (v.K + 1) => if (k : ℕ) = j then (1 : ℝ) else 0
    have hPn : ∀ k, k < v.K → P.eval ((localNodes env (v, headOr b m)).getD k 0) = if k = j then 1 else 0 := by
      intro k hk
      have := hPv ⟨k, by omega⟩
      simp only [nodeExt, if_pos hk] at this
      rw [localNodes_getD _ _ hk]
      exact this
    have hPe : P.eval (headOr b m) = if v.K = j then 1 else 0 := by
      have := hPv ⟨v.K, by omega⟩
      simp only [nodeExt, lt_irrefl, if_false] at this
      rw [← this]
      congr 1
      unfold toMesh; ring
    have hPs : P.eval v.tau0 = if 0 = j then 1 else 0 := by rw [← hfirst]; exact hPn 0 hK
    have hslope : ∀ i, i < v.K → slope env (spans b (v :: m)) (fun k => if k = j then 1 else 0) i =
        P.derivative.eval ((localNodes env (v, headOr b m)).getD i 0) := by
      intro i hiK
      have hd := diffmat_poly hv hB hp P hPd ⟨i, hiK⟩
      rw [localNodes_getD _ _ hiK, ← hd, hsp, slope, dif_pos hiK, vecMul, dotProduct]
      refine Finset.sum_congr rfl fun k _ => ?_
      rw [hPv k, mul_comm]
    have hslope' : ∀ i, slope env (spans b (v :: m)) (fun k => if k = j then 1 else 0) (v.K + i) =
        slope env (spans b m) (fun k => if v.K + k = j then 1 else 0) i := by
      intro i
      rw [hsp, slope, dif_neg (by omega)]
      congr 1
      omega
    have hpart := local_parts (p := (v, headOr b m)) hv P (Λ (v, headOr b m)) hPd (hΛ _ hmem)
    have hsum : ∑ i ∈ Finset.range v.K, (localWeights env (v, headOr b m)).getD i 0 *
        ((Λ (v, headOr b m)).derivative.eval ((localNodes env (v, headOr b m)).getD i 0) * P.eval ((localNodes env (v, headOr b m)).getD i 0)) =
        if j < v.K then (localWeights env (v, headOr b m)).getD j 0 * (Λ (v, headOr b m)).derivative.eval ((localNodes env (v, headOr b m)).getD j 0) else 0 := by
      have : ∀ i ∈ Finset.range v.K, (localWeights env (v, headOr b m)).getD i 0 *
          ((Λ (v, headOr b m)).derivative.eval ((localNodes env (v, headOr b m)).getD i 0) * P.eval ((localNodes env (v, headOr b m)).getD i 0)) =
          if i = j then (localWeights env (v, headOr b m)).getD i 0 * (Λ (v, headOr b m)).derivative.eval ((localNodes env (v, headOr b m)).getD i 0) else 0 := by
        intro i hi
        rw [hPn i (Finset.mem_range.1 hi)]
        split_ifs <;> simp
      rw [Finset.sum_congr rfl this, Finset.sum_ite_eq']
      simp
    simp only at hpart
    rw [hsum] at hpart
    rw [hpts, Finset.sum_range_add]
    have e1 : ∑ i ∈ Finset.range v.K, ((spans b (v :: m)).flatMap (localWeights env)).getD i 0 *
        (R (((spans b (v :: m)).flatMap (localNodes env) ++ [b]).getD i 0) * slope env (spans b (v :: m)) (fun k => if k = j then 1 else 0) i) =
        ∑ i ∈ Finset.range v.K, (localWeights env (v, headOr b m)).getD i 0 *
        ((Λ (v, headOr b m)).eval ((localNodes env (v, headOr b m)).getD i 0) * P.derivative.eval ((localNodes env (v, headOr b m)).getD i 0)) := by
      refine Finset.sum_congr rfl fun i hi => ?_
      have hi' := Finset.mem_range.1 hi
      rw [hwt i hi', hnode i hi', hslope i hi', hR _ hmem _ (hbound i hi').1 (hbound i hi').2]
    rw [e1, hpart, hPe, hPs]
    simp only [hwnext, hnext, hslope']
    by_cases hjK : j < v.K
    · have e2 : ∀ i, slope env (spans b m) (fun k => if v.K + k = j then 1 else 0) i = 0 := by
        intro i
        have : (fun k => if v.K + k = j then (1 : ℝ) else 0) = fun _ => 0 := by
          funext k; rw [if_neg (by omega)]
        rw [this]; exact slope_zero _ _ _
      simp only [e2, mul_zero, Finset.sum_const_zero, add_zero]
      rw [if_pos hjK, if_neg (by omega), if_pos (by omega : j < v.K + points m), hwt j hjK, hnode j hjK,
        hR _ hmem _ (hbound j hjK).1 (hbound j hjK).2, hD _ hmem _ (hbound j hjK).1 (hbound j hjK).2]
      rcases Nat.eq_zero_or_pos j with rfl | h0
      · rw [hfirst]; simp; ring
      · rw [if_pos h0, if_neg (by omega), hLe _ hmem _ (hlt j h0 hjK) (hbound j hjK).2.le]; simp
    · obtain ⟨k, rfl⟩ : ∃ k, j = v.K + k := ⟨j - v.K, by omega⟩
      have e3 : (fun k' => if v.K + k' = v.K + k then (1 : ℝ) else 0) = fun k' => if k' = k then 1 else 0 := by
        funext k'; congr 1; simp
      rw [e3, ih hi' (fun w hw => hb w (List.mem_cons_of_mem _ hw)) (fun w hw => hL w (List.mem_cons_of_mem _ hw))
        (fun p hp => hΛ p (sub p hp)) (fun p hp => hR p (sub p hp)) (fun p hp => hLe p (sub p hp)) (fun p hp => hD p (sub p hp)) k (by omega)]
      rw [if_neg hjK, if_neg (by omega : ¬0 = v.K + k), if_pos (by omega : 0 < v.K + k), hnext, hwnext]
      have e4 : (v.K + k < v.K + points m) = (k < points m) := by simp
      simp only [e4]
      rcases Nat.eq_zero_or_pos k with rfl | h0
      · rw [next_node (fun w hw => hL w (List.mem_cons_of_mem _ hw)), hLe _ hmem _ hp le_rfl]; simp; ring
      · rw [if_neg (by omega), if_pos h0]; simp

end Verif.MeshFn
