import Verif.Model.DynError
import Verif.Props.Mesh

/-! # Evaluation, differentiation, integration and error estimate (C20, C21, C23, C66) -/

set_option linter.unusedSectionVars false

namespace Verif.Mesh

open Polynomial Matrix

section

variable {F : Type*} [Field F] [LinearOrder F] [IsStrictOrderedRing F]

theorem nBefore_eq (m : Mesh F) (i : ℕ) : nBefore m i = points (m.take i) := by
  simp [nBefore, points, foldl_add_K]

theorem spans_some {m : Mesh F} {i : ℕ} {v : Ival F} {b : F} (hi : (spans 1 m)[i]? = some (v, b)) :
    m[i]? = some v ∧ tauf m i = b := by
  rw [spans_getElem?] at hi
  cases hv : m[i]? with
  | none => simp [hv] at hi
  | some w => rw [hv] at hi; simp at hi; exact ⟨by rw [hi.1], hi.2⟩

/-- Evaluation with the extended nodes. -/
theorem eval_ext {V : Type*} [AddCommGroup V] [Module F V] {env : Env F} {m : Mesh F} {t : F} {r : List V} {p : ℕ}
    {extend : Bool} {i : ℕ} {v : Ival F} {b : F} (hf : intervalFind env m t = i) (hi : (spans 1 m)[i]? = some (v, b))
    (he : extend = true ∨ i + 1 < m.length) (x : Fin (v.K + 1) → V)
    (hx : ∀ j : Fin (v.K + 1), r[points (m.take i) + j]? = some (x j)) :
    eval env m t r p extend = some (∑ j, evalWeights (env.basis v.K fun j => nodeExt env v.K j)
      (2 * (t - v.tau0) / (b - v.tau0) - 1) p j • x j) := by
  obtain ⟨hv, hb⟩ := spans_some hi
  unfold eval
  simp only [hf, hv, hb, he, if_true]
  congr 1
  apply weightedSum_eq
  intro j
  rw [List.getElem?_drop, nBefore_eq]
  exact hx j

/-- Evaluation without the end point, in the last interval. -/
theorem eval_last {V : Type*} [AddCommGroup V] [Module F V] {env : Env F} {m : Mesh F} {t : F} {r : List V} {p : ℕ}
    {i N : ℕ} {v : Ival F} {b : F} (hf : intervalFind env m t = i) (hi : (spans 1 m)[i]? = some (v, b))
    (he : i + 1 = m.length) (hN : v.K = N + 1) (x : Fin (N + 1) → V)
    (hx : ∀ j : Fin (N + 1), r[points (m.take i) + j]? = some (x j)) :
    eval env m t r p false = some (∑ j, evalWeights (env.basis N fun j => env.node (N + 1) j)
      (2 * (t - v.tau0) / (b - v.tau0) - 1) p j • x j) := by
  obtain ⟨hv, hb⟩ := spans_some hi
  unfold eval
  simp only [hf, hv, hb, hN]
  rw [if_neg (by simp; omega)]
  congr 1
  apply weightedSum_eq
  intro j
  rw [List.getElem?_drop, nBefore_eq]
  exact hx j

theorem flatMap_getElem? {α β : Type*} (l : List α) (g : α → List β) (k : ℕ) (x : β) (h : (l.flatMap g)[k]? = some x) :
    ∃ i p j, l[i]? = some p ∧ (g p)[j]? = some x ∧ k = ((l.take i).map fun a => (g a).length).sum + j := by
  induction l generalizing k with
  | nil => simp at h
  | cons a l ih =>
    rw [List.flatMap_cons] at h
    rcases Nat.lt_or_ge k (g a).length with hk | hk
    · rw [List.getElem?_append_left hk] at h
      exact ⟨0, a, k, by simp, h, by simp⟩
    · rw [List.getElem?_append_right hk] at h
      obtain ⟨i, p, j, h1, h2, h3⟩ := ih _ h
      exact ⟨i + 1, p, j, by simpa using h1, h2, by
        rw [List.take_succ_cons, List.map_cons, List.sum_cons]; omega⟩

theorem span_ordered {Kmin Kmax : ℕ} {m : Mesh F} (hm : Valid Kmin Kmax m) {i : ℕ} {v : Ival F} {b : F}
    (hi : (spans 1 m)[i]? = some (v, b)) : v.tau0 < b ∧ b ≤ 1 ∧ 0 ≤ v.tau0 := by
  obtain ⟨h1, h2⟩ := (spans_ordered hm.increasing hm.below).1 _ (List.mem_of_getElem? hi)
  refine ⟨h1, h2, ?_⟩
  have hs := hm.starts
  have hinc := hm.increasing
  have hv := List.mem_of_getElem? (spans_some hi).1
  cases m with
  | nil => simp at hv
  | cons w m =>
    simp only [List.map_cons, List.head?_cons, Option.some.injEq] at hs
    rw [List.map_cons, List.pairwise_cons, hs] at hinc
    rcases List.mem_cons.1 hv with rfl | hv
    · exact hs.ge
    · exact (hinc.1 _ (List.mem_map_of_mem hv)).le

theorem local_coord {a b x : F} (hab : a < b) : 2 * (toMesh a b x - a) / (b - a) - 1 = x := by
  have : b - a ≠ 0 := (sub_pos.2 hab).ne'
  unfold toMesh
  field_simp
  ring

theorem local_coord_inv {a b t : F} (hab : a < b) : toMesh a b (2 * (t - a) / (b - a) - 1) = t := by
  have : b - a ≠ 0 := (sub_pos.2 hab).ne'
  unfold toMesh
  field_simp
  ring

theorem points_take_add {m : Mesh F} {i : ℕ} {v : Ival F} (hv : m[i]? = some v) : points (m.take i) + v.K ≤ points m := by
  obtain ⟨A, B, rfl, rfl⟩ := getElem?_split m i v hv
  simp [points]

theorem points_take_last {m : Mesh F} {i : ℕ} {v : Ival F} (hv : m[i]? = some v) (hl : i + 1 = m.length) :
    points (m.take i) + v.K = points m := by
  obtain ⟨A, B, rfl, rfl⟩ := getElem?_split m i v hv
  have : B = [] := by simpa using hl
  subst this
  simp [points]

/-! ## C20 -/

/-- **C20, interpolation.** With one value per mesh node, `eval` at the `k`-th node returns the `k`-th value. -/
theorem eval_interpolates {V : Type*} [AddCommGroup V] [Module F V] (env : Env F) (hB : IsLagrange env) (hS : IsSearch env)
    (Kmin Kmax : ℕ) (m : Mesh F) (hm : Valid Kmin Kmax m) (hL : ∀ K, Kmin ≤ K → K ≤ Kmax + 1 → IsLGR env K)
    (r : List V) (hr : r.length = (allNodes env m).length) (k : ℕ) (x : F) (hx : (allNodes env m)[k]? = some x) :
    eval env m x r 0 true = r[k]? := by
  have hlen : r.length = points m + 1 := by
    rw [hr, allNodes_eq env m hm.ne_nil, List.length_append, flatMap_length_localNodes]; rfl
  have hkl := (List.getElem?_eq_some_iff.1 hx).1
  rw [allNodes_eq env m hm.ne_nil] at hx
  -- common: position (i, j)
  have main : ∀ i v b (j : ℕ), (spans 1 m)[i]? = some (v, b) → j ≤ v.K → k = points (m.take i) + j →
      x = toMesh v.tau0 b (nodeExt env v.K j) → intervalFind env m x = i → eval env m x r 0 true = r[k]? := by
    intro i v b j hi hj hk hxj hf
    obtain ⟨hv, -⟩ := spans_some hi
    have hpt := points_take_add hv
    have hord := span_ordered hm hi
    have hd := hm.degree v (List.mem_of_getElem? hv)
    have hK := hL v.K hd.1 hd.2
    have hin : ∀ j : Fin (v.K + 1), points (m.take i) + j < r.length := by intro j; have := j.2; omega
    rw [eval_ext hf hi (Or.inl rfl) (fun j => r[points (m.take i) + j]'(hin j)) (fun j => List.getElem?_eq_getElem (hin j))]
    rw [hxj, local_coord hord.1]
    have hw := evalWeights_node (hB v.K _ (nodeExt_injective hK)) (⟨j, by omega⟩ : Fin (v.K + 1))
    simp only at hw
    simp only [hw, ite_smul, one_smul, zero_smul, Finset.sum_ite_eq, Finset.mem_univ, if_true]
    rw [hk, ← List.getElem?_eq_getElem]
  rcases Nat.lt_or_ge k ((spans 1 m).flatMap (localNodes env)).length with hlt | hge
  · rw [List.getElem?_append_left hlt] at hx
    obtain ⟨i, ⟨v, b⟩, j, hi, hj, hk⟩ := flatMap_getElem? _ _ _ _ hx
    have hj' := (List.getElem?_eq_some_iff.1 hj).1
    have hjK : j < v.K := by simpa [localNodes] using hj'
    have hord := span_ordered hm hi
    have hd := hm.degree v (List.mem_of_getElem? (spans_some hi).1)
    have hK := hL v.K hd.1 hd.2
    have hxv : x = toMesh v.tau0 b (nodeExt env v.K j) := by
      simp only [localNodes, List.getElem?_map, List.getElem?_range hjK, Option.map_some, Option.some.injEq] at hj
      rw [← hj, toMesh, nodeExt, if_pos hjK]
    have hb := (localNodes_bounds (p := (v, b)) hK hord.1).1 x (List.mem_of_getElem? hj)
    refine main i v b j hi hjK.le ?_ hxv ?_
    · rw [hk]
      congr 1
      have := flatMap_length_localNodes env (headOr 1 (m.drop i)) (m.take i)
      unfold points
      conv_rhs => rw [← spans_fst 1 m]
      rw [← List.map_take, List.map_map]
      congr 1
      apply List.map_congr_left
      intro p _
      simp [localNodes]
    · have h0 : 0 ≤ x := hord.2.2.trans hb.1
      have h1 : x < 1 := lt_of_lt_of_le hb.2 hord.2.1
      exact ((interval_find_correct env hS Kmin Kmax m hm x).2.2 h0 h1).2 i v b hi hb.1 hb.2
  · -- the end point
    rw [List.getElem?_append_right hge] at hx
    have hk : k = points m := by
      rw [hr] at hlen
      rw [flatMap_length_localNodes] at hge
      omega
    have hx1 : x = 1 := by
      rw [flatMap_length_localNodes, hk, Nat.sub_self] at hx
      simpa using hx.symm
    have hml : 0 < m.length := List.length_pos_of_ne_nil hm.ne_nil
    have hv : m[m.length - 1]? = some m[m.length - 1] := List.getElem?_eq_getElem _
    have htf : tauf m (m.length - 1) = 1 := by
      unfold tauf; rw [List.getElem?_eq_none (by omega)]
    have hi : (spans 1 m)[m.length - 1]? = some (m[m.length - 1], 1) := by
      rw [spans_getElem?, hv, htf]; rfl
    refine main (m.length - 1) _ 1 (m[m.length - 1].K) hi le_rfl ?_ ?_ ?_
    · rw [hk, points_take_last hv (by omega)]
    · rw [hx1, toMesh, nodeExt, if_neg (lt_irrefl _)]; ring
    · rw [hx1]; exact (interval_find_correct env hS Kmin Kmax m hm 1).2.1 le_rfl

/-- **C20, reproduction, and C66.** Let the values in the interval `[a, b)` that is looked up for `t` (any `t`) be samples of
polynomials of degree at most the interval degree. Then `eval` returns the `p`-th derivatives at `t` multiplied by
`((b - a) / 2) ^ p`; in particular for `p = 0` the value of the polynomials at `t`. -/
theorem eval_polynomial (env : Env F) (hB : IsLagrange env) (Kmin Kmax : ℕ) (m : Mesh F) (hm : Valid Kmin Kmax m)
    (hL : ∀ K, Kmin ≤ K → K ≤ Kmax + 1 → IsLGR env K) {d : ℕ} (t : F) (r : List (Fin d → F)) (p i : ℕ) (v : Ival F) (b : F)
    (hf : intervalFind env m t = i) (hi : (spans 1 m)[i]? = some (v, b)) (extend : Bool)
    (he : extend = true ∨ i + 1 < m.length) (P : Fin d → F[X]) (hP : ∀ c, (P c).natDegree ≤ v.K)
    (hr : ∀ j, j ≤ v.K → r[(((m.take i).map Ival.K).sum) + j]? = some fun c =>
      (P c).eval (v.tau0 + (b - v.tau0) / 2 * ((if j < v.K then env.node v.K j else 1) + 1))) :
    eval env m t r p extend = some fun c => ((b - v.tau0) / 2) ^ p * (derivative^[p] (P c)).eval t := by
  have hd := hm.degree v (List.mem_of_getElem? (spans_some hi).1)
  have hK := hL v.K hd.1 hd.2
  have hord := span_ordered hm hi
  rw [eval_ext hf hi he (fun j c => (P c).eval (toMesh v.tau0 b (nodeExt env v.K j)))
    (fun j => hr j (by have := j.2; omega))]
  congr 1
  funext c
  have hs := sum_evalWeights (nodeExt_injective hK) (hB v.K _ (nodeExt_injective hK)) (localPoly v.tau0 b (P c))
    ((localPoly_natDegree _ _ _).trans (hP c)) (2 * (t - v.tau0) / (b - v.tau0) - 1) p
  rw [localPoly_iterate_derivative, eval_mul, eval_C, localPoly_eval, local_coord_inv hord.1] at hs
  rw [← hs, Finset.sum_apply]
  apply Finset.sum_congr rfl
  intro j _
  simp [localPoly_eval]

/-- **C20, `extend = false`.** In the last interval the `K` collocation values alone are used: `eval` reproduces polynomials
of degree at most `K - 1` from them. -/
theorem eval_polynomial_last (env : Env F) (hB : IsLagrange env) (Kmin Kmax : ℕ) (m : Mesh F) (hm : Valid Kmin Kmax m)
    (hL : ∀ K, Kmin ≤ K → K ≤ Kmax + 1 → IsLGR env K) {d : ℕ} (t : F) (r : List (Fin d → F)) (p i : ℕ) (v : Ival F) (b : F)
    (hf : intervalFind env m t = i) (hi : (spans 1 m)[i]? = some (v, b)) (hlast : i + 1 = m.length) (hK1 : 1 ≤ v.K)
    (P : Fin d → F[X]) (hP : ∀ c, (P c).natDegree ≤ v.K - 1)
    (hr : ∀ j, j < v.K → r[(((m.take i).map Ival.K).sum) + j]? = some fun c =>
      (P c).eval (v.tau0 + (b - v.tau0) / 2 * (env.node v.K j + 1))) :
    eval env m t r p false = some fun c => ((b - v.tau0) / 2) ^ p * (derivative^[p] (P c)).eval t := by
  have hd := hm.degree v (List.mem_of_getElem? (spans_some hi).1)
  have hK := hL v.K hd.1 hd.2
  have hord := span_ordered hm hi
  obtain ⟨N, hN⟩ : ∃ N, v.K = N + 1 := ⟨v.K - 1, by omega⟩
  have hinj : Function.Injective fun j : Fin (N + 1) => env.node (N + 1) j := by rw [hN] at hK; exact node_injective hK
  rw [eval_last hf hi hlast hN (fun j c => (P c).eval (toMesh v.tau0 b (env.node (N + 1) j)))
    (fun j => by have := hr j (by have := j.2; omega); rw [hN] at this; exact this)]
  congr 1
  funext c
  have hs := sum_evalWeights hinj (hB N _ hinj) (localPoly v.tau0 b (P c))
    ((localPoly_natDegree _ _ _).trans ((hP c).trans (by omega))) (2 * (t - v.tau0) / (b - v.tau0) - 1) p
  rw [localPoly_iterate_derivative, eval_mul, eval_C, localPoly_eval, local_coord_inv hord.1] at hs
  rw [← hs, Finset.sum_apply]
  apply Finset.sum_congr rfl
  intro j _
  simp [localPoly_eval]

end

/-- **C66, negation.** The documented "derivative to evaluate" is not the derivative with respect to `t`: on a mesh of one
interval of degree one, `eval` with `p = 1` on samples of `x(t) = t` returns `1/2`, not 1. -/
theorem eval_derivative_scaled :
    ∃ r : List (Fin 1 → ℚ), eval ratEnv [⟨1, 0⟩] (1 / 3) r 1 true = some (fun _ => 1 / 2) ∧
      r[0]? = some (fun _ => 0) ∧ r[1]? = some (fun _ => 1) ∧
      eval ratEnv [⟨1, 0⟩] (1 / 3) r 0 true = some (fun _ => 1 / 3) := by
  have hm : Valid 1 1 ([⟨1, 0⟩] : Mesh ℚ) := ⟨by simp, by simp, by simp, by simp⟩
  have hf : intervalFind ratEnv [⟨1, 0⟩] (1 / 3) = 0 := by norm_num [intervalFind, ratEnv, lowEnv, List.countP_cons]
  have hr : ∀ j, j ≤ 1 → ([fun _ => 0, fun _ => 1] : List (Fin 1 → ℚ))[((([⟨1, 0⟩] : Mesh ℚ).take 0).map Ival.K).sum + j]? =
      some fun _ => (X : ℚ[X]).eval (0 + (1 - 0) / 2 * ((if j < 1 then ratEnv.node 1 j else 1) + 1)) := by
    intro j hj
    obtain rfl | rfl : j = 0 ∨ j = 1 := by omega
    · simp [ratEnv, lowEnv]
    · norm_num
  have key := fun p => eval_polynomial ratEnv ratEnv_lagrange 1 1 [⟨1, 0⟩] hm ratEnv_lgr (1 / 3) [fun _ => 0, fun _ => 1] p 0
    ⟨1, 0⟩ 1 hf rfl true (Or.inl rfl) (fun _ => X) (fun _ => by simp) hr
  refine ⟨[fun _ => 0, fun _ => 1], ?_, rfl, rfl, ?_⟩
  · rw [key 1]; simp
  · rw [key 0]; simp

section

variable {F : Type*} [Field F] [LinearOrder F] [IsStrictOrderedRing F]

/-! ## C21 -/

/-- **C21.** On an interval `[a, b)` of degree `K`, for every polynomial of degree at most `K`: node values times the
differentiation matrix are the derivatives at the collocation points; the integration matrix is the two-sided inverse of rows
`1 ..= K`; and the first value plus derivative values times the integration matrix are the node values `1 ..= K`. -/
theorem diff_int_matrices_exact (env : Env F) (hB : IsLagrange env) (K : ℕ) (hK : IsLGR env K) (a b : F) (hab : a < b) (P : F[X])
    (hP : P.natDegree ≤ K) :
    let τ : ℕ → F := fun j => a + (b - a) / 2 * ((if j < K then env.node K j else 1) + 1)
    (∀ i : Fin K, ∑ j : Fin (K + 1), P.eval (τ j) * diffmat env K a b j i = P.derivative.eval (τ i)) ∧
    (∀ (i : Fin K) (j : Fin (K + 1)), diffmat env K a b j i = diffmatScale a b * diffmatUnscaled env K j i) ∧
    intmat env K a b * (diffmat env K a b).submatrix Fin.succ id = 1 ∧
    (diffmat env K a b).submatrix Fin.succ id * intmat env K a b = 1 ∧
    (∀ j : Fin K, P.eval (τ (j + 1)) = P.eval (τ 0) + ∑ i : Fin K, P.derivative.eval (τ i) * intmat env K a b i j) := by
  intro τ
  have hτ : ∀ j, τ j = toMesh a b (nodeExt env K j) := fun j => rfl
  have hτi : ∀ i : Fin K, τ i = toMesh a b (env.node K i) := fun i => by simp [τ, toMesh]
  have hu := diffmat_isUnit hK hB hab
  refine ⟨fun i => ?_, fun i j => by rw [diffmat, diffmatScale, mul_comm], nonsing_inv_mul _ hu, mul_nonsing_inv _ hu, fun j => ?_⟩
  · rw [hτi, ← diffmat_poly hK hB hab P hP i]
    simp only [vecMul, dotProduct, hτ]
  · have h0 : τ 0 = a := by
      simp only [τ, if_pos j.pos, hK.first]; ring
    rw [hτ, intmat_poly hK hB hab P hP j, h0]
    simp only [vecMul, dotProduct, hτi]

end

/-- The hypotheses are met on the two-point rule. -/
example : IsLagrange ratEnv ∧ IsLGR ratEnv 2 ∧ ((X : ℚ[X]) ^ 2).natDegree ≤ 2 ∧ ((X : ℚ[X]) ^ 2).derivative ≠ 0 := by
  refine ⟨ratEnv_lagrange, ratEnv_lgr 2 (by norm_num) (by norm_num), by simp, ?_⟩
  simp [derivative_pow]

/-! ## C23 -/

theorem colNorm_nonneg {d : ℕ} (x : Fin d → ℝ) : 0 ≤ colNorm x := Real.sqrt_nonneg _

theorem colNorm_eq_zero {d : ℕ} (x : Fin d → ℝ) : colNorm x = 0 ↔ x = 0 := by
  rw [colNorm, Real.sqrt_eq_zero (Finset.sum_nonneg fun i _ => sq_nonneg _), Finset.sum_eq_zero_iff_of_nonneg (fun i _ => sq_nonneg _)]
  constructor
  · intro h; funext i; simpa using h i (Finset.mem_univ i)
  · rintro rfl; simp

theorem foldr_max_nonneg (l : List ℝ) : 0 ≤ l.foldr max 0 := by
  induction l with
  | nil => simp
  | cons a l ih => exact le_max_of_le_right ih

theorem foldr_max_eq_zero (l : List ℝ) (h : ∀ a ∈ l, 0 ≤ a) : l.foldr max 0 = 0 ↔ ∀ a ∈ l, a = 0 := by
  induction l with
  | nil => simp
  | cons a l ih =>
    have ih' := ih (fun b hb => h b (List.mem_cons_of_mem _ hb))
    have h1 := foldr_max_nonneg l
    have h2 := h a (by simp)
    simp only [List.foldr_cons, List.mem_cons, forall_eq_or_imp]
    rw [← ih']
    constructor
    · intro h3
      have h4 := le_max_left a (l.foldr max 0)
      have h5 := le_max_right a (l.foldr max 0)
      rw [h3] at h4 h5
      exact ⟨le_antisymm h4 h2, le_antisymm h5 h1⟩
    · rintro ⟨h3, h4⟩; rw [h3, h4]; simp

theorem maxCoeff_nonneg {k : ℕ} (x : Fin k → ℝ) : 0 ≤ maxCoeff x := foldr_max_nonneg _

theorem maxCoeff_eq_zero {k : ℕ} (x : Fin k → ℝ) (h : ∀ j, 0 ≤ x j) : maxCoeff x = 0 ↔ ∀ j, x j = 0 := by
  rw [maxCoeff, foldr_max_eq_zero]
  · simp [List.mem_ofFn]
  · intro a ha
    obtain ⟨j, rfl⟩ := (List.mem_ofFn' _ _).1 ha
    exact h j

/-- **C23, shape.** One nonnegative entry per interval. -/
theorem dyn_error_nonneg (env : Env ℝ) {d e : ℕ} (f : ℝ → (Fin d → ℝ) → (Fin e → ℝ) → (Fin d → ℝ)) (m : Mesh ℝ) (t0 tf : ℝ)
    (xfun : ℝ → Fin d → ℝ) (ufun : ℝ → Fin e → ℝ) :
    (dynError env f m t0 tf xfun ufun).length = m.length ∧ ∀ x ∈ dynError env f m t0 tf xfun ufun, 0 ≤ x := by
  refine ⟨by simp [dynError], ?_⟩
  intro x hx
  simp only [dynError, List.mem_map] at hx
  obtain ⟨i, -, rfl⟩ := hx
  cases m[i]? with
  | none => exact le_rfl
  | some v => exact maxCoeff_nonneg _

/-- **C23.** Let `P` be the polynomials of degree at most `K` (in mesh time) through the states at the nodes of interval
`[a, b)`. Its error entry is zero exactly when they satisfy the dynamics `P' = (tf - t0) f` at every collocation point; in
particular it is zero when the trajectory itself is polynomial of degree at most `K` on the interval and solves the dynamics. -/
theorem dyn_error_zero_iff (env : Env ℝ) (hB : IsLagrange env) (Kmin Kmax : ℕ) (m : Mesh ℝ) (hm : Valid Kmin Kmax m)
    (hL : ∀ K, Kmin ≤ K → K ≤ Kmax + 1 → IsLGR env K) {d e : ℕ} (f : ℝ → (Fin d → ℝ) → (Fin e → ℝ) → (Fin d → ℝ)) (t0 tf : ℝ)
    (xfun : ℝ → Fin d → ℝ) (ufun : ℝ → Fin e → ℝ) (i : ℕ) (v : Ival ℝ) (b : ℝ) (hi : (spans 1 m)[i]? = some (v, b))
    (P : Fin d → ℝ[X]) (hP : ∀ c, (P c).natDegree ≤ v.K) :
    let τ : ℕ → ℝ := fun j => v.tau0 + (b - v.tau0) / 2 * ((if j < v.K then env.node v.K j else 1) + 1)
    let t : ℕ → ℝ := fun j => t0 + (tf - t0) * τ j
    (∀ j, j ≤ v.K → ∀ c, xfun (t j) c = (P c).eval (τ j)) →
    ((dynError env f m t0 tf xfun ufun)[i]? = some 0 ↔
      ∀ j, j < v.K → ∀ c, (P c).derivative.eval (τ j) = (tf - t0) * f (t j) (xfun (t j)) (ufun (t j)) c) := by
  intro τ t hx
  obtain ⟨hv, hb⟩ := spans_some hi
  have hd := hm.degree v (List.mem_of_getElem? hv)
  have hK := hL v.K hd.1 hd.2
  have hord := span_ordered hm hi
  have hlt := (List.getElem?_eq_some_iff.1 hv).1
  have hget : (dynError env f m t0 tf xfun ufun)[i]? = some (ivalError env f v.K v.tau0 b t0 tf xfun ufun) := by
    simp only [dynError, List.getElem?_map, List.getElem?_range hlt, Option.map_some, hv, hb]
  have hu := diffmat_isUnit hK hB hord.1
  rw [hget, Option.some.injEq]
  -- the error is zero iff the estimates agree
  have hden : 0 < 1 + maxCoeff fun j : Fin v.K => colNorm (xfun (t (j + 1))) := by
    have := maxCoeff_nonneg fun j : Fin v.K => colNorm (xfun (t (j + 1)))
    linarith
  have step1 : ivalError env f v.K v.tau0 b t0 tf xfun ufun = 0 ↔
      ∀ j : Fin v.K, estimate env v.tau0 b t0 tf (xfun (t 0)) (fun i : Fin v.K => f (t i) (xfun (t i)) (ufun (t i))) j =
        xfun (t (j + 1)) := by
    change maxCoeff (fun j : Fin v.K => colNorm (estimate env v.tau0 b t0 tf (xfun (t 0))
      (fun i : Fin v.K => f (t i) (xfun (t i)) (ufun (t i))) j - xfun (t (j + 1))) /
        (1 + maxCoeff fun j : Fin v.K => colNorm (xfun (t (j + 1))))) = 0 ↔ _
    rw [maxCoeff_eq_zero _ (fun j => div_nonneg (colNorm_nonneg _) hden.le)]
    constructor
    · intro h j
      have := h j
      rw [div_eq_zero_iff, or_iff_left hden.ne', colNorm_eq_zero, sub_eq_zero] at this
      exact this
    · intro h j
      rw [h j, sub_self, (colNorm_eq_zero _).2 rfl, zero_div]
  rw [step1]
  have hint := fun c => intmat_poly hK hB hord.1 (P c) (hP c)
  have hτi : ∀ i : Fin v.K, τ i = toMesh v.tau0 b (env.node v.K i) := fun i => by simp [τ, toMesh]
  have hτ : ∀ j, τ j = toMesh v.tau0 b (nodeExt env v.K j) := fun j => rfl
  constructor
  · intro h j hj c
    have hzero : (fun i : Fin v.K => (P c).derivative.eval (toMesh v.tau0 b (env.node v.K i)) -
        (tf - t0) * f (t i) (xfun (t i)) (ufun (t i)) c) ᵥ* intmat env v.K v.tau0 b = 0 := by
      funext j
      have h1 := congrFun (h j) c
      rw [hx (j + 1) (by have := j.2; omega) c, hτ, hint c j] at h1
      have h0 : xfun (t 0) c = (P c).eval v.tau0 := by
        rw [hx 0 (Nat.zero_le _) c]
        congr 1
        simp only [τ, if_pos j.pos, hK.first]; ring
      simp only [estimate, h0, vecMul, dotProduct] at h1 ⊢
      have e : ∀ A B I : Fin v.K → ℝ, ∑ i, (A i - B i) * I i = ∑ i, A i * I i - ∑ i, B i * I i := by
        intro A B I; rw [← Finset.sum_sub_distrib]; exact Finset.sum_congr rfl fun i _ => sub_mul _ _ _
      exact (e _ _ _).trans (sub_eq_zero.2 (add_left_cancel h1).symm)
    have hmul := congrArg (fun y => y ᵥ* (diffmat env v.K v.tau0 b).submatrix (Fin.succ : Fin v.K → Fin (v.K + 1)) id) hzero
    simp only [vecMul_vecMul, intmat, nonsing_inv_mul _ hu, vecMul_one, zero_vecMul] at hmul
    have := congrFun hmul ⟨j, hj⟩
    simp only [Pi.zero_apply] at this
    rw [hτi ⟨j, hj⟩]
    linarith
  · intro h j
    funext c
    rw [hx (j + 1) (by have := j.2; omega) c, hτ, hint c j]
    have h0 : xfun (t 0) c = (P c).eval v.tau0 := by
      rw [hx 0 (Nat.zero_le _) c]
      congr 1
      simp only [τ, if_pos j.pos, hK.first]; ring
    simp only [estimate, h0, vecMul, dotProduct]
    congr 1
    apply Finset.sum_congr rfl
    intro i _
    rw [← hτi, h i i.2 c]

/-- A trajectory that solves `x' = 2 t` on a two-interval mesh, over `[0, 3]`: the error on the second interval is zero. -/
example : (dynError (lowEnv ℝ) (fun t (_ : Fin 1 → ℝ) (_ : Fin 0 → ℝ) _ => 2 * t) [⟨2, 0⟩, ⟨2, 1 / 2⟩] 0 3 (fun t _ => t ^ 2)
    (fun _ => Fin.elim0))[1]? = some 0 := by
  have h := (dyn_error_zero_iff (lowEnv ℝ) lowEnv_lagrange 1 1 [⟨2, 0⟩, ⟨2, 1 / 2⟩]
    ⟨by simp, by norm_num, by norm_num, by norm_num⟩ lowEnv_lgr (fun t (_ : Fin 1 → ℝ) (_ : Fin 0 → ℝ) _ => 2 * t) 0 3
    (fun t _ => t ^ 2) (fun _ => Fin.elim0) 1 ⟨2, 1 / 2⟩ 1 rfl (fun _ => 9 * X ^ 2)
    (fun _ => by rw [show (9 : ℝ[X]) = C 9 from rfl]; exact natDegree_C_mul_X_pow_le 9 2)
    (fun j _ c => by simp; ring)).2
  apply h
  intro j _ c
  simp [derivative_pow]
  ring

end Verif.Mesh
