import Verif.Spec.SE2Ocp
import Verif.Proofs.LieZero
import Verif.Proofs.Sparse

/-! # The derivatives by hand of the problem on SE(2) (C121) -/

namespace Verif.SE2

open Verif.Sparse Verif.Lie Verif.MeshFn Verif.NLP Verif.Flatten Verif.DI Filter Topology

open scoped Matrix

/-! ### What the matrices hold -/

section

variable {F : Type*} [Field F]

theorem update_ok (A : Sp F) {i j : ℕ} (v : F) (hi : i < A.rows) (hj : j < A.cols) : ∃ B, A.update i j (fun _ => v) = some B ∧ B.rows = A.rows ∧ B.cols = A.cols ∧
    ∀ a b, B.val a b = if a = i ∧ b = j then v else A.val a b := by
  refine ⟨_, if_pos ⟨hi, hj⟩, rfl, rfl, fun a b => ?_⟩
  simp only [Sp.val]
  split_ifs <;> rfl

theorem ofMat_val {r c : ℕ} (M : Matrix (Fin r) (Fin c) F) (i : Fin r) (j : Fin c) : (ofMat M).val i j = M i j := by
  simp [ofMat]

variable {X : Type*} (P : PoseOps X F)

theorem integral_jac (t : F) (x : X) (u : Fin 2 → F) : ((integral P).jac t x u).rows = 1 ∧ ((integral P).jac t x u).cols = 8 ∧
    ((integral P).jac t x u).val 0 0 = -((P.rminus x (xdes P t) ᵥ* P.dlExpinv (P.rminus x (xdes P t))) ⬝ᵥ ![1, 0, 1 / 2, 0, 0]) ∧
    (∀ k : Fin 5, ((integral P).jac t x u).val 0 (1 + k) = P.drSq (P.rminus x (xdes P t)) k) ∧
    ∀ k : Fin 2, ((integral P).jac t x u).val 0 (6 + k) = u k := by
  set a := P.rminus x (xdes P t) with ha
  obtain ⟨A, eA, rA, cA, vA⟩ := update_ok (Sp.empty 1 8 : Sp F) (i := 0) (j := 0) (-((a ᵥ* P.dlExpinv a) ⬝ᵥ ![1, 0, 1 / 2, 0, 0])) (by simp [Sp.empty]) (by simp [Sp.empty])
  obtain ⟨B, eB, ⟨rB, cB, -⟩, vB⟩ := blockAdd_spec A 0 1 (ofMat (r := 1) fun _ j => P.drSq a j) 1 false (by rw [rA]; simp [ofMat, dense, Sp.empty]) (by rw [cA]; simp [ofMat, dense, Sp.empty])
  obtain ⟨C, eC, rC, cC, vC⟩ := update_ok B (i := 0) (j := 6) (u 0) (by rw [rB, rA]; simp [Sp.empty]) (by rw [cB, cA]; simp [Sp.empty])
  obtain ⟨D, eD, rD, cD, vD⟩ := update_ok C (i := 0) (j := 7) (u 1) (by rw [rC, rB, rA]; simp [Sp.empty]) (by rw [cC, cB, cA]; simp [Sp.empty])
  have e : (integral P).jac t x u = D := by
    simp only [integral, ← ha, set, done, List.foldlM, Option.bind_some, Option.bind_eq_bind, eA, eB, eC, eD, Option.pure_def, Option.getD_some]
  rw [e]
  have hr : (ofMat (r := 1) fun _ j => P.drSq a j).rows = 1 := rfl
  have hc : (ofMat (r := 1) fun _ j => P.drSq a j).cols = 5 := rfl
  refine ⟨by rw [rD, rC, rB, rA]; rfl, by rw [cD, cC, cB, cA]; rfl, ?_, fun k => ?_, fun k => ?_⟩
  · rw [vD, vC, vB, vA]
    simp [InBlock]
  · rw [vD, vC, vB, vA]
    have h1 : ¬ ((0 : ℕ) = 0 ∧ 1 + (k : ℕ) = 7) := by omega
    have h2 : ¬ ((0 : ℕ) = 0 ∧ 1 + (k : ℕ) = 6) := by omega
    have h3 : ¬ ((0 : ℕ) = 0 ∧ 1 + (k : ℕ) = 0) := by omega
    rw [if_neg h1, if_neg h2, if_neg h3, if_pos (by simp only [InBlock, hr, hc]; simp; omega)]
    have := ofMat_val (fun (_ : Fin 1) (j : Fin 5) => P.drSq a j) 0 k
    simp at this
    simp [this]
  · fin_cases k
    · rw [vD, vC]; simp
    · rw [vD]; simp

theorem integral_hess (t : F) (x : X) (u : Fin 2 → F) : ((integral P).hess t x u).rows = 8 ∧ ((integral P).hess t x u).cols = 8 ∧
    (∀ j, ((integral P).hess t x u).val 0 j = 0 ∧ ((integral P).hess t x u).val j 0 = 0) ∧
    (∀ i k : Fin 5, ((integral P).hess t x u).val (1 + i) (1 + k) = P.d2rSq (P.rminus x (xdes P t)) i k) ∧
    (∀ (i : Fin 5) (k : Fin 2), ((integral P).hess t x u).val (1 + i) (6 + k) = 0 ∧ ((integral P).hess t x u).val (6 + k) (1 + i) = 0) ∧
    ∀ i k : Fin 2, ((integral P).hess t x u).val (6 + i) (6 + k) = if i = k then 1 else 0 := by
  set a := P.rminus x (xdes P t) with ha
  obtain ⟨B, eB, ⟨rB, cB, -⟩, vB⟩ := blockAdd_spec (Sp.empty 8 8 : Sp F) 1 1 (ofMat (P.d2rSq a)) 1 false (by simp [ofMat, dense, Sp.empty]) (by simp [ofMat, dense, Sp.empty])
  obtain ⟨C, eC, rC, cC, vC⟩ := update_ok B (i := 6) (j := 6) 1 (by rw [rB]; simp [Sp.empty]) (by rw [cB]; simp [Sp.empty])
  obtain ⟨D, eD, rD, cD, vD⟩ := update_ok C (i := 7) (j := 7) 1 (by rw [rC, rB]; simp [Sp.empty]) (by rw [cC, cB]; simp [Sp.empty])
  have e : (integral P).hess t x u = D := by
    simp only [integral, ← ha, set, done, List.foldlM, Option.bind_some, Option.bind_eq_bind, eB, eC, eD, Option.pure_def, Option.getD_some]
  rw [e]
  have hr : (ofMat (P.d2rSq a)).rows = 5 := rfl
  have hc : (ofMat (P.d2rSq a)).cols = 5 := rfl
  refine ⟨by rw [rD, rC, rB]; rfl, by rw [cD, cC, cB]; rfl, fun j => ⟨?_, ?_⟩, fun i k => ?_, fun i k => ⟨?_, ?_⟩, fun i k => ?_⟩
  · rw [vD, vC, vB]; simp [InBlock]
  · rw [vD, vC, vB]; simp [InBlock]
  · rw [vD, vC, vB, if_neg (by omega), if_neg (by omega), if_pos (by simp only [InBlock, hr, hc]; simp; omega)]
    have := ofMat_val (P.d2rSq a) i k
    simp [this]
  · rw [vD, vC, vB, if_neg (by omega), if_neg (by omega), if_neg (by simp only [InBlock, hr, hc]; omega)]; simp
  · rw [vD, vC, vB, if_neg (by omega), if_neg (by omega), if_neg (by simp only [InBlock, hr, hc]; omega)]; simp
  · rw [vD, vC, vB]
    fin_cases i <;> fin_cases k <;> simp [InBlock, hr, hc]

theorem ce_jac (tf : F) (x0 xf : X) (q : Fin 1 → F) : ((ce P).jac tf x0 xf q).rows = 6 ∧ ((ce P).jac tf x0 xf q).cols = 12 ∧
    (∀ b, ((ce P).jac tf x0 xf q).val 0 b = if b = 0 then 1 else 0) ∧ (∀ i : Fin 5, ((ce P).jac tf x0 xf q).val (1 + i) 0 = 0) ∧
    (∀ i k : Fin 5, ((ce P).jac tf x0 xf q).val (1 + i) (1 + k) = P.drExpinv (P.log x0) i k) ∧
    ∀ (i : Fin 5) (b : ℕ), 6 ≤ b → ((ce P).jac tf x0 xf q).val (1 + i) b = 0 := by
  obtain ⟨A, eA, rA, cA, vA⟩ := update_ok (Sp.empty 6 12 : Sp F) (i := 0) (j := 0) 1 (by simp [Sp.empty]) (by simp [Sp.empty])
  obtain ⟨B, eB, ⟨rB, cB, -⟩, vB⟩ := blockAdd_spec A 1 1 (ofMat (P.drExpinv (P.log x0))) 1 false (by rw [rA]; simp [ofMat, dense, Sp.empty]) (by rw [cA]; simp [ofMat, dense, Sp.empty])
  have e : (ce P).jac tf x0 xf q = B := by
    simp only [ce, set, done, List.foldlM, Option.bind_some, Option.bind_eq_bind, eA, eB, Option.pure_def, Option.getD_some]
  have hr : (ofMat (P.drExpinv (P.log x0))).rows = 5 := rfl
  have hc : (ofMat (P.drExpinv (P.log x0))).cols = 5 := rfl
  rw [e]
  refine ⟨by rw [rB, rA]; rfl, by rw [cB, cA]; rfl, fun b => ?_, fun i => ?_, fun i k => ?_, fun i b hb => ?_⟩
  · rw [vB, vA]; simp [InBlock]
  · rw [vB, vA]; simp [InBlock]
  · rw [vB, vA, if_neg (by omega), if_pos (by simp only [InBlock, hr, hc]; simp; omega)]
    have := ofMat_val (P.drExpinv (P.log x0)) i k
    simp [this]
  · rw [vB, vA, if_neg (by omega), if_neg (by simp only [InBlock, hr, hc]; omega)]; simp

theorem ce_hess (tf : F) (x0 xf : X) (q : Fin 1 → F) : ((ce P).hess tf x0 xf q).rows = 12 ∧ ((ce P).hess tf x0 xf q).cols = 72 ∧
    (∀ a b, b < 12 → ((ce P).hess tf x0 xf q).val a (12 * 0 + b) = 0) ∧
    (∀ (k r c : Fin 5), ((ce P).hess tf x0 xf q).val (1 + r) (12 * (1 + k) + (1 + c)) = P.d2rRminus (P.log x0) k r c) ∧
    ∀ (k : Fin 5) (a b : ℕ), b < 12 → a = 0 ∨ 6 ≤ a ∨ b = 0 ∨ 6 ≤ b → ((ce P).hess tf x0 xf q).val a (12 * (1 + k) + b) = 0 := by
  obtain ⟨B, eB, ⟨rB, cB, -⟩, vB⟩ := blockAdds_spec (List.ofFn fun i : Fin 5 => (⟨1, 12 * (1 + (i : ℕ)) + 1, ofMat (P.d2rRminus (P.log x0) i), 1, false⟩ : Blk F))
    (Sp.empty 12 72) (by
      intro b hb
      obtain ⟨i, rfl⟩ := List.mem_ofFn.1 hb
      refine ⟨?_, ?_⟩ <;> simp [ofMat, dense, Sp.empty]
      omega)
  have e : (ce P).hess tf x0 xf q = B := by
    simp only [ce, done, eB, Option.getD_some]
  have hv : ∀ a b, B.val a b = ∑ i : Fin 5, if InBlock 1 (12 * (1 + (i : ℕ)) + 1) 5 5 a b then (ofMat (P.d2rRminus (P.log x0) i)).val (a - 1) (b - (12 * (1 + (i : ℕ)) + 1)) else 0 := by
    intro a b
    rw [vB, List.map_ofFn, List.sum_ofFn, empty_val, zero_add]
    refine Finset.sum_congr rfl fun i _ => ?_
    simp [Function.comp, Blk.contrib, ofMat, dense]
  rw [e]
  refine ⟨rB, cB, fun a b hb => ?_, fun k r c => ?_, fun k a b hb h => ?_⟩
  · rw [hv]
    exact Finset.sum_eq_zero fun i _ => if_neg (by simp only [InBlock]; omega)
  · rw [hv, Finset.sum_eq_single k, if_pos (by simp only [InBlock]; omega)]
    · have := ofMat_val (P.d2rRminus (P.log x0) k) r c
      rw [← this]
      congr 1 <;> omega
    · intro i _ hi
      have : (i : ℕ) ≠ k := fun h => hi (Fin.ext h)
      exact if_neg (by simp only [InBlock]; omega)
    · simp
  · rw [hv]
    exact Finset.sum_eq_zero fun i _ => if_neg (by simp only [InBlock]; omega)

end

/-! ### The logarithm -/

section

variable {X 𝔸 : Type*} {n : ℕ} [NormedRing 𝔸] [NormedAlgebra ℝ 𝔸] [FiniteDimensional ℝ 𝔸] [CompleteSpace 𝔸] {L : LieOps X ℝ n} {mat : X → 𝔸} {hat : (Fin n → ℝ) →ₗ[ℝ] 𝔸}

/-- A continuous logarithm of a differentiable map is differentiable. -/
theorem log_deriv (h : IsLie L mat hat) {Z : Type*} [NormedAddCommGroup Z] [NormedSpace ℝ Z] {e : Z → Fin n → ℝ} {Y : Z → 𝔸} {Y' : Z →L[ℝ] 𝔸} {z0 : Z}
    (hc : ContinuousAt e z0) (hY : HasFDerivAt Y Y' z0) (he : ∀ᶠ z in 𝓝 z0, NormedSpace.exp (hat (e z)) = Y z) (hu : IsUnit (L.drExp (e z0)).det)
    (D : Z →L[ℝ] (Fin n → ℝ)) (hD : ∀ w, Y' w = NormedSpace.exp (hat (e z0)) * hat (L.drExp (e z0) *ᵥ D w)) : HasFDerivAt e D z0 := by
  obtain ⟨g, G, h1, h2, h3⟩ := h.local_log (e z0) hu
  have e0 : NormedSpace.exp (hat (e z0)) = Y z0 := he.self_of_nhds
  have hg : HasFDerivAt (fun z => g (Y z)) (G.comp Y') z0 := by
    rw [e0] at h2
    exact h2.comp z0 hY
  have eD : G.comp Y' = D := by
    ext1 w
    rw [ContinuousLinearMap.comp_apply, hD, h3]
  rw [eD] at hg
  refine hg.congr_of_eventuallyEq ?_
  filter_upwards [he, hc.eventually h1] with z k1 k2
  rw [← k1, k2]

end

section

variable {X 𝔸 : Type*} [NormedRing 𝔸] [NormedAlgebra ℝ 𝔸] [FiniteDimensional ℝ 𝔸] [CompleteSpace 𝔸] {P : PoseOps X ℝ} {mat : X → 𝔸}
  {hat : (Fin 5 → ℝ) →ₗ[ℝ] 𝔸}

/-- The velocity of the desired state. -/
noncomputable def omega : Fin 5 → ℝ := ![1, 0, 1 / 2, 0, 0]

theorem xdes_mat (h : IsPose P mat hat) (t s : ℝ) : mat (xdes P (t + s)) = mat (xdes P t) * NormedSpace.exp (s • hat omega) := by
  have key : ∀ t : ℝ, mat (xdes P t) = mat (P.make 0 ![(vdes 0 : ℝ), vdes 2]) * NormedSpace.exp (t • hat omega) := by
    intro t
    unfold xdes
    rw [h.make, h.lie.rplus, ← map_smul]
    congr 3
    funext k
    fin_cases k <;> simp [vdes, omega]
  letI : NormedAlgebra ℚ 𝔸 := NormedAlgebra.restrictScalars ℚ ℝ 𝔸
  rw [key, key, mul_assoc, ← NormedSpace.exp_add_of_commute (((Commute.refl _).smul_left _).smul_right _), ← add_smul]

/-- The difference to the desired state along a move. -/
noncomputable def diffAlong (P : PoseOps X ℝ) (t : ℝ) (x : X) (δ : Arg 5 2 → ℝ) : Fin 5 → ℝ := P.rminus (P.rplus x fun k => δ (.x k)) (xdes P (t + δ .t))

noncomputable def diffLin (P : PoseOps X ℝ) (a : Fin 5 → ℝ) : (Arg 5 2 → ℝ) →L[ℝ] (Fin 5 → ℝ) :=
  LinearMap.toContinuousLinearMap ((P.drExpinv a).mulVecLin ∘ₗ LinearMap.funLeft ℝ ℝ Arg.x - (LinearMap.proj Arg.t).smulRight (P.dlExpinv a *ᵥ omega))

theorem diffLin_apply (a : Fin 5 → ℝ) (w : Arg 5 2 → ℝ) : diffLin P a w = P.drExpinv a *ᵥ (fun k => w (.x k)) - w .t • (P.dlExpinv a *ᵥ omega) := rfl

theorem diff_zero (h : IsPose P mat hat) (t : ℝ) (x : X) : diffAlong P t x 0 = P.rminus x (xdes P t) := by
  have : P.rplus x (fun _ => 0) = x := h.lie.rplus_zero x
  simp only [diffAlong, Pi.zero_apply, add_zero, this]

theorem diff_deriv (h : IsPose P mat hat) {t : ℝ} {x : X} (hr : Reg P mat hat t x) : HasFDerivAt (diffAlong P t x) (diffLin P (P.rminus x (xdes P t))) 0 := by
  set a := P.rminus x (xdes P t) with ha
  have h0 := diff_zero h t x
  have hX : mat x = mat (xdes P t) * NormedSpace.exp (hat a) := by
    have := hr.log.self_of_nhds
    have e : P.rplus x (fun _ => 0) = x := h.lie.rplus_zero x
    simpa only [Pi.zero_apply, add_zero, e] using this
  let px : (Arg 5 2 → ℝ) →L[ℝ] 𝔸 := LinearMap.toContinuousLinearMap (hat ∘ₗ LinearMap.funLeft ℝ ℝ Arg.x)
  let pt : (Arg 5 2 → ℝ) →L[ℝ] 𝔸 := LinearMap.toContinuousLinearMap (-(LinearMap.proj Arg.t).smulRight (hat omega))
  have hexp : ∀ p : (Arg 5 2 → ℝ) →L[ℝ] 𝔸, HasFDerivAt (fun δ => NormedSpace.exp (p δ)) p 0 := by
    intro p
    have h1 : HasFDerivAt (NormedSpace.exp : 𝔸 → 𝔸) (1 : 𝔸 →L[ℝ] 𝔸) (p 0) := by
      rw [map_zero]
      exact hasFDerivAt_exp_zero (𝕂 := ℝ) (𝔸 := 𝔸)
    exact h1.comp (0 : Arg 5 2 → ℝ) p.hasFDerivAt
  have hY := ((hexp pt).mul_const' (NormedSpace.exp (hat a))).mul' (hexp px)
  refine log_deriv h.lie hr.cont hY ?_ ?_ _ ?_
  · filter_upwards [hr.log] with δ hδ
    obtain ⟨y, hy, -⟩ := h.lie.exists_inv (xdes P t)
    rw [h.lie.rplus, hX, xdes_mat h] at hδ
    have h1 : NormedSpace.exp (hat a) * NormedSpace.exp (px δ) = NormedSpace.exp (δ .t • hat omega) * NormedSpace.exp (hat (diffAlong P t x δ)) := by
      have := congrArg (fun z => y * z) hδ
      simp only [← mul_assoc, hy, one_mul] at this
      exact this
    have h2 := congrArg (fun z => NormedSpace.exp (-(δ .t • hat omega)) * z) h1
    simp only [← mul_assoc, exp_neg_mul, one_mul] at h2
    exact h2.symm
  · have := hr.det
    rw [show (P.rminus (P.rplus x fun k => (0 : Arg 5 2 → ℝ) (.x k)) (xdes P (t + (0 : Arg 5 2 → ℝ) .t))) = a from h0]
    exact this
  · intro w
    rw [show (P.rminus (P.rplus x fun k => (0 : Arg 5 2 → ℝ) (.x k)) (xdes P (t + (0 : Arg 5 2 → ℝ) .t))) = a from h0, diffLin_apply]
    have e1 : P.drExp a *ᵥ (P.drExpinv a *ᵥ fun k => w (.x k)) = fun k => w (.x k) := by
      rw [h.lie.drExpinv a hr.det, Matrix.mulVec_mulVec, Matrix.mul_nonsing_inv _ hr.det, Matrix.one_mulVec]
    rw [Matrix.mulVec_sub, e1, Matrix.mulVec_smul, map_sub, map_smul, mul_sub, mul_smul_comm, ← h.dlExpinv a hr.det]
    simp [px, pt, LinearMap.funLeft]
    rw [← sub_eq_add_neg]
    rfl

theorem diffLin_t (a : Fin 5 → ℝ) (k : Fin 5) : diffLin P a (Pi.single .t 1) k = -(P.dlExpinv a *ᵥ omega) k := by
  rw [diffLin_apply]
  have : (fun k => (Pi.single .t 1 : Arg 5 2 → ℝ) (.x k)) = 0 := by funext k; simp
  rw [this, Matrix.mulVec_zero]
  simp

theorem diffLin_x (a : Fin 5 → ℝ) (c k : Fin 5) : diffLin P a (Pi.single (.x c) 1) k = P.drExpinv a k c := by
  rw [diffLin_apply]
  have : (fun k => (Pi.single (.x c) 1 : Arg 5 2 → ℝ) (.x k)) = Pi.single c 1 := by
    funext k
    simp [Pi.single_apply]
  rw [this]
  simp

theorem diffLin_u (a : Fin 5 → ℝ) (c : Fin 2) (k : Fin 5) : diffLin P a (Pi.single (.u c) 1) k = 0 := by
  rw [diffLin_apply]
  have : (fun k => (Pi.single (.u c) 1 : Arg 5 2 → ℝ) (.x k)) = 0 := by funext k; simp
  rw [this, Matrix.mulVec_zero]
  simp

/-- The `jacobian` of the integrand. -/
theorem integral_jacAt (h : IsPose P mat hat) {t : ℝ} {x : X} (hr : Reg P mat hat t x) (u : Fin 2 → ℝ) : JacAt P (integral P) (t, x, u) := by
  intro j
  obtain rfl : j = 0 := Subsingleton.elim _ _
  set a := P.rminus x (xdes P t) with ha
  have hE := diff_deriv h hr
  have h0 := diff_zero h t x
  have hk : ∀ k, HasFDerivAt (fun δ => diffAlong P t x δ k) ((ContinuousLinearMap.proj k).comp (diffLin P a)) 0 := hasFDerivAt_pi.1 hE
  have hu : ∀ k : Fin 2, HasFDerivAt (fun δ : Arg 5 2 → ℝ => u k + δ (.u k)) (ContinuousLinearMap.proj (R := ℝ) (φ := fun _ : Arg 5 2 => ℝ) (Arg.u k)) 0 := fun k =>
    (ContinuousLinearMap.proj (R := ℝ) (φ := fun _ : Arg 5 2 => ℝ) (Arg.u k)).hasFDerivAt.const_add (u k)
  have hs := ((HasFDerivAt.fun_sum (u := Finset.univ) fun k _ => (hk k).mul (hk k)).add (HasFDerivAt.fun_sum (u := Finset.univ) fun k _ => (hu k).mul (hu k))).const_mul (1 / 2 : ℝ)
  refine ⟨_, hs, fun b => ?_⟩
  obtain ⟨-, -, j0, jx, ju⟩ := integral_jac P t x u
  simp only [h0, ← ha] at j0 jx ⊢
  cases b with
  | t =>
    change _ = ((integral P).jac t x u).val 0 0
    rw [j0, show (![1, 0, 1 / 2, 0, 0] : Fin 5 → ℝ) = omega from rfl, ← Matrix.dotProduct_mulVec, dotProduct]
    simp [diffLin_t]
    simp only [Fin.sum_univ_five]
    ring
  | x c =>
    change _ = ((integral P).jac t x u).val 0 (1 + c)
    rw [jx, h.drSq]
    simp [diffLin_x, Matrix.vecMul, dotProduct]
    simp only [Fin.sum_univ_five]
    ring
  | u c =>
    change _ = ((integral P).jac t x u).val 0 (6 + c)
    rw [ju]
    simp [diffLin_u]
    fin_cases c <;> simp [Fin.sum_univ_two] <;> ring

/-- The derivatives by the state of the integrand, along a move. -/
theorem drSq_deriv (h : IsPose P mat hat) {t : ℝ} {x : X} (hr : Reg P mat hat t x) (i : Fin 5) :
    ∃ D : (Arg 5 2 → ℝ) →L[ℝ] ℝ, HasFDerivAt (fun δ => P.drSq (diffAlong P t x δ) i) D 0 ∧ ∀ w, D w =
      ∑ k, (diffLin P (P.rminus x (xdes P t)) w k * P.drExpinv (P.rminus x (xdes P t)) k i + P.rminus x (xdes P t) k *
        ∑ s, P.d2rExpinv (P.rminus x (xdes P t)) k i s * diffLin P (P.rminus x (xdes P t)) w s) := by
  set a := P.rminus x (xdes P t) with ha
  have hE := diff_deriv h hr
  have h0 := diff_zero h t x
  have hk : ∀ k, HasFDerivAt (fun δ => diffAlong P t x δ k) ((ContinuousLinearMap.proj k).comp (diffLin P a)) 0 := hasFDerivAt_pi.1 hE
  choose D hD hDc using h.lie.d2rExpinv a hr.det
  have hM : ∀ k, HasFDerivAt (fun δ => P.drExpinv (diffAlong P t x δ) k i) ((D k i).comp (diffLin P a)) 0 := fun k => by
    have := hD k i
    rw [ha, ← h0] at this
    exact this.comp (0 : Arg 5 2 → ℝ) hE
  refine ⟨_, (HasFDerivAt.fun_sum (u := Finset.univ) fun k _ => (hk k).mul (hM k)).congr_of_eventuallyEq (Eventually.of_forall fun δ => ?_), fun w => ?_⟩
  · simp only [h.drSq, Matrix.vecMul, dotProduct]
    rfl
  · simp only [h0, ← ha]
    rw [ContinuousLinearMap.sum_apply]
    refine Finset.sum_congr rfl fun k _ => ?_
    have : D k i (diffLin P a w) = ∑ s, P.d2rExpinv a k i s * diffLin P a w s := by
      conv_lhs => rw [show diffLin P a w = ∑ s, diffLin P a w s • (Pi.single s 1 : Fin 5 → ℝ) from by
        funext j; simp [Finset.sum_apply, Pi.single_apply]]
      rw [map_sum]
      refine Finset.sum_congr rfl fun s _ => ?_
      rw [map_smul, hDc, smul_eq_mul, mul_comm]
    simp [this]
    ring

/-- A function of moves along one coordinate. -/
theorem line {f : (Arg 5 2 → ℝ) → ℝ} {D : (Arg 5 2 → ℝ) →L[ℝ] ℝ} (hf : HasFDerivAt f D 0) (b : Arg 5 2) :
    HasDerivAt (fun s : ℝ => f (Pi.single b s)) (D (Pi.single b 1)) 0 := by
  have h1 : HasDerivAt (fun s : ℝ => (Pi.single b s : Arg 5 2 → ℝ)) (Pi.single b 1) 0 := by
    have : (fun s : ℝ => (Pi.single b s : Arg 5 2 → ℝ)) = fun s => s • (Pi.single b 1 : Arg 5 2 → ℝ) := by
      funext s
      rw [← Pi.single_smul, smul_eq_mul, mul_one]
    rw [this]
    simpa using (hasDerivAt_id (0 : ℝ)).smul_const (Pi.single b 1 : Arg 5 2 → ℝ)
  have h2 : HasFDerivAt f D (Pi.single b (0 : ℝ)) := by rw [Pi.single_zero]; exact hf
  exact h2.comp_hasDerivAt (0 : ℝ) h1

/-- The derivatives by the state and the input of the `hessian` of the integrand. -/
theorem integral_hessAt (h : IsPose P mat hat) {t : ℝ} {x : X} (hr : Reg P mat hat t x) (u : Fin 2 → ℝ) {a b : Arg 5 2} (ha : a ≠ .t) (hb : b ≠ .t) :
    HessAt P (integral P) (t, x, u) 0 a b := by
  obtain ⟨-, -, -, hxx, hxu, huu⟩ := integral_hess P t x u
  unfold HessAt
  cases a with
  | t => exact absurd rfl ha
  | x i =>
    obtain ⟨D, hD, hDw⟩ := drSq_deriv h hr i
    have e : ∀ δ : Arg 5 2 → ℝ, ((integral P).jac (mv P (t, x, u) δ).1 (mv P (t, x, u) δ).2.1 (mv P (t, x, u) δ).2.2).val 0 (1 + i) = P.drSq (diffAlong P t x δ) i :=
      fun δ => (integral_jac P _ _ _).2.2.2.1 i
    have hl := line hD b
    rw [hDw] at hl
    change HasDerivAt (fun s => ((integral P).jac (mv P (t, x, u) (Pi.single b s)).1 (mv P (t, x, u) (Pi.single b s)).2.1 (mv P (t, x, u) (Pi.single b s)).2.2).val 0 (1 + i))
      (((integral P).hess t x u).val (1 + i) (8 * 0 + b.pos)) 0
    simp only [e, mul_zero, zero_add]
    cases b with
    | t => exact absurd rfl hb
    | x c =>
      change HasDerivAt _ (((integral P).hess t x u).val (1 + i) (1 + c)) 0
      rw [hxx, h.d2rSq]
      convert hl using 1
      simp only [diffLin_x, Matrix.add_apply, Matrix.sum_apply, Matrix.smul_apply, Matrix.mul_apply, Matrix.transpose_apply, h.d2rRminus, smul_eq_mul]
      rw [← Finset.sum_add_distrib]
      exact Finset.sum_congr rfl fun k _ => by ring
    | u c =>
      change HasDerivAt _ (((integral P).hess t x u).val (1 + i) (6 + c)) 0
      rw [(hxu i c).1]
      convert hl using 1
      simp [diffLin_u]
  | u i =>
    have e : ∀ δ : Arg 5 2 → ℝ, ((integral P).jac (mv P (t, x, u) δ).1 (mv P (t, x, u) δ).2.1 (mv P (t, x, u) δ).2.2).val 0 (6 + i) = u i + δ (.u i) :=
      fun δ => (integral_jac P _ _ _).2.2.2.2 i
    change HasDerivAt (fun s => ((integral P).jac (mv P (t, x, u) (Pi.single b s)).1 (mv P (t, x, u) (Pi.single b s)).2.1 (mv P (t, x, u) (Pi.single b s)).2.2).val 0 (6 + i))
      (((integral P).hess t x u).val (6 + i) (8 * 0 + b.pos)) 0
    simp only [e, mul_zero, zero_add]
    cases b with
    | t => exact absurd rfl hb
    | x c =>
      change HasDerivAt _ (((integral P).hess t x u).val (6 + i) (1 + c)) 0
      rw [(hxu c i).2]
      simpa using hasDerivAt_const (0 : ℝ) (u i)
    | u c =>
      change HasDerivAt _ (((integral P).hess t x u).val (6 + i) (6 + c)) 0
      rw [huu]
      by_cases hic : i = c
      · subst hic
        simpa using (hasDerivAt_id (0 : ℝ)).const_add (u i)
      · have : ∀ s : ℝ, (Pi.single (Arg.u c) s : Arg 5 2 → ℝ) (.u i) = 0 := fun s => Pi.single_eq_of_ne (by simpa using hic) _
        simp only [this, add_zero, if_neg hic]
        exact hasDerivAt_const (0 : ℝ) (u i)

/-! ### Derivatives by time are missing -/

theorem dl_zero (h : IsPose P mat hat) (b : Fin 5 → ℝ) : P.dlExpinv 0 *ᵥ b = b := by
  have hu : IsUnit (P.drExp 0).det := by rw [h.lie.drExp_zero]; simp
  have := h.dlExpinv 0 hu b
  rw [map_zero, NormedSpace.exp_zero, mul_one, one_mul, h.lie.drExp_zero, Matrix.one_mulVec] at this
  exact (h.lie.hat_inj this).symm

theorem dl_cont (h : IsPose P mat hat) (b : Fin 5 → ℝ) (k : Fin 5) : ContinuousAt (fun a => (P.dlExpinv a *ᵥ b) k) 0 := by
  obtain ⟨V, hV⟩ := h.lie.exists_vee
  have hu : IsUnit (P.drExp 0).det := by rw [h.lie.drExp_zero]; simp
  have e : (fun a => (P.dlExpinv a *ᵥ b) k) =ᶠ[𝓝 0] fun a => ∑ j, P.drExpinv a k j * V (NormedSpace.exp (-hat a) * (hat b * NormedSpace.exp (hat a))) j := by
    filter_upwards [h.lie.det_near_zero] with a ha
    rw [h.dlExpinv a ha, ← mul_assoc, exp_neg_mul, one_mul, hV]
    change _ = (P.drExpinv a *ᵥ (P.drExp a *ᵥ (P.dlExpinv a *ᵥ b))) k
    rw [h.lie.drExpinv a ha, Matrix.mulVec_mulVec, Matrix.nonsing_inv_mul _ ha, Matrix.one_mulVec]
  refine ContinuousAt.congr ?_ e.symm
  have hh : Continuous hat := (LinearMap.toContinuousLinearMap hat).continuous
  have hx : Continuous (NormedSpace.exp : 𝔸 → 𝔸) := by
    letI : NormedAlgebra ℚ 𝔸 := NormedAlgebra.restrictScalars ℚ ℝ 𝔸
    exact NormedSpace.exp_continuous
  refine tendsto_finsetSum _ fun j _ => ?_
  obtain ⟨D, hD, -⟩ := h.lie.d2rExpinv 0 hu k j
  have h2 : Continuous fun a => V (NormedSpace.exp (-hat a) * (hat b * NormedSpace.exp (hat a))) j :=
    (continuous_apply j).comp (V.continuous.comp ((hx.comp hh.neg).mul (continuous_const.mul (hx.comp hh))))
  exact hD.continuousAt.mul h2.continuousAt

theorem mul_deriv_zero {f g : ℝ → ℝ} {f' : ℝ} (hf : HasDerivAt f f' 0) (h0 : f 0 = 0) (hg : ContinuousAt g 0) : HasDerivAt (fun s => f s * g s) (f' * g 0) 0 := by
  rw [hasDerivAt_iff_tendsto_slope_zero] at hf ⊢
  have h1 : Tendsto g (𝓝[≠] 0) (𝓝 (g 0)) := hg.tendsto.mono_left nhdsWithin_le_nhds
  refine (hf.mul h1).congr fun s => ?_
  simp only [zero_add, h0, zero_mul, sub_zero, smul_eq_mul]
  ring

/-- On the desired trajectory, the derivatives by time of the integrand change: by `5 / 4` with time, and by the negative velocity with the state. -/
theorem time_deriv (h : IsPose P mat hat) {t : ℝ} (hr : Reg P mat hat t (xdes P t)) (h0 : P.rminus (xdes P t) (xdes P t) = 0) (u : Fin 2 → ℝ) (b : Arg 5 2) :
    HasDerivAt (fun s : ℝ => ((integral P).jac (mv P (t, xdes P t, u) (Pi.single b s)).1 (mv P (t, xdes P t, u) (Pi.single b s)).2.1
      (mv P (t, xdes P t, u) (Pi.single b s)).2.2).val 0 0) (match b with | .t => 5 / 4 | .x k => -omega k | .u _ => 0) 0 := by
  have e : ∀ δ : Arg 5 2 → ℝ, ((integral P).jac (mv P (t, xdes P t, u) δ).1 (mv P (t, xdes P t, u) δ).2.1 (mv P (t, xdes P t, u) δ).2.2).val 0 0 =
      ∑ k, diffAlong P t (xdes P t) δ k * -(P.dlExpinv (diffAlong P t (xdes P t) δ) *ᵥ omega) k := by
    intro δ
    refine (integral_jac P _ _ _).2.2.1.trans ?_
    rw [show (![1, 0, 1 / 2, 0, 0] : Fin 5 → ℝ) = omega from rfl, ← Matrix.dotProduct_mulVec, dotProduct, ← Finset.sum_neg_distrib]
    exact Finset.sum_congr rfl fun k _ => by rw [mul_neg]; rfl
  simp only [e]
  have hE := diff_deriv h hr
  have hz := diff_zero h t (xdes P t)
  rw [h0] at hE hz
  have hk0 : ∀ k, HasFDerivAt (fun δ => diffAlong P t (xdes P t) δ k) ((ContinuousLinearMap.proj k).comp (diffLin P 0)) 0 := hasFDerivAt_pi.1 hE
  have hk : ∀ k, HasDerivAt (fun s : ℝ => diffAlong P t (xdes P t) (Pi.single b s) k) (diffLin P 0 (Pi.single b 1) k) 0 := fun k => line (hk0 k) b
  have hs : ContinuousAt (fun s : ℝ => diffAlong P t (xdes P t) (Pi.single b s)) 0 := continuousAt_pi.2 fun k => (hk k).continuousAt
  have hz' : diffAlong P t (xdes P t) (Pi.single b (0 : ℝ)) = 0 := by rw [Pi.single_zero, hz]
  have hc : ∀ k, ContinuousAt (fun s : ℝ => -(P.dlExpinv (diffAlong P t (xdes P t) (Pi.single b s)) *ᵥ omega) k) 0 := fun k => by
    have h1 : ContinuousAt (fun a => (P.dlExpinv a *ᵥ omega) k) (diffAlong P t (xdes P t) (Pi.single b (0 : ℝ))) := by rw [hz']; exact dl_cont h omega k
    exact (ContinuousAt.comp (f := fun s : ℝ => diffAlong P t (xdes P t) (Pi.single b s)) h1 hs).neg
  have := HasDerivAt.fun_sum (u := Finset.univ) fun k _ => mul_deriv_zero (hk k) (by rw [hz']; rfl) (hc k)
  refine this.congr_deriv ?_
  simp only [hz', dl_zero h]
  cases b with
  | t =>
    simp [diffLin_t, dl_zero h, Fin.sum_univ_five, omega]
    norm_num
  | x c =>
    simp only [diffLin_x, h.lie.drExpinv_zero, Matrix.one_apply]
    simp
  | u c => simp [diffLin_u]

/-- The same for the derivatives by the state. -/
theorem state_deriv_time (h : IsPose P mat hat) {t : ℝ} (hr : Reg P mat hat t (xdes P t)) (h0 : P.rminus (xdes P t) (xdes P t) = 0) (u : Fin 2 → ℝ) (i : Fin 5) :
    HasDerivAt (fun s : ℝ => ((integral P).jac (mv P (t, xdes P t, u) (Pi.single .t s)).1 (mv P (t, xdes P t, u) (Pi.single .t s)).2.1
      (mv P (t, xdes P t, u) (Pi.single .t s)).2.2).val 0 (1 + i)) (-omega i) 0 := by
  obtain ⟨D, hD, hDw⟩ := drSq_deriv h hr i
  have e : ∀ δ : Arg 5 2 → ℝ, ((integral P).jac (mv P (t, xdes P t, u) δ).1 (mv P (t, xdes P t, u) δ).2.1 (mv P (t, xdes P t, u) δ).2.2).val 0 (1 + i) =
      P.drSq (diffAlong P t (xdes P t) δ) i := fun δ => (integral_jac P _ _ _).2.2.2.1 i
  have hl := line hD .t
  rw [hDw, h0] at hl
  simp only [e]
  convert hl using 1
  simp [diffLin_t, dl_zero h, h.lie.drExpinv_zero, Matrix.one_apply]

/-- **The `hessian` of the integrand lacks the derivatives by time** (ocp_se2.hpp:121): on the desired trajectory they are not zero. -/
theorem se2_hessian_lacks_time (h : IsPose P mat hat) {t : ℝ} (hr : Reg P mat hat t (xdes P t)) (h0 : P.rminus (xdes P t) (xdes P t) = 0) (u : Fin 2 → ℝ) :
    ¬ HessAt P (integral P) (t, xdes P t, u) 0 .t .t ∧ ¬ HessAt P (integral P) (t, xdes P t, u) 0 .t (.x 0) ∧ ¬ HessAt P (integral P) (t, xdes P t, u) 0 .t (.x 2) ∧
      ¬ HessAt P (integral P) (t, xdes P t, u) 0 (.x 0) .t ∧ ¬ HessAt P (integral P) (t, xdes P t, u) 0 (.x 2) .t := by
  obtain ⟨-, -, hz, -⟩ := integral_hess P t (xdes P t) u
  refine ⟨fun k => ?_, fun k => ?_, fun k => ?_, fun k => ?_, fun k => ?_⟩
  · have := k.unique (time_deriv h hr h0 u .t)
    have e : ((integral P).hess t (xdes P t) u).val 0 0 = 5 / 4 := this
    rw [(hz 0).1] at e
    norm_num at e
  · have := k.unique (time_deriv h hr h0 u (.x 0))
    have e : ((integral P).hess t (xdes P t) u).val 0 1 = -omega 0 := this
    rw [(hz 1).1] at e
    norm_num [omega] at e
  · have := k.unique (time_deriv h hr h0 u (.x 2))
    have e : ((integral P).hess t (xdes P t) u).val 0 3 = -omega 2 := this
    rw [(hz 3).1, show omega 2 = (1 / 2 : ℝ) from rfl] at e
    norm_num at e
  · have := k.unique (state_deriv_time h hr h0 u 0)
    have e : ((integral P).hess t (xdes P t) u).val 1 0 = -omega 0 := this
    rw [(hz 1).2] at e
    norm_num [omega] at e
  · have := k.unique (state_deriv_time h hr h0 u 2)
    have e : ((integral P).hess t (xdes P t) u).val 3 0 = -omega 2 := this
    rw [(hz 3).2, show omega 2 = (1 / 2 : ℝ) from rfl] at e
    norm_num at e

/-! ### The other functions -/

theorem mv_coord {Q B : Type*} [Fintype B] [DecidableEq B] {m : Q → (B → ℝ) → Q} {f : Q → ℝ} {p : Q} {J : B → ℝ} (c : ℝ) (k : B) (hf : ∀ δ, f (m p δ) = c + δ k)
    (hJ : ∀ b, J b = if b = k then 1 else 0) : HasMv m f J p := by
  have e : (fun δ => f (m p δ)) = fun δ => c + δ k := funext hf
  refine ⟨ContinuousLinearMap.proj (R := ℝ) (φ := fun _ : B => ℝ) k, ?_, fun b => ?_⟩
  · rw [e]
    exact (ContinuousLinearMap.proj (R := ℝ) (φ := fun _ : B => ℝ) k).hasFDerivAt.const_add c
  · rw [hJ]
    simp [Pi.single_apply, eq_comm]

theorem mv_const {Q B : Type*} [Fintype B] [DecidableEq B] {m : Q → (B → ℝ) → Q} {f : Q → ℝ} {p : Q} {J : B → ℝ} (c : ℝ) (hf : ∀ δ, f (m p δ) = c)
    (hJ : ∀ b, J b = 0) : HasMv m f J p := by
  have e : (fun δ => f (m p δ)) = fun _ => c := funext hf
  refine ⟨0, ?_, fun b => ?_⟩
  · rw [e]
    exact hasFDerivAt_const c _
  · rw [hJ]
    rfl

theorem built_nil (r c i j : ℕ) : (built r c [] : Sp ℝ).val i j = 0 := rfl

theorem dyn_dr (h : IsPose P mat hat) : IsDrG P.toLieOps (vec ℝ 2) (dyn P) := by
  refine ⟨fun _ _ _ => rfl, fun _ _ _ => rfl, fun _ _ _ => rfl, fun _ _ _ => rfl, fun p j => ?_, fun p j a => ?_, fun p j a b => ?_⟩
  · have hv : ∀ (δ : Arg 5 2 → ℝ), P.vel (mv P p δ).2.1 = P.vel p.2.1 + ![δ (.x 3), δ (.x 4)] := fun δ => h.vel _ _
    have hJ : ∀ (j : Fin 5) (a : Arg 5 2), ((dyn P).jac p.1 p.2.1 p.2.2).val j a.pos =
        if j = 0 ∧ a = .x 3 ∨ j = 2 ∧ a = .x 4 ∨ j = 3 ∧ a = .u 0 ∨ j = 4 ∧ a = .u 1 then 1 else 0 := by
      intro j a
      cases a with
      | t => fin_cases j <;> simp [dyn, built, Sp.update, Sp.empty, Sp.val, Arg.pos, List.foldlM]
      | x k => fin_cases j <;> fin_cases k <;> simp [dyn, built, Sp.update, Sp.empty, Sp.val, Arg.pos, List.foldlM]
      | u k => fin_cases j <;> fin_cases k <;> simp [dyn, built, Sp.update, Sp.empty, Sp.val, Arg.pos, List.foldlM]
    fin_cases j
    · exact mv_coord (P.vel p.2.1 0) (.x 3) (fun δ => congrFun (hv δ) 0) fun a => (hJ 0 a).trans (by simp)
    · exact mv_const 0 (fun δ => rfl) fun a => (hJ 1 a).trans (by simp)
    · exact mv_coord (P.vel p.2.1 1) (.x 4) (fun δ => congrFun (hv δ) 1) fun a => (hJ 2 a).trans (by simp)
    · exact mv_coord (p.2.2 0) (.u 0) (fun δ => rfl) fun a => (hJ 3 a).trans (by simp)
    · exact mv_coord (p.2.2 1) (.u 1) (fun δ => rfl) fun a => (hJ 4 a).trans (by simp)
  · exact mv_const (((dyn P).jac p.1 p.2.1 p.2.2).val j a.pos) (fun δ => rfl) fun b => built_nil _ _ _ _
  · exact continuousAt_const

theorem cr_dr : IsDrG P.toLieOps (vec ℝ 2) (cr (X := X)) := by
  refine ⟨fun _ _ _ => rfl, fun _ _ _ => rfl, fun _ _ _ => rfl, fun _ _ _ => rfl, fun p j => ?_, fun p j a => ?_, fun p j a b => ?_⟩
  · have hJ : ∀ (j : Fin 2) (a : Arg 5 2), ((cr (X := X)).jac p.1 p.2.1 p.2.2).val j a.pos = if a = .u j then 1 else 0 := by
      intro j a
      cases a with
      | t => fin_cases j <;> simp [cr, built, Sp.update, Sp.empty, Sp.val, Arg.pos, List.foldlM]
      | x k => fin_cases j <;> fin_cases k <;> simp [cr, built, Sp.update, Sp.empty, Sp.val, Arg.pos, List.foldlM]
      | u k => fin_cases j <;> fin_cases k <;> simp [cr, built, Sp.update, Sp.empty, Sp.val, Arg.pos, List.foldlM]
    exact mv_coord (p.2.2 j) (.u j) (fun δ => rfl) (hJ j)
  · exact mv_const (((cr (X := X)).jac p.1 p.2.1 p.2.2).val j a.pos) (fun δ => rfl) fun b => built_nil _ _ _ _
  · exact continuousAt_const

theorem theta_dr : IsDrGE P.toLieOps (theta (X := X)) := by
  refine ⟨fun _ _ _ _ => rfl, fun _ _ _ _ => rfl, fun _ _ _ _ => rfl, fun _ _ _ _ => rfl, fun p j => ?_, fun p j a => ?_, fun p j a b => ?_⟩
  · obtain rfl : j = 0 := Subsingleton.elim _ _
    have h1 := (ContinuousLinearMap.proj (R := ℝ) (φ := fun _ : EArg 5 1 => ℝ) EArg.tf).hasFDerivAt (x := 0)
    have h2 := (ContinuousLinearMap.proj (R := ℝ) (φ := fun _ : EArg 5 1 => ℝ) (EArg.q 0)).hasFDerivAt (x := 0)
    refine ⟨_, (h1.const_add p.1).add (h2.const_add (p.2.2.2 0)), fun a => ?_⟩
    cases a with
    | tf => simp [theta, built, Sp.update, Sp.empty, Sp.val, EArg.pos, List.foldlM]
    | x0 k => fin_cases k <;> simp [theta, built, Sp.update, Sp.empty, Sp.val, EArg.pos, List.foldlM]
    | xf k => fin_cases k <;> simp [theta, built, Sp.update, Sp.empty, Sp.val, EArg.pos, List.foldlM]
    | q k => fin_cases k; simp [theta, built, Sp.update, Sp.empty, Sp.val, EArg.pos, List.foldlM]
  · exact mv_const (((theta (X := X)).jac p.1 p.2.1 p.2.2.1 p.2.2.2).val j a.pos) (fun δ => rfl) fun b => built_nil _ _ _ _
  · exact continuousAt_const

theorem log_at (h : IsPose P mat hat) {x0 : X} (hr : RegLog P mat hat x0) :
    HasFDerivAt (fun δ : Fin 5 → ℝ => P.log (P.rplus x0 δ)) (LinearMap.toContinuousLinearMap (P.drExpinv (P.log x0)).mulVecLin) 0 := by
  have h0 : P.rplus x0 0 = x0 := h.lie.rplus_zero x0
  have hX : mat x0 = NormedSpace.exp (hat (P.log x0)) := by
    have := hr.log.self_of_nhds
    rwa [h0] at this
  let px : (Fin 5 → ℝ) →L[ℝ] 𝔸 := LinearMap.toContinuousLinearMap hat
  have hexp : HasFDerivAt (fun δ => NormedSpace.exp (px δ)) px 0 := by
    have h1 : HasFDerivAt (NormedSpace.exp : 𝔸 → 𝔸) (1 : 𝔸 →L[ℝ] 𝔸) (px 0) := by
      rw [map_zero]
      exact hasFDerivAt_exp_zero (𝕂 := ℝ) (𝔸 := 𝔸)
    exact h1.comp (0 : Fin 5 → ℝ) px.hasFDerivAt
  refine log_deriv h.lie hr.cont (hexp.const_mul (NormedSpace.exp (hat (P.log x0)))) ?_ (by rw [h0]; exact hr.det) _ fun w => ?_
  · filter_upwards [hr.log] with δ hδ
    rw [← hδ, h.lie.rplus, hX]
    rfl
  · rw [h0]
    have e1 : P.drExp (P.log x0) *ᵥ (P.drExpinv (P.log x0) *ᵥ w) = w := by
      rw [h.lie.drExpinv _ hr.det, Matrix.mulVec_mulVec, Matrix.mul_nonsing_inv _ hr.det, Matrix.one_mulVec]
    change _ = _ * hat (P.drExp (P.log x0) *ᵥ (P.drExpinv (P.log x0) *ᵥ w))
    rw [e1]
    rfl

theorem lt12 (b : EArg 5 1) : b.pos < 12 := by
  cases b with
  | tf => exact Nat.zero_lt_succ _
  | x0 k => change 1 + (k : ℕ) < 12; omega
  | xf k => change 1 + 5 + (k : ℕ) < 12; omega
  | q k => change 1 + 2 * 5 + (k : ℕ) < 12; omega

theorem ce_drAt (h : IsPose P mat hat) (p : ℝ × X × X × (Fin 1 → ℝ)) (hr : RegLog P mat hat p.2.1) : DrEAt P (ce P) p := by
  obtain ⟨tf, x0, xf, q⟩ := p
  have h0 : P.rplus x0 0 = x0 := h.lie.rplus_zero x0
  let px : (EArg 5 1 → ℝ) →L[ℝ] (Fin 5 → ℝ) := LinearMap.toContinuousLinearMap (LinearMap.funLeft ℝ ℝ EArg.x0)
  have hl : HasFDerivAt (fun δ : EArg 5 1 → ℝ => P.log (P.rplus x0 (px δ))) ((LinearMap.toContinuousLinearMap (P.drExpinv (P.log x0)).mulVecLin).comp px) 0 := by
    have := log_at h hr
    rw [← map_zero px] at this
    exact this.comp (0 : EArg 5 1 → ℝ) px.hasFDerivAt
  have px0 : ∀ c, px (Pi.single (.x0 c) 1) = Pi.single c 1 := fun c => by
    funext k
    simp [px, LinearMap.funLeft, Pi.single_apply]
  have px1 : ∀ a : EArg 5 1, (∀ c, a ≠ .x0 c) → px (Pi.single a 1) = 0 := fun a ha => by
    funext k
    simp [px, LinearMap.funLeft, Pi.single_apply, (ha k).symm]
  obtain ⟨-, -, j0, j1, j2, j3⟩ := ce_jac P tf x0 xf q
  obtain ⟨-, -, k0, k1, k2⟩ := ce_hess P tf x0 xf q
  refine ⟨fun j => ?_, fun j a => ?_⟩
  · refine Fin.cases ?_ (fun i => ?_) j
    · refine mv_coord tf .tf (fun δ => rfl) fun b => (j0 _).trans ?_
      cases b <;> simp [EArg.pos]
    · have hk : ∀ i, HasFDerivAt (fun δ : EArg 5 1 → ℝ => P.log (P.rplus x0 (px δ)) i)
          ((ContinuousLinearMap.proj i).comp ((LinearMap.toContinuousLinearMap (P.drExpinv (P.log x0)).mulVecLin).comp px)) 0 := hasFDerivAt_pi.1 hl
      refine ⟨_, hk i, fun b => ?_⟩
      change (P.drExpinv (P.log x0) *ᵥ px (Pi.single b 1)) i = ((ce P).jac tf x0 xf q).val ((i : ℕ) + 1) b.pos
      rw [Nat.add_comm]
      cases b with
      | tf => rw [px1 _ (by simp)]; simpa [EArg.pos] using (j1 i).symm
      | x0 c => rw [px0]; simpa [EArg.pos] using (j2 i c).symm
      | xf c => rw [px1 _ (by simp)]; simpa [EArg.pos] using (j3 i _ (by omega)).symm
      | q c => rw [px1 _ (by simp)]; simpa [EArg.pos] using (j3 i _ (by omega)).symm
  · refine Fin.cases ?_ (fun i => ?_) j
    · refine mv_const (if a.pos = 0 then 1 else 0) (fun δ => (ce_jac P _ _ _ _).2.2.1 _) fun b => ?_
      exact k0 _ _ (lt12 b)
    · have hzero : (∀ c, a ≠ .x0 c) → HasMv (moveE P.toLieOps) (fun p => ((ce P).jac p.1 p.2.1 p.2.2.1 p.2.2.2).val (i.succ : Fin 6) a.pos)
          (fun b : EArg 5 1 => ((ce P).hess tf x0 xf q).val a.pos (12 * (i.succ : Fin 6) + b.pos)) (tf, x0, xf, q) := by
        intro ha
        refine mv_const 0 (fun δ => ?_) fun b => ?_
        · obtain ⟨-, -, -, l1, -, l3⟩ := ce_jac P (moveE P.toLieOps (tf, x0, xf, q) δ).1 (moveE P.toLieOps (tf, x0, xf, q) δ).2.1 (moveE P.toLieOps (tf, x0, xf, q) δ).2.2.1
            (moveE P.toLieOps (tf, x0, xf, q) δ).2.2.2
          rw [Fin.val_succ, Nat.add_comm]
          cases a with
          | tf => exact l1 i
          | x0 c => exact absurd rfl (ha c)
          | xf c => exact l3 i _ (by change 6 ≤ 1 + 5 + (c : ℕ); omega)
          | q c => exact l3 i _ (by change 6 ≤ 1 + 2 * 5 + (c : ℕ); omega)
        · rw [Fin.val_succ, Nat.add_comm (i : ℕ) 1]
          refine k2 i _ _ (lt12 b) ?_
          cases a with
          | tf => exact Or.inl rfl
          | x0 c => exact absurd rfl (ha c)
          | xf c => exact Or.inr (Or.inl (by change 6 ≤ 1 + 5 + (c : ℕ); omega))
          | q c => exact Or.inr (Or.inl (by change 6 ≤ 1 + 2 * 5 + (c : ℕ); omega))
      cases a with
      | tf => exact hzero (by simp)
      | xf c => exact hzero (by simp)
      | q c => exact hzero (by simp)
      | x0 r =>
        obtain ⟨D, hD, hDc⟩ := h.lie.d2rExpinv (P.log x0) hr.det i r
        have e0 : P.log (P.rplus x0 (px 0)) = P.log x0 := by rw [map_zero, h0]
        rw [← e0] at hD
        refine ⟨_, (hD.comp (0 : EArg 5 1 → ℝ) hl).congr_of_eventuallyEq (Eventually.of_forall fun δ => ?_), fun b => ?_⟩
        · have := (ce_jac P (moveE P.toLieOps (tf, x0, xf, q) δ).1 (moveE P.toLieOps (tf, x0, xf, q) δ).2.1 (moveE P.toLieOps (tf, x0, xf, q) δ).2.2.1
            (moveE P.toLieOps (tf, x0, xf, q) δ).2.2.2).2.2.2.2.1 i r
          rw [Nat.add_comm 1 (i : ℕ)] at this
          exact this
        · change D (P.drExpinv (P.log x0) *ᵥ px (Pi.single b 1)) = ((ce P).hess tf x0 xf q).val (1 + r) (12 * ((i : ℕ) + 1) + b.pos)
          rw [Nat.add_comm (i : ℕ) 1]
          have hsum : ∀ v, D v = ∑ s, P.d2rExpinv (P.log x0) i r s * v s := by
            intro v
            conv_lhs => rw [show v = ∑ s, v s • (Pi.single s 1 : Fin 5 → ℝ) from by
              funext j; simp [Finset.sum_apply, Pi.single_apply]]
            rw [map_sum]
            refine Finset.sum_congr rfl fun s _ => ?_
            rw [map_smul, hDc, smul_eq_mul, mul_comm]
          cases b with
          | tf => rw [px1 _ (by simp), Matrix.mulVec_zero, map_zero]; exact (k2 i _ _ (lt12 _) (Or.inr (Or.inr (Or.inl rfl)))).symm
          | x0 c =>
            rw [px0, hsum]
            refine Eq.trans ?_ (k1 i r c).symm
            rw [h.d2rRminus, Matrix.mul_apply]
            simp
          | xf c => rw [px1 _ (by simp), Matrix.mulVec_zero, map_zero]; exact (k2 i _ _ (lt12 _) (Or.inr (Or.inr (Or.inr (by change 6 ≤ 1 + 5 + (c : ℕ); omega))))).symm
          | q c => rw [px1 _ (by simp), Matrix.mulVec_zero, map_zero]; exact (k2 i _ _ (lt12 _) (Or.inr (Or.inr (Or.inr (by change 6 ≤ 1 + 2 * 5 + (c : ℕ); omega))))).symm

/-- **The derivatives by hand of the problem on SE(2)**, except for the derivatives by time in the `hessian` of the integrand: those of the objective, the
dynamics and the running constraints are right everywhere, those of the integrand where the difference to the desired state is regular, those of the end constraints
where the logarithm of the initial state is.
*Missing*: `HessAt` for `.t`; it is false, see `se2_hessian_lacks_time`. -/
theorem se2_derivatives_partial (h : IsPose P mat hat) :
    IsDrGE P.toLieOps (ocpSe2 P).theta ∧ IsDrG P.toLieOps (vec ℝ 2) (ocpSe2 P).f ∧ IsDrG P.toLieOps (vec ℝ 2) (ocpSe2 P).cr ∧
      (∀ t x u, (((ocpSe2 P).g.jac t x u).rows = 1 ∧ ((ocpSe2 P).g.jac t x u).cols = 8) ∧ ((ocpSe2 P).g.hess t x u).rows = 8 ∧ ((ocpSe2 P).g.hess t x u).cols = 8) ∧
      (∀ t x u, Reg P mat hat t x → JacAt P (ocpSe2 P).g (t, x, u) ∧ ∀ a b, a ≠ .t → b ≠ .t → HessAt P (ocpSe2 P).g (t, x, u) 0 a b) ∧
      (∀ t x y q, (((ocpSe2 P).ce.jac t x y q).rows = 6 ∧ ((ocpSe2 P).ce.jac t x y q).cols = 12) ∧ ((ocpSe2 P).ce.hess t x y q).rows = 12 ∧ ((ocpSe2 P).ce.hess t x y q).cols = 72) ∧
      ∀ p, RegLog P mat hat p.2.1 → DrEAt P (ocpSe2 P).ce p :=
  ⟨theta_dr, dyn_dr h, cr_dr,
    fun t x u => ⟨⟨(integral_jac P t x u).1, (integral_jac P t x u).2.1⟩, (integral_hess P t x u).1, (integral_hess P t x u).2.1⟩,
    fun _ _ u hr => ⟨integral_jacAt h hr u, fun _ _ ha hb => integral_hessAt h hr u ha hb⟩,
    fun t x y q => ⟨⟨(ce_jac P t x y q).1, (ce_jac P t x y q).2.1⟩, (ce_hess P t x y q).1, (ce_hess P t x y q).2.1⟩,
    fun p hr => ce_drAt h p hr⟩

end

end Verif.SE2
