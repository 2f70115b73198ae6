import Verif.Proofs.MeshFnPoints

/-! # Functions over a mesh (C24, C25) -/

set_option linter.unusedSectionVars false

namespace Verif.MeshFn

open Verif.Mesh Verif.Sparse

variable {nx nu nf : ℕ}

theorem evalSpec_contDiff {fn : Fn ℝ nx nu nf} (hfn : IsDr fn) (env : Env ℝ) (m : Mesh ℝ) (scale : Bool) (i : Fin (nColloc m))
    (j : Fin nf) : ContDiff ℝ 2 (evalSpec env m fn.val scale i j) :=
  contDiff_const.mul (comp_contDiff (hfn.smooth j) _ i)

/-- **C24.** `mesh_eval` on any usable buffer returns, and leaves the values `w_i f_j(t_i, x_i, u_i)` in row `nf i + j`, with
`Deriv ≥ 1` their partial derivatives with respect to `t0`, `tf`, the states and the inputs, and with `Deriv = 2` the upper
triangle of the Hessian of the sum weighted with the multipliers. -/
theorem mesh_eval_exact (d : ℕ) (env : Env ℝ) (m : Mesh ℝ) (fn : Fn ℝ nx nu nf) (hfn : 1 ≤ d → IsDr fn) (scale : Bool)
    (z : Var (nColloc m) nx nu → ℝ) (out : MV ℝ) (hout : Usable d (nf * nColloc m) (numVars (nColloc m) nx nu) out) :
    ∃ o, meshEval d env m fn (z .t0) (z .tf) (states z) (inputs z) scale out = some o ∧
      Holds d (nf * nColloc m) rowOf (fun r : Fin (nColloc m) × Fin nf => evalSpec env m fn.val scale r.1 r.2) z out.lambda o := by
  obtain ⟨o, e, H⟩ := mesh_eval_raw d env m fn (fun h => (hfn h).jac_rows) scale z out hout
  refine ⟨o, e, ⟨H.allocated, H.lambda_kept, H.size, H.value, H.dF_shape, fun h1 p v => ?_, H.d2F_shape, fun h2 v w => ?_⟩⟩
  · have hfn := hfn h1
    obtain ⟨i, k⟩ := p
    rw [H.jac h1]
    simp only [hfn.jac_val]
    have hd := contDiff_differentiable (hfn.smooth k)
    have hc := contDiff_differentiable (comp_contDiff (hfn.smooth k) (tauAt env m i) i)
    have := pd_const_mul (if scale then wAt env m i else 1) (hc z) v
    rw [pd_at_node hd] at this
    exact this.symm
  · have hfn := hfn (by omega)
    rw [H.hess h2]
    by_cases hle : v.pos ≤ w.pos
    · simp only [if_pos hle]
      rw [pd_pd_sum (g := fun r z => out.lambda.val (rowOf r) * evalSpec env m fn.val scale r.1 r.2 z)
        (fun r _ => contDiff_const.mul (evalSpec_contDiff hfn env m scale r.1 r.2)), Fintype.sum_prod_type]
      refine Finset.sum_congr rfl fun i _ => Finset.sum_congr rfl fun k _ => ?_
      rw [pd_pd_const_mul (evalSpec_contDiff hfn env m scale i k)]
      have := pd_pd_const_mul (comp_contDiff (hfn.smooth k) (tauAt env m i) i) (if scale then wAt env m i else 1) v w z
      rw [pd_pd_at_node (hfn.smooth k)] at this
      refine Eq.trans ?_ (congrArg (out.lambda.val (rowOf (i, k)) * ·) this.symm)
      simp only [hfn.hess_val, rowOf]
      ring
    · simp only [if_neg hle]

theorem integralSpec_contDiff {fn : Fn ℝ nx nu nf} (hfn : IsDr fn) (env : Env ℝ) (m : Mesh ℝ) (j : Fin nf) :
    ContDiff ℝ 2 (integralSpec env m fn.val j) :=
  span_contDiff.mul (ContDiff.sum fun i _ => contDiff_const.mul (comp_contDiff (hfn.smooth j) _ i))

/-- **C25.** `mesh_integrate` on any usable buffer returns, and leaves the quadratures `(tf - t0) Σ_i w_i f_j(t_i, x_i, u_i)`,
their partial derivatives, and the upper triangle of the Hessian of their sum weighted with the multipliers. With second
derivatives `f` must have an output, see `mesh_integrate_no_outputs`. -/
theorem mesh_integrate_exact (d : ℕ) (env : Env ℝ) (m : Mesh ℝ) (fn : Fn ℝ nx nu nf) (hfn : 1 ≤ d → IsDr fn) (hnf : 2 ≤ d → 1 ≤ nf)
    (z : Var (nColloc m) nx nu → ℝ) (out : MV ℝ) (hout : Usable d nf (numVars (nColloc m) nx nu) out) :
    ∃ o, meshIntegrate d env m fn (z .t0) (z .tf) (states z) (inputs z) out = some o ∧
      Holds d nf (fun j : Fin nf => (j : ℕ)) (fun j => integralSpec env m fn.val j) z out.lambda o := by
  obtain ⟨o, e, H⟩ := mesh_integrate_raw d env m fn (fun h => (hfn h).jac_rows) hnf z out hout
  have hc' : 1 ≤ d → ∀ (k : Fin nf) (i : Fin (nColloc m)), ContDiff ℝ 2 fun z : Var (nColloc m) nx nu → ℝ =>
      wAt env m i * fn.val (nodePt (tauAt env m i) i z) k :=
    fun hd k i => contDiff_const.mul (comp_contDiff ((hfn hd).smooth k) _ i)
  have hsum' : 1 ≤ d → ∀ k : Fin nf, ContDiff ℝ 2 fun z : Var (nColloc m) nx nu → ℝ =>
      ∑ i : Fin (nColloc m), wAt env m i * fn.val (nodePt (tauAt env m i) i z) k := fun hd k => ContDiff.sum fun i _ => hc' hd k i
  refine ⟨o, e, ⟨H.allocated, H.lambda_kept, H.size, H.value, H.dF_shape, fun h1 k v => ?_, H.d2F_shape, fun h2 v w => ?_⟩⟩
  · have hfn := hfn h1
    have hc := hc' h1
    have hsum := hsum' h1
    rw [H.jac h1]
    simp only [hfn.jac_val]
    have hd := contDiff_differentiable (hfn.smooth k)
    have := pd_span_mul (contDiff_differentiable (hsum k) z) v
    rw [pd_sum (f := fun (i : Fin (nColloc m)) z => wAt env m i * fn.val (nodePt (tauAt env m i) i z) k)
      (fun i _ => contDiff_differentiable (hc k i) z)] at this
    refine Eq.trans ?_ this.symm
    rw [Finset.mul_sum, Finset.mul_sum, ← Finset.sum_add_distrib]
    refine Finset.sum_congr rfl fun i _ => ?_
    rw [pd_const_mul _ (contDiff_differentiable (comp_contDiff (hfn.smooth k) _ i) z), pd_at_node hd]
    ring
  · have h1 : 1 ≤ d := by omega
    have hfn := hfn h1
    have hc := hc' h1
    have hsum := hsum' h1
    rw [H.hess h2]
    by_cases hle : v.pos ≤ w.pos
    · simp only [if_pos hle]
      rw [pd_pd_sum (g := fun (k : Fin nf) z => out.lambda.val k * integralSpec env m fn.val k z)
        (fun k _ => contDiff_const.mul (integralSpec_contDiff hfn env m k)), Finset.sum_comm]
      refine Finset.sum_congr rfl fun k _ => ?_
      have hd := contDiff_differentiable (hfn.smooth k)
      rw [pd_pd_const_mul (integralSpec_contDiff hfn env m k)]
      have := pd_pd_span_mul (hsum k) v w z
      refine Eq.trans ?_ (congrArg (out.lambda.val k * ·) this.symm)
      rw [pd_pd_sum (g := fun (i : Fin (nColloc m)) z => wAt env m i * fn.val (nodePt (tauAt env m i) i z) k) (fun i _ => hc k i),
        pd_sum (f := fun (i : Fin (nColloc m)) z => wAt env m i * fn.val (nodePt (tauAt env m i) i z) k) (fun i _ => contDiff_differentiable (hc k i) z),
        pd_sum (f := fun (i : Fin (nColloc m)) z => wAt env m i * fn.val (nodePt (tauAt env m i) i z) k) (fun i _ => contDiff_differentiable (hc k i) z),
        Finset.mul_sum, Finset.mul_sum, Finset.mul_sum, ← Finset.sum_add_distrib, ← Finset.sum_add_distrib, Finset.mul_sum]
      refine Finset.sum_congr rfl fun i _ => ?_
      rw [pd_pd_const_mul (comp_contDiff (hfn.smooth k) _ i), pd_pd_at_node (hfn.smooth k),
        pd_const_mul _ (contDiff_differentiable (comp_contDiff (hfn.smooth k) _ i) z),
        pd_const_mul _ (contDiff_differentiable (comp_contDiff (hfn.smooth k) _ i) z), pd_at_node hd, pd_at_node hd]
      simp only [hfn.hess_val, hfn.jac_val, Nat.mul_zero, Nat.zero_add]
      ring
    · simp only [if_neg hle]

/-- Second derivatives of an integral without outputs on a fresh buffer: the allocation reads out of range. -/
theorem mesh_integrate_no_outputs (env : Env ℝ) (m : Mesh ℝ) (fn : Fn ℝ nx nu 0) (t0 tf : ℝ) (xs : List (Fin nx → ℝ))
    (us : List (Fin nu → ℝ)) (out : MV ℝ) (h : out.allocated = false) : meshIntegrate 2 env m fn t0 tf xs us out = none := by
  rw [meshIntegrate, if_pos ⟨h, le_rfl, rfl⟩]

end Verif.MeshFn
