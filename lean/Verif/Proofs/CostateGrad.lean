import Verif.Proofs.Costate
import Verif.Proofs.OCPNLPCalls
import Verif.Props.MeshFn
import Verif.Props.MeshDyn

/-! # The gradient of the Lagrangian of the nonlinear program -/

set_option linter.unusedSectionVars false

namespace Verif.NLP

open Verif.Mesh Verif.Sparse Verif.MeshFn Verif.QP Verif.QPSpec Verif.Flatten

open scoped Polynomial

variable {nx nu nq ncr nce : ℕ}

theorem ham_contDiff {ocp : OCP ℝ nx nu nq ncr nce} (hd : IsDrOCP ocp) (p : Fin nx → ℝ) (μ : Fin nq → ℝ) (ν : Fin ncr → ℝ) :
    ContDiff ℝ 2 (ham ocp p μ ν) := by
  unfold ham
  refine (ContDiff.add ?_ ?_).add ?_ <;>
    refine ContDiff.sum fun k _ => contDiff_const.mul ?_
  · exact hd.f.smooth k
  · exact hd.g.smooth k
  · exact hd.cr.smooth k

theorem endCost_contDiff {ocp : OCP ℝ nx nu nq ncr nce} (hd : IsDrOCP ocp) (η : Fin nce → ℝ) : ContDiff ℝ 2 (endCost ocp η) := by
  unfold endCost
  exact (hd.theta.smooth 0).add (ContDiff.sum fun k _ => contDiff_const.mul (hd.ce.smooth k))

/-- The part of the Lagrangian over the mesh. -/
noncomputable def meshL (ocp : OCP ℝ nx nu nq ncr nce) (env : Mesh.Env ℝ) (m : Mesh ℝ) (ld : ℕ → Fin nx → ℝ) (lq : Fin nq → ℝ)
    (lr : ℕ → Fin ncr → ℝ) (z : Var (nColloc m) nx nu → ℝ) : ℝ :=
  ∑ i : Fin (nColloc m), wAt env m i * ((z .tf - z .t0) * ham ocp (ld i) lq 0 (nodePt (tauAt env m i) i z) +
    ham ocp 0 0 (lr i) (nodePt (tauAt env m i) i z) - ∑ k, ld i k * slope env (spans 1 m) (coordAt z k) i)

theorem meshL_eq (ocp : OCP ℝ nx nu nq ncr nce) (env : Mesh.Env ℝ) (m : Mesh ℝ) (ld : ℕ → Fin nx → ℝ) (lq : Fin nq → ℝ)
    (lr : ℕ → Fin ncr → ℝ) (z : Var (nColloc m) nx nu → ℝ) :
    ∑ i : Fin (nColloc m), ∑ k, ld i k * dynSpec env m ocp.f.val i k z + ∑ k, lq k * integralSpec env m ocp.g.val k z +
      ∑ i : Fin (nColloc m), ∑ k, lr i k * evalSpec env m ocp.cr.val true i k z = meshL ocp env m ld lq lr z := by
  have e2 : ∑ k, lq k * integralSpec env m ocp.g.val k z = ∑ i : Fin (nColloc m), ∑ k,
      lq k * ((z .tf - z .t0) * (wAt env m i * ocp.g.val (nodePt (tauAt env m i) i z) k)) := by
    rw [Finset.sum_comm]
    refine Finset.sum_congr rfl fun k _ => ?_
    rw [integralSpec, Finset.mul_sum, Finset.mul_sum]
  rw [e2, ← Finset.sum_add_distrib, ← Finset.sum_add_distrib, meshL]
  refine Finset.sum_congr rfl fun i _ => ?_
  simp only [dynSpec, evalSpec, ham, if_true, Pi.zero_apply, zero_mul, Finset.sum_const_zero, add_zero, zero_add]
  simp only [mul_sub, mul_add, Finset.mul_sum, Finset.sum_sub_distrib]
  have c1 : ∀ k, ld i k * (wAt env m i * ((z .tf - z .t0) * ocp.f.val (nodePt (tauAt env m i) i z) k)) =
      wAt env m i * ((z .tf - z .t0) * (ld i k * ocp.f.val (nodePt (tauAt env m i) i z) k)) := fun k => by ring
  have c2 : ∀ k, ld i k * (wAt env m i * slope env (spans 1 m) (coordAt z k) i) =
      wAt env m i * (ld i k * slope env (spans 1 m) (coordAt z k) i) := fun k => by ring
  have c3 : ∀ k, lq k * ((z .tf - z .t0) * (wAt env m i * ocp.g.val (nodePt (tauAt env m i) i z) k)) =
      wAt env m i * ((z .tf - z .t0) * (lq k * ocp.g.val (nodePt (tauAt env m i) i z) k)) := fun k => by ring
  have c4 : ∀ k, lr i k * (wAt env m i * ocp.cr.val (nodePt (tauAt env m i) i z) k) =
      wAt env m i * (lr i k * ocp.cr.val (nodePt (tauAt env m i) i z) k) := fun k => by ring
  simp only [c1, c2, c3, c4]
  ring

theorem pull_add {N : ℕ} (tau : ℝ) (i : Fin N) (a b : ℝ) (φ ψ : Arg nx nu → ℝ) (v : Var N nx nu) :
    pull tau i (fun x => a * φ x + b * ψ x) v = a * pull tau i φ v + b * pull tau i ψ v := by
  cases v <;> simp only [pull]
  · ring
  · ring
  · split_ifs <;> ring
  · split_ifs <;> ring

theorem ham_split {ocp : OCP ℝ nx nu nq ncr nce} (hd : IsDrOCP ocp) (p : Fin nx → ℝ) (μ : Fin nq → ℝ) (ν : Fin ncr → ℝ) {T : ℝ} (hT : T ≠ 0)
    (a : Arg nx nu) (x : Arg nx nu → ℝ) :
    T * pd (ham ocp p μ 0) a x + pd (ham ocp 0 0 ν) a x = T * pd (ham ocp p μ fun k => ν k / T) a x := by
  have e : ham ocp p μ (fun k => ν k / T) = fun x => ham ocp p μ 0 x + T⁻¹ * ham ocp 0 0 ν x := by
    funext x
    simp only [ham, Pi.zero_apply, zero_mul, Finset.sum_const_zero, add_zero, zero_add, Finset.mul_sum]
    congr 1
    refine Finset.sum_congr rfl fun k _ => ?_
    rw [div_eq_mul_inv]; ring
  have d1 := contDiff_differentiable (ham_contDiff hd p μ 0)
  have d2 := contDiff_differentiable (ham_contDiff hd 0 0 ν)
  rw [e, pd_add (d1 x) ((d2.const_mul T⁻¹) x), pd_const_mul _ (d2 x)]
  field_simp

/-- The gradient of the part over the mesh, at a positive length of time. -/
theorem pd_meshL {ocp : OCP ℝ nx nu nq ncr nce} (hd : IsDrOCP ocp) (env : Mesh.Env ℝ) (m : Mesh ℝ) (ld : ℕ → Fin nx → ℝ) (lq : Fin nq → ℝ)
    (lr : ℕ → Fin ncr → ℝ) (z : Var (nColloc m) nx nu → ℝ) (hz : z .tf - z .t0 ≠ 0) (w : Var (nColloc m) nx nu) :
    pd (meshL ocp env m ld lq lr) w z = ∑ i : Fin (nColloc m), wAt env m i *
      (dspan w * ham ocp (ld i) lq 0 (nodePt (tauAt env m i) i z) + (z .tf - z .t0) *
        pull (tauAt env m i) i (fun a => pd (ham ocp (ld i) lq fun k => lr i k / (z .tf - z .t0)) a (nodePt (tauAt env m i) i z)) w -
        ∑ k, ld i k * slope env (spans 1 m) (coordAt (unit w) k) i) := by
  have d1 : ∀ i : Fin (nColloc m), Differentiable ℝ fun z : Var (nColloc m) nx nu → ℝ => ham ocp (ld i) lq 0 (nodePt (tauAt env m i) i z) :=
    fun i => contDiff_differentiable (comp_contDiff (ham_contDiff hd _ _ _) _ i)
  have d2 : ∀ i : Fin (nColloc m), Differentiable ℝ fun z : Var (nColloc m) nx nu → ℝ => ham ocp 0 0 (lr i) (nodePt (tauAt env m i) i z) :=
    fun i => contDiff_differentiable (comp_contDiff (ham_contDiff hd _ _ _) _ i)
  have d3 : ∀ (i : Fin (nColloc m)) k, Differentiable ℝ fun z : Var (nColloc m) nx nu → ℝ => slope env (spans 1 m) (coordAt z k) i :=
    fun i k => contDiff_differentiable (slopeAt_contDiff env _ k i)
  have d4 : Differentiable ℝ fun z : Var (nColloc m) nx nu → ℝ => z .tf - z .t0 := contDiff_differentiable span_contDiff
  have d5 : ∀ i : Fin (nColloc m), Differentiable ℝ fun z : Var (nColloc m) nx nu → ℝ =>
      (z .tf - z .t0) * ham ocp (ld i) lq 0 (nodePt (tauAt env m i) i z) := fun i => d4.mul (d1 i)
  have d6 : ∀ i : Fin (nColloc m), Differentiable ℝ fun z : Var (nColloc m) nx nu → ℝ =>
      ∑ k, ld i k * slope env (spans 1 m) (coordAt z k) i := fun i =>
    Differentiable.fun_sum fun k _ => (d3 i k).const_mul _
  unfold meshL
  rw [pd_sum (fun i _ => ((((d5 i).fun_add (d2 i)).fun_sub (d6 i)).const_mul _) z)]
  refine Finset.sum_congr rfl fun i _ => ?_
  rw [pd_const_mul _ ((((d5 i).fun_add (d2 i)).fun_sub (d6 i)) z), pd_sub (((d5 i).fun_add (d2 i)) z) (d6 i z), pd_add (d5 i z) (d2 i z),
    pd_span_mul (d1 i z), pd_sum (fun k _ => ((d3 i k).const_mul _) z)]
  have e1 : ∀ k, pd (fun z => ld i k * slope env (spans 1 m) (coordAt z k) i) w z = ld i k * slope env (spans 1 m) (coordAt (unit w) k) i := by
    intro k
    rw [pd_const_mul _ (d3 i k z), pd_slopeAt]
  simp only [e1]
  rw [pd_at_node (contDiff_differentiable (ham_contDiff hd _ _ _)), pd_at_node (contDiff_differentiable (ham_contDiff hd _ _ _))]
  congr 2
  rw [add_assoc]
  congr 1
  have h := pull_add (tauAt env m i) i (z .tf - z .t0) 1 (fun a => pd (ham ocp (ld i) lq 0) a (nodePt (tauAt env m i) i z))
    (fun a => pd (ham ocp 0 0 (lr i)) a (nodePt (tauAt env m i) i z)) w
  rw [one_mul] at h
  rw [← h]
  have h' := pull_add (tauAt env m i) i (z .tf - z .t0) 0 (fun a => pd (ham ocp (ld i) lq fun k => lr i k / (z .tf - z .t0)) a (nodePt (tauAt env m i) i z))
    (fun _ => 0) w
  simp only [zero_mul, add_zero] at h'
  rw [← h']
  congr 1
  funext a
  rw [one_mul, ham_split hd _ _ _ hz]

/-- Sums over the constraints. -/
theorem sum_con {N : ℕ} (F : NCon N nx nq ncr nce → ℝ) :
    ∑ c, F c = ∑ i, ∑ k, F (.dyn i k) + ∑ k, F (.int k) + ∑ i, ∑ k, F (.cr i k) + ∑ k, F (.ce k) := by
  let e : ((Fin N × Fin nx) ⊕ Fin nq) ⊕ ((Fin N × Fin ncr) ⊕ Fin nce) ≃ NCon N nx nq ncr nce :=
    { toFun := fun s => match s with
        | .inl (.inl p) => .dyn p.1 p.2
        | .inl (.inr k) => .int k
        | .inr (.inl p) => .cr p.1 p.2
        | .inr (.inr k) => .ce k
      invFun := fun c => match c with
        | .dyn i k => .inl (.inl (i, k))
        | .int k => .inl (.inr k)
        | .cr i k => .inr (.inl (i, k))
        | .ce k => .inr (.inr k)
      left_inv := by rintro ((p | k) | (p | k)) <;> rfl
      right_inv := by intro c; cases c <;> rfl }
  rw [← e.sum_comp, Fintype.sum_sum_type, Fintype.sum_sum_type, Fintype.sum_sum_type, Fintype.sum_prod_type, Fintype.sum_prod_type]
  simp only [e, Equiv.coe_fn_mk]
  ring

/-- The gradient of the Lagrangian. -/
theorem pd_lagrangian {ocp : OCP ℝ nx nu nq ncr nce} (hd : IsDrOCP ocp) (env : Mesh.Env ℝ) (m : Mesh ℝ) (ws : ℝ) (ld : ℕ → Fin nx → ℝ)
    (lq : Fin nq → ℝ) (lr : ℕ → Fin ncr → ℝ) (le : Fin nce → ℝ) (lam : NCon (nColloc m) nx nq ncr nce → ℝ)
    (h1 : ∀ i k, lam (.dyn i k) = ld i k) (h2 : ∀ k, lam (.int k) = lq k) (h3 : ∀ i k, lam (.cr i k) = lr i k) (h4 : ∀ k, lam (.ce k) = le k)
    (z : NVar (nColloc m) nx nu nq → ℝ) (v : NVar (nColloc m) nx nu nq) :
    pd (objective ocp) v z + ∑ c, lam c * pd (conFn ocp env m ws c) v z =
      pullE (fun a => pd (endCost ocp le) a (ends z)) v + ws * (pullM (fun a => pd (meshL ocp env m ld lq lr) a (onMesh z)) v -
        ∑ k, lq k * if NVar.q k = v then 1 else 0) := by
  have dc : ∀ c, Differentiable ℝ (conFn ocp env m ws c) := fun c => contDiff_differentiable (conFn_contDiff env m ocp hd ws c)
  have dO : Differentiable ℝ (objective ocp : (NVar (nColloc m) nx nu nq → ℝ) → ℝ) :=
    contDiff_differentiable ((hd.theta.smooth 0).comp ends_contDiff')
  have dE : Differentiable ℝ (endCost ocp le) := contDiff_differentiable (endCost_contDiff hd le)
  have dE' : Differentiable ℝ fun z : NVar (nColloc m) nx nu nq → ℝ => endCost ocp le (ends z) :=
    dE.comp (ends_contDiff'.differentiable (by norm_num))
  have dM : Differentiable ℝ (meshL ocp env m ld lq lr : (Var (nColloc m) nx nu → ℝ) → ℝ) := by
    have e : (meshL ocp env m ld lq lr : (Var (nColloc m) nx nu → ℝ) → ℝ) = fun z => _ := funext fun z => (meshL_eq ocp env m ld lq lr z).symm
    rw [e]
    refine (Differentiable.add ?_ ?_).add ?_
    · exact Differentiable.fun_sum fun i _ => Differentiable.fun_sum fun k _ =>
        (contDiff_differentiable (dynSpec_contDiff hd.f env m i k)).const_mul _
    · exact Differentiable.fun_sum fun k _ => (contDiff_differentiable (integralSpec_contDiff hd.g env m k)).const_mul _
    · exact Differentiable.fun_sum fun i _ => Differentiable.fun_sum fun k _ =>
        (contDiff_differentiable (evalSpec_contDiff hd.cr env m true i k)).const_mul _
  have dM' : Differentiable ℝ fun z : NVar (nColloc m) nx nu nq → ℝ => meshL ocp env m ld lq lr (onMesh z) :=
    dM.comp (onMesh_contDiff'.differentiable (by norm_num))
  have dQ : Differentiable ℝ fun z : NVar (nColloc m) nx nu nq → ℝ => ∑ k, lq k * z (.q k) :=
    Differentiable.fun_sum fun k _ => (differentiable_coord _).const_mul _
  have e1 : ∀ c, lam c * pd (conFn ocp env m ws c) v z = pd (fun z => lam c * conFn ocp env m ws c z) v z :=
    fun c => (pd_const_mul _ (dc c z) v).symm
  simp only [e1]
  rw [← pd_sum (fun c _ => ((dc c).const_mul _) z), ← pd_add (dO z) ((Differentiable.fun_sum fun c _ => (dc c).const_mul _) z)]
  have e2 : (fun z => objective ocp z + ∑ c, lam c * conFn ocp env m ws c z) = fun z : NVar (nColloc m) nx nu nq → ℝ =>
      endCost ocp le (ends z) + ws * (meshL ocp env m ld lq lr (onMesh z) - ∑ k, lq k * z (.q k)) := by
    funext z
    rw [sum_con, ← meshL_eq]
    simp only [h1, h2, h3, h4, conFn, objective, endCost]
    have c1 : ∀ (i : Fin (nColloc m)) k, ld i k * (ws * dynSpec env m ocp.f.val i k (onMesh z)) = ws * (ld i k * dynSpec env m ocp.f.val i k (onMesh z)) := fun i k => by ring
    have c2 : ∀ k, lq k * (ws * (integralSpec env m ocp.g.val k (onMesh z) - z (.q k))) =
        ws * (lq k * integralSpec env m ocp.g.val k (onMesh z)) - ws * (lq k * z (.q k)) := fun k => by ring
    have c3 : ∀ (i : Fin (nColloc m)) k, lr i k * (ws * evalSpec env m ocp.cr.val true i k (onMesh z)) =
        ws * (lr i k * evalSpec env m ocp.cr.val true i k (onMesh z)) := fun i k => by ring
    simp only [c1, c2, c3, Finset.sum_sub_distrib, ← Finset.mul_sum]
    ring
  rw [e2, pd_add (dE' z) (((dM'.fun_sub dQ).const_mul ws) z), pd_const_mul _ ((dM'.fun_sub dQ) z), pd_sub (dM' z) (dQ z), pd_ends dE, pd_mesh dM,
    pd_sum (fun k _ => ((differentiable_coord _).const_mul _) z)]
  congr 3
  refine Finset.sum_congr rfl fun k _ => ?_
  rw [pd_const_mul _ (differentiable_coord _ z), pd_coord]

end Verif.NLP
