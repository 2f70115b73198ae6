import Verif.Props.OCPQP
import Verif.Props.OCPNLPExamples

/-! # The cost of the quadratic program (C33) -/

set_option linter.unusedSectionVars false

namespace Verif.OQP

open Verif.Mesh Verif.Sparse Verif.MeshFn Verif.NLP Verif.QP Verif.QPSpec

variable {N nx nu ncr nce : ℕ} {ι κ : Type*} [Fintype ι] [DecidableEq ι] [Fintype κ] [DecidableEq κ]

theorem dir_differentiable {f : (ι → ℝ) → ℝ} (hf : ContDiff ℝ 2 f) (d : ι → ℝ) : Differentiable ℝ fun y => fderiv ℝ f y d := by
  have h1 : ContDiff ℝ 1 (fderiv ℝ f) := hf.fderiv_right (by norm_num)
  exact (h1.clm_apply contDiff_const).differentiable (by norm_num)

/-- Second derivatives commute. -/
theorem pd_comm {f : (ι → ℝ) → ℝ} (hf : ContDiff ℝ 2 f) (a b : ι) (p : ι → ℝ) : pd (pd f a) b p = pd (pd f b) a p := by
  have h1 : ContDiff ℝ 1 (fderiv ℝ f) := hf.fderiv_right (by norm_num)
  have hd : DifferentiableAt ℝ (fderiv ℝ f) p := h1.differentiable (by norm_num) p
  have key : ∀ a b : ι, pd (pd f a) b p = fderiv ℝ (fderiv ℝ f) p (Pi.single b 1) (Pi.single a 1) := by
    intro a b
    unfold pd
    rw [fderiv_clm_apply hd (differentiableAt_const _)]
    simp
  rw [key, key]
  exact (hf.contDiffAt.isSymmSndFDerivAt (by simp)).eq _ _

/-- The quadratic form from the partial derivatives. -/
theorem second_eq {f : (ι → ℝ) → ℝ} (hf : ContDiff ℝ 2 f) (p d : ι → ℝ) : second f p d = ∑ a, ∑ b, pd (pd f a) b p * d a * d b := by
  have : (fun y => fderiv ℝ f y d) = fun y => ∑ a, d a * pd f a y := by
    funext y
    rw [fderiv_pd]
    exact Finset.sum_congr rfl fun a _ => mul_comm _ _
  unfold second
  rw [this, fderiv_pd, Finset.sum_comm]
  refine Finset.sum_congr rfl fun b _ => ?_
  rw [pd_sum (fun a _ => ((pd_differentiable hf a).const_mul (d a)) p)]
  rw [Finset.sum_mul]
  refine Finset.sum_congr rfl fun a _ => ?_
  rw [pd_const_mul _ (pd_differentiable hf a p)]
  ring

theorem fderiv_affine {g : (κ → ℝ) → ℝ} (hg : Differentiable ℝ g) (c : κ → ℝ) (L : (ι → ℝ) →L[ℝ] (κ → ℝ)) (y d : ι → ℝ) :
    fderiv ℝ (fun y => g (c + L y)) y d = fderiv ℝ g (c + L y) (L d) := by
  have hL : HasFDerivAt (fun y => c + L y) L y := L.hasFDerivAt.const_add c
  have := ((hg (c + L y)).hasFDerivAt.comp y hL).fderiv
  change fderiv ℝ (fun y => g (c + L y)) y = _ at this
  rw [this]; rfl

theorem second_affine {g : (κ → ℝ) → ℝ} (hg : ContDiff ℝ 2 g) (c : κ → ℝ) (L : (ι → ℝ) →L[ℝ] (κ → ℝ)) (y d : ι → ℝ) :
    second (fun y => g (c + L y)) y d = second g (c + L y) (L d) := by
  unfold second
  simp only [fderiv_affine (contDiff_differentiable hg)]
  exact fderiv_affine (dir_differentiable hg (L d)) c L y d

/-- The deviations of the variables over the mesh and of the end points, as linear maps. -/
noncomputable def liftV : (QVar N nx nu → ℝ) →L[ℝ] (Var N nx nu → ℝ) := LinearMap.toContinuousLinearMap
  { toFun := fun z v => match v with
      | .t0 => 0
      | .tf => 0
      | .x i k => z (.x i k)
      | .u i k => z (.u i k)
    map_add' := fun x y => by funext v; cases v <;> simp
    map_smul' := fun c x => by funext v; cases v <;> simp }
noncomputable def liftE : (QVar N nx nu → ℝ) →L[ℝ] (EArg nx 1 → ℝ) := LinearMap.toContinuousLinearMap
  { toFun := devEnd
    map_add' := fun x y => by funext v; cases v <;> simp [devEnd]
    map_smul' := fun c x => by funext v; cases v <;> simp [devEnd] }

theorem liftE_apply (z : QVar N nx nu → ℝ) : liftE z = devEnd z := rfl

theorem trajVars_eq (env : Mesh.Env ℝ) (m : Mesh ℝ) (lin : Lin ℝ nx nu) (tf : ℝ) (z : QVar (nColloc m) nx nu → ℝ) :
    trajVars env m lin tf z = linVars env m lin tf + liftV z := by
  funext v
  cases v <;> simp [trajVars, linVars, liftV]

theorem trajEnd_eq (lin : Lin ℝ nx nu) (tf : ℝ) (z : QVar N nx nu → ℝ) (q : ℝ) :
    trajEnd lin tf z q = Function.update (linEnd lin tf + liftE z) (.q 0) q := by
  funext v
  cases v with
  | q k => rw [Subsingleton.elim k 0]; simp [trajEnd]
  | tf => simp [trajEnd, linEnd, liftE_apply, devEnd]
  | x0 k => simp [trajEnd, linEnd, liftE_apply, devEnd]
  | xf k => simp [trajEnd, linEnd, liftE_apply, devEnd]

theorem trajCost_eq (env : Mesh.Env ℝ) (m : Mesh ℝ) (ocp : OCP ℝ nx nu 1 ncr nce) (lin : Lin ℝ nx nu) (tf b : ℝ)
    (hb : LinearInIntegral (fun e => ocp.theta.val e 0) b) :
    trajCost env m ocp lin tf = fun z => ocp.theta.val (linEnd lin tf + liftE z) 0 +
      b * (intCost env m ocp (linVars env m lin tf + liftV z) - 1) := by
  funext z
  unfold trajCost
  rw [trajEnd_eq]
  have := hb (linEnd lin tf + liftE z) (integralSpec env m ocp.g.val 0 (trajVars env m lin tf z))
  simp only at this
  rw [this, trajVars_eq]
  simp [linEnd, liftE_apply, devEnd, intCost]

/-- The weight of the integral is its partial derivative. -/
theorem pd_integral {th : (EArg nx 1 → ℝ) → ℝ} (hth : Differentiable ℝ th) {b : ℝ} (hb : LinearInIntegral th b) (e : EArg nx 1 → ℝ) :
    pd th (.q 0) e = b := by
  have h1 : HasDerivAt (fun t : ℝ => e + t • (Pi.single (.q 0) 1 : EArg nx 1 → ℝ)) (Pi.single (.q 0) 1) 0 := by
    have := ((hasDerivAt_id (0 : ℝ)).smul_const (Pi.single (.q 0) 1 : EArg nx 1 → ℝ)).const_add e
    simpa using this
  have h2 : HasDerivAt (fun t : ℝ => th (e + t • (Pi.single (.q 0) 1 : EArg nx 1 → ℝ))) (pd th (.q 0) e) 0 := by
    have h3 : HasFDerivAt th (fderiv ℝ th e) (e + (0 : ℝ) • (Pi.single (.q 0) 1 : EArg nx 1 → ℝ)) := by
      rw [zero_smul, add_zero]; exact (hth e).hasFDerivAt
    exact h3.comp_hasDerivAt 0 h1
  have h4 : (fun t : ℝ => th (e + t • (Pi.single (.q 0) 1 : EArg nx 1 → ℝ))) = fun t => th e + b * t := by
    funext t
    have : e + t • (Pi.single (.q 0) 1 : EArg nx 1 → ℝ) = Function.update e (.q 0) (e (.q 0) + t) := by
      funext a
      by_cases h : a = .q 0
      · subst h; simp
      · simp [h]
    rw [this, hb]
    ring
  rw [h4] at h2
  have h5 : HasDerivAt (fun t : ℝ => th e + b * t) b 0 := by
    have := ((hasDerivAt_id (0 : ℝ)).const_mul b).const_add (th e)
    simpa using this
  exact h2.unique h5

theorem intCost_smooth (env : Mesh.Env ℝ) (m : Mesh ℝ) (ocp : OCP ℝ nx nu 1 ncr nce) (hg : IsDr ocp.g) : ContDiff ℝ 2 (intCost env m ocp) :=
  integralSpec_contDiff hg env m 0

/-- Sums over the variables of the mesh that do not move the time. -/
theorem sum_lift (φ : Var N nx nu → ℝ) (z : QVar N nx nu → ℝ) : ∑ v, φ v * liftV z v = ∑ v : QVar N nx nu, φ v.toVar * z v := by
  symm
  refine Fintype.sum_of_injective QVar.toVar (fun v w h => ?_) _ _ (fun v hv => ?_) fun v => ?_
  · cases v <;> cases w <;> simp_all [QVar.toVar]
  · cases v with
    | t0 => exact mul_zero _
    | tf => exact mul_zero _
    | x i k => exact absurd ⟨.x i k, rfl⟩ hv
    | u i k => exact absurd ⟨.u i k, rfl⟩ hv
  · cases v <;> rfl

theorem pullQQ_comm {φ : EArg nx 1 → EArg nx 1 → ℝ} (h : ∀ a b, φ a b = φ b a) (v w : QVar N nx nu) : pullQQ φ v w = pullQQ φ w v := by
  unfold pullQQ
  cases v with
  | u i k => cases w <;> simp [pullQ]
  | x i k =>
    cases w with
    | u j l => simp [pullQ]
    | x j l =>
      simp only [pullQ]
      rw [h (.x0 l) (.x0 k), h (.xf l) (.x0 k), h (.x0 l) (.xf k), h (.xf l) (.xf k)]
      split_ifs <;> ring

theorem sum_pullQQ (φ : EArg nx 1 → EArg nx 1 → ℝ) (z : QVar N nx nu → ℝ) :
    ∑ v, ∑ w, pullQQ φ v w * z v * z w = ∑ a, ∑ b, φ a b * devEnd z a * devEnd z b := by
  have h1 : ∀ w, ∑ v, pullQQ φ v w * z v * z w = (∑ a, pullQ (fun b => φ a b) w * devEnd z a) * z w := by
    intro w
    rw [← Finset.sum_mul, ← sum_pullQ (fun a => pullQ (fun b => φ a b) w)]
    rfl
  rw [Finset.sum_comm]
  simp only [h1, Finset.sum_mul]
  rw [Finset.sum_comm]
  refine Finset.sum_congr rfl fun a _ => ?_
  have h2 := sum_pullQ (φ a) z
  calc ∑ w, pullQ (fun b => φ a b) w * devEnd z a * z w = (∑ w, pullQ (φ a) w * z w) * devEnd z a := by
        rw [Finset.sum_mul]; exact Finset.sum_congr rfl fun w _ => by ring
    _ = _ := by rw [h2, Finset.sum_mul]; exact Finset.sum_congr rfl fun w _ => by ring

theorem sum_lift2 (φ : Var N nx nu → Var N nx nu → ℝ) (z : QVar N nx nu → ℝ) :
    ∑ v, ∑ w, φ v w * liftV z v * liftV z w = ∑ v : QVar N nx nu, ∑ w : QVar N nx nu, φ v.toVar w.toVar * z v * z w := by
  have h1 : ∀ v, ∑ w, φ v w * liftV z v * liftV z w = (∑ w : QVar N nx nu, φ v w.toVar * z w) * liftV z v := by
    intro v
    rw [← sum_lift, Finset.sum_mul]
    exact Finset.sum_congr rfl fun w _ => by ring
  simp only [h1]
  rw [sum_lift (fun v => ∑ w : QVar N nx nu, φ v w.toVar * z w)]
  refine Finset.sum_congr rfl fun v _ => ?_
  rw [Finset.sum_mul]
  exact Finset.sum_congr rfl fun w _ => by ring

/-- **C33 (partial).** Let the cost be linear in the integral. Then the objective of the program is the second-order expansion of the
cost of the trajectory at the linearisation, without its constant, minus a quarter of the second derivative of the end cost in
the direction of the deviation of the end points. Missing for the full claim: the last term, which the claim does not have; the
code multiplies the second derivatives of the end cost by one half although the objective already has the factor
(ocp_to_qp.hpp:189-191); `ocp_qp_cost_wrong` shows that the claim fails. -/
theorem ocp_qp_cost_partial (env : Mesh.Env ℝ) (m : Mesh ℝ) (hm : m ≠ []) (hK : ∀ v ∈ m, 1 ≤ v.K) (ocp : OCP ℝ nx nu 1 ncr nce) (ho : IsDrOCP ocp)
    (ad : Option ((Fin nx → ℝ) → Sp ℝ)) (hA : IsAd ad) (tf : ℝ) (lin : Lin ℝ nx nu) (b : ℝ)
    (hb : LinearInIntegral (fun e => ocp.theta.val e 0) b) :
    ∃ qp, ocpToQp env m ocp ad tf lin = some qp ∧ ∀ (z : QVar (nColloc m) nx nu → ℝ) x, IsPrimal z x →
      cost (toPbm qp (numV (nColloc m) nx nu) (numC (nColloc m) nx ncr nce)) x =
        fderiv ℝ (trajCost env m ocp lin tf) 0 z + second (trajCost env m ocp lin tf) 0 z / 2 -
          second (fun e => ocp.theta.val e 0) (linEnd lin tf) (devEnd z) / 4 := by
  obtain ⟨qp, e, hB⟩ := ocpToQp_built env m hm hK ocp ho ad hA tf lin
  refine ⟨qp, e, fun z x hx => ?_⟩
  set th : (EArg nx 1 → ℝ) → ℝ := fun e => ocp.theta.val e 0 with hthd
  have hth : ContDiff ℝ 2 th := ho.theta.smooth 0
  have hI := intCost_smooth env m ocp ho.g
  have hpb : pd th (.q 0) (linEnd lin tf) = b := pd_integral (contDiff_differentiable hth) hb _
  set l0 := linVars env m lin tf with hl0
  set e0 := linEnd lin tf with he0
  -- the derivatives of the cost of the trajectory
  have hfun : trajCost env m ocp lin tf = fun z => th (e0 + liftE z) + b * (intCost env m ocp (l0 + liftV z) - 1) := trajCost_eq env m ocp lin tf b hb
  have hd1 : ∀ y : QVar (nColloc m) nx nu → ℝ, DifferentiableAt ℝ (fun z : QVar (nColloc m) nx nu → ℝ => th (e0 + liftE z)) y := fun y =>
    ((contDiff_differentiable hth) _).comp y ((liftE).differentiableAt.const_add e0)
  have hd2 : ∀ y : QVar (nColloc m) nx nu → ℝ, DifferentiableAt ℝ (fun z : QVar (nColloc m) nx nu → ℝ => intCost env m ocp (l0 + liftV z)) y := fun y =>
    ((contDiff_differentiable hI) _).comp y ((liftV).differentiableAt.const_add l0)
  have hf1 : ∀ y d : QVar (nColloc m) nx nu → ℝ, fderiv ℝ (trajCost env m ocp lin tf) y d =
      fderiv ℝ th (e0 + liftE y) (liftE d) + b * fderiv ℝ (intCost env m ocp) (l0 + liftV y) (liftV d) := by
    intro y d
    rw [hfun, fderiv_fun_add (hd1 y) (((hd2 y).sub_const 1).const_mul b), fderiv_const_mul ((hd2 y).sub_const 1), fderiv_sub_const]
    simp only [ContinuousLinearMap.add_apply, ContinuousLinearMap.smul_apply, smul_eq_mul]
    rw [fderiv_affine (contDiff_differentiable hth), fderiv_affine (contDiff_differentiable hI)]
  have hf2 : second (trajCost env m ocp lin tf) 0 z = second th e0 (devEnd z) + b * second (intCost env m ocp) l0 (liftV z) := by
    have g1 := dir_differentiable hth (liftE z)
    have g2 := dir_differentiable hI (liftV z)
    have k1 : DifferentiableAt ℝ (fun y : QVar (nColloc m) nx nu → ℝ => fderiv ℝ th (e0 + liftE y) (liftE z)) 0 :=
      (g1 _).comp 0 ((liftE).differentiableAt.const_add e0)
    have k2 : DifferentiableAt ℝ (fun y : QVar (nColloc m) nx nu → ℝ => fderiv ℝ (intCost env m ocp) (l0 + liftV y) (liftV z)) 0 :=
      (g2 _).comp 0 ((liftV).differentiableAt.const_add l0)
    unfold second
    simp only [hf1]
    rw [fderiv_fun_add k1 (k2.const_mul b), fderiv_const_mul k2]
    simp only [ContinuousLinearMap.add_apply, ContinuousLinearMap.smul_apply, smul_eq_mul]
    rw [fderiv_affine g1, fderiv_affine g2]
    simp only [map_zero, add_zero, liftE_apply]
  -- the objective
  have hq : (toPbm qp (numV (nColloc m) nx nu) (numC (nColloc m) nx ncr nce)).q ⬝ᵥ x =
      b * fderiv ℝ (intCost env m ocp) l0 (liftV z) + fderiv ℝ th e0 (devEnd z) := by
    unfold dotProduct
    rw [sum_vars]
    have : ∀ v : QVar (nColloc m) nx nu, (toPbm qp (numV (nColloc m) nx nu) (numC (nColloc m) nx ncr nce)).q ⟨v.pos, v.pos_lt⟩ * x ⟨v.pos, v.pos_lt⟩ =
        b * (pd (intCost env m ocp) v.toVar l0 * z v) + pullQ (fun a => pd th a e0) v * z v := by
      intro v
      rw [hx v v.pos_lt]
      change qp.q.val v.pos * _ = _
      rw [hB.q, hpb]
      ring
    simp only [this, Finset.sum_add_distrib, ← Finset.mul_sum, sum_pullQ, fderiv_pd, sum_lift]
  have hP : ∀ v w : QVar (nColloc m) nx nu, (toPbm qp (numV (nColloc m) nx nu) (numC (nColloc m) nx ncr nce)).P ⟨v.pos, v.pos_lt⟩ ⟨w.pos, w.pos_lt⟩ =
      b * pd (pd (intCost env m ocp) v.toVar) w.toVar l0 + 1 / 2 * pullQQ (fun a b => pd (pd th a) b e0) v w := by
    intro v w
    change (if v.pos ≤ w.pos then qp.P.val v.pos w.pos else qp.P.val w.pos v.pos) = _
    by_cases h : v.pos ≤ w.pos
    · rw [if_pos h, hB.P, if_pos h, hpb]
    · rw [if_neg h, hB.P, if_pos (le_of_not_ge h), hpb, pd_comm hI]
      congr 2
      exact pullQQ_comm (fun a b => pd_comm hth a b e0) w v
  have hPx : x ⬝ᵥ ((toPbm qp (numV (nColloc m) nx nu) (numC (nColloc m) nx ncr nce)).P).mulVec x =
      b * second (intCost env m ocp) l0 (liftV z) + 1 / 2 * second th e0 (devEnd z) := by
    unfold dotProduct Matrix.mulVec dotProduct
    rw [sum_vars]
    simp only [sum_vars (N := nColloc m) (nx := nx) (nu := nu), hP, hx _ (QVar.pos_lt _)]
    rw [second_eq hI, second_eq hth, sum_lift2, ← sum_pullQQ, Finset.mul_sum, Finset.mul_sum, ← Finset.sum_add_distrib]
    refine Finset.sum_congr rfl fun v _ => ?_
    rw [Finset.mul_sum, Finset.mul_sum, Finset.mul_sum, ← Finset.sum_add_distrib]
    exact Finset.sum_congr rfl fun w _ => by ring
  unfold cost
  rw [hPx, hq, hf1, hf2]
  simp only [map_zero, add_zero, liftE_apply]
  ring

/-- If the end cost has no second derivatives in the end states, the objective is the second-order expansion. -/
theorem ocp_qp_cost_exact (env : Mesh.Env ℝ) (m : Mesh ℝ) (hm : m ≠ []) (hK : ∀ v ∈ m, 1 ≤ v.K) (ocp : OCP ℝ nx nu 1 ncr nce) (ho : IsDrOCP ocp)
    (ad : Option ((Fin nx → ℝ) → Sp ℝ)) (hA : IsAd ad) (tf : ℝ) (lin : Lin ℝ nx nu) (b : ℝ)
    (hb : LinearInIntegral (fun e => ocp.theta.val e 0) b)
    (h2 : ∀ z : QVar (nColloc m) nx nu → ℝ, second (fun e => ocp.theta.val e 0) (linEnd lin tf) (devEnd z) = 0) :
    ∃ qp, ocpToQp env m ocp ad tf lin = some qp ∧ ∀ (z : QVar (nColloc m) nx nu → ℝ) x, IsPrimal z x →
      cost (toPbm qp (numV (nColloc m) nx nu) (numC (nColloc m) nx ncr nce)) x =
        fderiv ℝ (trajCost env m ocp lin tf) 0 z + second (trajCost env m ocp lin tf) 0 z / 2 := by
  obtain ⟨qp, e, h⟩ := ocp_qp_cost_partial env m hm hK ocp ho ad hA tf lin b hb
  exact ⟨qp, e, fun z x hx => by rw [h z x hx, h2, zero_div, sub_zero]⟩

theorem exOCP'_linear : LinearInIntegral (fun e => exOCP'.theta.val e 0) 1 := by
  intro e c
  simp only [exOCP', drE, Function.update_self, ne_eq, reduceCtorEq, not_false_eq_true, Function.update_of_ne]
  ring

theorem exOCP'_second (p d : EArg 1 1 → ℝ) : second (fun e => exOCP'.theta.val e 0) p d = 2 * d (.xf 0) ^ 2 := by
  have h0 : (fun e : EArg 1 1 → ℝ => exOCP'.theta.val e 0) = fun e => e (.q 0) + e (.xf 0) * e (.xf 0) := rfl
  have hd := fun (k : EArg 1 1) (y : EArg 1 1 → ℝ) => differentiable_coord k y
  have h1 : ∀ y, fderiv ℝ (fun e : EArg 1 1 → ℝ => e (.q 0) + e (.xf 0) * e (.xf 0)) y d = d (.q 0) + 2 * d (.xf 0) * y (.xf 0) := by
    intro y
    have hp : ∀ a, pd (fun e : EArg 1 1 → ℝ => e (.q 0) + e (.xf 0) * e (.xf 0)) a y =
        (if EArg.q 0 = a then 1 else 0) + ((if EArg.xf 0 = a then 1 else 0) * y (.xf 0) + y (.xf 0) * (if EArg.xf 0 = a then 1 else 0)) := by
      intro a
      rw [pd_add (f := fun e : EArg 1 1 → ℝ => e (.q 0)) (g := fun e => e (.xf 0) * e (.xf 0)) (hd _ y) ((hd _ y).mul (hd _ y)),
        pd_mul (f := fun e : EArg 1 1 → ℝ => e (.xf 0)) (g := fun e => e (.xf 0)) (hd _ y) (hd _ y), pd_coord, pd_coord]
    rw [fderiv_pd]
    simp only [hp]
    rw [earg_sum_eq]
    simp
    ring
  unfold second
  rw [h0]
  simp only [h1]
  have hp : ∀ a, pd (fun y : EArg 1 1 → ℝ => d (.q 0) + 2 * d (.xf 0) * y (.xf 0)) a p = 0 + 2 * d (.xf 0) * (if EArg.xf 0 = a then 1 else 0) := by
    intro a
    rw [pd_add (f := fun _ : EArg 1 1 → ℝ => d (.q 0)) (g := fun y => 2 * d (.xf 0) * y (.xf 0)) (differentiableAt_const _) ((hd _ p).const_mul _),
      pd_const, pd_const_mul (f := fun y : EArg 1 1 → ℝ => y (.xf 0)) _ (hd _ p), pd_coord]
  rw [fderiv_pd]
  simp only [hp]
  rw [earg_sum_eq]
  simp
  ring

/-- **C33 fails.** Minimise `q + x(tf)^2` with `q = ∫ u`: no constant makes the objective of the program the second-order expansion of
the cost. -/
theorem ocp_qp_cost_wrong : ∃ (ocp : OCP ℝ 1 1 1 1 1) (m : Mesh ℝ) (env : Mesh.Env ℝ) (lin : Lin ℝ 1 1) (qp : QPD ℝ),
    IsDrOCP ocp ∧ LinearInIntegral (fun e => ocp.theta.val e 0) 1 ∧ ocpToQp env m ocp none 1 lin = some qp ∧
    ¬∃ c, ∀ (z : QVar (nColloc m) 1 1 → ℝ) x, IsPrimal z x → cost (toPbm qp (numV (nColloc m) 1 1) (numC (nColloc m) 1 1 1)) x =
      c + fderiv ℝ (trajCost env m ocp lin 1) 0 z + second (trajCost env m ocp lin 1) 0 z / 2 := by
  obtain ⟨qp, e, h⟩ := ocp_qp_cost_partial (lowEnv ℝ) exMesh (by simp [exMesh]) exMesh_K exOCP' exOCP'_dr none (by intro a h; cases h) 1
    ⟨fun _ _ => 0, fun _ _ => 0, fun _ _ => 0⟩ 1 exOCP'_linear
  refine ⟨exOCP', exMesh, lowEnv ℝ, _, qp, exOCP'_dr, exOCP'_linear, e, ?_⟩
  rintro ⟨c, hc⟩
  obtain ⟨x0, hx0, -⟩ := (qp_layout (nColloc exMesh) 1 1 1 1).1 fun _ => 0
  obtain ⟨x1, hx1, -⟩ := (qp_layout (nColloc exMesh) 1 1 1 1).1 fun _ => 1
  have a0 := h _ _ hx0
  have a1 := h _ _ hx1
  rw [hc _ _ hx0, exOCP'_second] at a0
  rw [hc _ _ hx1, exOCP'_second] at a1
  simp only [devEnd] at a0 a1
  norm_num at a0 a1
  linarith

end Verif.OQP
