import Verif.Spec.OCPQPLieTol
import Verif.Props.OCPQPLie
import Verif.Props.OCPQPTol
import Verif.Props.OCPQPLieExamples

/-! # What an Optimal result on the quadratic program means for a problem on Lie groups (C140) -/

set_option linter.unusedSectionVars false

namespace Verif.OQP

open Verif.Mesh Verif.Sparse Verif.MeshFn Verif.NLP Verif.QP Verif.QPSpec Verif.Lie Verif.Flatten
open Verif.MPC (pbmOf)
open scoped Matrix Topology

variable {X U 𝔸 𝔹 : Type*} [NormedRing 𝔸] [NormedAlgebra ℝ 𝔸] [FiniteDimensional ℝ 𝔸] [CompleteSpace 𝔸] [NormedRing 𝔹] [NormedAlgebra ℝ 𝔹]
  [FiniteDimensional ℝ 𝔹] [CompleteSpace 𝔹]
  {nx nu ncr nce nf : ℕ} {LX : LieOps X ℝ nx} {LU : LieOps U ℝ nu} {mat : X → 𝔸} {hat : (Fin nx → ℝ) →ₗ[ℝ] 𝔸} {matU : U → 𝔹}
  {hatU : (Fin nu → ℝ) →ₗ[ℝ] 𝔹} {lin : GLin X U ℝ nx}

/-- The rows of the program, up to `τ`. -/
theorem built_near_lie (h : IsLie LX mat hat) (h' : IsLie LU matU hatU) {env : Mesh.Env ℝ} {m : Mesh ℝ} {ocp : GOCP X U ℝ nx 1 ncr nce}
    (ho : IsDrGOCP LX LU ocp) {comm : Bool} (hcomm : comm = true → ∀ a, LX.ad a = 0) {tf : ℝ} {qp : QPD ℝ}
    (hB : BuiltRaw env m (localOCP nu ocp lin.x lin.u tf) (localAd LX comm) tf (zeroLin nu lin.dx) qp) (z : QVar (nColloc m) nx nu → ℝ) (τ : ℝ) :
    (∀ c : QCon (nColloc m) nx ncr nce, lower (qp.l.val c.pos) ((∑ v : QVar (nColloc m) nx nu, qp.A.val c.pos v.pos * z v) + τ) ∧
        upper (qp.u.val c.pos) ((∑ v : QVar (nColloc m) nx nu, qp.A.val c.pos v.pos * z v) - τ)) ↔ NearLinG LX LU env m ocp tf lin τ z := by
  have hdyn : ∀ (p : Fin (nColloc m)) (k : Fin nx), ∑ v : QVar (nColloc m) nx nu, qp.A.val (nx * p + k) v.pos * z v =
      tf * fderiv ℝ (fun δ => errDyn LX LU ocp.f lin (tf * tauAt env m p) δ k) 0 (dev z p) - MeshFn.slope env (spans 1 m) (coordQ z k) p := by
    intro p k
    rw [fderiv_pd]
    simp only [(errDyn_hasPd (lin := lin) h h' ho.f (tf * tauAt env m p) k).pd]
    simp only [hB.dyn, sub_mul, add_mul, Finset.sum_sub_distrib, Finset.sum_add_distrib, mul_assoc, ← Finset.mul_sum, slope_unit, sum_pullN]
    congr 1
    rw [mul_add]
    congr 1
    · congr 1
      rw [arg_sum_eq, arg_sum_eq]
      simp only [dev, mul_zero]
      rfl
    · rw [arg_sum_eq, arg_sum_eq]
      simp only [dev, mul_zero, zero_mul, Finset.sum_const_zero, zero_add, add_zero]
      set w : Fin nx → ℝ := (localOCP nu ocp lin.x lin.u tf).f.val (linPt (zeroLin nu lin.dx) (tf * tauAt env m p)) +
        (zeroLin nu lin.dx).dx (tf * tauAt env m p) with hw
      have hw' : ocp.f.val (tf * tauAt env m p) (lin.x (tf * tauAt env m p)) (lin.u (tf * tauAt env m p)) + lin.dx (tf * tauAt env m p) = w := rfl
      simp only [hw']
      cases comm with
      | true => simp [localAd, adRow, hcomm rfl]
      | false =>
        have e1 : ∀ c, (LX.ad (Pi.single c 1) *ᵥ w) k = -LX.ad w k c := by
          intro c
          rw [ad_antisymm h]
          simp
        simp only [localAd, adRow, Bool.false_eq_true, if_false, e1]
        have e2 : ∀ l : Fin nx, (ofMat (LX.ad w)).val k l = LX.ad w k l := fun l => ofMat_val _ k l
        simp only [e2, zero_mul, Finset.sum_const_zero, add_zero, Finset.mul_sum]
        exact Finset.sum_congr rfl fun l _ => by ring
  have hcr : ∀ (i : Fin (nColloc m)) (k : Fin ncr), ∑ v : QVar (nColloc m) nx nu, qp.A.val (nx * nColloc m + (ncr * i + k)) v.pos * z v =
      fderiv ℝ (fun δ => along LX LU ocp.cr lin (tf * tauAt env m i) δ k) 0 (dev z i) := by
    intro i k
    rw [fderiv_pd]
    simp only [(along_hasPd (lin := lin) ho.cr (tf * tauAt env m i) k).pd, hB.cr]
    rw [← sum_pullN, pullN_noT]
    rfl
  have hce : ∀ k : Fin nce, ∑ v : QVar (nColloc m) nx nu, qp.A.val (nx * nColloc m + ncr * nColloc m + k) v.pos * z v =
      fderiv ℝ (fun δ => ends LX ocp.ce lin tf δ k) 0 (devEnd z) := by
    intro k
    rw [fderiv_pd]
    simp only [(ends_hasPd (lin := lin) ho.ce tf k).pd, hB.ce]
    rw [← sum_pullQ, pullQ_noTE]
    rfl
  have hcl : ∀ i k, (localOCP nu ocp lin.x lin.u tf).cr.val (linPt (zeroLin nu lin.dx) (tf * tauAt env m i)) k =
      along LX LU ocp.cr lin (tf * tauAt env m i) 0 k := fun i k => by rw [along_zero h h']; rfl
  have hel : ∀ k, (localOCP nu ocp lin.x lin.u tf).ce.val (linEnd (zeroLin nu lin.dx) tf) k = ends LX ocp.ce lin tf 0 k :=
    fun k => by rw [ends_zero h]; rfl
  have hdl : ∀ i k, (localOCP nu ocp lin.x lin.u tf).f.val (linPt (zeroLin nu lin.dx) (tf * tauAt env m i)) k -
      (zeroLin nu lin.dx).dx (tf * tauAt env m i) k = errDyn LX LU ocp.f lin (tf * tauAt env m i) 0 k := fun i k => by rw [errDyn_zero h h']; rfl
  have key : ∀ (i : Fin (nColloc m)) (k : Fin nx), (lower (qp.l.val (QCon.dyn (ncr := ncr) (nce := nce) i k).pos)
        ((∑ v : QVar (nColloc m) nx nu, qp.A.val (QCon.dyn (ncr := ncr) (nce := nce) i k).pos v.pos * z v) + τ) ∧
      upper (qp.u.val (QCon.dyn (ncr := ncr) (nce := nce) i k).pos)
        ((∑ v : QVar (nColloc m) nx nu, qp.A.val (QCon.dyn (ncr := ncr) (nce := nce) i k).pos v.pos * z v) - τ)) ↔
      |slope env (spans 1 m) (fun j => if h : j < nColloc m + 1 then z (.x ⟨j, h⟩ k) else 0) i -
        tf * taylor1 (fun δ => errDyn LX LU ocp.f lin (tf * tauAt env m i) δ k) 0 (dev z i)| ≤ τ := by
    intro i k
    simp only [QCon.pos, hdyn, hB.dynl, hB.dynu, hdl, lower, upper]
    rw [abs_le]
    unfold coordQ taylor1
    constructor <;> rintro ⟨a, b⟩ <;> constructor <;> linarith
  constructor
  · intro hr
    refine ⟨fun i k => (key i k).1 (hr (.dyn i k)), fun i k => ?_, fun k => ?_⟩
    · have h1 := hr (.cr i k)
      simp only [QCon.pos, add_assoc, hcr, hB.crl, hB.cru, hcl] at h1
      rw [lower_extSub_add, upper_extSub_sub] at h1
      exact h1
    · have h1 := hr (.ce k)
      simp only [QCon.pos, hce, hB.cel, hB.ceu, hel] at h1
      rw [lower_extSub_add, upper_extSub_sub] at h1
      exact h1
  · intro hL c
    cases c with
    | dyn i k => exact (key i k).2 (hL.dynamics i k)
    | cr i k =>
      have h1 := hL.running i k
      simp only [QCon.pos, add_assoc, hcr, hB.crl, hB.cru, hcl]
      rw [lower_extSub_add, upper_extSub_sub]
      exact h1
    | ce k =>
      have h1 := hL.endpoint k
      simp only [QCon.pos, hce, hB.cel, hB.ceu, hel]
      rw [lower_extSub_add, upper_extSub_sub]
      exact h1

/-- **C140.** On Lie groups: a vector meets the bounds of the quadratic program up to `τ` if and only if the deviation it holds meets every constraint of the collocated linearised problem for the
error up to `τ`. -/
theorem ocp_qp_tolerance_lie (h : IsLie LX mat hat) (h' : IsLie LU matU hatU) (idX : X) (idU : U) (env : Mesh.Env ℝ) (m : Mesh ℝ) (hm : m ≠ [])
    (hK : ∀ v ∈ m, 1 ≤ v.K) (comm : Bool) (hcomm : comm = true → ∀ a, LX.ad a = 0) (ocp : GOCP X U ℝ nx 1 ncr nce) (ho : IsDrGOCP LX LU ocp)
    (tf : ℝ) (lin : GLin X U ℝ nx) :
    ∃ qp, ocpToQpG nu idX idU env m LX comm ocp tf lin = some qp ∧ ∀ (z : QVar (nColloc m) nx nu → ℝ) x τ, IsPrimal z x →
      ((∀ r : Fin (numC (nColloc m) nx ncr nce),
        lower (qp.l.val r) (((toPbm qp (numV (nColloc m) nx nu) (numC (nColloc m) nx ncr nce)).A *ᵥ x) r + τ) ∧
        upper (qp.u.val r) (((toPbm qp (numV (nColloc m) nx nu) (numC (nColloc m) nx ncr nce)).A *ᵥ x) r - τ)) ↔
      NearLinG LX LU env m ocp tf lin τ z) := by
  obtain ⟨qp, e, hB⟩ := ocpToQpG_built (nu := nu) idX idU env m hm hK LX comm ocp (IsDrGOCP.rows ho) tf lin
  refine ⟨qp, e, fun z x τ hx => ?_⟩
  rw [← built_near_lie h h' ho hcomm hB z τ]
  constructor
  · intro h c
    have := h ⟨c.pos, c.pos_lt⟩
    rwa [row_sum qp hx] at this
  · intro h r
    obtain ⟨c, hc⟩ := QCon.pos_surj r.2
    have := h c
    rw [hc] at this
    rwa [row_sum qp hx]

/-- The remainder of the expansion at zero. -/
theorem taylor_err_zero {ι : Type*} [Fintype ι] {f : (ι → ℝ) → ℝ} {L r : ℝ} (hb : BentTo f L r) {d : ι → ℝ} (hr : ‖d‖ ≤ r) :
    |f d - taylor1 f 0 d| ≤ L / 2 * ‖d‖ ^ 2 := by
  have hn : ∀ s : ℝ, s ∈ Set.Icc (0 : ℝ) 1 → ‖s • d‖ ≤ r := fun s hs => by
    rw [norm_smul, Real.norm_eq_abs, abs_of_nonneg hs.1]
    nlinarith [hs.2, _root_.norm_nonneg d]
  have hd : ∀ s : ℝ, s ∈ Set.Icc (0 : ℝ) 1 → HasDerivAt (fun s : ℝ => f (s • d) - s * fderiv ℝ f 0 d - f 0) (fderiv ℝ f (s • d) d - fderiv ℝ f 0 d) s := by
    intro s hs
    have h1 : HasDerivAt (fun s : ℝ => s • d) d s := by
      simpa using (hasDerivAt_id s).smul_const d
    have h2 := (hb (s • d) (hn s hs)).1.hasFDerivAt.comp_hasDerivAt s h1
    have h3 := h2.sub ((hasDerivAt_id s).mul_const (fderiv ℝ f 0 d))
    exact (h3.congr_deriv (by simp)).sub_const (f 0)
  have hB : ∀ s : ℝ, HasDerivAt (fun s : ℝ => L / 2 * ‖d‖ ^ 2 * s ^ 2) (L * ‖d‖ ^ 2 * s) s := by
    intro s
    have := (hasDerivAt_pow 2 s).const_mul (L / 2 * ‖d‖ ^ 2)
    refine this.congr_deriv ?_
    simp
    ring
  have key := image_norm_le_of_norm_deriv_right_le_deriv_boundary (a := (0 : ℝ)) (b := 1)
    (f := fun s => f (s • d) - s * fderiv ℝ f 0 d - f 0) (f' := fun s => fderiv ℝ f (s • d) d - fderiv ℝ f 0 d)
    (B := fun s => L / 2 * ‖d‖ ^ 2 * s ^ 2) (B' := fun s => L * ‖d‖ ^ 2 * s)
    (fun s hs => (hd s hs).continuousAt.continuousWithinAt)
    (fun s hs => (hd s ⟨hs.1, hs.2.le⟩).hasDerivWithinAt) (by simp) hB ?_ (x := 1) ⟨zero_le_one, le_rfl⟩
  · unfold taylor1
    simp only [one_smul, one_mul, one_pow, mul_one, Real.norm_eq_abs] at key
    convert key using 2
    ring
  · rintro s ⟨hs, hs'⟩
    have h := (hb (s • d) (hn s ⟨hs, hs'.le⟩)).2 d
    rw [norm_smul, Real.norm_eq_abs, abs_of_nonneg hs] at h
    rw [Real.norm_eq_abs]
    refine h.trans (le_of_eq ?_)
    ring

theorem dev_pt {N : ℕ} (z : QVar N nx nu → ℝ) (i : Fin N) : dev z i = pt 0 (fun k => z (.x i.castSucc k)) fun k => z (.u i k) := by
  funext a
  cases a <;> rfl

/-- The linearised problem up to `τ` gives the problem itself up to `τ` and the remainder. -/
theorem near_true_lie {env : Mesh.Env ℝ} {m : Mesh ℝ} {ocp : GOCP X U ℝ nx 1 ncr nce} {tf : ℝ} {L r τ : ℝ} (hL : 0 ≤ L) (htf : 0 ≤ tf)
    {z : QVar (nColloc m) nx nu → ℝ} (hb : BentG LX LU env m ocp tf lin L r) (hr : ‖z‖ ≤ r)
    (hq : ∀ t x y q q' k, ocp.ce.val t x y q k = ocp.ce.val t x y q' k) (h : NearLinG LX LU env m ocp tf lin τ z) :
    NearG LX LU env m ocp tf lin (τ + tf * (L / 2 * ‖z‖ ^ 2)) (τ + L / 2 * ‖z‖ ^ 2) z := by
  have hsq : ∀ {a : ℝ}, 0 ≤ a → a ≤ ‖z‖ → L / 2 * a ^ 2 ≤ L / 2 * ‖z‖ ^ 2 := fun ha h => by gcongr
  have hf := fun (i : Fin (nColloc m)) k => (taylor_err_zero (hb.f i k) ((dev_norm z i).trans hr)).trans (hsq (_root_.norm_nonneg _) (dev_norm z i))
  have hcr := fun (i : Fin (nColloc m)) k => (taylor_err_zero (hb.cr i k) ((dev_norm z i).trans hr)).trans (hsq (_root_.norm_nonneg _) (dev_norm z i))
  have hce := fun k => (taylor_err_zero (hb.ce k) ((devEnd_norm z).trans hr)).trans (hsq (_root_.norm_nonneg _) (devEnd_norm z))
  refine ⟨fun i k => ?_, fun i k => ?_, fun q k => ?_⟩
  · rw [← dev_pt]
    have a := h.dynamics i k
    have b := mul_le_mul_of_nonneg_left (hf i k) htf
    rw [← abs_of_nonneg htf, ← abs_mul, abs_of_nonneg htf] at b
    rw [abs_le] at a b ⊢
    constructor <;> nlinarith
  · have a := h.running i k
    have b := abs_le.1 (hcr i k)
    change lower (ocp.crl k) (along LX LU ocp.cr lin (tf * tauAt env m i) (dev z i) k + _) ∧
      upper (ocp.cru k) (along LX LU ocp.cr lin (tf * tauAt env m i) (dev z i) k - _)
    exact ⟨lower_move a.1 (by linarith), upper_move a.2 (by linarith)⟩
  · have a := h.endpoint k
    have b := abs_le.1 (hce k)
    rw [hq _ _ _ q (fun k => 1 + devEnd z (.q k))]
    change lower (ocp.cel k) (ends LX ocp.ce lin tf (devEnd z) k + _) ∧ upper (ocp.ceu k) (ends LX ocp.ce lin tf (devEnd z) k - _)
    exact ⟨lower_move a.1 (by linarith), upper_move a.2 (by linarith)⟩

/-- **C140.** The solver, without polishing, says Optimal on the program of `ocp_to_qp` for a problem on Lie groups. Then the solution holds a deviation that meets the linearised problem for the error
up to the primal tolerance `rp`. If in the coordinates around the linearisation the problem bends by at most `L` within a distance that contains the deviation, then `x_lin ⊕ z`, `u_lin ⊕ z` meet the
collocated equations of motion of the error up to `rp + tf L/2 |z|²` and the constraints up to `rp + L/2 |z|²`. -/
theorem ocp_qp_optimal_near_lie (h : IsLie LX mat hat) (h' : IsLie LU matU hatU) (idX : X) (idU : U) (env : Mesh.Env ℝ) (m : Mesh ℝ) (hm : m ≠ [])
    (hK : ∀ v ∈ m, 1 ≤ v.K) (comm : Bool) (hcomm : comm = true → ∀ a, LX.ad a = 0) (ocp : GOCP X U ℝ nx 1 ncr nce) (ho : IsDrGOCP LX LU ocp)
    (tf : ℝ) (lin : GLin X U ℝ nx)
    (qenv : QP.Env ℝ (numV (nColloc m) nx nu)) (prm : Params ℝ) (hsq : SqrtPos qenv) (hrho : 0 < prm.rho) (hpol : prm.polish = false) :
    ∃ qp, ocpToQpG nu idX idU env m LX comm ocp tf lin = some qp ∧
      ∀ ws fuel sol, solveQP qenv prm (pbmOf qp (numV (nColloc m) nx nu) (numC (nColloc m) nx ncr nce)) ws fuel = .ok sol → sol.code = .optimal →
      ∃ (z : QVar (nColloc m) nx nu → ℝ) (ζ : Fin (numC (nColloc m) nx ncr nce) → ℝ) (rp : ℝ), IsPrimal z sol.primal ∧
        Tol prm.epsAbs prm.epsRel ((toPbm qp (numV (nColloc m) nx nu) (numC (nColloc m) nx ncr nce)).A *ᵥ sol.primal) ζ ζ rp ∧
        InBox (toPbm qp (numV (nColloc m) nx nu) (numC (nColloc m) nx ncr nce)) ζ ∧ NearLinG LX LU env m ocp tf lin rp z ∧
        ∀ L r, 0 ≤ L → 0 ≤ tf → BentG LX LU env m ocp tf lin L r → ‖z‖ ≤ r → (∀ t x y q q' k, ocp.ce.val t x y q k = ocp.ce.val t x y q' k) →
          NearG LX LU env m ocp tf lin (rp + tf * (L / 2 * ‖z‖ ^ 2)) (rp + L / 2 * ‖z‖ ^ 2) z := by
  obtain ⟨qp, e, hB⟩ := ocpToQpG_built (nu := nu) idX idU env m hm hK LX comm ocp (IsDrGOCP.rows ho) tf lin
  refine ⟨qp, e, fun ws fuel sol hsol hopt => ?_⟩
  obtain ⟨⟨ζ, rp, rd, hz, hcomp, t1, t2, t3, t4⟩, -⟩ := qp_optimal_certificate hsq hrho hpol hsol hopt
  obtain ⟨z, hzx, -⟩ := (qp_layout (nColloc m) nx nu ncr nce).2.1 sol.primal
  have hN : NearLinG LX LU env m ocp tf lin rp z := by
    rw [← built_near_lie h h' ho hcomm hB z rp]
    intro c
    have h := t2 ⟨c.pos, c.pos_lt⟩
    have hr : ((pbmOf qp (numV (nColloc m) nx nu) (numC (nColloc m) nx ncr nce)).A *ᵥ sol.primal) ⟨c.pos, c.pos_lt⟩ =
        ∑ v : QVar (nColloc m) nx nu, qp.A.val c.pos v.pos * z v := row_sum qp hzx _
    rw [hr] at h
    have hb := hz ⟨c.pos, c.pos_lt⟩
    have := abs_le.1 h
    exact ⟨lower_move hb.1 (by linarith), upper_move hb.2 (by linarith)⟩
  exact ⟨z, ζ, rp, hzx, t1, hz, hN, fun L r hL htf hb hr hq => near_true_lie hL htf hb hr hq hN⟩

end Verif.OQP
