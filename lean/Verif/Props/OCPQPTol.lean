import Verif.Spec.OCPQPTol
import Verif.Spec.NLPTol
import Verif.Props.LQSolve
import Verif.Props.OCPQPExamples
import Mathlib.Analysis.Calculus.MeanValue

/-! # What an Optimal result on the quadratic program means for a nonlinear problem (C139) -/

set_option linter.unusedSectionVars false

namespace Verif.OQP

open Verif.Mesh Verif.Sparse Verif.MeshFn Verif.NLP Verif.QP Verif.QPSpec
open Verif.MPC (pbmOf)
open scoped Matrix

variable {N nx nu ncr nce : ℕ} {env : Mesh.Env ℝ} {m : Mesh ℝ} {ocp : OCP ℝ nx nu 1 ncr nce} {ad : Option ((Fin nx → ℝ) → Sp ℝ)} {tf : ℝ}
  {lin : Lin ℝ nx nu}

theorem lower_extSub_add (b : Ext ℝ) (a c τ : ℝ) : lower (extSub b a) (c + τ) ↔ lower b (a + c + τ) := by
  rw [lower_extSub, add_assoc]

theorem upper_extSub_sub (b : Ext ℝ) (a c τ : ℝ) : upper (extSub b a) (c - τ) ↔ upper b (a + c - τ) := by
  rw [upper_extSub, add_sub_assoc]

theorem built_near {qp : QPD ℝ} (h : Built env m ocp ad tf lin qp) (z : QVar (nColloc m) nx nu → ℝ) (τ : ℝ) :
    (∀ c : QCon (nColloc m) nx ncr nce, lower (qp.l.val c.pos) ((∑ v : QVar (nColloc m) nx nu, qp.A.val c.pos v.pos * z v) + τ) ∧
        upper (qp.u.val c.pos) ((∑ v : QVar (nColloc m) nx nu, qp.A.val c.pos v.pos * z v) - τ)) ↔ NearLin env m ocp ad tf lin τ z := by
  obtain ⟨hdyn, hcr, hce⟩ := built_rows h z
  have key : ∀ (i : Fin (nColloc m)) (k : Fin nx), (lower (qp.l.val (QCon.dyn (ncr := ncr) (nce := nce) i k).pos)
        ((∑ v : QVar (nColloc m) nx nu, qp.A.val (QCon.dyn (ncr := ncr) (nce := nce) i k).pos v.pos * z v) + τ) ∧
      upper (qp.u.val (QCon.dyn (ncr := ncr) (nce := nce) i k).pos)
        ((∑ v : QVar (nColloc m) nx nu, qp.A.val (QCon.dyn (ncr := ncr) (nce := nce) i k).pos v.pos * z v) - τ)) ↔
      |slope env (spans 1 m) (fun j => if h : j < nColloc m + 1 then z (.x ⟨j, h⟩ k) else 0) i -
        tf * (taylor1 (fun p => ocp.f.val p k) (linPt lin (tf * tauAt env m i)) (dev z i) - lin.dx (tf * tauAt env m i) k +
          adTerm ad (ocp.f.val (linPt lin (tf * tauAt env m i)) + lin.dx (tf * tauAt env m i)) (fun l => z (.x i.castSucc l)) k)| ≤ τ := by
    intro i k
    simp only [QCon.pos, hdyn, h.dynl, h.dynu, lower, upper]
    rw [abs_le]
    unfold coordQ taylor1
    constructor <;> rintro ⟨a, b⟩ <;> constructor <;> linarith
  constructor
  · intro hr
    refine ⟨fun i k => (key i k).1 (hr (.dyn i k)), fun i k => ?_, fun k => ?_⟩
    · have h1 := hr (.cr i k)
      simp only [QCon.pos, add_assoc, hcr, h.crl, h.cru] at h1
      rw [lower_extSub_add, upper_extSub_sub] at h1
      exact h1
    · have h1 := hr (.ce k)
      simp only [QCon.pos, hce, h.cel, h.ceu] at h1
      rw [lower_extSub_add, upper_extSub_sub] at h1
      exact h1
  · intro hL c
    cases c with
    | dyn i k => exact (key i k).2 (hL.dynamics i k)
    | cr i k =>
      have h1 := hL.running i k
      simp only [QCon.pos, add_assoc, hcr, h.crl, h.cru]
      rw [lower_extSub_add, upper_extSub_sub]
      exact h1
    | ce k =>
      have h1 := hL.endpoint k
      simp only [QCon.pos, hce, h.cel, h.ceu]
      rw [lower_extSub_add, upper_extSub_sub]
      exact h1

/-- **C139.** A vector meets the bounds of the quadratic program up to `τ` if and only if the deviation it holds meets every constraint of the collocated linearised problem up to the same `τ`:
unlike in the nonlinear program (C138) no weight of the mesh enters. -/
theorem ocp_qp_tolerance_iff (env : Mesh.Env ℝ) (m : Mesh ℝ) (hm : m ≠ []) (hK : ∀ v ∈ m, 1 ≤ v.K) (ocp : OCP ℝ nx nu 1 ncr nce) (ho : IsDrOCP ocp)
    (ad : Option ((Fin nx → ℝ) → Sp ℝ)) (hA : IsAd ad) (tf : ℝ) (lin : Lin ℝ nx nu) :
    ∃ qp, ocpToQp env m ocp ad tf lin = some qp ∧ ∀ (z : QVar (nColloc m) nx nu → ℝ) x τ, IsPrimal z x →
      ((∀ r : Fin (numC (nColloc m) nx ncr nce),
        lower (qp.l.val r) (((toPbm qp (numV (nColloc m) nx nu) (numC (nColloc m) nx ncr nce)).A *ᵥ x) r + τ) ∧
        upper (qp.u.val r) (((toPbm qp (numV (nColloc m) nx nu) (numC (nColloc m) nx ncr nce)).A *ᵥ x) r - τ)) ↔
      NearLin env m ocp ad tf lin τ z) := by
  obtain ⟨qp, e, hb⟩ := ocpToQp_built env m hm hK ocp ho ad hA tf lin
  refine ⟨qp, e, fun z x τ hx => ?_⟩
  rw [← built_near hb z τ]
  constructor
  · intro h c
    have := h ⟨c.pos, c.pos_lt⟩
    rwa [row_sum qp hx] at this
  · intro h r
    obtain ⟨c, hc⟩ := QCon.pos_surj r.2
    have := h c
    rw [hc] at this
    rwa [row_sum qp hx]

/-! ### The true constraints -/

/-- The remainder of the first-order expansion. -/
theorem taylor_err {ι : Type*} [Fintype ι] {f : (ι → ℝ) → ℝ} {L : ℝ} (hf : Differentiable ℝ f) (hb : Bent f L) (p d : ι → ℝ) :
    |f (p + d) - taylor1 f p d| ≤ L / 2 * ‖d‖ ^ 2 := by
  have hd : ∀ s : ℝ, HasDerivAt (fun s : ℝ => f (p + s • d) - s * fderiv ℝ f p d) (fderiv ℝ f (p + s • d) d - fderiv ℝ f p d) s := by
    intro s
    have h1 : HasDerivAt (fun s : ℝ => p + s • d) d s := by
      simpa using ((hasDerivAt_id s).smul_const d).const_add p
    have h2 := (hf (p + s • d)).hasFDerivAt.comp_hasDerivAt s h1
    have h3 := h2.sub ((hasDerivAt_id s).mul_const (fderiv ℝ f p d))
    exact h3.congr_deriv (by simp)
  have hB : ∀ s : ℝ, HasDerivAt (fun s : ℝ => L / 2 * ‖d‖ ^ 2 * s ^ 2) (L * ‖d‖ ^ 2 * s) s := by
    intro s
    have := (hasDerivAt_pow 2 s).const_mul (L / 2 * ‖d‖ ^ 2)
    refine this.congr_deriv ?_
    simp
    ring
  have key := image_norm_le_of_norm_deriv_right_le_deriv_boundary (a := (0 : ℝ)) (b := 1)
    (f := fun s => f (p + s • d) - s * fderiv ℝ f p d - f p) (f' := fun s => fderiv ℝ f (p + s • d) d - fderiv ℝ f p d)
    (B := fun s => L / 2 * ‖d‖ ^ 2 * s ^ 2) (B' := fun s => L * ‖d‖ ^ 2 * s)
    (fun s _ => ((hd s).sub_const (f p)).continuousAt.continuousWithinAt)
    (fun s _ => ((hd s).sub_const (f p)).hasDerivWithinAt) (by simp) hB ?_ (x := 1) ⟨zero_le_one, le_rfl⟩
  · unfold taylor1
    simp only [one_smul, one_mul, one_pow, mul_one, Real.norm_eq_abs] at key
    convert key using 2
    ring
  · rintro s ⟨hs, -⟩
    have h := hb (p + s • d) p d
    rw [add_sub_cancel_left, norm_smul, Real.norm_eq_abs, abs_of_nonneg hs] at h
    rw [Real.norm_eq_abs]
    refine h.trans (le_of_eq ?_)
    ring

theorem dev_norm (z : QVar N nx nu → ℝ) (i : Fin N) : ‖dev z i‖ ≤ ‖z‖ := by
  refine (pi_norm_le_iff_of_nonneg (_root_.norm_nonneg z)).2 fun a => ?_
  cases a with
  | t => simp [dev]
  | x k => exact norm_le_pi_norm z (.x i.castSucc k)
  | u k => exact norm_le_pi_norm z (.u i k)

theorem devEnd_norm (z : QVar N nx nu → ℝ) : ‖devEnd z‖ ≤ ‖z‖ := by
  refine (pi_norm_le_iff_of_nonneg (_root_.norm_nonneg z)).2 fun a => ?_
  cases a with
  | tf => simp [devEnd]
  | x0 k => exact norm_le_pi_norm z _
  | xf k => exact norm_le_pi_norm z _
  | q k => simp [devEnd]

theorem lower_move {b : Ext ℝ} {a c : ℝ} (h : lower b a) (hc : a ≤ c) : lower b c := by
  cases b with
  | fin x => exact le_trans h hc
  | neg => trivial
  | pos => exact h.elim

theorem upper_move {b : Ext ℝ} {a c : ℝ} (h : upper b a) (hc : c ≤ a) : upper b c := by
  cases b with
  | fin x => exact le_trans hc h
  | pos => trivial
  | neg => exact h.elim

/-- The linearised constraints up to `τ` give the true ones up to `τ` and the remainder. -/
theorem near_true (ho : IsDrOCP ocp) {L : ℝ} (hL : 0 ≤ L) (hb : BentOCP ocp L) (hq : ∀ k e c, ocp.ce.val (Function.update e (.q 0) c) k = ocp.ce.val e k)
    (htf : 0 ≤ tf) (hl : OnMesh env m lin tf) (h0 : tauAt env m 0 = 0) (h1 : tauAt env m (nColloc m) = 1) {τ : ℝ} (hτ : 0 ≤ τ)
    {z : QVar (nColloc m) nx nu → ℝ} (h : NearLin env m ocp none tf lin τ z) :
    Near ocp env m (τ + L / 2 * ‖z‖ ^ 2) 0 (fun _ => τ + max 1 tf * (L / 2 * ‖z‖ ^ 2)) (nlpPoint env m ocp lin tf z) := by
  have hR : 0 ≤ L / 2 * ‖z‖ ^ 2 := by positivity
  have hM : L / 2 * ‖z‖ ^ 2 ≤ max 1 tf * (L / 2 * ‖z‖ ^ 2) := by nlinarith [le_max_left 1 tf]
  have hT : tf * (L / 2 * ‖z‖ ^ 2) ≤ max 1 tf * (L / 2 * ‖z‖ ^ 2) := by nlinarith [le_max_right 1 tf]
  have hsq : ∀ {a : ℝ}, 0 ≤ a → a ≤ ‖z‖ → L / 2 * a ^ 2 ≤ L / 2 * ‖z‖ ^ 2 := fun ha h => by gcongr
  have hpt : ∀ i : Fin (nColloc m), pt (nlpPoint env m ocp lin tf z .tf * tauAt env m i) (fun k => nlpPoint env m ocp lin tf z (.x i.castSucc k))
      (fun k => nlpPoint env m ocp lin tf z (.u i k)) = linPt lin (tf * tauAt env m i) + dev z i := fun i => by
    rw [linPt_dev]
    rfl
  have hf := fun (i : Fin (nColloc m)) k => (taylor_err (contDiff_differentiable (ho.f.smooth k)) (hb.f k) (linPt lin (tf * tauAt env m i)) (dev z i)).trans
    (hsq (_root_.norm_nonneg _) (dev_norm z i))
  have hcr := fun (i : Fin (nColloc m)) k => (taylor_err (contDiff_differentiable (ho.cr.smooth k)) (hb.cr k) (linPt lin (tf * tauAt env m i)) (dev z i)).trans
    (hsq (_root_.norm_nonneg _) (dev_norm z i))
  have hce := fun k => (taylor_err (contDiff_differentiable (ho.ce.smooth k)) (hb.ce k) (linEnd lin tf) (devEnd z)).trans
    (hsq (_root_.norm_nonneg _) (devEnd_norm z))
  have hends : ∀ k, ocp.ce.val (NLP.ends (nlpPoint env m ocp lin tf z)) k = ocp.ce.val (linEnd lin tf + devEnd z) k := fun k => by
    rw [nlpPoint_ends h0 h1, trajEnd_eq, hq]
    rfl
  have hsl : ∀ (i : Fin (nColloc m)) k, MeshFn.slope env (spans 1 m) (fun l => if h : l < nColloc m + 1 then nlpPoint env m ocp lin tf z (.x ⟨l, h⟩ k) else 0) i =
      tf * lin.dx (tf * tauAt env m i) k + MeshFn.slope env (spans 1 m) (fun j => if h : j < nColloc m + 1 then z (.x ⟨j, h⟩ k) else 0) i := by
    intro i k
    rw [← hl i k, ← slope_add]
    congr 1
    funext j
    by_cases hj : j < nColloc m + 1
    · simp [hj, nlpPoint]
    · simp [hj]
  refine ⟨?_, fun i k => ?_, fun k => ?_, fun i k => ?_, fun k => ?_⟩
  · change _ ≤ tf
    linarith
  · rw [hsl, hpt]
    change |_ - tf * _| ≤ _
    have a := h.dynamics i k
    have b := mul_le_mul_of_nonneg_left (hf i k) htf
    rw [← abs_of_nonneg htf, ← abs_mul, abs_of_nonneg htf] at b
    simp only [adTerm, add_zero] at a
    rw [abs_le] at a b ⊢
    constructor <;> nlinarith
  · rw [Subsingleton.elim k 0]
    have : nlpPoint env m ocp lin tf z (.q 0) = tf * ∑ i : Fin (nColloc m), wAt env m i * ocp.g.val (linPt lin (tf * tauAt env m i) + dev z i) 0 := by
      simp only [nlpPoint, integralSpec, nodePt_dev]
      simp only [trajVars, sub_zero]
    simp only [hpt]
    rw [this]
    change |_ - tf * _| ≤ _
    simp
  · rw [hpt]
    have a := h.running i k
    have b := abs_le.1 (hcr i k)
    exact ⟨lower_move a.1 (by linarith), upper_move a.2 (by linarith)⟩
  · rw [hends]
    have a := h.endpoint k
    have b := abs_le.1 (hce k)
    exact ⟨lower_move a.1 (by linarith), upper_move a.2 (by linarith)⟩

/-- **C139.** The solver, without polishing, says Optimal on the program of `ocp_to_qp`, for any nonlinear problem, cost and warm start. Then the solution holds a deviation that meets the linearised
problem up to the primal tolerance `rp`. If dynamics and constraints bend by at most `L` and the linearisation is a polynomial on every interval, then `linearisation + deviation` meets the collocated
nonlinear problem up to `rp` and `L/2 |z|²`, in the equations of motion times the final time. -/
theorem ocp_qp_optimal_near (env : Mesh.Env ℝ) {Kmin Kmax : ℕ} (hK : 1 ≤ Kmin) (m : Mesh ℝ) (hm : Valid Kmin Kmax m)
    (hL : ∀ K, Kmin ≤ K → K ≤ Kmax + 1 → IsLGR env K) (ocp : OCP ℝ nx nu 1 ncr nce) (ho : IsDrOCP ocp) (tf : ℝ) (lin : Lin ℝ nx nu)
    (ad : Option ((Fin nx → ℝ) → Sp ℝ)) (hA : IsAd ad)
    (qenv : QP.Env ℝ (numV (nColloc m) nx nu)) (prm : Params ℝ) (hsq : SqrtPos qenv) (hrho : 0 < prm.rho) (hpol : prm.polish = false) (hea : 0 ≤ prm.epsAbs)
    (her : 0 ≤ prm.epsRel) :
    ∃ qp, ocpToQp env m ocp ad tf lin = some qp ∧
      ∀ ws fuel sol, solveQP qenv prm (pbmOf qp (numV (nColloc m) nx nu) (numC (nColloc m) nx ncr nce)) ws fuel = .ok sol → sol.code = .optimal →
      ∃ (z : QVar (nColloc m) nx nu → ℝ) (ζ : Fin (numC (nColloc m) nx ncr nce) → ℝ) (rp : ℝ), IsPrimal z sol.primal ∧
        Tol prm.epsAbs prm.epsRel ((toPbm qp (numV (nColloc m) nx nu) (numC (nColloc m) nx ncr nce)).A *ᵥ sol.primal) ζ ζ rp ∧
        InBox (toPbm qp (numV (nColloc m) nx nu) (numC (nColloc m) nx ncr nce)) ζ ∧ NearLin env m ocp ad tf lin rp z ∧
        ∀ L, 0 ≤ L → BentOCP ocp L → (∀ k e c, ocp.ce.val (Function.update e (.q 0) c) k = ocp.ce.val e k) → 0 ≤ tf → OnMesh env m lin tf → ad = none →
          Near ocp env m (rp + L / 2 * ‖z‖ ^ 2) 0 (fun _ => rp + max 1 tf * (L / 2 * ‖z‖ ^ 2)) (nlpPoint env m ocp lin tf z) := by
  obtain ⟨h0, h1, -⟩ := Flatten.tauAt_bounds env hK m hm hL
  obtain ⟨qp, e, hB⟩ := ocpToQp_built env m hm.ne_nil (fun v hv => hK.trans (hm.degree v hv).1) ocp ho ad hA tf lin
  refine ⟨qp, e, fun ws fuel sol hsol hopt => ?_⟩
  obtain ⟨⟨ζ, rp, rd, hz, hcomp, t1, t2, t3, t4⟩, -⟩ := qp_optimal_certificate hsq hrho hpol hsol hopt
  obtain ⟨z, hzx, -⟩ := (qp_layout (nColloc m) nx nu ncr nce).2.1 sol.primal
  have hrp : 0 ≤ rp := by
    obtain ⟨a, b, c, ha, -, -, rfl⟩ := t1
    exact add_nonneg hea (mul_nonneg her (le_trans ha.1 (le_trans (le_max_left _ _) (le_max_left _ _))))
  have hN : NearLin env m ocp ad tf lin rp z := by
    rw [← built_near hB z rp]
    intro c
    have h := t2 ⟨c.pos, c.pos_lt⟩
    have hr : ((pbmOf qp (numV (nColloc m) nx nu) (numC (nColloc m) nx ncr nce)).A *ᵥ sol.primal) ⟨c.pos, c.pos_lt⟩ =
        ∑ v : QVar (nColloc m) nx nu, qp.A.val c.pos v.pos * z v := row_sum qp hzx _
    rw [hr] at h
    have hb := hz ⟨c.pos, c.pos_lt⟩
    have := abs_le.1 h
    exact ⟨lower_move hb.1 (by linarith), upper_move hb.2 (by linarith)⟩
  refine ⟨z, ζ, rp, hzx, t1, hz, hN, fun L hL0 hb hq htf hl had => ?_⟩
  subst had
  exact near_true ho hL0 hb hq htf hl h0 h1 hrp hN

end Verif.OQP
