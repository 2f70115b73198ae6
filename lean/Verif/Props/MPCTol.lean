import Verif.Spec.MPCTol
import Verif.Props.MPCError
import Verif.Props.OCPQPLieTol

/-! # What an Optimal answer of the controller means for the problem of the call (C141) -/

set_option linter.unusedSectionVars false

namespace Verif.MPC

open Verif.Mesh Verif.Sparse Verif.MeshFn Verif.NLP Verif.OQP Verif.QPSpec Verif.Lie Verif.Flatten
open Verif.QP (Ext Status UpperOnly SqrtPos LdltOk)
open scoped Matrix

variable {T σ X U : Type*} {nx nu ncr n m N : ℕ} {env : (n : ℕ) → QP.Env ℝ n} {prm : QP.Params ℝ} {fuel : ℕ}
variable {𝔸 𝔹 : Type*} [NormedRing 𝔸] [NormedAlgebra ℝ 𝔸] [FiniteDimensional ℝ 𝔸] [CompleteSpace 𝔸] [NormedRing 𝔹] [NormedAlgebra ℝ 𝔹]
  [FiniteDimensional ℝ 𝔹] [CompleteSpace 𝔹] {mat : X → 𝔸} {hat : (Fin nx → ℝ) →ₗ[ℝ] 𝔸} {matU : U → 𝔹} {hatU : (Fin nu → ℝ) →ₗ[ℝ] 𝔹}

theorem stepAt_dev (z : QVar N nx nu → ℝ) (i : Fin N) : stepAt z i = dev z i := by
  funext a
  cases a <;> rfl

/-- The rows of the program of a call, up to `τ`. -/
theorem program_near (sys : Sys T ℝ σ X U nx nu) (a : Args T ℝ X U nx nu ncr) (hL : sys.IsLie mat hat matU hatU)
    (hf : IsUFn sys a.f) (hcr : IsUFn sys a.cr) (xd : T → X) (dxd : T → Fin nx → ℝ) (ud : T → U) (t : T) (x : X)
    (o o' : Obj T ℝ σ X U nx nu ncr) (ho : o.Ok sys) (ha : o.args = a)
    (h : o.transcribe sys ⟨t, xd, dxd⟩ ⟨t, ud⟩ t x = some o') (z : QVar (nColloc (meshOf a)) nx nu → ℝ) (τ : ℝ) :
    (∀ c : QCon (nColloc (meshOf a)) nx ncr nx,
      lower (o'.qp.l.val c.pos) ((∑ v : QVar (nColloc (meshOf a)) nx nu, o'.qp.A.val c.pos v.pos * z v) + τ) ∧
      upper (o'.qp.u.val c.pos) ((∑ v : QVar (nColloc (meshOf a)) nx nu, o'.qp.A.val c.pos v.pos * z v) - τ)) ↔
      NearHorizon sys a xd dxd ud t x τ z := by
  have hm : o.mesh = meshOf a := by rw [ho.meshOf, ha]
  obtain ⟨o2, e, he, hok, hd, hdl, hdu, hc, hE, hEl, hEu⟩ := transcribe_spec sys o ho xd dxd ud t x
  rw [h] at e
  obtain rfl := Option.some.inj e
  have hE : ∀ (k : Fin nx) (v : QVar (nColloc o.mesh) nx nu), o'.qp.A.val (nx * nColloc o.mesh + ncr * nColloc o.mesh + k) v.pos =
      firstRow (patInv (sys) ((sys).rminus (xd ((sys).plus t 0)) x) k) v := fun k v => by
    rw [hE]
    cases v with
    | x j l => simp only [firstRow, Fin.ext_iff]; rfl
    | u j l => rfl
  have h1 : o'.mesh = meshOf a := by rw [he]; exact hm
  have h2 : o'.args = a := by rw [he]; exact ha
  have hcr2 := hok.cr
  rw [h1, h2] at hcr2
  rw [hm] at hd hdl hdu hc hE hEl hEu
  rw [ha] at hd hdl hdu hc
  set rm := sys.rminus (xd (sys.plus t 0)) x with hrm
  have hdyn : ∀ (p : Fin (nColloc (meshOf a))) (k : Fin nx),
      ∑ w : QVar (nColloc (meshOf a)) nx nu, o'.qp.A.val (nx * p + k) w.pos * z w =
        a.tf * fderiv ℝ (fun δ => errVel sys a.f (seen a.f (nodeTime sys (meshOf a) a.tf t p)) (xd (nodeTime sys (meshOf a) a.tf t p))
          (dxd (nodeTime sys (meshOf a) a.tf t p)) (ud (nodeTime sys (meshOf a) a.tf t p)) δ k) 0 (dev z p) -
        MeshFn.slope sys.env (spans 1 (meshOf a)) (coordQ z k) p := by
    intro p k
    rw [← errRow_sum hL hf]
    simp only [hd, sub_mul, Finset.sum_sub_distrib, slope_unit]
  have hend : ∀ k : Fin nx,
      ∑ w : QVar (nColloc (meshOf a)) nx nu, o'.qp.A.val (nx * nColloc (meshOf a) + ncr * nColloc (meshOf a) + k) w.pos * z w =
        (sys.LX.drExpinv rm *ᵥ fun l => z (.x 0 l)) k := by
    intro k
    rw [QVar.sum_eq]
    simp only [hE, zero_mul, Finset.sum_const_zero, add_zero, patInv_eq hL]
    rw [Finset.sum_eq_single 0 (fun j _ hj => by
      have : (j : ℕ) ≠ 0 := fun h => hj (Fin.ext h)
      simp [firstRow, this]) (fun h => absurd (Finset.mem_univ _) h)]
    simp only [firstRow, Fin.val_zero, if_true, zero_mul, Finset.sum_const_zero, add_zero, patInv_eq hL]
    rfl
  have kd : ∀ (i : Fin (nColloc (meshOf a))) (k : Fin nx), (lower (o'.qp.l.val (QCon.dyn (ncr := ncr) (nce := nx) i k).pos)
        ((∑ v : QVar (nColloc (meshOf a)) nx nu, o'.qp.A.val (QCon.dyn (ncr := ncr) (nce := nx) i k).pos v.pos * z v) + τ) ∧
      upper (o'.qp.u.val (QCon.dyn (ncr := ncr) (nce := nx) i k).pos)
        ((∑ v : QVar (nColloc (meshOf a)) nx nu, o'.qp.A.val (QCon.dyn (ncr := ncr) (nce := nx) i k).pos v.pos * z v) - τ)) ↔
      |MeshFn.slope sys.env (spans 1 (meshOf a)) (fun j => if h : j < nColloc (meshOf a) + 1 then z (.x ⟨j, h⟩ k) else 0) i -
        a.tf * taylor1 (velAt sys a xd dxd ud t i k) 0 (stepAt z i)| ≤ τ := by
    intro i k
    have e2 : taylor1 (velAt sys a xd dxd ud t i k) 0 (stepAt z i) = taylor1 (fun δ => errVel sys a.f (seen a.f (nodeTime sys (meshOf a) a.tf t i)) (xd (nodeTime sys (meshOf a) a.tf t i))
          (dxd (nodeTime sys (meshOf a) a.tf t i)) (ud (nodeTime sys (meshOf a) a.tf t i)) δ k) 0 (dev z i) := by rw [stepAt_dev]; rfl
    rw [e2]
    unfold taylor1
    simp only [errVel_zero hL, Pi.sub_apply]
    simp only [QCon.pos, hdyn, hdl, hdu, lower, upper]
    rw [abs_le]
    unfold coordQ
    constructor <;> rintro ⟨a, b⟩ <;> constructor <;> linarith
  have kc : ∀ (i : Fin (nColloc (meshOf a))) (k : Fin ncr), (lower (o'.qp.l.val (QCon.cr (nx := nx) (nce := nx) i k).pos)
        ((∑ v : QVar (nColloc (meshOf a)) nx nu, o'.qp.A.val (QCon.cr (nx := nx) (nce := nx) i k).pos v.pos * z v) + τ) ∧
      upper (o'.qp.u.val (QCon.cr (nx := nx) (nce := nx) i k).pos)
        ((∑ v : QVar (nColloc (meshOf a)) nx nu, o'.qp.A.val (QCon.cr (nx := nx) (nce := nx) i k).pos v.pos * z v) - τ)) ↔
      WithinTol (a.crl k) (a.cru k) τ (taylor1 (runAt sys a xd ud t i k) 0 (stepAt z i)) := by
    intro i k
    have key : ∀ t' x' u', CrRow a (nColloc (meshOf a)) o'.qp i k t' x' u' →
        ((lower (o'.qp.l.val (nx * nColloc (meshOf a) + (ncr * (i : ℕ) + k)))
          (∑ w : QVar (nColloc (meshOf a)) nx nu, o'.qp.A.val (nx * nColloc (meshOf a) + (ncr * (i : ℕ) + k)) w.pos * z w + τ) ∧
        upper (o'.qp.u.val (nx * nColloc (meshOf a) + (ncr * (i : ℕ) + k)))
          (∑ w : QVar (nColloc (meshOf a)) nx nu, o'.qp.A.val (nx * nColloc (meshOf a) + (ncr * (i : ℕ) + k)) w.pos * z w - τ)) ↔
        WithinTol (a.crl k) (a.cru k) τ (expand sys a.cr t' x' u' (dev z i) k)) := by
      intro t' x' u' hrow
      simp only [hrow.A, ufRow_sum hcr, hrow.l, hrow.u, sub_eq_add_neg]
      rw [lower_shift, upper_shift]
      unfold expand taylor1 WithinTol
      simp only [near_zero hL, sub_eq_add_neg]
    simp only [QCon.pos, add_assoc]
    rw [stepAt_dev]
    cases ht : a.cr.timed with
    | true =>
      have e2 : runAt sys a xd ud t i k = fun δ => near sys.LX sys.LU a.cr (seen a.cr (nodeTime sys (meshOf a) a.tf t i)) (xd (nodeTime sys (meshOf a) a.tf t i))
          (ud (nodeTime sys (meshOf a) a.tf t i)) δ k := by funext δ; simp [runAt, ht]
      rw [e2]
      exact key _ _ _ (hc ht i k)
    | false =>
      have e2 : runAt sys a xd ud t i k = fun δ => near sys.LX sys.LU a.cr none sys.dfltX sys.dfltU δ k := by funext δ; simp [runAt, ht]
      rw [e2]
      exact key _ _ _ (hcr2 ht i k)
  have h0 : sys.LX.drExpinv rm *ᵥ rm = rm := by
    have := (initial_iff hL (xd (sys.plus t 0)) x _).2 rfl
    rw [← hrm, Matrix.mulVec_neg] at this
    exact neg_injective this
  have ke : ∀ k : Fin nx, (lower (o'.qp.l.val (QCon.ce (N := nColloc (meshOf a)) (nx := nx) (ncr := ncr) k).pos)
        ((∑ v : QVar (nColloc (meshOf a)) nx nu, o'.qp.A.val (QCon.ce (N := nColloc (meshOf a)) (nx := nx) (ncr := ncr) k).pos v.pos * z v) + τ) ∧
      upper (o'.qp.u.val (QCon.ce (N := nColloc (meshOf a)) (nx := nx) (ncr := ncr) k).pos)
        ((∑ v : QVar (nColloc (meshOf a)) nx nu, o'.qp.A.val (QCon.ce (N := nColloc (meshOf a)) (nx := nx) (ncr := ncr) k).pos v.pos * z v) - τ)) ↔
      |(sys.LX.drExpinv rm *ᵥ fun l => z (.x 0 l) + rm l) k| ≤ τ := by
    intro k
    have e3 : (sys.LX.drExpinv rm *ᵥ fun l => z (.x 0 l) + rm l) = (sys.LX.drExpinv rm *ᵥ fun l => z (.x 0 l)) + rm := by
      have : (fun l => z (.x 0 l) + rm l) = (fun l => z (.x 0 l)) + rm := rfl
      rw [this, Matrix.mulVec_add, h0]
    rw [e3, Pi.add_apply, abs_le]
    simp only [QCon.pos, hend, hEl, hEu, lower, upper]
    constructor <;> rintro ⟨a, b⟩ <;> constructor <;> linarith
  constructor
  · intro hr
    exact ⟨fun i k => (kd i k).1 (hr (.dyn i k)), fun k => (ke k).1 (hr (.ce k)), fun i k => (kc i k).1 (hr (.cr i k))⟩
  · intro hN c
    cases c with
    | dyn i k => exact (kd i k).2 (hN.dynamics i k)
    | cr i k => exact (kc i k).2 (hN.running i k)
    | ce k => exact (ke k).2 (hN.initial k)

/-- The linearised problem up to `τ` gives the problem itself up to `τ` and the remainder. -/
theorem near_motion {sys : Sys T ℝ σ X U nx nu} {a : Args T ℝ X U nx nu ncr} {xd : T → X} {dxd : T → Fin nx → ℝ} {ud : T → U} {t : T} {x : X} {τ : ℝ}
    {z : QVar (nColloc (meshOf a)) nx nu → ℝ} (h : NearHorizon sys a xd dxd ud t x τ z) {L ρ : ℝ} (hL : 0 ≤ L) (htf : 0 ≤ a.tf) (hρ : ‖z‖ ≤ ρ)
    (hf : ∀ (i : Fin (nColloc (meshOf a))) k, BentTo (velAt sys a xd dxd ud t i k) L ρ)
    (hcr : ∀ (i : Fin (nColloc (meshOf a))) k, BentTo (runAt sys a xd ud t i k) L ρ) :
    NearMotion sys a xd dxd ud t (τ + a.tf * (L / 2 * ‖z‖ ^ 2)) (τ + L / 2 * ‖z‖ ^ 2) z := by
  have hn : ∀ i : Fin (nColloc (meshOf a)), ‖stepAt z i‖ ≤ ‖z‖ := fun i => by rw [stepAt_dev]; exact dev_norm z i
  have hsq : ∀ {b : ℝ}, 0 ≤ b → b ≤ ‖z‖ → L / 2 * b ^ 2 ≤ L / 2 * ‖z‖ ^ 2 := fun ha h => by gcongr
  refine ⟨fun i k => ?_, fun i k => ?_⟩
  · have e1 := h.dynamics i k
    have e2 := mul_le_mul_of_nonneg_left ((taylor_err_zero (hf i k) ((hn i).trans hρ)).trans (hsq (_root_.norm_nonneg _) (hn i))) htf
    rw [← abs_of_nonneg htf, ← abs_mul, abs_of_nonneg htf] at e2
    rw [abs_le] at e1 e2 ⊢
    constructor <;> nlinarith
  · have e1 := h.running i k
    have e2 := abs_le.1 ((taylor_err_zero (hcr i k) ((hn i).trans hρ)).trans (hsq (_root_.norm_nonneg _) (hn i)))
    exact ⟨lower_move e1.1 (by linarith), upper_move e1.2 (by linarith)⟩

/-- **C141.** After every history, without polishing: if a call of the controller reports Optimal, then the deviation `z` in the answer meets the linearised problem of the call (dynamics of the error,
first state, running constraints) up to the primal tolerance `rp` of the stopping test, and the input returned is the desired one plus the first input deviation. If the functions bend by at most `L`
within a distance that contains `z`, the deviation meets the nonlinear problem up to `rp + L/2 |z|²`, in the dynamics up to `rp + tf L/2 |z|²`. -/
theorem mpc_optimal_near (sys : Sys T ℝ σ X U nx nu) (a : Args T ℝ X U nx nu ncr) (hG : sys.IsLie mat hat matU hatU) (hf : IsUFn sys a.f) (hcr : IsUFn sys a.cr)
    (hup : ∀ n, UpperOnly (env n)) (hsq : ∀ n, SqrtPos (env n)) (hrho : 0 < prm.rho) (hpol : prm.polish = false)
    (l : List (Op T ℝ X U nx nu ncr)) (w : World T ℝ (QState ℝ) X U nx nu ncr) (hw : World.run (sys.withSolver (qpObject env prm fuel)) l World.empty = some w)
    (i : ℕ) (xd : T → X) (dxd : T → Fin nx → ℝ) (ud : T → U) (hF : w.Follows i a xd dxd ud) (t : T) (x : X) {fuel' : ℕ}
    (w' : World T ℝ (QState ℝ) X U nx nu ncr) (r : Out X U) (h : w.step (sys.withSolver (qpObject env prm fuel')) (.call i t x) = some (w', some r))
    (hc : r.code = .optimal) :
    ∃ (s : QSol ℝ) (z : QVar (nColloc (meshOf a)) nx nu → ℝ) (rp : ℝ) (p : QP.Pbm ℝ (numV (nColloc (meshOf a)) nx nu) (numC (nColloc (meshOf a)) nx ncr nx))
      (v : Fin (numV (nColloc (meshOf a)) nx nu) → ℝ) (ζ : Fin (numC (nColloc (meshOf a)) nx ncr nx) → ℝ),
      w.answer (sys.withSolver (qpObject env prm fuel')) i t x = some s ∧ zOf s.primal = z ∧
      IsProgram sys a xd dxd ud t x p ∧ IsPrimal z v ∧ InBox p ζ ∧ Tol prm.epsAbs prm.epsRel (p.A *ᵥ v) ζ ζ rp ∧
      (∀ h0 : 0 < nColloc (meshOf a), r.u = sys.LU.rplus (ud (sys.plus t 0)) (duAt z ⟨0, h0⟩)) ∧
      NearHorizon sys a xd dxd ud t x rp z ∧
      ∀ L ρ, 0 ≤ L → 0 ≤ a.tf → ‖z‖ ≤ ρ → (∀ (i : Fin (nColloc (meshOf a))) k, BentTo (velAt sys a xd dxd ud t i k) L ρ) →
        (∀ (i : Fin (nColloc (meshOf a))) k, BentTo (runAt sys a xd ud t i k) L ρ) →
        NearMotion sys a xd dxd ud t (rp + a.tf * (L / 2 * ‖z‖ ^ 2)) (rp + L / 2 * ‖z‖ ^ 2) z := by
  obtain ⟨p, s, ws, sol, hp, hs, hsol, hprim, hcode, d, hd, hdu⟩ := call_answer sys hup l w hw i a xd dxd ud hF t x w' r h
  obtain ⟨⟨ζ, rp, rd, hz, -, t1, t2, -, -⟩, -⟩ := QP.qp_optimal_certificate (hsq _) hrho hpol hsol (hcode.symm.trans hc)
  have hzx : IsPrimal (zOf s.primal : QVar (nColloc (meshOf a)) nx nu → ℝ) sol.primal := fun q hq => by
    rw [← hprim]
    rfl
  have hN : NearHorizon sys a xd dxd ud t x rp (zOf s.primal) := by
    obtain ⟨s', o, o', h1, h2, h3, rfl⟩ := hp
    have key := (program_near (sys.withSolver s') a (isLie_with hG s') hf hcr xd dxd ud t x o o' h1 h2 h3 (zOf s.primal) rp).1 fun c => by
      have h := t2 ⟨c.pos, c.pos_lt⟩
      rw [row_sum o'.qp hzx] at h
      have hb := hz ⟨c.pos, c.pos_lt⟩
      have := abs_le.1 h
      exact ⟨lower_move hb.1 (by linarith), upper_move hb.2 (by linarith)⟩
    exact ⟨key.dynamics, key.initial, key.running⟩
  refine ⟨s, _, rp, p, sol.primal, ζ, hs, rfl, hp, hzx, hz, t1, fun h0 => ?_, hN, fun L ρ hL htf hρ b1 b2 => near_motion hN hL htf hρ b1 b2⟩
  rw [hdu]
  congr 1
  funext k
  unfold seg at hd
  split_ifs at hd
  rw [← Option.some.inj hd]
  simp [duAt, zOf, QVar.pos]

/-- **C141.** For running constraints that are affine in state and input (and see the time, so that they are linearised where they should be) nothing is lost by linearising: the input that an Optimal call
returns meets them, with the first state of the horizon, up to the primal tolerance of the stopping test. -/
theorem mpc_optimal_affine (sys : Sys T ℝ σ X U nx nu) (a : Args T ℝ X U nx nu ncr) (hG : sys.IsLie mat hat matU hatU) (hf : IsUFn sys a.f) (hcr : IsUFn sys a.cr)
    (hA : Affine sys a.cr) (ht : a.cr.timed = true) (hk : 1 ≤ a.Kmesh) (hLG : ∀ K, a.Kmesh ≤ K → K ≤ a.Kmesh + 1 → IsLGR sys.env K) (h0 : 0 < nColloc (meshOf a))
    (hup : ∀ n, UpperOnly (env n)) (hsq : ∀ n, SqrtPos (env n)) (hrho : 0 < prm.rho) (hpol : prm.polish = false) (hrel : prm.epsRel = 0)
    (l : List (Op T ℝ X U nx nu ncr)) (w : World T ℝ (QState ℝ) X U nx nu ncr) (hw : World.run (sys.withSolver (qpObject env prm fuel)) l World.empty = some w)
    (i : ℕ) (xd : T → X) (dxd : T → Fin nx → ℝ) (ud : T → U) (hF : w.Follows i a xd dxd ud) (t : T) (x : X) {fuel' : ℕ}
    (w' : World T ℝ (QState ℝ) X U nx nu ncr) (r : Out X U) (h : w.step (sys.withSolver (qpObject env prm fuel')) (.call i t x) = some (w', some r))
    (hc : r.code = .optimal) :
    ∃ d : Fin nx → ℝ, (∀ k, |(sys.LX.drExpinv (sys.rminus (xd (sys.plus t 0)) x) *ᵥ fun l => d l + sys.rminus (xd (sys.plus t 0)) x l) k| ≤ prm.epsAbs) ∧
      ∀ k, WithinTol (a.crl k) (a.cru k) prm.epsAbs (a.cr.val (some (sys.plus t 0)) (sys.LX.rplus (xd (sys.plus t 0)) d) r.u k) := by
  obtain ⟨s, z, rp, p, v, ζ, -, -, -, -, -, hT, hu, hN, -⟩ := mpc_optimal_near sys a hG hf hcr hup hsq hrho hpol l w hw i xd dxd ud hF t x w' r h hc
  have hrp : rp = prm.epsAbs := by
    obtain ⟨n1, n2, n3, -, -, -, hq⟩ := hT
    rw [hq, hrel, zero_mul, add_zero]
  subst hrp
  obtain ⟨-, n2⟩ := nodes_of_args hk hLG
  have hn : nodeTime sys (meshOf a) a.tf t 0 = sys.plus t 0 := by
    unfold nodeTime
    rw [n2, mul_zero]
  refine ⟨dxAt z ⟨0, h0⟩, hN.initial, fun k => ?_⟩
  have h1 := hN.running ⟨0, h0⟩ k
  have e2 : runAt sys a xd ud t 0 k = fun δ => near sys.LX sys.LU a.cr (some (sys.plus t 0)) (xd (sys.plus t 0)) (ud (sys.plus t 0)) δ k := by
    funext δ
    simp [runAt, ht, hn, seen]
  simp only [e2, stepAt_dev] at h1
  rw [hu h0]
  have := affine_expand hA (some (sys.plus t 0)) (xd (sys.plus t 0)) (ud (sys.plus t 0)) (dev z (⟨0, h0⟩ : Fin (nColloc (meshOf a)))) k
  unfold expand at this
  rw [this] at h1
  exact h1

end Verif.MPC
