import Verif.Props.MPCError
import Verif.Props.MPCVec

/-! # The rows of a controller's program for vectors -/

set_option linter.unusedSectionVars false

namespace Verif.MPC

open Verif.Mesh Verif.Sparse Verif.MeshFn Verif.NLP Verif.OQP Verif.QPSpec Verif.Lie Verif.Flatten
open Verif.QP (Ext Status)
open scoped Matrix

variable {T σ : Type*} {nx nu ncr : ℕ}

/-- The rows of the program of a situation, for vectors and running constraints without time. -/
theorem vec_rows {menv : Mesh.Env ℝ} {plus : T → ℝ → T} {t00 : T} {solver : Solver ℝ σ} {a : Args T ℝ (Fin nx → ℝ) (Fin nu → ℝ) nx nu ncr}
    (hf : IsUFn (vecSys nx nu menv plus t00 solver) a.f) (hcr : IsUFn (vecSys nx nu menv plus t00 solver) a.cr) (hct : a.cr.timed = false)
    {xd dxd : T → Fin nx → ℝ} {ud : T → Fin nu → ℝ} {t : T} {x : Fin nx → ℝ}
    {p : QP.Pbm ℝ (numV (nColloc (meshOf a)) nx nu) (numC (nColloc (meshOf a)) nx ncr nx)}
    (h : IsProgram (vecSys nx nu menv plus t00 solver) a xd dxd ud t x p) (z : QVar (nColloc (meshOf a)) nx nu → ℝ)
    (v : Fin (numV (nColloc (meshOf a)) nx nu) → ℝ) (hv : IsPrimal z v) :
    (∀ (i : Fin (nColloc (meshOf a))) (k : Fin nx), ∃ r : Fin (numC (nColloc (meshOf a)) nx ncr nx), (r : ℕ) = (QCon.dyn i k : QCon (nColloc (meshOf a)) nx ncr nx).pos ∧
      (p.A *ᵥ v) r = a.tf * (∑ l, a.f.dx (seen a.f (plus t (a.tf * tauAt menv (meshOf a) i))) (xd (plus t (a.tf * tauAt menv (meshOf a) i)))
            (ud (plus t (a.tf * tauAt menv (meshOf a) i))) k l * z (.x i.castSucc l) +
          ∑ l, a.f.du (seen a.f (plus t (a.tf * tauAt menv (meshOf a) i))) (xd (plus t (a.tf * tauAt menv (meshOf a) i)))
            (ud (plus t (a.tf * tauAt menv (meshOf a) i))) k l * z (.u i l)) -
        MeshFn.slope menv (spans 1 (meshOf a)) (coordQ z k) i ∧
      p.l r = .fin (-a.tf * (a.f.val (seen a.f (plus t (a.tf * tauAt menv (meshOf a) i))) (xd (plus t (a.tf * tauAt menv (meshOf a) i)))
            (ud (plus t (a.tf * tauAt menv (meshOf a) i))) k - dxd (plus t (a.tf * tauAt menv (meshOf a) i)) k)) ∧ p.u r = p.l r) ∧
    (∀ (i : Fin (nColloc (meshOf a))) (k : Fin ncr), ∃ r : Fin (numC (nColloc (meshOf a)) nx ncr nx), (r : ℕ) = (QCon.cr i k : QCon (nColloc (meshOf a)) nx ncr nx).pos ∧
      (p.A *ᵥ v) r = ∑ l, a.cr.dx none 0 0 k l * z (.x i.castSucc l) + ∑ l, a.cr.du none 0 0 k l * z (.u i l) ∧
      p.l r = extSub (a.crl k) (a.cr.val none 0 0 k) ∧ p.u r = extSub (a.cru k) (a.cr.val none 0 0 k)) ∧
    (∀ k : Fin nx, ∃ r : Fin (numC (nColloc (meshOf a)) nx ncr nx), (r : ℕ) = (QCon.ce k : QCon (nColloc (meshOf a)) nx ncr nx).pos ∧
      (p.A *ᵥ v) r = z (.x 0 k) ∧ p.l r = .fin (x k - xd (plus t 0) k) ∧ p.u r = p.l r) := by
  obtain ⟨s, o, o', h1, h2, h3, rfl⟩ := h
  set sys := vecSys nx nu menv plus t00 solver with hsys
  have hG : (sys.withSolver s).IsLie (vecMat nx) (vecHat nx) (vecMat nu) (vecHat nu) := isLie_with (vecSys_isLie nx nu menv plus t00 solver) s
  have hf' : IsUFn (sys.withSolver s) a.f := hf
  have hcr' : IsUFn (sys.withSolver s) a.cr := hcr
  have hm : o.mesh = meshOf a := by rw [h1.meshOf, h2]
  obtain ⟨o2, e, he, hok, hd, hdl, hdu, -, hE, hEl, hEu⟩ := transcribe_spec (sys.withSolver s) o h1 xd dxd ud t x
  obtain rfl := Option.some.inj (e.symm.trans h3)
  have hE : ∀ (k : Fin nx) (v : QVar (nColloc o.mesh) nx nu), o2.qp.A.val (nx * nColloc o.mesh + ncr * nColloc o.mesh + k) v.pos =
      firstRow (patInv (sys.withSolver s) ((sys.withSolver s).rminus (xd ((sys.withSolver s).plus t 0)) x) k) v := fun k v => by
    rw [hE]
    cases v with
    | x j l => simp only [firstRow, Fin.ext_iff]; rfl
    | u j l => rfl
  have hm2 : o2.mesh = meshOf a := by rw [he]; exact hm
  have ha2 : o2.args = a := by rw [he]; exact h2
  have hcr2 := hok.cr
  rw [hm2, ha2] at hcr2
  rw [hm] at hd hdl hdu hE hEl hEu
  rw [h2] at hd hdl hdu
  refine ⟨fun i k => ⟨⟨_, QCon.pos_lt (QCon.dyn i k)⟩, rfl, ?_, hdl i k, ?_⟩, fun i k => ⟨⟨_, QCon.pos_lt (QCon.cr i k)⟩, rfl, ?_, ?_, ?_⟩,
    fun k => ⟨⟨_, QCon.pos_lt (QCon.ce k)⟩, rfl, ?_, ?_, ?_⟩⟩
  · rw [row_sum o2.qp hv]
    have hsum : ∑ w : QVar (nColloc (meshOf a)) nx nu, o2.qp.A.val (nx * i + k) w.pos * z w =
        a.tf * fderiv ℝ (fun δ => errVel (sys.withSolver s) a.f (seen a.f (nodeTime (sys.withSolver s) (meshOf a) a.tf t i)) (xd (nodeTime (sys.withSolver s) (meshOf a) a.tf t i))
          (dxd (nodeTime (sys.withSolver s) (meshOf a) a.tf t i)) (ud (nodeTime (sys.withSolver s) (meshOf a) a.tf t i)) δ k) 0 (dev z i) -
        MeshFn.slope (sys.withSolver s).env (spans 1 (meshOf a)) (coordQ z k) i := by
      rw [← errRow_sum hG hf']
      simp only [hd, sub_mul, Finset.sum_sub_distrib, slope_unit]
    refine hsum.trans ?_
    have ht := errVel_sum hG hf' (seen a.f (plus t (a.tf * tauAt menv (meshOf a) i))) (xd (plus t (a.tf * tauAt menv (meshOf a) i)))
      (dxd (plus t (a.tf * tauAt menv (meshOf a) i))) (ud (plus t (a.tf * tauAt menv (meshOf a) i))) (dev z i) k
    have had : ∀ l, (sys.withSolver s).LX.ad (Pi.single l 1) = 0 := fun _ => rfl
    simp only [had, Matrix.zero_mulVec, Pi.zero_apply, mul_zero, add_zero] at ht
    unfold taylor1 at ht
    simp only [errVel_zero hG, Pi.sub_apply] at ht
    have ht' := add_left_cancel ht
    exact congrArg (fun y => a.tf * y - _) ht'
  · exact (hdu i k).trans (hdl i k).symm
  · rw [row_sum o2.qp hv]
    have hrow := hcr2 hct i k
    have hsum : ∑ w : QVar (nColloc (meshOf a)) nx nu, o2.qp.A.val (nx * nColloc (meshOf a) + (ncr * (i : ℕ) + k)) w.pos * z w =
        fderiv ℝ (fun δ => near (sys.withSolver s).LX (sys.withSolver s).LU a.cr none (sys.withSolver s).dfltX (sys.withSolver s).dfltU δ k) 0 (dev z i) := by
      simp only [hrow.A, ufRow_sum hcr']
    rw [← add_assoc] at hsum
    refine hsum.trans ?_
    have ht := expand_sum hG hcr' none 0 0 (dev z i) k
    unfold expand taylor1 at ht
    simp only [near_zero hG] at ht
    exact add_left_cancel ht
  · have := (hcr2 hct i k).l
    rw [← add_assoc] at this
    exact this
  · have := (hcr2 hct i k).u
    rw [← add_assoc] at this
    exact this
  · rw [row_sum o2.qp hv]
    have hsum : ∑ w : QVar (nColloc (meshOf a)) nx nu, o2.qp.A.val (nx * nColloc (meshOf a) + ncr * nColloc (meshOf a) + k) w.pos * z w =
        ∑ l, (sys.withSolver s).LX.drExpinv ((sys.withSolver s).rminus (xd ((sys.withSolver s).plus t 0)) x) k l * z (.x 0 l) := by
      rw [QVar.sum_eq]
      simp only [hE, zero_mul, Finset.sum_const_zero, add_zero, patInv_eq hG]
      rw [Finset.sum_eq_single 0 (fun j _ hj => by
        have : (j : ℕ) ≠ 0 := fun h => hj (Fin.ext h)
        simp [firstRow, this]) (fun h => absurd (Finset.mem_univ _) h)]
      simp only [firstRow, Fin.val_zero, if_true, zero_mul, Finset.sum_const_zero, add_zero, patInv_eq hG]
    refine hsum.trans ?_
    have hone : ∀ e, (sys.withSolver s).LX.drExpinv e = 1 := fun _ => rfl
    simp only [hone, Matrix.one_apply, ite_mul, one_mul, zero_mul, Finset.sum_ite_eq, Finset.mem_univ, if_true]
  · refine (hEl k).trans ?_
    change Ext.fin (0 - (xd (plus t 0) - x) k) = _
    rw [Pi.sub_apply]
    congr 1
    ring
  · exact (hEu k).trans (hEl k).symm

end Verif.MPC
