import Verif.Spec.MPCError
import Verif.Proofs.MPCWorld
import Verif.Proofs.MPCFuel
import Verif.Proofs.QPFlat
import Verif.Props.MPC

/-! # The program of a call is determined by the situation, and small disturbances -/

set_option linter.unusedSectionVars false

namespace Verif.QP

open Matrix Verif.QPSpec

variable {F : Type*} [Field F] [LinearOrder F] [IsStrictOrderedRing F] {n m : ℕ} {p : Pbm F n m}

/-- If all programs with slightly shifted rows are feasible, then the multipliers have no flat direction. -/
theorem flatMult_shifted {δ : F} (hδ : 0 < δ)
    (h : ∀ e : Fin m → F, (∀ i, |e i| ≤ δ) → ∃ v, ∀ i, lower (p.l i) ((p.A *ᵥ v) i + e i) ∧ upper (p.u i) ((p.A *ᵥ v) i + e i)) {d : Fin m → F}
    (hd : FlatMult p d) : d = 0 := by
  obtain ⟨d1, d2, d3⟩ := hd
  obtain ⟨v, hv⟩ := h (fun i => if 0 ≤ d i then δ else -δ) (fun i => by split_ifs <;> simp [abs_of_pos hδ])
  have h0 : ∑ i, d i * (p.A *ᵥ v) i = 0 := by
    have : ∑ i, d i * (p.A *ᵥ v) i = d ⬝ᵥ p.A *ᵥ v := rfl
    rw [this, dotProduct_mulVec, ← mulVec_transpose, d1, zero_dotProduct]
  have hrow : ∀ i, d i * (p.A *ᵥ v) i + δ * |d i| ≤
      (match p.u i with | .fin b => b * max 0 (d i) | _ => 0) + (match p.l i with | .fin a => a * min 0 (d i) | _ => 0) := by
    intro i
    obtain ⟨hl, hu⟩ := hv i
    rcases le_or_gt 0 (d i) with hi | hi
    · rw [if_pos hi] at hl hu
      rw [max_eq_right hi, min_eq_left hi, abs_of_nonneg hi]
      have hz : (match p.l i with | .fin a => a * 0 | _ => 0 : F) = 0 := by cases p.l i <;> simp
      rw [hz, add_zero]
      cases hui : p.u i with
      | pos =>
        have : d i = 0 := le_antisymm ((d3 i).1 hui) hi
        simp [this]
      | fin b =>
        rw [hui] at hu
        change _ ≤ b at hu
        simp only
        nlinarith [mul_le_mul_of_nonneg_left hu hi]
      | neg => rw [hui] at hu; exact hu.elim
    · rw [if_neg (not_le.2 hi)] at hl hu
      rw [max_eq_left hi.le, min_eq_right hi.le, abs_of_neg hi]
      have hz : (match p.u i with | .fin a => a * 0 | _ => 0 : F) = 0 := by cases p.u i <;> simp
      rw [hz, zero_add]
      cases hli : p.l i with
      | neg => exact absurd ((d3 i).2 hli) (not_le.2 hi)
      | fin b =>
        rw [hli] at hl
        change b ≤ _ at hl
        simp only
        nlinarith [mul_le_mul_of_nonpos_left hl hi.le]
      | pos => rw [hli] at hl; exact hl.elim
  have hsum := Finset.sum_le_sum fun i (_ : i ∈ Finset.univ) => hrow i
  rw [Finset.sum_add_distrib, h0, zero_add, ← Finset.mul_sum] at hsum
  have h1 : ∑ i, |d i| ≤ 0 := by
    by_contra hc
    have := mul_pos hδ (not_le.1 hc)
    have h2 : δ * ∑ i, |d i| ≤ 0 := le_trans hsum d2
    linarith
  have h2 := (Finset.sum_eq_zero_iff_of_nonneg fun i _ => abs_nonneg (d i)).1 (le_antisymm h1 (Finset.sum_nonneg fun i _ => abs_nonneg (d i)))
  funext i
  exact abs_eq_zero.1 (h2 i (Finset.mem_univ i))

end Verif.QP

namespace Verif.MPC

open Verif.Mesh Verif.Sparse Verif.MeshFn Verif.NLP Verif.OQP Verif.QPSpec Verif.Lie Verif.Flatten
open Verif.QP (Ext Status UpperOnly SqrtPos LdltOk)
open scoped Matrix

variable {T σ τ X U : Type*} {nx nu ncr n m N : ℕ}

/-- A row of the first state. -/
def firstRow (J : Fin nx → ℝ) : QVar N nx nu → ℝ
  | .x j l => if (j : ℕ) = 0 then J l else 0
  | .u _ _ => 0

/-- The program of a call depends on the surroundings, the arguments, the desired trajectories, the time and the state, not on the past or the solver. -/
theorem program_det (sys : Sys T ℝ σ X U nx nu) (s s' : Solver ℝ τ) (a : Args T ℝ X U nx nu ncr) (xd : T → X) (dxd : T → Fin nx → ℝ) (ud : T → U) (t : T) (x : X)
    (o o' o2 o2' : Obj T ℝ τ X U nx nu ncr) (ho : o.Ok (sys.withSolver s)) (ho' : o'.Ok (sys.withSolver s')) (ha : o.args = a) (ha' : o'.args = a)
    (h : o.transcribe (sys.withSolver s) ⟨t, xd, dxd⟩ ⟨t, ud⟩ t x = some o2) (h' : o'.transcribe (sys.withSolver s') ⟨t, xd, dxd⟩ ⟨t, ud⟩ t x = some o2') :
    toPbm o2.qp (numV (nColloc (meshOf a)) nx nu) (numC (nColloc (meshOf a)) nx ncr nx) =
      toPbm o2'.qp (numV (nColloc (meshOf a)) nx nu) (numC (nColloc (meshOf a)) nx ncr nx) := by
  have hm : o.mesh = meshOf a := by rw [ho.meshOf, ha]
  have hm' : o'.mesh = meshOf a := by rw [ho'.meshOf, ha']
  obtain ⟨q, e, he, hok, hd, hdl, hdu, hc, hE, hEl, hEu⟩ := transcribe_spec (sys.withSolver s) o ho xd dxd ud t x
  rw [h] at e
  obtain rfl := Option.some.inj e
  obtain ⟨q, e, he', hok', hd', hdl', hdu', hc', hE', hEl', hEu'⟩ := transcribe_spec (sys.withSolver s') o' ho' xd dxd ud t x
  rw [h'] at e
  obtain rfl := Option.some.inj e
  have hE : ∀ (k : Fin nx) (v : QVar (nColloc o.mesh) nx nu), o2.qp.A.val (nx * nColloc o.mesh + ncr * nColloc o.mesh + k) v.pos =
      firstRow (patInv (sys.withSolver s) ((sys.withSolver s).rminus (xd ((sys.withSolver s).plus t 0)) x) k) v := fun k v => by
    rw [hE]
    cases v with
    | x j l => simp only [firstRow, Fin.ext_iff]; rfl
    | u j l => rfl
  have hE' : ∀ (k : Fin nx) (v : QVar (nColloc o'.mesh) nx nu), o2'.qp.A.val (nx * nColloc o'.mesh + ncr * nColloc o'.mesh + k) v.pos =
      firstRow (patInv (sys.withSolver s') ((sys.withSolver s').rminus (xd ((sys.withSolver s').plus t 0)) x) k) v := fun k v => by
    rw [hE']
    cases v with
    | x j l => simp only [firstRow, Fin.ext_iff]; rfl
    | u j l => rfl
  have h1 : o2.mesh = meshOf a := by rw [he]; exact hm
  have h2 : o2.args = a := by rw [he]; exact ha
  have h1' : o2'.mesh = meshOf a := by rw [he']; exact hm'
  have h2' : o2'.args = a := by rw [he']; exact ha'
  have hP := hok.P
  have hP' := hok'.P
  have hq := hok.q
  have hq' := hok'.q
  have hcr := hok.cr
  have hcr' := hok'.cr
  clear he he' h h' hok hok' ho ho'
  rw [h1] at hP hq hcr
  rw [h1'] at hP' hq' hcr'
  rw [h2] at hP hcr
  rw [h2'] at hP' hcr'
  rw [hm] at hd hdl hdu hc hE hEl hEu
  rw [hm'] at hd' hdl' hdu' hc' hE' hEl' hEu'
  rw [ha] at hd hdl hdu hc
  rw [ha'] at hd' hdl' hdu' hc'
  have hPP : ∀ i j : Fin (numV (nColloc (meshOf a)) nx nu), o2.qp.P.val i j = o2'.qp.P.val i j := by
    intro i j
    obtain ⟨v, hv⟩ := QVar.pos_surj i.2
    obtain ⟨w, hw⟩ := QVar.pos_surj j.2
    rw [← hv, ← hw, hP, hP']
    rfl
  unfold toPbm
  congr 1
  · funext i j
    rw [hPP i j, hPP j i]
  · funext i
    obtain ⟨v, hv⟩ := QVar.pos_surj i.2
    rw [← hv, hq, hq']
  · funext i j
    obtain ⟨c, hcc⟩ := QCon.pos_surj i.2
    obtain ⟨w, hw⟩ := QVar.pos_surj j.2
    rw [← hcc, ← hw]
    cases c with
    | dyn p k => exact (hd p k w).trans (hd' p k w).symm
    | cr p k =>
      simp only [QCon.pos, add_assoc]
      cases ht : a.cr.timed with
      | true => exact ((hc ht p k).A w).trans ((hc' ht p k).A w).symm
      | false => exact ((hcr ht p k).A w).trans ((hcr' ht p k).A w).symm
    | ce k => exact (hE k w).trans (hE' k w).symm
  · funext i
    obtain ⟨c, hcc⟩ := QCon.pos_surj i.2
    rw [← hcc]
    cases c with
    | dyn p k => exact (hdl p k).trans (hdl' p k).symm
    | cr p k =>
      simp only [QCon.pos, add_assoc]
      cases ht : a.cr.timed with
      | true => exact ((hc ht p k).l).trans ((hc' ht p k).l).symm
      | false => exact ((hcr ht p k).l).trans ((hcr' ht p k).l).symm
    | ce k => exact (hEl k).trans (hEl' k).symm
  · funext i
    obtain ⟨c, hcc⟩ := QCon.pos_surj i.2
    rw [← hcc]
    cases c with
    | dyn p k => exact (hdu p k).trans (hdu' p k).symm
    | cr p k =>
      simp only [QCon.pos, add_assoc]
      cases ht : a.cr.timed with
      | true => exact ((hc ht p k).u).trans ((hc' ht p k).u).symm
      | false => exact ((hcr ht p k).u).trans ((hcr' ht p k).u).symm
    | ce k => exact (hEu k).trans (hEu' k).symm

variable {𝔸 𝔹 : Type*} [NormedRing 𝔸] [NormedAlgebra ℝ 𝔸] [FiniteDimensional ℝ 𝔸] [CompleteSpace 𝔸] [NormedRing 𝔹] [NormedAlgebra ℝ 𝔹]
  [FiniteDimensional ℝ 𝔹] [CompleteSpace 𝔹] {mat : X → 𝔸} {hat : (Fin nx → ℝ) →ₗ[ℝ] 𝔸} {matU : U → 𝔹} {hatU : (Fin nu → ℝ) →ₗ[ℝ] 𝔹}

theorem lower_shift (b : Ext ℝ) (g y e : ℝ) : lower (extSub b g) (y + e) ↔ lower b (g + y + e) := by
  cases b <;> simp [extSub, lower, sub_le_iff_le_add, add_comm, add_left_comm, add_assoc]

theorem upper_shift (b : Ext ℝ) (g y e : ℝ) : upper (extSub b g) (y + e) ↔ upper b (g + y + e) := by
  cases b <;> simp [extSub, upper, le_sub_iff_add_le, add_comm, add_left_comm, add_assoc]

/-- A robust situation gives a program whose rows can be shifted. -/
theorem robust_shift (sys : Sys T ℝ σ X U nx nu) (a : Args T ℝ X U nx nu ncr) (hL : sys.IsLie mat hat matU hatU)
    (hf : IsUFn sys a.f) (hcr : IsUFn sys a.cr) (xd : T → X) (dxd : T → Fin nx → ℝ) (ud : T → U) (t : T) (x : X)
    (hR : Robust sys a xd dxd ud t x) (o o' : Obj T ℝ σ X U nx nu ncr) (ho : o.Ok sys) (ha : o.args = a)
    (h : o.transcribe sys ⟨t, xd, dxd⟩ ⟨t, ud⟩ t x = some o') :
    ∃ δ : ℝ, 0 < δ ∧ ∀ e : Fin (numC (nColloc (meshOf a)) nx ncr nx) → ℝ, (∀ i, |e i| ≤ δ) → ∃ v, ∀ i,
      lower ((toPbm o'.qp (numV (nColloc (meshOf a)) nx nu) (numC (nColloc (meshOf a)) nx ncr nx)).l i)
        (((toPbm o'.qp (numV (nColloc (meshOf a)) nx nu) (numC (nColloc (meshOf a)) nx ncr nx)).A *ᵥ v) i + e i) ∧
      upper ((toPbm o'.qp (numV (nColloc (meshOf a)) nx nu) (numC (nColloc (meshOf a)) nx ncr nx)).u i)
        (((toPbm o'.qp (numV (nColloc (meshOf a)) nx nu) (numC (nColloc (meshOf a)) nx ncr nx)).A *ᵥ v) i + e i) := by
  have hm : o.mesh = meshOf a := by rw [ho.meshOf, ha]
  obtain ⟨o2, e, he, hok, hd, hdl, hdu, hc, hE, hEl, hEu⟩ := transcribe_spec sys o ho xd dxd ud t x
  rw [h] at e
  obtain rfl := Option.some.inj e
  have hE : ∀ (k : Fin nx) (v : QVar (nColloc o.mesh) nx nu), o'.qp.A.val (nx * nColloc o.mesh + ncr * nColloc o.mesh + k) v.pos =
      firstRow (patInv (sys) ((sys).rminus (xd ((sys).plus t 0)) x) k) v := fun k v => by
    rw [hE]
    cases v with
    | x j l => simp only [firstRow, Fin.ext_iff]; rfl
    | u j l => rfl
  have h1 : o'.mesh = meshOf a := by rw [he]; exact hm
  have h2 : o'.args = a := by rw [he]; exact ha
  have hcr2 := hok.cr
  rw [h1, h2] at hcr2
  rw [hm] at hd hdl hdu hc hE hEl hEu
  rw [ha] at hd hdl hdu hc
  obtain ⟨δ, hδ, hR⟩ := hR
  set rm := sys.rminus (xd (sys.plus t 0)) x with hrm
  have hdyn : ∀ (z : QVar (nColloc (meshOf a)) nx nu → ℝ) (p : Fin (nColloc (meshOf a))) (k : Fin nx),
      ∑ w : QVar (nColloc (meshOf a)) nx nu, o'.qp.A.val (nx * p + k) w.pos * z w =
        a.tf * fderiv ℝ (fun δ => errVel sys a.f (seen a.f (nodeTime sys (meshOf a) a.tf t p)) (xd (nodeTime sys (meshOf a) a.tf t p))
          (dxd (nodeTime sys (meshOf a) a.tf t p)) (ud (nodeTime sys (meshOf a) a.tf t p)) δ k) 0 (dev z p) -
        MeshFn.slope sys.env (spans 1 (meshOf a)) (coordQ z k) p := by
    intro z p k
    rw [← errRow_sum hL hf]
    simp only [hd, sub_mul, Finset.sum_sub_distrib, slope_unit]
  have hend : ∀ (z : QVar (nColloc (meshOf a)) nx nu → ℝ) (k : Fin nx),
      ∑ w : QVar (nColloc (meshOf a)) nx nu, o'.qp.A.val (nx * nColloc (meshOf a) + ncr * nColloc (meshOf a) + k) w.pos * z w =
        (sys.LX.drExpinv rm *ᵥ fun l => z (.x 0 l)) k := by
    intro z k
    rw [QVar.sum_eq]
    simp only [hE, zero_mul, Finset.sum_const_zero, add_zero, patInv_eq hL]
    rw [Finset.sum_eq_single 0 (fun j _ hj => by
      have : (j : ℕ) ≠ 0 := fun h => hj (Fin.ext h)
      simp [firstRow, this]) (fun h => absurd (Finset.mem_univ _) h)]
    simp only [firstRow, Fin.val_zero, if_true, zero_mul, Finset.sum_const_zero, add_zero, patInv_eq hL]
    rfl
  set M : ℝ := 1 + ∑ k, ∑ l, |sys.LX.drExp rm k l| with hM
  have hM0 : 0 ≤ ∑ k, ∑ l, |sys.LX.drExp rm k l| := Finset.sum_nonneg fun _ _ => Finset.sum_nonneg fun _ _ => abs_nonneg _
  have hM1 : 1 ≤ M := by linarith
  refine ⟨δ / M, div_pos hδ (by linarith), fun e hle => ?_⟩
  have hle' : ∀ i, |e i| ≤ δ := fun i => le_trans (hle i) (div_le_self hδ.le hM1)
  let ce : Fin nx → ℝ := fun k => e ⟨(QCon.ce k : QCon (nColloc (meshOf a)) nx ncr nx).pos, QCon.pos_lt _⟩
  obtain ⟨z, hz⟩ := hR (fun i k => e ⟨(QCon.dyn i k : QCon (nColloc (meshOf a)) nx ncr nx).pos, QCon.pos_lt _⟩) (-(sys.LX.drExp rm *ᵥ ce))
    (fun i k => e ⟨(QCon.cr i k : QCon (nColloc (meshOf a)) nx ncr nx).pos, QCon.pos_lt _⟩) (fun i k => hle' _) (fun k => by
      rw [Pi.neg_apply, abs_neg]
      have hab : |∑ l, sys.LX.drExp rm k l * ce l| ≤ ∑ l, |sys.LX.drExp rm k l * ce l| := Finset.abs_sum_le_sum_abs _ _
      calc |(sys.LX.drExp rm *ᵥ ce) k| ≤ ∑ l, |sys.LX.drExp rm k l * ce l| := hab
        _ ≤ ∑ l, |sys.LX.drExp rm k l| * (δ / M) := Finset.sum_le_sum fun l _ => by
            rw [abs_mul]; exact mul_le_mul_of_nonneg_left (hle _) (abs_nonneg _)
        _ = (∑ l, |sys.LX.drExp rm k l|) * (δ / M) := by rw [Finset.sum_mul]
        _ ≤ M * (δ / M) := by
            refine mul_le_mul_of_nonneg_right ?_ (div_pos hδ (by linarith)).le
            have : ∑ l, |sys.LX.drExp rm k l| ≤ ∑ k, ∑ l, |sys.LX.drExp rm k l| :=
              Finset.single_le_sum (f := fun k => ∑ l, |sys.LX.drExp rm k l|) (fun k _ => Finset.sum_nonneg fun _ _ => abs_nonneg _) (Finset.mem_univ k)
            linarith
        _ = δ := mul_div_cancel₀ _ (by linarith)) (fun i k => hle' _)
  obtain ⟨v, hv, -⟩ := (qp_layout (nColloc (meshOf a)) nx nu ncr nx).1 z
  refine ⟨v, fun c => ?_⟩
  obtain ⟨c', hc'⟩ := QCon.pos_surj c.2
  have hce : c = ⟨c'.pos, c'.pos_lt⟩ := Fin.ext hc'.symm
  rw [row_sum o'.qp hv]
  change lower (o'.qp.l.val c) _ ∧ upper (o'.qp.u.val c) _
  rw [hce]
  simp only
  cases c' with
  | dyn i k =>
    have h1 : MeshFn.slope sys.env (spans 1 (meshOf a)) (coordQ z k) i = _ := hz.dynamics i k
    unfold taylor1 at h1
    simp only [errVel_zero hL, Pi.sub_apply] at h1
    simp only [QCon.pos] at h1 ⊢
    simp only [hdyn, hdl, hdu, lower, upper, h1]
    constructor <;> apply le_of_eq <;> ring
  | cr i k =>
    have hzr := hz.running i k
    have key : ∀ t' x' u', CrRow a (nColloc (meshOf a)) o'.qp i k t' x' u' → ∀ ee, Within (a.crl k) (a.cru k) (expand sys a.cr t' x' u' (dev z i) k + ee) →
        lower (o'.qp.l.val (nx * nColloc (meshOf a) + (ncr * (i : ℕ) + k)))
          (∑ w : QVar (nColloc (meshOf a)) nx nu, o'.qp.A.val (nx * nColloc (meshOf a) + (ncr * (i : ℕ) + k)) w.pos * z w + ee) ∧
        upper (o'.qp.u.val (nx * nColloc (meshOf a) + (ncr * (i : ℕ) + k)))
          (∑ w : QVar (nColloc (meshOf a)) nx nu, o'.qp.A.val (nx * nColloc (meshOf a) + (ncr * (i : ℕ) + k)) w.pos * z w + ee) := by
      intro t' x' u' hrow ee hw
      simp only [hrow.A, ufRow_sum hcr, hrow.l, hrow.u]
      unfold expand taylor1 Within at hw
      simp only [near_zero hL] at hw
      exact ⟨(lower_shift _ _ _ _).2 hw.1, (upper_shift _ _ _ _).2 hw.2⟩
    simp only [QCon.pos, add_assoc] at hzr ⊢
    cases ht : a.cr.timed with
    | true =>
      rw [ht, if_pos rfl] at hzr
      exact key _ _ _ (hc ht i k) _ hzr
    | false =>
      rw [ht, if_neg (by simp)] at hzr
      exact key _ _ _ (hcr2 ht i k) _ hzr
  | ce k =>
    have hu : IsUnit (sys.LX.drExp rm).det := (hL.rminus (xd (sys.plus t 0)) x).2
    have h0 := (initial_iff hL (xd (sys.plus t 0)) x _).2 rfl
    have h3 : (sys.LX.drExpinv rm *ᵥ fun l => z (.x 0 l)) = -rm - ce := by
      rw [hz.initial, Matrix.mulVec_add, ← hrm]
      rw [← hrm] at h0
      rw [h0, Matrix.mulVec_neg, hL.x.drExpinv _ hu, Matrix.mulVec_mulVec, Matrix.nonsing_inv_mul _ hu, Matrix.one_mulVec, sub_eq_add_neg]
    have h4 := congrFun h3 k
    have h5 : e ⟨(QCon.ce k : QCon (nColloc (meshOf a)) nx ncr nx).pos, QCon.pos_lt _⟩ = ce k := rfl
    rw [h5]
    simp only [QCon.pos, hend, hEl, hEu, lower, upper, h4, Pi.sub_apply, Pi.neg_apply]
    constructor <;> apply le_of_eq <;> ring

end Verif.MPC
