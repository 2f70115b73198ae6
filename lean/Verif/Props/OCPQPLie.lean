import Verif.Proofs.OCPQPLie
import Verif.Proofs.LieZero
import Verif.Spec.OCPQPLie
import Verif.Props.OCPQP
import Verif.Props.Flatten
import Verif.Props.FlattenDeriv

/-! # The quadratic program of a problem on Lie groups (C81) -/

set_option linter.unusedSectionVars false

namespace Verif.OQP

open Verif.Mesh Verif.Sparse Verif.MeshFn Verif.NLP Verif.QP Verif.QPSpec Verif.Lie Verif.Flatten
open scoped Matrix Topology

variable {X U 𝔸 𝔹 : Type*} [NormedRing 𝔸] [NormedAlgebra ℝ 𝔸] [FiniteDimensional ℝ 𝔸] [CompleteSpace 𝔸] [NormedRing 𝔹] [NormedAlgebra ℝ 𝔹]
  [FiniteDimensional ℝ 𝔹] [CompleteSpace 𝔹]
  {nx nu ncr nce nf : ℕ} {LX : LieOps X ℝ nx} {LU : LieOps U ℝ nu} {mat : X → 𝔸} {hat : (Fin nx → ℝ) →ₗ[ℝ] 𝔸} {matU : U → 𝔹}
  {hatU : (Fin nu → ℝ) →ₗ[ℝ] 𝔹} {lin : GLin X U ℝ nx}

/-- `errDyn` is the velocity of the error: `x_lin ⊕ e` satisfies the dynamics if and only if `e' = errDyn e`. -/
theorem err_dynamics (h : IsLie LX mat hat) (f : GFn X U ℝ nx) (tf : ℝ) (e : ℝ → Fin nx → ℝ) (v : ℝ → Fin nu → ℝ)
    (hxl : ∀ t ∈ Set.Icc 0 tf, HasVel mat hat lin.x (lin.dx t) (Set.Icc 0 tf) t) (hreg : Regular LX e (Set.Icc 0 tf))
    (hc : ContinuousOn e (Set.Icc 0 tf)) (t : ℝ) (ht : t ∈ Set.Icc 0 tf) :
    HasVel mat hat (fun s => LX.rplus (lin.x s) (e s)) (f.val t (LX.rplus (lin.x t) (e t)) (LU.rplus (lin.u t) (v t))) (Set.Icc 0 tf) t ↔
      HasDerivWithinAt e (errDyn LX LU f lin t (pt t (e t) (v t))) (Set.Icc 0 tf) t := by
  have := flat_dynamics (LU := LU) h f ⟨lin.x, lin.dx⟩ ⟨lin.u, fun _ => 0⟩ tf e v hxl hreg hc t ht
  rw [this]
  have e1 : dynVal LX LU f ⟨lin.x, lin.dx⟩ ⟨lin.u, fun _ => 0⟩ t (e t) (v t) = errDyn LX LU f lin t (pt t (e t) (v t)) := by
    have h1 : LX.drExpinv (e t) *ᵥ (LX.drExp (e t) *ᵥ (LX.ad (e t) *ᵥ lin.dx t)) = LX.ad (e t) *ᵥ lin.dx t := by
      rw [h.drExpinv _ (hreg t ht), Matrix.mulVec_mulVec, Matrix.nonsing_inv_mul _ (hreg t ht), Matrix.one_mulVec]
    rw [h.drExp_ad, Matrix.mulVec_sub] at h1
    change LX.drExpinv (e t) *ᵥ (f.val t (LX.rplus (lin.x t) (e t)) (LU.rplus (lin.u t) (v t)) - lin.dx t) + LX.ad (e t) *ᵥ lin.dx t =
      LX.drExpinv (e t) *ᵥ (f.val t (LX.rplus (lin.x t) (e t)) (LU.rplus (lin.u t) (v t)) - LX.Ad (LX.exp (-e t)) *ᵥ lin.dx t)
    rw [Matrix.mulVec_sub, Matrix.mulVec_sub, ← h1]
    abel
  rw [e1]

/-- `f` and its first derivatives along the linearisation. -/
theorem along_zero (h : IsLie LX mat hat) (h' : IsLie LU matU hatU) (f : GFn X U ℝ nf) (t : ℝ) : along LX LU f lin t 0 = f.val t (lin.x t) (lin.u t) := by
  change f.val t (LX.rplus (lin.x t) 0) (LU.rplus (lin.u t) 0) = _
  rw [h.rplus_zero, h'.rplus_zero]

theorem ends_zero (h : IsLie LX mat hat) (f : GEFn X ℝ 1 nf) (tf : ℝ) : ends LX f lin tf 0 = f.val tf (lin.x 0) (lin.x tf) fun _ => 1 := by
  change f.val tf (LX.rplus (lin.x 0) 0) (LX.rplus (lin.x tf) 0) (fun _ => 1 + 0) = _
  rw [h.rplus_zero, h.rplus_zero, add_zero]

/-- Partial derivatives without that for the time. -/
def noT (φ : Arg nx nu → ℝ) : Arg nx nu → ℝ
  | .t => 0
  | .x k => φ (.x k)
  | .u k => φ (.u k)

def noTE (φ : EArg nx 1 → ℝ) : EArg nx 1 → ℝ
  | .tf => 0
  | .x0 k => φ (.x0 k)
  | .xf k => φ (.xf k)
  | .q k => φ (.q k)

theorem noT_hasPd {φ : (Arg nx nu → ℝ) → ℝ} {T : Arg nx nu → ℝ} (h : HasPd φ T 0) : HasPd (fun δ => φ (noT δ)) (noT T) 0 := by
  have e0 : noT (0 : Arg nx nu → ℝ) = 0 := by funext a; cases a <;> rfl
  have h' : HasPd φ T (noT 0) := by rw [e0]; exact h
  have hg : ∀ k : Arg nx nu, HasPd (fun δ : Arg nx nu → ℝ => noT δ k) (fun a => match k with | .t => 0 | k => if k = a then 1 else 0) 0 := by
    intro k
    cases k with
    | t => exact hasPd_const 0 _
    | x k => exact hasPd_coord _ _
    | u k => exact hasPd_coord _ _
  refine (h'.comp hg).of_eq fun a => ?_
  rw [arg_sum_eq]
  cases a <;> simp [noT]

theorem noTE_hasPd {φ : (EArg nx 1 → ℝ) → ℝ} {T : EArg nx 1 → ℝ} (h : HasPd φ T 0) : HasPd (fun δ => φ (noTE δ)) (noTE T) 0 := by
  have e0 : noTE (0 : EArg nx 1 → ℝ) = 0 := by funext a; cases a <;> rfl
  have h' : HasPd φ T (noTE 0) := by rw [e0]; exact h
  have hg : ∀ k : EArg nx 1, HasPd (fun δ : EArg nx 1 → ℝ => noTE δ k) (fun a => match k with | .tf => 0 | k => if k = a then 1 else 0) 0 := by
    intro k
    cases k with
    | tf => exact hasPd_const 0 _
    | x0 k => exact hasPd_coord _ _
    | xf k => exact hasPd_coord _ _
    | q k => exact hasPd_coord _ _
  refine (h'.comp hg).of_eq fun a => ?_
  rw [earg_sum_eq]
  cases a with
  | q k => rw [Subsingleton.elim k 0]; simp [noTE]
  | _ => simp [noTE]

theorem along_hasPd {f : GFn X U ℝ nf} (hf : IsDrG LX LU f) (t : ℝ) (j : Fin nf) :
    HasPd (fun δ => along LX LU f lin t δ j) (noT fun a => (f.jac t (lin.x t) (lin.u t)).val j a.pos) 0 := by
  have h1 : HasPd (fun δ => f.val (move LX LU (t, lin.x t, lin.u t) δ).1 (move LX LU (t, lin.x t, lin.u t) δ).2.1
    (move LX LU (t, lin.x t, lin.u t) δ).2.2 j) _ 0 := hf.jac_val (t, lin.x t, lin.u t) j
  have h2 := noT_hasPd h1
  have e : (fun δ => along LX LU f lin t δ j) = fun δ => f.val (move LX LU (t, lin.x t, lin.u t) (noT δ)).1 (move LX LU (t, lin.x t, lin.u t) (noT δ)).2.1
      (move LX LU (t, lin.x t, lin.u t) (noT δ)).2.2 j := by
    funext δ
    change f.val t _ _ j = f.val (t + 0) _ _ j
    rw [add_zero]
    rfl
  rw [e]
  exact h2

theorem ends_hasPd {f : GEFn X ℝ 1 nf} (hf : IsDrGE LX f) (tf : ℝ) (j : Fin nf) :
    HasPd (fun δ => ends LX f lin tf δ j) (noTE fun a => (f.jac tf (lin.x 0) (lin.x tf) fun _ => 1).val j a.pos) 0 := by
  have h1 : HasPd (fun δ => f.val (moveE LX (tf, lin.x 0, lin.x tf, fun _ => 1) δ).1 (moveE LX (tf, lin.x 0, lin.x tf, fun _ => 1) δ).2.1
    (moveE LX (tf, lin.x 0, lin.x tf, fun _ => 1) δ).2.2.1 (moveE LX (tf, lin.x 0, lin.x tf, fun _ => 1) δ).2.2.2 j) _ 0 :=
      hf.jac_val (tf, lin.x 0, lin.x tf, fun _ => 1) j
  have h2 := noTE_hasPd h1
  have e : (fun δ => ends LX f lin tf δ j) = fun δ => f.val (moveE LX (tf, lin.x 0, lin.x tf, fun _ => 1) (noTE δ)).1
      (moveE LX (tf, lin.x 0, lin.x tf, fun _ => 1) (noTE δ)).2.1
      (moveE LX (tf, lin.x 0, lin.x tf, fun _ => 1) (noTE δ)).2.2.1 (moveE LX (tf, lin.x 0, lin.x tf, fun _ => 1) (noTE δ)).2.2.2 j := by
    funext δ
    change f.val tf _ _ _ j = f.val (tf + 0) _ _ _ j
    rw [add_zero]
    rfl
  rw [e]
  exact h2

/-- The derivatives of the velocity of the error at zero: `Df + ad(·)(f + dx_lin) / 2`. -/
theorem errDyn_hasPd_of (h : IsLie LX mat hat) (h' : IsLie LU matU hatU) {f : GFn X U ℝ nx} (t : ℝ) {J : Fin nx → Arg nx nu → ℝ}
    (hf : ∀ j, HasPd (fun δ => along LX LU f lin t δ j) (J j) 0) (k : Fin nx) :
    HasPd (fun δ => errDyn LX LU f lin t δ k) (fun a => J k a +
      match a with
      | .x c => 1 / 2 * (LX.ad (Pi.single c 1) *ᵥ (f.val t (lin.x t) (lin.u t) + lin.dx t)) k
      | _ => 0) 0 := by
  -- the same function without `Ad`
  have hreg : ∀ᶠ δ : Arg nx nu → ℝ in 𝓝 0, IsUnit (LX.drExp fun k => δ (.x k)).det := by
    have hc : ContinuousAt (fun (δ : Arg nx nu → ℝ) (k : Fin nx) => δ (.x k)) 0 :=
      (continuous_pi fun k => continuous_apply (Arg.x k)).continuousAt
    exact hc.eventually h.det_near_zero
  have hev : (fun δ => errDyn LX LU f lin t δ k) =ᶠ[𝓝 0] fun δ =>
      ∑ j, LX.drExpinv (fun k => δ (.x k)) k j * (along LX LU f lin t δ j - lin.dx t j) + ∑ j, (∑ l, δ (.x l) * LX.gen l k j) * lin.dx t j := by
    filter_upwards [hreg] with δ hδ
    set e : Fin nx → ℝ := fun k => δ (.x k) with he
    have h1 : LX.drExpinv e *ᵥ (LX.drExp e *ᵥ (LX.ad e *ᵥ lin.dx t)) = LX.ad e *ᵥ lin.dx t := by
      rw [h.drExpinv _ hδ, Matrix.mulVec_mulVec, Matrix.nonsing_inv_mul _ hδ, Matrix.one_mulVec]
    rw [h.drExp_ad, Matrix.mulVec_sub] at h1
    have h2 : errDyn LX LU f lin t δ = LX.drExpinv e *ᵥ (along LX LU f lin t δ - lin.dx t) + LX.ad e *ᵥ lin.dx t := by
      change LX.drExpinv e *ᵥ (along LX LU f lin t δ - LX.Ad (LX.exp (-e)) *ᵥ lin.dx t) = _
      rw [Matrix.mulVec_sub, Matrix.mulVec_sub, ← h1]
      abel
    rw [h2, h.gen]
    simp only [Pi.add_apply, Matrix.mulVec, dotProduct, Pi.sub_apply, Matrix.sum_apply, Matrix.smul_apply, smul_eq_mul, he]
  have p1 : ∀ j : Fin nx, HasPd (fun δ : Arg nx nu → ℝ => LX.drExpinv (fun k => δ (.x k)) k j)
      (fun a => ∑ c, (1 / 2 * LX.ad (Pi.single c 1) k j) * if Arg.x c = a then 1 else 0) 0 := by
    intro j
    obtain ⟨D, hD, hDc⟩ := h.d2rExpinv 0 (by rw [h.drExp_zero]; simp) k j
    exact comp_coord_hasPd (f := fun a => LX.drExpinv a k j) (z := (0 : Arg nx nu → ℝ)) Arg.x ⟨D, hD, fun c => by rw [hDc, h.d2rExpinv_zero]⟩
  have p2 : ∀ j : Fin nx, HasPd (fun δ : Arg nx nu → ℝ => (∑ l, δ (.x l) * LX.gen l k j) * lin.dx t j) _ 0 := fun j =>
    (HasPd.sum (s := Finset.univ) fun l _ => (hasPd_coord (Arg.x l) (0 : Arg nx nu → ℝ)).mul (hasPd_const (LX.gen l k j) 0)).mul (hasPd_const (lin.dx t j) 0)
  have p3 := (HasPd.sum (s := Finset.univ) fun j _ => (p1 j).mul ((hf j).sub (hasPd_const (lin.dx t j) 0))).add
    (HasPd.sum (s := Finset.univ) fun j _ => p2 j)
  obtain ⟨D, hD, hDa⟩ := p3
  refine HasPd.of_eq ⟨D, hD.congr_of_eventuallyEq hev, hDa⟩ fun a => ?_
  have hgen : ∀ c j, LX.ad (Pi.single c 1) k j = LX.gen c k j := by
    intro c j
    rw [h.gen, Finset.sum_eq_single c (fun i _ hi => by simp [hi]) (fun hc => absurd (Finset.mem_univ _) hc)]
    simp
  have e0 : (fun k => (0 : Arg nx nu → ℝ) (.x k)) = (0 : Fin nx → ℝ) := rfl
  rw [along_zero h h', e0, h.drExpinv_zero]
  simp only [Matrix.one_apply, hgen, Pi.zero_apply, zero_mul, mul_zero, add_zero, sub_zero, ite_mul, one_mul, Matrix.mulVec, dotProduct, Pi.add_apply,
    mul_ite, mul_one, Finset.sum_add_distrib, Finset.sum_ite_eq, Finset.mem_univ, if_true, Finset.mul_sum]
  cases a with
  | t => simp
  | u c => simp
  | x c =>
    simp only [Arg.x.injEq, Finset.sum_ite_eq', Finset.mem_univ, if_true]
    have hs : ∑ i, 1 / 2 * (LX.gen c k i * (f.val t (lin.x t) (lin.u t) i + lin.dx t i)) =
        ∑ i, 1 / 2 * LX.gen c k i * (f.val t (lin.x t) (lin.u t) i - lin.dx t i) + ∑ i, LX.gen c k i * lin.dx t i := by
      rw [← Finset.sum_add_distrib]
      exact Finset.sum_congr rfl fun i _ => by ring
    rw [hs]
    ring

theorem errDyn_hasPd (h : IsLie LX mat hat) (h' : IsLie LU matU hatU) {f : GFn X U ℝ nx} (hf : IsDrG LX LU f) (t : ℝ) (k : Fin nx) :
    HasPd (fun δ => errDyn LX LU f lin t δ k) (fun a => noT (fun a => (f.jac t (lin.x t) (lin.u t)).val k a.pos) a +
      match a with
      | .x c => 1 / 2 * (LX.ad (Pi.single c 1) *ᵥ (f.val t (lin.x t) (lin.u t) + lin.dx t)) k
      | _ => 0) 0 :=
  errDyn_hasPd_of h h' t (fun j => along_hasPd hf t j) k

/-- The velocity of the error at zero. -/
theorem errDyn_zero (h : IsLie LX mat hat) (h' : IsLie LU matU hatU) (f : GFn X U ℝ nx) (t : ℝ) :
    errDyn LX LU f lin t 0 = f.val t (lin.x t) (lin.u t) - lin.dx t := by
  have h1 := h.drExp_ad 0 (lin.dx t)
  have h2 : LX.ad 0 *ᵥ lin.dx t = 0 := by rw [h.gen]; simp
  rw [h2, Matrix.mulVec_zero] at h1
  have e0 : (fun k => (0 : Arg nx nu → ℝ) (.x k)) = (0 : Fin nx → ℝ) := rfl
  unfold errDyn
  rw [along_zero h h', e0, ← sub_eq_zero.1 h1.symm, h.drExpinv_zero, Matrix.one_mulVec]

theorem pullN_noT {N : ℕ} (i : Fin N) (φ : Arg nx nu → ℝ) : pullN i (noT φ) = pullN i φ := by
  funext v
  cases v <;> rfl

theorem pullQ_noTE {N : ℕ} (φ : EArg nx 1 → ℝ) : (pullQ (noTE φ) : QVar N nx nu → ℝ) = pullQ φ := by
  funext v
  cases v <;> rfl

theorem built_feasible_lie (h : IsLie LX mat hat) (h' : IsLie LU matU hatU) {env : Mesh.Env ℝ} {m : Mesh ℝ} {ocp : GOCP X U ℝ nx 1 ncr nce}
    (ho : IsDrGOCP LX LU ocp) {comm : Bool} (hcomm : comm = true → ∀ a, LX.ad a = 0) {tf : ℝ} {qp : QPD ℝ}
    (hB : BuiltRaw env m (localOCP nu ocp lin.x lin.u tf) (localAd LX comm) tf (zeroLin nu lin.dx) qp) (z : QVar (nColloc m) nx nu → ℝ)
    (x : Fin (numV (nColloc m) nx nu) → ℝ) (hx : IsPrimal z x) :
    Feasible (toPbm qp (numV (nColloc m) nx nu) (numC (nColloc m) nx ncr nce)) x ↔ LinFeasibleG LX LU env m ocp tf lin z := by
  have hdyn : ∀ (p : Fin (nColloc m)) (k : Fin nx), ∑ v : QVar (nColloc m) nx nu, qp.A.val (nx * p + k) v.pos * z v =
      tf * fderiv ℝ (fun δ => errDyn LX LU ocp.f lin (tf * tauAt env m p) δ k) 0 (dev z p) - MeshFn.slope env (spans 1 m) (coordQ z k) p := by
    intro p k
    rw [fderiv_pd]
    simp only [(errDyn_hasPd (lin := lin) h h' ho.f (tf * tauAt env m p) k).pd]
    simp only [hB.dyn, sub_mul, add_mul, Finset.sum_sub_distrib, Finset.sum_add_distrib, mul_assoc, ← Finset.mul_sum, slope_unit, sum_pullN]
    congr 1
    rw [mul_add]
    congr 1
    · congr 1
      rw [arg_sum_eq, arg_sum_eq]
      simp only [dev, mul_zero]
      rfl
    · rw [arg_sum_eq, arg_sum_eq]
      simp only [dev, mul_zero, zero_mul, Finset.sum_const_zero, zero_add, add_zero]
      set w : Fin nx → ℝ := (localOCP nu ocp lin.x lin.u tf).f.val (linPt (zeroLin nu lin.dx) (tf * tauAt env m p)) +
        (zeroLin nu lin.dx).dx (tf * tauAt env m p) with hw
      have hw' : ocp.f.val (tf * tauAt env m p) (lin.x (tf * tauAt env m p)) (lin.u (tf * tauAt env m p)) + lin.dx (tf * tauAt env m p) = w := rfl
      simp only [hw']
      cases comm with
      | true => simp [localAd, adRow, hcomm rfl]
      | false =>
        have e1 : ∀ c, (LX.ad (Pi.single c 1) *ᵥ w) k = -LX.ad w k c := by
          intro c
          rw [ad_antisymm h]
          simp
        simp only [localAd, adRow, Bool.false_eq_true, if_false, e1]
        have e2 : ∀ l : Fin nx, (ofMat (LX.ad w)).val k l = LX.ad w k l := fun l => ofMat_val _ k l
        simp only [e2, zero_mul, Finset.sum_const_zero, add_zero, Finset.mul_sum]
        exact Finset.sum_congr rfl fun l _ => by ring
  have hcr : ∀ (i : Fin (nColloc m)) (k : Fin ncr), ∑ v : QVar (nColloc m) nx nu, qp.A.val (nx * nColloc m + (ncr * i + k)) v.pos * z v =
      fderiv ℝ (fun δ => along LX LU ocp.cr lin (tf * tauAt env m i) δ k) 0 (dev z i) := by
    intro i k
    rw [fderiv_pd]
    simp only [(along_hasPd (lin := lin) ho.cr (tf * tauAt env m i) k).pd, hB.cr]
    rw [← sum_pullN, pullN_noT]
    rfl
  have hce : ∀ k : Fin nce, ∑ v : QVar (nColloc m) nx nu, qp.A.val (nx * nColloc m + ncr * nColloc m + k) v.pos * z v =
      fderiv ℝ (fun δ => ends LX ocp.ce lin tf δ k) 0 (devEnd z) := by
    intro k
    rw [fderiv_pd]
    simp only [(ends_hasPd (lin := lin) ho.ce tf k).pd, hB.ce]
    rw [← sum_pullQ, pullQ_noTE]
    rfl
  have hcl : ∀ i k, (localOCP nu ocp lin.x lin.u tf).cr.val (linPt (zeroLin nu lin.dx) (tf * tauAt env m i)) k =
      along LX LU ocp.cr lin (tf * tauAt env m i) 0 k := fun i k => by rw [along_zero h h']; rfl
  have hel : ∀ k, (localOCP nu ocp lin.x lin.u tf).ce.val (linEnd (zeroLin nu lin.dx) tf) k = ends LX ocp.ce lin tf 0 k :=
    fun k => by rw [ends_zero h]; rfl
  have hdl : ∀ i k, (localOCP nu ocp lin.x lin.u tf).f.val (linPt (zeroLin nu lin.dx) (tf * tauAt env m i)) k -
      (zeroLin nu lin.dx).dx (tf * tauAt env m i) k = errDyn LX LU ocp.f lin (tf * tauAt env m i) 0 k := fun i k => by rw [errDyn_zero h h']; rfl
  constructor
  · intro hf
    have hrow : ∀ c : QCon (nColloc m) nx ncr nce, lower (qp.l.val c.pos) (∑ v : QVar (nColloc m) nx nu, qp.A.val c.pos v.pos * z v) ∧
        upper (qp.u.val c.pos) (∑ v : QVar (nColloc m) nx nu, qp.A.val c.pos v.pos * z v) := by
      intro c
      have := hf ⟨c.pos, c.pos_lt⟩
      rw [row_sum qp hx] at this
      exact this
    refine ⟨fun i k => ?_, fun i k => ?_, fun k => ?_⟩
    · obtain ⟨h1, h2⟩ := hrow (.dyn i k)
      simp only [QCon.pos, hdyn, hB.dynl, hB.dynu, hdl, lower, upper] at h1 h2
      have := le_antisymm h1 h2
      unfold coordQ at this
      unfold taylor1
      linear_combination this
    · have h1 := hrow (.cr i k)
      simp only [QCon.pos, add_assoc, hcr, hB.crl, hB.cru, hcl, lower_extSub, upper_extSub] at h1
      exact h1
    · have h1 := hrow (.ce k)
      simp only [QCon.pos, hce, hB.cel, hB.ceu, hel, lower_extSub, upper_extSub] at h1
      exact h1
  · intro hL c
    obtain ⟨c', hc'⟩ := QCon.pos_surj c.2
    rw [row_sum qp hx]
    change lower (qp.l.val c) _ ∧ upper (qp.u.val c) _
    rw [← hc']
    cases c' with
    | dyn i k =>
      have h1 : MeshFn.slope env (spans 1 m) (coordQ z k) i = _ := hL.dynamics i k
      unfold taylor1 at h1
      simp only [QCon.pos, hdyn, hB.dynl, hB.dynu, hdl, lower, upper, h1]
      constructor <;> apply le_of_eq <;> ring
    | cr i k =>
      have h1 := hL.running i k
      simp only [QCon.pos, add_assoc, hcr, hB.crl, hB.cru, hcl, lower_extSub, upper_extSub]
      exact h1
    | ce k =>
      have h1 := hL.endpoint k
      simp only [QCon.pos, hce, hB.cel, hB.ceu, hel, lower_extSub, upper_extSub]
      exact h1

theorem IsDrGOCP.rows {ocp : GOCP X U ℝ nx 1 ncr nce} (ho : IsDrGOCP LX LU ocp) : HasRowsG ocp :=
  ⟨ho.f.jac_rows, ho.g.jac_rows, ho.cr.jac_rows, ho.ce.jac_rows⟩

/-- **C81.** For states and inputs on Lie groups the conversion succeeds, the program has the sizes of the layout, and a vector satisfies its
constraints if and only if the deviation it holds satisfies the collocated linearised problem for the error. -/
theorem ocp_qp_feasible_lie (h : IsLie LX mat hat) (h' : IsLie LU matU hatU) (idX : X) (idU : U) (env : Mesh.Env ℝ) (m : Mesh ℝ) (hm : m ≠ [])
    (hK : ∀ v ∈ m, 1 ≤ v.K) (comm : Bool) (hcomm : comm = true → ∀ a, LX.ad a = 0) (ocp : GOCP X U ℝ nx 1 ncr nce) (ho : IsDrGOCP LX LU ocp)
    (tf : ℝ) (lin : GLin X U ℝ nx) :
    ∃ qp, ocpToQpG nu idX idU env m LX comm ocp tf lin = some qp ∧ HasSize qp (numV (nColloc m) nx nu) (numC (nColloc m) nx ncr nce) ∧
      ∀ (z : QVar (nColloc m) nx nu → ℝ) x, IsPrimal z x →
        (Feasible (toPbm qp (numV (nColloc m) nx nu) (numC (nColloc m) nx ncr nce)) x ↔ LinFeasibleG LX LU env m ocp tf lin z) := by
  obtain ⟨qp, e, hB⟩ := ocpToQpG_built (nu := nu) idX idU env m hm hK LX comm ocp (IsDrGOCP.rows ho) tf lin
  exact ⟨qp, e, hB.size, fun z x hx => built_feasible_lie h h' ho hcomm hB z x hx⟩

end Verif.OQP
