import Verif.Props.MPCCopy
import Verif.Props.LieGroups

/-! # The horizon in coordinates, and controllers for vectors (C39, C42) -/

set_option linter.unusedSectionVars false

namespace Verif.MPC

open Verif.Mesh Verif.Sparse Verif.MeshFn Verif.NLP Verif.OQP Verif.QPSpec Verif.Lie Verif.Flatten
open Verif.QP (Ext Status)
open scoped Matrix

variable {T σ X U : Type*} {nx nu ncr n N : ℕ}
variable {𝔸 𝔹 : Type*} [NormedRing 𝔸] [NormedAlgebra ℝ 𝔸] [FiniteDimensional ℝ 𝔸] [CompleteSpace 𝔸] [NormedRing 𝔹] [NormedAlgebra ℝ 𝔹]
  [FiniteDimensional ℝ 𝔹] [CompleteSpace 𝔹] {mat : X → 𝔸} {hat : (Fin nx → ℝ) →ₗ[ℝ] 𝔸} {matU : U → 𝔹} {hatU : (Fin nu → ℝ) →ₗ[ℝ] 𝔹}

/-- The expansion of a functor, from the derivatives that the user provides. -/
theorem expand_sum {sys : Sys T ℝ σ X U nx nu} (hG : sys.IsLie mat hat matU hatU) {f : UFn T ℝ X U nx nu n} (hf : IsUFn sys f) (t : Option T) (x : X)
    (u : U) (d : Arg nx nu → ℝ) (k : Fin n) :
    expand sys f t x u d k = f.val t x u k + (∑ l, f.dx t x u k l * d (.x l) + ∑ l, f.du t x u k l * d (.u l)) := by
  unfold expand taylor1
  rw [fderiv_pd, arg_sum_eq]
  simp only [(isUFn_row hf t x u k).pd, near_zero hG, ufRow, zero_mul, zero_add]

/-- The expansion of the velocity of the error: `f - x' + (A + ad(·)(f + x') / 2) e + B v`. -/
theorem errVel_sum {sys : Sys T ℝ σ X U nx nu} (hG : sys.IsLie mat hat matU hatU) {f : UFn T ℝ X U nx nu nx} (hf : IsUFn sys f) (t : Option T) (x : X)
    (dx : Fin nx → ℝ) (u : U) (d : Arg nx nu → ℝ) (k : Fin nx) :
    taylor1 (fun δ => errVel sys f t x dx u δ k) 0 d = f.val t x u k - dx k +
      (∑ l, (f.dx t x u k l + 1 / 2 * (sys.LX.ad (Pi.single l 1) *ᵥ (f.val t x u + dx)) k) * d (.x l) + ∑ l, f.du t x u k l * d (.u l)) := by
  unfold taylor1
  have hpd := errDyn_hasPd_of (lin := ⟨fun _ => x, fun _ => dx, fun _ => u⟩) (f := frozen f t) hG.x hG.u 0 (J := ufRow f t x u)
    (fun j => isUFn_row hf t x u j) k
  simp only [errVel_zero hG, Pi.sub_apply]
  rw [errVel_eq, fderiv_pd, arg_sum_eq]
  simp only [hpd.pd, ufRow, zero_mul, zero_add, add_zero]
  rfl

/-- Vectors as states and inputs: `rminus` is subtraction, the pattern is diagonal, `Default` is zero. -/
noncomputable def vecSys (nx nu : ℕ) (env : Mesh.Env ℝ) (plus : T → ℝ → T) (t00 : T) (solver : Solver ℝ σ) :
    Sys T ℝ σ (Fin nx → ℝ) (Fin nu → ℝ) nx nu where
  env := env
  plus := plus
  t00 := t00
  solver := solver
  LX := vec ℝ nx
  LU := vec ℝ nu
  rminus x y := x - y
  pat k l := k = l
  comm := true
  dfltX := 0
  dfltU := 0

theorem vecSys_isLie (nx nu : ℕ) (env : Mesh.Env ℝ) (plus : T → ℝ → T) (t00 : T) (solver : Solver ℝ σ) :
    (vecSys nx nu env plus t00 solver).IsLie (vecMat nx) (vecHat nx) (vecMat nu) (vecHat nu) where
  x := vec_isLie nx
  u := vec_isLie nu
  comm _ _ := rfl
  pat a k l h := by
    simp only [vecSys, decide_eq_false_iff_not] at h
    simp [vecSys, vec, h]
  rminus x y := by simp [vecSys, vec]

/-- For vectors the horizon is the collocated linearised dynamics. -/
theorem vec_horizon (nx nu : ℕ) (env : Mesh.Env ℝ) (plus : T → ℝ → T) (t00 : T) (solver : Solver ℝ σ) (m : Mesh ℝ)
    (a : Args T ℝ (Fin nx → ℝ) (Fin nu → ℝ) nx nu ncr) (hf : IsUFn (vecSys nx nu env plus t00 solver) a.f) (xd dxd : T → Fin nx → ℝ) (ud : T → Fin nu → ℝ)
    (t : T) (x : Fin nx → ℝ) (z : QVar (nColloc m) nx nu → ℝ) :
    Horizon (vecSys nx nu env plus t00 solver) m a xd dxd ud t x z ↔
      (∀ (i : Fin (nColloc m)) (k : Fin nx), slope env (spans 1 m) (fun j => if h : j < nColloc m + 1 then z (.x ⟨j, h⟩ k) else 0) i =
        a.tf * (a.f.val (seen a.f (plus t (a.tf * tauAt env m i))) (xd (plus t (a.tf * tauAt env m i))) (ud (plus t (a.tf * tauAt env m i))) k -
          dxd (plus t (a.tf * tauAt env m i)) k +
          (∑ l, a.f.dx (seen a.f (plus t (a.tf * tauAt env m i))) (xd (plus t (a.tf * tauAt env m i))) (ud (plus t (a.tf * tauAt env m i))) k l * dxAt z i l +
            ∑ l, a.f.du (seen a.f (plus t (a.tf * tauAt env m i))) (xd (plus t (a.tf * tauAt env m i))) (ud (plus t (a.tf * tauAt env m i))) k l * duAt z i l))) ∧
      ∀ k, xd (plus t 0) k + z (.x 0 k) = x k := by
  have key : ∀ s y dy v d k, taylor1 (fun δ => errVel (vecSys nx nu env plus t00 solver) a.f s y dy v δ k) 0 d = _ :=
    fun s y dy v d k => errVel_sum (vecSys_isLie nx nu env plus t00 solver) hf s y dy v d k
  have had : ∀ l, (vecSys nx nu env plus t00 solver).LX.ad (Pi.single l 1) = 0 := fun _ => rfl
  simp only [had, Matrix.zero_mulVec, Pi.zero_apply, mul_zero, add_zero] at key
  constructor
  · rintro ⟨h1, h2⟩
    refine ⟨fun i k => (h1 i k).trans (by rw [key]; rfl), fun k => ?_⟩
    have := congrFun h2 k
    simp only [vecSys, Pi.neg_apply, Pi.sub_apply] at this
    rw [this]
    ring
  · rintro ⟨h1, h2⟩
    refine ⟨fun i k => (h1 i k).trans (by rw [key]; rfl), funext fun k => ?_⟩
    simp only [vecSys, Pi.neg_apply, Pi.sub_apply]
    rw [← h2 k]
    ring

end Verif.MPC
