import Verif.Props.ASIFLie
import Verif.Props.FlattenSO3

/-!
# The sensitivity of the safety filter on rotations (C49)
-/

namespace Verif.ASIF

open Verif.Lie Verif.Flatten

open scoped Matrix Topology

/-- Rotations, with velocities as inputs. -/
noncomputable def spinEnv : Env (SO 3) (Fin 3 → ℝ) ℝ 3 3 := ⟨so3.rplus, so3.ad, fun u v => u + v, fun u v => u - v⟩

/-- A body whose velocity is the input. -/
noncomputable def spinDyn : Dyn (SO 3) (Fin 3 → ℝ) ℝ 3 3 := ⟨fun _ u => u, fun _ _ => 1⟩

/-- The backup controller keeps the body turning with the velocity `w`. -/
noncomputable def spinBackup (w : Fin 3 → ℝ) : Backup (SO 3) (Fin 3 → ℝ) ℝ 3 := ⟨fun _ _ => w, fun _ _ => 0⟩

/-- The matrix of a rotation. -/
noncomputable def rotMat (x : SO 3) : Matrix (Fin 3) (Fin 3) ℝ := ((x : (Matrix (Fin 3) (Fin 3) ℝ)ˣ) : Matrix (Fin 3) (Fin 3) ℝ)

theorem spin_state : GroupState so3 spinEnv := ⟨rfl, rfl⟩

theorem spin_loop (w : Fin 3 → ℝ) : HasGroupLoop so3 spinDyn (spinBackup w) := by
  intro t x
  have e : LinearMap.toContinuousLinearMap (Matrix.mulVecLin ((spinBackup w).dcl t x)) = 0 := by
    ext1 v
    simp [spinBackup]
  rw [e]
  exact hasFDerivAt_const w 0

section

open scoped Matrix.Norms.Operator

theorem spin_lie : IsLie so3 rotMat so3Hat := so3_isLie

/-- `Ad` keeps lengths. -/
theorem so3_Ad_norm (x : SO 3) (v : Fin 3 → ℝ) : ‖euc 3 (so3.Ad x *ᵥ v)‖ = ‖euc 3 v‖ := by
  have tr : ∀ w : Fin 3 → ℝ, (so3Hat w * so3Hat w).trace = -2 * ‖euc 3 w‖ ^ 2 := by
    intro w
    rw [euc_sq]
    simp [so3Hat, Matrix.trace, Matrix.mul_apply, Fin.sum_univ_three]
    ring
  obtain ⟨y, h1, h2⟩ := spin_lie.exists_inv x
  have h3 := spin_lie.Ad x v
  have h4 : so3Hat (so3.Ad x *ᵥ v) = rotMat x * so3Hat v * y := by
    rw [← h3, mul_assoc, h2, mul_one]
  have h5 : (so3Hat (so3.Ad x *ᵥ v) * so3Hat (so3.Ad x *ᵥ v)).trace = (so3Hat v * so3Hat v).trace := by
    have : rotMat x * so3Hat v * y * (rotMat x * so3Hat v * y) = rotMat x * (so3Hat v * so3Hat v * y) := by
      calc rotMat x * so3Hat v * y * (rotMat x * so3Hat v * y) = rotMat x * so3Hat v * (y * rotMat x) * so3Hat v * y := by noncomm_ring
        _ = _ := by rw [h1]; noncomm_ring
    rw [h4, this, Matrix.trace_mul_comm, mul_assoc, h1, mul_one]
  rw [tr, tr] at h5
  have h6 : ‖euc 3 (so3.Ad x *ᵥ v)‖ ^ 2 = ‖euc 3 v‖ ^ 2 := by linarith
  exact (sq_eq_sq₀ (norm_nonneg _) (norm_nonneg _)).1 h6

/-- `1 - ad a` does not. -/
theorem so3_one_sub_ad (a v : Fin 3 → ℝ) : ‖euc 3 ((1 - so3.ad a) *ᵥ v)‖ ^ 2 = ‖euc 3 v‖ ^ 2 + ‖euc 3 (so3.ad a *ᵥ v)‖ ^ 2 := by
  rw [Matrix.sub_mulVec, Matrix.one_mulVec, euc_sq, euc_sq, euc_sq, so3_ad spin_lie]
  simp [Fin.sum_univ_three]
  ring

/-- **C49, negation on rotations.** Even for a backup controller that keeps a constant velocity, the sensitivity of the filter is not the derivative of
its own steps: after one step of any length, from any state. -/
theorem asif_group_sens_wrong (w : Fin 3 → ℝ) (hw : w ≠ 0) (e : ℝ) (he : e ≠ 0) (t : ℝ) (x : SO 3) :
    HasRd rotMat so3Hat (fun v => march spinEnv spinDyn (spinBackup w) [e] t (so3.rplus x v)) (lin (so3.Ad (so3.exp (-(e • w))))) Set.univ 0 ∧
    sens spinEnv spinDyn (spinBackup w) [e] t x 1 = 1 - so3.ad (e • w) ∧
    ¬HasRd rotMat so3Hat (fun v => march spinEnv spinDyn (spinBackup w) [e] t (so3.rplus x v)) (lin (sens spinEnv spinDyn (spinBackup w) [e] t x 1)) Set.univ 0 := by
  have h1 := asif_group_sens spin_lie spinEnv spin_state spinDyn (spinBackup w) (spin_loop w) [e] t x
  have e1 : groupSens so3 spinDyn (spinBackup w) [e] t x 1 = so3.Ad (so3.exp (-(e • w))) := by
    simp [groupSens, spinBackup, spinDyn]
  have e2 : sens spinEnv spinDyn (spinBackup w) [e] t x 1 = 1 - so3.ad (e • w) := by
    have h2 : so3.ad (e • w) = e • so3.ad w := by
      rw [spin_lie.gen, spin_lie.gen, Finset.smul_sum]
      refine Finset.sum_congr rfl fun i _ => ?_
      rw [smul_smul]; rfl
    rw [h2]
    simp [sens, spinBackup, spinDyn, spinEnv, sub_eq_add_neg]
  rw [e1] at h1
  refine ⟨h1, e2, fun h2 => ?_⟩
  have h3 := rd_unique spin_lie h1 h2
  rw [e2] at h3
  have h4 : ∀ v, so3.ad (e • w) *ᵥ v = 0 := by
    intro v
    have h5 : so3.Ad (so3.exp (-(e • w))) *ᵥ v = (1 - so3.ad (e • w)) *ᵥ v := by
      rw [← lin_apply, ← lin_apply, h3]
    have h6 := so3_Ad_norm (so3.exp (-(e • w))) v
    rw [h5] at h6
    have h7 := so3_one_sub_ad (e • w) v
    rw [h6] at h7
    have h8 : ‖euc 3 (so3.ad (e • w) *ᵥ v)‖ = 0 := by
      have : ‖euc 3 (so3.ad (e • w) *ᵥ v)‖ ^ 2 = 0 := by linarith
      exact pow_eq_zero_iff (two_ne_zero) |>.1 this
    simpa using h8
  have h9 : e • w = 0 := by
    have g0 := h4 (Pi.single 0 1)
    have g1 := h4 (Pi.single 1 1)
    rw [so3_ad spin_lie] at g0 g1
    have a1 := congrFun g0 1
    have a2 := congrFun g0 2
    have a0 := congrFun g1 2
    simp [he] at a0 a1 a2
    funext i
    fin_cases i <;> simp [a0, a1, a2]
  exact (smul_ne_zero he hw) h9

/-- The cosine of the tilt of the body. -/
noncomputable def tilt : Barrier (SO 3) ℝ 3 :=
  ⟨1, fun _ x _ => rotMat x 2 2, fun _ _ _ => 0, fun _ x => Matrix.of fun _ => ![-rotMat x 2 1, rotMat x 2 0, 0]⟩

theorem tilt_d (t : ℝ) (x : SO 3) (j : Fin tilt.nh) : HasBarrierD so3 tilt t x j := by
  obtain ⟨M, hM, e⟩ := rd_rplus_zero spin_lie x
  rw [hasFDerivWithinAt_univ] at hM
  let φ : Matrix (Fin 3) (Fin 3) ℝ →L[ℝ] ℝ := LinearMap.toContinuousLinearMap (Matrix.entryLinearMap ℝ ℝ 2 2)
  have h1 : HasFDerivAt (fun w => rotMat (so3.rplus x w) 2 2) (φ.comp M) (0 : Fin 3 → ℝ) := φ.hasFDerivAt.comp (0 : Fin 3 → ℝ) hM
  have h2 : HasFDerivAt (fun q : ℝ × (Fin 3 → ℝ) => rotMat (so3.rplus x q.2) 2 2) ((φ.comp M).comp (ContinuousLinearMap.snd ℝ ℝ (Fin 3 → ℝ))) 0 :=
    HasFDerivAt.comp (0 : ℝ × (Fin 3 → ℝ)) (f := Prod.snd) h1 hasFDerivAt_snd
  refine ⟨_, h2, ?_, fun w => ?_⟩
  · change φ (M 0) = 0
    simp
  · change φ (M w) = _
    rw [e, ContinuousLinearMap.id_apply]
    change (rotMat (so3.rplus x 0) * so3Hat w) 2 2 = _
    rw [spin_lie.rplus_zero]
    have e2 : (tilt.dx t x).mulVec w j = -rotMat x 2 1 * w 0 + rotMat x 2 0 * w 1 + 0 * w 2 := by
      change ∑ i, ![-rotMat x 2 1, rotMat x 2 0, 0] i * w i = _
      rw [Fin.sum_univ_three]
      rfl
    rw [e2]
    simp [Matrix.mul_apply, Fin.sum_univ_three, so3Hat]
    ring

end

attribute [local instance] Matrix.linftyOpNormedRing Matrix.linftyOpNormedAlgebra in
/-- `asif_group_sens_error` for this loop, with `N` the norm of `ad w`: at most `T N² exp(N dt + N exp(N dt) T) / 2` times the step length. -/
example (w : Fin 3 → ℝ) (l : List ℝ) (dt : ℝ) (hl : ∀ e ∈ l, 0 ≤ e ∧ e ≤ dt) (t : ℝ) (x : SO 3) :
    ‖sens spinEnv spinDyn (spinBackup w) l t x 1 - groupSens so3 spinDyn (spinBackup w) l t x 1‖ ≤
      Real.exp (Real.exp (‖so3.ad w‖ * dt) * ‖so3.ad w‖ * l.sum) * (l.sum * (Real.exp (‖so3.ad w‖ * dt) * (‖so3.ad w‖ * ‖so3.ad w‖ / 2)) * dt) := by
  have h := asif_group_sens_error so3_isLie spinEnv spin_state spinDyn (spinBackup w) Set.univ ‖so3.ad w‖ 0 ‖w‖ ‖so3.ad w‖ dt le_rfl
    (fun t x _ => le_rfl) (fun t x _ => le_rfl) (fun t x _ => by simp [spinBackup, spinDyn]) (fun t x _ v _ => by simp [sensGen, spinBackup, spinDyn])
    l hl t x (fun n _ => Set.mem_univ _) 1 1
  simpa using h

open scoped Matrix.Norms.Operator in
/-- `asif_group_condition` for this loop and this barrier: `K` constraints, steps of length `dt`. -/
example (w udes : Fin 3 → ℝ) (x0 : SO 3) (T dt : ℝ) (hT : 0 < T) (hdt : 0 < dt) (K : ℕ) (hK : 1 ≤ K) (B : Bounds (Fin 3 → ℝ) ℝ 3) (mu : Fin 3 → ℝ) (s : ℝ) :
    ∃ steps : ℕ → List ℝ, (∀ fuel qp, toQP spinEnv spinDyn (spinBackup w) tilt ⟨T, x0, udes, fun _ => 1, B⟩ ⟨K, 1, dt, 10⟩ fuel = some qp →
        Verif.QPSpec.Feasible (qp.pbm 4 (K * 1 + B.rows + 1)) (Fin.snoc (α := fun _ => ℝ) mu s) →
        Safe spinEnv spinDyn (spinBackup w) tilt ⟨T, x0, udes, fun _ => 1, B⟩ ⟨K, 1, dt, 10⟩ steps mu s) ∧
      (Safe spinEnv spinDyn (spinBackup w) tilt ⟨T, x0, udes, fun _ => 1, B⟩ ⟨K, 1, dt, 10⟩ steps mu s → ∀ k < K,
        ∃ D : ℝ, HasDerivAt (fun r : ℝ => rotMat (march spinEnv spinDyn (spinBackup w) (steps k) 0 (so3.rplus x0 (r • (udes + mu)))) 2 2) D 0 ∧
          -s - ‖tilt.dx (steps k).sum (march spinEnv spinDyn (spinBackup w) (steps k) 0 x0)‖ * (Real.exp (Real.exp (‖so3.ad w‖ * dt) * ‖so3.ad w‖ * (steps k).sum) *
              ((steps k).sum * (Real.exp (‖so3.ad w‖ * dt) * (‖so3.ad w‖ * ‖so3.ad w‖ / 2)) * dt)) * ‖udes + mu‖ ≤
            D + rotMat (march spinEnv spinDyn (spinBackup w) (steps k) 0 x0) 2 2) := by
  obtain ⟨steps, hS, -, -, -⟩ := asif_schedule T dt K hT hdt hK
  refine ⟨steps, fun fuel qp hq hf => ?_, fun hs k hk => ?_⟩
  · have h1 := (asif_program spinEnv spinDyn (spinBackup w) tilt ⟨T, x0, udes, fun _ => 1, B⟩ ⟨K, 1, dt, 10⟩ steps hS fuel qp hq).2
      (Fin.snoc (α := fun _ => ℝ) mu s) |>.1.1 hf
    have c1 : corr (Fin.snoc (α := fun _ => ℝ) mu s) = mu := by funext i; simp [corr]
    have c2 : slack (Fin.snoc (α := fun _ => ℝ) mu s) = s := by unfold slack; exact Fin.snoc_last (α := fun _ => ℝ) s mu
    rw [c1, c2] at h1
    exact h1.1
  · have hv : HasVel rotMat so3Hat (fun r : ℝ => so3.rplus x0 (r • (udes + mu))) (udes + mu) Set.univ 0 := by
      have h0 : HasVel rotMat so3Hat (fun _ : ℝ => x0) 0 Set.univ 0 := by
        unfold HasVel
        rw [map_zero, mul_zero]
        exact hasDerivWithinAt_const (𝕜 := ℝ) _ _ _
      have h1 : HasDerivWithinAt (fun r : ℝ => r • (udes + mu)) (udes + mu) Set.univ 0 := by
        have := ((hasDerivAt_id (0 : ℝ)).smul_const (udes + mu)).hasDerivWithinAt (s := Set.univ)
        rwa [one_smul] at this
      have h2 := spin_lie.vel_rplus h0 h1
      rwa [zero_smul, spin_lie.drExp_zero, Matrix.mulVec_zero, zero_add, Matrix.one_mulVec] at h2
    have h0 : so3.rplus x0 ((0 : ℝ) • (udes + mu)) = x0 := by rw [zero_smul, spin_lie.rplus_zero]
    have e1 : spinDyn.f x0 udes + (spinDyn.du x0 udes).mulVec mu = udes + mu := by simp [spinDyn]
    obtain ⟨D, h1, h2⟩ := asif_group_condition spin_lie spinEnv spin_state spinDyn (spinBackup w) (spin_loop w) tilt ⟨T, x0, udes, fun _ => 1, B⟩
      ⟨K, 1, dt, 10⟩ steps hT hdt hS Set.univ ‖so3.ad w‖ 0 ‖w‖ ‖so3.ad w‖ le_rfl
      (fun t x _ => le_rfl) (fun t x _ => le_rfl) (fun t x _ => by simp [spinBackup, spinDyn])
      (fun t x _ v _ => by simp [sensGen, spinBackup, spinDyn])
      (fun k _ n _ => Set.mem_univ _) mu s hs k hk (0 : Fin 1) (tilt_d _ _ _)
      (fun r : ℝ => so3.rplus x0 (r • (udes + mu))) h0 (by rw [e1]; exact hv)
    simp only [zero_mul, add_zero, one_mul, e1] at h2
    exact ⟨D, h1, h2⟩

end Verif.ASIF
