import Verif.Spec.MPCSolvable
import Verif.Proofs.Collocation
import Verif.Props.MPCError
import Verif.Props.MPCVec

/-! # Predictive control with limited inputs can be solved from every state (C123) -/

set_option linter.unusedSectionVars false

namespace Verif.MPC

open Verif.Mesh Verif.Sparse Verif.MeshFn Verif.NLP Verif.OQP Verif.QPSpec Verif.Lie Verif.Flatten
open Verif.QP (Ext Status UpperOnly SqrtPos)
open scoped Matrix

variable {T σ X U : Type*} {nx nu ncr : ℕ} {𝔸 𝔹 : Type*} [NormedRing 𝔸] [NormedAlgebra ℝ 𝔸] [FiniteDimensional ℝ 𝔸] [CompleteSpace 𝔸] [NormedRing 𝔹] [NormedAlgebra ℝ 𝔹]
  [FiniteDimensional ℝ 𝔹] [CompleteSpace 𝔹] {mat : X → 𝔸} {hat : (Fin nx → ℝ) →ₗ[ℝ] 𝔸} {matU : U → 𝔹} {hatU : (Fin nu → ℝ) →ₗ[ℝ] 𝔹}

/-- The intervals of a controller's mesh are equally long. -/
theorem mesh_lengths (a : Args T ℝ X U nx nu ncr) (p : Ival ℝ × ℝ) (hp : p ∈ spans 1 (meshOf a)) :
    p.2 - p.1.tau0 = 1 / max 1 (((a.K + a.Kmesh - 1) / a.Kmesh : ℕ) : ℝ) := by
  unfold meshOf uniform at hp
  rw [if_pos ⟨le_rfl, by omega⟩] at hp
  simp only [Option.getD_some] at hp
  set n := (a.K + a.Kmesh - 1) / a.Kmesh
  split_ifs at hp with h
  · simp only [spans, List.mem_singleton] at hp
    rw [hp]
    rw [max_eq_left (by exact_mod_cast (by omega : n ≤ 1))]
    norm_num
  · have hn : (1 : ℝ) ≤ n := by exact_mod_cast (by omega : 1 ≤ n)
    rw [max_eq_right hn]
    have hn0 : (n : ℝ) ≠ 0 := by linarith
    have key : ∀ j k : ℕ, j + k = n → ∀ p ∈ spans (1 : ℝ) ((List.range' j k).map fun i : ℕ => (⟨a.Kmesh, (i : ℝ) * (1 / n)⟩ : Ival ℝ)), p.2 - p.1.tau0 = 1 / n := by
      intro j k
      induction k generalizing j with
      | zero => intro _ p hp; simp [spans] at hp
      | succ k ih =>
        intro hj p hp
        rw [List.range'_succ, List.map_cons] at hp
        cases k with
        | zero =>
          simp only [List.range'_zero, List.map_nil, spans, List.mem_singleton] at hp
          rw [hp]
          have : (n : ℝ) = j + 1 := by exact_mod_cast hj.symm
          have h2 : (j : ℝ) = n - 1 := by linarith
          simp only [h2]
          field_simp
          ring
        | succ k =>
          rw [List.range'_succ, List.map_cons, spans, List.mem_cons] at hp
          rcases hp with rfl | hp
          · push_cast
            ring
          · exact ih (j + 1) (by omega) p (by rw [List.range'_succ, List.map_cons]; exact hp)
    rw [List.range_eq_range'] at hp
    exact key 0 n (by omega) p hp

/-- The bound, from the derivatives that the user provides. -/
theorem bounded_of {sys : Sys T ℝ σ X U nx nu} {a : Args T ℝ X U nx nu ncr} (hG : sys.IsLie mat hat matU hatU) (hf : IsUFn sys a.f)
    {xd : T → X} {dxd : T → Fin nx → ℝ} {ud : T → U} {t : T} {W : Fin nx → ℝ} {μ : ℝ}
    (h : ∀ (s : Option T) (τ : T) (e : Fin nx → ℝ), ∑ k, W k * (e k * ∑ l, (a.f.dx s (xd τ) (ud τ) k l +
      1 / 2 * (sys.LX.ad (Pi.single l 1) *ᵥ (a.f.val s (xd τ) (ud τ) + dxd τ)) k) * e l) ≤ μ * ∑ k, W k * e k ^ 2) : Bounded sys a xd dxd ud t W μ := by
  intro i e
  refine le_trans (le_of_eq ?_) (h (seen a.f (nodeTime sys (meshOf a) a.tf t i)) (nodeTime sys (meshOf a) a.tf t i) e)
  refine Finset.sum_congr rfl fun k _ => ?_
  have h3 := errVel_sum hG hf (seen a.f (nodeTime sys (meshOf a) a.tf t i)) (xd (nodeTime sys (meshOf a) a.tf t i)) (dxd (nodeTime sys (meshOf a) a.tf t i))
    (ud (nodeTime sys (meshOf a) a.tf t i)) (stateArg e) k
  unfold taylor1 at h3
  simp only [errVel_zero hG, Pi.sub_apply] at h3
  rw [add_left_cancel h3]
  simp [stateArg]

/-- **C123.** On every group, with any desired trajectories: if errors of the linearised system grow at a rate below one over the length of an interval of the mesh and
the running constraints limit only the inputs, the problem of a call has an admissible deviation from every state, and keeps one under all small
disturbances of dynamics and constraints (disturbances of dynamics and of the state may have any size). -/
theorem mpc_robust (sys : Sys T ℝ σ X U nx nu) (a : Args T ℝ X U nx nu ncr) (hG : sys.IsLie mat hat matU hatU) (hf : IsUFn sys a.f)
    (hK : 1 ≤ a.Kmesh) (hL : ∀ K, a.Kmesh ≤ K → K ≤ a.Kmesh + 1 → IsLGR sys.env K) (hB : IsLagrange sys.env) (htf : 0 ≤ a.tf)
    (xd : T → X) (dxd : T → Fin nx → ℝ) (ud : T → U) (t : T) {W : Fin nx → ℝ} (hW : ∀ k, 0 < W k) {μ : ℝ} (hb : Bounded sys a xd dxd ud t W μ)
    (hμ : μ * a.tf < max 1 (((a.K + a.Kmesh - 1) / a.Kmesh : ℕ) : ℝ)) {ρ : ℝ} (hu : InputRoom sys a xd ud t ρ) (x : X)
    (r : Fin (nColloc (meshOf a)) → Fin nx → ℝ) (c : Fin nx → ℝ) (s : Fin (nColloc (meshOf a)) → Fin ncr → ℝ) (hs : ∀ i k, |s i k| ≤ ρ) :
    ∃ z, Disturbed sys a xd dxd ud t x r c s z := by
  have hv : Valid a.Kmesh a.Kmesh (meshOf a) := by
    have : uniform a.Kmesh a.Kmesh ((a.K + a.Kmesh - 1) / a.Kmesh) a.Kmesh = some (meshOf a) := by
      unfold meshOf uniform
      rw [if_pos ⟨le_rfl, by omega⟩]
      rfl
    exact valid_uniform this
  set τ := fun i : ℕ => nodeTime sys (meshOf a) a.tf t i with hτ
  choose v hv' using hu
  -- the linearised dynamics as matrices
  let B : Fin (nColloc (meshOf a)) → Matrix (Fin nx) (Fin nx) ℝ := fun i => Matrix.of fun k l =>
    a.f.dx (seen a.f (τ i)) (xd (τ i)) (ud (τ i)) k l +
      1 / 2 * (sys.LX.ad (Pi.single l 1) *ᵥ (a.f.val (seen a.f (τ i)) (xd (τ i)) (ud (τ i)) + dxd (τ i))) k
  have hlin : ∀ (i : Fin (nColloc (meshOf a))) (d : Arg nx nu → ℝ) k,
      taylor1 (fun δ => errVel sys a.f (seen a.f (τ i)) (xd (τ i)) (dxd (τ i)) (ud (τ i)) δ k) 0 d =
        (a.f.val (seen a.f (τ i)) (xd (τ i)) (ud (τ i)) k - dxd (τ i) k) + ((B i *ᵥ fun l => d (.x l)) k + ∑ l, a.f.du (seen a.f (τ i)) (xd (τ i)) (ud (τ i)) k l * d (.u l)) :=
    fun i d k => errVel_sum hG hf (seen a.f (τ i)) (xd (τ i)) (dxd (τ i)) (ud (τ i)) d k
  have hA : ∀ (i : Fin (nColloc (meshOf a))) (y : Fin nx → ℝ), ∑ k, W k * (y k * ((a.tf • B i) *ᵥ y) k) ≤ (μ * a.tf) * ∑ k, W k * y k ^ 2 := by
    intro i y
    have h1 := hb i y
    have h2 : ∀ k, fderiv ℝ (fun δ => errVel sys a.f (seen a.f (τ i)) (xd (τ i)) (dxd (τ i)) (ud (τ i)) δ k) 0 (stateArg y) = (B i *ᵥ y) k := fun k => by
      have h3 := hlin i (stateArg y) k
      unfold taylor1 at h3
      simp only [errVel_zero hG, Pi.sub_apply] at h3
      have h4 := add_left_cancel h3
      rw [h4]
      simp [stateArg]
    simp only [hτ] at h2
    simp only [h2] at h1
    calc ∑ k, W k * (y k * ((a.tf • B i) *ᵥ y) k) = a.tf * ∑ k, W k * (y k * (B i *ᵥ y) k) := by
          rw [Finset.mul_sum]
          refine Finset.sum_congr rfl fun k _ => ?_
          rw [Matrix.smul_mulVec, Pi.smul_apply, smul_eq_mul]
          ring
      _ ≤ a.tf * (μ * ∑ k, W k * y k ^ 2) := mul_le_mul_of_nonneg_left h1 htf
      _ = _ := by ring
  obtain ⟨Y, ⟨hY0, hY⟩, -⟩ := colloc_solve hB (nColloc_eq (meshOf a)) hv.increasing hv.below
    (fun w hw => ⟨hK.trans (hv.degree w hw).1, hL _ (hv.degree w hw).1 (hv.degree w hw).2⟩) W hW (μ * a.tf) (fun p hp => by
      rw [mesh_lengths a p hp, mul_one_div, div_lt_one (lt_of_lt_of_le one_pos (le_max_left _ _))]
      exact hμ) (fun i => a.tf • B i) hA
    (fun i k => a.tf * ((a.f.val (seen a.f (τ i)) (xd (τ i)) (ud (τ i)) k - dxd (τ i) k) + ∑ l, a.f.du (seen a.f (τ i)) (xd (τ i)) (ud (τ i)) k l * v i l) + r i k)
    (-sys.rminus (xd (sys.plus t 0)) x + c)
  let z : QVar (nColloc (meshOf a)) nx nu → ℝ := fun q => match q with
    | .x j k => Y j k
    | .u j k => v j k
  have hdev : ∀ i, dev z i = bothArg (Y i.castSucc) (v i) := fun i => by
    funext q
    cases q <;> rfl
  refine ⟨z, fun i k => ?_, hY0, fun i k => ?_⟩
  · have h1 := hlin i (dev z i) k
    simp only [hτ] at h1
    rw [h1]
    refine (hY i k).trans ?_
    rw [Matrix.smul_mulVec, Pi.smul_apply, smul_eq_mul]
    change _ = a.tf * (_ + ((B i *ᵥ Y i.castSucc) k + ∑ l, a.f.du (seen a.f (τ i)) (xd (τ i)) (ud (τ i)) k l * v i l)) + r i k
    ring
  · rw [hdev]
    exact hv' i (Y i.castSucc) k (s i k) (hs i k)

/-- In particular there is an admissible deviation. -/
theorem mpc_admissible (sys : Sys T ℝ σ X U nx nu) (a : Args T ℝ X U nx nu ncr) (hG : sys.IsLie mat hat matU hatU) (hf : IsUFn sys a.f)
    (hK : 1 ≤ a.Kmesh) (hL : ∀ K, a.Kmesh ≤ K → K ≤ a.Kmesh + 1 → IsLGR sys.env K) (hB : IsLagrange sys.env) (htf : 0 ≤ a.tf)
    (xd : T → X) (dxd : T → Fin nx → ℝ) (ud : T → U) (t : T) {W : Fin nx → ℝ} (hW : ∀ k, 0 < W k) {μ : ℝ} (hb : Bounded sys a xd dxd ud t W μ)
    (hμ : μ * a.tf < max 1 (((a.K + a.Kmesh - 1) / a.Kmesh : ℕ) : ℝ)) (hu : InputRoom sys a xd ud t 0) (x : X) : ∃ z, Admissible sys a xd dxd ud t x z := by
  obtain ⟨z, h1, h2, h3⟩ := mpc_robust sys a hG hf hK hL hB htf xd dxd ud t hW hb hμ hu x 0 0 0 (fun i k => by simp)
  refine ⟨z, ⟨fun i k => ?_, ?_⟩, ?_⟩
  · simpa using h1 i k
  · simpa using h2
  · split_ifs with h <;> intro i k <;> simpa [h] using h3 i k

/-- The same, for the solver: every call from every state, in every history, returns and reports Optimal if the tolerances are small enough for the situation, and
there is exactly one solution of its problem. -/
theorem mpc_input_limits_solved (sys : Sys T ℝ σ X U nx nu) (hnx : 1 ≤ nx) (a : Args T ℝ X U nx nu ncr) (hG : sys.IsLie mat hat matU hatU) (hf : IsUFn sys a.f)
    (hcr : IsUFn sys a.cr) (hK : 1 ≤ a.Kmesh) (hL : ∀ K, a.Kmesh ≤ K → K ≤ a.Kmesh + 1 → IsLGR sys.env K) (hB : IsLagrange sys.env) (htf : 0 < a.tf) (hsz : nu ≤ nx)
    (xd : T → X) (dxd : T → Fin nx → ℝ) (ud : T → U) (t : T) {W : Fin nx → ℝ} (hW : ∀ k, 0 < W k) {μ : ℝ} (hb : Bounded sys a xd dxd ud t W μ)
    (hμ : μ * a.tf < max 1 (((a.K + a.Kmesh - 1) / a.Kmesh : ℕ) : ℝ)) {ρ : ℝ} (hρ : 0 < ρ) (hu : InputRoom sys a xd ud t ρ) (x : X) :
    ∃ (C e0 : ℝ) (z : QVar (nColloc (meshOf a)) nx nu → ℝ), 0 ≤ C ∧ 0 < e0 ∧ ∀ (env : (n : ℕ) → QP.Env ℝ n) (prm : QP.Params ℝ) (fuel : ℕ)
      (l : List (Op T ℝ X U nx nu ncr)) (w : World T ℝ (QState ℝ) X U nx nu ncr) (i : ℕ), Solves env prm → prm.polish = false → prm.maxIter = none → prm.maxTime = none →
      prm.epsRel = 0 → prm.epsAbs ≤ e0 → prm.epsPrimalInf ≤ e0 → prm.epsDualInf ≤ e0 →
      World.run (sys.withSolver (qpObject env prm fuel)) l World.empty = some w → w.Follows i a xd dxd ud →
      ∃ N w' r, (∀ fuel', N ≤ fuel' → w.step (sys.withSolver (qpObject env prm fuel')) (.call i t x) = some (w', some r)) ∧ r.code = .optimal ∧
        (Best sys a xd dxd ud t x z ∧ ∀ z', Best sys a xd dxd ud t x z' → z' = z) ∧
        ∃ d : Fin nu → ℝ, r.u = sys.LU.rplus (ud (sys.plus t 0)) d ∧ ∀ (h0 : 0 < nColloc (meshOf a)) k, |z (.u ⟨0, h0⟩ k) - d k| ≤ C * prm.epsAbs :=
  mpc_small_tolerances_solve sys hnx a hG hf hcr hL hB htf hsz xd dxd ud t x
    ⟨ρ, hρ, fun r c s _ _ hs => mpc_robust sys a hG hf hK hL hB htf.le xd dxd ud t hW hb hμ hu x r c s hs⟩

end Verif.MPC
