import Verif.Props.SE2Ocp
import Verif.Props.LieClassical

/-! # Examples for the derivatives of the problem on SE(2): poses of the plane with velocities, and vectors (C121) -/

namespace Verif.SE2

open Verif.Sparse Verif.Lie Verif.MeshFn Verif.NLP Verif.Flatten Filter Topology

open scoped Matrix

/-- The functions that depend only on the group. -/
noncomputable def withGroup {X : Type*} (L : LieOps X ℝ 5) (vel : X → Fin 2 → ℝ) (make : (Fin 3 → ℝ) → (Fin 2 → ℝ) → X) (log : X → Fin 5 → ℝ) (rminus : X → X → Fin 5 → ℝ) :
    PoseOps X ℝ where
  toLieOps := L
  vel := vel
  make := make
  log := log
  rminus := rminus
  dlExpinv a := L.drExpinv a * L.Ad (L.exp (-a))
  drSq a := a ᵥ* L.drExpinv a
  d2rSq a := (L.drExpinv a)ᵀ * L.drExpinv a + ∑ k, a k • (L.d2rExpinv a k * L.drExpinv a)
  d2rRminus a k := L.d2rExpinv a k * L.drExpinv a

section

variable {X 𝔸 : Type*} [NormedRing 𝔸] [NormedAlgebra ℝ 𝔸] [FiniteDimensional ℝ 𝔸] [CompleteSpace 𝔸] {L : LieOps X ℝ 5} {mat : X → 𝔸}
  {hat : (Fin 5 → ℝ) →ₗ[ℝ] 𝔸} {vel : X → Fin 2 → ℝ} {make : (Fin 3 → ℝ) → (Fin 2 → ℝ) → X} {log : X → Fin 5 → ℝ} {rminus : X → X → Fin 5 → ℝ}

theorem withGroup_isPose (h : IsLie L mat hat) (hv : ∀ x a, vel (L.rplus x a) = vel x + ![a 3, a 4])
    (hm : ∀ a v, make a v = L.rplus (make 0 v) ![a 0, a 1, a 2, 0, 0]) (hmv : ∀ a v, vel (make a v) = v) : IsPose (withGroup L vel make log rminus) mat hat where
  lie := h
  vel := hv
  make := hm
  make_vel := hmv
  dlExpinv a ha b := by
    change hat b * NormedSpace.exp (hat a) = NormedSpace.exp (hat a) * hat (L.drExp a *ᵥ ((L.drExpinv a * L.Ad (L.exp (-a))) *ᵥ b))
    have hu : IsUnit (L.drExp a).det := ha
    rw [Matrix.mulVec_mulVec, ← mul_assoc, h.drExpinv a hu, Matrix.mul_nonsing_inv _ hu, one_mul, h.hat_Ad_exp, ← mul_assoc, ← mul_assoc, exp_mul_neg, one_mul]
  drSq a := rfl
  d2rRminus a k := rfl
  d2rSq a := rfl

end

/-! ### Vectors -/

noncomputable def vecPose : PoseOps (Fin 5 → ℝ) ℝ := withGroup (vec ℝ 5) (fun x => ![x 3, x 4]) (fun a v => ![a 0, a 1, a 2, v 0, v 1]) id fun x y => x - y

theorem vecPose_isPose : IsPose vecPose (vecMat 5) (vecHat 5) := by
  refine withGroup_isPose (vec_isLie 5) (fun x a => ?_) (fun a v => ?_) fun a v => ?_
  · funext k
    fin_cases k <;> rfl
  · funext k
    fin_cases k <;> simp [vec]
  · funext k
    fin_cases k <;> rfl

theorem vecPose_reg (t : ℝ) (x : Fin 5 → ℝ) : Reg vecPose (vecMat 5) (vecHat 5) t x where
  cont := by
    have : Continuous fun δ : Arg 5 2 → ℝ => (x + fun k => δ (.x k)) - ![((t + δ .t) • (vdes : Fin 3 → ℝ)) 0, ((t + δ .t) • (vdes : Fin 3 → ℝ)) 1,
        ((t + δ .t) • (vdes : Fin 3 → ℝ)) 2, vdes 0, vdes 2] := by
      refine (continuous_const.add (continuous_pi fun k => continuous_apply _)).sub (continuous_pi fun k => ?_)
      fin_cases k <;> simp <;> fun_prop
    exact this.continuousAt
  log := Eventually.of_forall fun δ => by
    rw [vec_exp, vecMat_mul]
    congr 1
    change _ = _ + (_ - _)
    rw [add_sub_cancel]
  det := by
    change IsUnit (1 : Matrix (Fin 5) (Fin 5) ℝ).det
    simp

theorem vecPose_regLog (x : Fin 5 → ℝ) : RegLog vecPose (vecMat 5) (vecHat 5) x where
  cont := (continuous_const.add continuous_id).continuousAt
  log := Eventually.of_forall fun δ => by rw [vec_exp]; rfl
  det := by
    change IsUnit (1 : Matrix (Fin 5) (Fin 5) ℝ).det
    simp

example (t : ℝ) (x : Fin 5 → ℝ) (u : Fin 2 → ℝ) : JacAt vecPose (ocpSe2 vecPose).g (t, x, u) :=
  ((se2_derivatives_partial vecPose_isPose).2.2.2.2.1 t x u (vecPose_reg t x)).1

example (p : ℝ × (Fin 5 → ℝ) × (Fin 5 → ℝ) × (Fin 1 → ℝ)) : DrEAt vecPose (ocpSe2 vecPose).ce p := (se2_derivatives_partial vecPose_isPose).2.2.2.2.2.2 p (vecPose_regLog _)

/-! ### Poses of the plane with velocities -/

section

variable {𝔸 : Type*} [NormedRing 𝔸] [NormedAlgebra ℝ 𝔸] [FiniteDimensional ℝ 𝔸] [CompleteSpace 𝔸] {G : Subgroup 𝔸ˣ} {hat : (Fin 5 → ℝ) →ₗ[ℝ] 𝔸}

/-- A logarithm near one. -/
theorem exists_vlog {X : Type*} {L : LieOps X ℝ 5} {mat : X → 𝔸} (h : IsLie L mat hat) :
    ∃ g : 𝔸 → Fin 5 → ℝ, (∀ᶠ b in 𝓝 0, g (NormedSpace.exp (hat b)) = b) ∧ ContinuousAt g 1 := by
  obtain ⟨g, G, h1, h2, -⟩ := h.local_log 0 (by rw [h.drExp_zero]; simp)
  rw [map_zero, NormedSpace.exp_zero] at h2
  exact ⟨g, h1, h2.continuousAt⟩

theorem reg_of_log {L : LieOps G ℝ 5} (h : IsLie L (fun x : G => ((x : 𝔸ˣ) : 𝔸)) hat) {g : 𝔸 → Fin 5 → ℝ} (hg : ∀ᶠ b in 𝓝 0, g (NormedSpace.exp (hat b)) = b)
    (hc : ContinuousAt g 1) {P : PoseOps G ℝ} (hP : IsPose P (fun x : G => ((x : 𝔸ˣ) : 𝔸)) hat) (hr : ∀ x y, P.rminus x y = g (((y⁻¹ * x : G) : 𝔸ˣ) : 𝔸)) (t : ℝ) :
    Reg P (fun x : G => ((x : 𝔸ˣ) : 𝔸)) hat t (xdes P t) ∧ P.rminus (xdes P t) (xdes P t) = 0 := by
  have h0 : P.rminus (xdes P t) (xdes P t) = 0 := by
    rw [hr, inv_mul_cancel]
    have := hg.self_of_nhds
    rw [map_zero, NormedSpace.exp_zero] at this
    exact this
  let z : (Arg 5 2 → ℝ) → 𝔸 := fun δ => NormedSpace.exp (-(δ .t • hat omega)) * NormedSpace.exp (hat fun k => δ (.x k))
  have hz : ∀ δ : Arg 5 2 → ℝ, ((((xdes P (t + δ .t))⁻¹ * P.rplus (xdes P t) (fun k => δ (.x k)) : G) : 𝔸ˣ) : 𝔸) = z δ := by
    intro δ
    have e1 : (((xdes P (t + δ .t) : G) : 𝔸ˣ) : 𝔸) * z δ = ((P.rplus (xdes P t) (fun k => δ (.x k)) : G) : 𝔸ˣ) := by
      have k1 := xdes_mat hP t (δ .t)
      have k2 := hP.lie.rplus (xdes P t) fun k => δ (.x k)
      rw [k1, k2]
      simp only [z]
      rw [mul_assoc, ← mul_assoc (NormedSpace.exp _), exp_mul_neg, one_mul]
    rw [Subgroup.coe_mul, Units.val_mul, ← e1, Subgroup.coe_inv, Units.inv_mul_cancel_left]
  have hx : Continuous (NormedSpace.exp : 𝔸 → 𝔸) := by
    letI : NormedAlgebra ℚ 𝔸 := NormedAlgebra.restrictScalars ℚ ℝ 𝔸
    exact NormedSpace.exp_continuous
  have hh : Continuous hat := (LinearMap.toContinuousLinearMap hat).continuous
  have zc : Continuous z := by
    refine (hx.comp ((continuous_apply Arg.t).smul continuous_const).neg).mul (hx.comp (hh.comp (continuous_pi fun k => continuous_apply _)))
  have z0 : z 0 = 1 := by
    change NormedSpace.exp (-((0 : ℝ) • hat omega)) * NormedSpace.exp (hat 0) = 1
    rw [zero_smul, neg_zero, map_zero, NormedSpace.exp_zero, one_mul]
  refine ⟨⟨?_, ?_, ?_⟩, h0⟩
  · have e : (fun δ : Arg 5 2 → ℝ => P.rminus (P.rplus (xdes P t) fun k => δ (.x k)) (xdes P (t + δ .t))) = fun δ => g (z δ) := by
      funext δ
      rw [hr, hz]
    rw [e]
    refine ContinuousAt.comp (f := z) ?_ zc.continuousAt
    rw [z0]
    exact hc
  · obtain ⟨ε, hε, hb⟩ := Metric.eventually_nhds_iff.1 hg
    obtain ⟨ρ, hρ, hch⟩ := h.chart 1 ε hε
    have hnear : ∀ᶠ δ in 𝓝 (0 : Arg 5 2 → ℝ), ‖z δ - 1‖ < ρ := by
      have : Tendsto z (𝓝 0) (𝓝 1) := by
        have := zc.tendsto 0
        rwa [z0] at this
      filter_upwards [this (Metric.ball_mem_nhds 1 hρ)] with δ hδ
      have := Metric.mem_ball.1 hδ
      rwa [dist_eq_norm] at this
    filter_upwards [hnear] with δ hδ
    obtain ⟨a, ha, e⟩ := hch ((xdes P (t + δ .t))⁻¹ * P.rplus (xdes P t) fun k => δ (.x k)) (by
      simp only [hz]
      exact hδ)
    have ez : z δ = NormedSpace.exp (hat a) := by
      rw [← hz, e]
      have := h.rplus 1 a
      simp only [OneMemClass.coe_one, Units.val_one, one_mul] at this
      exact this
    have eg : g (z δ) = a := by
      rw [ez]
      exact hb (by rwa [dist_zero_right])
    rw [hr, hz, eg, ← ez, ← hz, ← Units.val_mul, ← Subgroup.coe_mul, mul_inv_cancel_left]
  · rw [h0, hP.lie.drExp_zero]
    simp

end

theorem exp_sq_zero {𝔸 : Type*} [NormedRing 𝔸] [NormedAlgebra ℝ 𝔸] {N : 𝔸} (h : N * N = 0) : NormedSpace.exp N = 1 + N := by
  rw [NormedSpace.exp_eq_tsum ℝ]
  change ∑' n : ℕ, ((n.factorial : ℝ)⁻¹) • N ^ n = _
  rw [tsum_eq_sum (s := Finset.range 2)]
  · simp [Finset.sum_range_succ]
  · intro n hn
    obtain ⟨k, rfl⟩ := Nat.exists_eq_add_of_le (show 2 ≤ n by simpa [Nat.lt_iff_add_one_le] using hn)
    rw [pow_add, pow_two, h, zero_mul, smul_zero]

theorem prod_exp {𝔸 𝔹 : Type*} [NormedRing 𝔸] [NormedAlgebra ℝ 𝔸] [CompleteSpace 𝔸] [NormedRing 𝔹] [NormedAlgebra ℝ 𝔹] [CompleteSpace 𝔹] (x : 𝔸 × 𝔹) :
    (NormedSpace.exp x).2 = NormedSpace.exp x.2 := by
  letI : NormedAlgebra ℚ 𝔸 := NormedAlgebra.restrictScalars ℚ ℝ 𝔸
  letI : NormedAlgebra ℚ 𝔹 := NormedAlgebra.restrictScalars ℚ ℝ 𝔹
  exact Prod.snd_exp x

open scoped Matrix.Norms.Operator

/-- The translation of the second factor. -/
noncomputable def pvVel (x : PoseVelocity) : Fin 2 → ℝ := fun k => ((((x : (affine 2 × affine 2)ˣ) : affine 2 × affine 2).2 : affine 2) : Matrix (Fin 2 ⊕ Unit) (Fin 2 ⊕ Unit) ℝ) (.inl k) (.inr ())

noncomputable abbrev pvL : LieOps PoseVelocity ℝ 5 := lin PoseVelocity pvHat pvHat_inj isLin_pv

theorem pvVel_rplus (x : PoseVelocity) (a : Fin 5 → ℝ) : pvVel (pvL.rplus x a) = pvVel x + ![a 3, a 4] := by
  have h := pose_velocity_isLie.rplus x a
  have h2 := congrArg Prod.snd h
  simp only [Prod.snd_mul] at h2
  have hN : (pvHat a).2 * (pvHat a).2 = 0 := by
    apply Subtype.ext
    change semiMat (noHat 2) (fun i : Fin (2 + 0) => a (Fin.natAdd (2 + 1) i)) * semiMat (noHat 2) (fun i : Fin (2 + 0) => a (Fin.natAdd (2 + 1) i)) = 0
    unfold semiMat
    rw [Matrix.fromBlocks_multiply]
    simp [noHat]
  rw [prod_exp, exp_sq_zero hN] at h2
  have hl : ∀ k j, ((((x : (affine 2 × affine 2)ˣ) : affine 2 × affine 2).2 : affine 2) : Matrix (Fin 2 ⊕ Unit) (Fin 2 ⊕ Unit) ℝ) (.inl k) (.inl j) = (1 : Matrix (Fin 2) (Fin 2) ℝ) k j := by
    intro k j
    have := congrArg Units.val (x.2.2.1 : Units.map (linPart 2 : affine 2 →* Matrix (Fin 2) (Fin 2) ℝ) _ = 1)
    exact congrFun (congrFun this k) j
  have hn : ∀ i j, (((pvHat a).2 : affine 2) : Matrix (Fin 2 ⊕ Unit) (Fin 2 ⊕ Unit) ℝ) i j = semiMat (noHat 2) (fun i : Fin (2 + 0) => a (Fin.natAdd (2 + 1) i)) i j := fun i j => rfl
  funext k
  unfold pvVel
  rw [h2, mul_add, mul_one]
  have e : ∀ A B : affine 2, ((A + A * B : affine 2) : Matrix (Fin 2 ⊕ Unit) (Fin 2 ⊕ Unit) ℝ) (.inl k) (.inr ()) =
      (A : Matrix (Fin 2 ⊕ Unit) (Fin 2 ⊕ Unit) ℝ) (.inl k) (.inr ()) + ∑ i, (A : Matrix (Fin 2 ⊕ Unit) (Fin 2 ⊕ Unit) ℝ) (.inl k) i *
        (B : Matrix (Fin 2 ⊕ Unit) (Fin 2 ⊕ Unit) ℝ) i (.inr ()) := fun A B => rfl
  rw [e, Fintype.sum_sum_type]
  simp only [hl, hn]
  fin_cases k <;> simp [semiMat, Matrix.one_apply]

/-- A logarithm near one. -/
noncomputable def pvLog : affine 2 × affine 2 → Fin 5 → ℝ := Classical.choose (exists_vlog pose_velocity_isLie)

/-- The state of the example: a pose, a forward speed and a rate of turn. -/
noncomputable def pvPose : PoseOps PoseVelocity ℝ :=
  withGroup pvL pvVel (fun a v => pvL.rplus (pvL.rplus 1 ![0, 0, 0, v 0, v 1]) ![a 0, a 1, a 2, 0, 0])
    (fun x => pvLog ((x : (affine 2 × affine 2)ˣ) : affine 2 × affine 2)) fun x y => pvLog (((y⁻¹ * x : PoseVelocity) : (affine 2 × affine 2)ˣ) : affine 2 × affine 2)

theorem pvPose_isPose : IsPose pvPose (fun x : PoseVelocity => ((x : (affine 2 × affine 2)ˣ) : affine 2 × affine 2)) pvHat := by
  have h0 : ![(0 : ℝ), 0, 0, 0, 0] = 0 := by
    funext k
    fin_cases k <;> rfl
  refine withGroup_isPose pose_velocity_isLie pvVel_rplus (fun a v => ?_) fun a v => ?_
  · simp only [Pi.zero_apply, h0]
    rw [pose_velocity_isLie.rplus_zero]
  · rw [pvVel_rplus, pvVel_rplus]
    funext k
    have : pvVel 1 k = 0 := by
      unfold pvVel
      change (1 : Matrix (Fin 2 ⊕ Unit) (Fin 2 ⊕ Unit) ℝ) (.inl k) (.inr ()) = 0
      simp
    rw [Pi.add_apply, Pi.add_apply, this]
    fin_cases k <;> simp

theorem pvPose_reg (t : ℝ) : Reg pvPose (fun x : PoseVelocity => ((x : (affine 2 × affine 2)ˣ) : affine 2 × affine 2)) pvHat t (xdes pvPose t) ∧
    pvPose.rminus (xdes pvPose t) (xdes pvPose t) = 0 :=
  reg_of_log pose_velocity_isLie (Classical.choose_spec (exists_vlog pose_velocity_isLie)).1 (Classical.choose_spec (exists_vlog pose_velocity_isLie)).2 pvPose_isPose
    (fun _ _ => rfl) t

/-- On the desired trajectory of the example itself, the derivatives by state and input are right, those by time are not there. -/
example (t : ℝ) (u : Fin 2 → ℝ) : JacAt pvPose (ocpSe2 pvPose).g (t, xdes pvPose t, u) ∧ HessAt pvPose (ocpSe2 pvPose).g (t, xdes pvPose t, u) 0 (.x 2) (.x 2) ∧
    ¬HessAt pvPose (ocpSe2 pvPose).g (t, xdes pvPose t, u) 0 .t .t :=
  ⟨((se2_derivatives_partial pvPose_isPose).2.2.2.2.1 t _ u (pvPose_reg t).1).1,
    ((se2_derivatives_partial pvPose_isPose).2.2.2.2.1 t _ u (pvPose_reg t).1).2 _ _ (by simp) (by simp),
    (se2_hessian_lacks_time pvPose_isPose (pvPose_reg t).1 (pvPose_reg t).2 u).1⟩

end Verif.SE2
