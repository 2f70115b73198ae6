import Verif.Spec.SE2NLP
import Verif.Proofs.SE2QP
import Verif.Proofs.LieSeries
import Verif.Props.Collocated
import Verif.Props.FlattenDyn
import Verif.Proofs.OCPNLPBounds

/-! # The flattened problem on SE(2) -/

namespace Verif.SE2

open Verif.Mesh Verif.Sparse Verif.MeshFn Verif.NLP Verif.Lie Verif.Flatten Verif.QP Verif.QPSpec Verif.DI

open scoped Matrix

variable {X 𝔸 : Type*} [NormedRing 𝔸] [NormedAlgebra ℝ 𝔸] [FiniteDimensional ℝ 𝔸] [CompleteSpace 𝔸] {P : PoseOps X ℝ} {mat : X → 𝔸}
  {hat : (Fin 5 → ℝ) →ₗ[ℝ] 𝔸} {idX : X}

/-! ### Where the exponential map is regular -/

/-- Positions in another unit of length. -/
noncomputable def unitOf (s : ℝ) (hs : s ≠ 0) : (Fin 5 → ℝ) ≃ₗ[ℝ] (Fin 5 → ℝ) where
  toFun b := ![s * b 0, s * b 1, b 2, b 3, b 4]
  invFun b := ![s⁻¹ * b 0, s⁻¹ * b 1, b 2, b 3, b 4]
  map_add' a b := by funext k; fin_cases k <;> simp <;> ring
  map_smul' c b := by funext k; fin_cases k <;> simp <;> ring
  left_inv b := by funext k; fin_cases k <;> simp [hs]
  right_inv b := by funext k; fin_cases k <;> simp [hs]

/-- The exponential map of the plane is regular at angles less than a full turn. -/
theorem plane_regular (h : IsPose P mat hat) (hp : IsPlane P) {e : Fin 5 → ℝ} (he : |e 2| < 2 * Real.pi) : IsUnit (P.drExp e).det := by
  obtain ⟨c, hc, c0, c1⟩ : ∃ c : ℝ, 0 < c ∧ |e 0| ≤ c ∧ |e 1| ≤ c :=
    ⟨|e 0| + |e 1| + 1, by positivity, by linarith [abs_nonneg (e 1)], by linarith [abs_nonneg (e 0)]⟩
  obtain ⟨s, hs, hsc⟩ : ∃ s : ℝ, 0 < s ∧ |e 2| + s * c < 2 * Real.pi := by
    refine ⟨(2 * Real.pi - |e 2|) / 2 / c, by have := sub_pos.2 he; positivity, ?_⟩
    rw [div_mul_cancel₀ _ hc.ne']
    linarith
  refine (drExpinv_small h.lie (unitOf s hs.ne') e (r := |e 2| + s * c) (by positivity) (fun b => ?_) hsc).1
  have hb : ∀ k, |unitOf s hs.ne' b k| ≤ ‖unitOf s hs.ne' b‖ := fun k => norm_le_pi_norm (unitOf s hs.ne' b) k
  have b0 : |s * b 0| ≤ _ := hb 0
  have b1 : |s * b 1| ≤ _ := hb 1
  have b2 : |b 2| ≤ _ := hb 2
  generalize ‖unitOf s hs.ne' b‖ = N at *
  have hN : 0 ≤ N := (abs_nonneg _).trans b2
  rw [pi_norm_le_iff_of_nonneg (by positivity), hp.ad]
  have key : ∀ a y z : ℝ, |a| ≤ c → |s * y| ≤ N → |s * (a * b 2 - e 2 * y)| ≤ (|e 2| + s * c) * N ∧ |s * (e 2 * y - a * b 2)| ≤ (|e 2| + s * c) * N := by
    intro a y _ ha hy
    have t1 : |s * (a * b 2 - e 2 * y)| ≤ (|e 2| + s * c) * N := by
      have : s * (a * b 2 - e 2 * y) = s * a * b 2 - e 2 * (s * y) := by ring
      rw [this]
      refine (abs_sub _ _).trans ?_
      rw [abs_mul, abs_mul, abs_mul, abs_of_pos hs]
      have i1 : s * |a| * |b 2| ≤ s * c * N := mul_le_mul (mul_le_mul_of_nonneg_left ha hs.le) b2 (abs_nonneg _) (by positivity)
      have i2 : |e 2| * |s * y| ≤ |e 2| * N := mul_le_mul_of_nonneg_left hy (abs_nonneg _)
      linarith
    refine ⟨t1, ?_⟩
    have : s * (e 2 * y - a * b 2) = -(s * (a * b 2 - e 2 * y)) := by ring
    rw [this, abs_neg]
    exact t1
  have hz : (0 : ℝ) ≤ (|e 2| + s * c) * N := by positivity
  intro k
  fin_cases k
  · exact (key (e 1) (b 1) 0 c1 b1).1
  · exact (key (e 0) (b 0) 0 c0 b0).2
  · simpa [unitOf] using hz
  · simpa [unitOf] using hz
  · simpa [unitOf] using hz

/-- On the straight line the inverse of the derivative of the exponential map keeps the velocity. -/
theorem straight_drExpinv (h : IsPose P mat hat) (hp : IsPlane P) (t v w : ℝ) : P.drExpinv ![t, 0, 0, v, w] *ᵥ ![v, 0, 0, 0, 0] = ![v, 0, 0, 0, 0] := by
  have h2 : P.ad ![t, 0, 0, v, w] ^ 2 = 0 := by
    rw [← Matrix.mulVec_injective.eq_iff]
    funext b
    rw [pow_two, ← Matrix.mulVec_mulVec, hp.ad, hp.ad, Matrix.zero_mulVec]
    funext k
    fin_cases k <;> simp
  have h24 : P.ad ![t, 0, 0, v, w] ^ 24 = 0 := by
    rw [show 24 = 2 * 12 from rfl, pow_mul, h2, zero_pow (by norm_num)]
  have h1 : P.ad ![t, 0, 0, v, w] *ᵥ ![v, 0, 0, 0, 0] = 0 := by
    rw [hp.ad]
    funext k
    fin_cases k <;> simp
  rw [(drExpinv_nilpotent h.lie _ h24).2, truncInv_eq, Finset.sum_eq_single 0]
  · simp [bc]
  · intro k _ hk
    obtain ⟨k, rfl⟩ := Nat.exists_eq_succ_of_ne_zero hk
    rw [Nat.succ_eq_add_one, pow_succ, ← Matrix.mulVec_mulVec, Matrix.neg_mulVec, h1, neg_zero, Matrix.mulVec_zero, smul_zero]
  · simp

/-! ### The references -/

theorem nlpXl_traj (idX : X) : IsTraj2 mat hat (nlpXl idX) fun _ => 0 := by
  refine ⟨fun t => ?_, fun t => hasDerivAt_const t (0 : Fin 5 → ℝ)⟩
  unfold HasVel
  have e : mat ((nlpXl idX : Traj X ℝ 5).val t) * hat ((nlpXl idX : Traj X ℝ 5).d t) = 0 := by
    change _ * hat 0 = 0
    rw [map_zero, mul_zero]
  rw [e]
  exact hasDerivWithinAt_const t Set.univ (mat idX)

theorem nlpUl_traj : IsTraj2 (vecMat 2) (vecHat 2) nlpUl fun _ => 0 := by
  refine ⟨fun t => ?_, fun t => hasDerivAt_const t (0 : Fin 2 → ℝ)⟩
  unfold HasVel
  have : vecMat 2 ((nlpUl : Traj (Fin 2 → ℝ) ℝ 2).val t) * vecHat 2 ((nlpUl : Traj (Fin 2 → ℝ) ℝ 2).d t) = 0 := by
    change _ * vecHat 2 0 = 0
    rw [map_zero, mul_zero]
  rw [this]
  exact hasDerivWithinAt_const t Set.univ (vecMat 2 fun _ => 1 / 100)

/-! ### The functions of the flattened problem -/

theorem flat_f (t : ℝ) (e : Fin 5 → ℝ) (v : Fin 2 → ℝ) : (flatSe2 idX P (vec ℝ 2)).f.val (pt t e v) =
    P.drExpinv e *ᵥ ![P.vel (P.rplus idX e) 0, 0, P.vel (P.rplus idX e) 1, 1 / 100 + v 0, 1 / 100 + v 1] := by
  change P.drExpinv e *ᵥ (_ - 0) + P.ad e *ᵥ 0 = _
  rw [sub_zero, Matrix.mulVec_zero, add_zero]
  rfl

theorem flat_g (t : ℝ) (e : Fin 5 → ℝ) (v : Fin 2 → ℝ) : (flatSe2 idX P (vec ℝ 2)).g.val (pt t e v) 0 =
    1 / 2 * (∑ k, P.rminus (P.rplus idX e) (xdes P t) k ^ 2 + ∑ k : Fin 2, (1 / 100 + v k) ^ 2) := by
  change 1 / 2 * ((∑ k, P.rminus (P.rplus idX e) (xdes P t) k * P.rminus (P.rplus idX e) (xdes P t) k) + ∑ k : Fin 2, (1 / 100 + v k) * (1 / 100 + v k)) = _
  simp only [pow_two]

theorem flat_cr (t : ℝ) (e : Fin 5 → ℝ) (v : Fin 2 → ℝ) (k : Fin 2) : (flatSe2 idX P (vec ℝ 2)).cr.val (pt t e v) k = 1 / 100 + v k := rfl

theorem flat_theta (p : EArg 5 1 → ℝ) : (flatSe2 idX P (vec ℝ 2)).theta.val p 0 = p .tf + p (.q 0) := rfl

theorem flat_ce (p : EArg 5 1 → ℝ) : (flatSe2 idX P (vec ℝ 2)).ce.val p = Fin.cons (p .tf) (P.log (P.rplus idX fun k => p (.x0 k))) := rfl

theorem idX_vel (h : IsPose P mat hat) (h1 : IsOne P idX) : P.vel idX = 0 := by
  have := h.make_vel 0 0
  rw [h1, h.vel] at this
  funext k
  have hk := congrFun this k
  fin_cases k <;> simpa using hk

/-- The program in the words of the vehicle. -/
theorem collocated_iff {env : Mesh.Env ℝ} {m : Mesh ℝ} {tf : ℝ} {x : ℝ → X} {u : ℝ → Fin 2 → ℝ} {q : Fin 1 → ℝ} :
    Collocated (ocpSe2 P) mat hat env m tf x u q ↔ tf = 5 ∧ Drives P mat hat env m x u ∧ 5 + q 0 = expense P env m x u := by
  have hg : ∀ t, (ocpSe2 P).g.val t (x t) (u t) 0 = 1 / 2 * (∑ k, P.rminus (x t) (xdes P t) k ^ 2 + ∑ k, u t k ^ 2) := by
    intro t
    change 1 / 2 * ((∑ k, P.rminus (x t) (xdes P t) k * P.rminus (x t) (xdes P t) k) + ∑ k, u t k * u t k) = _
    simp only [pow_two]
  have hq : (q 0 = 5 * ∑ i : Fin (nColloc m), wAt env m i * (ocpSe2 P).g.val (5 * tauAt env m i) (x (5 * tauAt env m i)) (u (5 * tauAt env m i)) 0) ↔
      5 + q 0 = expense P env m x u := by
    unfold expense
    simp only [hg]
    have : (5 : ℝ) * ∑ i : Fin (nColloc m), wAt env m i * (1 / 2 * (∑ k, P.rminus (x (5 * tauAt env m i)) (xdes P (5 * tauAt env m i)) k ^ 2 +
        ∑ k, u (5 * tauAt env m i) k ^ 2)) = 5 / 2 * ∑ i : Fin (nColloc m), wAt env m i *
        (∑ k, P.rminus (x (5 * tauAt env m i)) (xdes P (5 * tauAt env m i)) k ^ 2 + ∑ k, u (5 * tauAt env m i) k ^ 2) := by
      rw [Finset.mul_sum, Finset.mul_sum]
      exact Finset.sum_congr rfl fun i _ => by ring
    rw [this]
    constructor <;> intro h <;> linarith
  constructor
  · intro h
    have htf : tf = 5 := by
      have := h.endpoint 0
      exact le_antisymm this.2 this.1
    subst htf
    refine ⟨rfl, ⟨h.dynamics, fun i k => abs_le.2 (h.running i k), ?_⟩, hq.1 (h.integrals 0)⟩
    have he := fun k : Fin 5 => h.endpoint k.succ
    funext k
    fin_cases k
    · exact le_antisymm (he 0).2 (he 0).1
    · exact le_antisymm (he 1).2 (he 1).1
    · exact le_antisymm (he 2).2 (he 2).1
    · exact le_antisymm (he 3).2 (he 3).1
    · exact le_antisymm (he 4).2 (he 4).1
  · rintro ⟨rfl, h, hc⟩
    refine ⟨h.moves, fun k => ?_, fun i k => abs_le.1 (h.limits i k), fun k => ?_⟩
    · fin_cases k
      exact hq.2 hc
    · refine Fin.cases ⟨le_refl _, le_refl _⟩ (fun k => ?_) k
      have hk : (ocpSe2 P).ce.val 5 (x 0) (x 5) q k.succ = ![0, 0, 0, 1, 0] k := by
        change P.log (x 0) k = _
        rw [h.start]
      rw [hk]
      fin_cases k <;> exact ⟨le_refl _, le_refl _⟩

end Verif.SE2
