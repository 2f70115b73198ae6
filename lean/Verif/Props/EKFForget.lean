import Verif.Spec.EKFForget
import Verif.Props.EKFBalance

/-! # C155: the first estimate is forgotten -/

set_option linter.unusedSectionVars false

namespace Verif.EKF

open Matrix EKFSpec Lin

universe v

variable {F : Type v} {n : ℕ} [Field F] [LinearOrder F] [IsStrictOrderedRing F]

/-- One update brings two estimates closer. -/
theorem update_contracts (env : Env (Vec n F) F n) (hs : SolveOk env) (hv : ∀ g v, env.rplus g v = g + v) (r : Reading (Vec n F) F n) (ha : AffineSensor r)
    (s1 s2 : State (Vec n F) F n) (hP : s1.P = s2.P) (hPD : PD s1.P) (hR : PD (mirrored r.R)) :
    (update env r.z r.R s1).P = (update env r.z r.R s2).P ∧
    errorSq (update env r.z r.R s1).g (update env r.z r.R s2).g (update env r.z r.R s1).P
      + (r.z.jac s1.g *ᵥ (s1.g - s2.g)) ⬝ᵥ (r.z.jac s1.g * s1.P * (r.z.jac s1.g)ᵀ + mirrored r.R)⁻¹ *ᵥ (r.z.jac s1.g *ᵥ (s1.g - s2.g))
      = errorSq s1.g s2.g s1.P := by
  have hR' : PD (symU r.R) := hR
  have hj := (ha s1.g s2.g).1
  refine ⟨by simp only [update, hP, hj], ?_⟩
  obtain ⟨s', a1, a2, a3⟩ := ekf_information_sum env hs 0 [r] s1 hPD (by intro r' hr; rw [List.mem_singleton] at hr; rw [hr]; exact hR)
  obtain rfl : update env r.z r.R s1 = s' := Option.some.inj a1
  simp only [estimates, infoAt, add_zero] at a3
  have hPD' := (ekf_update_balance env hs hv r s1 hPD hR 0).1
  have hg : ∀ s : State (Vec n F) F n, PD s.P → (update env r.z r.R s).g
      = s.g + (s.P * (r.z.jac s.g)ᵀ * (innov s.P (r.z.jac s.g) (symU r.R))⁻¹) *ᵥ r.z.yminus r.z.y (r.z.h s.g) := fun s h => by
    rw [show update env r.z r.R s = _ from update_eq env hs r.z r.R s h.psd hR', ← hv]
  have hSd : IsUnit (innov s1.P (r.z.jac s1.g) (symU r.R)).det := (innov_PD (r.z.jac s1.g) hPD.psd hR').isUnit_det
  have hd : (update env r.z r.R s1).g - (update env r.z r.R s2).g = (s1.g - s2.g)
      - (s1.P * (r.z.jac s1.g)ᵀ * (innov s1.P (r.z.jac s1.g) (symU r.R))⁻¹) *ᵥ (r.z.jac s1.g *ᵥ (s1.g - s2.g)) := by
    rw [hg s1 hPD, hg s2 (hP ▸ hPD), ← hP, ← hj, ← neg_sub s2.g s1.g, Matrix.mulVec_neg, ← (ha s1.g s2.g).2, Matrix.mulVec_neg, Matrix.mulVec_sub]
    abel
  have key := complete_square hPD.isUnit_det hR'.isUnit_det hSd rfl rfl (a3 ▸ (psd_inv hPD').1) (psd_inv hR').1 (s1.g - s2.g) (r.z.jac s1.g *ᵥ (s1.g - s2.g))
  rw [sub_self, zero_dotProduct, add_zero] at key
  rw [errorSq, hd, a3]
  exact key

/-- **C155** Two filters with equal covariances that get the same readings of affine sensors: the covariances stay equal, the difference of the estimates weighted
by the inverse covariance never grows, and weighted by the information collected it is at most the first difference. -/
theorem ekf_forgets (env : Env (Vec n F) F n) (hs : SolveOk env) (hv : ∀ g v, env.rplus g v = g + v) (fuel : ℕ) (rs : List (Reading (Vec n F) F n))
    (s1 s2 : State (Vec n F) F n) (hP : s1.P = s2.P) (hPD : PD s1.P) (hR : ∀ r ∈ rs, PD (mirrored r.R)) (ha : ∀ r ∈ rs, AffineSensor r) :
    ∃ s1' s2', run env fuel s1 (rs.map fun r => .update r.z r.R) = some s1' ∧ run env fuel s2 (rs.map fun r => .update r.z r.R) = some s2' ∧
      s1'.P = s2'.P ∧ errorSq s1'.g s2'.g s1'.P ≤ errorSq s1.g s2.g s1.P ∧
      (s1'.g - s2'.g) ⬝ᵥ infoAt rs (estimates env s1 rs) *ᵥ (s1'.g - s2'.g) ≤ errorSq s1.g s2.g s1.P := by
  have main : ∀ (rs : List (Reading (Vec n F) F n)) (s1 s2 : State (Vec n F) F n), s1.P = s2.P → PD s1.P → (∀ r ∈ rs, PD (mirrored r.R)) →
      (∀ r ∈ rs, AffineSensor r) → ∃ s1' s2', run env fuel s1 (rs.map fun r => .update r.z r.R) = some s1' ∧
      run env fuel s2 (rs.map fun r => .update r.z r.R) = some s2' ∧ s1'.P = s2'.P ∧ errorSq s1'.g s2'.g s1'.P ≤ errorSq s1.g s2.g s1.P := by
    intro rs
    induction rs with
    | nil => intro s1 s2 hP _ _ _; exact ⟨s1, s2, rfl, rfl, hP, le_rfl⟩
    | cons r rs ih =>
      intro s1 s2 hP hPD hR ha
      obtain ⟨u1, u2⟩ := update_contracts env hs hv r (ha r List.mem_cons_self) s1 s2 hP hPD (hR r List.mem_cons_self)
      have hPD' := (ekf_update_balance env hs hv r s1 hPD (hR r List.mem_cons_self) 0).1
      obtain ⟨s1', s2', b1, b2, b3, b4⟩ := ih _ _ u1 hPD' (fun r' hr => hR r' (List.mem_cons_of_mem _ hr)) fun r' hr => ha r' (List.mem_cons_of_mem _ hr)
      refine ⟨s1', s2', b1, b2, b3, b4.trans ?_⟩
      have h2 := (psd_inv (innov_PD (r.z.jac s1.g) hPD.psd (hR r List.mem_cons_self))).2 (r.z.jac s1.g *ᵥ (s1.g - s2.g))
      rw [← u2]
      exact le_add_of_nonneg_right h2
  obtain ⟨s1', s2', b1, b2, b3, b4⟩ := main rs s1 s2 hP hPD hR ha
  refine ⟨s1', s2', b1, b2, b3, b4, ?_⟩
  obtain ⟨s'', c0, -, c2⟩ := ekf_information_sum env hs fuel rs s1 hPD hR
  obtain rfl : s1' = s'' := Option.some.inj (b1.symm.trans c0)
  have h1 : errorSq s1'.g s2'.g s1'.P = (s1'.g - s2'.g) ⬝ᵥ s1.P⁻¹ *ᵥ (s1'.g - s2'.g)
      + (s1'.g - s2'.g) ⬝ᵥ infoAt rs (estimates env s1 rs) *ᵥ (s1'.g - s2'.g) := by
    rw [errorSq, c2, Matrix.add_mulVec, dotProduct_add]
  linarith [(psd_inv hPD).2 (s1'.g - s2'.g)]

/-- **C155** In a direction `v` about which the information collected is at least `c`, the squared difference is at most the first difference over `c`. -/
theorem ekf_forgets_direction (env : Env (Vec n F) F n) (hs : SolveOk env) (hv : ∀ g v, env.rplus g v = g + v) (fuel : ℕ) (rs : List (Reading (Vec n F) F n))
    (s1 s2 : State (Vec n F) F n) (hP : s1.P = s2.P) (hPD : PD s1.P) (hR : ∀ r ∈ rs, PD (mirrored r.R)) (ha : ∀ r ∈ rs, AffineSensor r)
    (v : Vec n F) {c : F} (hc : 0 < c) (hI : ∀ u : Vec n F, c * (v ⬝ᵥ u) ^ 2 ≤ u ⬝ᵥ infoAt rs (estimates env s1 rs) *ᵥ u) :
    ∃ s1' s2', run env fuel s1 (rs.map fun r => .update r.z r.R) = some s1' ∧ run env fuel s2 (rs.map fun r => .update r.z r.R) = some s2' ∧
      (v ⬝ᵥ (s1'.g - s2'.g)) ^ 2 ≤ errorSq s1.g s2.g s1.P / c := by
  obtain ⟨s1', s2', b1, b2, -, -, b5⟩ := ekf_forgets env hs hv fuel rs s1 s2 hP hPD hR ha
  refine ⟨s1', s2', b1, b2, ?_⟩
  rw [le_div_iff₀ hc, mul_comm]
  exact (hI _).trans b5

theorem bal_affine (y : ℚ) : AffineSensor (balReading y) := by
  intro g g'
  refine ⟨rfl, ?_⟩
  show ((![y] : Vec 1 ℚ) - g) - (![y] - g') = (1 : Mat 1 1 ℚ) *ᵥ (g' - g)
  rw [Matrix.one_mulVec]; abel

/-- Estimates 0 and 10 of variance 1: after `k` equal readings their squared difference is at most `300 / k`. -/
theorem bal_forgets (y : ℚ) (k : ℕ) (hk : 0 < k) : ∃ s1' s2', run balEnv 0 { g := 0, P := !![1] } ((List.replicate k (balReading y)).map fun r => .update r.z r.R) = some s1' ∧
    run balEnv 0 { g := ![10], P := !![1] } ((List.replicate k (balReading y)).map fun r => .update r.z r.R) = some s2' ∧
    (s1'.g - s2'.g) ⬝ᵥ (s1'.g - s2'.g) ≤ (300 : ℚ) / k := by
  have hk' : (0 : ℚ) < k := Nat.cast_pos.2 hk
  obtain ⟨s1', s2', b1, b2, -, -, b5⟩ := ekf_forgets balEnv balEnv_solve (fun _ _ => rfl) 0 (List.replicate k (balReading y)) { g := 0, P := !![1] }
    { g := ![10], P := !![1] } rfl (pd_one_by_one 1 (by norm_num))
    (fun r hr => by rw [List.eq_of_mem_replicate hr, bal_mirrored]; exact pd_one_by_one 3 (by norm_num))
    (fun r hr => by rw [List.eq_of_mem_replicate hr]; exact bal_affine y)
  refine ⟨s1', s2', b1, b2, ?_⟩
  have a3 : errorSq (0 : Vec 1 ℚ) ![10] (!![1] : Mat 1 1 ℚ) = 100 := by
    rw [errorSq, bal_inv 1 (by norm_num)]
    norm_num [dotProduct, Matrix.mulVec]
  rw [bal_info, Matrix.smul_mulVec, Matrix.one_mulVec, dotProduct_smul, smul_eq_mul] at b5
  have b6 : (k : ℚ) / 3 * ((s1'.g - s2'.g) ⬝ᵥ (s1'.g - s2'.g)) ≤ 100 := b5.trans a3.le
  rw [le_div_iff₀ hk']
  linarith

/-- The hypothesis on the information at 30 readings: `10 (v u)²` for `v = 1`. -/
example (y : ℚ) (u : Vec 1 ℚ) : 10 * ((![1] : Vec 1 ℚ) ⬝ᵥ u) ^ 2 ≤
    u ⬝ᵥ infoAt (List.replicate 30 (balReading y)) (estimates balEnv { g := 0, P := !![1] } (List.replicate 30 (balReading y))) *ᵥ u := by
  rw [bal_info, Matrix.smul_mulVec, Matrix.one_mulVec, dotProduct_smul, smul_eq_mul]
  simp only [dotProduct, Fin.sum_univ_one, Finset.univ_unique, Fin.default_eq_zero, Finset.sum_singleton, Matrix.cons_val_zero]
  norm_num
  nlinarith

end Verif.EKF
