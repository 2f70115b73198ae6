import Verif.Proofs.QPRun
import Mathlib.Tactic.Ring
import Mathlib.Tactic.FieldSimp
import Mathlib.Tactic.LinearCombination

/-! # The scaled problem -/

set_option linter.unusedSectionVars false

namespace Verif.QP

open Matrix Verif.QPSpec

variable {F : Type*} [Field F] [LinearOrder F] [IsStrictOrderedRing F] {n m : ℕ} {p : Pbm F n m} {s : Scaling F n m}

theorem scaled_A (s : Scaling F n m) (x : Fin n → F) (i : Fin m) :
    ((scaledPbm p s.c s.sx s.sy).A *ᵥ x) i = s.sy i * (p.A *ᵥ s.unX x) i := by
  simp only [Matrix.mulVec, dotProduct, scaledPbm, Scaling.unX, Finset.mul_sum]
  exact Finset.sum_congr rfl fun j _ => by ring

theorem scaled_P (s : Scaling F n m) (x : Fin n → F) (i : Fin n) :
    ((scaledPbm p s.c s.sx s.sy).P *ᵥ x) i = s.c * s.sx i * (p.P *ᵥ s.unX x) i := by
  simp only [Matrix.mulVec, dotProduct, scaledPbm, Scaling.unX, Finset.mul_sum]
  exact Finset.sum_congr rfl fun j _ => by ring

theorem scaled_At (hs : s.Pos) (y : Fin m → F) (j : Fin n) :
    ((scaledPbm p s.c s.sx s.sy).Aᵀ *ᵥ y) j = s.c * s.sx j * (p.Aᵀ *ᵥ s.unY y) j := by
  have hc := hs.1.ne'
  simp only [Matrix.mulVec, dotProduct, scaledPbm, Scaling.unY, Finset.mul_sum, Matrix.transpose_apply]
  exact Finset.sum_congr rfl fun i _ => by
    change s.sy i * p.A i j * s.sx j * y i = s.c * s.sx j * (p.A i j * (s.sy i * y i / s.c))
    field_simp

theorem lower_scale {c : F} (hc : 0 < c) (b : Ext F) (w : F) : lower (scaleBound c b) (c * w) ↔ lower b w := by
  cases b <;> simp [scaleBound, lower, hc]

theorem upper_scale {c : F} (hc : 0 < c) (b : Ext F) (w : F) : upper (scaleBound c b) (c * w) ↔ upper b w := by
  cases b <;> simp [scaleBound, upper, hc]

theorem fin_scale {c : F} (hc : 0 < c) (b : Ext F) (w : F) : scaleBound c b = .fin (c * w) ↔ b = .fin w := by
  cases b <;> simp [scaleBound, hc.ne']

theorem scaled_feasible (hs : s.Pos) (x : Fin n → F) : Feasible (scaledPbm p s.c s.sx s.sy) x ↔ Feasible p (s.unX x) := by
  unfold Feasible InBox
  refine forall_congr' fun i => ?_
  rw [scaled_A]
  simp only [scaledPbm]
  rw [lower_scale (hs.2.2 i), upper_scale (hs.2.2 i)]

theorem scaled_cost (s : Scaling F n m) (x : Fin n → F) :
    cost (scaledPbm p s.c s.sx s.sy) x = s.c * cost p (s.unX x) := by
  unfold cost
  have h1 : x ⬝ᵥ (scaledPbm p s.c s.sx s.sy).P *ᵥ x = s.c * (s.unX x ⬝ᵥ p.P *ᵥ s.unX x) := by
    simp only [dotProduct, Finset.mul_sum]
    refine Finset.sum_congr rfl fun i _ => ?_
    rw [scaled_P]; simp only [Scaling.unX]; ring
  have h2 : (scaledPbm p s.c s.sx s.sy).q ⬝ᵥ x = s.c * (p.q ⬝ᵥ s.unX x) := by
    simp only [dotProduct, Finset.mul_sum, scaledPbm, Scaling.unX]
    exact Finset.sum_congr rfl fun i _ => by ring
  rw [h1, h2]; ring

theorem scaled_kkt (hs : s.Pos) (x : Fin n → F) (y : Fin m → F) :
    KKT (scaledPbm p s.c s.sx s.sy) x y ↔ KKT p (s.unX x) (s.unY y) := by
  unfold KKT
  rw [scaled_feasible hs]
  have h1 : (scaledPbm p s.c s.sx s.sy).P *ᵥ x + (scaledPbm p s.c s.sx s.sy).q + (scaledPbm p s.c s.sx s.sy).Aᵀ *ᵥ y = 0 ↔
      p.P *ᵥ s.unX x + p.q + p.Aᵀ *ᵥ s.unY y = 0 := by
    rw [funext_iff, funext_iff]
    refine forall_congr' fun j => ?_
    have e : ((scaledPbm p s.c s.sx s.sy).P *ᵥ x + (scaledPbm p s.c s.sx s.sy).q + (scaledPbm p s.c s.sx s.sy).Aᵀ *ᵥ y) j =
        s.c * s.sx j * (p.P *ᵥ s.unX x + p.q + p.Aᵀ *ᵥ s.unY y) j := by
      simp only [Pi.add_apply]
      rw [scaled_P, scaled_At hs]
      simp only [scaledPbm]
      ring
    rw [e, Pi.zero_apply, mul_eq_zero]
    have : s.c * s.sx j ≠ 0 := (mul_pos hs.1 (hs.2.1 j)).ne'
    simp [this]
  have h2 : Complementary (scaledPbm p s.c s.sx s.sy) ((scaledPbm p s.c s.sx s.sy).A *ᵥ x) y ↔
      Complementary p (p.A *ᵥ s.unX x) (s.unY y) := by
    unfold Complementary
    refine forall_congr' fun i => ?_
    rw [scaled_A]
    simp only [scaledPbm]
    rw [fin_scale (hs.2.2 i), fin_scale (hs.2.2 i)]
    have e : s.unY y i = (s.sy i / s.c) * y i := by simp only [Scaling.unY]; ring
    have hp : 0 < s.sy i / s.c := div_pos (hs.2.2 i) hs.1
    rw [e, mul_pos_iff_of_pos_left hp]
    have : s.sy i / s.c * y i < 0 ↔ y i < 0 := by
      constructor
      · intro h; exact neg_of_mul_neg_right h hp.le
      · intro h; exact mul_neg_of_pos_of_neg hp h
    rw [this]
  rw [h1, h2]

theorem unscale_bijective (hs : s.Pos) : Function.Bijective s.unX ∧ Function.Bijective (s.unY : (Fin m → F) → _) := by
  refine ⟨⟨fun a b h => ?_, fun b => ⟨fun j => (s.sx j)⁻¹ * b j, ?_⟩⟩, ⟨fun a b h => ?_, fun b => ⟨fun i => s.c * ((s.sy i)⁻¹ * b i), ?_⟩⟩⟩
  · funext j
    exact mul_left_cancel₀ (hs.2.1 j).ne' (congrFun h j)
  · funext j
    simp only [Scaling.unX]
    rw [← mul_assoc, mul_inv_cancel₀ (hs.2.1 j).ne', one_mul]
  · funext i
    have := congrFun h i
    simp only [Scaling.unY] at this
    have h1 := (div_left_inj' hs.1.ne').1 this
    exact mul_left_cancel₀ (hs.2.2 i).ne' h1
  · funext i
    have h1 := hs.1.ne'
    have h2 := (hs.2.2 i).ne'
    simp only [Scaling.unY]
    field_simp

theorem scale_eq_scaleBound (c : F) (b : Ext F) : b.scale c = (scaleBound c b).scale 1 := by
  cases b <;> simp [Ext.scale, scaleBound]

theorem scaled_rho (prm : Params F) (hs : s.Pos) : rhoVec prm p s = rhoVec prm (scaledPbm p s.c s.sx s.sy) Scaling.unit := by
  funext i
  simp only [rhoVec, scaledPbm, Scaling.unit]
  cases p.l i <;> cases p.u i <;> simp only [scaleBound, rhoOf]
  rw [← mul_sub, abs_mul, abs_of_pos (hs.2.2 i), one_mul]

theorem scaled_iteration (prm : Params F) (hs : s.Pos) (slv : (Fin n ⊕ Fin m → F) → (Fin n ⊕ Fin m → F)) (it : It F n m) :
    rhoVec prm p s = rhoVec prm (scaledPbm p s.c s.sx s.sy) Scaling.unit ∧
    kkt prm.sigma p s (rhoVec prm p s) =
      kkt prm.sigma (scaledPbm p s.c s.sx s.sy) Scaling.unit (rhoVec prm (scaledPbm p s.c s.sx s.sy) Scaling.unit) ∧
    step prm.alpha prm.sigma p s (rhoVec prm p s) slv it =
      step prm.alpha prm.sigma (scaledPbm p s.c s.sx s.sy) Scaling.unit
        (rhoVec prm (scaledPbm p s.c s.sx s.sy) Scaling.unit) slv it := by
  rw [← scaled_rho prm hs]
  refine ⟨rfl, ?_, ?_⟩
  · funext a b
    match a, b with
    | .inl i, .inl j => simp only [kkt, scaledPbm, Scaling.unit]; ring
    | .inl i, .inr j => simp only [kkt, scaledPbm, Scaling.unit]; ring
    | .inr i, .inl j => rfl
    | .inr i, .inr j => rfl
  · have hq : (fun j => prm.sigma * it.x j - s.c * s.sx j * p.q j) =
        fun j => prm.sigma * it.x j - (Scaling.unit : Scaling F n m).c * (Scaling.unit : Scaling F n m).sx j *
          (scaledPbm p s.c s.sx s.sy).q j := by
      funext j; simp only [scaledPbm, Scaling.unit]; ring
    unfold step
    rw [hq]
    simp only [scaledPbm, Scaling.unit, ← scale_eq_scaleBound]

end Verif.QP
