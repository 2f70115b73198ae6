import Verif.Proofs.FlattenChain
import Verif.Proofs.Lie
import Verif.Model.Flatten
import Mathlib.Analysis.Calculus.ContDiff.Operations

/-! # Derivatives of the adjoint and of `dr_exp` -/

set_option linter.unusedSectionVars false

namespace Verif.Flatten

open Verif.Lie

open scoped Topology Matrix
open Filter

variable {X 𝔸 : Type*} {n : ℕ} [NormedRing 𝔸] [NormedAlgebra ℝ 𝔸] [FiniteDimensional ℝ 𝔸] [CompleteSpace 𝔸] {L : LieOps X ℝ n} {mat : X → 𝔸}
  {hat : (Fin n → ℝ) →ₗ[ℝ] 𝔸}

/-- `dr_exp(e) = Ad(exp(-e)) dr_exp(-e)`. -/
theorem drExp_neg (h : IsLie L mat hat) (e b : Fin n → ℝ) : L.drExp e *ᵥ b = L.Ad (L.exp (-e)) *ᵥ (L.drExp (-e) *ᵥ b) := by
  obtain ⟨D, hD, hDb⟩ := h.drExp e
  obtain ⟨D', hD', hDb'⟩ := h.drExp (-e)
  have h1 : HasFDerivAt (fun a : Fin n → ℝ => NormedSpace.exp (hat (-a))) (D'.comp (-ContinuousLinearMap.id ℝ (Fin n → ℝ))) e :=
    HasFDerivAt.comp e hD' (hasFDerivAt_id e).neg
  have h2 := hD.mul' h1
  have h3 : HasFDerivAt (fun a : Fin n → ℝ => NormedSpace.exp (hat a) * NormedSpace.exp (hat (-a))) (0 : (Fin n → ℝ) →L[ℝ] 𝔸) e := by
    have e1 : (fun a : Fin n → ℝ => NormedSpace.exp (hat a) * NormedSpace.exp (hat (-a))) = fun _ => 1 := by
      funext a
      rw [map_neg, exp_mul_neg]
    rw [e1]
    exact hasFDerivAt_const _ _
  have h4 := DFunLike.congr_fun (h2.unique h3) b
  simp only [ContinuousLinearMap.add_apply, ContinuousLinearMap.smul_apply, ContinuousLinearMap.comp_apply, ContinuousLinearMap.neg_apply,
    ContinuousLinearMap.id_apply, smul_eq_mul, MulOpposite.smul_eq_mul_unop, MulOpposite.unop_op, ContinuousLinearMap.zero_apply, hDb, hDb',
    map_neg, Matrix.mulVec_neg] at h4
  apply h.hat_inj
  rw [h.hat_Ad_exp]
  have h5 : NormedSpace.exp (hat e) * hat (L.drExp e *ᵥ b) * NormedSpace.exp (-hat e) = hat (L.drExp (-e) *ᵥ b) := by
    have : NormedSpace.exp (hat e) * (NormedSpace.exp (-hat e) * -hat (L.drExp (-e) *ᵥ b)) = -hat (L.drExp (-e) *ᵥ b) := by
      rw [← mul_assoc, exp_mul_neg, one_mul]
    rw [this] at h4
    exact (neg_add_eq_zero.1 h4).symm
  rw [← h5]
  simp only [mul_assoc]
  rw [exp_neg_mul, mul_one, ← mul_assoc, exp_neg_mul, one_mul]

/-- **`dAdexp` is the derivative of `Ad(exp(-e)) w`.** -/
theorem adVel_hasFDerivAt (h : IsLie L mat hat) (e w : Fin n → ℝ) :
    HasFDerivAt (fun e => adVel L e w) (Matrix.mulVecLin (dAdexp L e w)).toContinuousLinearMap e := by
  obtain ⟨V, hV⟩ := h.exists_vee
  obtain ⟨D, hD, hDb⟩ := h.drExp e
  obtain ⟨D', hD', hDb'⟩ := h.drExp (-e)
  have h1 : HasFDerivAt (fun a : Fin n → ℝ => NormedSpace.exp (hat (-a))) (D'.comp (-ContinuousLinearMap.id ℝ (Fin n → ℝ))) e :=
    HasFDerivAt.comp e hD' (hasFDerivAt_id e).neg
  have h2 := (h1.mul_const' (hat w)).mul' hD
  have h3 := V.hasFDerivAt.comp e h2
  have e1 : (V ∘ fun a => NormedSpace.exp (hat (-a)) * hat w * NormedSpace.exp (hat a)) = fun e => adVel L e w := by
    funext a
    change V (NormedSpace.exp (hat (-a)) * hat w * NormedSpace.exp (hat a)) = _
    rw [map_neg, ← h.hat_Ad_exp, hV]
    rfl
  have h4 := h3.congr_of_eventuallyEq (f₁ := fun e => adVel L e w) (Eventually.of_forall fun a => (congrFun e1 a).symm)
  refine h4.congr_fderiv ?_
  ext1 b
  simp only [ContinuousLinearMap.add_apply, ContinuousLinearMap.smul_apply, ContinuousLinearMap.comp_apply, ContinuousLinearMap.neg_apply,
    ContinuousLinearMap.id_apply, smul_eq_mul, MulOpposite.smul_eq_mul_unop, MulOpposite.unop_op, hDb, hDb', map_neg, Matrix.mulVec_neg]
  have h5 : hat (L.drExp e *ᵥ b) = NormedSpace.exp (-hat e) * hat (L.drExp (-e) *ᵥ b) * NormedSpace.exp (hat e) := by
    rw [drExp_neg h, h.hat_Ad_exp]
  have h6 : (Matrix.mulVecLin (dAdexp L e w)).toContinuousLinearMap b = L.ad (adVel L e w) *ᵥ (L.Ad (L.exp (-e)) *ᵥ (L.drExp (-e) *ᵥ b)) := by
    simp [dAdexp, Matrix.mulVec_mulVec, Matrix.mul_assoc]
  rw [h6, ← hV (L.ad (adVel L e w) *ᵥ _), h.ad, h5]
  congr 1
  unfold adVel
  rw [h.hat_Ad_exp, h.hat_Ad_exp]
  generalize hat (L.drExp (-e) *ᵥ b) = c
  have hE := exp_mul_neg (hat e)
  have hE' : ∀ z, NormedSpace.exp (hat e) * (NormedSpace.exp (-hat e) * z) = z := fun z => by rw [← mul_assoc, hE, one_mul]
  simp only [mul_assoc, neg_mul, mul_neg, hE']
  abel

/-! ### Smoothness -/

theorem exp_smooth : ContDiff ℝ ⊤ (NormedSpace.exp : 𝔸 → 𝔸) :=
  contDiff_iff_contDiffAt.2 fun x => (NormedSpace.exp_analytic (𝕂 := ℝ) x).contDiffAt

theorem hat_smooth : ContDiff ℝ ⊤ hat := (LinearMap.toContinuousLinearMap hat).contDiff

theorem Ad_smooth (h : IsLie L mat hat) (i j : Fin n) : ContDiff ℝ ⊤ fun e => L.Ad (L.exp (-e)) i j := by
  obtain ⟨V, hV⟩ := h.exists_vee
  have e : (fun e => L.Ad (L.exp (-e)) i j) = fun e => V (NormedSpace.exp (-hat e) * hat (Pi.single j 1) * NormedSpace.exp (hat e)) i := by
    funext e
    rw [← h.hat_Ad_exp, hV, Matrix.mulVec_single_one, Matrix.col_apply]
  rw [e]
  have h1 : ContDiff ℝ ⊤ fun e => NormedSpace.exp (hat e) := exp_smooth.comp hat_smooth
  have h2 : ContDiff ℝ ⊤ fun e => NormedSpace.exp (-hat e) := exp_smooth.comp hat_smooth.neg
  have h3 := V.contDiff.comp ((h2.mul (contDiff_const (c := hat (Pi.single j 1)))).mul h1)
  exact contDiff_pi.1 h3 i

theorem drExp_smooth (h : IsLie L mat hat) (i j : Fin n) : ContDiff ℝ ⊤ fun e => L.drExp e i j := by
  obtain ⟨V, hV⟩ := h.exists_vee
  have hd : ∀ e, HasFDerivAt (fun e => NormedSpace.exp (hat e)) ((fderiv ℝ NormedSpace.exp (hat e)).comp (LinearMap.toContinuousLinearMap hat)) e := fun e =>
    ((exp_smooth.differentiable (by simp) (hat e)).hasFDerivAt).comp e (LinearMap.toContinuousLinearMap hat).hasFDerivAt
  have e : (fun e => L.drExp e i j) = fun e => V (NormedSpace.exp (-hat e) * fderiv ℝ NormedSpace.exp (hat e) (hat (Pi.single j 1))) i := by
    funext e
    have := h.drExp_unique (hd e) (Pi.single j 1)
    change fderiv ℝ NormedSpace.exp (hat e) (hat (Pi.single j 1)) = _ at this
    rw [this, ← mul_assoc, exp_neg_mul, one_mul, hV, Matrix.mulVec_single_one, Matrix.col_apply]
  rw [e]
  have h2 : ContDiff ℝ ⊤ fun e => NormedSpace.exp (-hat e) := exp_smooth.comp hat_smooth.neg
  have h1 : ContDiff ℝ ⊤ fun e => fderiv ℝ NormedSpace.exp (hat e) (hat (Pi.single j 1)) :=
    (((exp_smooth (𝔸 := 𝔸)).fderiv_right (m := ⊤) (by simp)).comp hat_smooth).clm_apply contDiff_const
  exact contDiff_pi.1 (V.contDiff.comp (h2.mul h1)) i

theorem drExp_hasPd (h : IsLie L mat hat) (e : Fin n → ℝ) (k r : Fin n) : HasPd (fun e => L.drExp e k r) (fun c => L.d2rExp e k r c) e := h.d2rExp e k r

theorem d2rExp_continuous (h : IsLie L mat hat) (k r c : Fin n) : Continuous fun e => L.d2rExp e k r c := by
  have e : (fun e => L.d2rExp e k r c) = fun e => fderiv ℝ (fun e => L.drExp e k r) e (Pi.single c 1) := by
    funext e
    rw [← (drExp_hasPd h e k r).pd c]
    rfl
  rw [e]
  exact (((drExp_smooth h k r).fderiv_right (m := 0) (by simp)).clm_apply contDiff_const).continuous

theorem drExp_continuous (h : IsLie L mat hat) (k r : Fin n) : Continuous fun e => L.drExp e k r := (drExp_smooth h k r).continuous

theorem Ad_continuous (h : IsLie L mat hat) (k r : Fin n) : Continuous fun e => L.Ad (L.exp (-e)) k r := (Ad_smooth h k r).continuous

theorem adVel_apply (e w : Fin n → ℝ) (k : Fin n) : adVel L e w k = ∑ j, L.Ad (L.exp (-e)) k j * w j := rfl

theorem adVel_continuous (h : IsLie L mat hat) (k : Fin n) : Continuous fun p : (Fin n → ℝ) × (Fin n → ℝ) => adVel L p.1 p.2 k := by
  simp only [adVel_apply]
  refine continuous_finsetSum _ fun j _ => ?_
  exact ((Ad_continuous h k j).comp continuous_fst).mul ((continuous_apply j).comp continuous_snd)

theorem ad_apply (h : IsLie L mat hat) (a : Fin n → ℝ) (i j : Fin n) : L.ad a i j = ∑ k, a k * L.gen k i j := by
  rw [h.gen, Matrix.sum_apply]
  rfl

theorem dAdexp_continuous (h : IsLie L mat hat) (k c : Fin n) : Continuous fun p : (Fin n → ℝ) × (Fin n → ℝ) => dAdexp L p.1 p.2 k c := by
  simp only [dAdexp, Matrix.mul_apply]
  refine continuous_finsetSum _ fun j _ => Continuous.mul (continuous_finsetSum _ fun i _ => Continuous.mul ?_ ?_) ?_
  · simp only [ad_apply h]
    exact continuous_finsetSum _ fun l _ => (adVel_continuous h l).mul continuous_const
  · exact (Ad_continuous h i j).comp continuous_fst
  · exact (drExp_continuous h j c).comp continuous_fst.neg

theorem dAdexp_continuous' {Z : Type*} [TopologicalSpace Z] (h : IsLie L mat hat) {e w : Z → Fin n → ℝ} (he : Continuous e) (hw : Continuous w)
    (k c : Fin n) : Continuous fun z => dAdexp L (e z) (w z) k c :=
  Continuous.comp (g := fun p : (Fin n → ℝ) × (Fin n → ℝ) => dAdexp L p.1 p.2 k c) (f := fun z => (e z, w z)) (dAdexp_continuous h k c) (he.prodMk hw)

theorem adVel_continuous' {Z : Type*} [TopologicalSpace Z] (h : IsLie L mat hat) {e w : Z → Fin n → ℝ} (he : Continuous e) (hw : Continuous w)
    (k : Fin n) : Continuous fun z => adVel L (e z) (w z) k :=
  Continuous.comp (g := fun p : (Fin n → ℝ) × (Fin n → ℝ) => adVel L p.1 p.2 k) (f := fun z => (e z, w z)) (adVel_continuous h k) (he.prodMk hw)

/-- The derivatives of `Ad(exp(-e(z))) w(z)`. -/
theorem adVel_hasPd {ι : Type*} [Fintype ι] [DecidableEq ι] (h : IsLie L mat hat) {e w : (ι → ℝ) → Fin n → ℝ} {De Dw : Fin n → ι → ℝ} {z : ι → ℝ}
    (he : ∀ k, HasPd (fun z => e z k) (De k) z) (hw : ∀ k, HasPd (fun z => w z k) (Dw k) z) (k : Fin n) :
    HasPd (fun z => adVel L (e z) (w z) k) (fun a => (∑ c, dAdexp L (e z) (w z) k c * De c a) + adVel L (e z) (fun c => Dw c a) k) z := by
  have hAd : ∀ j, HasPd (fun e => L.Ad (L.exp (-e)) k j) (fun c => dAdexp L (e z) (Pi.single j 1) k c) (e z) := by
    intro j
    have := hasFDerivAt_pi'.1 (adVel_hasFDerivAt h (e z) (Pi.single j 1)) k
    refine ⟨_, this.congr_of_eventuallyEq (Eventually.of_forall fun e => ?_), fun c => ?_⟩
    · change _ = adVel L e (Pi.single j 1) k
      rw [adVel, Matrix.mulVec_single_one, Matrix.col_apply]
    · change (dAdexp L (e z) (Pi.single j 1) *ᵥ Pi.single c 1) k = _
      rw [Matrix.mulVec_single_one, Matrix.col_apply]
  have hs := HasPd.sum (s := Finset.univ) fun j _ => ((hAd j).comp he).mul (hw j)
  refine hs.of_eq fun a => ?_
  rw [Finset.sum_add_distrib]
  congr 1
  have hl : ∀ c, dAdexp L (e z) (w z) k c = ∑ j, dAdexp L (e z) (Pi.single j 1) k c * w z j := by
    intro c
    have h1 : ∀ w, dAdexp L (e z) w k c = ∑ i, L.ad (adVel L (e z) w) k i * (L.Ad (L.exp (-e z)) * L.drExp (-e z)) i c := by
      intro w
      rw [dAdexp, Matrix.mul_assoc, Matrix.mul_apply]
    have h2 : ∀ j, adVel L (e z) (Pi.single j 1) = fun i => L.Ad (L.exp (-e z)) i j := by
      intro j
      funext i
      rw [adVel, Matrix.mulVec_single_one, Matrix.col_apply]
    have h3 : ∀ i, L.ad (adVel L (e z) (w z)) k i = ∑ j, L.ad (adVel L (e z) (Pi.single j 1)) k i * w z j := by
      intro i
      simp only [h2, ad_apply h, adVel_apply, Finset.sum_mul]
      rw [Finset.sum_comm]
      exact Finset.sum_congr rfl fun a _ => Finset.sum_congr rfl fun b _ => by ring
    simp only [h1, h3, Finset.sum_mul]
    rw [Finset.sum_comm]
    exact Finset.sum_congr rfl fun a _ => Finset.sum_congr rfl fun b _ => by ring
  simp only [hl, Finset.sum_mul]
  rw [Finset.sum_comm]
  exact Finset.sum_congr rfl fun j _ => Finset.sum_congr rfl fun c _ => by ring

end Verif.Flatten
