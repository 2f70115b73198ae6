import Verif.Spec.Linear
import Mathlib.LinearAlgebra.Matrix.NonsingularInverse
import Mathlib.LinearAlgebra.Matrix.ToLinearEquiv
import Mathlib.Tactic.Linarith

/-! # Lemmas on definite matrices -/

set_option linter.unusedSectionVars false

namespace Verif.Lin

open Matrix

variable {F : Type*} [Field F] [LinearOrder F] [IsStrictOrderedRing F]

theorem PD.psd {ι : Type*} [Fintype ι] {M : Matrix ι ι F} (h : PD M) : PSD M :=
  ⟨h.1, fun v => by
    by_cases hv : v = 0
    · simp [hv]
    · exact (h.2 v hv).le⟩

theorem PD.isUnit_det {ι : Type*} [Fintype ι] [DecidableEq ι] {M : Matrix ι ι F} (h : PD M) : IsUnit M.det := by
  rw [isUnit_iff_ne_zero]
  intro hd
  obtain ⟨v, hv, hMv⟩ := Matrix.exists_mulVec_eq_zero_iff.2 hd
  have := h.2 v hv
  rw [hMv] at this
  simp at this

theorem quad_congr {ι κ : Type*} [Fintype ι] [Fintype κ] (M : Matrix ι ι F) (B : Matrix κ ι F) (v : κ → F) :
    v ⬝ᵥ (B * M * Bᵀ) *ᵥ v = (Bᵀ *ᵥ v) ⬝ᵥ M *ᵥ (Bᵀ *ᵥ v) := by
  rw [← Matrix.mulVec_mulVec, ← Matrix.mulVec_mulVec, Matrix.dotProduct_mulVec, ← Matrix.mulVec_transpose]

theorem PSD.congr {ι κ : Type*} [Fintype ι] [Fintype κ] {M : Matrix ι ι F} (h : PSD M) (B : Matrix κ ι F) :
    PSD (B * M * Bᵀ) := by
  constructor
  · unfold Matrix.IsSymm
    rw [Matrix.transpose_mul, Matrix.transpose_mul, Matrix.transpose_transpose, h.1.eq, Matrix.mul_assoc]
  · intro v
    rw [quad_congr]
    exact h.2 _

theorem PSD.add {ι : Type*} [Fintype ι] {A B : Matrix ι ι F} (ha : PSD A) (hb : PSD B) : PSD (A + B) :=
  ⟨by unfold Matrix.IsSymm; rw [Matrix.transpose_add, ha.1.eq, hb.1.eq],
   fun v => by rw [Matrix.add_mulVec, dotProduct_add]; exact add_nonneg (ha.2 v) (hb.2 v)⟩

theorem PSD.add_PD {ι : Type*} [Fintype ι] {A B : Matrix ι ι F} (ha : PSD A) (hb : PD B) : PD (A + B) :=
  ⟨by unfold Matrix.IsSymm; rw [Matrix.transpose_add, ha.1.eq, hb.1.eq],
   fun v hv => by rw [Matrix.add_mulVec, dotProduct_add]; exact add_pos_of_nonneg_of_pos (ha.2 v) (hb.2 v hv)⟩

theorem isSymm_inv {ι : Type*} [Fintype ι] [DecidableEq ι] {S : Matrix ι ι F} (hs : S.IsSymm) : (S⁻¹).IsSymm := by
  unfold Matrix.IsSymm
  rw [Matrix.transpose_nonsing_inv, hs.eq]

end Verif.Lin
