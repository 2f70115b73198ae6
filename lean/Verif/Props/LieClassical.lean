import Verif.Props.LieLinear
import Mathlib.Analysis.Matrix.Normed
import Mathlib.Analysis.Normed.Algebra.MatrixExponential
import Mathlib.Data.Matrix.Block
import Mathlib.LinearAlgebra.Matrix.Determinant.Basic
import Mathlib.Tactic.FinCases
import Mathlib.Topology.Instances.Matrix

/-!
# The groups of the smooth library

Rotations `SO(m)`, rigid motions `SE(m)`, translations, and products ("bundles") of such groups satisfy `IsLie`.
-/

namespace Verif.Lie

open scoped Matrix Topology Matrix.Norms.Operator
open Filter

set_option linter.unusedSectionVars false

variable {m n k : ℕ}

/-! ### Rotations -/

/-- The orthogonal matrices with determinant 1. -/
noncomputable def SO (m : ℕ) : Subgroup (Matrix (Fin m) (Fin m) ℝ)ˣ :=
  unitaryUnits (Matrix (Fin m) (Fin m) ℝ) ⊓ (Units.map (Matrix.detMonoidHom : Matrix (Fin m) (Fin m) ℝ →* ℝ)).ker

theorem isLin_SO : IsLin (SO m) (skew (Matrix (Fin m) (Fin m) ℝ)) := by
  have hu := isLin_unitary (𝔸 := Matrix (Fin m) (Fin m) ℝ)
  refine hu.mono inf_le_left fun A hA => ⟨hu.exp_mem A hA, ?_⟩
  refine MonoidHom.mem_ker.2 (Units.ext ?_)
  change (NormedSpace.exp A).det = 1
  have hA2 : (2⁻¹ : ℝ) • A ∈ skew (Matrix (Fin m) (Fin m) ℝ) := Submodule.smul_mem _ _ hA
  have h2 : star (NormedSpace.exp ((2⁻¹ : ℝ) • A)) * NormedSpace.exp ((2⁻¹ : ℝ) • A) = 1 := hu.exp_mem _ hA2
  have h3 : (NormedSpace.exp ((2⁻¹ : ℝ) • A)).det * (NormedSpace.exp ((2⁻¹ : ℝ) • A)).det = 1 := by
    have := congrArg Matrix.det h2
    rw [Matrix.det_mul, Matrix.star_eq_conjTranspose, Matrix.det_conjTranspose, star_trivial, Matrix.det_one] at this
    exact this
  have e : NormedSpace.exp A = NormedSpace.exp ((2⁻¹ : ℝ) • A) * NormedSpace.exp ((2⁻¹ : ℝ) • A) := by
    rw [← Matrix.exp_add_of_commute _ _ (Commute.refl _), ← add_smul]
    norm_num
  rw [e, Matrix.det_mul, h3]

/-- `hat` of `SO(2)`. -/
noncomputable def so2Hat : (Fin 1 → ℝ) →ₗ[ℝ] Matrix (Fin 2) (Fin 2) ℝ where
  toFun w := !![0, -w 0; w 0, 0]
  map_add' a b := by
    ext i j
    fin_cases i <;> fin_cases j <;> simp [add_comm]
  map_smul' c a := by
    ext i j
    fin_cases i <;> fin_cases j <;> simp

/-- `hat` of `SO(3)`. -/
noncomputable def so3Hat : (Fin 3 → ℝ) →ₗ[ℝ] Matrix (Fin 3) (Fin 3) ℝ where
  toFun w := !![0, -w 2, w 1; w 2, 0, -w 0; -w 1, w 0, 0]
  map_add' a b := by
    ext i j
    fin_cases i <;> fin_cases j <;> simp [add_comm]
  map_smul' c a := by
    ext i j
    fin_cases i <;> fin_cases j <;> simp

theorem mem_skew {A : Matrix (Fin m) (Fin m) ℝ} : A ∈ skew (Matrix (Fin m) (Fin m) ℝ) ↔ ∀ i j, A j i = -A i j := by
  constructor
  · intro h i j
    have := congrFun (congrFun (h : star A = -A) i) j
    simpa [Matrix.star_apply] using this
  · intro h
    change star A = -A
    ext i j
    simpa [Matrix.star_apply] using h i j

theorem so2Hat_inj : Function.Injective so2Hat := by
  intro a b h
  funext i
  have := congrFun (congrFun h 1) 0
  fin_cases i
  simpa [so2Hat] using this

theorem so2Hat_range : LinearMap.range so2Hat = skew (Matrix (Fin 2) (Fin 2) ℝ) := by
  ext A
  rw [mem_skew]
  constructor
  · rintro ⟨w, rfl⟩ i j
    fin_cases i <;> fin_cases j <;> simp [so2Hat]
  · intro h
    refine ⟨![A 1 0], ?_⟩
    ext i j
    have h00 := h 0 0
    have h11 := h 1 1
    have h01 := h 0 1
    fin_cases i <;> fin_cases j <;> simp [so2Hat] <;> linarith

theorem so3Hat_inj : Function.Injective so3Hat := by
  intro a b h
  funext i
  have h0 := congrFun (congrFun h 2) 1
  have h1 := congrFun (congrFun h 0) 2
  have h2 := congrFun (congrFun h 1) 0
  fin_cases i
  · simpa [so3Hat] using h0
  · simpa [so3Hat] using h1
  · simpa [so3Hat] using h2

theorem so3Hat_range : LinearMap.range so3Hat = skew (Matrix (Fin 3) (Fin 3) ℝ) := by
  ext A
  rw [mem_skew]
  constructor
  · rintro ⟨w, rfl⟩ i j
    fin_cases i <;> fin_cases j <;> simp [so3Hat]
  · intro h
    refine ⟨![A 2 1, A 0 2, A 1 0], ?_⟩
    ext i j
    have h00 := h 0 0
    have h11 := h 1 1
    have h22 := h 2 2
    have h01 := h 0 1
    have h02 := h 0 2
    have h12 := h 1 2
    fin_cases i <;> fin_cases j <;> simp [so3Hat] <;> linarith

theorem isLin_SO2 : IsLin (SO 2) (LinearMap.range so2Hat) := so2Hat_range ▸ isLin_SO

theorem isLin_SO3 : IsLin (SO 3) (LinearMap.range so3Hat) := so3Hat_range ▸ isLin_SO

theorem so2_isLie : IsLie (lin (SO 2) so2Hat so2Hat_inj isLin_SO2) (fun x : SO 2 => ((x : (Matrix (Fin 2) (Fin 2) ℝ)ˣ) : Matrix (Fin 2) (Fin 2) ℝ)) so2Hat :=
  lin_isLie _ _ _ _

theorem so3_isLie : IsLie (lin (SO 3) so3Hat so3Hat_inj isLin_SO3) (fun x : SO 3 => ((x : (Matrix (Fin 3) (Fin 3) ℝ)ˣ) : Matrix (Fin 3) (Fin 3) ℝ)) so3Hat :=
  lin_isLie _ _ _ _

/-! ### Affine maps -/

/-- The matrices `[[M, v], [0, c]]`. -/
def affine (m : ℕ) : Subalgebra ℝ (Matrix (Fin m ⊕ Unit) (Fin m ⊕ Unit) ℝ) where
  carrier := {A | ∀ j, A (.inr ()) (.inl j) = 0}
  mul_mem' {A B} hA hB j := by
    have hA' : ∀ j, A (.inr ()) (.inl j) = 0 := hA
    have hB' : ∀ j, B (.inr ()) (.inl j) = 0 := hB
    rw [Matrix.mul_apply, Fintype.sum_sum_type]
    simp [hA', hB' j]
  add_mem' {A B} hA hB j := by
    rw [Matrix.add_apply, hA j, hB j, add_zero]
  algebraMap_mem' r j := by
    rw [Matrix.algebraMap_matrix_apply]
    simp

/-- The linear part. -/
def linPart (m : ℕ) : affine m →ₐ[ℝ] Matrix (Fin m) (Fin m) ℝ where
  toFun A := (A : Matrix (Fin m ⊕ Unit) (Fin m ⊕ Unit) ℝ).toBlocks₁₁
  map_one' := by
    ext i j
    simp [Matrix.toBlocks₁₁, Matrix.one_apply]
  map_mul' A B := by
    ext i j
    have := B.2 j
    simp [Matrix.toBlocks₁₁, Matrix.mul_apply, Fintype.sum_sum_type, this]
  map_zero' := by
    ext i j
    simp [Matrix.toBlocks₁₁]
  map_add' A B := by
    ext i j
    simp [Matrix.toBlocks₁₁]
  commutes' r := by
    ext i j
    simp [Matrix.toBlocks₁₁, Matrix.algebraMap_matrix_apply]

/-- The scale. -/
def scalePart (m : ℕ) : affine m →ₐ[ℝ] ℝ where
  toFun A := (A : Matrix (Fin m ⊕ Unit) (Fin m ⊕ Unit) ℝ) (.inr ()) (.inr ())
  map_one' := by simp
  map_mul' A B := by
    have : ∀ j, (A : Matrix (Fin m ⊕ Unit) (Fin m ⊕ Unit) ℝ) (.inr ()) (.inl j) = 0 := A.2
    simp [Matrix.mul_apply, Fintype.sum_sum_type, this]
  map_zero' := by simp
  map_add' A B := by simp
  commutes' r := by simp [Matrix.algebraMap_matrix_apply]

/-- The affine maps `x ↦ g x + v` with `g` in the group `G`. -/
noncomputable def semi (G : Subgroup (Matrix (Fin m) (Fin m) ℝ)ˣ) : Subgroup (affine m)ˣ :=
  G.comap (Units.map (linPart m : affine m →* Matrix (Fin m) (Fin m) ℝ)) ⊓ (⊥ : Subgroup ℝˣ).comap (Units.map (scalePart m : affine m →* ℝ))

/-- The tangent space of `semi`, from that of `G`. -/
noncomputable def semiTangent (𝔤 : Submodule ℝ (Matrix (Fin m) (Fin m) ℝ)) : Submodule ℝ (affine m) :=
  𝔤.comap (linPart m : affine m →ₗ[ℝ] Matrix (Fin m) (Fin m) ℝ) ⊓ (⊥ : Submodule ℝ ℝ).comap (scalePart m : affine m →ₗ[ℝ] ℝ)

theorem IsLin.semi {G : Subgroup (Matrix (Fin m) (Fin m) ℝ)ˣ} {𝔤 : Submodule ℝ (Matrix (Fin m) (Fin m) ℝ)} (h : IsLin G 𝔤) :
    IsLin (semi G) (semiTangent 𝔤) :=
  (h.comap (linPart m)).inf (isLin_bot.comap (scalePart m))

/-- The matrix `[[hat w, v], [0, 0]]` for `a = (v, w)`. -/
def semiMat (hat : (Fin n → ℝ) →ₗ[ℝ] Matrix (Fin m) (Fin m) ℝ) (a : Fin (m + n) → ℝ) : Matrix (Fin m ⊕ Unit) (Fin m ⊕ Unit) ℝ :=
  Matrix.fromBlocks (hat fun i => a (Fin.natAdd m i)) (Matrix.of fun i _ => a (Fin.castAdd n i)) 0 0

/-- `hat` of `semi`: the translation part comes first, as in the smooth library. -/
noncomputable def semiHat (hat : (Fin n → ℝ) →ₗ[ℝ] Matrix (Fin m) (Fin m) ℝ) : (Fin (m + n) → ℝ) →ₗ[ℝ] affine m where
  toFun a := ⟨semiMat hat a, fun j => by simp [semiMat]⟩
  map_add' a b := by
    apply Subtype.ext
    have : (fun i => (a + b) (Fin.natAdd m i)) = (fun i => a (Fin.natAdd m i)) + fun i => b (Fin.natAdd m i) := rfl
    change semiMat hat (a + b) = semiMat hat a + semiMat hat b
    unfold semiMat
    rw [this, map_add, Matrix.fromBlocks_add, add_zero, add_zero]
    rfl
  map_smul' c a := by
    apply Subtype.ext
    have : (fun i => (c • a) (Fin.natAdd m i)) = c • (fun i => a (Fin.natAdd m i)) := rfl
    change semiMat hat (c • a) = c • semiMat hat a
    unfold semiMat
    rw [this, map_smul, Matrix.fromBlocks_smul, smul_zero, smul_zero]
    rfl

theorem semiHat_inj {hat : (Fin n → ℝ) →ₗ[ℝ] Matrix (Fin m) (Fin m) ℝ} (hi : Function.Injective hat) : Function.Injective (semiHat hat) := by
  intro a b h
  have h' : semiMat hat a = semiMat hat b := congrArg Subtype.val h
  unfold semiMat at h'
  rw [Matrix.fromBlocks_inj] at h'
  funext i
  refine Fin.addCases (fun i => ?_) (fun i => ?_) i
  · exact congrFun (congrFun h'.2.1 i) ()
  · exact congrFun (hi h'.1) i

theorem semiHat_range (hat : (Fin n → ℝ) →ₗ[ℝ] Matrix (Fin m) (Fin m) ℝ) : LinearMap.range (semiHat hat) = semiTangent (LinearMap.range hat) := by
  ext A
  constructor
  · rintro ⟨a, rfl⟩
    refine ⟨⟨fun i => a (Fin.natAdd m i), ?_⟩, ?_⟩
    · change hat _ = (semiMat hat a).toBlocks₁₁
      unfold semiMat
      rw [Matrix.toBlocks_fromBlocks₁₁]
    · exact (Submodule.mem_bot ℝ).2 rfl
  · rintro ⟨⟨w, hw⟩, h0⟩
    have h0' : (A : Matrix (Fin m ⊕ Unit) (Fin m ⊕ Unit) ℝ) (.inr ()) (.inr ()) = 0 := (Submodule.mem_bot ℝ).1 h0
    refine ⟨Fin.addCases (fun i => (A : Matrix (Fin m ⊕ Unit) (Fin m ⊕ Unit) ℝ) (.inl i) (.inr ())) w, ?_⟩
    apply Subtype.ext
    change semiMat hat _ = _
    ext i j
    rcases i with i | ⟨⟩ <;> rcases j with j | ⟨⟩
    · have := congrFun (congrFun hw i) j
      simp only [semiMat, Matrix.fromBlocks_apply₁₁, Fin.addCases_right]
      exact this
    · simp [semiMat]
    · simpa [semiMat] using (A.2 j).symm
    · simpa [semiMat] using h0'.symm

theorem isLin_semi {G : Subgroup (Matrix (Fin m) (Fin m) ℝ)ˣ} {hat : (Fin n → ℝ) →ₗ[ℝ] Matrix (Fin m) (Fin m) ℝ} (h : IsLin G (LinearMap.range hat)) :
    IsLin (semi G) (LinearMap.range (semiHat hat)) := by
  rw [semiHat_range]
  exact h.semi

/-- Rigid motions of the plane. -/
theorem se2_isLie : IsLie (lin (semi (SO 2)) (semiHat so2Hat) (semiHat_inj so2Hat_inj) (isLin_semi isLin_SO2))
    (fun x : semi (SO 2) => ((x : (affine 2)ˣ) : affine 2)) (semiHat so2Hat) :=
  lin_isLie _ _ _ _

/-- Rigid motions of space. -/
theorem se3_isLie : IsLie (lin (semi (SO 3)) (semiHat so3Hat) (semiHat_inj so3Hat_inj) (isLin_semi isLin_SO3))
    (fun x : semi (SO 3) => ((x : (affine 3)ˣ) : affine 3)) (semiHat so3Hat) :=
  lin_isLie _ _ _ _

/-- Translations: the linear part is the identity. -/
noncomputable def noHat (m : ℕ) : (Fin 0 → ℝ) →ₗ[ℝ] Matrix (Fin m) (Fin m) ℝ := 0

theorem noHat_inj : Function.Injective (noHat m) := fun _ _ _ => Subsingleton.elim _ _

theorem isLin_no : IsLin (⊥ : Subgroup (Matrix (Fin m) (Fin m) ℝ)ˣ) (LinearMap.range (noHat m)) := by
  have : LinearMap.range (noHat m) = ⊥ := LinearMap.range_zero
  rw [this]
  exact isLin_bot

/-! ### Products -/

variable {𝔸 𝔹 : Type*} [NormedRing 𝔸] [NormedAlgebra ℝ 𝔸] [FiniteDimensional ℝ 𝔸] [CompleteSpace 𝔸]
  [NormedRing 𝔹] [NormedAlgebra ℝ 𝔹] [FiniteDimensional ℝ 𝔹] [CompleteSpace 𝔹]

/-- The pairs. -/
def bundle (G : Subgroup 𝔸ˣ) (H : Subgroup 𝔹ˣ) : Subgroup (𝔸 × 𝔹)ˣ :=
  G.comap (Units.map (AlgHom.fst ℝ 𝔸 𝔹 : 𝔸 × 𝔹 →* 𝔸)) ⊓ H.comap (Units.map (AlgHom.snd ℝ 𝔸 𝔹 : 𝔸 × 𝔹 →* 𝔹))

/-- The tangent vectors one after the other. -/
noncomputable def bundleHat (h₁ : (Fin n → ℝ) →ₗ[ℝ] 𝔸) (h₂ : (Fin k → ℝ) →ₗ[ℝ] 𝔹) : (Fin (n + k) → ℝ) →ₗ[ℝ] 𝔸 × 𝔹 where
  toFun a := (h₁ fun i => a (Fin.castAdd k i), h₂ fun i => a (Fin.natAdd n i))
  map_add' a b := by
    apply Prod.ext
    · exact map_add h₁ _ _
    · exact map_add h₂ _ _
  map_smul' c a := by
    apply Prod.ext
    · exact map_smul h₁ c _
    · exact map_smul h₂ c _

theorem bundleHat_inj {h₁ : (Fin n → ℝ) →ₗ[ℝ] 𝔸} {h₂ : (Fin k → ℝ) →ₗ[ℝ] 𝔹} (i₁ : Function.Injective h₁) (i₂ : Function.Injective h₂) :
    Function.Injective (bundleHat h₁ h₂) := by
  intro a b h
  have e₁ := i₁ (congrArg Prod.fst h)
  have e₂ := i₂ (congrArg Prod.snd h)
  funext i
  refine Fin.addCases (fun i => ?_) (fun i => ?_) i
  · exact congrFun e₁ i
  · exact congrFun e₂ i

theorem isLin_bundle {G : Subgroup 𝔸ˣ} {H : Subgroup 𝔹ˣ} {h₁ : (Fin n → ℝ) →ₗ[ℝ] 𝔸} {h₂ : (Fin k → ℝ) →ₗ[ℝ] 𝔹} (l₁ : IsLin G (LinearMap.range h₁))
    (l₂ : IsLin H (LinearMap.range h₂)) : IsLin (bundle G H) (LinearMap.range (bundleHat h₁ h₂)) := by
  have := (l₁.comap (AlgHom.fst ℝ 𝔸 𝔹)).inf (l₂.comap (AlgHom.snd ℝ 𝔸 𝔹))
  have e : LinearMap.range (bundleHat h₁ h₂) = (LinearMap.range h₁).comap (AlgHom.fst ℝ 𝔸 𝔹 : 𝔸 × 𝔹 →ₗ[ℝ] 𝔸) ⊓
      (LinearMap.range h₂).comap (AlgHom.snd ℝ 𝔸 𝔹 : 𝔸 × 𝔹 →ₗ[ℝ] 𝔹) := by
    ext ⟨A, B⟩
    constructor
    · rintro ⟨a, ha⟩
      exact ⟨⟨_, congrArg Prod.fst ha⟩, ⟨_, congrArg Prod.snd ha⟩⟩
    · rintro ⟨⟨a, ha⟩, ⟨b, hb⟩⟩
      refine ⟨Fin.addCases a b, ?_⟩
      apply Prod.ext
      · simpa [bundleHat] using ha
      · simpa [bundleHat] using hb
  rw [e]
  exact this

/-- The translations of the plane. -/
noncomputable def T2 : Subgroup (affine 2)ˣ := semi ⊥

theorem isLin_T2 : IsLin T2 (LinearMap.range (semiHat (noHat 2))) := isLin_semi isLin_no

/-- The state of the example `ocp_se2.hpp` of the repository: a pose of the plane, a forward speed and a rate of turn. -/
noncomputable def PoseVelocity : Subgroup (affine 2 × affine 2)ˣ := bundle (semi (SO 2)) T2

/-- Five coordinates of the tangent space: those of the pose, then those of the velocity. -/
noncomputable def pvHat : (Fin (2 + 1 + (2 + 0)) → ℝ) →ₗ[ℝ] affine 2 × affine 2 := bundleHat (semiHat so2Hat) (semiHat (noHat 2))

theorem pvHat_inj : Function.Injective pvHat := bundleHat_inj (semiHat_inj so2Hat_inj) (semiHat_inj noHat_inj)

theorem isLin_pv : IsLin PoseVelocity (LinearMap.range pvHat) := isLin_bundle (isLin_semi isLin_SO2) isLin_T2

theorem pose_velocity_isLie : IsLie (lin PoseVelocity pvHat pvHat_inj isLin_pv)
    (fun x : PoseVelocity => ((x : (affine 2 × affine 2)ˣ) : affine 2 × affine 2)) pvHat :=
  lin_isLie PoseVelocity pvHat pvHat_inj isLin_pv

end Verif.Lie
