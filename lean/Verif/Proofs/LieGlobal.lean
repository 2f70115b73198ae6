import Verif.Props.LieClassical
import Mathlib.Analysis.Calculus.MeanValue
import Mathlib.Analysis.SpecialFunctions.Trigonometric.Deriv
import Mathlib.Analysis.SpecialFunctions.Complex.Arg

/-!
# Differences between any two elements of a group

Where every element is the exponential of a tangent vector at which `dr_exp` is regular, `rminus` can be chosen for all pairs of elements. This is so for
rigid motions of the plane, for translations, and for products of such groups.
-/

namespace Verif.Lie

open scoped Matrix Topology Matrix.Norms.Operator
open Filter

set_option linter.unusedSectionVars false

variable {X 𝔸 𝔹 : Type*} {m n k : ℕ} [NormedRing 𝔸] [NormedAlgebra ℝ 𝔸] [FiniteDimensional ℝ 𝔸] [CompleteSpace 𝔸]
  [NormedRing 𝔹] [NormedAlgebra ℝ 𝔹] [FiniteDimensional ℝ 𝔹] [CompleteSpace 𝔹]

/-- What commutes with the exponential commutes with its argument. -/
def Faithful (hat : (Fin n → ℝ) →ₗ[ℝ] 𝔸) (a : Fin n → ℝ) : Prop := ∀ b, Commute (NormedSpace.exp (hat a)) (hat b) → Commute (hat a) (hat b)

/-- Every element of the group is the exponential of such a vector. -/
def Covered (G : Subgroup 𝔸ˣ) (hat : (Fin n → ℝ) →ₗ[ℝ] 𝔸) : Prop := ∀ g ∈ G, ∃ a, (g : 𝔸) = NormedSpace.exp (hat a) ∧ Faithful hat a

theorem exp_hasFDeriv (A : 𝔸) : HasFDerivAt (NormedSpace.exp : 𝔸 → 𝔸) (fderiv ℝ NormedSpace.exp A) A := (exp_contDiff.differentiable (by simp) _).hasFDerivAt

theorem line_deriv (A B : 𝔸) : HasDerivAt (fun t : ℝ => A + t • B) B 0 := by
  have := ((hasDerivAt_id (0 : ℝ)).smul_const B).const_add A
  rw [one_smul] at this
  exact this

theorem exp_dir (A B : 𝔸) : HasDerivAt (fun t : ℝ => NormedSpace.exp (A + t • B)) (fderiv ℝ NormedSpace.exp A B) 0 := by
  have h1 : HasFDerivAt (NormedSpace.exp : 𝔸 → 𝔸) (fderiv ℝ NormedSpace.exp A) (A + (0 : ℝ) • B) := by
    rw [zero_smul, add_zero]
    exact exp_hasFDeriv A
  exact h1.comp_hasDerivAt 0 (line_deriv A B)

theorem drExp_dir {L : LieOps X ℝ n} {mat : X → 𝔸} {hat : (Fin n → ℝ) →ₗ[ℝ] 𝔸} (h : IsLie L mat hat) (a b : Fin n → ℝ) :
    fderiv ℝ NormedSpace.exp (hat a) (hat b) = NormedSpace.exp (hat a) * hat (L.drExp a *ᵥ b) := by
  obtain ⟨D, h1, h2⟩ := h.drExp a
  have h3 := (exp_hasFDeriv (hat a)).comp a (LinearMap.toContinuousLinearMap hat).hasFDerivAt
  have := congrArg (fun D : (Fin n → ℝ) →L[ℝ] 𝔸 => D b) (h3.unique h1)
  rw [← h2 b]
  exact this

/-- `dr_exp` in a direction that commutes. -/
theorem drExp_commute {L : LieOps X ℝ n} {mat : X → 𝔸} {hat : (Fin n → ℝ) →ₗ[ℝ] 𝔸} (h : IsLie L mat hat) {a b : Fin n → ℝ} (hc : Commute (hat a) (hat b)) :
    L.drExp a *ᵥ b = b := by
  have h1 := exp_dir (hat a) (hat b)
  have h2 : HasDerivAt (fun t : ℝ => NormedSpace.exp (hat a + t • hat b)) (NormedSpace.exp (hat a) * hat b) 0 := by
    refine ((exp_line (hat b)).const_mul (NormedSpace.exp (hat a))).congr_of_eventuallyEq (Eventually.of_forall fun t => ?_)
    letI : NormedAlgebra ℚ 𝔸 := NormedAlgebra.restrictScalars ℚ ℝ 𝔸
    exact NormedSpace.exp_add_of_commute (hc.smul_right t)
  have h3 := h1.unique h2
  rw [drExp_dir h] at h3
  exact h.hat_inj (by
    have := congrArg (NormedSpace.exp (-hat a) * ·) h3
    simpa only [← mul_assoc, exp_neg_mul, one_mul] using this)

/-- `dr_exp` is regular at such vectors. -/
theorem isUnit_drExp {L : LieOps X ℝ n} {mat : X → 𝔸} {hat : (Fin n → ℝ) →ₗ[ℝ] 𝔸} (h : IsLie L mat hat) {a : Fin n → ℝ} (ha : Faithful hat a) :
    IsUnit (L.drExp a).det := by
  rw [isUnit_iff_ne_zero]
  intro hdet
  obtain ⟨b, hb0, hb⟩ := Matrix.exists_mulVec_eq_zero_iff.2 hdet
  have h0 : fderiv ℝ NormedSpace.exp (hat a) (hat b) = 0 := by rw [drExp_dir h, hb, map_zero, mul_zero]
  have h1 := exp_dir (hat a) (hat b)
  rw [h0] at h1
  have h2 := line_deriv (hat a) (hat b)
  have h3 := h1.mul h2
  have h4 := h2.mul h1
  have h5 : (fun t : ℝ => NormedSpace.exp (hat a + t • hat b) * (hat a + t • hat b)) = fun t : ℝ => (hat a + t • hat b) * NormedSpace.exp (hat a + t • hat b) := by
    funext t
    letI : NormedAlgebra ℚ 𝔸 := NormedAlgebra.restrictScalars ℚ ℝ 𝔸
    exact ((Commute.refl (hat a + t • hat b)).exp_left).eq
  have h6 : NormedSpace.exp (hat a) * hat b = hat b * NormedSpace.exp (hat a) := by
    have h3' := h3.congr_of_eventuallyEq (f₁ := fun t : ℝ => (hat a + t • hat b) * NormedSpace.exp (hat a + t • hat b)) (Eventually.of_forall fun t => (congrFun h5 t).symm)
    have := h3'.unique h4
    simpa using this
  exact hb0 (by rw [← drExp_commute h (ha b h6), hb])

/-- The difference of any two elements. -/
theorem exists_difference {G : Subgroup 𝔸ˣ} {hat : (Fin n → ℝ) →ₗ[ℝ] 𝔸} {L : LieOps G ℝ n} (h : IsLie L (fun x : G => ((x : 𝔸ˣ) : 𝔸)) hat) (hc : Covered G hat) :
    ∃ rminus : G → G → Fin n → ℝ, ∀ x y, L.rplus y (rminus x y) = x ∧ IsUnit (L.drExp (rminus x y)).det := by
  have : ∀ x y : G, ∃ a, L.rplus y a = x ∧ IsUnit (L.drExp a).det := fun x y => by
    obtain ⟨a, h1, h2⟩ := hc _ (y⁻¹ * x).2
    refine ⟨a, Subtype.ext (Units.ext ?_), isUnit_drExp h h2⟩
    refine (h.rplus y a).trans ?_
    rw [← h1, Subgroup.coe_mul, Subgroup.coe_inv, Units.val_mul, Units.mul_inv_cancel_left]
  choose r hr using this
  exact ⟨r, hr⟩

/-! ### Products -/

theorem exp_pair (A : 𝔸) (B : 𝔹) : NormedSpace.exp ((A, B) : 𝔸 × 𝔹) = (NormedSpace.exp A, NormedSpace.exp B) := by
  letI : NormedAlgebra ℚ 𝔸 := NormedAlgebra.restrictScalars ℚ ℝ 𝔸
  letI : NormedAlgebra ℚ 𝔹 := NormedAlgebra.restrictScalars ℚ ℝ 𝔹
  exact Prod.ext (Prod.fst_exp (A, B)) (Prod.snd_exp (A, B))

theorem covered_bundle {G : Subgroup 𝔸ˣ} {H : Subgroup 𝔹ˣ} {h₁ : (Fin n → ℝ) →ₗ[ℝ] 𝔸} {h₂ : (Fin k → ℝ) →ₗ[ℝ] 𝔹} (c₁ : Covered G h₁) (c₂ : Covered H h₂) :
    Covered (bundle G H) (bundleHat h₁ h₂) := by
  rintro g ⟨g1, g2⟩
  obtain ⟨a, e1, f1⟩ := c₁ _ g1
  obtain ⟨b, e2, f2⟩ := c₂ _ g2
  have hh : bundleHat h₁ h₂ (Fin.addCases a b) = (h₁ a, h₂ b) := by
    apply Prod.ext
    · simp [bundleHat]
    · simp [bundleHat]
  refine ⟨Fin.addCases a b, ?_, fun c hc => ?_⟩
  · rw [hh, exp_pair]
    exact Prod.ext e1 e2
  · rw [hh, exp_pair] at hc
    rw [hh]
    have k1 := f1 (fun i => c (Fin.castAdd k i)) (congrArg Prod.fst hc.eq)
    have k2 := f2 (fun i => c (Fin.natAdd n i)) (congrArg Prod.snd hc.eq)
    exact Prod.ext k1.eq k2.eq

/-! ### Exponentials from differential equations -/

theorem exp_of_ode {E : ℝ → 𝔸} {A : 𝔸} (h0 : E 0 = 1) (hE : ∀ t, HasDerivAt E (E t * A) t) : E 1 = NormedSpace.exp A := by
  have hd : ∀ t, HasDerivAt (fun t => E t * NormedSpace.exp (t • -A)) 0 t := fun t => by
    have h1 := (hE t).mul (hasDerivAt_exp_smul_const' (𝕂 := ℝ) (-A) t)
    refine h1.congr_deriv ?_
    rw [mul_assoc, ← mul_add, neg_mul, add_neg_cancel, mul_zero]
  have hc := is_const_of_deriv_eq_zero (fun t => (hd t).differentiableAt) (fun t => (hd t).deriv) 1 0
  simp only [one_smul, zero_smul, NormedSpace.exp_zero, h0, mul_one] at hc
  have := congrArg (· * NormedSpace.exp A) hc
  simp only [one_mul, mul_assoc] at this
  have e : NormedSpace.exp (-A) * NormedSpace.exp A = 1 := exp_neg_mul A
  rwa [e, mul_one] at this

/-- The formula of Rodrigues. -/
theorem exp_cubic {A : 𝔸} {θ : ℝ} (hθ : θ ≠ 0) (hA : A * A * A = -(θ ^ 2) • A) :
    NormedSpace.exp A = 1 + (Real.sin θ / θ) • A + ((1 - Real.cos θ) / θ ^ 2) • (A * A) := by
  have h := exp_of_ode (E := fun t => 1 + (Real.sin (t * θ) / θ) • A + ((1 - Real.cos (t * θ)) / θ ^ 2) • (A * A)) (A := A) (by simp) fun t => by
    have h1 : HasDerivAt (fun t : ℝ => t * θ) θ t := by simpa using (hasDerivAt_id t).mul_const θ
    have h2 := (((h1.sin.div_const θ).smul_const A).const_add 1).add ((((h1.cos.const_sub 1).div_const (θ ^ 2))).smul_const (A * A))
    refine h2.congr_deriv ?_
    rw [add_mul, add_mul, one_mul, smul_mul_assoc, smul_mul_assoc, hA, smul_smul]
    have e1 : Real.cos (t * θ) * θ / θ = Real.cos (t * θ) := by field_simp
    have e2 : -(-Real.sin (t * θ) * θ) / θ ^ 2 = Real.sin (t * θ) / θ := by field_simp
    have e3 : (1 - Real.cos (t * θ)) / θ ^ 2 * -(θ ^ 2) = Real.cos (t * θ) - 1 := by
      field_simp
      ring
    rw [e1, e2, e3, sub_smul, one_smul]
    abel
  simp only [one_mul] at h
  exact h.symm

/-- Where the square vanishes. -/
theorem exp_nilpotent {A : 𝔸} (hA : A * A = 0) : NormedSpace.exp A = 1 + A := by
  have h := exp_of_ode (E := fun t : ℝ => 1 + t • A) (A := A) (by simp) fun t => by
    refine (((hasDerivAt_id t).smul_const A).const_add 1).congr_deriv ?_
    rw [add_mul, one_mul, smul_mul_assoc, hA, smul_zero, add_zero, one_smul]
  simpa using h.symm

/-! ### Rigid motions of the plane -/

theorem affine_ext {A B : affine 2} (h00 : A.1 (.inl 0) (.inl 0) = B.1 (.inl 0) (.inl 0)) (h01 : A.1 (.inl 0) (.inl 1) = B.1 (.inl 0) (.inl 1))
    (h10 : A.1 (.inl 1) (.inl 0) = B.1 (.inl 1) (.inl 0)) (h11 : A.1 (.inl 1) (.inl 1) = B.1 (.inl 1) (.inl 1)) (h0 : A.1 (.inl 0) (.inr ()) = B.1 (.inl 0) (.inr ()))
    (h1 : A.1 (.inl 1) (.inr ()) = B.1 (.inl 1) (.inr ())) (h2 : A.1 (.inr ()) (.inr ()) = B.1 (.inr ()) (.inr ())) : A = B := by
  apply Subtype.ext
  ext i j
  rcases i with i | ⟨⟩ <;> rcases j with j | ⟨⟩
  · fin_cases i <;> fin_cases j <;> assumption
  · fin_cases i <;> assumption
  · rw [A.2 j, B.2 j]
  · exact h2

theorem se2_00 (a : Fin 3 → ℝ) : (semiHat so2Hat a).1 (.inl 0) (.inl 0) = 0 := rfl
theorem se2_01 (a : Fin 3 → ℝ) : (semiHat so2Hat a).1 (.inl 0) (.inl 1) = -a 2 := rfl
theorem se2_10 (a : Fin 3 → ℝ) : (semiHat so2Hat a).1 (.inl 1) (.inl 0) = a 2 := rfl
theorem se2_11 (a : Fin 3 → ℝ) : (semiHat so2Hat a).1 (.inl 1) (.inl 1) = 0 := rfl
theorem se2_0 (a : Fin 3 → ℝ) : (semiHat so2Hat a).1 (.inl 0) (.inr ()) = a 0 := rfl
theorem se2_1 (a : Fin 3 → ℝ) : (semiHat so2Hat a).1 (.inl 1) (.inr ()) = a 1 := rfl
theorem se2_20 (a : Fin 3 → ℝ) (j : Fin 2) : (semiHat so2Hat a).1 (.inr ()) (.inl j) = 0 := (semiHat so2Hat a).2 j
theorem se2_2 (a : Fin 3 → ℝ) : (semiHat so2Hat a).1 (.inr ()) (.inr ()) = 0 := rfl

theorem aff_mul_ll (A B : affine 2) (i j : Fin 2) :
    (A * B).1 (.inl i) (.inl j) = A.1 (.inl i) (.inl 0) * B.1 (.inl 0) (.inl j) + A.1 (.inl i) (.inl 1) * B.1 (.inl 1) (.inl j) := by
  change (A.1 * B.1) (.inl i) (.inl j) = _
  rw [Matrix.mul_apply, Fintype.sum_sum_type, Fin.sum_univ_two, Fintype.sum_unique]
  have : B.1 (.inr ()) (.inl j) = 0 := B.2 j
  change _ + A.1 (.inl i) (.inr ()) * B.1 (.inr ()) (.inl j) = _
  rw [this, mul_zero, add_zero]

theorem aff_mul_lr (A B : affine 2) (i : Fin 2) : (A * B).1 (.inl i) (.inr ()) =
    A.1 (.inl i) (.inl 0) * B.1 (.inl 0) (.inr ()) + A.1 (.inl i) (.inl 1) * B.1 (.inl 1) (.inr ()) + A.1 (.inl i) (.inr ()) * B.1 (.inr ()) (.inr ()) := by
  change (A.1 * B.1) (.inl i) (.inr ()) = _
  rw [Matrix.mul_apply, Fintype.sum_sum_type, Fin.sum_univ_two, Fintype.sum_unique]

theorem aff_mul_rr (A B : affine 2) : (A * B).1 (.inr ()) (.inr ()) = A.1 (.inr ()) (.inr ()) * B.1 (.inr ()) (.inr ()) := (scalePart 2).map_mul A B

theorem aff_add (A B : affine 2) (i j) : (A + B).1 i j = A.1 i j + B.1 i j := rfl

theorem aff_smul (c : ℝ) (A : affine 2) (i j) : (c • A).1 i j = c * A.1 i j := rfl

theorem aff_one_00 : (1 : affine 2).1 (.inl 0) (.inl 0) = 1 := Matrix.one_apply_eq _
theorem aff_one_01 : (1 : affine 2).1 (.inl 0) (.inl 1) = 0 := Matrix.one_apply_ne (by simp)
theorem aff_one_10 : (1 : affine 2).1 (.inl 1) (.inl 0) = 0 := Matrix.one_apply_ne (by simp)
theorem aff_one_11 : (1 : affine 2).1 (.inl 1) (.inl 1) = 1 := Matrix.one_apply_eq _
theorem aff_one_lr (i : Fin 2) : (1 : affine 2).1 (.inl i) (.inr ()) = 0 := Matrix.one_apply_ne (by simp)
theorem aff_one_rr : (1 : affine 2).1 (.inr ()) (.inr ()) = 1 := Matrix.one_apply_eq _

theorem aff_zero (i j) : (0 : affine 2).1 i j = 0 := rfl

theorem se2_cube (a : Fin 3 → ℝ) : semiHat so2Hat a * semiHat so2Hat a * semiHat so2Hat a = -(a 2 ^ 2) • semiHat so2Hat a := by
  apply affine_ext <;> simp only [aff_mul_ll, aff_mul_lr, aff_mul_rr, aff_smul, se2_00, se2_01, se2_10, se2_11, se2_0, se2_1, se2_2] <;> ring

theorem se2_square {a : Fin 3 → ℝ} (ha : a 2 = 0) : semiHat so2Hat a * semiHat so2Hat a = 0 := by
  apply affine_ext <;> simp only [aff_mul_ll, aff_mul_lr, aff_mul_rr, aff_zero, se2_00, se2_01, se2_10, se2_11, se2_0, se2_1, se2_2, ha] <;> ring

theorem se2_bracket {a b : Fin 3 → ℝ} (h0 : a 2 * b 0 = b 2 * a 0) (h1 : a 2 * b 1 = b 2 * a 1) : Commute (semiHat so2Hat a) (semiHat so2Hat b) := by
  change _ * _ = _ * _
  apply affine_ext <;> simp only [aff_mul_ll, aff_mul_lr, aff_mul_rr, aff_smul, se2_00, se2_01, se2_10, se2_11, se2_0, se2_1, se2_2]
  · ring
  · ring
  · ring
  · ring
  · linear_combination -h1
  · linear_combination h0

/-- Sine and cosine do not both leave an angle in doubt. -/
theorem half_turn {θ : ℝ} (h1 : -Real.pi < θ) (h2 : θ ≤ Real.pi) (h0 : θ ≠ 0) : Real.cos θ < 1 :=
  lt_of_le_of_ne (Real.cos_le_one θ) fun h => h0 ((Real.cos_eq_one_iff_of_lt_of_lt (by linarith [Real.pi_pos]) (by linarith [Real.pi_pos])).1 h)

theorem se2_commute {a b : Fin 3 → ℝ} {s k : ℝ} (hs : s ^ 2 + (k * a 2) ^ 2 ≠ 0)
    (h : Commute (1 + s • semiHat so2Hat a + k • (semiHat so2Hat a * semiHat so2Hat a)) (semiHat so2Hat b)) : Commute (semiHat so2Hat a) (semiHat so2Hat b) := by
  have e0 := congrArg (fun A : affine 2 => A.1 (.inl 0) (.inr ())) h.eq
  have e1 := congrArg (fun A : affine 2 => A.1 (.inl 1) (.inr ())) h.eq
  simp only [aff_mul_ll, aff_mul_lr, aff_mul_rr, aff_smul, aff_add, aff_one_00, aff_one_01, aff_one_10, aff_one_11, aff_one_lr, aff_one_rr, se2_00, se2_01, se2_10, se2_11,
    se2_0, se2_1, se2_2] at e0 e1
  have f0 : s * (a 2 * b 1 - b 2 * a 1) + k * a 2 * (a 2 * b 0 - b 2 * a 0) = 0 := by linear_combination -e0
  have f1 : s * (a 2 * b 0 - b 2 * a 0) - k * a 2 * (a 2 * b 1 - b 2 * a 1) = 0 := by linear_combination e1
  have g0 : (s ^ 2 + (k * a 2) ^ 2) * (a 2 * b 0 - b 2 * a 0) = 0 := by linear_combination k * a 2 * f0 + s * f1
  have g1 : (s ^ 2 + (k * a 2) ^ 2) * (a 2 * b 1 - b 2 * a 1) = 0 := by linear_combination s * f0 - k * a 2 * f1
  exact se2_bracket (sub_eq_zero.1 ((mul_eq_zero.1 g0).resolve_left hs)) (sub_eq_zero.1 ((mul_eq_zero.1 g1).resolve_left hs))

theorem turn_ne {θ : ℝ} (h1 : -Real.pi < θ) (h2 : θ ≤ Real.pi) (h0 : θ ≠ 0) : (Real.sin θ / θ) ^ 2 + ((1 - Real.cos θ) / θ ^ 2 * θ) ^ 2 ≠ 0 := by
  have e : (Real.sin θ / θ) ^ 2 + ((1 - Real.cos θ) / θ ^ 2 * θ) ^ 2 = 2 * (1 - Real.cos θ) / θ ^ 2 := by
    field_simp
    linear_combination Real.sin_sq_add_cos_sq θ
  rw [e]
  have := half_turn h1 h2 h0
  exact (div_pos (by linarith) (by positivity)).ne'

theorem se2_faithful {a : Fin 3 → ℝ} (h1 : -Real.pi < a 2) (h2 : a 2 ≤ Real.pi) : Faithful (n := 2 + 1) (𝔸 := affine 2) (semiHat so2Hat) a := by
  intro b hb
  by_cases h0 : a 2 = 0
  · rw [exp_nilpotent (se2_square h0)] at hb
    have := hb.eq
    rw [add_mul, mul_add, one_mul, mul_one] at this
    exact add_left_cancel this
  · rw [exp_cubic h0 (se2_cube a)] at hb
    exact se2_commute (turn_ne h1 h2 h0) hb

/-- The entries of a rigid motion. -/
theorem se2_entries {g : (affine 2)ˣ} (hg : g ∈ semi (SO 2)) :
    ∃ θ, -Real.pi < θ ∧ θ ≤ Real.pi ∧ g.1.1 (.inl 0) (.inl 0) = Real.cos θ ∧ g.1.1 (.inl 0) (.inl 1) = -Real.sin θ ∧ g.1.1 (.inl 1) (.inl 0) = Real.sin θ ∧
      g.1.1 (.inl 1) (.inl 1) = Real.cos θ ∧ g.1.1 (.inr ()) (.inr ()) = 1 := by
  obtain ⟨⟨h1, h2⟩, h3⟩ := hg
  have h1' : star ((g : affine 2).1.toBlocks₁₁) * (g : affine 2).1.toBlocks₁₁ = 1 := h1
  have h2' : ((g : affine 2).1.toBlocks₁₁).det = 1 := congrArg Units.val (MonoidHom.mem_ker.1 h2)
  have h3' : g.1.1 (.inr ()) (.inr ()) = 1 := congrArg Units.val (Subgroup.mem_bot.1 h3)
  rw [Matrix.det_fin_two] at h2'
  have f00 := congrFun (congrFun h1' 0) 0
  have f11 := congrFun (congrFun h1' 1) 1
  simp [Matrix.mul_apply, Fin.sum_univ_two, Matrix.star_apply, Matrix.toBlocks₁₁] at f00 f11 h2'
  set p := g.1.1 (.inl 0) (.inl 0)
  set q := g.1.1 (.inl 0) (.inl 1)
  set r := g.1.1 (.inl 1) (.inl 0)
  set w := g.1.1 (.inl 1) (.inl 1)
  have k : (p - w) ^ 2 + (q + r) ^ 2 = 0 := by linear_combination f00 + f11 - 2 * h2'
  have k1 : p = w := by nlinarith [sq_nonneg (p - w), sq_nonneg (q + r)]
  have k2 : q = -r := by nlinarith [sq_nonneg (p - w), sq_nonneg (q + r)]
  have hz : ‖(⟨p, r⟩ : ℂ)‖ = 1 := by
    rw [Complex.norm_eq_sqrt_sq_add_sq]
    change Real.sqrt (p ^ 2 + r ^ 2) = 1
    rw [show p ^ 2 + r ^ 2 = 1 by linear_combination f00, Real.sqrt_one]
  have hz0 : (⟨p, r⟩ : ℂ) ≠ 0 := fun h => by simp [h] at hz
  refine ⟨Complex.arg ⟨p, r⟩, Complex.neg_pi_lt_arg _, Complex.arg_le_pi _, ?_, ?_, ?_, ?_, h3'⟩
  · rw [Complex.cos_arg hz0, hz, div_one]
  · rw [Complex.sin_arg, hz, div_one, k2]
  · rw [Complex.sin_arg, hz, div_one]
  · rw [Complex.cos_arg hz0, hz, div_one, ← k1]

theorem covered_se2 : Covered (semi (SO 2)) (semiHat so2Hat) := by
  intro g hg
  obtain ⟨θ, h1, h2, e00, e01, e10, e11, e2⟩ := se2_entries hg
  by_cases h0 : θ = 0
  · refine ⟨![g.1.1 (.inl 0) (.inr ()), g.1.1 (.inl 1) (.inr ()), 0], ?_, se2_faithful (by simpa using Real.pi_pos) (by simpa using Real.pi_pos.le)⟩
    rw [exp_nilpotent (se2_square rfl)]
    subst h0
    rw [Real.cos_zero] at e00 e11
    rw [Real.sin_zero] at e01 e10
    apply affine_ext <;> simp only [aff_add, aff_one_00, aff_one_01, aff_one_10, aff_one_11, aff_one_lr, aff_one_rr, se2_00, se2_01, se2_10, se2_11, se2_0, se2_1, se2_2] <;> simp [*]
  · have hne := turn_ne h1 h2 h0
    obtain ⟨s, hs⟩ : ∃ s, s = Real.sin θ / θ := ⟨_, rfl⟩
    obtain ⟨k, hk⟩ : ∃ k, k = (1 - Real.cos θ) / θ ^ 2 := ⟨_, rfl⟩
    obtain ⟨x, hx⟩ : ∃ x, x = g.1.1 (.inl 0) (.inr ()) := ⟨_, rfl⟩
    obtain ⟨y, hy⟩ : ∃ y, y = g.1.1 (.inl 1) (.inr ()) := ⟨_, rfl⟩
    rw [← hs, ← hk] at hne
    obtain ⟨d, hd⟩ : ∃ d, d = s ^ 2 + (k * θ) ^ 2 := ⟨_, rfl⟩
    rw [← hd] at hne
    refine ⟨![(s * x + k * θ * y) / d, (s * y - k * θ * x) / d, θ], ?_, se2_faithful (by simpa using h1) (by simpa using h2)⟩
    rw [exp_cubic (θ := θ) h0 (se2_cube _)]
    have es : s * θ = Real.sin θ := by rw [hs]; field_simp
    have ek : k * θ ^ 2 = 1 - Real.cos θ := by rw [hk]; field_simp
    rw [← hs, ← hk]
    apply affine_ext <;>
      simp only [aff_add, aff_smul, aff_mul_ll, aff_mul_lr, aff_mul_rr, aff_one_00, aff_one_01, aff_one_10, aff_one_11, aff_one_lr, aff_one_rr, se2_00, se2_01, se2_10, se2_11, se2_0, se2_1, se2_2]
    · simp [e00]
      linear_combination ek
    · simp [e01]
      linear_combination -es
    · simp [e10]
      linear_combination -es
    · simp [e11]
      linear_combination ek
    · rw [← hx]
      simp
      field_simp
      linear_combination x * hd
    · rw [← hy]
      simp
      field_simp
      linear_combination y * hd
    · simp [e2]

/-! ### Translations -/

theorem covered_translations : Covered (semi (⊥ : Subgroup (Matrix (Fin m) (Fin m) ℝ)ˣ)) (semiHat (noHat m)) := by
  rintro g ⟨h1, h2⟩
  have h1' : (g : affine m).1.toBlocks₁₁ = 1 := congrArg Units.val (Subgroup.mem_bot.1 h1)
  have h2' : g.1.1 (.inr ()) (.inr ()) = 1 := congrArg Units.val (Subgroup.mem_bot.1 h2)
  have hm : ∀ a b, semiHat (noHat m) a * semiHat (noHat m) b = 0 := fun a b => by
    apply Subtype.ext
    change semiMat (noHat m) a * semiMat (noHat m) b = 0
    unfold semiMat
    rw [Matrix.fromBlocks_multiply]
    simp [noHat]
  refine ⟨fun i => g.1.1 (.inl i) (.inr ()), ?_, fun b _ => (hm _ _).trans (hm _ _).symm⟩
  rw [exp_nilpotent (hm _ _)]
  generalize hv : (fun i : Fin m => g.1.1 (.inl i) (.inr ())) = v
  apply Subtype.ext
  ext i j
  rcases i with i | u <;> rcases j with j | u'
  · have := congrFun (congrFun h1' i) j
    change g.1.1 (.inl i) (.inl j) = (1 : Matrix (Fin m ⊕ Unit) (Fin m ⊕ Unit) ℝ) (.inl i) (.inl j) + semiMat (noHat m) v (.inl i) (.inl j)
    simp [semiMat, noHat, Matrix.one_apply]
    simpa [Matrix.toBlocks₁₁, Matrix.one_apply] using this
  · change g.1.1 (.inl i) (.inr ()) = (1 : Matrix (Fin m ⊕ Unit) (Fin m ⊕ Unit) ℝ) (.inl i) (.inr ()) + semiMat (noHat m) v (.inl i) (.inr ())
    simp [semiMat]
    exact congrFun hv i
  · exact (g.1.2 j).trans ((1 + semiHat (noHat m) v : affine m).2 j).symm
  · change g.1.1 (.inr ()) (.inr ()) = (1 : Matrix (Fin m ⊕ Unit) (Fin m ⊕ Unit) ℝ) (.inr ()) (.inr ()) + semiMat (noHat m) v (.inr ()) (.inr ())
    simp [semiMat, h2']

end Verif.Lie
