import Verif.Proofs.QPRun
import Verif.Proofs.QPScale
import Mathlib.Algebra.Order.Archimedean.Basic
import Mathlib.Data.Set.Finite.Lattice

/-! # QP solver: the iteration converges

The step is an averaged operator in a weighted norm: the distance of two runs does not grow, and the distance to a
solution shrinks by a multiple of the size of the step. -/

set_option linter.unusedSectionVars false

namespace Verif.QP

open Matrix Verif.QPSpec

variable {F : Type*} [Field F] [LinearOrder F] [IsStrictOrderedRing F] {n m : ℕ}

/-- The algebra of one step for the difference of two runs. -/
theorem contract_core {P : Matrix (Fin n) (Fin n) F} {A : Matrix (Fin m) (Fin n) F} {sigma alpha : F} {rho : Fin m → F}
    (hP : ∀ v : Fin n → F, 0 ≤ v ⬝ᵥ P *ᵥ v) (ha : 0 ≤ alpha) (hr : ∀ i, 0 < rho i)
    {dx dt : Fin n → F} {dy dz dn : Fin m → F}
    (h1 : ∀ j, (P *ᵥ dt) j + sigma * dt j + (Aᵀ *ᵥ dn) j = sigma * dx j)
    (h2 : ∀ i, (A *ᵥ dt) i - (rho i)⁻¹ * dn i = dz i - (rho i)⁻¹ * dy i) (hm : ∀ i, 0 ≤ dz i * dy i) :
    (∑ j, sigma * (alpha * dt j + (1 - alpha) * dx j) ^ 2 +
        ∑ i, rho i * (alpha * ((rho i)⁻¹ * dn i) + (1 - alpha) * ((rho i)⁻¹ * dy i) + dz i) ^ 2) +
      alpha * (2 - alpha) * (∑ j, sigma * (dt j - dx j) ^ 2 + ∑ i, rho i * ((rho i)⁻¹ * (dn i - dy i)) ^ 2) ≤
    ∑ j, sigma * dx j ^ 2 + ∑ i, rho i * (dz i + (rho i)⁻¹ * dy i) ^ 2 := by
  have e1 : dt ⬝ᵥ P *ᵥ dt + ∑ j, sigma * dt j * (dt j - dx j) + ∑ i, dn i * (A *ᵥ dt) i = 0 := by
    have ha : ∑ i, dn i * (A *ᵥ dt) i = ∑ j, dt j * (Aᵀ *ᵥ dn) j := by
      have : dn ⬝ᵥ A *ᵥ dt = dt ⬝ᵥ Aᵀ *ᵥ dn := by
        rw [Matrix.dotProduct_mulVec, Matrix.mulVec_transpose, dotProduct_comm]
      exact this
    rw [ha]
    simp only [dotProduct]
    rw [← Finset.sum_add_distrib, ← Finset.sum_add_distrib]
    refine Finset.sum_eq_zero fun j _ => ?_
    linear_combination dt j * h1 j
  have e2 : ∀ i, rho i * (dz i + (rho i)⁻¹ * dy i) ^ 2 -
      rho i * (alpha * ((rho i)⁻¹ * dn i) + (1 - alpha) * ((rho i)⁻¹ * dy i) + dz i) ^ 2 -
      alpha * (2 - alpha) * (rho i * ((rho i)⁻¹ * (dn i - dy i)) ^ 2) =
      -(2 * alpha) * (dn i * (A *ᵥ dt) i) + 2 * alpha * (dz i * dy i) := by
    intro i
    have hri := (hr i).ne'
    have h3 : (A *ᵥ dt) i = dz i + (rho i)⁻¹ * (dn i - dy i) := by linear_combination h2 i
    rw [h3]
    field_simp
    ring
  have e3 : ∀ j, sigma * dx j ^ 2 - sigma * (alpha * dt j + (1 - alpha) * dx j) ^ 2 -
      alpha * (2 - alpha) * (sigma * (dt j - dx j) ^ 2) = -(2 * alpha) * (sigma * dt j * (dt j - dx j)) := by
    intro j; ring
  have s2 := Finset.sum_congr (rfl : (Finset.univ : Finset (Fin m)) = _) fun i _ => e2 i
  have s3 := Finset.sum_congr (rfl : (Finset.univ : Finset (Fin n)) = _) fun j _ => e3 j
  simp only [Finset.sum_sub_distrib, Finset.sum_add_distrib, ← Finset.mul_sum] at s2 s3
  have hmm : 0 ≤ ∑ i, dz i * dy i := Finset.sum_nonneg fun i _ => hm i
  have hPP := hP dt
  have p1 := mul_nonneg ha hmm
  have p2 := mul_nonneg ha hPP
  simp only [← Finset.mul_sum] at e1 ⊢
  have e4 := congrArg (fun v => 2 * alpha * v) e1
  simp only [mul_zero] at e4
  nlinarith [s2, s3, e4, p1, p2]

/-- Squared distance of two iterates, in the norm of the iteration. -/
def dist2 (sigma : F) (rho : Fin m → F) (a b : It F n m) : F :=
  ∑ j, sigma * (a.x j - b.x j) ^ 2 + ∑ i, rho i * ((a.z i - b.z i) + (rho i)⁻¹ * (a.y i - b.y i)) ^ 2

/-- `z` is in the box and `y` is complementary to it (scaled variables). -/
def ZBox (p : Pbm F n m) (it : It F n m) : Prop := InBox p it.z ∧ Complementary p it.z it.y

theorem good_mono {p : Pbm F n m} {a b : It F n m} (ha : ZBox p a) (hb : ZBox p b) (i : Fin m) :
    0 ≤ (a.z i - b.z i) * (a.y i - b.y i) := by
  have key : ∀ {a b : It F n m}, ZBox p a → ZBox p b → 0 ≤ (a.z i - b.z i) * a.y i := by
    intro a b ha hb
    rcases lt_trichotomy (a.y i) 0 with h | h | h
    · have h1 := lower_le ((ha.2 i).2 h) (hb.1 i).1
      exact mul_nonneg_of_nonpos_of_nonpos (by linarith) h.le
    · rw [h]; simp
    · have h1 := upper_le ((ha.2 i).1 h) (hb.1 i).2
      exact mul_nonneg (by linarith) h.le
  have h1 := key ha hb
  have h2 := key hb ha
  nlinarith

section

variable {alpha sigma : F} {p : Pbm F n m} {rho : Fin m → F} {slv : (Fin n ⊕ Fin m → F) → (Fin n ⊕ Fin m → F)}

theorem unit_unX (x : Fin n → F) : (Scaling.unit : Scaling F n m).unX x = x := by
  funext j; simp [Scaling.unit, Scaling.unX]

theorem unit_unY (y : Fin m → F) : (Scaling.unit : Scaling F n m).unY y = y := by
  funext j; simp [Scaling.unit, Scaling.unY]

theorem unit_unZ (z : Fin m → F) : (Scaling.unit : Scaling F n m).unZ z = z := by
  funext j; simp [Scaling.unit, Scaling.unZ]

/-- The solution of the linear system of a step. -/
def aux (sigma : F) (p : Pbm F n m) (rho : Fin m → F) (slv : (Fin n ⊕ Fin m → F) → (Fin n ⊕ Fin m → F)) (it : It F n m) :
    Fin n ⊕ Fin m → F :=
  slv (Sum.elim (fun j => sigma * it.x j - p.q j) (fun i => it.z i - (rho i)⁻¹ * it.y i))

theorem step_unit (it : It F n m) :
    let st := step alpha sigma p Scaling.unit rho slv it
    (∀ j, st.x j = alpha * aux sigma p rho slv it (.inl j) + (1 - alpha) * it.x j) ∧
    (∀ i, st.y i = (1 - alpha) * it.y i + alpha * aux sigma p rho slv it (.inr i) + rho i * it.z i - rho i * st.z i) := by
  have : aux sigma p rho slv it = slv (Sum.elim (fun j => sigma * it.x j - (Scaling.unit : Scaling F n m).c *
      (Scaling.unit : Scaling F n m).sx j * p.q j) (fun i => it.z i - (rho i)⁻¹ * it.y i)) := by
    simp [aux, Scaling.unit]
  rw [this]
  exact ⟨fun j => rfl, fun i => rfl⟩

theorem aux_eq1 (hP : p.P.IsSymm) (hslv : ∀ b, symUpper (kkt sigma p Scaling.unit rho) *ᵥ slv b = b) (it : It F n m) (j : Fin n) :
    (p.P *ᵥ fun k => aux sigma p rho slv it (.inl k)) j + sigma * aux sigma p rho slv it (.inl j) +
      (p.Aᵀ *ᵥ fun i => aux sigma p rho slv it (.inr i)) j = sigma * it.x j - p.q j := by
  have := congrFun (hslv (Sum.elim (fun j => sigma * it.x j - p.q j) (fun i => it.z i - (rho i)⁻¹ * it.y i))) (.inl j)
  rw [kkt_mulVec_inl hP, unit_unX] at this
  simpa [Scaling.unit, aux] using this

theorem aux_eq2 (hslv : ∀ b, symUpper (kkt sigma p Scaling.unit rho) *ᵥ slv b = b) (it : It F n m) (i : Fin m) :
    (p.A *ᵥ fun k => aux sigma p rho slv it (.inl k)) i - (rho i)⁻¹ * aux sigma p rho slv it (.inr i) =
      it.z i - (rho i)⁻¹ * it.y i := by
  have := congrFun (hslv (Sum.elim (fun j => sigma * it.x j - p.q j) (fun i => it.z i - (rho i)⁻¹ * it.y i))) (.inr i)
  rw [kkt_mulVec_inr, unit_unX] at this
  simpa [Scaling.unit, aux] using this

theorem step_v (hr : ∀ i, 0 < rho i) (it : It F n m) (i : Fin m) :
    (step alpha sigma p Scaling.unit rho slv it).z i + (rho i)⁻¹ * (step alpha sigma p Scaling.unit rho slv it).y i =
      alpha * ((rho i)⁻¹ * aux sigma p rho slv it (.inr i)) + (1 - alpha) * ((rho i)⁻¹ * it.y i) + it.z i := by
  rw [(step_unit it).2 i]
  have := (hr i).ne'
  field_simp
  ring

theorem step_good (hrow : ∀ i, RowOk (p.l i) (p.u i)) (hr : ∀ i, 0 < rho i) (it : It F n m) :
    ZBox p (step alpha sigma p Scaling.unit rho slv it) := by
  have := step_box (alpha := alpha) (sigma := sigma) (slv := slv) (s := Scaling.unit) hrow (fun _ => one_pos) one_pos hr it
  rw [unit_unZ, unit_unY] at this
  exact this

/-- Distance that a step moves. -/
theorem dist2_step (hr : ∀ i, 0 < rho i) (a : It F n m) :
    dist2 sigma rho (step alpha sigma p Scaling.unit rho slv a) a =
      alpha ^ 2 * (∑ j, sigma * (aux sigma p rho slv a (.inl j) - a.x j) ^ 2 +
        ∑ i, rho i * ((rho i)⁻¹ * (aux sigma p rho slv a (.inr i) - a.y i)) ^ 2) := by
  unfold dist2
  rw [mul_add, Finset.mul_sum, Finset.mul_sum]
  congr 1
  · refine Finset.sum_congr rfl fun j _ => ?_
    rw [(step_unit a).1]; ring
  · refine Finset.sum_congr rfl fun i _ => ?_
    have h := step_v (alpha := alpha) (sigma := sigma) (p := p) (slv := slv) hr a i
    have e : (step alpha sigma p Scaling.unit rho slv a).z i - a.z i +
        (rho i)⁻¹ * ((step alpha sigma p Scaling.unit rho slv a).y i - a.y i) =
        alpha * ((rho i)⁻¹ * (aux sigma p rho slv a (.inr i) - a.y i)) := by linear_combination h
    rw [e]; ring

/-- Two runs do not drift apart. -/
theorem step_contract (hP : Lin.PSD p.P) (ha : 0 ≤ alpha) (hr : ∀ i, 0 < rho i)
    (hslv : ∀ b, symUpper (kkt sigma p Scaling.unit rho) *ᵥ slv b = b) {a b : It F n m} (hga : ZBox p a) (hgb : ZBox p b) :
    dist2 sigma rho (step alpha sigma p Scaling.unit rho slv a) (step alpha sigma p Scaling.unit rho slv b) +
      alpha * (2 - alpha) *
        (∑ j, sigma * ((aux sigma p rho slv a (.inl j) - a.x j) - (aux sigma p rho slv b (.inl j) - b.x j)) ^ 2 +
          ∑ i, rho i * ((rho i)⁻¹ * ((aux sigma p rho slv a (.inr i) - a.y i) - (aux sigma p rho slv b (.inr i) - b.y i))) ^ 2) ≤
      dist2 sigma rho a b := by
  have key := contract_core (P := p.P) (A := p.A) (sigma := sigma) (alpha := alpha) (rho := rho) hP.2 ha hr
    (dx := fun j => a.x j - b.x j) (dt := fun j => aux sigma p rho slv a (.inl j) - aux sigma p rho slv b (.inl j))
    (dy := fun i => a.y i - b.y i) (dz := fun i => a.z i - b.z i)
    (dn := fun i => aux sigma p rho slv a (.inr i) - aux sigma p rho slv b (.inr i)) ?_ ?_ (good_mono hga hgb)
  · refine le_trans (le_of_eq ?_) key
    unfold dist2
    refine congrArg₂ (· + ·) (congrArg₂ (· + ·) ?_ ?_) (congrArg₂ (· * ·) rfl (congrArg₂ (· + ·) ?_ ?_))
    · refine Finset.sum_congr rfl fun j _ => ?_
      rw [(step_unit a).1, (step_unit b).1]; ring
    · refine Finset.sum_congr rfl fun i _ => ?_
      have h1 := step_v (alpha := alpha) (sigma := sigma) (p := p) (slv := slv) hr a i
      have h2 := step_v (alpha := alpha) (sigma := sigma) (p := p) (slv := slv) hr b i
      congr 2
      linear_combination h1 - h2
    · refine Finset.sum_congr rfl fun j _ => by ring
    · refine Finset.sum_congr rfl fun i _ => by ring
  · intro j
    have h1 := aux_eq1 hP.1 hslv a j
    have h2 := aux_eq1 hP.1 hslv b j
    have e1 : (fun j => aux sigma p rho slv a (.inl j) - aux sigma p rho slv b (.inl j)) =
        (fun j => aux sigma p rho slv a (.inl j)) - (fun j => aux sigma p rho slv b (.inl j)) := rfl
    have e2 : (fun j => aux sigma p rho slv a (.inr j) - aux sigma p rho slv b (.inr j)) =
        (fun j => aux sigma p rho slv a (.inr j)) - (fun j => aux sigma p rho slv b (.inr j)) := rfl
    rw [e1, e2, Matrix.mulVec_sub, Matrix.mulVec_sub]
    simp only [Pi.sub_apply]
    linear_combination h1 - h2
  · intro i
    have h1 := aux_eq2 hslv a i
    have h2 := aux_eq2 hslv b i
    have e1 : (fun j => aux sigma p rho slv a (.inl j) - aux sigma p rho slv b (.inl j)) =
        (fun j => aux sigma p rho slv a (.inl j)) - (fun j => aux sigma p rho slv b (.inl j)) := rfl
    rw [e1, Matrix.mulVec_sub]
    simp only [Pi.sub_apply]
    linear_combination h1 - h2

theorem dist2_nonneg (hsig : 0 ≤ sigma) (hr : ∀ i, 0 < rho i) (a b : It F n m) : 0 ≤ dist2 sigma rho a b :=
  add_nonneg (Finset.sum_nonneg fun _ _ => mul_nonneg hsig (sq_nonneg _))
    (Finset.sum_nonneg fun i _ => mul_nonneg (hr i).le (sq_nonneg _))

/-- Two runs do not drift apart (without the remainder). -/
theorem step_nonexpansive (hP : Lin.PSD p.P) (ha : 0 ≤ alpha) (ha' : alpha ≤ 2) (hsig : 0 ≤ sigma) (hr : ∀ i, 0 < rho i)
    (hslv : ∀ b, symUpper (kkt sigma p Scaling.unit rho) *ᵥ slv b = b) {a b : It F n m} (hga : ZBox p a) (hgb : ZBox p b) :
    dist2 sigma rho (step alpha sigma p Scaling.unit rho slv a) (step alpha sigma p Scaling.unit rho slv b) ≤
      dist2 sigma rho a b := by
  refine le_trans (le_add_of_nonneg_right ?_) (step_contract hP ha hr hslv hga hgb)
  exact mul_nonneg (mul_nonneg ha (by linarith))
    (add_nonneg (Finset.sum_nonneg fun _ _ => mul_nonneg hsig (sq_nonneg _))
      (Finset.sum_nonneg fun i _ => mul_nonneg (hr i).le (sq_nonneg _)))

/-- A step towards a fixed point. -/
theorem step_fejer (hP : Lin.PSD p.P) (ha : 0 < alpha) (hr : ∀ i, 0 < rho i)
    (hslv : ∀ b, symUpper (kkt sigma p Scaling.unit rho) *ᵥ slv b = b) {a b : It F n m} (hga : ZBox p a) (hgb : ZBox p b)
    (hb : step alpha sigma p Scaling.unit rho slv b = b) :
    dist2 sigma rho (step alpha sigma p Scaling.unit rho slv a) b +
      (2 - alpha) / alpha * dist2 sigma rho (step alpha sigma p Scaling.unit rho slv a) a ≤ dist2 sigma rho a b := by
  have key := step_contract hP ha.le hr hslv hga hgb
  have hx : ∀ j, aux sigma p rho slv b (.inl j) - b.x j = 0 := by
    intro j
    have h1 := (step_unit (alpha := alpha) (sigma := sigma) (p := p) (rho := rho) (slv := slv) b).1 j
    rw [hb] at h1
    have : alpha * (aux sigma p rho slv b (.inl j) - b.x j) = 0 := by linear_combination -h1
    exact (mul_eq_zero.1 this).resolve_left ha.ne'
  have hy : ∀ i, aux sigma p rho slv b (.inr i) - b.y i = 0 := by
    intro i
    have h1 := (step_unit (alpha := alpha) (sigma := sigma) (p := p) (rho := rho) (slv := slv) b).2 i
    rw [hb] at h1
    have : alpha * (aux sigma p rho slv b (.inr i) - b.y i) = 0 := by linear_combination -h1
    exact (mul_eq_zero.1 this).resolve_left ha.ne'
  rw [hb] at key
  simp only [hx, hy, sub_zero] at key
  refine le_trans (le_of_eq ?_) key
  rw [dist2_step hr a]
  have := ha.ne'
  field_simp

/-- Entries of a short step are short. -/
theorem step_small {mu δ : F} (ha : 0 < alpha) (hsig : 0 ≤ sigma) (hr : ∀ i, 0 < rho i) (hmu : 0 < mu) (hms : mu ≤ sigma)
    (hmr : ∀ i, mu ≤ rho i) (hδ : 0 ≤ δ) {a : It F n m}
    (h : dist2 sigma rho (step alpha sigma p Scaling.unit rho slv a) a ≤ alpha ^ 2 * (mu * δ ^ 2)) :
    (∀ j, |aux sigma p rho slv a (.inl j) - a.x j| ≤ δ) ∧
    ∀ i, |(rho i)⁻¹ * (aux sigma p rho slv a (.inr i) - a.y i)| ≤ δ := by
  rw [dist2_step hr] at h
  have h0 := le_of_mul_le_mul_left h (pow_pos ha 2)
  have n1 : ∀ j ∈ Finset.univ, 0 ≤ sigma * (aux sigma p rho slv a (.inl j) - a.x j) ^ 2 :=
    fun j _ => mul_nonneg hsig (sq_nonneg _)
  have n2 : ∀ i ∈ Finset.univ, 0 ≤ rho i * ((rho i)⁻¹ * (aux sigma p rho slv a (.inr i) - a.y i)) ^ 2 :=
    fun i _ => mul_nonneg (hr i).le (sq_nonneg _)
  have s1 := Finset.sum_nonneg n1
  have s2 := Finset.sum_nonneg n2
  constructor
  · intro j
    have h1 := Finset.single_le_sum n1 (Finset.mem_univ j)
    have h2 : mu * (aux sigma p rho slv a (.inl j) - a.x j) ^ 2 ≤ mu * δ ^ 2 :=
      le_trans (mul_le_mul_of_nonneg_right hms (sq_nonneg _)) (by linarith)
    exact abs_le_of_sq_le_sq (le_of_mul_le_mul_left h2 hmu) hδ
  · intro i
    have h1 := Finset.single_le_sum n2 (Finset.mem_univ i)
    have h2 : mu * ((rho i)⁻¹ * (aux sigma p rho slv a (.inr i) - a.y i)) ^ 2 ≤ mu * δ ^ 2 :=
      le_trans (mul_le_mul_of_nonneg_right (hmr i) (sq_nonneg _)) (by linarith)
    exact abs_le_of_sq_le_sq (le_of_mul_le_mul_left h2 hmu) hδ

theorem abs_mulVec_le {k l : ℕ} (M : Matrix (Fin k) (Fin l) F) {v : Fin l → F} {w : Fin l → F} (h : ∀ j, |v j| ≤ w j) (i : Fin k) :
    |(M *ᵥ v) i| ≤ ∑ j, |M i j| * w j := by
  simp only [Matrix.mulVec, dotProduct]
  refine le_trans (Finset.abs_sum_le_sum_abs _ _) (Finset.sum_le_sum fun j _ => ?_)
  rw [abs_mul]
  exact mul_le_mul_of_nonneg_left (h j) (abs_nonneg _)

/-- The auxiliary variable does not move more than the step. -/
theorem step_z (ha : 0 ≤ alpha) (hr : ∀ i, 0 < rho i) (hrow : ∀ i, RowOk (p.l i) (p.u i)) {a : It F n m} (hga : ZBox p a) {δ : F}
    {i : Fin m} (h : |(rho i)⁻¹ * (aux sigma p rho slv a (.inr i) - a.y i)| ≤ δ) :
    |(step alpha sigma p Scaling.unit rho slv a).z i - a.z i| ≤ alpha * δ := by
  have hm := good_mono (step_good (alpha := alpha) (sigma := sigma) (slv := slv) hrow hr a) hga i
  have hv := step_v (alpha := alpha) (sigma := sigma) (p := p) (slv := slv) hr a i
  set dz := (step alpha sigma p Scaling.unit rho slv a).z i - a.z i with hdz
  set dy := (step alpha sigma p Scaling.unit rho slv a).y i - a.y i with hdy
  have hv' : dz + (rho i)⁻¹ * dy = alpha * ((rho i)⁻¹ * (aux sigma p rho slv a (.inr i) - a.y i)) := by
    rw [hdz, hdy]; linear_combination hv
  have hb : |dz + (rho i)⁻¹ * dy| ≤ alpha * δ := by
    rw [hv', abs_mul, abs_of_nonneg ha]
    exact mul_le_mul_of_nonneg_left h ha
  refine le_trans ?_ hb
  have hi := inv_pos.2 (hr i)
  rcases lt_trichotomy dz 0 with h1 | h1 | h1
  · have : dy ≤ 0 := by
      by_contra hc
      have := mul_neg_of_neg_of_pos h1 (not_le.1 hc)
      linarith
    have h2 := mul_nonneg hi.le (neg_nonneg.2 this)
    rw [abs_of_neg h1, abs_of_nonpos (by nlinarith)]
    nlinarith
  · rw [h1, abs_zero]; exact abs_nonneg _
  · have : 0 ≤ dy := by
      by_contra hc
      have := mul_neg_of_pos_of_neg h1 (not_le.1 hc)
      linarith
    have h2 := mul_nonneg hi.le this
    rw [abs_of_pos h1, abs_of_nonneg (by nlinarith)]
    nlinarith

/-- After a short step the residuals are small. -/
theorem step_residuals (hP : p.P.IsSymm) (ha : 0 ≤ alpha) (hsig : 0 ≤ sigma) (hr : ∀ i, 0 < rho i)
    (hrow : ∀ i, RowOk (p.l i) (p.u i)) (hslv : ∀ b, symUpper (kkt sigma p Scaling.unit rho) *ᵥ slv b = b)
    {a : It F n m} (hga : ZBox p a) {δ : F} (hx : ∀ j, |aux sigma p rho slv a (.inl j) - a.x j| ≤ δ)
    (hy : ∀ i, |(rho i)⁻¹ * (aux sigma p rho slv a (.inr i) - a.y i)| ≤ δ) :
    (∀ i, |(p.A *ᵥ (step alpha sigma p Scaling.unit rho slv a).x) i - (step alpha sigma p Scaling.unit rho slv a).z i| ≤
      δ * (1 + alpha + |alpha - 1| * ∑ j, |p.A i j|)) ∧
    ∀ j, |(p.P *ᵥ (step alpha sigma p Scaling.unit rho slv a).x) j + p.q j +
        (p.Aᵀ *ᵥ (step alpha sigma p Scaling.unit rho slv a).y) j| ≤
      δ * (sigma + |alpha - 1| * (∑ k, |p.P j k|) + (|alpha - 1| + alpha) * ∑ i, |p.A i j| * rho i) := by
  set st := step alpha sigma p Scaling.unit rho slv a with hst
  set xt : Fin n → F := fun k => aux sigma p rho slv a (.inl k) with hxt
  set nt : Fin m → F := fun k => aux sigma p rho slv a (.inr k) with hnt
  have hsx : st.x = xt + (alpha - 1) • (xt - a.x) := by
    funext j
    rw [hst, (step_unit a).1]
    simp only [Pi.add_apply, Pi.smul_apply, Pi.sub_apply, smul_eq_mul, hxt]; ring
  have hz : ∀ i, |st.z i - a.z i| ≤ alpha * δ := fun i => step_z ha hr hrow hga (hy i)
  have hsy : st.y = nt + fun i => rho i * ((alpha - 1) * ((rho i)⁻¹ * (nt i - a.y i)) + (a.z i - st.z i)) := by
    funext i
    have h1 := (step_unit (alpha := alpha) (sigma := sigma) (p := p) (rho := rho) (slv := slv) a).2 i
    rw [← hst] at h1
    rw [h1]
    have := (hr i).ne'
    simp only [Pi.add_apply, hnt]
    field_simp
    ring
  constructor
  · intro i
    have h2 := aux_eq2 hslv a i
    rw [hsx, Matrix.mulVec_add, Matrix.mulVec_smul]
    simp only [Pi.add_apply, Pi.smul_apply, smul_eq_mul]
    have e : (p.A *ᵥ xt) i + (alpha - 1) * (p.A *ᵥ (xt - a.x)) i - st.z i =
        (rho i)⁻¹ * (nt i - a.y i) + (alpha - 1) * (p.A *ᵥ (xt - a.x)) i + -(st.z i - a.z i) := by
      simp only [hxt, hnt]
      linear_combination h2
    rw [e]
    have b1 := abs_mulVec_le p.A (v := xt - a.x) (w := fun _ => δ) hx i
    have b2 : |(alpha - 1) * (p.A *ᵥ (xt - a.x)) i| ≤ |alpha - 1| * (δ * ∑ j, |p.A i j|) := by
      rw [abs_mul]
      refine mul_le_mul_of_nonneg_left (le_trans b1 (le_of_eq ?_)) (abs_nonneg _)
      rw [Finset.mul_sum]; exact Finset.sum_congr rfl fun _ _ => mul_comm _ _
    have b3 := hz i
    have b4 := hy i
    refine le_trans (abs_add_le _ _) ?_
    rw [abs_neg]
    have b5 := abs_add_le ((rho i)⁻¹ * (nt i - a.y i)) ((alpha - 1) * (p.A *ᵥ (xt - a.x)) i)
    have : |(rho i)⁻¹ * (nt i - a.y i)| ≤ δ := b4
    linarith
  · intro j
    have h1 := aux_eq1 hP hslv a j
    have e : (p.P *ᵥ st.x) j + p.q j + (p.Aᵀ *ᵥ st.y) j =
        -(sigma * (xt j - a.x j)) + (alpha - 1) * (p.P *ᵥ (xt - a.x)) j +
        (p.Aᵀ *ᵥ fun i => rho i * ((alpha - 1) * ((rho i)⁻¹ * (nt i - a.y i)) + (a.z i - st.z i))) j := by
      rw [hsx, hsy, Matrix.mulVec_add, Matrix.mulVec_smul, Matrix.mulVec_add]
      simp only [Pi.add_apply, Pi.smul_apply, smul_eq_mul]
      simp only [hxt, hnt] at h1 ⊢
      linear_combination h1
    rw [e]
    have b1 := abs_mulVec_le p.P (v := xt - a.x) (w := fun _ => δ) hx j
    have b2 : |(alpha - 1) * (p.P *ᵥ (xt - a.x)) j| ≤ |alpha - 1| * (δ * ∑ k, |p.P j k|) := by
      rw [abs_mul]
      refine mul_le_mul_of_nonneg_left (le_trans b1 (le_of_eq ?_)) (abs_nonneg _)
      rw [Finset.mul_sum]; exact Finset.sum_congr rfl fun _ _ => mul_comm _ _
    have b3 : |-(sigma * (xt j - a.x j))| ≤ sigma * δ := by
      rw [abs_neg, abs_mul, abs_of_nonneg hsig]
      exact mul_le_mul_of_nonneg_left (hx j) hsig
    have b4 := abs_mulVec_le p.Aᵀ
      (v := fun i => rho i * ((alpha - 1) * ((rho i)⁻¹ * (nt i - a.y i)) + (a.z i - st.z i)))
      (w := fun i => rho i * ((|alpha - 1| + alpha) * δ)) (fun i => by
        rw [abs_mul, abs_of_pos (hr i)]
        refine mul_le_mul_of_nonneg_left (le_trans (abs_add_le _ _) ?_) (hr i).le
        rw [abs_mul, abs_sub_comm (a.z i)]
        have := mul_le_mul_of_nonneg_left (hy i) (abs_nonneg (alpha - 1))
        have h3 := hz i
        have : |alpha - 1| * |(rho i)⁻¹ * (nt i - a.y i)| ≤ |alpha - 1| * δ := this
        linarith) j
    have b5 : ∑ i, |p.Aᵀ j i| * (rho i * ((|alpha - 1| + alpha) * δ)) =
        δ * ((|alpha - 1| + alpha) * ∑ i, |p.A i j| * rho i) := by
      rw [Finset.mul_sum, Finset.mul_sum]
      refine Finset.sum_congr rfl fun i _ => ?_
      rw [Matrix.transpose_apply]; ring
    rw [b5] at b4
    refine le_trans (abs_add_le _ _) ?_
    have b6 := abs_add_le (-(sigma * (xt j - a.x j))) ((alpha - 1) * (p.P *ᵥ (xt - a.x)) j)
    linarith

/-- The size of the steps of a run: `N` steps towards a solution. -/
theorem run_rate (hP : Lin.PSD p.P) (ha : 0 < alpha) (ha' : alpha < 2) (hsig : 0 ≤ sigma) (hr : ∀ i, 0 < rho i)
    (hrow : ∀ i, RowOk (p.l i) (p.u i)) (hslv : ∀ b, symUpper (kkt sigma p Scaling.unit rho) *ᵥ slv b = b)
    {t : ℕ → It F n m} (ht : ∀ k, t (k + 1) = step alpha sigma p Scaling.unit rho slv (t k)) {b : It F n m} (hgb : ZBox p b)
    (hb : step alpha sigma p Scaling.unit rho slv b = b) (N : ℕ) :
    dist2 sigma rho (t (N + 1)) b + (N : F) * ((2 - alpha) / alpha * dist2 sigma rho (t (N + 2)) (t (N + 1))) ≤
      dist2 sigma rho (t 1) b := by
  have hg : ∀ k, ZBox p (t (k + 1)) := fun k => by rw [ht]; exact step_good hrow hr _
  have hc : 0 ≤ (2 - alpha) / alpha := div_nonneg (by linarith) ha.le
  have hmono : ∀ k, dist2 sigma rho (t (k + 3)) (t (k + 2)) ≤ dist2 sigma rho (t (k + 2)) (t (k + 1)) := by
    intro k
    have := step_nonexpansive (slv := slv) hP ha.le ha'.le hsig hr hslv (hg (k + 1)) (hg k)
    rw [← ht, ← ht] at this
    exact this
  induction N with
  | zero => simp
  | succ N ih =>
    have h1 := step_fejer (slv := slv) hP ha hr hslv (hg N) hgb hb
    rw [← ht] at h1
    have h2 := mul_le_mul_of_nonneg_left (hmono N) hc
    have h3 := mul_le_mul_of_nonneg_left h2 (Nat.cast_nonneg (α := F) N)
    push_cast
    linarith

/-- The size of the steps does not grow. -/
theorem run_mono (hP : Lin.PSD p.P) (ha : 0 < alpha) (ha' : alpha < 2) (hsig : 0 ≤ sigma) (hr : ∀ i, 0 < rho i)
    (hrow : ∀ i, RowOk (p.l i) (p.u i)) (hslv : ∀ b, symUpper (kkt sigma p Scaling.unit rho) *ᵥ slv b = b)
    {t : ℕ → It F n m} (ht : ∀ k, t (k + 1) = step alpha sigma p Scaling.unit rho slv (t k)) (k : ℕ) :
    dist2 sigma rho (t (k + 3)) (t (k + 2)) ≤ dist2 sigma rho (t (k + 2)) (t (k + 1)) := by
  have hg : ∀ k, ZBox p (t (k + 1)) := fun k => by rw [ht]; exact step_good hrow hr _
  have := step_nonexpansive (slv := slv) hP ha.le ha'.le hsig hr hslv (hg (k + 1)) (hg k)
  rw [← ht, ← ht] at this
  exact this

end


end Verif.QP
