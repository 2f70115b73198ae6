import Verif.Props.QPConvReal
import Mathlib.Analysis.SpecificLimits.Basic
import Mathlib.Analysis.Real.Sqrt

/-!
# The polish step converges to the solution on the active rows (C104)

Refinement with the perturbed matrix is the resolvent iteration of a monotone operator. That depends on the signs of the
perturbation.
-/

set_option linter.unusedSectionVars false

namespace Verif.QP

open Matrix Verif.QPSpec Filter Topology

section Generic

variable {F : Type*} [Field F] [LinearOrder F] [IsStrictOrderedRing F] {ι : Type*} [Fintype ι]

/-- One pass of the refinement. -/
def pass (K : Matrix ι ι F) (h : ι → F) (slv : (ι → F) → (ι → F)) (t : ι → F) : ι → F := t + slv (h - K *ᵥ t)

theorem refine_iterate (K : Matrix ι ι F) (h : ι → F) (slv : (ι → F) → (ι → F)) (k : ℕ) (t : ι → F) :
    refine K h slv k t = (pass K h slv)^[k] t := by
  induction k generalizing t with
  | zero => rfl
  | succ k ih => rw [refine, ih, Function.iterate_succ_apply]; rfl

/-- Square of the Euclidean norm. -/
def nsq (v : ι → F) : F := ∑ a, v a ^ 2

theorem nsq_nonneg (v : ι → F) : 0 ≤ nsq v := Finset.sum_nonneg fun _ _ => sq_nonneg _

variable {K E : Matrix ι ι F} {h : ι → F} {slv : (ι → F) → (ι → F)} {J : ι → F} {δ : F}

theorem pass_eq (hE : ∀ v a, (E *ᵥ v) a = δ * J a * v a) (hslv : ∀ b, (K + E) *ᵥ slv b = b) (t : ι → F) (a : ι) :
    (K *ᵥ pass K h slv t) a + δ * J a * (pass K h slv t a - t a) = h a := by
  have h1 := congrFun (hslv (h - K *ᵥ t)) a
  rw [add_mulVec] at h1
  simp only [Pi.add_apply, Pi.sub_apply, hE] at h1
  unfold pass
  rw [mulVec_add]
  simp only [Pi.add_apply]
  linear_combination h1

/-- The inequality behind everything: a step of the resolvent of a monotone operator. -/
theorem resolvent (hδ : 0 < δ) (hJ : ∀ a, J a * J a = 1) (hmono : ∀ v, 0 ≤ ∑ a, J a * v a * (K *ᵥ v) a) {e d : ι → F}
    (h0 : ∀ a, (K *ᵥ e) a + δ * J a * d a = 0) : nsq e + nsq d ≤ nsq (e - d) := by
  have h1 : ∑ a, J a * e a * (K *ᵥ e) a = -δ * ∑ a, e a * d a := by
    rw [Finset.mul_sum]
    refine Finset.sum_congr rfl fun a _ => ?_
    linear_combination (J a * e a) * h0 a - δ * e a * d a * hJ a
  have h2 := hmono e
  rw [h1] at h2
  have h3 : ∑ a, e a * d a ≤ 0 := by
    by_contra hc
    have := mul_pos hδ (not_le.1 hc)
    linarith
  have h4 : nsq (e - d) = nsq e + nsq d - 2 * ∑ a, e a * d a := by
    unfold nsq
    rw [Finset.mul_sum, ← Finset.sum_add_distrib, ← Finset.sum_sub_distrib]
    exact Finset.sum_congr rfl fun a _ => by simp only [Pi.sub_apply]; ring
  linarith

variable (hδ : 0 < δ) (hJ : ∀ a, J a * J a = 1) (hmono : ∀ v, 0 ≤ ∑ a, J a * v a * (K *ᵥ v) a)
  (hE : ∀ v a, (E *ᵥ v) a = δ * J a * v a) (hslv : ∀ b, (K + E) *ᵥ slv b = b)

include hδ hJ hmono hE hslv

theorem pass_closer {w : ι → F} (hw : K *ᵥ w = h) (t : ι → F) :
    nsq (pass K h slv t - w) + nsq (pass K h slv t - t) ≤ nsq (t - w) := by
  have := resolvent (e := pass K h slv t - w) (d := pass K h slv t - t) hδ hJ hmono fun a => by
    rw [mulVec_sub, hw]
    have := pass_eq (h := h) hE hslv t a
    simp only [Pi.sub_apply]
    linear_combination this
  rwa [sub_sub_sub_cancel_left] at this

theorem pass_slower (t : ι → F) :
    nsq (pass K h slv (pass K h slv t) - pass K h slv t) ≤ nsq (pass K h slv t - t) := by
  set t1 := pass K h slv t with h1
  set t2 := pass K h slv t1 with h2
  have := resolvent (e := t2 - t1) (d := (t2 - t1) - (t1 - t)) hδ hJ hmono fun a => by
    rw [mulVec_sub]
    have e1 := pass_eq (h := h) hE hslv t a
    have e2 := pass_eq (h := h) hE hslv t1 a
    simp only [Pi.sub_apply, ← h1, ← h2] at e1 e2 ⊢
    linear_combination e2 - e1
  rw [sub_sub_cancel] at this
  linarith [nsq_nonneg ((t2 - t1) - (t1 - t))]

/-- After `k` passes from zero: not farther from any solution than zero is, and the residual is of order `1 / sqrt k`. -/
theorem passes {w : ι → F} (hw : K *ᵥ w = h) (k : ℕ) :
    nsq ((pass K h slv)^[k] 0 - w) ≤ nsq w ∧
    (k : F) * nsq (h - K *ᵥ (pass K h slv)^[k] 0) ≤ δ ^ 2 * nsq w := by
  set f := pass K h slv with hf
  have hc : ∀ k, nsq (f^[k + 1] 0 - w) + nsq (f^[k + 1] 0 - f^[k] 0) ≤ nsq (f^[k] 0 - w) := fun k => by
    rw [Function.iterate_succ_apply']
    exact pass_closer hδ hJ hmono hE hslv hw _
  have hs : ∀ k, nsq (f^[k + 2] 0 - f^[k + 1] 0) ≤ nsq (f^[k + 1] 0 - f^[k] 0) := fun k => by
    rw [Function.iterate_succ_apply' f (k + 1), Function.iterate_succ_apply' f k]
    exact pass_slower hδ hJ hmono hE hslv _
  have h0 : nsq (f^[0] 0 - w) = nsq w := by
    unfold nsq; exact Finset.sum_congr rfl fun a _ => by simp
  have key : ∀ k : ℕ, ((k : F) + 1) * nsq (f^[k + 1] 0 - f^[k] 0) + nsq (f^[k + 1] 0 - w) ≤ nsq w := by
    intro k
    induction k with
    | zero => have := hc 0; rw [h0] at this; push_cast; linarith
    | succ k ih =>
      have h1 := hc (k + 1)
      have h2 := mul_le_mul_of_nonneg_left (hs k) (by positivity : (0 : F) ≤ (k : F) + 1)
      push_cast
      linarith
  cases k with
  | zero =>
    refine ⟨h0.le, ?_⟩
    rw [Nat.cast_zero, zero_mul]
    exact mul_nonneg (sq_nonneg _) (nsq_nonneg _)
  | succ k =>
    have hk := key k
    have hp : 0 ≤ ((k : F) + 1) * nsq (f^[k + 1] 0 - f^[k] 0) := mul_nonneg (by positivity) (nsq_nonneg _)
    refine ⟨by linarith, ?_⟩
    have hres : nsq (h - K *ᵥ f^[k + 1] 0) = δ ^ 2 * nsq (f^[k + 1] 0 - f^[k] 0) := by
      unfold nsq
      rw [Finset.mul_sum]
      refine Finset.sum_congr rfl fun a _ => ?_
      have := pass_eq (h := h) hE hslv (f^[k] 0) a
      rw [← hf, ← Function.iterate_succ_apply' f k] at this
      have e : (h - K *ᵥ f^[k + 1] 0) a = δ * J a * (f^[k + 1] 0 - f^[k] 0) a := by
        simp only [Pi.sub_apply]; linear_combination -this
      rw [e, mul_pow, mul_pow]
      linear_combination (δ ^ 2 * (f^[k + 1] 0 - f^[k] 0) a ^ 2) * hJ a
    rw [hres]
    push_cast
    nlinarith [mul_le_mul_of_nonneg_left (show ((k : F) + 1) * nsq (f^[k + 1] 0 - f^[k] 0) ≤ nsq w by
      linarith [nsq_nonneg (f^[k + 1] 0 - w)]) (sq_nonneg δ)]

end Generic

section Real

variable {ι : Type*} [Fintype ι] {K E : Matrix ι ι ℝ} {h : ι → ℝ} {slv : (ι → ℝ) → (ι → ℝ)} {J : ι → ℝ} {δ : ℝ}

theorem sq_le_nsq (v : ι → ℝ) (a : ι) : v a ^ 2 ≤ nsq v :=
  Finset.single_le_sum (f := fun a => v a ^ 2) (fun _ _ => sq_nonneg _) (Finset.mem_univ a)

theorem nsq_continuous : Continuous (nsq : (ι → ℝ) → ℝ) := by
  unfold nsq; fun_prop

/-- The passes converge to a solution if there is one. -/
theorem passes_converge (hδ : 0 < δ) (hJ : ∀ a, J a * J a = 1) (hmono : ∀ v, 0 ≤ ∑ a, J a * v a * (K *ᵥ v) a)
    (hE : ∀ v a, (E *ᵥ v) a = δ * J a * v a) (hslv : ∀ b, (K + E) *ᵥ slv b = b) {w : ι → ℝ} (hw : K *ᵥ w = h) :
    ∃ w', K *ᵥ w' = h ∧ Tendsto (fun k => (pass K h slv)^[k] 0) atTop (𝓝 w') := by
  have hp := passes hδ hJ hmono hE hslv hw
  have hcl := fun {w} (hw : K *ᵥ w = h) => pass_closer hδ hJ hmono hE hslv hw
  set f := pass K h slv with hf
  set t : ℕ → ι → ℝ := fun k => f^[k] 0 with ht
  have hb : ∀ k, t k ∈ Metric.closedBall w (nsq w + 1) := by
    intro k
    rw [Metric.mem_closedBall, dist_pi_le_iff (by linarith [nsq_nonneg w])]
    intro a
    rw [Real.dist_eq]
    have h1 := (sq_le_nsq (t k - w) a).trans (hp k).1
    rw [Pi.sub_apply] at h1
    have h2 := nsq_nonneg w
    refine abs_le_of_sq_le_sq ?_ (by linarith)
    nlinarith
  obtain ⟨w', -, φ, hφ, hlim⟩ := tendsto_subseq_of_bounded Metric.isBounded_closedBall hb
  have hK : Continuous fun v : ι → ℝ => nsq (h - K *ᵥ v) :=
    nsq_continuous.comp (continuous_const.sub (continuous_const.matrix_mulVec continuous_id))
  have hres : Tendsto (fun k => nsq (h - K *ᵥ t k)) atTop (𝓝 0) := by
    have h1 : Tendsto (fun k : ℕ => δ ^ 2 * nsq w * (k : ℝ)⁻¹) atTop (𝓝 0) := by
      simpa using (tendsto_inv_atTop_nhds_zero_nat (𝕜 := ℝ)).const_mul (δ ^ 2 * nsq w)
    refine squeeze_zero' (Eventually.of_forall fun k => nsq_nonneg _) ?_ h1
    filter_upwards [eventually_gt_atTop 0] with k hk
    have hk' : (0 : ℝ) < k := Nat.cast_pos.2 hk
    rw [← div_eq_mul_inv, le_div_iff₀ hk', mul_comm]
    exact (hp k).2
  have h0 : nsq (h - K *ᵥ w') = 0 :=
    tendsto_nhds_unique ((hK.tendsto w').comp hlim) (hres.comp hφ.tendsto_atTop)
  have hw' : K *ᵥ w' = h := by
    funext a
    have h1 := (sq_le_nsq (h - K *ᵥ w') a).trans h0.le
    have h2 : (h - K *ᵥ w') a = 0 := by
      have := le_antisymm h1 (sq_nonneg _)
      exact pow_eq_zero_iff (two_ne_zero) |>.1 this
    rw [Pi.sub_apply] at h2
    linarith
  refine ⟨w', hw', ?_⟩
  have hanti : Antitone fun k => nsq (t k - w') := antitone_nat_of_succ_le fun k => by
    have h1 := hcl hw' (t k)
    have h2 : t (k + 1) = f (t k) := Function.iterate_succ_apply' f k 0
    rw [← h2] at h1
    linarith [nsq_nonneg (t (k + 1) - t k)]
  have hsub : Tendsto (fun k => nsq (t (φ k) - w')) atTop (𝓝 0) := by
    have h1 : Continuous fun v : ι → ℝ => nsq (v - w') := nsq_continuous.comp (continuous_id.sub continuous_const)
    have h2 := (h1.tendsto w').comp hlim
    have h3 : nsq (w' - w') = 0 := by unfold nsq; simp
    rw [h3] at h2
    exact h2
  have hall : Tendsto (fun k => nsq (t k - w')) atTop (𝓝 0) := by
    rw [Metric.tendsto_atTop] at hsub ⊢
    intro ε hε
    obtain ⟨N, hN⟩ := hsub ε hε
    refine ⟨φ N, fun k hk => ?_⟩
    have h1 := hN N le_rfl
    rw [Real.dist_eq, sub_zero, abs_of_nonneg (nsq_nonneg _)] at h1 ⊢
    exact lt_of_le_of_lt (hanti hk) h1
  rw [tendsto_pi_nhds]
  intro a
  have h1 : Tendsto (fun k => (t k a - w' a) ^ 2) atTop (𝓝 0) :=
    squeeze_zero (fun _ => sq_nonneg _) (fun k => sq_le_nsq (t k - w') a) hall
  have h2 : Tendsto (fun k => |t k a - w' a|) atTop (𝓝 0) := by
    have := (Real.continuous_sqrt.tendsto 0).comp h1
    rw [Real.sqrt_zero] at this
    exact this.congr fun k => Real.sqrt_sq_eq_abs _
  have h3 := (tendsto_zero_iff_abs_tendsto_zero _).2 h2
  have := h3.add_const (w' a)
  simpa using this

end Real

/-! ### The system of the polish step -/

variable {F : Type*} [Field F] [LinearOrder F] [IsStrictOrderedRing F] {n m : ℕ}
  {env : Env F n} {prm : Params F} {p : Pbm F n m} {s : Scaling F n m}

/-- `(x, y)` is stationary with multipliers on the rows `lo` and `up` only, and meets the lower bounds of the rows `lo`
and the upper bounds of the rows `up` with equality. -/
def OnActive (p : Pbm F n m) (lo up : Fin m → Prop) (x : Fin n → F) (y : Fin m → F) : Prop :=
  p.P *ᵥ x + p.q + p.Aᵀ *ᵥ y = 0 ∧ (∀ i, ¬ lo i → ¬ up i → y i = 0) ∧
    (∀ i, lo i → p.l i = .fin ((p.A *ᵥ x) i)) ∧ ∀ i, up i → p.u i = .fin ((p.A *ᵥ x) i)

/-- Signs of the perturbation. -/
def sgn {n k : ℕ} : Fin n ⊕ Fin k → F
  | .inl _ => 1
  | .inr _ => -1

theorem symUpper_reg (delta : F) (k : ℕ) (v : Fin n ⊕ Fin k → F) (a : Fin n ⊕ Fin k) :
    (symUpper (polishReg delta k) *ᵥ v) a = delta * sgn a * v a := by
  have h : symUpper (polishReg delta k) = Matrix.diagonal fun a : Fin n ⊕ Fin k => delta * sgn a := by
    ext a b
    rcases a with i | i <;> rcases b with j | j <;> simp only [symUpper, polishReg, Matrix.diagonal, Matrix.of_apply, sgn]
    · by_cases hij : i = j
      · subst hij; simp
      · simp [hij, Ne.symm hij]
    · simp
    · simp
    · by_cases hij : i = j
      · subst hij; simp
      · simp [hij, Ne.symm hij]
  rw [h, mulVec_diagonal]

theorem symUpper_add {k : ℕ} (A B : Matrix (Fin n ⊕ Fin k) (Fin n ⊕ Fin k) F) :
    symUpper (A + B) = symUpper A + symUpper B := by
  ext a b
  rcases a with i | i <;> rcases b with j | j <;> simp only [symUpper, Matrix.add_apply] <;> split_ifs <;> rfl

theorem polishH_inl (hP : p.P.IsSymm) (L : List (Fin m)) (t : Fin n ⊕ Fin L.length → F) (j : Fin n) :
    (symUpper (polishH p s L) *ᵥ t) (.inl j) = s.c * s.sx j * (p.P *ᵥ s.unX fun j => t (.inl j)) j +
        s.sx j * ∑ k : Fin L.length, p.A (L.get k) j * (s.sy (L.get k) * t (.inr k)) := by
  simp only [Matrix.mulVec, dotProduct, Fintype.sum_sum_type, symUpper, polishH, Scaling.unX]
  congr 1
  · rw [Finset.mul_sum]
    refine Finset.sum_congr rfl fun i _ => ?_
    rw [hP.apply]
    split <;> ring
  · rw [Finset.mul_sum]
    exact Finset.sum_congr rfl fun i _ => by ring

theorem polishH_inr (L : List (Fin m)) (t : Fin n ⊕ Fin L.length → F) (k : Fin L.length) :
    (symUpper (polishH p s L) *ᵥ t) (.inr k) = s.sy (L.get k) * (p.A *ᵥ s.unX fun j => t (.inl j)) (L.get k) := by
  simp only [Matrix.mulVec, dotProduct, Fintype.sum_sum_type, symUpper, polishH, Scaling.unX, ite_self, zero_mul,
    Finset.sum_const_zero, add_zero]
  rw [Finset.mul_sum]
  exact Finset.sum_congr rfl fun j _ => by ring

theorem sgn_sq {k : ℕ} (a : Fin n ⊕ Fin k) : (sgn a : F) * sgn a = 1 := by rcases a with i | i <;> simp [sgn]

/-- With the signs of the perturbation the reduced matrix of a convex program is monotone. -/
theorem polishH_mono (hP : Lin.PSD p.P) (hs : s.Pos) (L : List (Fin m)) (v : Fin n ⊕ Fin L.length → F) :
    0 ≤ ∑ a, sgn a * v a * (symUpper (polishH p s L) *ᵥ v) a := by
  set X := s.unX fun j => v (.inl j) with hX
  have e : ∑ a, sgn a * v a * (symUpper (polishH p s L) *ᵥ v) a = s.c * (X ⬝ᵥ p.P *ᵥ X) := by
    rw [Fintype.sum_sum_type]
    simp only [polishH_inl hP.1, polishH_inr, sgn, ← hX]
    have e1 : ∑ j, 1 * v (.inl j) * (s.c * s.sx j * (p.P *ᵥ X) j +
          s.sx j * ∑ k : Fin L.length, p.A (L.get k) j * (s.sy (L.get k) * v (.inr k))) =
        s.c * (X ⬝ᵥ p.P *ᵥ X) + ∑ j, ∑ k : Fin L.length, p.A (L.get k) j * X j * (s.sy (L.get k) * v (.inr k)) := by
      rw [dotProduct, Finset.mul_sum, ← Finset.sum_add_distrib]
      refine Finset.sum_congr rfl fun j _ => ?_
      have : ∑ k : Fin L.length, p.A (L.get k) j * X j * (s.sy (L.get k) * v (.inr k)) =
          X j * ∑ k : Fin L.length, p.A (L.get k) j * (s.sy (L.get k) * v (.inr k)) := by
        rw [Finset.mul_sum]; exact Finset.sum_congr rfl fun k _ => by ring
      rw [this, hX]
      simp only [Scaling.unX]
      ring
    have e2 : ∑ k : Fin L.length, -1 * v (.inr k) * (s.sy (L.get k) * (p.A *ᵥ X) (L.get k)) =
        -∑ j, ∑ k : Fin L.length, p.A (L.get k) j * X j * (s.sy (L.get k) * v (.inr k)) := by
      rw [Finset.sum_comm, ← Finset.sum_neg_distrib]
      refine Finset.sum_congr rfl fun k _ => ?_
      rw [← Finset.sum_mul]
      simp only [mulVec, dotProduct]
      ring
    rw [e1, e2]; ring
  rw [e]
  exact mul_nonneg hs.1.le (hP.2 X)

/-- **C104.** The perturbed system of the polish step is nonsingular for every convex program, every scaling and every
list of active rows, linearly dependent or not. -/
theorem qp_polish_nonsingular {delta : F} (hd : 0 < delta) (hP : Lin.PSD p.P) (hs : s.Pos) (L : List (Fin m)) :
    (symUpper (polishH p s L + polishReg delta L.length)).det ≠ 0 := by
  intro h0
  obtain ⟨v, hv, hMv⟩ := Matrix.exists_mulVec_eq_zero_iff.2 h0
  rw [symUpper_add, add_mulVec] at hMv
  have h1 := resolvent (K := symUpper (polishH p s L)) (e := v) (d := v) hd sgn_sq (polishH_mono hP hs L) fun a => by
    rw [← symUpper_reg]; exact congrFun hMv a
  rw [sub_self] at h1
  have h2 : nsq (0 : Fin n ⊕ Fin L.length → F) = 0 := by unfold nsq; simp
  rw [h2] at h1
  have h3 := nsq_nonneg v
  have h4 : nsq v = 0 := by linarith
  refine hv (funext fun a => ?_)
  exact pow_eq_zero_iff (two_ne_zero) |>.1 ((Finset.sum_eq_zero_iff_of_nonneg fun a _ => sq_nonneg (v a)).1 h4 a (Finset.mem_univ a))

/-! ### The polish step -/

/-- Row `i` is taken as active at its lower bound. -/
def Lo (eps : F) (p : Pbm F n m) (y : Fin m → F) (i : Fin m) : Prop := y i < -100 * eps ∧ p.l i ≠ .neg

/-- Row `i` is taken as active at its upper bound. -/
def Up (eps : F) (p : Pbm F n m) (y : Fin m → F) (i : Fin m) : Prop := 100 * eps < y i ∧ p.u i ≠ .pos

theorem mem_active {eps : F} {y : Fin m → F} {i : Fin m} : i ∈ activeRows eps p y ↔ Lo eps p y i ∨ Up eps p y i := by
  unfold activeRows
  rw [List.mem_append, mem_lows, mem_ups]
  rfl

/-- The multipliers on the rows of `L`, zero elsewhere. -/
def onRows (L : List (Fin m)) (y : Fin m → F) (i : Fin m) : F := if i ∈ L then y i else 0

theorem sum_active {L : List (Fin m)} (hL : L.Nodup) {g : Fin m → F} (hg : ∀ i, i ∉ L → g i = 0) (j : Fin n) :
    ∑ k : Fin L.length, p.A (L.get k) j * g (L.get k) = (p.Aᵀ *ᵥ g) j := by
  rw [sum_get_eq L hL fun i => p.A i j * g i]
  simp only [mulVec, dotProduct, transpose_apply]
  refine Finset.sum_subset (Finset.subset_univ _) fun i _ hi => ?_
  rw [hg i fun h => hi (List.mem_toFinset.2 h), mul_zero]

theorem sum_active_sq {L : List (Fin m)} (hL : L.Nodup) (g : Fin m → F) :
    ∑ k : Fin L.length, g (L.get k) = ∑ i ∈ L.toFinset, g i := sum_get_eq L hL g

/-- The scaled coordinates of a pair. -/
def pairVec (s : Scaling F n m) (L : List (Fin m)) (x : Fin n → F) (y : Fin m → F) : Fin n ⊕ Fin L.length → F
  | .inl j => (s.sx j)⁻¹ * x j
  | .inr k => s.c * ((s.sy (L.get k))⁻¹ * y (L.get k))

theorem nsq_pairVec {L : List (Fin m)} (hL : L.Nodup) (x : Fin n → F) {y : Fin m → F} (hy : ∀ i, i ∉ L → y i = 0) :
    nsq (pairVec s L x y) = ∑ j, ((s.sx j)⁻¹ * x j) ^ 2 + ∑ i, (s.c * ((s.sy i)⁻¹ * y i)) ^ 2 := by
  unfold nsq
  rw [Fintype.sum_sum_type]
  simp only [pairVec]
  rw [sum_active_sq hL fun i => (s.c * ((s.sy i)⁻¹ * y i)) ^ 2]
  congr 1
  refine Finset.sum_subset (Finset.subset_univ _) fun i _ hi => ?_
  rw [hy i fun h => hi (List.mem_toFinset.2 h)]; ring

theorem get_mem_left {α : Type*} (A B : List α) (k : Fin (A ++ B).length) (hk : (k : ℕ) < A.length) : (A ++ B).get k ∈ A := by
  rw [List.get_eq_getElem, List.getElem_append_left hk]; exact List.getElem_mem _

theorem get_mem_right {α : Type*} (A B : List α) (k : Fin (A ++ B).length) (hk : ¬ (k : ℕ) < A.length) : (A ++ B).get k ∈ B := by
  rw [List.get_eq_getElem, List.getElem_append_right (not_lt.1 hk)]; exact List.getElem_mem _

/-- The bound of a row of the list, as the code picks it. -/
theorem rhs_row {eps : F} {y0 : Fin m → F} {x : Fin n → F} {y : Fin m → F}
    (h : OnActive p (Lo eps p y0) (Up eps p y0) x y) (k : Fin (activeRows eps p y0).length) :
    polishRhs p s ((List.finRange m).filter (lowActive eps p y0)).length (activeRows eps p y0) (.inr k) =
      s.sy ((activeRows eps p y0).get k) * (p.A *ᵥ x) ((activeRows eps p y0).get k) := by
  simp only [polishRhs]
  split_ifs with hk
  · have hm : (activeRows eps p y0).get k ∈ (List.finRange m).filter (lowActive eps p y0) :=
      get_mem_left _ _ k hk
    rw [h.2.2.1 _ (mem_lows.1 hm)]
    rfl
  · have hm : (activeRows eps p y0).get k ∈ (List.finRange m).filter (upActive eps p y0) :=
      get_mem_right _ _ k hk
    rw [h.2.2.2 _ (mem_ups.1 hm)]
    rfl

theorem onActive_solves {eps : F} (heps : 0 ≤ eps) (hP : p.P.IsSymm) (hs : s.Pos) {y0 : Fin m → F} {x : Fin n → F}
    {y : Fin m → F} (h : OnActive p (Lo eps p y0) (Up eps p y0) x y) :
    symUpper (polishH p s (activeRows eps p y0)) *ᵥ pairVec s (activeRows eps p y0) x y =
      polishRhs p s ((List.finRange m).filter (lowActive eps p y0)).length (activeRows eps p y0) := by
  have hnd := activeRows_nodup heps p y0
  have hy : ∀ i, i ∉ activeRows eps p y0 → y i = 0 := fun i hi => by
    rw [mem_active] at hi; push Not at hi; exact h.2.1 i hi.1 hi.2
  have hX : (s.unX fun j => pairVec s (activeRows eps p y0) x y (.inl j)) = x := by
    funext j; simp only [Scaling.unX, pairVec]; rw [mul_inv_cancel_left₀ (hs.2.1 j).ne']
  funext a
  rcases a with j | k
  · rw [polishH_inl hP, hX]
    have e : ∑ k : Fin (activeRows eps p y0).length, p.A ((activeRows eps p y0).get k) j *
        (s.sy ((activeRows eps p y0).get k) * pairVec s (activeRows eps p y0) x y (.inr k)) = s.c * (p.Aᵀ *ᵥ y) j := by
      rw [← sum_active hnd hy j, Finset.mul_sum]
      refine Finset.sum_congr rfl fun k _ => ?_
      simp only [pairVec]
      have := (hs.2.2 ((activeRows eps p y0).get k)).ne'
      field_simp
    rw [e]
    have h1 := congrFun h.1 j
    simp only [Pi.add_apply, Pi.zero_apply] at h1
    simp only [polishRhs]
    linear_combination s.c * s.sx j * h1
  · rw [polishH_inr, hX, rhs_row h k]

theorem dist_identity {L : List (Fin m)} (hnd : L.Nodup) (t : Fin n ⊕ Fin L.length → F) (y0 : Fin m → F) (x : Fin n → F)
    (y : Fin m → F) : nsq (t - pairVec s L x y) = ∑ j, (t (.inl j) - (s.sx j)⁻¹ * x j) ^ 2 +
      ∑ i ∈ L.toFinset, (writeDual L (fun i => t (.inr i)) y0 i - s.c * ((s.sy i)⁻¹ * y i)) ^ 2 := by
  unfold nsq
  rw [Fintype.sum_sum_type, ← sum_active_sq hnd fun i => (writeDual L (fun i => t (.inr i)) y0 i - s.c * ((s.sy i)⁻¹ * y i)) ^ 2]
  simp only [writeDual_get L hnd]
  rfl

theorem residual_identity (hP : p.P.IsSymm) (hs : s.Pos) {L : List (Fin m)} (hnd : L.Nodup) (t rhs : Fin n ⊕ Fin L.length → F)
    (y0 : Fin m → F) {x : Fin n → F} (h1 : ∀ j, rhs (.inl j) = -s.c * (s.sx j * p.q j))
    (h2 : ∀ k, rhs (.inr k) = s.sy (L.get k) * (p.A *ᵥ x) (L.get k)) :
    nsq (rhs - symUpper (polishH p s L) *ᵥ t) =
      ∑ j, (s.c * s.sx j * ((p.P *ᵥ s.unX fun j => t (.inl j)) j + p.q j +
          (p.Aᵀ *ᵥ onRows L (s.unY (writeDual L (fun i => t (.inr i)) y0))) j)) ^ 2 +
        ∑ i ∈ L.toFinset, (s.sy i * ((p.A *ᵥ s.unX fun j => t (.inl j)) i - (p.A *ᵥ x) i)) ^ 2 := by
  unfold nsq
  rw [Fintype.sum_sum_type, ← sum_active_sq hnd fun i => (s.sy i * ((p.A *ᵥ s.unX fun j => t (.inl j)) i - (p.A *ᵥ x) i)) ^ 2]
  congr 1
  · refine Finset.sum_congr rfl fun j _ => ?_
    rw [← sum_active hnd (fun i hi => by simp only [onRows]; rw [if_neg hi]) j, Pi.sub_apply, polishH_inl hP, h1]
    have e : ∑ k : Fin L.length, p.A (L.get k) j * onRows L (s.unY (writeDual L (fun i => t (.inr i)) y0)) (L.get k) =
        (∑ k : Fin L.length, p.A (L.get k) j * (s.sy (L.get k) * t (.inr k))) / s.c := by
      rw [Finset.sum_div]
      refine Finset.sum_congr rfl fun k _ => ?_
      simp only [onRows, Scaling.unY]
      rw [if_pos (List.get_mem L k), writeDual_get L hnd]
      ring
    rw [e]
    have hc := hs.1.ne'
    field_simp
    ring
  · refine Finset.sum_congr rfl fun k _ => ?_
    rw [Pi.sub_apply, polishH_inr, h2 k]
    ring

/-- A factorisation that succeeds on nonsingular matrices. -/
def FactorsAll (env : Env F n) : Prop := ∀ k H, (symUpper H).det ≠ 0 → env.factor k H ≠ none

/-- What the polish step returns. -/
theorem polish_run (hl : LdltOk env) (hf : FactorsAll env) (hd : 0 < prm.delta) (hP : Lin.PSD p.P) (hs : s.Pos)
    (y0 : Fin m → F) : ∃ slv, (∀ b, symUpper (polishH p s (activeRows env.eps p y0)) *ᵥ slv b +
        symUpper (polishReg prm.delta _) *ᵥ slv b = b) ∧
      ∀ k, polish env { prm with polishIter := k } p s y0 =
        .ok (some (fun j => (pass (symUpper (polishH p s (activeRows env.eps p y0)))
            (polishRhs p s ((List.finRange m).filter (lowActive env.eps p y0)).length (activeRows env.eps p y0)) slv)^[k] 0 (.inl j),
          writeDual (activeRows env.eps p y0) (fun i => (pass (symUpper (polishH p s (activeRows env.eps p y0)))
            (polishRhs p s ((List.finRange m).filter (lowActive env.eps p y0)).length (activeRows env.eps p y0)) slv)^[k] 0
              (.inr i)) y0)) := by
  obtain ⟨slv, hslv⟩ := Option.ne_none_iff_exists'.1 (hf _ _ (qp_polish_nonsingular hd hP hs (activeRows env.eps p y0)))
  refine ⟨slv, fun b => ?_, fun k => ?_⟩
  · have := hl _ _ _ hslv b
    rwa [symUpper_add, add_mulVec] at this
  · rw [polish_eq]
    unfold polishWith
    simp only [hslv, refine_iterate]

/-- **C104.** Polishing never fails on a convex program, whatever rows are taken as active. -/
theorem qp_polish_succeeds (hl : LdltOk env) (hf : FactorsAll env) (hd : 0 < prm.delta) (hP : Lin.PSD p.P) (hs : s.Pos)
    (y0 : Fin m → F) : ∃ xy, polish env prm p s y0 = .ok (some xy) := by
  obtain ⟨slv, -, h⟩ := polish_run hl hf hd hP hs y0
  exact ⟨_, h prm.polishIter⟩

/-- **C104.** If the rows taken as active are the active rows of some pair `(x, y)`, polishing succeeds; the result is no
farther from that pair than zero is, and after `k` passes the sum of the squares of all residuals of the reduced optimality
conditions is at most `delta ^ 2 / k` times the square of the norm of the pair (all in scaled coordinates). -/
theorem qp_polish_residual (hl : LdltOk env) (hf : FactorsAll env) (hd : 0 < prm.delta) (hP : Lin.PSD p.P) (hs : s.Pos)
    (heps : 0 ≤ env.eps) {y0 : Fin m → F} {x : Fin n → F} {y : Fin m → F}
    (h : OnActive p (Lo env.eps p y0) (Up env.eps p y0) x y) :
    ∃ x' y', polish env prm p s y0 = .ok (some (x', y')) ∧
      (∀ i, ¬ Lo env.eps p y0 i → ¬ Up env.eps p y0 i → y' i = y0 i) ∧
      ∑ j, (x' j - (s.sx j)⁻¹ * x j) ^ 2 + ∑ i ∈ (activeRows env.eps p y0).toFinset, (y' i - s.c * ((s.sy i)⁻¹ * y i)) ^ 2 ≤
        ∑ j, ((s.sx j)⁻¹ * x j) ^ 2 + ∑ i, (s.c * ((s.sy i)⁻¹ * y i)) ^ 2 ∧
      (prm.polishIter : F) *
          (∑ j, (s.c * s.sx j * ((p.P *ᵥ s.unX x') j + p.q j +
              (p.Aᵀ *ᵥ onRows (activeRows env.eps p y0) (s.unY y')) j)) ^ 2 +
            ∑ i ∈ (activeRows env.eps p y0).toFinset, (s.sy i * ((p.A *ᵥ s.unX x') i - (p.A *ᵥ x) i)) ^ 2) ≤
        prm.delta ^ 2 * (∑ j, ((s.sx j)⁻¹ * x j) ^ 2 + ∑ i, (s.c * ((s.sy i)⁻¹ * y i)) ^ 2) := by
  obtain ⟨slv, hslv, hrun⟩ := polish_run hl hf hd hP hs y0
  have hnd := activeRows_nodup heps p y0
  have hsol := onActive_solves heps hP.1 hs h
  have hy : ∀ i, i ∉ activeRows env.eps p y0 → y i = 0 := fun i hi => by
    rw [mem_active] at hi; push Not at hi; exact h.2.1 i hi.1 hi.2
  obtain ⟨b1, b2⟩ := passes (E := symUpper (polishReg prm.delta _)) hd sgn_sq (polishH_mono hP hs (activeRows env.eps p y0))
    (symUpper_reg prm.delta _) (fun b => by rw [add_mulVec]; exact hslv b) hsol prm.polishIter
  refine ⟨_, _, hrun prm.polishIter, fun i h1 h2 => writeDual_notMem _ _ _ (by rw [mem_active]; tauto), ?_, ?_⟩
  · rw [nsq_pairVec hnd x hy] at b1
    rw [← dist_identity hnd]
    exact b1
  · rw [nsq_pairVec hnd x hy] at b2
    rw [← residual_identity hP.1 hs hnd _ _ _ (fun _ => rfl) (rhs_row h)]
    exact b2

/-- The pair read off a solution of the reduced system. -/
theorem solves_onActive {eps : F} (heps : 0 ≤ eps) (hP : p.P.IsSymm) (hs : s.Pos) {y0 : Fin m → F} {x : Fin n → F}
    {y : Fin m → F} (h : OnActive p (Lo eps p y0) (Up eps p y0) x y) {w : Fin n ⊕ Fin (activeRows eps p y0).length → F}
    (hw : symUpper (polishH p s (activeRows eps p y0)) *ᵥ w =
      polishRhs p s ((List.finRange m).filter (lowActive eps p y0)).length (activeRows eps p y0)) :
    OnActive p (Lo eps p y0) (Up eps p y0) (s.unX fun j => w (.inl j))
      (onRows (activeRows eps p y0) (s.unY (writeDual (activeRows eps p y0) (fun i => w (.inr i)) y0))) := by
  have hnd := activeRows_nodup heps p y0
  have h0 := residual_identity (y0 := y0) hP hs hnd w _ (fun _ => rfl) (rhs_row (s := s) h)
  rw [hw, sub_self] at h0
  have hz : nsq (0 : Fin n ⊕ Fin (activeRows eps p y0).length → F) = 0 := by unfold nsq; simp
  rw [hz] at h0
  have n1 := Finset.sum_nonneg fun j (_ : j ∈ Finset.univ) => sq_nonneg (s.c * s.sx j * ((p.P *ᵥ s.unX fun j => w (.inl j)) j + p.q j +
          (p.Aᵀ *ᵥ onRows (activeRows eps p y0) (s.unY (writeDual (activeRows eps p y0) (fun i => w (.inr i)) y0))) j))
  have n2 := Finset.sum_nonneg fun i (_ : i ∈ (activeRows eps p y0).toFinset) =>
    sq_nonneg (s.sy i * ((p.A *ᵥ s.unX fun j => w (.inl j)) i - (p.A *ᵥ x) i))
  have z1 := (Finset.sum_eq_zero_iff_of_nonneg fun j _ => sq_nonneg _).1 (le_antisymm (by linarith) n1)
  have z2 := (Finset.sum_eq_zero_iff_of_nonneg fun i _ => sq_nonneg _).1 (le_antisymm (by linarith) n2)
  have hrow : ∀ i, i ∈ activeRows eps p y0 → (p.A *ᵥ s.unX fun j => w (.inl j)) i = (p.A *ᵥ x) i := fun i hi => by
    have h1 := pow_eq_zero_iff (two_ne_zero) |>.1 (z2 i (List.mem_toFinset.2 hi))
    have h2 := (mul_eq_zero.1 h1).resolve_left (hs.2.2 i).ne'
    exact sub_eq_zero.1 h2
  refine ⟨?_, fun i h1 h2 => ?_, fun i hi => ?_, fun i hi => ?_⟩
  · funext j
    have h1 := pow_eq_zero_iff (two_ne_zero) |>.1 (z1 j (Finset.mem_univ j))
    exact (mul_eq_zero.1 h1).resolve_left (mul_pos hs.1 (hs.2.1 j)).ne'
  · simp only [onRows]; rw [if_neg (by rw [mem_active]; tauto)]
  · rw [hrow i (mem_active.2 (Or.inl hi))]; exact h.2.2.1 i hi
  · rw [hrow i (mem_active.2 (Or.inr hi))]; exact h.2.2.2 i hi

/-- A pair on the active rows minimises the objective among the points that agree with it on these rows. -/
theorem onActive_min (hP : Lin.PSD p.P) {lo up : Fin m → Prop} {x : Fin n → F} {y : Fin m → F} (h : OnActive p lo up x y)
    {w : Fin n → F} (hw : ∀ i, lo i ∨ up i → (p.A *ᵥ w) i = (p.A *ᵥ x) i) : cost p x ≤ cost p w := by
  have e1 : y ⬝ᵥ (p.A *ᵥ (w - x)) = 0 := by
    refine Finset.sum_eq_zero fun i _ => ?_
    by_cases hi : lo i ∨ up i
    · rw [mulVec_sub, Pi.sub_apply, hw i hi, sub_self, mul_zero]
    · push Not at hi; rw [h.2.1 i hi.1 hi.2, zero_mul]
  have e2 : (p.P *ᵥ x + p.q + p.Aᵀ *ᵥ y) ⬝ᵥ (w - x) = 0 := by rw [h.1, zero_dotProduct]
  rw [add_dotProduct, add_dotProduct, Matrix.mulVec_transpose, ← Matrix.dotProduct_mulVec, e1, add_zero] at e2
  have e3 := hP.2 (w - x)
  have e4 : x ⬝ᵥ p.P *ᵥ w = w ⬝ᵥ p.P *ᵥ x := by
    rw [dotProduct_comm, Matrix.dotProduct_mulVec, ← Matrix.mulVec_transpose, hP.1.eq, dotProduct_comm, dotProduct_comm]
  rw [mulVec_sub, dotProduct_sub, sub_dotProduct, sub_dotProduct, e4] at e3
  rw [dotProduct_sub, dotProduct_sub, dotProduct_comm, dotProduct_comm (p.P *ᵥ x)] at e2
  unfold cost
  linarith

/-- **C104, limit.** As the number of refinement passes grows the polished pair converges, on the rows taken as active, to
a pair that satisfies the reduced optimality conditions exactly. Its primal part has the least objective among all points
with the same values on the active rows. -/
theorem qp_polish_converges {env : Env ℝ n} {prm : Params ℝ} {p : Pbm ℝ n m} {s : Scaling ℝ n m} (hl : LdltOk env)
    (hf : FactorsAll env) (hd : 0 < prm.delta) (hP : Lin.PSD p.P) (hs : s.Pos) (heps : 0 ≤ env.eps) {y0 : Fin m → ℝ}
    {x : Fin n → ℝ} {y : Fin m → ℝ} (h : OnActive p (Lo env.eps p y0) (Up env.eps p y0) x y) :
    ∃ (X : Fin n → ℝ) (Y : Fin m → ℝ) (xs : ℕ → Fin n → ℝ) (ys : ℕ → Fin m → ℝ),
      (∀ k, polish env { prm with polishIter := k } p s y0 = .ok (some (xs k, ys k))) ∧
      OnActive p (Lo env.eps p y0) (Up env.eps p y0) X Y ∧
      (∀ w, (∀ i, Lo env.eps p y0 i ∨ Up env.eps p y0 i → (p.A *ᵥ w) i = (p.A *ᵥ x) i) → cost p X ≤ cost p w) ∧
      Tendsto (fun k => s.unX (xs k)) atTop (𝓝 X) ∧
      ∀ i, Lo env.eps p y0 i ∨ Up env.eps p y0 i → Tendsto (fun k => s.unY (ys k) i) atTop (𝓝 (Y i)) := by
  obtain ⟨slv, hslv, hrun⟩ := polish_run (prm := prm) hl hf hd hP hs y0
  have hnd := activeRows_nodup heps p y0
  obtain ⟨w', hw', hlim⟩ := passes_converge (E := symUpper (polishReg prm.delta _)) hd sgn_sq
    (polishH_mono hP hs (activeRows env.eps p y0)) (symUpper_reg prm.delta _) (fun b => by rw [add_mulVec]; exact hslv b)
    (onActive_solves heps hP.1 hs h)
  have hA := solves_onActive heps hP.1 hs h hw'
  refine ⟨_, _, _, _, hrun, hA, fun w hw => onActive_min hP hA fun i hi => ?_, ?_, fun i hi => ?_⟩
  · rw [hw i hi]
    rcases hi with hi | hi
    · have h1 := hA.2.2.1 i hi
      rw [h.2.2.1 i hi] at h1
      exact Ext.fin.inj h1
    · have h1 := hA.2.2.2 i hi
      rw [h.2.2.2 i hi] at h1
      exact Ext.fin.inj h1
  · rw [tendsto_pi_nhds] at hlim ⊢
    exact fun j => (hlim (.inl j)).const_mul (s.sx j)
  · have hi' := mem_active.2 hi
    obtain ⟨k, hk⟩ := List.get_of_mem hi'
    subst hk
    simp only [Scaling.unY, onRows]
    rw [if_pos (List.get_mem _ k)]
    simp only [writeDual_get _ hnd]
    rw [tendsto_pi_nhds] at hlim
    exact ((hlim (.inr k)).const_mul _).div_const _

/-- **C104, identification.** The iterates converge to a solution `(x, y)`. If no nonzero multiplier of that solution is
within the activity threshold, then from some iteration on the rows taken as active are those with a nonzero multiplier, so
that polishing succeeds with the bound of `qp_polish_residual`. -/
theorem qp_polish_identifies {env : Env ℝ n} {prm : Params ℝ} {p : Pbm ℝ n m} {s : Scaling ℝ n m}
    {slv : (Fin n ⊕ Fin m → ℝ) → (Fin n ⊕ Fin m → ℝ)} {ws : Option ((Fin n → ℝ) × (Fin m → ℝ))}
    (h : Regular env prm p s slv) (heps : 0 < env.eps) {x0 : Fin n → ℝ} {y0 : Fin m → ℝ} (hk : KKT p x0 y0) :
    ∃ x y, KKT p x y ∧ Tendsto (fun k => s.unX (iterates prm p s slv ws k).x) atTop (𝓝 x) ∧
      Tendsto (fun k => s.unY (iterates prm p s slv ws k).y) atTop (𝓝 y) ∧
      ((∀ i, y i ≠ 0 → 100 * env.eps < |s.c * ((s.sy i)⁻¹ * y i)|) →
        ∀ᶠ k in atTop, (∀ i, Lo env.eps p (iterates prm p s slv ws k).y i ↔ y i < 0) ∧
          (∀ i, Up env.eps p (iterates prm p s slv ws k).y i ↔ 0 < y i) ∧
          OnActive p (Lo env.eps p (iterates prm p s slv ws k).y) (Up env.eps p (iterates prm p s slv ws k).y) x y) := by
  obtain ⟨x, y, hxy, -, h1, h2, -⟩ := qp_iterates_converge (ws := ws) h hk
  refine ⟨x, y, hxy, h1, h2, fun hgap => ?_⟩
  have hs : s.Pos := h.scaling_pos
  have hc := hs.1
  rw [tendsto_pi_nhds] at h2
  have hy : ∀ i, Tendsto (fun k => (iterates prm p s slv ws k).y i) atTop (𝓝 (s.c * ((s.sy i)⁻¹ * y i))) := fun i => by
    have := (h2 i).const_mul (s.c * (s.sy i)⁻¹)
    rw [mul_assoc] at this
    refine this.congr fun k => ?_
    simp only [Scaling.unY]
    have := (hs.2.2 i).ne'
    field_simp
  have hpos : ∀ i, 0 < s.c * (s.sy i)⁻¹ := fun i => mul_pos hc (inv_pos.2 (hs.2.2 i))
  have hev : ∀ i, ∀ᶠ k in atTop, (Lo env.eps p (iterates prm p s slv ws k).y i ↔ y i < 0) ∧
      (Up env.eps p (iterates prm p s slv ws k).y i ↔ 0 < y i) := by
    intro i
    rcases lt_trichotomy (y i) 0 with hi | hi | hi
    · have hl := (hxy.2.2 i).2 hi
      have hg := hgap i hi.ne
      have hneg : s.c * ((s.sy i)⁻¹ * y i) < 0 := by rw [← mul_assoc]; exact mul_neg_of_pos_of_neg (hpos i) hi
      rw [abs_of_neg hneg] at hg
      filter_upwards [(hy i).eventually (gt_mem_nhds (show s.c * ((s.sy i)⁻¹ * y i) < -100 * env.eps by linarith))] with k hk
      refine ⟨⟨fun _ => hi, fun _ => ⟨hk, by rw [hl]; simp⟩⟩, ⟨fun hu => ?_, fun hu => absurd hu (not_lt.2 hi.le)⟩⟩
      have := hu.1
      linarith
    · have h0 : s.c * ((s.sy i)⁻¹ * y i) = 0 := by rw [hi]; ring
      have hl := hy i
      rw [h0] at hl
      filter_upwards [hl.eventually (gt_mem_nhds (show (0 : ℝ) < 100 * env.eps by linarith)),
        hl.eventually (lt_mem_nhds (show -100 * env.eps < (0 : ℝ) by linarith))] with k hk1 hk2
      refine ⟨⟨fun hu => ?_, fun hu => absurd hu (by rw [hi]; exact lt_irrefl _)⟩,
        ⟨fun hu => ?_, fun hu => absurd hu (by rw [hi]; exact lt_irrefl _)⟩⟩
      · have := hu.1; linarith
      · have := hu.1; linarith
    · have hl := (hxy.2.2 i).1 hi
      have hg := hgap i hi.ne'
      have hneg : 0 < s.c * ((s.sy i)⁻¹ * y i) := by rw [← mul_assoc]; exact mul_pos (hpos i) hi
      rw [abs_of_pos hneg] at hg
      filter_upwards [(hy i).eventually (lt_mem_nhds hg)] with k hk
      refine ⟨⟨fun hu => ?_, fun hu => absurd hu (not_lt.2 hi.le)⟩, ⟨fun _ => hi, fun _ => ⟨hk, by rw [hl]; simp⟩⟩⟩
      have := hu.1
      linarith
  filter_upwards [eventually_all.2 hev] with k hk
  refine ⟨fun i => (hk i).1, fun i => (hk i).2, hxy.2.1, fun i h1 h2 => ?_, fun i hi => ?_, fun i hi => ?_⟩
  · rw [(hk i).1] at h1; rw [(hk i).2] at h2; linarith
  · exact (hxy.2.2 i).2 ((hk i).1.1 hi)
  · exact (hxy.2.2 i).1 ((hk i).2.1 hi)

/-- The hypotheses are met: minimise `x ^ 2 / 2 - 2 x` subject to `x ≤ 1` and, redundantly, `2 x ≤ 2`, with both rows taken
as active. The reduced matrix is singular; the perturbed one is not. The pair `x = 1`, `y = (1, 0)` lies on both rows. -/
example : let p : Pbm ℚ 1 2 := ⟨!![1], fun _ => -2, !![1; 2], fun _ => .neg, fun i => .fin (if i = 0 then 1 else 2)⟩
    let y0 : Fin 2 → ℚ := fun _ => 1
    Lin.PSD p.P ∧ (symUpper (polishH p Scaling.unit [0, 1])).det = 0 ∧
      OnActive p (Lo (1 / 4503599627370496) p y0) (Up (1 / 4503599627370496) p y0) (fun _ => 1) ![1, 0] := by
  intro p y0
  refine ⟨⟨by ext i j; fin_cases i; fin_cases j; rfl, fun v => ?_⟩, ?_, ?_, ?_, ?_, ?_⟩
  · simp [p, dotProduct, mulVec]; nlinarith [sq_nonneg (v 0)]
  · have : symUpper (polishH p Scaling.unit [0, 1]) *ᵥ (fun a => match a with | .inl _ => 0 | .inr k => ![2, -1] k) = 0 := by
      funext a; fin_cases a <;> decide +kernel
    exact Matrix.exists_mulVec_eq_zero_iff.1 ⟨_, fun h => absurd (congrFun h (.inr 0)) (by decide +kernel), this⟩
  · funext j; fin_cases j; simp [p, mulVec, dotProduct]; norm_num
  · intro i h1 h2
    refine absurd ?_ h2
    refine ⟨by norm_num [y0], by simp [p]⟩
  · intro i h1
    exact absurd rfl h1.2
  · intro i h1
    fin_cases i <;> simp [p, mulVec, dotProduct]

/-- An exact linear solver factors every nonsingular matrix. -/
example {sqrt : F → F} : FactorsAll (⟨sqrt, 0, exactFactor, 0, fun _ => 0⟩ : Env F n) ∧
    LdltOk (⟨sqrt, 0, exactFactor, 0, fun _ => 0⟩ : Env F n) := by
  refine ⟨fun k H h => ?_, fun _ _ _ h b => exactFactor_ok h b⟩
  change exactFactor k H ≠ none
  unfold exactFactor
  rw [if_neg h]; simp

/-! ### The weights of the rows -/

/-- **C104, weights.** A row without bounds has weight `1e-6`, a row whose bounds are closer than `1e-5` in scaled units
has weight `1000 rho`, every other row has weight `rho`. -/
theorem qp_row_weights (prm : Params F) (p : Pbm F n m) (s : Scaling F n m) (i : Fin m) :
    (p.l i = .neg → p.u i = .pos → rhoVec prm p s i = 1 / 1000000) ∧
    (∀ a b, p.l i = .fin a → p.u i = .fin b →
      (s.sy i * |b - a| < 1 / 100000 → rhoVec prm p s i = 1000 * prm.rho) ∧
      (1 / 100000 ≤ s.sy i * |b - a| → rhoVec prm p s i = prm.rho)) ∧
    (∀ a, p.l i = .fin a → p.u i = .pos → rhoVec prm p s i = prm.rho) ∧
    (∀ b, p.l i = .neg → p.u i = .fin b → rhoVec prm p s i = prm.rho) := by
  unfold rhoVec
  refine ⟨fun h1 h2 => ?_, fun a b h1 h2 => ⟨fun h => ?_, fun h => ?_⟩, fun a h1 h2 => ?_, fun b h1 h2 => ?_⟩ <;>
    rw [h1, h2] <;> simp only [rhoOf]
  · rw [abs_sub_comm] at h; rw [if_pos h]
  · rw [abs_sub_comm] at h; rw [if_neg (not_lt.2 h)]

end Verif.QP
