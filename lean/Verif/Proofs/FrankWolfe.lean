import Verif.Proofs.Farkas
import Verif.Props.QPPolish
import Verif.Props.QPAlways

/-!
# Convex quadratic programs attain their minimum

A feasible convex program over the reals without a direction of unboundedness has a minimiser (Frank and Wolfe).
-/

set_option linter.unusedSectionVars false

namespace Verif.QP

open Matrix Verif.QPSpec Filter Topology

variable {n m : ℕ} {p : Pbm ℝ n m}

theorem box_closed (p : Pbm ℝ n m) : IsClosed {z : Fin m → ℝ | InBox p z} := by
  unfold InBox
  rw [Set.setOf_forall]
  refine isClosed_iInter fun i => ?_
  rw [Set.setOf_and]
  refine IsClosed.inter ?_ ?_
  · cases p.l i with
    | neg => simp only [lower]; exact isClosed_univ
    | pos => simp only [lower]; exact isClosed_empty
    | fin a => exact isClosed_le continuous_const (continuous_apply i)
  · cases p.u i with
    | neg => simp only [upper]; exact isClosed_empty
    | pos => simp only [upper]; exact isClosed_univ
    | fin a => exact isClosed_le (continuous_apply i) continuous_const

theorem feasibleSet_closed (p : Pbm ℝ n m) : IsClosed {x : Fin n → ℝ | Feasible p x} :=
  (box_closed p).preimage (continuous_const.matrix_mulVec continuous_id)

theorem cost_cont (p : Pbm ℝ n m) : Continuous (cost p) := by
  unfold QPSpec.cost
  simp only [dotProduct, mulVec]
  fun_prop

/-- A point of least cost and, among these, of least norm. -/
theorem exists_least {X : Type*} [TopologicalSpace X] {C : Set X} (hC : IsCompact C) (hne : C.Nonempty) {f g : X → ℝ}
    (hf : Continuous f) (hg : Continuous g) : ∃ x ∈ C, (∀ w ∈ C, f x ≤ f w) ∧ ∀ w ∈ C, f w ≤ f x → g x ≤ g w := by
  obtain ⟨x, hx, hmin⟩ := hC.exists_isMinOn hne hf.continuousOn
  obtain ⟨y, hy, hmin'⟩ := (hC.inter_right (isClosed_le hf (continuous_const (y := f x)))).exists_isMinOn
    ⟨x, hx, le_refl (f x)⟩ hg.continuousOn
  have hyx : f y = f x := le_antisymm hy.2 (hmin hy.1)
  exact ⟨y, hy.1, fun w hw => hyx ▸ hmin hw, fun w hw hle => hmin' ⟨hw, hle.trans hyx.le⟩⟩

theorem nsq_smul (c : ℝ) (v : Fin n → ℝ) : nsq (c • v) = c ^ 2 * nsq v := by
  unfold nsq
  rw [Finset.mul_sum]
  exact Finset.sum_congr rfl fun i _ => by simp [mul_pow]

theorem nsq_compact (R : ℝ) : IsCompact {x : Fin n → ℝ | nsq x ≤ R} := by
  refine Metric.isCompact_of_isClosed_isBounded (isClosed_le nsq_continuous continuous_const) ?_
  refine Metric.isBounded_closedBall (x := (0 : Fin n → ℝ)) (r := |R| + 1) |>.subset fun x hx => ?_
  have hx : nsq x ≤ R := hx
  rw [Metric.mem_closedBall, dist_pi_le_iff (by positivity)]
  intro a
  rw [Real.dist_eq, Pi.zero_apply, sub_zero]
  have h1 := (sq_le_nsq x a).trans hx
  refine abs_le_of_sq_le_sq ?_ (by positivity)
  nlinarith [le_abs_self R, abs_nonneg R]

theorem feasible_segment {x w : Fin n → ℝ} (hx : Feasible p x) (hw : Feasible p w) {t : ℝ} (h0 : 0 ≤ t) (h1 : t ≤ 1) :
    Feasible p (x + t • (w - x)) := by
  intro i
  have e : (p.A *ᵥ (x + t • (w - x))) i = (1 - t) * (p.A *ᵥ x) i + t * (p.A *ᵥ w) i := by
    rw [mulVec_line, mulVec_sub, Pi.sub_apply]; ring
  obtain ⟨a1, a2⟩ := hx i
  obtain ⟨b1, b2⟩ := hw i
  rw [e]
  constructor
  · cases hl : p.l i with
    | neg => trivial
    | pos => rw [hl] at a1; exact a1.elim
    | fin a =>
      rw [hl] at a1 b1
      have a1 : a ≤ (p.A *ᵥ x) i := a1
      have b1 : a ≤ (p.A *ᵥ w) i := b1
      change a ≤ _
      nlinarith
  · cases hl : p.u i with
    | pos => trivial
    | neg => rw [hl] at a2; exact a2.elim
    | fin a =>
      rw [hl] at a2 b2
      have a2 : (p.A *ᵥ x) i ≤ a := a2
      have b2 : (p.A *ᵥ w) i ≤ a := b2
      change _ ≤ a
      nlinarith

theorem cost_segment (hP : Lin.PSD p.P) (x w : Fin n → ℝ) {t : ℝ} (h0 : 0 ≤ t) (h1 : t ≤ 1) :
    cost p (x + t • (w - x)) ≤ (1 - t) * cost p x + t * cost p w := by
  have e1 := cost_line hP.1 x (w - x) t
  have e2 := cost_line hP.1 x (w - x) 1
  rw [one_smul, add_sub_cancel] at e2
  have h3 := hP.2 (w - x)
  rw [e1]
  have : t ^ 2 / 2 * ((w - x) ⬝ᵥ p.P *ᵥ (w - x)) ≤ t / 2 * ((w - x) ⬝ᵥ p.P *ᵥ (w - x)) := by
    refine mul_le_mul_of_nonneg_right ?_ h3
    nlinarith
  nlinarith

/-- A minimiser inside a ball is a minimiser. -/
theorem interior_minimiser (hP : Lin.PSD p.P) {x : Fin n → ℝ} {R : ℝ} (hx : Feasible p x) (hR : nsq x < R)
    (hmin : ∀ w, Feasible p w → nsq w ≤ R → cost p x ≤ cost p w) : Minimiser p x := by
  refine ⟨hx, fun w hw => ?_⟩
  by_contra hc
  push Not at hc
  have hcont : Continuous fun t : ℝ => nsq (x + t • (w - x)) := nsq_continuous.comp (by fun_prop)
  have h0 : nsq (x + (0 : ℝ) • (w - x)) < R := by rwa [zero_smul, add_zero]
  have hev := (hcont.tendsto 0).eventually (gt_mem_nhds h0)
  obtain ⟨ε, hε, hball⟩ := Metric.eventually_nhds_iff.1 hev
  set t := min 1 (ε / 2) with ht
  have ht0 : 0 < t := lt_min one_pos (by linarith)
  have ht1 : t ≤ 1 := min_le_left _ _
  have h1 := hball (y := t) (by
    rw [Real.dist_eq, sub_zero, abs_of_pos ht0]
    exact lt_of_le_of_lt (min_le_right _ _) (by linarith))
  have h2 := hmin _ (feasible_segment hx hw ht0.le ht1) h1.le
  have h3 := cost_segment hP x w ht0.le ht1
  nlinarith

/-- **Minimisers exist.** A feasible convex program without a direction of unboundedness has a minimiser. -/
theorem minimiser_exists (hP : Lin.PSD p.P) {x0 : Fin n → ℝ} (hx0 : Feasible p x0) (hrec : ¬ ∃ d, Recession p d) :
    ∃ x, Minimiser p x := by
  by_contra hno
  have hC : ∀ k : ℕ, ∃ x, (Feasible p x ∧ nsq x ≤ nsq x0 + k) ∧
      (∀ w, (Feasible p w ∧ nsq w ≤ nsq x0 + k) → cost p x ≤ cost p w) ∧
      ∀ w, (Feasible p w ∧ nsq w ≤ nsq x0 + k) → cost p w ≤ cost p x → nsq x ≤ nsq w := fun k => by
    obtain ⟨x, h1, h2, h3⟩ := exists_least (C := {x | Feasible p x} ∩ {x | nsq x ≤ nsq x0 + k})
      ((nsq_compact _).inter_left (feasibleSet_closed p)) ⟨x0, hx0, by
        have : (0 : ℝ) ≤ k := Nat.cast_nonneg k
        change nsq x0 ≤ nsq x0 + k
        linarith⟩ (cost_cont p) nsq_continuous
    exact ⟨x, h1, fun w hw => h2 w hw, fun w hw => h3 w hw⟩
  choose x hx hmin hleast using hC
  have hnorm : ∀ k, nsq (x k) = nsq x0 + k := fun k => by
    rcases eq_or_lt_of_le (hx k).2 with h | h
    · exact h
    · exact absurd ⟨x k, interior_minimiser hP (hx k).1 h fun w hw hle => hmin k w ⟨hw, hle⟩⟩ hno
  -- lengths
  set r : ℕ → ℝ := fun k => Real.sqrt (nsq x0 + k + 1) with hr
  have hrpos : ∀ k, 0 < r k := fun k => Real.sqrt_pos.2 (by
    have := nsq_nonneg x0
    have : (0 : ℝ) ≤ k := Nat.cast_nonneg k
    linarith)
  have hrsq : ∀ k, r k ^ 2 = nsq x0 + k + 1 := fun k => Real.sq_sqrt (by
    have := nsq_nonneg x0
    have : (0 : ℝ) ≤ k := Nat.cast_nonneg k
    linarith)
  have hrtop : Tendsto r atTop atTop := by
    refine Real.tendsto_sqrt_atTop.comp ?_
    have : Tendsto (fun k : ℕ => (nsq x0 + 1) + (k : ℝ)) atTop atTop :=
      tendsto_atTop_add_const_left _ _ tendsto_natCast_atTop_atTop
    refine this.congr fun k => by ring
  have hrinv : Tendsto (fun k => (r k)⁻¹) atTop (𝓝 0) := tendsto_inv_atTop_zero.comp hrtop
  set d : ℕ → Fin n → ℝ := fun k => (r k)⁻¹ • x k with hd
  have hxd : ∀ k, x k = r k • d k := fun k => by
    rw [hd]; simp only; rw [smul_smul, mul_inv_cancel₀ (hrpos k).ne', one_smul]
  have hdn : ∀ k, nsq (d k) = 1 - (r k)⁻¹ ^ 2 := fun k => by
    rw [hd]; simp only
    rw [nsq_smul, hnorm, inv_pow]
    have h1 := hrsq k
    have h2 := hrpos k
    field_simp
    linarith
  have hdb : ∀ k, d k ∈ {v : Fin n → ℝ | nsq v ≤ 1} := fun k => by
    change nsq (d k) ≤ 1
    rw [hdn]; nlinarith [sq_nonneg (r k)⁻¹]
  obtain ⟨v, -, φ, hφ, hlim⟩ := (nsq_compact (n := n) 1).tendsto_subseq hdb
  have hrφ := hrtop.comp hφ.tendsto_atTop
  have hiφ := hrinv.comp hφ.tendsto_atTop
  have hvn : nsq v = 1 := by
    have h1 := (nsq_continuous.tendsto v).comp hlim
    have h2 : Tendsto (fun k => 1 - ((r (φ k))⁻¹) ^ 2) atTop (𝓝 1) := by
      have := (hiφ.pow 2).const_sub 1
      simpa using this
    exact tendsto_nhds_unique h1 (h2.congr fun k => (hdn (φ k)).symm)
  have hAlim : ∀ i, Tendsto (fun k => (p.A *ᵥ d (φ k)) i) atTop (𝓝 ((p.A *ᵥ v) i)) := fun i => by
    have hc : Continuous fun w : Fin n → ℝ => (p.A *ᵥ w) i :=
      (continuous_apply i).comp (continuous_const.matrix_mulVec continuous_id)
    exact (hc.tendsto v).comp hlim
  have hAx : ∀ k i, (p.A *ᵥ x k) i = r k * (p.A *ᵥ d k) i := fun k i => by
    conv_lhs => rw [hxd k]
    rw [mulVec_smul]; rfl
  have hup : ∀ i, p.u i ≠ .pos → (p.A *ᵥ v) i ≤ 0 := fun i hi => by
    cases hu : p.u i with
    | pos => exact absurd hu hi
    | neg => have := ((hx 0).1 i).2; rw [hu] at this; exact this.elim
    | fin b =>
      have h1 : Tendsto (fun k => (r (φ k))⁻¹ * b) atTop (𝓝 0) := by simpa using hiφ.mul_const b
      refine le_of_tendsto_of_tendsto' (hAlim i) h1 fun k => ?_
      have h2 := ((hx (φ k)).1 i).2
      rw [hu] at h2
      have h2 : (p.A *ᵥ x (φ k)) i ≤ b := h2
      rw [hAx] at h2
      rw [inv_mul_eq_div, le_div_iff₀ (hrpos _), mul_comm]
      exact h2
  have hlo : ∀ i, p.l i ≠ .neg → 0 ≤ (p.A *ᵥ v) i := fun i hi => by
    cases hu : p.l i with
    | neg => exact absurd hu hi
    | pos => have := ((hx 0).1 i).1; rw [hu] at this; exact this.elim
    | fin b =>
      have h1 : Tendsto (fun k => (r (φ k))⁻¹ * b) atTop (𝓝 0) := by simpa using hiφ.mul_const b
      refine le_of_tendsto_of_tendsto' h1 (hAlim i) fun k => ?_
      have h2 := ((hx (φ k)).1 i).1
      rw [hu] at h2
      have h2 : b ≤ (p.A *ᵥ x (φ k)) i := h2
      rw [hAx] at h2
      rw [inv_mul_eq_div, div_le_iff₀ (hrpos _), mul_comm]
      exact h2
  -- the limit direction neither raises nor lowers the cost
  have hcost : ∀ k, r k ^ 2 / 2 * (d k ⬝ᵥ p.P *ᵥ d k) + r k * (p.q ⬝ᵥ d k) ≤ cost p x0 := fun k => by
    have h1 := hmin k x0 ⟨hx0, by
      have : (0 : ℝ) ≤ k := Nat.cast_nonneg k
      linarith⟩
    have h2 : cost p (x k) = r k ^ 2 / 2 * (d k ⬝ᵥ p.P *ᵥ d k) + r k * (p.q ⬝ᵥ d k) := by
      conv_lhs => rw [hxd k]
      unfold cost
      rw [mulVec_smul, smul_dotProduct, dotProduct_smul, dotProduct_smul]
      simp only [smul_eq_mul]
      ring
    rw [← h2]; exact h1
  have hqlim : Tendsto (fun k => p.q ⬝ᵥ d (φ k)) atTop (𝓝 (p.q ⬝ᵥ v)) := by
    have hc : Continuous fun w : Fin n → ℝ => p.q ⬝ᵥ w := by simp only [dotProduct]; fun_prop
    exact (hc.tendsto v).comp hlim
  have hPlim : Tendsto (fun k => d (φ k) ⬝ᵥ p.P *ᵥ d (φ k)) atTop (𝓝 (v ⬝ᵥ p.P *ᵥ v)) := by
    have hc : Continuous fun w : Fin n → ℝ => w ⬝ᵥ p.P *ᵥ w := by simp only [dotProduct, mulVec]; fun_prop
    exact (hc.tendsto v).comp hlim
  have hPv : p.P *ᵥ v = 0 := by
    refine psd_kernel hP (le_antisymm ?_ (hP.2 v))
    have h1 : Tendsto (fun k => 2 * ((r (φ k))⁻¹ * ((r (φ k))⁻¹ * cost p x0) - (r (φ k))⁻¹ * (p.q ⬝ᵥ d (φ k)))) atTop (𝓝 0) := by
      have := ((hiφ.mul (hiφ.mul_const (cost p x0))).sub (hiφ.mul hqlim)).const_mul 2
      simpa using this
    refine le_of_tendsto_of_tendsto' hPlim h1 fun k => ?_
    have h2 := hcost (φ k)
    have h3 := hrpos (φ k)
    have h4 : r (φ k) * (r (φ k))⁻¹ = 1 := mul_inv_cancel₀ h3.ne'
    set ρ := r (φ k)
    set η := ρ⁻¹
    have h5 : 0 < η := inv_pos.2 h3
    have h6 := mul_le_mul_of_nonneg_left h2 (by positivity : 0 ≤ 2 * η ^ 2)
    have e : 2 * η ^ 2 * (ρ ^ 2 / 2 * (d (φ k) ⬝ᵥ p.P *ᵥ d (φ k)) + ρ * (p.q ⬝ᵥ d (φ k))) =
        (d (φ k) ⬝ᵥ p.P *ᵥ d (φ k)) + 2 * η * (p.q ⬝ᵥ d (φ k)) := by
      linear_combination ((ρ * η + 1) * (d (φ k) ⬝ᵥ p.P *ᵥ d (φ k)) + 2 * η * (p.q ⬝ᵥ d (φ k))) * h4
    rw [e] at h6
    linarith
  have hqv : p.q ⬝ᵥ v = 0 := by
    have hle : p.q ⬝ᵥ v ≤ 0 := by
      have h1 : Tendsto (fun k => (r (φ k))⁻¹ * cost p x0) atTop (𝓝 0) := by simpa using hiφ.mul_const (cost p x0)
      refine le_of_tendsto_of_tendsto' hqlim h1 fun k => ?_
      have h2 := hcost (φ k)
      have h3 := mul_nonneg (by positivity : 0 ≤ r (φ k) ^ 2 / 2) (hP.2 (d (φ k)))
      rw [inv_mul_eq_div, le_div_iff₀ (hrpos _), mul_comm]
      linarith
    refine le_antisymm hle (not_lt.1 fun hlt => hrec ⟨v, hPv, hlt, fun i => ⟨hup i, hlo i⟩⟩)
  -- going back along it is feasible far out
  have hback : ∀ᶠ k in atTop, ∀ i, lower (p.l i) ((p.A *ᵥ x (φ k)) i - (p.A *ᵥ v) i) ∧
      upper (p.u i) ((p.A *ᵥ x (φ k)) i - (p.A *ᵥ v) i) := by
    refine eventually_all.2 fun i => ?_
    rw [eventually_and]
    constructor
    · cases hl : p.l i with
      | neg => exact Eventually.of_forall fun _ => trivial
      | pos => have := ((hx 0).1 i).1; rw [hl] at this; exact this.elim
      | fin b =>
        have h0 := hlo i (by rw [hl]; simp)
        have hxk : ∀ k, b ≤ (p.A *ᵥ x (φ k)) i := fun k => by
          have h2 := ((hx (φ k)).1 i).1
          rw [hl] at h2
          exact h2
        rcases eq_or_lt_of_le h0 with h | h
        · refine Eventually.of_forall fun k => ?_
          change b ≤ _
          rw [← h, sub_zero]; exact hxk k
        · have h1 : Tendsto (fun k => r (φ k) * (p.A *ᵥ d (φ k)) i) atTop atTop := hrφ.atTop_mul_pos h (hAlim i)
          filter_upwards [h1.eventually_ge_atTop (b + (p.A *ᵥ v) i)] with k hk
          change b ≤ _
          rw [hAx]; linarith
    · cases hl : p.u i with
      | pos => exact Eventually.of_forall fun _ => trivial
      | neg => have := ((hx 0).1 i).2; rw [hl] at this; exact this.elim
      | fin b =>
        have h0 := hup i (by rw [hl]; simp)
        have hxk : ∀ k, (p.A *ᵥ x (φ k)) i ≤ b := fun k => by
          have h2 := ((hx (φ k)).1 i).2
          rw [hl] at h2
          exact h2
        rcases eq_or_lt_of_le h0 with h | h
        · refine Eventually.of_forall fun k => ?_
          change _ ≤ b
          rw [h, sub_zero]; exact hxk k
        · have h1 : Tendsto (fun k => r (φ k) * (p.A *ᵥ d (φ k)) i) atTop atBot := hrφ.atTop_mul_neg h (hAlim i)
          filter_upwards [h1.eventually_le_atBot (b + (p.A *ᵥ v) i)] with k hk
          change _ ≤ b
          rw [hAx]; linarith
  -- and shorter
  have hshort : ∀ᶠ k in atTop, 1 < x (φ k) ⬝ᵥ v := by
    have hc : Continuous fun w : Fin n → ℝ => w ⬝ᵥ v := by simp only [dotProduct]; fun_prop
    have h1 := (hc.tendsto v).comp hlim
    have h2 : v ⬝ᵥ v = 1 := by
      rw [← hvn]; unfold nsq; simp only [dotProduct]; exact Finset.sum_congr rfl fun i _ => by ring
    rw [h2] at h1
    have h3 : Tendsto (fun k => r (φ k) * (d (φ k) ⬝ᵥ v)) atTop atTop := hrφ.atTop_mul_pos one_pos h1
    filter_upwards [h3.eventually_gt_atTop 1] with k hk
    rw [hxd, smul_dotProduct, smul_eq_mul]
    exact hk
  obtain ⟨k, hk1, hk2⟩ := (hback.and hshort).exists
  have hfeas : Feasible p (x (φ k) - v) := fun i => by rw [mulVec_sub]; exact hk1 i
  have hns : nsq (x (φ k) - v) = nsq (x (φ k)) - 2 * (x (φ k) ⬝ᵥ v) + 1 := by
    rw [← hvn]
    unfold nsq
    simp only [dotProduct]
    rw [Finset.mul_sum, ← Finset.sum_sub_distrib, ← Finset.sum_add_distrib]
    exact Finset.sum_congr rfl fun i _ => by simp only [Pi.sub_apply]; ring
  have hcs : cost p (x (φ k) - v) = cost p (x (φ k)) := by
    have := cost_line hP.1 (x (φ k)) v (-1)
    rw [neg_one_smul, ← sub_eq_add_neg, hPv, dotProduct_zero, add_dotProduct, hqv] at this
    have e : (p.P *ᵥ x (φ k)) ⬝ᵥ v = 0 := by
      have h1 : x (φ k) ⬝ᵥ p.P *ᵥ v = 0 := by rw [hPv, dotProduct_zero]
      rw [Matrix.dotProduct_mulVec, ← Matrix.mulVec_transpose, hP.1.eq] at h1
      exact h1
    rw [e] at this
    linarith
  have := hleast (φ k) _ ⟨hfeas, by rw [hns]; linarith [(hx (φ k)).2]⟩ hcs.le
  linarith

end Verif.QP
