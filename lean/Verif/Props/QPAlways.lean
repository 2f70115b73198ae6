import Verif.Proofs.QPAlways
import Verif.Props.QPConvReal
import Verif.Props.QPZero

/-!
# The QP solver on every convex program, also without a solution (C91, C92)

The steps of the iteration converge. Their limit is zero or an exact certificate that the program has no feasible point
or is unbounded. So the tests of `check_stopping` end the loop, except for one defect: a row without any bound is treated
as a row with a lower bound.
-/

set_option linter.unusedSectionVars false

namespace Verif.QP

open Matrix Verif.QPSpec Filter Topology

variable {n m : ℕ} {env : Env ℝ n} {prm : Params ℝ} {p : Pbm ℝ n m} {ws : Option ((Fin n → ℝ) × (Fin m → ℝ))}
  {s : Scaling ℝ n m} {slv : (Fin n ⊕ Fin m → ℝ) → (Fin n ⊕ Fin m → ℝ)}

/-! ### Certificates -/

theorem dot_le_support {f z : Fin m → ℝ} (hf : ∀ i, (p.u i = .pos → f i ≤ 0) ∧ (p.l i = .neg → 0 ≤ f i)) (hz : InBox p z) :
    f ⬝ᵥ z ≤ support p f := by
  change _ ≤ ∑ i, supp1 p f i
  refine Finset.sum_le_sum fun i _ => ?_
  obtain ⟨h1, h2⟩ := hz i
  obtain ⟨h3, h4⟩ := hf i
  unfold supp1
  rcases lt_trichotomy (f i) 0 with h | h | h
  · rw [max_eq_left h.le, min_eq_right h.le]
    cases hl : p.l i with
    | neg => exact absurd (h4 hl) (not_le.2 h)
    | pos => rw [hl] at h1; exact h1.elim
    | fin a =>
      rw [hl] at h1
      have : a ≤ z i := h1
      cases p.u i <;> simp only [mul_zero, zero_add] <;> nlinarith
  · rw [h]
    cases p.u i <;> cases p.l i <;> simp
  · rw [max_eq_right h.le, min_eq_left h.le]
    cases hu : p.u i with
    | pos => exact absurd (h3 hu) (not_le.2 h)
    | neg => rw [hu] at h2; exact h2.elim
    | fin b =>
      rw [hu] at h2
      have : z i ≤ b := h2
      cases p.l i <;> simp only [mul_zero, add_zero] <;> nlinarith

/-- A program with a Farkas certificate has no feasible point. -/
theorem farkas_infeasible {f : Fin m → ℝ} (h : Farkas p f) (x : Fin n → ℝ) : ¬ Feasible p x := fun hx => by
  have h1 := dot_le_support h.2.2 hx
  rw [Matrix.dotProduct_mulVec, ← Matrix.mulVec_transpose, h.1, zero_dotProduct] at h1
  exact absurd h.2.1 (not_lt.2 h1)

theorem scaled_support (hs : s.Pos) (y : Fin m → ℝ) : support (scaledPbm p s.c s.sx s.sy) y = s.c * support p (s.unY y) := by
  change ∑ i, supp1 _ y i = s.c * ∑ i, supp1 p (s.unY y) i
  rw [Finset.mul_sum]
  refine Finset.sum_congr rfl fun i _ => ?_
  have hc := hs.1
  have hy := hs.2.2 i
  have hk : 0 ≤ s.sy i / s.c := (div_pos hy hc).le
  have e1 : max 0 (s.unY y i) = s.sy i / s.c * max 0 (y i) := by
    rw [mul_max_of_nonneg _ _ hk, mul_zero]
    congr 1
    simp only [Scaling.unY]; ring
  have e2 : min 0 (s.unY y i) = s.sy i / s.c * min 0 (y i) := by
    rw [mul_min_of_nonneg _ _ hk, mul_zero]
    congr 1
    simp only [Scaling.unY]; ring
  unfold supp1
  rw [e1, e2]
  simp only [scaledPbm]
  have := hc.ne'
  cases p.u i <;> cases p.l i <;> simp only [scaleBound, add_zero, zero_add, mul_zero] <;> field_simp

/-! ### Limits -/

theorem unX_tendsto {f : ℕ → Fin n → ℝ} {X : Fin n → ℝ} (h : ∀ j, Tendsto (fun k => f k j) atTop (𝓝 (X j))) :
    Tendsto (fun k => s.unX (f k)) atTop (𝓝 (s.unX X)) :=
  tendsto_pi_nhds.2 fun j => (h j).const_mul _

theorem unY_tendsto {f : ℕ → Fin m → ℝ} {Y : Fin m → ℝ} (h : ∀ j, Tendsto (fun k => f k j) atTop (𝓝 (Y j))) :
    Tendsto (fun k => s.unY (f k)) atTop (𝓝 (s.unY Y)) :=
  tendsto_pi_nhds.2 fun j => ((h j).const_mul _).div_const _

/-- **C91.** For every convex program whose box is not empty, every warm start and every scaling: the differences of
consecutive iterates converge, in the problem's own variables, to `d` (primal) and `e` (dual). `d` is zero or an exact
direction of unboundedness, and it is not zero if such a direction exists. `e` is zero or an exact Farkas certificate, and
it is not zero if one exists. The primal residual vanishes when `e = 0`, the dual residual when `d = 0`. -/
theorem qp_differences_converge (h : Regular env prm p s slv) {w : Fin m → ℝ} (hw : InBox p w) :
    ∃ (d : Fin n → ℝ) (e : Fin m → ℝ),
      Tendsto (fun k => s.unX ((iterates prm p s slv ws (k + 1)).x - (iterates prm p s slv ws k).x)) atTop (𝓝 d) ∧
      Tendsto (fun k => s.unY ((iterates prm p s slv ws (k + 1)).y - (iterates prm p s slv ws k).y)) atTop (𝓝 e) ∧
      (d = 0 ∨ Recession p d) ∧ (e = 0 ∨ Farkas p e) ∧ ((∃ f, Recession p f) → d ≠ 0) ∧ ((∃ f, Farkas p f) → e ≠ 0) ∧
      (e = 0 → Tendsto (fun k => p.A *ᵥ s.unX (iterates prm p s slv ws k).x - s.unZ (iterates prm p s slv ws k).z) atTop (𝓝 0)) ∧
      (d = 0 → Tendsto (fun k => p.P *ᵥ s.unX (iterates prm p s slv ws k).x + (p.q + p.Aᵀ *ᵥ s.unY (iterates prm p s slv ws k).y))
        atTop (𝓝 0)) := by
  obtain ⟨hP, ha, ha', hsig, hr, hs, hl, hf⟩ := h
  set p' := scaledPbm p s.c s.sx s.sy with hp'
  have hrp : ∀ i, 0 < rhoVec prm p s i := fun i => rhoOf_pos hr _ _
  have hrow : ∀ i, RowOk (p.l i) (p.u i) := fun i => rowOk_of_mem (hw i).1 (hw i).2
  have ht := iterates_scaled (prm := prm) (p := p) (ws := ws) hs slv
  have hbox : ∀ k, InBox p (s.unZ (iterates prm p s slv ws (k + 1)).z) ∧
      Complementary p (s.unZ (iterates prm p s slv ws (k + 1)).z) (s.unY (iterates prm p s slv ws (k + 1)).y) := fun k => by
    rw [iterates_succ]; exact step_box hrow hs.2.2 hs.1 hrp _
  set t := iterates prm p s slv ws with htdef
  obtain ⟨X, Y, hX, hY, hPX, hAY, hrec, hfar, hq, hsup, hpri, hdua⟩ := run_limit (scaled_psd hs hP) ha ha' hsig hrp
    (slv_scaled (prm := prm) (p := p) hs hl hf) (t := fun k => t (k + 1)) (fun k => ht (k + 1))
    (fun k => by simp only [ht k]; exact step_good (scaled_rowOk hs hrow) hrp _)
  have hupos : ∀ i, p'.u i = .pos ↔ p.u i = .pos := fun i => by
    simp only [hp', scaledPbm]; cases p.u i <;> simp [scaleBound]
  have hlneg : ∀ i, p'.l i = .neg ↔ p.l i = .neg := fun i => by
    simp only [hp', scaledPbm]; cases p.l i <;> simp [scaleBound]
  have hX0 : s.unX X = 0 ↔ X = 0 := by
    constructor
    · intro h0
      exact (unscale_bijective hs).1.1 (h0.trans (funext fun j => by simp [Scaling.unX]))
    · rintro rfl; funext j; simp [Scaling.unX]
  have hY0 : s.unY Y = 0 ↔ Y = 0 := by
    constructor
    · intro h0
      exact (unscale_bijective hs).2.1 (h0.trans (funext fun j => by simp [Scaling.unY]))
    · rintro rfl; funext j; simp [Scaling.unY]
  have hPd : p.P *ᵥ s.unX X = 0 := funext fun j => by
    have h1 := congrFun hPX j
    rw [scaled_P] at h1
    exact (mul_eq_zero.1 h1).resolve_left (mul_pos hs.1 (hs.2.1 j)).ne'
  have hAe : p.Aᵀ *ᵥ s.unY Y = 0 := funext fun j => by
    have h1 := congrFun hAY j
    rw [scaled_At hs] at h1
    exact (mul_eq_zero.1 h1).resolve_left (mul_pos hs.1 (hs.2.1 j)).ne'
  have hE : s.unY Y = 0 → Tendsto (fun k => p.A *ᵥ s.unX (t k).x - s.unZ (t k).z) atTop (𝓝 0) := fun h0 => by
    rw [← tendsto_add_atTop_iff_nat 1]
    refine tendsto_pi_nhds.2 fun i => ?_
    have h1 := (hpri i).const_mul (s.sy i)⁻¹
    rw [hY0.1 h0, Pi.zero_apply, mul_zero, zero_div, mul_zero] at h1
    refine h1.congr fun k => ?_
    rw [scaled_A, mul_sub, inv_mul_cancel_left₀ (hs.2.2 i).ne']
    rfl
  have hD : s.unX X = 0 → Tendsto (fun k => p.P *ᵥ s.unX (t k).x + (p.q + p.Aᵀ *ᵥ s.unY (t k).y)) atTop (𝓝 0) := fun h0 => by
    rw [← tendsto_add_atTop_iff_nat 1]
    refine tendsto_pi_nhds.2 fun j => ?_
    have hcs : s.c * s.sx j ≠ 0 := (mul_pos hs.1 (hs.2.1 j)).ne'
    have h1 := (hdua (hX0.1 h0) j).const_mul (s.c * s.sx j)⁻¹
    rw [mul_zero] at h1
    refine h1.congr fun k => ?_
    rw [scaled_P, scaled_At hs]
    simp only [scaledPbm, Pi.add_apply]
    rw [inv_mul_eq_iff_eq_mul₀ hcs]
    ring
  refine ⟨s.unX X, s.unY Y, ?_, ?_, ?_, ?_, ?_, ?_, hE, hD⟩
  · rw [← tendsto_add_atTop_iff_nat 1]
    exact unX_tendsto hX
  · rw [← tendsto_add_atTop_iff_nat 1]
    exact unY_tendsto hY
  · by_cases hx : X = 0
    · exact Or.inl (hX0.2 hx)
    refine Or.inr ⟨hPd, ?_, fun i => ?_⟩
    · have h1 : p'.q ⬝ᵥ X = s.c * (p.q ⬝ᵥ s.unX X) := by
        simp only [dotProduct, Finset.mul_sum, hp', scaledPbm, Scaling.unX]
        exact Finset.sum_congr rfl fun i _ => by ring
      have h2 : 0 < X ⬝ᵥ X := by
        refine lt_of_le_of_ne (Finset.sum_nonneg fun j _ => mul_self_nonneg _) fun h0 => hx ?_
        funext j
        exact mul_self_eq_zero.1 ((Finset.sum_eq_zero_iff_of_nonneg fun i _ => mul_self_nonneg (X i)).1 h0.symm j (Finset.mem_univ j))
      have h3 : 0 ≤ ∑ i, rhoVec prm p s i * (p'.A *ᵥ X) i ^ 2 :=
        Finset.sum_nonneg fun i _ => mul_nonneg (hrp i).le (sq_nonneg _)
      have h4 : s.c * (p.q ⬝ᵥ s.unX X) < 0 := by
        rw [← h1, hq]
        exact div_neg_of_neg_of_pos (by nlinarith [mul_pos hsig h2]) ha
      by_contra hc
      exact absurd h4 (not_lt.2 (mul_nonneg hs.1.le (not_lt.1 hc)))
    · have h1 := hrec i
      rw [scaled_A, Ne, hupos, Ne, hlneg] at h1
      refine ⟨fun hu => ?_, fun hl => ?_⟩
      · by_contra hc
        exact absurd (h1.1 hu) (not_le.2 (mul_pos (hs.2.2 i) (not_le.1 hc)))
      · by_contra hc
        exact absurd (h1.2 hl) (not_le.2 (mul_neg_of_pos_of_neg (hs.2.2 i) (not_le.1 hc)))
  · by_cases hy : Y = 0
    · exact Or.inl (hY0.2 hy)
    refine Or.inr ⟨hAe, ?_, fun i => ?_⟩
    · obtain ⟨i0, hi0⟩ := Function.ne_iff.1 hy
      have h1 : 0 < ∑ i, (rhoVec prm p s i)⁻¹ * Y i ^ 2 :=
        Finset.sum_pos' (fun i _ => mul_nonneg (inv_pos.2 (hrp i)).le (sq_nonneg _))
          ⟨i0, Finset.mem_univ _, mul_pos (inv_pos.2 (hrp i0)) (by have : Y i0 ≠ 0 := hi0; positivity)⟩
      have h2 : s.c * support p (s.unY Y) < 0 := by
        rw [← scaled_support hs, hsup]
        exact div_neg_of_neg_of_pos (by linarith) ha
      by_contra hc
      exact absurd h2 (not_lt.2 (mul_nonneg hs.1.le (not_lt.1 hc)))
    · have h1 := hfar i
      rw [hupos, hlneg] at h1
      refine ⟨fun hu => ?_, fun hl => ?_⟩
      · exact div_nonpos_of_nonpos_of_nonneg (mul_nonpos_of_nonneg_of_nonpos (hs.2.2 i).le (h1.1 hu)) hs.1.le
      · exact div_nonneg (mul_nonneg (hs.2.2 i).le (h1.2 hl)) hs.1.le
  · rintro ⟨f, hf1, hf2, hf3⟩ h0
    have l1 := tendsto_pi_nhds.1 (hD h0)
    have l2 := tendsto_dot (v := fun _ => f) (w := f) (fun j => tendsto_const_nhds) l1
    rw [dotProduct_zero, ← tendsto_add_atTop_iff_nat 1] at l2
    have l3 : p.q ⬝ᵥ f ≥ 0 := by
      refine le_of_tendsto' l2 fun k => ?_
      rw [dotProduct_add, dotProduct_add, Matrix.dotProduct_mulVec, ← Matrix.mulVec_transpose, hP.1.eq, hf1, zero_dotProduct, zero_add,
        dotProduct_comm f, Matrix.dotProduct_mulVec, Matrix.vecMul_transpose]
      refine add_le_of_nonpos_right (Finset.sum_nonpos fun i _ => ?_)
      obtain ⟨c1, c2⟩ := (hbox k).2 i
      rcases lt_trichotomy (s.unY (t (k + 1)).y i) 0 with hy | hy | hy
      · exact mul_nonpos_of_nonneg_of_nonpos ((hf3 i).2 (by rw [c2 hy]; simp)) hy.le
      · rw [hy, mul_zero]
      · exact mul_nonpos_of_nonpos_of_nonneg ((hf3 i).1 (by rw [c1 hy]; simp)) hy.le
    exact absurd hf2 (not_lt.2 l3)
  · rintro ⟨f, hf1, hf2, hf3⟩ h0
    have l1 := tendsto_pi_nhds.1 (hE h0)
    have l2 := tendsto_dot (v := fun _ => f) (w := f) (fun j => tendsto_const_nhds) l1
    rw [dotProduct_zero, ← tendsto_add_atTop_iff_nat 1] at l2
    have l3 : -support p f ≤ 0 := by
      refine ge_of_tendsto' l2 fun k => ?_
      rw [dotProduct_sub, Matrix.dotProduct_mulVec, ← Matrix.mulVec_transpose, hf1, zero_dotProduct, zero_sub]
      exact neg_le_neg (dot_le_support hf3 (hbox k).1)
    linarith

/-- **C91.** A convex program that has a feasible point and is not unbounded: both residuals vanish. (Nothing is assumed about
solutions or multipliers.) -/
theorem qp_residuals_vanish_bounded (h : Regular env prm p s slv) {x : Fin n → ℝ} (hx : Feasible p x) (hb : ¬ Unbounded p) :
    Tendsto (fun k => p.A *ᵥ s.unX (iterates prm p s slv ws k).x - s.unZ (iterates prm p s slv ws k).z) atTop (𝓝 0) ∧
    Tendsto (fun k => p.P *ᵥ s.unX (iterates prm p s slv ws k).x + (p.q + p.Aᵀ *ᵥ s.unY (iterates prm p s slv ws k).y)) atTop (𝓝 0) := by
  obtain ⟨d, e, -, -, h1, h2, -, -, h3, h4⟩ := qp_differences_converge (ws := ws) h hx
  refine ⟨h3 (h2.resolve_right fun hf => farkas_infeasible hf x hx), h4 (h1.resolve_right fun hr => hb ?_)⟩
  exact recession_unbounded h.convex.1 hr hx

/-! ### The tests of `check_stopping` -/

theorem norm_eq {k : ℕ} (v : Fin k → ℝ) : norm v = ‖v‖ := by
  refine le_antisymm (norm_le (_root_.norm_nonneg v) fun i => norm_le_pi_norm v i) ?_
  exact (pi_norm_le_iff_of_nonneg (norm_nonneg v)).2 fun i => le_norm v i

theorem norm_tendsto {k : ℕ} {f : ℕ → Fin k → ℝ} {v : Fin k → ℝ} (h : Tendsto f atTop (𝓝 v)) :
    Tendsto (fun l => norm (f l)) atTop (𝓝 (norm v)) := by
  simp only [norm_eq]
  exact h.norm

theorem norm_pos {k : ℕ} {v : Fin k → ℝ} (h : v ≠ 0) : 0 < norm v :=
  lt_of_le_of_ne (norm_nonneg v) fun h0 => h (norm_eq_zero h0.symm)

theorem dySum_some {eps : ℝ} {dy : Fin m → ℝ} {b : ℝ} {L : List (Fin m)} {acc : ℝ}
    (h : ∀ i ∈ L, (p.u i = .pos → dy i ≤ eps * b) ∧ (p.l i = .neg → -(eps * b) ≤ dy i)) :
    dySum eps p dy b L acc = some (acc + (L.map (supp1 p dy)).sum) := by
  induction L generalizing acc with
  | nil => simp [dySum]
  | cons i L ih =>
    have hi := h i (by simp)
    have hL := fun acc => ih (acc := acc) fun j hj => h j (by simp [hj])
    rw [dySum]
    cases hu : p.u i with
    | pos =>
      have h1 : ¬ eps * b < dy i := not_lt.2 (hi.1 hu)
      cases hl : p.l i with
      | neg =>
        have h2 : ¬ dy i < -(eps * b) := not_lt.2 (hi.2 hl)
        simp [h1, h2, hL, supp1, hu, hl, add_assoc]
      | fin a => simp [h1, hL, supp1, hu, hl, add_assoc]
      | pos => simp [h1, hL, supp1, hu, hl, add_assoc]
    | fin c =>
      cases hl : p.l i with
      | neg =>
        have h2 : ¬ dy i < -(eps * b) := not_lt.2 (hi.2 hl)
        simp [h2, hL, supp1, hu, hl, add_assoc]
      | fin a => simp [hL, supp1, hu, hl, add_assoc]
      | pos => simp [hL, supp1, hu, hl, add_assoc]
    | neg =>
      cases hl : p.l i with
      | neg =>
        have h2 : ¬ dy i < -(eps * b) := not_lt.2 (hi.2 hl)
        simp [h2, hL, supp1, hu, hl, add_assoc]
      | fin a => simp [hL, supp1, hu, hl, add_assoc]
      | pos => simp [hL, supp1, hu, hl, add_assoc]

theorem support_tendsto {f : ℕ → Fin m → ℝ} {e : Fin m → ℝ} (h : Tendsto f atTop (𝓝 e)) :
    Tendsto (fun k => support p (f k)) atTop (𝓝 (support p e)) := by
  change Tendsto (fun k => ∑ i, supp1 p (f k) i) atTop (𝓝 (∑ i, supp1 p e i))
  refine tendsto_finset_sum _ fun i _ => ?_
  have hi := tendsto_pi_nhds.1 h i
  have h1 := (tendsto_const_nhds (x := (0 : ℝ))).max hi
  have h2 := (tendsto_const_nhds (x := (0 : ℝ))).min hi
  unfold supp1
  cases p.u i <;> cases p.l i <;> simp only [add_zero, zero_add]
  all_goals first
    | exact tendsto_const_nhds
    | exact (h1.const_mul _).add (h2.const_mul _)
    | exact h1.const_mul _
    | exact h2.const_mul _

/-- Near a Farkas certificate the primal infeasibility test passes. -/
theorem eventually_primalInf (hep : 0 < prm.epsPrimalInf) {f : ℕ → Fin m → ℝ} {e : Fin m → ℝ} (h : Tendsto f atTop (𝓝 e))
    (he : Farkas p e) : ∀ᶠ k in atTop, primalInfTest prm p (f k) = true := by
  have hne : e ≠ 0 := by
    rintro rfl
    have h0 : support p (0 : Fin m → ℝ) = 0 := by
      change ∑ i, supp1 p 0 i = 0
      refine Finset.sum_eq_zero fun i _ => ?_
      unfold supp1
      cases p.u i <;> cases p.l i <;> simp
    have := he.2.1
    rw [h0] at this
    exact lt_irrefl _ this
  have hb : 0 < prm.epsPrimalInf * norm e := mul_pos hep (norm_pos hne)
  have ln := (norm_tendsto h).const_mul prm.epsPrimalInf
  have hi := tendsto_pi_nhds.1 h
  have la : Tendsto (fun k => norm (p.Aᵀ *ᵥ f k)) atTop (𝓝 0) := by
    have := norm_tendsto (tendsto_pi_nhds.2 fun j => tendsto_mulVec p.Aᵀ hi j)
    rwa [he.1, norm_zero] at this
  have e1 := la.eventually_lt ln hb
  have e2 := (support_tendsto (p := p) h).eventually_lt ln (he.2.1.trans hb)
  have e3 : ∀ᶠ k in atTop, ∀ i, (p.u i = .pos → f k i ≤ prm.epsPrimalInf * norm (f k)) ∧
      (p.l i = .neg → -(prm.epsPrimalInf * norm (f k)) ≤ f k i) := by
    rw [eventually_all]
    intro i
    refine Eventually.and ?_ ?_
    · by_cases hu : p.u i = .pos
      · exact ((hi i).eventually_lt ln (lt_of_le_of_lt ((he.2.2 i).1 hu) hb)).mono fun k hk _ => hk.le
      · exact Eventually.of_forall fun _ h => absurd h hu
    · by_cases hl : p.l i = .neg
      · exact (ln.neg.eventually_lt (hi i) (lt_of_lt_of_le (neg_neg_of_pos hb) ((he.2.2 i).2 hl))).mono fun k hk _ => hk.le
      · exact Eventually.of_forall fun _ h => absurd h hl
  filter_upwards [e1, e2, e3] with k h1 h2 h3
  unfold primalInfTest
  rw [dySum_some fun i _ => h3 i, zero_add, sum_finRange_eq]
  simp only [decide_eq_true_eq]
  exact max_lt h1 h2

/-- Near a direction of unboundedness that moves no free row down the dual infeasibility test passes. -/
theorem eventually_dualInf (hed : 0 < prm.epsDualInf) {f : ℕ → Fin n → ℝ} {d : Fin n → ℝ} (h : Tendsto f atTop (𝓝 d))
    (hd : Recession p d) (hfree : ∀ i, p.l i = .neg → p.u i = .pos → 0 ≤ (p.A *ᵥ d) i) :
    ∀ᶠ k in atTop, dualInfTest prm p (f k) = true := by
  have hne : d ≠ 0 := by
    rintro rfl
    have := hd.2.1
    rw [dotProduct_zero] at this
    exact lt_irrefl _ this
  have hb : 0 < prm.epsDualInf * norm d := mul_pos hed (norm_pos hne)
  have ln := (norm_tendsto h).const_mul prm.epsDualInf
  have hi := tendsto_pi_nhds.1 h
  have la : Tendsto (fun k => norm (p.P *ᵥ f k)) atTop (𝓝 0) := by
    have := norm_tendsto (tendsto_pi_nhds.2 fun j => tendsto_mulVec p.P hi j)
    rwa [hd.1, norm_zero] at this
  have e1 := la.eventually_lt ln hb
  have e2 := (tendsto_dot (v := fun _ => p.q) (w := p.q) (fun j => tendsto_const_nhds) hi).eventually_lt ln (hd.2.1.trans hb)
  have e3 : ∀ᶠ k in atTop, ∀ i, dualRow prm.epsDualInf (norm (f k)) ((p.A *ᵥ f k) i) (p.l i) (p.u i) = true := by
    rw [eventually_all]
    intro i
    have lA := tendsto_mulVec p.A hi i
    have hlow : 0 ≤ (p.A *ᵥ d) i → ∀ᶠ k in atTop, -prm.epsDualInf * norm (f k) < (p.A *ᵥ f k) i := fun h0 => by
      refine (ln.neg.eventually_lt lA (lt_of_lt_of_le (neg_neg_of_pos hb) h0)).mono fun k hk => ?_
      rw [neg_mul]; exact hk
    have hhigh : (p.A *ᵥ d) i ≤ 0 → ∀ᶠ k in atTop, (p.A *ᵥ f k) i < prm.epsDualInf * norm (f k) := fun h0 =>
      lA.eventually_lt ln (lt_of_le_of_lt h0 hb)
    obtain ⟨r1, r2⟩ := hd.2.2 i
    by_cases hu : p.u i = .pos
    · have h0 : 0 ≤ (p.A *ᵥ d) i := by
        by_cases hl : p.l i = .neg
        · exact hfree i hl hu
        · exact r2 hl
      filter_upwards [hlow h0] with k hk
      rw [hu]
      cases p.l i <;> simp only [dualRow, decide_eq_true_eq] <;> exact hk.le
    · by_cases hl : p.l i = .neg
      · filter_upwards [hhigh (r1 hu)] with k hk
        rw [hl]
        cases hc : p.u i with
        | pos => exact absurd hc hu
        | neg => simp only [dualRow, decide_eq_true_eq]; exact hk.le
        | fin b => simp only [dualRow, decide_eq_true_eq]; exact hk.le
      · filter_upwards [hhigh (r1 hu), hlow (r2 hl)] with k h1 h2
        have h3 : |(p.A *ᵥ f k) i| < prm.epsDualInf * norm (f k) := abs_lt.2 ⟨by linarith, h1⟩
        cases hc : p.u i with
        | pos => exact absurd hc hu
        | neg =>
          cases hc' : p.l i with
          | neg => exact absurd hc' hl
          | pos => simp only [dualRow, decide_eq_true_eq]; exact h3
          | fin b => simp only [dualRow, decide_eq_true_eq]; exact h3
        | fin b =>
          cases hc' : p.l i with
          | neg => exact absurd hc' hl
          | pos => simp only [dualRow, decide_eq_true_eq]; exact h3
          | fin b => simp only [dualRow, decide_eq_true_eq]; exact h3
  filter_upwards [e1, e2, e3] with k h1 h2 h3
  unfold dualInfTest
  simp only [Bool.and_eq_true, decide_eq_true_eq, List.all_eq_true]
  exact ⟨⟨h1.le, h2.le⟩, fun i _ => h3 i⟩

/-- With vanishing residuals the optimality test passes. -/
theorem eventually_optimalTest (hea : 0 < prm.epsAbs) (her : 0 ≤ prm.epsRel) {x : ℕ → Fin n → ℝ} {y z : ℕ → Fin m → ℝ}
    (h1 : Tendsto (fun k => p.A *ᵥ x k - z k) atTop (𝓝 0)) (h2 : Tendsto (fun k => p.P *ᵥ x k + (p.q + p.Aᵀ *ᵥ y k)) atTop (𝓝 0)) :
    ∀ᶠ k in atTop, optimalTest prm p (x k) (y k) (z k) = true := by
  have l1 := norm_tendsto h1
  have l2 := norm_tendsto h2
  rw [norm_zero] at l1 l2
  filter_upwards [l1.eventually (gt_mem_nhds hea), l2.eventually (gt_mem_nhds hea)] with k h3 h4
  unfold optimalTest
  simp only [Bool.and_eq_true, decide_eq_true_eq]
  constructor
  · refine h3.le.trans (le_add_of_nonneg_right (mul_nonneg her ?_))
    exact le_trans (norm_nonneg _) (le_max_right _ _)
  · refine h4.le.trans (le_add_of_nonneg_right (mul_nonneg her ?_))
    exact le_trans (norm_nonneg _) (le_max_right _ _)

/-- **C91.** A program with a Farkas certificate: from some iteration on every check passes the primal infeasibility test. -/
theorem qp_infeasible_detected (h : Regular env prm p s slv) (hep : 0 < prm.epsPrimalInf) {w : Fin m → ℝ} (hw : InBox p w)
    {f : Fin m → ℝ} (hf : Farkas p f) : ∃ N, ∀ k, N ≤ k →
      primalInfTest prm p (s.unY ((iterates prm p s slv ws (k + 1)).y - (iterates prm p s slv ws k).y)) = true := by
  obtain ⟨d, e, -, l2, -, h2, -, h4, -⟩ := qp_differences_converge (ws := ws) h hw
  exact eventually_atTop.1 (eventually_primalInf hep l2 (h2.resolve_left (h4 ⟨f, hf⟩)))

/-- **C91.** A program with a direction of unboundedness, and no row without bounds: from some iteration on every check passes
the dual infeasibility test. -/
theorem qp_unbounded_detected_partial (h : Regular env prm p s slv) (hed : 0 < prm.epsDualInf) {w : Fin m → ℝ} (hw : InBox p w)
    (hfree : ∀ i, p.l i ≠ .neg ∨ p.u i ≠ .pos) {f : Fin n → ℝ} (hf : Recession p f) : ∃ N, ∀ k, N ≤ k →
      dualInfTest prm p (s.unX ((iterates prm p s slv ws (k + 1)).x - (iterates prm p s slv ws k).x)) = true := by
  obtain ⟨d, e, l1, -, h1, -, h3, -, -⟩ := qp_differences_converge (ws := ws) h hw
  refine eventually_atTop.1 (eventually_dualInf hed l1 (h1.resolve_left (h3 ⟨f, hf⟩)) fun i hl hu => ?_)
  exact ((hfree i).elim (fun h => h hl) fun h => h hu).elim

/-! ### `solve_qp` returns -/

/-- **C92**, without the case in which a direction of unboundedness lowers a row that has no bounds (there the claim is
false, see `qp_free_row_diverges`). Without any limit on iterations or time `solve_qp` returns on every convex program, feasible or
not, bounded or not. -/
theorem qp_always_returns_partial (hsq : SqrtPos env) (hl : LdltOk env) (hP : Lin.PSD p.P) (ha : 0 < prm.alpha)
    (ha' : prm.alpha < 2) (hsig : 0 < prm.sigma) (hr : 0 < prm.rho) (hea : 0 < prm.epsAbs) (her : 0 ≤ prm.epsRel)
    (hep : 0 < prm.epsPrimalInf) (hed : 0 < prm.epsDualInf)
    (hsc : 2 ≤ prm.stopCheckIter) (hdim : prm.scaling = true → n ≠ 0 ∧ m ≠ 0)
    (hf : ∀ s : Scaling ℝ n m, s.Pos → env.factor m (kkt prm.sigma p s (rhoVec prm p s)) ≠ none)
    (hfree : ∀ d, Recession p d → ∀ i, p.l i = .neg → p.u i = .pos → 0 ≤ (p.A *ᵥ d) i) :
    ∃ N, ∀ fuel, N ≤ fuel → ∃ sol, solveQP env prm p ws fuel = .ok sol := by
  obtain ⟨s, hs⟩ := chosenScaling_some env prm p hdim
  have hpos := chosenScaling_pos hsq hs
  obtain ⟨slv, hslv⟩ := Option.ne_none_iff_exists'.1 (hf s hpos)
  have hprep : prepare env prm p s = (slv, precheck p) := by
    rcases prepare_cases env prm p s with ⟨h1, -⟩ | ⟨slv', h1, h2⟩
    · rw [hslv] at h1; cases h1
    · rw [hslv] at h1; cases h1
      rw [h2]
  cases hpre : precheck p with
  | some c =>
    refine ⟨1, fun fuel hfuel => ?_⟩
    obtain ⟨sol, h1, -⟩ := solveScaled_preset (ws := ws) (env := env) (prm := prm) (p := p) (s := s) (c := c) (by rw [hprep]; exact hpre) hfuel
    exact ⟨sol, by rw [solveQP_eq, hs]; exact h1⟩
  | none =>
    have hrow := precheck_none hpre
    have hw : ∃ w, InBox p w := by
      refine ⟨fun i => minE (maxE 0 ((p.l i).scale 1)) ((p.u i).scale 1), fun i => ?_⟩
      have := proj_row (hrow i) one_pos (0 : ℝ)
      simp only [inv_one, one_mul] at this
      exact ⟨this.1, this.2.1⟩
    obtain ⟨w, hw⟩ := hw
    have hev : ∀ᶠ k in atTop, checkStopping prm p (s.unX (iterates prm p s slv ws (k + 1)).x) (s.unY (iterates prm p s slv ws (k + 1)).y)
        (s.unZ (iterates prm p s slv ws (k + 1)).z) (s.unX ((iterates prm p s slv ws (k + 1)).x - (iterates prm p s slv ws k).x))
        (s.unY ((iterates prm p s slv ws (k + 1)).y - (iterates prm p s slv ws k).y)) ≠ none := by
      obtain ⟨d, e, l1, l2, h1, h2, -, -, h3, h4⟩ := qp_differences_converge (ws := ws) ⟨hP, ha, ha', hsig, hr, hpos, hl, hslv⟩ hw
      unfold checkStopping
      rcases h2 with h2 | h2
      · rcases h1 with h1 | h1
        · have := (tendsto_add_atTop_nat 1).eventually (eventually_optimalTest (prm := prm) hea her (h3 h2) (h4 h1))
          filter_upwards [this] with k hk
          rw [if_pos hk]; exact Option.some_ne_none _
        · filter_upwards [eventually_dualInf (prm := prm) hed l1 h1 (hfree d h1)] with k hk
          rw [if_pos hk]
          split_ifs <;> exact Option.some_ne_none _
      · filter_upwards [eventually_primalInf (prm := prm) hep l2 h2] with k hk
        rw [if_pos hk]
        split_ifs <;> exact Option.some_ne_none _
    obtain ⟨N, hN⟩ := eventually_atTop.1 hev
    set e := prm.stopCheckIter * N + 1 with he
    have hle : N ≤ e := by rw [he]; nlinarith
    have hmod : e % prm.stopCheckIter = 1 := by
      rw [he, Nat.mul_add_mod]; exact Nat.mod_eq_of_lt (by omega)
    have hverd : verdict env prm p s (iterates prm p s slv ws) e ≠ none := by
      unfold verdict check
      rw [if_pos hmod]
      obtain ⟨c, hc⟩ := Option.ne_none_iff_exists'.1 (hN e hle)
      rw [hc]
      exact Option.some_ne_none _
    refine ⟨e + 2, fun fuel hfuel => ?_⟩
    obtain ⟨sol, h1, h2⟩ := solveScaled_ends (ws := ws) (env := env) (prm := prm) (p := p) (s := s) (e := e + 1)
      (by omega) (Or.inr ⟨by omega, by rw [hprep]; exact hverd⟩) (fuel := fuel) (by omega)
    exact ⟨sol, by rw [solveQP_eq, hs]; exact h1⟩

/-- **C92**, programs that are positive definite, or where every row has a bound: `solve_qp` returns. -/
theorem qp_always_returns_bounds (hsq : SqrtPos env) (hl : LdltOk env) (hP : Lin.PSD p.P) (ha : 0 < prm.alpha)
    (ha' : prm.alpha < 2) (hsig : 0 < prm.sigma) (hr : 0 < prm.rho) (hea : 0 < prm.epsAbs) (her : 0 ≤ prm.epsRel)
    (hep : 0 < prm.epsPrimalInf) (hed : 0 < prm.epsDualInf)
    (hsc : 2 ≤ prm.stopCheckIter) (hdim : prm.scaling = true → n ≠ 0 ∧ m ≠ 0)
    (hf : ∀ s : Scaling ℝ n m, s.Pos → env.factor m (kkt prm.sigma p s (rhoVec prm p s)) ≠ none)
    (h : Lin.PD p.P ∨ ∀ i, p.l i ≠ .neg ∨ p.u i ≠ .pos) :
    ∃ N, ∀ fuel, N ≤ fuel → ∃ sol, solveQP env prm p ws fuel = .ok sol := by
  refine qp_always_returns_partial hsq hl hP ha ha' hsig hr hea her hep hed hsc hdim hf fun d hd i h1 h2 => ?_
  rcases h with h | h
  · exfalso
    have hne : d ≠ 0 := by
      rintro rfl
      have := hd.2.1
      rw [dotProduct_zero] at this
      exact lt_irrefl _ this
    have := h.2 d hne
    rw [hd.1, dotProduct_zero] at this
    exact lt_irrefl _ this
  · exact ((h i).elim (fun h => h h1) fun h => h h2).elim

/-! ### A program on which `solve_qp` never returns -/

theorem loop_timeout {next : It ℝ n m → It ℝ n m} {t : ℕ → It ℝ n m} (ht : ∀ i, t (i + 1) = next (t i)) (hsc : prm.stopCheckIter ≠ 0)
    (hm : prm.maxIter = none) (hv : ∀ i, verdict env prm p s t i = none) (fuel iter : ℕ) :
    loop env prm p s next fuel iter none (t iter) = .timeout := by
  induction fuel generalizing iter with
  | zero => rfl
  | succ fuel ih =>
    rw [loop, if_pos ⟨by rw [hm]; simp, rfl⟩, if_neg hsc, ← ht]
    have : (if iter % prm.stopCheckIter = 1 then check env prm p s iter (t iter) (t (iter + 1)) else none) = none := hv iter
    rw [this]
    exact ih (iter + 1)

/-- Minimise `x`, with one row `-inf <= x <= inf`. -/
def freePbm : Pbm ℝ 1 1 := ⟨fun _ _ => 0, fun _ => 1, fun _ _ => 1, fun _ => .neg, fun _ => .pos⟩

theorem free_psd : Lin.PSD freePbm.P := ⟨rfl, fun v => by
  simp [freePbm, Matrix.mulVec, dotProduct]⟩

/-- The program is feasible and unbounded, with an exact direction of unboundedness. -/
theorem free_recession : Feasible freePbm 0 ∧ Recession freePbm (fun _ => -1) := by
  refine ⟨fun i => ⟨trivial, trivial⟩, ?_, ?_, fun i => ⟨fun h => absurd rfl h, fun h => absurd rfl h⟩⟩
  · funext j; simp [freePbm, Matrix.mulVec, dotProduct]
  · simp [freePbm, dotProduct]

theorem free_run {env : Env ℝ 1} {s : Scaling ℝ 1 1} {slv : (Fin 1 ⊕ Fin 1 → ℝ) → (Fin 1 ⊕ Fin 1 → ℝ)}
    (h : Regular env prm freePbm s slv) (k : ℕ) :
    (iterates prm freePbm s slv none k).y = 0 ∧
    (iterates prm freePbm s slv none k).z 0 = s.sy 0 * s.sx 0 * (iterates prm freePbm s slv none k).x 0 ∧
    (iterates prm freePbm s slv none (k + 1)).x 0 - (iterates prm freePbm s slv none k).x 0 < 0 ∧
    (iterates prm freePbm s slv none (k + 1)).y = 0 ∧
    (iterates prm freePbm s slv none (k + 1)).z 0 = s.sy 0 * s.sx 0 * (iterates prm freePbm s slv none (k + 1)).x 0 := by
  obtain ⟨hP, ha, ha', hsig, hr, hs, hl, hf⟩ := h
  have ht := iterates_scaled (prm := prm) (p := freePbm) (ws := none) hs slv
  have hslv := slv_scaled (prm := prm) (p := freePbm) hs hl hf
  have hP' := scaled_psd hs hP
  have hrp : ∀ i, 0 < rhoVec prm freePbm s i := fun i => rhoOf_pos hr _ _
  set p' := scaledPbm freePbm s.c s.sx s.sy with hp'
  set r := rhoVec prm freePbm s with hrdef
  set t := iterates prm freePbm s slv none with htdef
  have hr0 := hrp 0
  have hcx : 0 < s.c * s.sx 0 := mul_pos hs.1 (hs.2.1 0)
  have hyx : 0 < s.sy 0 * s.sx 0 := mul_pos (hs.2.2 0) (hs.2.1 0)
  have hPv : ∀ v, (p'.P *ᵥ v) 0 = 0 := fun v => by rw [scaled_P]; simp [freePbm, Matrix.mulVec, dotProduct]
  have hAv : ∀ v, (p'.A *ᵥ v) 0 = s.sy 0 * s.sx 0 * v 0 := fun v => by
    rw [scaled_A]; simp [freePbm, Matrix.mulVec, dotProduct, Scaling.unX, mul_assoc]
  have hAt : ∀ y, (p'.Aᵀ *ᵥ y) 0 = s.sy 0 * s.sx 0 * y 0 := fun y => by
    simp only [Matrix.mulVec, dotProduct, Finset.univ_unique, Fin.default_eq_zero, Finset.sum_singleton, Matrix.transpose_apply]
    simp [hp', scaledPbm, freePbm]
  have hqv : p'.q 0 = s.c * s.sx 0 := by simp [hp', scaledPbm, freePbm]
  have main : ∀ k, (t k).y = 0 → (t k).z 0 = s.sy 0 * s.sx 0 * (t k).x 0 → (t (k + 1)).x 0 - (t k).x 0 < 0 ∧ (t (k + 1)).y = 0 ∧
      (t (k + 1)).z 0 = s.sy 0 * s.sx 0 * (t (k + 1)).x 0 := by
    intro k hy hz
    have e1 := aux_eq1 hP'.1 hslv (t k) 0
    have e2 := aux_eq2 hslv (t k) 0
    rw [hy] at e2
    rw [hPv, hAt, hqv, zero_add] at e1
    rw [hAv, Pi.zero_apply, mul_zero, sub_zero] at e2
    have hx := (step_unit (alpha := prm.alpha) (sigma := prm.sigma) (p := p') (rho := r) (slv := slv) (t k)).1 0
    rw [← ht] at hx
    have hv := step_v (alpha := prm.alpha) (sigma := prm.sigma) (p := p') (slv := slv) hrp (t k) 0
    rw [← ht, hy] at hv
    have hbox := step_good (alpha := prm.alpha) (sigma := prm.sigma) (p := p') (slv := slv) (rho := r)
      (scaled_rowOk hs fun i => rowOk_of_mem (a := 0) trivial trivial) hrp (t k)
    rw [← ht] at hbox
    have hy1 : (t (k + 1)).y = 0 := by
      funext i
      obtain rfl : i = 0 := Subsingleton.elim _ _
      rcases lt_trichotomy ((t (k + 1)).y 0) 0 with h | h | h
      · have := (hbox.2 0).2 h; simp [hp', scaledPbm, freePbm, scaleBound] at this
      · exact h
      · have := (hbox.2 0).1 h; simp [hp', scaledPbm, freePbm, scaleBound] at this
    rw [hy1] at hv
    simp only [Pi.zero_apply, mul_zero, add_zero] at hv
    set xt := aux prm.sigma p' r slv (t k) (.inl 0) with hxt
    set nt := aux prm.sigma p' r slv (t k) (.inr 0) with hnt
    have hn : nt = r 0 * (s.sy 0 * s.sx 0) * (xt - (t k).x 0) := by
      have : (r 0)⁻¹ * nt = s.sy 0 * s.sx 0 * (xt - (t k).x 0) := by linear_combination -e2 - hz
      rw [inv_mul_eq_iff_eq_mul₀ hr0.ne'] at this
      rw [this]; ring
    have hlt : xt - (t k).x 0 < 0 := by
      have h1 : (prm.sigma + r 0 * (s.sy 0 * s.sx 0) ^ 2) * (xt - (t k).x 0) = -(s.c * s.sx 0) := by
        rw [hn] at e1
        linear_combination e1
      by_contra hc
      have h2 := mul_nonneg (add_pos hsig (mul_pos hr0 (pow_pos hyx 2))).le (not_lt.1 hc)
      linarith
    refine ⟨?_, hy1, ?_⟩
    · rw [hx]
      nlinarith
    · rw [hv, hn, hz, hx]
      field_simp
      ring
  have all : ∀ k, (t k).y = 0 ∧ (t k).z 0 = s.sy 0 * s.sx 0 * (t k).x 0 := by
    intro k
    induction k with
    | zero => exact ⟨rfl, by simp [htdef, iterates, start]⟩
    | succ k ih => exact (main k ih.1 ih.2).2
  exact ⟨(all k).1, (all k).2, main k (all k).1 (all k).2⟩

/-- **C92 is false of the code.** With the default parameters, on `min x` with the row `-inf <= x <= inf`, `solve_qp` runs for ever:
the row has no bound, but `check_stopping` wants it not to decrease (qp_solver.hpp:632-634). -/
theorem qp_free_row_diverges {env : Env ℝ 1} (hsq : SqrtPos env) (hl : LdltOk env)
    (hf : ∀ s : Scaling ℝ 1 1, s.Pos → env.factor 1 (kkt Params.default.sigma freePbm s (rhoVec Params.default freePbm s)) ≠ none) (fuel : ℕ) :
    solveQP env Params.default freePbm none fuel = .timeout := by
  obtain ⟨s, hs⟩ := chosenScaling_some env Params.default freePbm fun _ => ⟨one_ne_zero, one_ne_zero⟩
  have hpos := chosenScaling_pos hsq hs
  obtain ⟨slv, hslv⟩ := Option.ne_none_iff_exists'.1 (hf s hpos)
  have hprep : prepare env Params.default freePbm s = (slv, none) := by
    rcases prepare_cases env Params.default freePbm s with ⟨h1, -⟩ | ⟨slv', h1, h2⟩
    · rw [hslv] at h1; cases h1
    · rw [hslv] at h1; cases h1
      rw [h2, precheck_of_feasible free_recession.1]
  have hreg : Regular env Params.default freePbm s slv := ⟨free_psd, by norm_num [Params.default], by norm_num [Params.default],
    by norm_num [Params.default], by norm_num [Params.default], hpos, hl, hslv⟩
  have hrun := free_run hreg
  have hv : ∀ i, verdict env Params.default freePbm s (iterates Params.default freePbm s slv none) i = none := by
    intro i
    obtain ⟨hy, hz, hx, hy', hz'⟩ := hrun i
    set t := iterates Params.default freePbm s slv none with htdef
    unfold verdict
    split_ifs with hmod
    · have h0 : s.unY (0 : Fin 1 → ℝ) = 0 := by funext j; simp [Scaling.unY]
      have c1 : optimalTest Params.default freePbm (s.unX (t (i + 1)).x) (s.unY (t (i + 1)).y) (s.unZ (t (i + 1)).z) = false := by
        unfold optimalTest
        rw [Bool.and_eq_false_iff]
        right
        rw [hy', h0, Matrix.mulVec_zero]
        have e1 : freePbm.P *ᵥ s.unX (t (i + 1)).x = 0 := by
          funext j; simp [freePbm, Matrix.mulVec, dotProduct]
        have e2 : norm freePbm.q = 1 := by
          simp [norm, freePbm, List.finRange_succ]
        rw [e1, zero_add, add_zero, norm_zero, e2]
        norm_num [Params.default]
      have c2 : primalInfTest Params.default freePbm (s.unY ((t (i + 1)).y - (t i).y)) = false := by
        rw [hy', hy, sub_zero, h0]
        unfold primalInfTest
        split
        · rfl
        · rw [Matrix.mulVec_zero, norm_zero, mul_zero, decide_eq_false_iff_not, not_lt]
          exact le_max_left _ _
      have c3 : dualInfTest Params.default freePbm (s.unX ((t (i + 1)).x - (t i).x)) = false := by
        have hneg : s.unX ((t (i + 1)).x - (t i).x) 0 < 0 := mul_neg_of_pos_of_neg (hpos.2.1 0) hx
        set dx := s.unX ((t (i + 1)).x - (t i).x) with hdx
        have hnorm : norm dx = -dx 0 := by
          simp [norm, List.finRange_succ, abs_of_neg hneg, hneg.le]
        have hA : (freePbm.A *ᵥ dx) 0 = dx 0 := by simp [freePbm, Matrix.mulVec, dotProduct]
        unfold dualInfTest
        rw [Bool.and_eq_false_iff]
        right
        have : dualRow Params.default.epsDualInf (norm dx) ((freePbm.A *ᵥ dx) 0) (freePbm.l 0) (freePbm.u 0) = false := by
          rw [hA, hnorm]
          change decide (-Params.default.epsDualInf * -dx 0 ≤ dx 0) = false
          rw [decide_eq_false_iff_not, not_le]
          norm_num [Params.default]
          linarith
        simp [List.finRange_succ, this]
      unfold check checkStopping
      rw [c1, c2, c3]
      rfl
    · rfl
  rw [solveQP_eq, hs]
  change solveScaled env Params.default freePbm s none fuel = _
  unfold solveScaled
  rw [hprep]
  have := loop_timeout (env := env) (s := s) (p := freePbm) (prm := Params.default) (iterates_succ Params.default freePbm s slv none)
    (by norm_num [Params.default]) rfl hv fuel 0
  simp only
  rw [show start freePbm s none = iterates Params.default freePbm s slv none 0 from rfl, this]

/-! ### Concrete cases -/

/-- Every convex program with at least one bound per row, exact linear algebra, the default parameters, any warm start. -/
example {p : Pbm ℝ (n + 1) (m + 1)} (hP : Lin.PSD p.P) (h : ∀ i, p.l i ≠ .neg ∨ p.u i ≠ .pos) (ws) :
    ∃ N, ∀ fuel, N ≤ fuel → ∃ sol, solveQP (realEnv (n + 1)) Params.default p ws fuel = .ok sol :=
  qp_always_returns_bounds (realEnv_sqrt _) (realEnv_ldlt _) hP (by norm_num [Params.default]) (by norm_num [Params.default])
    (by norm_num [Params.default]) (by norm_num [Params.default]) (by norm_num [Params.default]) (by norm_num [Params.default])
    (by norm_num [Params.default]) (by norm_num [Params.default]) (by norm_num [Params.default]) (fun _ => ⟨by omega, by omega⟩)
    (realEnv_finds _ _ (by norm_num [Params.default]) (by norm_num [Params.default]) _ p hP) (Or.inr h)

/-- The program that diverges, with exact linear algebra. -/
example (fuel : ℕ) : solveQP (realEnv 1) Params.default freePbm none fuel = .timeout :=
  qp_free_row_diverges (realEnv_sqrt 1) (realEnv_ldlt 1)
    (realEnv_finds 1 _ (by norm_num [Params.default]) (by norm_num [Params.default]) 1 freePbm free_psd) fuel

/-- A program without a feasible point: `x <= 0` and `x >= 1`. -/
def clashPbm : Pbm ℝ 1 2 := ⟨fun _ _ => 1, fun _ => 0, fun _ _ => 1, ![.neg, .fin 1], ![.fin 0, .pos]⟩

/-- Its box is not empty, and it has a Farkas certificate. -/
example : InBox clashPbm ![0, 1] ∧ Farkas clashPbm ![1, -1] := by
  refine ⟨fun i => ?_, ?_, ?_, fun i => ?_⟩
  · fin_cases i <;> simp [clashPbm, lower, upper]
  · funext j; simp [clashPbm, Matrix.mulVec, dotProduct, Fin.sum_univ_two, Matrix.transpose]
  · simp [support, clashPbm, Fin.sum_univ_two]
  · fin_cases i <;> simp [clashPbm]

/-- A feasible unbounded program in which every row has a bound: `min x` with `x <= 1`. -/
def fallPbm : Pbm ℝ 1 1 := ⟨fun _ _ => 0, fun _ => 1, fun _ _ => 1, fun _ => .neg, fun _ => .fin 1⟩

example : Feasible fallPbm 0 ∧ Recession fallPbm (fun _ => -1) ∧ ∀ i, fallPbm.l i ≠ .neg ∨ fallPbm.u i ≠ .pos := by
  refine ⟨fun i => ⟨trivial, ?_⟩, ⟨?_, ?_, fun i => ⟨fun _ => ?_, fun h => absurd rfl h⟩⟩, fun i => Or.inr (by simp [fallPbm])⟩
  · rw [Matrix.mulVec_zero]; exact zero_le_one
  · funext j; simp [fallPbm, Matrix.mulVec, dotProduct]
  · simp [fallPbm, dotProduct]
  · simp [fallPbm, Matrix.mulVec, dotProduct]

end Verif.QP
