import Verif.Props.QPConv
import Mathlib.Topology.MetricSpace.Sequences
import Mathlib.Topology.MetricSpace.ProperSpace.Real
import Mathlib.Topology.Algebra.Monoid
import Mathlib.Topology.Order.OrderClosed
import Mathlib.Topology.Instances.Matrix
import Mathlib.Analysis.Normed.Group.Basic
import Mathlib.Topology.Algebra.Ring.Real
import Mathlib.Topology.Algebra.Field
import Mathlib.Topology.Algebra.GroupWithZero

/-! # The iterates of the QP solver converge to a solution (C80) -/

set_option linter.unusedSectionVars false

namespace Verif.QP

open Matrix Verif.QPSpec Filter Topology

variable {n m : ℕ} {env : Env ℝ n} {prm : Params ℝ} {p : Pbm ℝ n m} {ws : Option ((Fin n → ℝ) × (Fin m → ℝ))}
  {s : Scaling ℝ n m} {slv : (Fin n ⊕ Fin m → ℝ) → (Fin n ⊕ Fin m → ℝ)}

theorem abs_le_abs_add {u w : ℝ} (h : 0 ≤ u * w) : |u| ≤ |u + w| := by
  rw [← sq_le_sq]; nlinarith [sq_nonneg w]

/-- Entries of iterates that are close. -/
theorem dist2_entries {q : Pbm ℝ n m} {sigma mu R : ℝ} {rho : Fin m → ℝ} (hr : ∀ i, 0 < rho i) (hmu : 0 < mu) (hms : mu ≤ sigma)
    (hmr : ∀ i, mu ≤ rho i) (hR : 0 ≤ R) {a b : It ℝ n m} (ha : ZBox q a) (hb : ZBox q b)
    (h : dist2 sigma rho a b ≤ mu * R ^ 2) :
    (∀ j, |a.x j - b.x j| ≤ R) ∧ (∀ i, |a.z i - b.z i| ≤ R) ∧ ∀ i, |a.y i - b.y i| ≤ rho i * R := by
  have hsig : 0 ≤ sigma := hmu.le.trans hms
  have n1 : ∀ j ∈ Finset.univ, 0 ≤ sigma * (a.x j - b.x j) ^ 2 := fun j _ => mul_nonneg hsig (sq_nonneg _)
  have n2 : ∀ i ∈ Finset.univ, 0 ≤ rho i * ((a.z i - b.z i) + (rho i)⁻¹ * (a.y i - b.y i)) ^ 2 :=
    fun i _ => mul_nonneg (hr i).le (sq_nonneg _)
  have s1 := Finset.sum_nonneg n1
  have s2 := Finset.sum_nonneg n2
  unfold dist2 at h
  have hv : ∀ i, |(a.z i - b.z i) + (rho i)⁻¹ * (a.y i - b.y i)| ≤ R := by
    intro i
    have h1 := Finset.single_le_sum n2 (Finset.mem_univ i)
    have h2 : mu * ((a.z i - b.z i) + (rho i)⁻¹ * (a.y i - b.y i)) ^ 2 ≤ mu * R ^ 2 :=
      le_trans (mul_le_mul_of_nonneg_right (hmr i) (sq_nonneg _)) (by linarith)
    exact abs_le_of_sq_le_sq (le_of_mul_le_mul_left h2 hmu) hR
  have hm : ∀ i, 0 ≤ (a.z i - b.z i) * ((rho i)⁻¹ * (a.y i - b.y i)) := fun i => by
    have := good_mono ha hb i
    have h3 := mul_nonneg (inv_pos.2 (hr i)).le this
    linarith
  refine ⟨fun j => ?_, fun i => le_trans (abs_le_abs_add (hm i)) (hv i), fun i => ?_⟩
  · have h1 := Finset.single_le_sum n1 (Finset.mem_univ j)
    have h2 : mu * (a.x j - b.x j) ^ 2 ≤ mu * R ^ 2 :=
      le_trans (mul_le_mul_of_nonneg_right hms (sq_nonneg _)) (by linarith)
    exact abs_le_of_sq_le_sq (le_of_mul_le_mul_left h2 hmu) hR
  · have h1 : |(rho i)⁻¹ * (a.y i - b.y i)| ≤ R := by
      refine le_trans (abs_le_abs_add (w := a.z i - b.z i) (by rw [mul_comm]; exact hm i)) ?_
      rw [add_comm]; exact hv i
    rw [abs_mul, abs_of_pos (inv_pos.2 (hr i)), inv_mul_le_iff₀ (hr i)] at h1
    exact h1

/-- The condition of being in the box with a complementary multiplier is closed. -/
theorem good_closed {z y : ℕ → Fin m → ℝ} {z' y' : Fin m → ℝ} (hz : Tendsto z atTop (𝓝 z')) (hy : Tendsto y atTop (𝓝 y'))
    (h : ∀ k, InBox p (z k) ∧ Complementary p (z k) (y k)) : InBox p z' ∧ Complementary p z' y' := by
  rw [tendsto_pi_nhds] at hz hy
  refine ⟨fun i => ⟨?_, ?_⟩, fun i => ⟨fun hp => ?_, fun hp => ?_⟩⟩
  · have := fun k => ((h k).1 i).1
    cases hl : p.l i with
    | neg => trivial
    | pos => have := this 0; rw [hl] at this; exact this.elim
    | fin a => simp only [hl, lower] at this ⊢; exact ge_of_tendsto' (hz i) this
  · have := fun k => ((h k).1 i).2
    cases hl : p.u i with
    | pos => trivial
    | neg => have := this 0; rw [hl] at this; exact this.elim
    | fin a => simp only [hl, upper] at this ⊢; exact le_of_tendsto' (hz i) this
  · have h1 : ∀ᶠ k in atTop, p.u i = .fin (z k i) := by
      filter_upwards [(hy i).eventually (lt_mem_nhds hp)] with k hk
      exact ((h k).2 i).1 hk
    obtain ⟨k0, hk0⟩ := h1.exists
    have h2 : ∀ᶠ k in atTop, z k i = z k0 i := by
      filter_upwards [h1] with k hk
      rw [hk0] at hk; exact (Ext.fin.inj hk).symm
    rw [hk0, tendsto_nhds_unique (hz i) (tendsto_const_nhds.congr' (h2.mono fun _ hk => hk.symm))]
  · have h1 : ∀ᶠ k in atTop, p.l i = .fin (z k i) := by
      filter_upwards [(hy i).eventually (gt_mem_nhds hp)] with k hk
      exact ((h k).2 i).2 hk
    obtain ⟨k0, hk0⟩ := h1.exists
    have h2 : ∀ᶠ k in atTop, z k i = z k0 i := by
      filter_upwards [h1] with k hk
      rw [hk0] at hk; exact (Ext.fin.inj hk).symm
    rw [hk0, tendsto_nhds_unique (hz i) (tendsto_const_nhds.congr' (h2.mono fun _ hk => hk.symm))]

/-- **C80.** The iterates converge, and the limit is an exact solution with its multipliers, for every convex program
that has a solution with multipliers, every warm start and every scaling. -/
theorem qp_iterates_converge (h : Regular env prm p s slv) {x : Fin n → ℝ} {y : Fin m → ℝ} (hk : KKT p x y) :
    ∃ x' y', KKT p x' y' ∧ Minimiser p x' ∧
      Tendsto (fun k => s.unX (iterates prm p s slv ws k).x) atTop (𝓝 x') ∧
      Tendsto (fun k => s.unY (iterates prm p s slv ws k).y) atTop (𝓝 y') ∧
      Tendsto (fun k => s.unZ (iterates prm p s slv ws k).z) atTop (𝓝 (p.A *ᵥ x')) := by
  have hreg := h
  obtain ⟨hP, ha, ha', hsig, hr, hs, hl, hf⟩ := h
  set p' := scaledPbm p s.c s.sx s.sy with hp'
  set rho := rhoVec prm p s with hrho
  have hrp : ∀ i, 0 < rho i := fun i => rhoOf_pos hr _ _
  have hP' := scaled_psd hs hP
  have hslv := slv_scaled (prm := prm) (p := p) hs hl hf
  have hrow : ∀ i, RowOk (p.l i) (p.u i) := fun i => rowOk_of_mem (hk.1 i).1 (hk.1 i).2
  have hrow' := scaled_rowOk hs hrow
  have hfix : ∀ {x y}, KKT p x y →
      step prm.alpha prm.sigma p' Scaling.unit rho slv (start p s (some (x, y))) = start p s (some (x, y)) := by
    intro x y hk
    have := step_fix (alpha := prm.alpha) (slv := slv) hP hs hsig hrp (hl _ _ _ hf) hk
    rw [(scaled_iteration prm hs slv _).2.2, ← (scaled_iteration prm hs slv (start p s ws)).1] at this
    exact this
  have ht := iterates_scaled (prm := prm) (p := p) (ws := ws) hs slv
  have ht0 := iterates_succ prm p s slv ws
  have hvan := fun ε (hε : (0 : ℝ) < ε) => qp_residuals_vanish (ws := ws) hreg hk hε
  set t := iterates prm p s slv ws with htdef
  have hgt : ∀ k, ZBox p' (t (k + 1)) := fun k => by rw [ht]; exact step_good hrow' hrp _
  have hbox : ∀ k, InBox p (s.unZ (t (k + 1)).z) ∧ Complementary p (s.unZ (t (k + 1)).z) (s.unY (t (k + 1)).y) := fun k => by
    rw [ht0]; exact step_box hrow hs.2.2 hs.1 hrp _
  obtain ⟨mu, hmu, hms, hmr⟩ := exists_lb hrp hsig
  -- distances to a solution do not grow
  have hanti : ∀ {x y}, KKT p x y → ∀ k l, k ≤ l →
      dist2 prm.sigma rho (t (l + 1)) (start p s (some (x, y))) ≤ dist2 prm.sigma rho (t (k + 1)) (start p s (some (x, y))) := by
    intro x y hk k l hkl
    induction l, hkl using Nat.le_induction with
    | base => exact le_rfl
    | succ l _ ih =>
      refine le_trans ?_ ih
      have := step_nonexpansive (slv := slv) hP' ha.le ha'.le hsig.le hrp hslv (hgt l) (start_good hs hk)
      rw [← ht, hfix hk] at this
      exact this
  -- a bounded sequence
  set b := start p s (some (x, y)) with hb
  set D := dist2 prm.sigma rho (t 1) b with hD
  have hD0 : 0 ≤ D := dist2_nonneg hsig.le hrp _ _
  set R := 1 + D / mu with hR
  have hR0 : 0 ≤ R := add_nonneg zero_le_one (div_nonneg hD0 hmu.le)
  have hDR : D ≤ mu * R ^ 2 := by
    have h1 : D = mu * (D / mu) := by field_simp
    have h2 : 0 ≤ D / mu := div_nonneg hD0 hmu.le
    have h3 : D / mu ≤ R ^ 2 := by rw [hR]; nlinarith
    calc D = mu * (D / mu) := h1
      _ ≤ mu * R ^ 2 := mul_le_mul_of_nonneg_left h3 hmu.le
  have hent := fun k => dist2_entries hrp hmu hms hmr hR0 (hgt k) (start_good hs hk) (le_trans (hanti hk 0 k (Nat.zero_le _)) hDR)
  obtain ⟨rb, hrb, hrb'⟩ := exists_ub rho
  set u : ℕ → (Fin n → ℝ) × (Fin m → ℝ) × (Fin m → ℝ) := fun k => ((t (k + 1)).x, (t (k + 1)).y, (t (k + 1)).z) with hu
  have hbd : Bornology.IsBounded (Set.range u) := by
    refine (Metric.isBounded_iff_subset_closedBall (b.x, b.y, b.z)).2 ⟨(1 + rb) * R, ?_⟩
    rintro _ ⟨k, rfl⟩
    obtain ⟨h1, h2, h3⟩ := hent k
    have hRR : R ≤ (1 + rb) * R := by nlinarith
    rw [Metric.mem_closedBall, Prod.dist_eq, Prod.dist_eq]
    refine max_le ?_ (max_le ?_ ?_)
    · refine (dist_pi_le_iff (by nlinarith)).2 fun j => ?_
      rw [Real.dist_eq]; exact (h1 j).trans hRR
    · refine (dist_pi_le_iff (by nlinarith)).2 fun i => ?_
      rw [Real.dist_eq]
      refine (h3 i).trans ?_
      have := mul_le_mul_of_nonneg_right (hrb' i) hR0
      nlinarith
    · refine (dist_pi_le_iff (by nlinarith)).2 fun i => ?_
      rw [Real.dist_eq]; exact (h2 i).trans hRR
  obtain ⟨⟨x', y', z'⟩, -, φ, hφ, hlim⟩ := tendsto_subseq_of_bounded hbd (fun k => Set.mem_range_self k)
  have hlx : Tendsto (fun k => (t (φ k + 1)).x) atTop (𝓝 x') := (continuous_fst.tendsto _).comp hlim
  have hly : Tendsto (fun k => (t (φ k + 1)).y) atTop (𝓝 y') :=
    ((continuous_fst.comp continuous_snd).tendsto _).comp hlim
  have hlz : Tendsto (fun k => (t (φ k + 1)).z) atTop (𝓝 z') :=
    ((continuous_snd.comp continuous_snd).tendsto _).comp hlim
  have cX : Continuous s.unX := continuous_pi fun j => continuous_const.mul (continuous_apply j)
  have cY : Continuous (s.unY : (Fin m → ℝ) → _) := continuous_pi fun i => (continuous_const.mul (continuous_apply i)).div_const _
  have cZ : Continuous (s.unZ : (Fin m → ℝ) → _) := continuous_pi fun i => continuous_const.mul (continuous_apply i)
  have cM : ∀ {a c : ℕ} (M : Matrix (Fin a) (Fin c) ℝ) (i : Fin a), Continuous fun v : Fin c → ℝ => (M *ᵥ v) i := by
    intro a c M i
    simp only [Matrix.mulVec, dotProduct]
    exact continuous_finset_sum _ fun j _ => continuous_const.mul (continuous_apply j)
  -- the limit solves the problem
  have hzero : ∀ {f : ℕ → ℝ} {a : ℝ}, Tendsto (fun k => f (φ k + 1)) atTop (𝓝 a) →
      (∀ ε > 0, ∃ N, ∀ k, N ≤ k → |f k| ≤ ε) → a = 0 := by
    intro f a hfa hsm
    have : Tendsto (fun k => f (φ k + 1)) atTop (𝓝 0) := by
      rw [Metric.tendsto_atTop]
      intro ε hε
      obtain ⟨N, hN⟩ := hsm (ε / 2) (half_pos hε)
      refine ⟨N, fun k hk => ?_⟩
      rw [Real.dist_eq, sub_zero]
      exact lt_of_le_of_lt (hN _ (by have := hφ.id_le k; simp only [id] at this; omega)) (half_lt_self hε)
    exact tendsto_nhds_unique hfa this
  have hA : ∀ i, (p.A *ᵥ s.unX x') i - s.unZ z' i = 0 := fun i => by
    refine hzero (f := fun k => (p.A *ᵥ s.unX (t k).x) i - s.unZ (t k).z i) ?_ fun ε hε => ?_
    · exact (((cM p.A i).comp cX).tendsto _ |>.comp hlx).sub (((continuous_apply i).comp cZ).tendsto _ |>.comp hlz)
    · obtain ⟨N, hN⟩ := hvan ε hε
      exact ⟨N, fun k hk => (hN k hk).1 i⟩
  have hS : ∀ j, (p.P *ᵥ s.unX x') j + p.q j + (p.Aᵀ *ᵥ s.unY y') j = 0 := fun j => by
    refine hzero (f := fun k => (p.P *ᵥ s.unX (t k).x) j + p.q j + (p.Aᵀ *ᵥ s.unY (t k).y) j) ?_ fun ε hε => ?_
    · exact ((((cM p.P j).comp cX).tendsto _ |>.comp hlx).add_const _).add (((cM p.Aᵀ j).comp cY).tendsto _ |>.comp hly)
    · obtain ⟨N, hN⟩ := hvan ε hε
      exact ⟨N, fun k hk => (hN k hk).2 j⟩
  have hAz : p.A *ᵥ s.unX x' = s.unZ z' := funext fun i => sub_eq_zero.1 (hA i)
  have hgc := good_closed ((cZ.tendsto _).comp hlz) ((cY.tendsto _).comp hly) fun k => hbox (φ k)
  have hkkt : KKT p (s.unX x') (s.unY y') := by
    refine ⟨?_, funext hS, ?_⟩
    · unfold Feasible; rw [hAz]; exact hgc.1
    · rw [hAz]; exact hgc.2
  have hb' : start p s (some (s.unX x', s.unY y')) = ⟨x', y', z'⟩ := by
    have h1 : (fun j => (s.sx j)⁻¹ * s.unX x' j) = x' := by
      funext j; simp only [Scaling.unX]; rw [inv_mul_cancel_left₀ (hs.2.1 j).ne']
    have h2 : (fun i => s.c * ((s.sy i)⁻¹ * s.unY y' i)) = y' := by
      funext i
      have := hs.1.ne'
      have := (hs.2.2 i).ne'
      simp only [Scaling.unY]; field_simp
    have h3 : (fun i => s.sy i * (p.A *ᵥ s.unX x') i) = z' := by
      funext i; rw [hAz]; simp only [Scaling.unZ]; rw [mul_inv_cancel_left₀ (hs.2.2 i).ne']
    simp only [start, h1, h2, h3]
  -- the whole sequence converges
  have hfe := hanti hkkt
  have hgl := start_good hs hkkt
  rw [hb'] at hfe hgl
  have hd0 : Tendsto (fun k => dist2 prm.sigma rho (t (φ k + 1)) ⟨x', y', z'⟩) atTop (𝓝 0) := by
    have hc : Continuous fun w : (Fin n → ℝ) × (Fin m → ℝ) × (Fin m → ℝ) =>
        dist2 prm.sigma rho ⟨w.1, w.2.1, w.2.2⟩ ⟨x', y', z'⟩ := by
      unfold dist2
      simp only
      fun_prop
    have := (hc.tendsto (x', y', z')).comp hlim
    have h0 : dist2 prm.sigma rho ⟨x', y', z'⟩ ⟨x', y', z'⟩ = 0 := by simp [dist2]
    rw [show dist2 prm.sigma rho ⟨(x', y', z').1, (x', y', z').2.1, (x', y', z').2.2⟩ ⟨x', y', z'⟩ = 0 from h0] at this
    exact this
  have hclose : ∀ ε > 0, ∃ N, ∀ k, N ≤ k → (∀ j, |(t k).x j - x' j| ≤ ε) ∧ (∀ i, |(t k).z i - z' i| ≤ ε) ∧
      ∀ i, |(t k).y i - y' i| ≤ rho i * ε := by
    intro ε hε
    have hT : 0 < mu * ε ^ 2 := mul_pos hmu (pow_pos hε 2)
    obtain ⟨k0, hk0⟩ := (hd0.eventually (gt_mem_nhds hT)).exists
    refine ⟨φ k0 + 1, fun k hkk => ?_⟩
    obtain ⟨k, rfl⟩ : ∃ l, k = l + 1 := ⟨k - 1, by omega⟩
    exact dist2_entries hrp hmu hms hmr hε.le (hgt k) hgl (le_trans (hfe (φ k0) k (by omega)) hk0.le)
  have tX : Tendsto (fun k => (t k).x) atTop (𝓝 x') := by
    rw [tendsto_pi_nhds]
    intro j
    rw [Metric.tendsto_atTop]
    intro ε hε
    obtain ⟨N, hN⟩ := hclose (ε / 2) (half_pos hε)
    exact ⟨N, fun k hk => by rw [Real.dist_eq]; exact lt_of_le_of_lt ((hN k hk).1 j) (half_lt_self hε)⟩
  have tZ : Tendsto (fun k => (t k).z) atTop (𝓝 z') := by
    rw [tendsto_pi_nhds]
    intro j
    rw [Metric.tendsto_atTop]
    intro ε hε
    obtain ⟨N, hN⟩ := hclose (ε / 2) (half_pos hε)
    exact ⟨N, fun k hk => by rw [Real.dist_eq]; exact lt_of_le_of_lt ((hN k hk).2.1 j) (half_lt_self hε)⟩
  have tY : Tendsto (fun k => (t k).y) atTop (𝓝 y') := by
    rw [tendsto_pi_nhds]
    intro j
    rw [Metric.tendsto_atTop]
    intro ε hε
    obtain ⟨N, hN⟩ := hclose (ε / 2 / rho j) (div_pos (half_pos hε) (hrp j))
    refine ⟨N, fun k hk => ?_⟩
    rw [Real.dist_eq]
    refine lt_of_le_of_lt ((hN k hk).2.2 j) ?_
    rw [mul_div_cancel₀ _ (hrp j).ne']
    exact half_lt_self hε
  refine ⟨_, _, hkkt, kkt_minimiser hP hkkt, (cX.tendsto _).comp tX, (cY.tendsto _).comp tY, ?_⟩
  rw [hAz]
  exact (cZ.tendsto _).comp tZ

/-- The hypotheses are met by the default parameters and an exact linear solver, on every convex program that has a
solution with multipliers; the iterates run from any warm start. -/
example {sqrt : ℝ → ℝ} (hP : Lin.PSD p.P) {x y} (hk : KKT p x y) (hs : s.Pos) :
    ∃ slv x' y', Regular ⟨sqrt, 0, exactFactor, 0, fun _ => 0⟩ Params.default p s slv ∧ KKT p x' y' ∧
      Tendsto (fun k => s.unX (iterates Params.default p s slv ws k).x) atTop (𝓝 x') ∧
      Tendsto (fun k => s.unY (iterates Params.default p s slv ws k).y) atTop (𝓝 y') := by
  obtain ⟨slv, hslv⟩ := Option.ne_none_iff_exists'.1 (exactFactor_ne_none (p := p) (s := s) (sigma := Params.default.sigma)
    (rho := rhoVec Params.default p s) hP hs (by norm_num [Params.default]) fun _ => rhoOf_pos (by norm_num [Params.default]) _ _)
  have hreg : Regular ⟨sqrt, 0, exactFactor, 0, fun _ => 0⟩ Params.default p s slv :=
    ⟨hP, by norm_num [Params.default], by norm_num [Params.default], by norm_num [Params.default],
      by norm_num [Params.default], hs, fun _ _ _ h b => exactFactor_ok h b, hslv⟩
  obtain ⟨x', y', h1, -, h2, h3, -⟩ := qp_iterates_converge (ws := ws) hreg hk
  exact ⟨slv, x', y', hreg, h1, h2, h3⟩

/-- A program with many solutions: minimise `0` over `[-1, 1]`. -/
example : KKT (⟨0, 0, 1, fun _ => .fin (-1), fun _ => .fin 1⟩ : Pbm ℝ 1 1) (fun _ => 1 / 2) 0 ∧
    Lin.PSD (0 : Matrix (Fin 1) (Fin 1) ℝ) := by
  refine ⟨⟨fun i => ?_, by simp, fun i => by simp⟩, by constructor <;> simp⟩
  simp only [lower, upper, Matrix.one_mulVec]
  constructor <;> norm_num

end Verif.QP
