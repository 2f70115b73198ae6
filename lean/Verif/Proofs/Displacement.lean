import Mathlib.Analysis.InnerProductSpace.Basic
import Mathlib.Analysis.Normed.Module.FiniteDimension
import Mathlib.Analysis.Asymptotics.SpecificAsymptotics
import Mathlib.Analysis.InnerProductSpace.Continuous
import Mathlib.Analysis.SpecificLimits.Basic
import Mathlib.Topology.Sequences

/-! # Averaged iterations: the steps converge

A sequence in a Euclidean space whose map is averaged has steps that converge, whether or not there is a fixed point. -/

namespace Verif.Displacement

open Filter Topology RealInnerProductSpace

variable {E : Type*} [NormedAddCommGroup E] [InnerProductSpace ℝ E]

theorem shift_le {a : ℕ → E} (h : ∀ n k, ‖a (n + 1) - a (k + 1)‖ ≤ ‖a n - a k‖) (n k j : ℕ) : ‖a (n + j) - a (k + j)‖ ≤ ‖a n - a k‖ := by
  induction j with
  | zero => exact le_rfl
  | succ j ih => exact (h (n + j) (k + j)).trans ih

/-- A direction in which the sequence moves by at least `L` per step, on average from the start. -/
theorem support [FiniteDimensional ℝ E] {a : ℕ → E} (h : ∀ n k, ‖a (n + 1) - a (k + 1)‖ ≤ ‖a n - a k‖) {L : ℝ}
    (hL : ∀ k : ℕ, k * L ≤ ‖a k - a 0‖) : ∃ f : E, ‖f‖ ≤ 1 ∧ ∀ n : ℕ, n * L ≤ ⟪f, a n - a 0⟫ := by
  have step : ∀ j : ℕ, ∃ f : E, ‖f‖ ≤ 1 ∧ ∀ n ≤ j, n * (L - 1 / ((j : ℝ) + 1)) ≤ ⟪f, a n - a 0⟫ := by
    intro j
    set ε : ℝ := 1 / ((j : ℝ) + 1) with hε
    have hεp : 0 < ε := by positivity
    have ht : Tendsto (fun k : ℕ => ‖a k - a 0‖ - (L - ε) * k) atTop atTop := by
      refine tendsto_atTop_mono (fun k => ?_) (tendsto_natCast_atTop_atTop.const_mul_atTop hεp)
      have := hL k
      linarith
    obtain ⟨k, hkj, hk⟩ := Filter.high_scores ht j
    refine ⟨‖a k - a 0‖⁻¹ • (a k - a 0), ?_, fun n hn => ?_⟩
    · rw [norm_smul, norm_inv, norm_norm]
      exact inv_mul_le_one
    · have h1 : ‖a k - a n‖ ≤ ‖a (k - n) - a 0‖ := by
        have := shift_le h (k - n) 0 n
        rwa [Nat.sub_add_cancel (hn.trans hkj), Nat.zero_add] at this
      have h2 : (n : ℝ) * (L - ε) ≤ ‖a k - a 0‖ - ‖a (k - n) - a 0‖ := by
        rcases Nat.eq_zero_or_pos n with rfl | hp
        · simp
        · have := hk (k - n) (by omega)
          have e : ((k - n : ℕ) : ℝ) = k - n := Nat.cast_sub (hn.trans hkj)
          rw [e] at this
          nlinarith
      have h3 : a n - a 0 = (a k - a 0) - (a k - a n) := by abel
      rw [h3, inner_sub_right, real_inner_smul_left, real_inner_smul_left, real_inner_self_eq_norm_sq]
      rcases eq_or_ne ‖a k - a 0‖ 0 with h0 | h0
      · rw [h0] at h2
        rw [h0]
        simp
        have := norm_nonneg (a (k - n) - a 0)
        linarith
      · have h4 : ‖a k - a 0‖⁻¹ * ‖a k - a 0‖ ^ 2 = ‖a k - a 0‖ := by field_simp
        have h5 : ‖a k - a 0‖⁻¹ * ⟪a k - a 0, a k - a n⟫ ≤ ‖a k - a n‖ := by
          have := real_inner_le_norm (a k - a 0) (a k - a n)
          have hp : 0 < ‖a k - a 0‖ := lt_of_le_of_ne (norm_nonneg _) (Ne.symm h0)
          rw [inv_mul_le_iff₀ hp]
          exact this
        rw [h4]
        linarith
  choose f hf1 hf2 using step
  obtain ⟨g, hg, φ, hφ, hlim⟩ := (isCompact_closedBall (0 : E) 1).tendsto_subseq (x := f) fun j => by simpa using hf1 j
  refine ⟨g, by simpa using hg, fun n => ?_⟩
  have l1 : Tendsto (fun j => ⟪f (φ j), a n - a 0⟫) atTop (𝓝 ⟪g, a n - a 0⟫) := hlim.inner tendsto_const_nhds
  have l2 : Tendsto (fun j : ℕ => (n : ℝ) * (L - 1 / ((φ j : ℝ) + 1))) atTop (𝓝 (n * (L - 0))) :=
    ((tendsto_one_div_add_atTop_nhds_zero_nat.comp hφ.tendsto_atTop).const_sub L).const_mul _
  rw [sub_zero] at l2
  refine le_of_tendsto_of_tendsto l2 l1 ?_
  filter_upwards [hφ.tendsto_atTop.eventually_ge_atTop n] with j hj using hf2 (φ j) n hj

/-- The steps of an averaged iteration converge. -/
theorem steps_converge [FiniteDimensional ℝ E] {a : ℕ → E} {c : ℝ} (hc : 0 < c)
    (h : ∀ n k, ‖a (n + 1) - a (k + 1)‖ ^ 2 + c * ‖(a (n + 1) - a n) - (a (k + 1) - a k)‖ ^ 2 ≤ ‖a n - a k‖ ^ 2) :
    ∃ v, Tendsto (fun n => a (n + 1) - a n) atTop (𝓝 v) := by
  have hne : ∀ n k, ‖a (n + 1) - a (k + 1)‖ ≤ ‖a n - a k‖ := fun n k => by
    have h1 := h n k
    have h2 : 0 ≤ c * ‖(a (n + 1) - a n) - (a (k + 1) - a k)‖ ^ 2 := by positivity
    exact le_of_sq_le_sq (by linarith) (norm_nonneg _)
  set d : ℕ → E := fun n => a (n + 1) - a n with hd
  have hanti : Antitone fun n => ‖d n‖ := antitone_nat_of_succ_le fun n => hne (n + 1) n
  obtain ⟨L, hLim⟩ : ∃ L, Tendsto (fun n => ‖d n‖) atTop (𝓝 L) :=
    ⟨_, tendsto_atTop_ciInf hanti ⟨0, by rintro _ ⟨n, rfl⟩; exact norm_nonneg _⟩⟩
  have hLle : ∀ n, L ≤ ‖d n‖ := fun n => hanti.le_of_tendsto hLim n
  have hL0 : 0 ≤ L := ge_of_tendsto' hLim fun n => norm_nonneg _
  rcases hL0.eq_or_lt with h0 | hLp
  · exact ⟨0, tendsto_zero_iff_norm_tendsto_zero.mpr (by rw [h0]; exact hLim)⟩
  -- consecutive steps differ less and less
  have hdd : Tendsto (fun n => d (n + 1) - d n) atTop (𝓝 0) := by
    rw [tendsto_zero_iff_norm_tendsto_zero]
    have h1 : Tendsto (fun n => (‖d n‖ ^ 2 - ‖d (n + 1)‖ ^ 2) / c) atTop (𝓝 ((L ^ 2 - L ^ 2) / c)) :=
      ((hLim.pow 2).sub ((hLim.comp (tendsto_add_atTop_nat 1)).pow 2)).div_const c
    rw [sub_self, zero_div] at h1
    have h2 : Tendsto (fun n => ‖d (n + 1) - d n‖ ^ 2) atTop (𝓝 0) := by
      refine squeeze_zero (fun n => by positivity) (fun n => ?_) h1
      rw [le_div_iff₀ hc]
      have := h (n + 1) n
      simp only [hd]
      linarith
    have h3 := h2.sqrt
    simpa [Real.sqrt_sq (norm_nonneg _)] using h3
  have hdk : ∀ k : ℕ, Tendsto (fun n => d (n + k) - d n) atTop (𝓝 0) := by
    intro k
    induction k with
    | zero => simp
    | succ k ih =>
      have := (hdd.comp (tendsto_add_atTop_nat k)).add ih
      rw [add_zero] at this
      refine this.congr fun n => ?_
      simp only [Function.comp]
      rw [← add_assoc]
      abel
  have hak : ∀ k : ℕ, Tendsto (fun n => a (n + k) - a n - (k : ℝ) • d n) atTop (𝓝 0) := by
    intro k
    induction k with
    | zero => simp
    | succ k ih =>
      have := ih.add (hdk k)
      rw [add_zero] at this
      refine this.congr fun n => ?_
      simp only [hd]
      push_cast
      rw [add_smul, one_smul, ← add_assoc]
      abel
  have hfar : ∀ i k : ℕ, (k : ℝ) * L ≤ ‖a (i + k) - a i‖ := by
    intro i k
    have h1 : Tendsto (fun n => (k : ℝ) * ‖d n‖ - ‖a (n + k) - a n - (k : ℝ) • d n‖) atTop (𝓝 (k * L - 0)) :=
      (hLim.const_mul _).sub (tendsto_zero_iff_norm_tendsto_zero.mp (hak k))
    rw [sub_zero] at h1
    refine le_of_tendsto h1 ?_
    filter_upwards [eventually_ge_atTop i] with n hn
    have h2 : ‖a (n + k) - a n‖ ≤ ‖a (i + k) - a i‖ := by
      have := shift_le hne (i + k) i (n - i)
      rwa [show i + k + (n - i) = n + k by omega, show i + (n - i) = n by omega] at this
    have h3 : (k : ℝ) * ‖d n‖ = ‖(a (n + k) - a n) - (a (n + k) - a n - (k : ℝ) • d n)‖ := by
      rw [sub_sub_cancel, norm_smul, Real.norm_natCast]
    have h4 := norm_sub_le (a (n + k) - a n) (a (n + k) - a n - (k : ℝ) • d n)
    linarith
  -- a supporting direction for each start
  have hsup : ∀ i, ∃ f : E, ‖f‖ ≤ 1 ∧ ∀ n : ℕ, n * L ≤ ⟪f, a (i + n) - a i⟫ := by
    intro i
    obtain ⟨f, h1, h2⟩ := support (a := fun n => a (i + n)) (fun n k => by simpa only [add_assoc] using hne (i + n) (i + k)) (L := L) (fun k => hfar i k)
    exact ⟨f, h1, h2⟩
  have hclose : ∀ {f e : E}, ‖f‖ ≤ 1 → L ≤ ⟪f, e⟫ → ‖e - L • f‖ ^ 2 ≤ ‖e‖ ^ 2 - L ^ 2 := by
    intro f e hf he
    rw [norm_sub_sq_real, norm_smul, real_inner_smul_right, real_inner_comm, Real.norm_of_nonneg hL0, mul_pow]
    have h1 : ‖f‖ ^ 2 ≤ 1 := by
      have := norm_nonneg f
      nlinarith
    nlinarith [mul_le_mul_of_nonneg_left he hL0, mul_le_mul_of_nonneg_left h1 (sq_nonneg L)]
  -- averages converge to it
  have havg : ∀ i (f : E), ‖f‖ ≤ 1 → (∀ n : ℕ, n * L ≤ ⟪f, a (i + n) - a i⟫) →
      Tendsto (fun n : ℕ => (n : ℝ)⁻¹ • (a (i + n) - a i)) atTop (𝓝 (L • f)) := by
    intro i f hf1 hf2
    have hup : Tendsto (fun n : ℕ => (n : ℝ)⁻¹ * ∑ j ∈ Finset.range n, ‖d (i + j)‖) atTop (𝓝 L) := by
      have : Tendsto (fun j => ‖d (i + j)‖) atTop (𝓝 L) := by
        have := hLim.comp (tendsto_add_atTop_nat i)
        refine this.congr fun j => ?_
        simp only [Function.comp]
        rw [add_comm]
      exact this.cesaro
    have hle : ∀ n : ℕ, ‖(n : ℝ)⁻¹ • (a (i + n) - a i)‖ ≤ (n : ℝ)⁻¹ * ∑ j ∈ Finset.range n, ‖d (i + j)‖ := by
      intro n
      rw [norm_smul, norm_inv, Real.norm_natCast]
      refine mul_le_mul_of_nonneg_left ?_ (by positivity)
      have : a (i + n) - a i = ∑ j ∈ Finset.range n, d (i + j) := by
        rw [show (∑ j ∈ Finset.range n, d (i + j)) = ∑ j ∈ Finset.range n, (a (i + (j + 1)) - a (i + j)) from rfl,
          Finset.sum_range_sub fun j => a (i + j)]
        rfl
      rw [this]
      exact norm_sum_le _ _
    have hsq : Tendsto (fun n : ℕ => ‖(n : ℝ)⁻¹ • (a (i + n) - a i) - L • f‖ ^ 2) atTop (𝓝 0) := by
      have h1 : Tendsto (fun n : ℕ => ((n : ℝ)⁻¹ * ∑ j ∈ Finset.range n, ‖d (i + j)‖) ^ 2 - L ^ 2) atTop (𝓝 (L ^ 2 - L ^ 2)) :=
        (hup.pow 2).sub_const _
      rw [sub_self] at h1
      refine squeeze_zero' (Eventually.of_forall fun n => by positivity) ?_ h1
      filter_upwards [eventually_gt_atTop 0] with n hn
      have hn' : (0 : ℝ) < n := by exact_mod_cast hn
      have h2 : L ≤ ⟪f, (n : ℝ)⁻¹ • (a (i + n) - a i)⟫ := by
        rw [real_inner_smul_right, le_inv_mul_iff₀ hn']
        exact hf2 n
      refine (hclose hf1 h2).trans (sub_le_sub_right (pow_le_pow_left₀ (norm_nonneg _) (hle n) 2) _)
    rw [tendsto_iff_norm_sub_tendsto_zero]
    have h3 := hsq.sqrt
    simpa [Real.sqrt_sq (norm_nonneg _)] using h3
  obtain ⟨f, hf1, hf2⟩ := hsup 0
  have hlim0 := havg 0 f hf1 hf2
  have hL' : ∀ i, L ≤ ⟪f, d i⟫ := by
    intro i
    obtain ⟨g, hg1, hg2⟩ := hsup i
    have hlimi := havg i g hg1 hg2
    have hzero : Tendsto (fun n : ℕ => (n : ℝ)⁻¹ • ((a (i + n) - a i) - (a (0 + n) - a 0))) atTop (𝓝 0) := by
      refine squeeze_zero_norm (a := fun n : ℕ => (n : ℝ)⁻¹ * (‖a i - a 0‖ + ‖a i - a 0‖)) (fun n => ?_) ?_
      · rw [norm_smul, norm_inv, Real.norm_natCast]
        refine mul_le_mul_of_nonneg_left ?_ (by positivity)
        have e : (a (i + n) - a i) - (a (0 + n) - a 0) = (a (i + n) - a (0 + n)) - (a i - a 0) := by abel
        rw [e]
        exact (norm_sub_le _ _).trans (add_le_add_left (shift_le hne i 0 n) _)
      · have := (tendsto_inv_atTop_nhds_zero_nat (𝕜 := ℝ)).mul_const (‖a i - a 0‖ + ‖a i - a 0‖)
        rwa [zero_mul] at this
    have h1 := hlimi.sub hlim0
    have h2 : L • g - L • f = 0 := by
      refine tendsto_nhds_unique h1 (hzero.congr fun n => ?_)
      rw [smul_sub]
    have h3 : g = f := by
      rw [← smul_sub] at h2
      exact sub_eq_zero.mp ((smul_eq_zero.mp h2).resolve_left hLp.ne')
    have := hg2 1
    rw [h3] at this
    simpa using this
  refine ⟨L • f, ?_⟩
  have hsq : Tendsto (fun n => ‖d n - L • f‖ ^ 2) atTop (𝓝 0) := by
    have h1 : Tendsto (fun n => ‖d n‖ ^ 2 - L ^ 2) atTop (𝓝 (L ^ 2 - L ^ 2)) := (hLim.pow 2).sub_const _
    rw [sub_self] at h1
    exact squeeze_zero (fun n => by positivity) (fun n => hclose hf1 (hL' n)) h1
  rw [tendsto_iff_norm_sub_tendsto_zero]
  have h3 := hsq.sqrt
  simpa [Real.sqrt_sq (norm_nonneg _)] using h3

end Verif.Displacement
