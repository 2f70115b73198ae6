import Verif.Spec.ASIFFlow
import Verif.Props.ASIF
import Verif.Props.ASIFExamples
import Verif.Props.EKFFlow

/-! # C148: the look-ahead of the safety filter follows the flow of the backup controller -/

set_option linter.unusedSectionVars false

namespace Verif.ASIF

open Matrix ASIFSpec QPSpec

/-! ## Perturbed forward steps -/

section

variable {E : Type*} [NormedAddCommGroup E] [NormedSpace ℝ E]

/-- Steps of given lengths, one after the other. -/
def walk (stp : ℝ → ℝ → E → E) : List ℝ → ℝ → E → E
  | [], _, z => z
  | δ :: l, t, z => walk stp l (t + δ) (stp t δ z)

theorem walk_near {Y : ℝ → E} {Φ : ℝ → E → E} {stp : ℝ → ℝ → E → E} {τ K R ℓ ρ h : ℝ} (hY : ∀ t ∈ Set.Icc 0 τ, HasDerivAt Y (Φ t (Y t)) t)
    (hK : ∀ s ∈ Set.Icc 0 τ, ∀ t ∈ Set.Icc 0 τ, ‖Φ s (Y s) - Φ t (Y t)‖ ≤ K * |s - t|) (hK0 : 0 ≤ K) (hR0 : 0 ≤ R) (hℓ : 0 ≤ ℓ) (hh : 0 ≤ h)
    (hL : ∀ t ∈ Set.Icc 0 τ, ∀ z, ‖z - Y t‖ ≤ ρ → ‖Φ t z - Φ t (Y t)‖ ≤ ℓ * ‖z - Y t‖)
    (hS : ∀ t ∈ Set.Icc 0 τ, ∀ δ, 0 ≤ δ → ∀ z, ‖z - Y t‖ ≤ ρ → ‖stp t δ z - (z + δ • Φ t z)‖ ≤ R * δ * δ) (l : List ℝ) :
    ∀ (a : ℝ) (z : E) (e : ℝ), 0 ≤ a → (∀ δ ∈ l, 0 ≤ δ ∧ δ ≤ h) → a + l.sum ≤ τ → ‖z - Y a‖ ≤ e →
      Real.exp (ℓ * l.sum) * (e + (K + R) * h * l.sum) ≤ ρ →
      ‖walk stp l a z - Y (a + l.sum)‖ ≤ Real.exp (ℓ * l.sum) * (e + (K + R) * h * l.sum) := by
  induction l with
  | nil =>
    intro a z e ha _ _ he _
    simpa [walk] using he
  | cons δ l ih =>
    intro a z e ha hp hτ he hρ
    obtain ⟨hδ, hδh⟩ := hp δ List.mem_cons_self
    have hl0 : 0 ≤ l.sum := List.sum_nonneg fun q hq => (hp q (List.mem_cons_of_mem _ hq)).1
    rw [List.sum_cons] at hτ hρ ⊢
    have he0 : 0 ≤ e := (norm_nonneg _).trans he
    have hKh : 0 ≤ (K + R) * h := mul_nonneg (add_nonneg hK0 hR0) hh
    have hin : a ∈ Set.Icc 0 τ := ⟨ha, by linarith⟩
    have hba : 0 ≤ δ + l.sum := by linarith
    have hone : 1 ≤ Real.exp (ℓ * (δ + l.sum)) := Real.one_le_exp (mul_nonneg hℓ hba)
    have heρ : e ≤ ρ := by
      refine le_trans ?_ hρ
      have := mul_le_mul_of_nonneg_right hone (add_nonneg he0 (mul_nonneg hKh hba))
      nlinarith [mul_nonneg hKh hba]
    have hstep : ‖stp a δ z - Y (a + δ)‖ ≤ (1 + ℓ * δ) * e + (K + R) * h * δ := by
      have h1 := EKF.tangent_error hY hK hK0 ha hδ (show a + δ ≤ τ by linarith)
      have h0 := hS a hin δ hδ z (he.trans heρ)
      have h2 : stp a δ z - Y (a + δ) = (stp a δ z - (z + δ • Φ a z)) + ((z - Y a) + δ • (Φ a z - Φ a (Y a)) - (Y (a + δ) - Y a - δ • Φ a (Y a))) := by
        rw [smul_sub]; abel
      have h3 := hL a hin z (he.trans heρ)
      have h4 : ‖δ • (Φ a z - Φ a (Y a))‖ ≤ δ * (ℓ * e) := by
        rw [norm_smul, Real.norm_eq_abs, abs_of_nonneg hδ]
        exact mul_le_mul_of_nonneg_left (h3.trans (mul_le_mul_of_nonneg_left he hℓ)) hδ
      have h5 : (K + R) * δ * δ ≤ (K + R) * h * δ := mul_le_mul_of_nonneg_right (mul_le_mul_of_nonneg_left hδh (add_nonneg hK0 hR0)) hδ
      rw [h2]
      have n1 := norm_add_le (stp a δ z - (z + δ • Φ a z)) ((z - Y a) + δ • (Φ a z - Φ a (Y a)) - (Y (a + δ) - Y a - δ • Φ a (Y a)))
      have n2 := norm_sub_le ((z - Y a) + δ • (Φ a z - Φ a (Y a))) (Y (a + δ) - Y a - δ • Φ a (Y a))
      have n3 := norm_add_le (z - Y a) (δ • (Φ a z - Φ a (Y a)))
      nlinarith
    have hle : Real.exp (ℓ * l.sum) * ((1 + ℓ * δ) * e + (K + R) * h * δ + (K + R) * h * l.sum)
        ≤ Real.exp (ℓ * (δ + l.sum)) * (e + (K + R) * h * (δ + l.sum)) := by
      have hx : Real.exp (ℓ * (δ + l.sum)) = Real.exp (ℓ * l.sum) * Real.exp (ℓ * δ) := by rw [← Real.exp_add]; congr 1; ring
      rw [hx, mul_assoc (Real.exp (ℓ * l.sum)) (Real.exp (ℓ * δ))]
      refine mul_le_mul_of_nonneg_left ?_ (Real.exp_pos _).le
      have h1 : 1 + ℓ * δ ≤ Real.exp (ℓ * δ) := by linarith [Real.add_one_le_exp (ℓ * δ)]
      have h2 : 1 ≤ Real.exp (ℓ * δ) := Real.one_le_exp (mul_nonneg hℓ hδ)
      have h3 := mul_le_mul_of_nonneg_right h1 he0
      have h4 := mul_le_mul_of_nonneg_right h2 (mul_nonneg hKh hba)
      nlinarith
    have hr := ih (a + δ) (stp a δ z) _ (add_nonneg ha hδ) (fun q hq => hp q (List.mem_cons_of_mem _ hq)) (by linarith) hstep (hle.trans hρ)
    rw [show a + (δ + l.sum) = a + δ + l.sum by ring]
    exact hr.trans hle

end

/-! ## The filter -/

variable {U : Type*} {nx nu : ℕ}

/-- State and sensitivity as one vector. -/
def pack (x : Fin nx → ℝ) (S : Matrix (Fin nx) (Fin nx) ℝ) : EKF.Both nx := (x, fun i j => S i j)

def loopRhs (d : Dyn (Fin nx → ℝ) U ℝ nx nu) (b : Backup (Fin nx → ℝ) U ℝ nx) (t : ℝ) (z : EKF.Both nx) : EKF.Both nx :=
  pack (d.f z.1 (b.bu t z.1)) (b.dcl t z.1 * Matrix.of z.2)

/-- One step of the filter: the derivative of the loop is taken at the new state. -/
def loopStep (d : Dyn (Fin nx → ℝ) U ℝ nx nu) (b : Backup (Fin nx → ℝ) U ℝ nx) (t δ : ℝ) (z : EKF.Both nx) : EKF.Both nx :=
  pack (z.1 + δ • d.f z.1 (b.bu t z.1)) (Matrix.of z.2 + δ • (b.dcl t (z.1 + δ • d.f z.1 (b.bu t z.1)) * Matrix.of z.2))

theorem walk_eq (env : Env (Fin nx → ℝ) U ℝ nx nu) (hx : ∀ x v, env.xplus x v = x + v) (had : ∀ v, env.ad v = 0)
    (d : Dyn (Fin nx → ℝ) U ℝ nx nu) (b : Backup (Fin nx → ℝ) U ℝ nx) (l : List ℝ) : ∀ (t : ℝ) (x : Fin nx → ℝ) (S : Matrix (Fin nx) (Fin nx) ℝ),
    walk (loopStep d b) l t (pack x S) = pack (march env d b l t x) (sens env d b l t x S) := by
  induction l with
  | nil => intro t x S; rfl
  | cons δ l ih =>
    intro t x S
    rw [walk, march, sens, ← ih]
    congr 1
    simp only [hx, had, sub_zero]
    rfl

theorem row_bound {m : ℕ} (r : Fin m → ℝ) {c a : ℝ} (hr : ∑ j, |r j| ≤ a) (w : Fin m → ℝ) (hc : 0 ≤ c) (hw : ∀ j, |w j| ≤ c) : |∑ j, r j * w j| ≤ a * c := by
  calc |∑ j, r j * w j| ≤ ∑ j, |r j * w j| := Finset.abs_sum_le_sum_abs _ _
    _ ≤ ∑ j, |r j| * c := Finset.sum_le_sum fun j _ => by rw [abs_mul]; exact mul_le_mul_of_nonneg_left (hw j) (abs_nonneg _)
    _ = (∑ j, |r j|) * c := by rw [Finset.sum_mul]
    _ ≤ a * c := mul_le_mul_of_nonneg_right hr hc

theorem both_fst (z : EKF.Both nx) (j : Fin nx) : |z.1 j| ≤ ‖z‖ := (norm_le_pi_norm z.1 j).trans (norm_fst_le z)
theorem both_snd (z : EKF.Both nx) (i j : Fin nx) : |z.2 i j| ≤ ‖z‖ := (norm_le_pi_norm (z.2 i) j).trans ((norm_le_pi_norm z.2 i).trans (norm_snd_le z))

theorem both_le {z : EKF.Both nx} {c : ℝ} (hc : 0 ≤ c) (h1 : ∀ i, |z.1 i| ≤ c) (h2 : ∀ i j, |z.2 i j| ≤ c) : ‖z‖ ≤ c :=
  norm_prod_le_iff.2 ⟨(pi_norm_le_iff_of_nonneg hc).2 h1, (pi_norm_le_iff_of_nonneg hc).2 fun i => (pi_norm_le_iff_of_nonneg hc).2 (h2 i)⟩

/-- The right-hand side is Lipschitz near bounded sensitivities. -/
theorem loopRhs_lipschitz {d : Dyn (Fin nx → ℝ) U ℝ nx nu} {b : Backup (Fin nx → ℝ) U ℝ nx} {ℓ a lam : ℝ} (hs : SmoothLoop d b ℓ a lam) (t t' : ℝ)
    (z z' : EKF.Both nx) {c : ℝ} (hc : ‖z'‖ ≤ c) :
    ‖loopRhs d b t z - loopRhs d b t' z'‖ ≤ (ℓ + a + lam * c) * (|t - t'| + ‖z - z'‖) := by
  obtain ⟨h1, h2, h3⟩ := hs.nonneg
  have hc0 : 0 ≤ c := (norm_nonneg _).trans hc
  have hn := norm_nonneg (z - z')
  have ht := abs_nonneg (t - t')
  have hx : ‖z.1 - z'.1‖ ≤ ‖z - z'‖ := norm_fst_le (z - z')
  have hlc := mul_nonneg h3 hc0
  refine both_le (by positivity) (fun i => ?_) (fun i j => ?_)
  · refine (hs.loop t t' z.1 z'.1 i).trans ?_
    have : ℓ * (|t - t'| + ‖z.1 - z'.1‖) ≤ ℓ * (|t - t'| + ‖z - z'‖) := by gcongr
    nlinarith [mul_nonneg h2 (add_nonneg ht hn), mul_nonneg hlc (add_nonneg ht hn)]
  · show |(b.dcl t z.1 * Matrix.of z.2) i j - (b.dcl t' z'.1 * Matrix.of z'.2) i j| ≤ _
    have e : (b.dcl t z.1 * Matrix.of z.2) i j - (b.dcl t' z'.1 * Matrix.of z'.2) i j
        = ∑ k, b.dcl t z.1 i k * (z.2 k j - z'.2 k j) + ∑ k, (b.dcl t z.1 i k - b.dcl t' z'.1 i k) * z'.2 k j := by
      simp only [Matrix.mul_apply, Matrix.of_apply, mul_sub, sub_mul, Finset.sum_sub_distrib]
      ring
    rw [e]
    have r1 := row_bound (b.dcl t z.1 i) (hs.bound t z.1 i) (fun k => z.2 k j - z'.2 k j) hn (fun k => both_snd (z - z') k j)
    have r2 := row_bound (fun k => b.dcl t z.1 i k - b.dcl t' z'.1 i k) (hs.deriv t t' z.1 z'.1 i) (fun k => z'.2 k j) hc0
      (fun k => (both_snd z' k j).trans hc)
    have r3 := abs_add_le (∑ k, b.dcl t z.1 i k * (z.2 k j - z'.2 k j)) (∑ k, (b.dcl t z.1 i k - b.dcl t' z'.1 i k) * z'.2 k j)
    have r4 : lam * (|t - t'| + ‖z.1 - z'.1‖) * c ≤ lam * (|t - t'| + ‖z - z'‖) * c := by gcongr
    nlinarith [mul_nonneg h1 (add_nonneg ht hn), mul_nonneg h2 ht]

theorem flow_deriv {d : Dyn (Fin nx → ℝ) U ℝ nx nu} {b : Backup (Fin nx → ℝ) U ℝ nx} {T : ℝ} {x0 : Fin nx → ℝ} {φ : ℝ → Fin nx → ℝ}
    {S : ℝ → Matrix (Fin nx) (Fin nx) ℝ} (h : BackupFlow d b T x0 φ S) :
    ∀ t ∈ Set.Icc 0 T, HasDerivAt (fun t => pack (φ t) (S t)) (loopRhs d b t (pack (φ t) (S t))) t := fun t ht =>
  (hasDerivAt_pi.2 fun i => h.state t ht i).prodMk (hasDerivAt_pi.2 fun i => hasDerivAt_pi.2 fun j => h.sens t ht i j)

/-- **C148** In a vector space there are constants `C` and `h0 > 0` such that for every sequence of steps of length at most `dt ≤ h0` inside the
horizon, the state and the sensitivity that the filter reaches are within `C dt` of the flow of the backup controller and of its derivative. -/
theorem asif_lookahead_steps (env : Env (Fin nx → ℝ) U ℝ nx nu) (hx : ∀ x v, env.xplus x v = x + v) (had : ∀ v, env.ad v = 0)
    {d : Dyn (Fin nx → ℝ) U ℝ nx nu} {b : Backup (Fin nx → ℝ) U ℝ nx} {ℓ a lam : ℝ} (hs : SmoothLoop d b ℓ a lam)
    {T : ℝ} (hT : 0 < T) {x0 : Fin nx → ℝ} {φ : ℝ → Fin nx → ℝ} {S : ℝ → Matrix (Fin nx) (Fin nx) ℝ} (hf : BackupFlow d b T x0 φ S) :
    ∃ C h0 : ℝ, 0 < h0 ∧ ∀ dt, 0 < dt → dt ≤ h0 → ∀ l : List ℝ, (∀ e ∈ l, 0 ≤ e ∧ e ≤ dt) → l.sum ≤ T →
      (∀ i, |march env d b l 0 x0 i - φ l.sum i| ≤ C * dt) ∧ ∀ i j, |sens env d b l 0 x0 1 i j - S l.sum i j| ≤ C * dt := by
  obtain ⟨h1, h2, h3⟩ := hs.nonneg
  set Y := fun t => pack (φ t) (S t) with hYd
  have hd := flow_deriv hf
  have hcY : ContinuousOn Y (Set.Icc 0 T) := fun t ht => (hd t ht).continuousAt.continuousWithinAt
  obtain ⟨c, hc⟩ := isCompact_Icc.exists_bound_of_continuousOn hcY
  have hc0 : 0 ≤ c := (norm_nonneg _).trans (hc 0 ⟨le_rfl, hT.le⟩)
  set ℓ' := ℓ + a + lam * c with hℓ'
  have hℓ0 : 0 ≤ ℓ' := by positivity
  have hcD : ContinuousOn (fun t => loopRhs d b t (Y t)) (Set.Icc 0 T) := by
    intro t ht
    refine tendsto_iff_norm_sub_tendsto_zero.2 ?_
    have hlim : Filter.Tendsto (fun s => ℓ' * (|s - t| + ‖Y s - Y t‖)) (nhdsWithin t (Set.Icc 0 T)) (nhds 0) := by
      have c1 : Filter.Tendsto (fun s => |s - t|) (nhdsWithin t (Set.Icc 0 T)) (nhds 0) := by
        have : Filter.Tendsto (fun s : ℝ => |s - t|) (nhds t) (nhds |t - t|) := ((continuous_id.sub continuous_const).abs).tendsto t
        rw [sub_self, abs_zero] at this
        exact this.mono_left nhdsWithin_le_nhds
      have c2 := tendsto_iff_norm_sub_tendsto_zero.1 (hcY t ht)
      simpa using (c1.add c2).const_mul ℓ'
    exact squeeze_zero (fun s => norm_nonneg _) (fun s => loopRhs_lipschitz hs s t (Y s) (Y t) (hc t ht)) hlim
  obtain ⟨M, hM⟩ := isCompact_Icc.exists_bound_of_continuousOn hcD
  have hM0 : 0 ≤ M := (norm_nonneg _).trans (hM 0 ⟨le_rfl, hT.le⟩)
  have hYM : ∀ s ∈ Set.Icc 0 T, ∀ t ∈ Set.Icc 0 T, ‖Y s - Y t‖ ≤ M * |s - t| := fun s hs t ht =>
    (convex_Icc 0 T).norm_image_sub_le_of_norm_hasDerivWithin_le (fun x hx => (hd x hx).hasDerivWithinAt) hM ht hs
  set K := ℓ' * (1 + M) with hKd
  set R := lam * (M + ℓ') * (c + 1) with hRd
  have hK0 : 0 ≤ K := by positivity
  have hR0 : 0 ≤ R := by positivity
  have hKl : ∀ s ∈ Set.Icc 0 T, ∀ t ∈ Set.Icc 0 T, ‖loopRhs d b s (Y s) - loopRhs d b t (Y t)‖ ≤ K * |s - t| := by
    intro s hs' t ht
    refine (loopRhs_lipschitz hs s t (Y s) (Y t) (hc t ht)).trans ?_
    have := mul_le_mul_of_nonneg_left (hYM s hs' t ht) hℓ0
    rw [hKd]; nlinarith
  have hLl : ∀ t ∈ Set.Icc 0 T, ∀ z, ‖z - Y t‖ ≤ 1 → ‖loopRhs d b t z - loopRhs d b t (Y t)‖ ≤ ℓ' * ‖z - Y t‖ := by
    intro t ht z _
    have := loopRhs_lipschitz hs t t z (Y t) (hc t ht)
    simpa using this
  have hSl : ∀ t ∈ Set.Icc 0 T, ∀ δ, 0 ≤ δ → ∀ z, ‖z - Y t‖ ≤ 1 → ‖loopStep d b t δ z - (z + δ • loopRhs d b t z)‖ ≤ R * δ * δ := by
    intro t ht δ hδ z hz
    have hzc : ‖z‖ ≤ c + 1 := by
      have := norm_add_le (z - Y t) (Y t)
      rw [sub_add_cancel] at this
      linarith [hc t ht]
    have hF : ‖d.f z.1 (b.bu t z.1)‖ ≤ M + ℓ' := by
      have e1 : ‖loopRhs d b t z‖ ≤ M + ℓ' := by
        have := norm_add_le (loopRhs d b t z - loopRhs d b t (Y t)) (loopRhs d b t (Y t))
        rw [sub_add_cancel] at this
        have e2 := hLl t ht z hz
        have e3 := mul_le_mul_of_nonneg_left hz hℓ0
        linarith [hM t ht]
      exact (norm_fst_le (loopRhs d b t z)).trans e1
    refine both_le (by positivity) (fun i => ?_) (fun i j => ?_)
    · show |(z.1 + δ • d.f z.1 (b.bu t z.1)) i - (z.1 + δ • d.f z.1 (b.bu t z.1)) i| ≤ _
      rw [sub_self, abs_zero]; positivity
    · set y := z.1 + δ • d.f z.1 (b.bu t z.1) with hy
      show |(Matrix.of z.2 + δ • (b.dcl t y * Matrix.of z.2)) i j - (z.2 i j + δ * (b.dcl t z.1 * Matrix.of z.2) i j)| ≤ _
      have e : (Matrix.of z.2 + δ • (b.dcl t y * Matrix.of z.2)) i j - (z.2 i j + δ * (b.dcl t z.1 * Matrix.of z.2) i j)
          = δ * ∑ k, (b.dcl t y i k - b.dcl t z.1 i k) * z.2 k j := by
        simp only [Matrix.add_apply, Matrix.smul_apply, smul_eq_mul, Matrix.mul_apply, Matrix.of_apply, sub_mul, Finset.sum_sub_distrib]
        ring
      have r := row_bound (fun k => b.dcl t y i k - b.dcl t z.1 i k) (hs.deriv t t y z.1 i) (fun k => z.2 k j) (by linarith : 0 ≤ c + 1)
        (fun k => (both_snd z k j).trans hzc)
      have hyd : ‖y - z.1‖ ≤ δ * (M + ℓ') := by
        rw [hy, add_sub_cancel_left, norm_smul, Real.norm_eq_abs, abs_of_nonneg hδ]
        exact mul_le_mul_of_nonneg_left hF hδ
      rw [e, abs_mul, abs_of_nonneg hδ]
      rw [sub_self, abs_zero, zero_add] at r
      have r2 : lam * ‖y - z.1‖ * (c + 1) ≤ lam * (δ * (M + ℓ')) * (c + 1) := by gcongr
      have := mul_le_mul_of_nonneg_left (r.trans r2) hδ
      rw [hRd]; linarith [this, show δ * (lam * (δ * (M + ℓ')) * (c + 1)) = lam * (M + ℓ') * (c + 1) * δ * δ by ring]
  set C := Real.exp (ℓ' * T) * ((K + R) * T) with hC
  have hC0 : 0 ≤ C := by positivity
  refine ⟨C, 1 / (C + 1), by positivity, fun dt hdt hdh l hl hlT => ?_⟩
  have hl0 : 0 ≤ l.sum := List.sum_nonneg fun q hq => (hl q hq).1
  have hbd : Real.exp (ℓ' * l.sum) * (0 + (K + R) * dt * l.sum) ≤ C * dt := by
    have : Real.exp (ℓ' * l.sum) * ((K + R) * dt * l.sum) ≤ Real.exp (ℓ' * T) * ((K + R) * dt * T) := by gcongr
    rw [zero_add, hC]; linarith [this, show Real.exp (ℓ' * T) * ((K + R) * dt * T) = Real.exp (ℓ' * T) * ((K + R) * T) * dt by ring]
  have hC1 : C * dt ≤ 1 := by
    rw [le_div_iff₀ (by positivity)] at hdh
    nlinarith
  have hmain := walk_near (Y := Y) (Φ := loopRhs d b) (stp := loopStep d b) hd hKl hK0 hR0 hℓ0 hdt.le hLl hSl l 0 (Y 0) 0 le_rfl hl
    (by linarith) (by simp) (hbd.trans hC1)
  rw [zero_add, show Y 0 = pack x0 1 by rw [hYd]; simp only [hf.start.1, hf.start.2], walk_eq env hx had] at hmain
  have hm := hmain.trans hbd
  exact ⟨fun i => (both_fst _ i).trans hm, fun i j => (both_snd _ i j).trans hm⟩

/-- **C148** The constraints of the filter: with `K` constraints over the horizon `T`, constraint `k` uses a state and a sensitivity within `C dt` of the
flow of the backup controller and its derivative at the time of the constraint. -/
theorem asif_lookahead_first_order (env : Env (Fin nx → ℝ) U ℝ nx nu) (hx : ∀ x v, env.xplus x v = x + v) (had : ∀ v, env.ad v = 0)
    {d : Dyn (Fin nx → ℝ) U ℝ nx nu} {b : Backup (Fin nx → ℝ) U ℝ nx} {ℓ a lam : ℝ} (hs : SmoothLoop d b ℓ a lam)
    {T : ℝ} (hT : 0 < T) {x0 : Fin nx → ℝ} {φ : ℝ → Fin nx → ℝ} {S : ℝ → Matrix (Fin nx) (Fin nx) ℝ} (hf : BackupFlow d b T x0 φ S) :
    ∃ C h0 : ℝ, 0 < h0 ∧ ∀ dt, 0 < dt → dt ≤ h0 → ∀ K : ℕ, 1 ≤ K → ∃ steps : ℕ → List ℝ, Schedule K (T / K) (min dt (T / K)) steps ∧
      ∀ k < K, (T / K * k ≤ (steps k).sum ∧ (steps k).sum < T / K * k + dt) ∧
        (∀ i, |march env d b (steps k) 0 x0 i - φ (steps k).sum i| ≤ C * dt) ∧
        ∀ i j, |sens env d b (steps k) 0 x0 1 i j - S (steps k).sum i j| ≤ C * dt := by
  obtain ⟨C, h0, hh, hC⟩ := asif_lookahead_steps env hx had hs hT hf
  refine ⟨C, h0, hh, fun dt hdt hdh K hK => ?_⟩
  obtain ⟨steps, s1, -, s3, s4⟩ := asif_schedule T dt K hT hdt hK
  refine ⟨steps, s1, fun k hk => ?_⟩
  have hKr : (0 : ℝ) < K := by exact_mod_cast hK
  have hsum : (steps k).sum ≤ T := by
    have e1 := (s3 k hk.le).2
    have e2 := min_le_right dt (T / K)
    have e3 : ((k : ℝ) + 1) ≤ K := by exact_mod_cast hk
    have e4 : T / K * ((k : ℝ) + 1) ≤ T / K * K := by gcongr
    have e5 : T / K * K = T := by field_simp
    linarith
  have := hC dt hdt hdh (steps k) (fun e he => ⟨(s4 k hk.le e he).1.le, (s4 k hk.le e he).2⟩) hsum
  exact ⟨⟨(s3 k hk.le).1, (s3 k hk.le).2.trans_le (by linarith [min_le_left dt (T / K)])⟩, this⟩

/-- The barrier condition changes little with state and sensitivity. -/
theorem barrier_near {h : Barrier (Fin nx → ℝ) ℝ nx} {L D : ℝ} (hb : SmoothBarrier h L D) (d : Dyn (Fin nx → ℝ) U ℝ nx nu) (alpha : ℝ) (x0 : Fin nx → ℝ)
    (udes : U) (t : ℝ) {x x' : Fin nx → ℝ} {S S' : Matrix (Fin nx) (Fin nx) ℝ} (mu : Fin nu → ℝ) (j : Fin h.nh) {δ c V : ℝ} (hδ : 0 ≤ δ) (hc : 0 ≤ c) (hV : 0 ≤ V)
    (hx : ∀ i, |x i - x' i| ≤ δ) (hS : ∀ i j, |S i j - S' i j| ≤ δ) (hS' : ∀ i j, |S' i j| ≤ c)
    (hv : ∀ i, |(d.f x0 udes + (d.du x0 udes).mulVec mu) i| ≤ V) :
    |barrier d h alpha x0 udes t x S mu j - barrier d h alpha x0 udes t x' S' mu j| ≤ (L + nx * V * (D + L * c) + |alpha| * L) * δ := by
  obtain ⟨hL, hD⟩ := hb.nonneg
  set v := d.f x0 udes + (d.du x0 udes).mulVec mu with hvd
  have hxn : ‖x - x'‖ ≤ δ := (pi_norm_le_iff_of_nonneg hδ).2 hx
  have hLδ : L * ‖x - x'‖ ≤ L * δ := mul_le_mul_of_nonneg_left hxn hL
  have hsum : ∀ (r : Fin nx → ℝ) (q : ℝ), (∀ k, |r k| ≤ q) → ∑ k, |r k| ≤ nx * q := fun r q hr =>
    (Finset.sum_le_sum fun k _ => hr k).trans (by simp)
  have k1 : ∀ i, |((S - S').mulVec v) i| ≤ nx * δ * V := fun i => row_bound ((S - S') i) (hsum _ _ (hS i)) v hV hv
  have k2 : ∀ i, |(S'.mulVec v) i| ≤ nx * c * V := fun i => row_bound (S' i) (hsum _ _ (hS' i)) v hV hv
  have t1 := (hb.time t x x' j).trans hLδ
  have t2 : |alpha * (h.h t x j - h.h t x' j)| ≤ |alpha| * (L * δ) := by
    rw [abs_mul]; exact mul_le_mul_of_nonneg_left ((hb.val t x x' j).trans hLδ) (abs_nonneg _)
  have t3 : |∑ i, h.dx t x j i * ((S - S').mulVec v) i| ≤ D * (nx * δ * V) := row_bound (h.dx t x j) (hb.bound t x j) _ (by positivity) k1
  have t4 : |∑ i, (h.dx t x j i - h.dx t x' j i) * (S'.mulVec v) i| ≤ L * δ * (nx * c * V) :=
    row_bound (fun i => h.dx t x j i - h.dx t x' j i) ((hb.deriv t x x' j).trans hLδ) _ (by positivity) k2
  have e : barrier d h alpha x0 udes t x S mu j - barrier d h alpha x0 udes t x' S' mu j = (h.dt t x j - h.dt t x' j)
      + (∑ i, h.dx t x j i * ((S - S').mulVec v) i + ∑ i, (h.dx t x j i - h.dx t x' j i) * (S'.mulVec v) i) + alpha * (h.h t x j - h.h t x' j) := by
    have e1 : ∀ (w : Fin nx → ℝ) y, (h.dx t y).mulVec w j = ∑ i, h.dx t y j i * w i := fun w y => rfl
    simp only [barrier, ← hvd, e1, Matrix.sub_mulVec, Pi.sub_apply, mul_sub, sub_mul, Finset.sum_sub_distrib]
    ring
  rw [e]
  refine (abs_add_le _ _).trans ?_
  have n1 := abs_add_le (h.dt t x j - h.dt t x' j)
    (∑ i, h.dx t x j i * ((S - S').mulVec v) i + ∑ i, (h.dx t x j i - h.dx t x' j i) * (S'.mulVec v) i)
  have n2 := abs_add_le (∑ i, h.dx t x j i * ((S - S').mulVec v) i) (∑ i, (h.dx t x j i - h.dx t x' j i) * (S'.mulVec v) i)
  have e2 : (L + nx * V * (D + L * c) + |alpha| * L) * δ = L * δ + (D * (nx * δ * V) + L * δ * (nx * c * V)) + |alpha| * (L * δ) := by ring
  linarith

/-- **C148** Safety on the exact flow: every feasible correction of the program that the filter builds satisfies the barrier conditions along the exact
flow of the backup controller and its exact sensitivity up to the slack and a constant times `dt`. The constant depends neither on `dt` nor on the number of
constraints, only on the bound `V` of the first velocity. -/
theorem asif_program_flow (env : Env (Fin nx → ℝ) U ℝ nx nu) (hx : ∀ x v, env.xplus x v = x + v) (had : ∀ v, env.ad v = 0)
    {d : Dyn (Fin nx → ℝ) U ℝ nx nu} {b : Backup (Fin nx → ℝ) U ℝ nx} {ℓ a lam : ℝ} (hs : SmoothLoop d b ℓ a lam)
    {h : Barrier (Fin nx → ℝ) ℝ nx} {L D : ℝ} (hb : SmoothBarrier h L D) (p : Pbm (Fin nx → ℝ) U ℝ nu) (hT : 0 < p.T) {φ : ℝ → Fin nx → ℝ}
    {S : ℝ → Matrix (Fin nx) (Fin nx) ℝ} (hf : BackupFlow d b p.T p.x0 φ S) (alpha V : ℝ) (hV : 0 ≤ V) :
    ∃ C h0 : ℝ, 0 < h0 ∧ ∀ prm : Prm ℝ, prm.alpha = alpha → 0 < prm.dt → prm.dt ≤ h0 → 1 ≤ prm.K →
      ∃ times : ℕ → ℝ, (∀ k < prm.K, p.T / prm.K * k ≤ times k ∧ times k < p.T / prm.K * k + prm.dt) ∧
        ∀ fuel qp, toQP env d b h p prm fuel = some qp → ∀ v, Feasible (qp.pbm (nu + 1) (prm.K * h.nh + p.ulim.rows + 1)) v →
          (∀ i, |(d.f p.x0 p.udes + (d.du p.x0 p.udes).mulVec (corr v)) i| ≤ V) → ∀ k < prm.K, ∀ j,
            -(slack v + C * prm.dt) ≤ barrier d h alpha p.x0 p.udes (times k) (φ (times k)) (S (times k)) (corr v) j := by
  obtain ⟨C, h0, hh, hC⟩ := asif_lookahead_first_order env hx had hs hT hf
  have hcY : ContinuousOn (fun t => pack (φ t) (S t)) (Set.Icc 0 p.T) := fun t ht => (flow_deriv hf t ht).continuousAt.continuousWithinAt
  obtain ⟨c, hc⟩ := isCompact_Icc.exists_bound_of_continuousOn hcY
  have hc0 : 0 ≤ c := (norm_nonneg _).trans (hc 0 ⟨le_rfl, hT.le⟩)
  refine ⟨(L + nx * V * (D + L * c) + |alpha| * L) * max C 0, h0, hh, fun prm hal hdt hdh hK => ?_⟩
  obtain ⟨steps, hS, hk⟩ := hC prm.dt hdt hdh prm.K hK
  refine ⟨fun k => (steps k).sum, fun k h => (hk k h).1, fun fuel qp hq v hfe hv k hkK j => ?_⟩
  have hsafe := (((asif_program env d b h p prm steps hS fuel qp hq).2 v).1.1 hfe).1 k hkK j
  have hKr : (0 : ℝ) < prm.K := by exact_mod_cast hK
  have hsum : (steps k).sum ∈ Set.Icc 0 p.T := by
    have hd := lt_min hdt (div_pos hT hKr)
    obtain ⟨e0, e1⟩ := hS.time hd (min_le_right _ _) k hkK.le
    have e2 := min_le_right prm.dt (p.T / prm.K)
    have e3 : ((k : ℝ) + 1) ≤ prm.K := by exact_mod_cast hkK
    have e4 : p.T / prm.K * ((k : ℝ) + 1) ≤ p.T / prm.K * prm.K := mul_le_mul_of_nonneg_left e3 (div_pos hT hKr).le
    have e5 : p.T / prm.K * prm.K = p.T := by field_simp
    exact ⟨le_trans (by positivity) e0, by linarith⟩
  have hCm : C * prm.dt ≤ max C 0 * prm.dt := mul_le_mul_of_nonneg_right (le_max_left _ _) hdt.le
  have hn := barrier_near hb d alpha p.x0 p.udes (steps k).sum (corr v) j (mul_nonneg (le_max_right C 0) hdt.le) hc0 hV
    (fun i => ((hk k hkK).2.1 i).trans hCm) (fun i j => ((hk k hkK).2.2 i j).trans hCm)
    (fun i j => (both_snd (pack (φ (steps k).sum) (S (steps k).sum)) i j).trans (hc _ hsum)) hv
  rw [hal] at hsafe
  have := (abs_le.1 hn).2
  show -(slack v + _) ≤ _
  linarith [show (L + nx * V * (D + L * c) + |alpha| * L) * (max C 0 * prm.dt) = (L + nx * V * (D + L * c) + |alpha| * L) * max C 0 * prm.dt by ring]

/-! ## A car that follows a moving point -/

/-- Backup: `u = t - x`. -/
def chase : Backup (Fin 1 → ℝ) (Fin 1 → ℝ) ℝ 1 := ⟨fun t x _ => t - x 0, fun _ _ => -1⟩

theorem chase_smooth : SmoothLoop car chase 1 1 0 where
  nonneg := by norm_num
  loop t t' x x' i := by
    have h := norm_le_pi_norm (x - x') 0
    rw [Real.norm_eq_abs, Pi.sub_apply] at h
    show |(t - x 0) - (t' - x' 0)| ≤ _
    have := abs_sub (t - t') (x 0 - x' 0)
    rw [show t - x 0 - (t' - x' 0) = (t - t') - (x 0 - x' 0) by ring]
    linarith
  bound t x i := by obtain rfl : i = 0 := Subsingleton.elim _ _; simp [chase]
  deriv t t' x x' i := by simp [chase]

theorem wall_smooth : SmoothBarrier (wall : Barrier (Fin 1 → ℝ) ℝ 1) 1 1 where
  nonneg := by norm_num
  val t x x' j := by
    have h := norm_le_pi_norm (x - x') 0
    rw [Real.norm_eq_abs, Pi.sub_apply] at h
    show |1 - x 0 - (1 - x' 0)| ≤ _
    rw [show 1 - x 0 - (1 - x' 0) = -(x 0 - x' 0) by ring, abs_neg]
    linarith
  time t x x' j := by simp [wall]
  bound t x j := by obtain rfl : j = (0 : Fin 1) := Subsingleton.elim (α := Fin 1) _ _; simp [wall]
  deriv t x x' j := by simp [wall]

/-- From `x0` the flow is `t - 1 + (x0 + 1) e⁻ᵗ` with sensitivity `e⁻ᵗ`. -/
theorem chase_flow (x0 : Fin 1 → ℝ) (T : ℝ) : BackupFlow car chase T x0 (fun t _ => t - 1 + (x0 0 + 1) * Real.exp (-t))
    (fun t => Matrix.of fun _ _ => Real.exp (-t)) where
  start := by
    constructor
    · funext i; obtain rfl : i = 0 := Subsingleton.elim _ _; simp
    · ext i j
      obtain rfl : i = 0 := Subsingleton.elim _ _
      obtain rfl : j = 0 := Subsingleton.elim _ _
      simp
  state t _ i := by
    have h : HasDerivAt (fun t : ℝ => Real.exp (-t)) (Real.exp (-t) * -1) t := (hasDerivAt_neg t).exp
    have h2 : HasDerivAt (fun t : ℝ => t - 1 + (x0 0 + 1) * Real.exp (-t)) (1 + (x0 0 + 1) * (Real.exp (-t) * -1)) t :=
      ((hasDerivAt_id t).sub_const 1).add (h.const_mul _)
    have e : 1 + (x0 0 + 1) * (Real.exp (-t) * -1) = t - (t - 1 + (x0 0 + 1) * Real.exp (-t)) := by ring
    rw [e] at h2
    exact h2
  sens t _ i j := by
    have h : HasDerivAt (fun t : ℝ => Real.exp (-t)) (Real.exp (-t) * -1) t := (hasDerivAt_neg t).exp
    have e : Real.exp (-t) * -1 = ((-1 : Matrix (Fin 1) (Fin 1) ℝ) * (Matrix.of fun _ _ => Real.exp (-t) : Matrix (Fin 1) (Fin 1) ℝ)) i j := by
      rw [Matrix.neg_mul, Matrix.one_mul, Matrix.neg_apply, Matrix.of_apply]; ring
    rw [e] at h
    exact h

/-- The car at 0 with desired input 2 before the wall at 1, inputs at most 1: over the horizon 1 the program of the filter enforces, up to `C dt`, the exact
condition `1 - x(t) - e⁻ᵗ u + s ≥ 0` along the flow `x(t) = t - 1 + e⁻ᵗ`. -/
theorem chase_safe : ∃ C h0 : ℝ, 0 < h0 ∧ ∀ dt, 0 < dt → dt ≤ h0 → ∀ K : ℕ, 1 ≤ K → ∃ times : ℕ → ℝ,
    (∀ k < K, 1 / (K : ℝ) * k ≤ times k ∧ times k < 1 / (K : ℝ) * k + dt) ∧
      ∃ fuel qp, toQP line car chase wall ⟨1, 0, fun _ => 2, fun _ => 1, box⟩ ⟨K, 1, dt, 10⟩ fuel = some qp ∧
        ∀ v : Fin 2 → ℝ, Feasible (qp.pbm 2 (K * 1 + 1 + 1)) v → |2 + v 0| ≤ 1 → ∀ k < K,
          -(v 1 + C * dt) ≤ 1 - (times k - 1 + Real.exp (-times k)) - Real.exp (-times k) * (2 + v 0) := by
  obtain ⟨C, h0, hh, hC⟩ := asif_program_flow line (fun _ _ => rfl) (fun _ => rfl) chase_smooth wall_smooth
    ⟨1, 0, fun _ => 2, fun _ => 1, box⟩ one_pos (chase_flow 0 1) 1 1 zero_le_one
  refine ⟨C, h0, hh, fun dt hdt hdh K hK => ?_⟩
  obtain ⟨times, ht, hq⟩ := hC ⟨K, 1, dt, 10⟩ rfl hdt hdh hK
  obtain ⟨fuel, qp, hqp⟩ := (asif_terminates_iff line car chase wall ⟨1, 0, fun _ => 2, fun _ => 1, box⟩ ⟨K, 1, dt, 10⟩).2 (Or.inr (Or.inr hdt))
  refine ⟨times, ht, fuel, qp, hqp, fun v hv hb k hk => ?_⟩
  have e0 : (car.f (0 : Fin 1 → ℝ) (fun _ => 2) + (car.du (0 : Fin 1 → ℝ) (fun _ : Fin 1 => (2 : ℝ))).mulVec (corr v)) = fun _ => 2 + v 0 := by
    funext i; obtain rfl : i = 0 := Subsingleton.elim _ _
    simp [car, corr]
  have := hq fuel qp hqp v hv (fun i => by rw [e0]; exact hb) k hk (0 : Fin 1)
  simp only [barrier, e0] at this
  simp only [wall, Matrix.neg_mulVec, Matrix.one_mulVec, Pi.neg_apply, Matrix.mulVec, dotProduct, Finset.univ_unique, Finset.sum_singleton,
    Matrix.of_apply, Pi.zero_apply, slack] at this
  have e1 : v (Fin.last 1) = v 1 := rfl
  have e2 : (-1 : Matrix (Fin 1) (Fin 1) ℝ) 0 default = -1 := by simp
  rw [e1, e2] at this
  linarith

end Verif.ASIF
