import Verif.Spec.EKFFlow
import Verif.Props.EKF
import Mathlib.Analysis.Calculus.MeanValue
import Mathlib.Analysis.Calculus.Deriv.Pi
import Mathlib.Analysis.Calculus.Deriv.Prod
import Mathlib.Analysis.Calculus.Deriv.Add
import Mathlib.Analysis.Calculus.Deriv.Mul
import Mathlib.Analysis.SpecialFunctions.Exponential
import Mathlib.Analysis.SpecialFunctions.Exp
import Mathlib.Analysis.SpecialFunctions.ExpDeriv
import Mathlib.Topology.Order.Compact

/-! # C147: predictions with small steps follow the differential equations -/

set_option linter.unusedSectionVars false

namespace Verif.EKF

open Matrix EKFSpec Lin

/-! ## Forward steps along a grid -/

section

variable {E : Type*} [NormedAddCommGroup E] [NormedSpace ℝ E]

/-- One step: the error made by following the tangent. -/
theorem tangent_error {Y D : ℝ → E} {τ K : ℝ} (hY : ∀ t ∈ Set.Icc 0 τ, HasDerivAt Y (D t) t)
    (hK : ∀ s ∈ Set.Icc 0 τ, ∀ t ∈ Set.Icc 0 τ, ‖D s - D t‖ ≤ K * |s - t|) (hK0 : 0 ≤ K) {t δ : ℝ} (ht : 0 ≤ t) (hδ : 0 ≤ δ) (hτ : t + δ ≤ τ) :
    ‖Y (t + δ) - Y t - δ • D t‖ ≤ K * δ * δ := by
  have h := norm_image_sub_le_of_norm_deriv_le_segment' (f := fun s => Y s - s • D t) (f' := fun s => D s - D t) (a := t) (b := t + δ) (C := K * δ)
    (fun x hx => by
      have h1 := hY x ⟨ht.trans hx.1, hx.2.trans hτ⟩
      have h2 : HasDerivAt (fun s : ℝ => s • D t) (D t) x := by simpa using (hasDerivAt_id x).smul_const (D t)
      exact (h1.sub h2).hasDerivWithinAt)
    (fun x hx => by
      refine (hK x ⟨ht.trans hx.1, hx.2.le.trans hτ⟩ t ⟨ht, by linarith⟩).trans (mul_le_mul_of_nonneg_left ?_ hK0)
      rw [abs_of_nonneg (by linarith [hx.1])]
      linarith [hx.2]) (t + δ) ⟨by linarith, le_rfl⟩
  have e : Y (t + δ) - (t + δ) • D t - (Y t - t • D t) = Y (t + δ) - Y t - δ • D t := by
    rw [add_smul]; abel
  rw [e] at h
  linarith [h, show K * δ * (t + δ - t) = K * δ * δ by ring]

/-- Forward steps of length at most `h` along a grid stay near the solution. -/
theorem euler_grid {Y : ℝ → E} {Φ : ℝ → E → E} {τ K ℓ ρ h : ℝ} (hY : ∀ t ∈ Set.Icc 0 τ, HasDerivAt Y (Φ t (Y t)) t)
    (hK : ∀ s ∈ Set.Icc 0 τ, ∀ t ∈ Set.Icc 0 τ, ‖Φ s (Y s) - Φ t (Y t)‖ ≤ K * |s - t|) (hK0 : 0 ≤ K) (hℓ : 0 ≤ ℓ) (hh : 0 ≤ h)
    (hL : ∀ t ∈ Set.Icc 0 τ, ∀ z, ‖z - Y t‖ ≤ ρ → ‖Φ t z - Φ t (Y t)‖ ≤ ℓ * ‖z - Y t‖) (b : ℝ) (hb : b ≤ τ) (l : List (ℝ × ℝ)) :
    ∀ (a : ℝ) (z : E) (e : ℝ), 0 ≤ a → Grid a b l → (∀ p ∈ l, 0 ≤ p.2 ∧ p.2 ≤ h) → ‖z - Y a‖ ≤ e →
      Real.exp (ℓ * (b - a)) * (e + K * h * (b - a)) ≤ ρ →
      a ≤ b ∧ ‖l.foldl (fun z p => z + p.2 • Φ p.1 z) z - Y b‖ ≤ Real.exp (ℓ * (b - a)) * (e + K * h * (b - a)) := by
  induction l with
  | nil =>
    intro a z e ha hg _ he _
    obtain rfl : a = b := hg
    refine ⟨le_rfl, ?_⟩
    simpa using he
  | cons p l ih =>
    intro a z e ha hg hp he hρ
    obtain ⟨t, δ⟩ := p
    obtain ⟨rfl, hg⟩ : t = a ∧ Grid (a + δ) b l := hg
    obtain ⟨hδ, hδh⟩ := hp (t, δ) List.mem_cons_self
    simp only at hδ hδh
    have htb : ∀ (l : List (ℝ × ℝ)) (a : ℝ), Grid a b l → (∀ p ∈ l, 0 ≤ p.2) → a ≤ b := by
      intro l
      induction l with
      | nil => intro a h _; exact le_of_eq h
      | cons p l ih => intro a h hp; exact (le_add_of_nonneg_right (hp p List.mem_cons_self)).trans (ih _ h.2 fun q hq => hp q (List.mem_cons_of_mem _ hq))
    have hδb : t + δ ≤ b := htb l _ hg fun q hq => (hp q (List.mem_cons_of_mem _ hq)).1
    have he0 : 0 ≤ e := (norm_nonneg _).trans he
    have hba : 0 ≤ b - t := by linarith
    have hKh : 0 ≤ K * h := mul_nonneg hK0 hh
    have hin : t ∈ Set.Icc 0 τ := ⟨ha, by linarith⟩
    have hone : 1 ≤ Real.exp (ℓ * (b - t)) := Real.one_le_exp (mul_nonneg hℓ hba)
    have heρ : e ≤ ρ := by
      refine le_trans ?_ hρ
      have := mul_le_mul_of_nonneg_right hone (add_nonneg he0 (mul_nonneg hKh hba))
      nlinarith [mul_nonneg hKh hba]
    -- one step
    have hstep : ‖(z + δ • Φ t z) - Y (t + δ)‖ ≤ (1 + ℓ * δ) * e + K * h * δ := by
      have h1 := tangent_error hY hK hK0 ha hδ (hδb.trans hb)
      have h2 : (z + δ • Φ t z) - Y (t + δ) = (z - Y t) + δ • (Φ t z - Φ t (Y t)) - (Y (t + δ) - Y t - δ • Φ t (Y t)) := by
        rw [smul_sub]; abel
      have h3 := hL t hin z (he.trans heρ)
      have h4 : ‖δ • (Φ t z - Φ t (Y t))‖ ≤ δ * (ℓ * e) := by
        rw [norm_smul, Real.norm_eq_abs, abs_of_nonneg hδ]
        exact mul_le_mul_of_nonneg_left (h3.trans (mul_le_mul_of_nonneg_left he hℓ)) hδ
      have h5 : K * δ * δ ≤ K * h * δ := mul_le_mul_of_nonneg_right (mul_le_mul_of_nonneg_left hδh hK0) hδ
      rw [h2]
      calc _ ≤ ‖(z - Y t) + δ • (Φ t z - Φ t (Y t))‖ + ‖Y (t + δ) - Y t - δ • Φ t (Y t)‖ := norm_sub_le _ _
        _ ≤ (‖z - Y t‖ + ‖δ • (Φ t z - Φ t (Y t))‖) + K * δ * δ := add_le_add (norm_add_le _ _) h1
        _ ≤ (e + δ * (ℓ * e)) + K * h * δ := by linarith
        _ = _ := by ring
    have hle : Real.exp (ℓ * (b - (t + δ))) * ((1 + ℓ * δ) * e + K * h * δ + K * h * (b - (t + δ)))
        ≤ Real.exp (ℓ * (b - t)) * (e + K * h * (b - t)) := by
      have hx : Real.exp (ℓ * (b - t)) = Real.exp (ℓ * (b - (t + δ))) * Real.exp (ℓ * δ) := by rw [← Real.exp_add]; congr 1; ring
      rw [hx, mul_assoc (Real.exp (ℓ * (b - (t + δ)))) (Real.exp (ℓ * δ))]
      refine mul_le_mul_of_nonneg_left ?_ (Real.exp_pos _).le
      have h1 : 1 + ℓ * δ ≤ Real.exp (ℓ * δ) := by linarith [Real.add_one_le_exp (ℓ * δ)]
      have h2 : 1 ≤ Real.exp (ℓ * δ) := Real.one_le_exp (mul_nonneg hℓ hδ)
      have h3 := mul_le_mul_of_nonneg_right h1 he0
      have h4 := mul_le_mul_of_nonneg_right h2 (mul_nonneg hKh hba)
      nlinarith
    obtain ⟨-, hr⟩ := ih (t + δ) (z + δ • Φ t z) _ (add_nonneg ha hδ) hg (fun q hq => hp q (List.mem_cons_of_mem _ hq)) hstep (hle.trans hρ)
    exact ⟨by linarith, hr.trans hle⟩

end

/-! ## The filter -/

variable {n : ℕ}

/-- Estimate and covariance as one vector with the largest entry as norm. -/
abbrev Both (n : ℕ) := (Fin n → ℝ) × (Fin n → Fin n → ℝ)

def pack (g : Vec n ℝ) (P : Mat n n ℝ) : Both n := (g, fun i j => P i j)

/-- Right-hand side of both equations, as the filter evaluates it. -/
def bothRhs (d : Dyn (Vec n ℝ) ℝ n) (Q : Mat n n ℝ) (t : ℝ) (z : Both n) : Both n :=
  pack (d.f t z.1) (symU (d.df t z.1 * Matrix.of z.2 + Matrix.of z.2 * (d.df t z.1)ᵀ + Q))

theorem pack_odeStep (env : Env (Vec n ℝ) ℝ n) (he : env.tab = Tableau.euler) (hv : VectorSpace env) (had : ∀ v, env.ad v = 0)
    (d : Dyn (Vec n ℝ) ℝ n) (Q : Mat n n ℝ) (s : State (Vec n ℝ) ℝ n) (t dt : ℝ) :
    pack (odeStep env d Q s t dt).g (odeStep env d Q s t dt).P = pack s.g s.P + dt • bothRhs d Q t (pack s.g s.P) := by
  rw [odeStep_euler env he]
  refine Prod.ext ?_ ?_
  · show env.rplus s.g (dt • d.f t s.g) = s.g + dt • d.f t s.g
    exact hv _ _
  · funext i j
    show (s.P + dt • covRhs env d Q s.g t s.P) i j = s.P i j + dt * symU (d.df t s.g * s.P + s.P * (d.df t s.g)ᵀ + Q) i j
    simp only [covRhs, had, neg_zero, zero_add, Matrix.add_apply, Matrix.smul_apply, smul_eq_mul]

theorem pack_fold (env : Env (Vec n ℝ) ℝ n) (he : env.tab = Tableau.euler) (hv : VectorSpace env) (had : ∀ v, env.ad v = 0)
    (d : Dyn (Vec n ℝ) ℝ n) (Q : Mat n n ℝ) (l : List (ℝ × ℝ)) : ∀ s : State (Vec n ℝ) ℝ n,
    pack (l.foldl (fun s p => odeStep env d Q s p.1 p.2) s).g (l.foldl (fun s p => odeStep env d Q s p.1 p.2) s).P
      = l.foldl (fun z p => z + p.2 • bothRhs d Q p.1 z) (pack s.g s.P) := by
  induction l with
  | nil => intro s; rfl
  | cons p l ih => intro s; rw [List.foldl_cons, ih, pack_odeStep env he hv had, List.foldl_cons]

theorem flow_deriv {d : Dyn (Vec n ℝ) ℝ n} {Q : Mat n n ℝ} (hQ : Q.IsSymm) {τ : ℝ} {γ : ℝ → Vec n ℝ} {S : ℝ → Mat n n ℝ} (h : Flow d Q τ γ S) :
    ∀ t ∈ Set.Icc 0 τ, HasDerivAt (fun t => pack (γ t) (S t)) (bothRhs d Q t (pack (γ t) (S t))) t := by
  intro t ht
  have hs : (d.df t (γ t) * S t + S t * (d.df t (γ t))ᵀ + Q).IsSymm := by
    rw [Matrix.IsSymm, Matrix.transpose_add, Matrix.transpose_add, Matrix.transpose_mul, Matrix.transpose_mul, Matrix.transpose_transpose,
      (h.symm t ht).eq, hQ.eq, add_comm (S t * _)]
  have hr : bothRhs d Q t (pack (γ t) (S t)) = pack (d.f t (γ t)) (d.df t (γ t) * S t + S t * (d.df t (γ t))ᵀ + Q) := by
    show pack (d.f t (γ t)) (symU (d.df t (γ t) * S t + S t * (d.df t (γ t))ᵀ + Q)) = _
    rw [symU_of_isSymm _ hs]
  rw [hr]
  exact (hasDerivAt_pi.2 fun i => h.state t ht i).prodMk (hasDerivAt_pi.2 fun i => hasDerivAt_pi.2 fun j => h.cov t ht i j)

/-- **C147** Nonlinear dynamics in a vector space, default stepper: if along the solution of the differential equations the right-hand
side is Lipschitz in time (`K`) and, within `ρ`, in estimate and covariance (`ℓ`), a prediction over `τ` with steps `dt` returns values
within `exp(ℓ τ) K τ dt` of the solution in every entry, as soon as that is at most `ρ`. -/
theorem ekf_predict_first_order (env : Env (Vec n ℝ) ℝ n) (he : env.tab = Tableau.euler) (hv : VectorSpace env) (had : ∀ v, env.ad v = 0)
    {d : Dyn (Vec n ℝ) ℝ n} {Q : Mat n n ℝ} (hQ : Q.IsSymm) {τ : ℝ} (hτ : 0 < τ) {γ : ℝ → Vec n ℝ} {S : ℝ → Mat n n ℝ} (hf : Flow d Q τ γ S)
    {K ℓ ρ : ℝ} (hK0 : 0 ≤ K) (hℓ : 0 ≤ ℓ)
    (hK : ∀ s ∈ Set.Icc 0 τ, ∀ t ∈ Set.Icc 0 τ, ‖bothRhs d Q s (pack (γ s) (S s)) - bothRhs d Q t (pack (γ t) (S t))‖ ≤ K * |s - t|)
    (hL : ∀ t ∈ Set.Icc 0 τ, ∀ z, ‖z - pack (γ t) (S t)‖ ≤ ρ →
      ‖bothRhs d Q t z - bothRhs d Q t (pack (γ t) (S t))‖ ≤ ℓ * ‖z - pack (γ t) (S t)‖)
    {dt : ℝ} (hdt : 0 < dt) (hρ : Real.exp (ℓ * τ) * (K * dt * τ) ≤ ρ) :
    ∃ (fuel : ℕ) (s' : State (Vec n ℝ) ℝ n), (∀ f, fuel ≤ f → predict env d Q τ (some dt) f ⟨γ 0, S 0⟩ = some s') ∧
      (∀ i, |s'.g i - γ τ i| ≤ Real.exp (ℓ * τ) * K * τ * dt) ∧ ∀ i j, |s'.P i j - S τ i j| ≤ Real.exp (ℓ * τ) * K * τ * dt := by
  obtain ⟨fuel, s', full, tl, h1, h2, h3, h4, h5, h6⟩ := ekf_predict_covers_interval env d Q τ dt hdt ⟨γ 0, S 0⟩
  have hsteps : ∀ p ∈ full ++ [(tl, τ - tl)], 0 ≤ p.2 ∧ p.2 ≤ dt := by
    intro p hp
    rcases List.mem_append.1 hp with hp | hp
    · rw [h3 p hp]; exact ⟨hdt.le, le_rfl⟩
    · obtain rfl := List.mem_singleton.1 hp
      exact ⟨(h5 hτ).le, h4⟩
  have hmain := (euler_grid (Y := fun t => pack (γ t) (S t)) (Φ := bothRhs d Q) (flow_deriv hQ hf) hK hK0 hℓ hdt.le hL τ le_rfl _ 0
    (pack (γ 0) (S 0)) 0 le_rfl h2 hsteps (by simp) (by simpa using hρ)).2
  rw [← pack_fold env he hv had d Q _ ⟨γ 0, S 0⟩, ← h6] at hmain
  have hb : Real.exp (ℓ * (τ - 0)) * (0 + K * dt * (τ - 0)) = Real.exp (ℓ * τ) * K * τ * dt := by rw [sub_zero, zero_add]; ring
  rw [hb] at hmain
  refine ⟨fuel, s', h1, fun i => ?_, fun i j => ?_⟩
  · exact (norm_le_pi_norm (s'.g - γ τ) i).trans ((norm_fst_le (pack s'.g s'.P - pack (γ τ) (S τ))).trans hmain)
  · have h7 : ‖(pack s'.g s'.P - pack (γ τ) (S τ)).2‖ ≤ _ := (norm_snd_le _).trans hmain
    exact (norm_le_pi_norm ((pack s'.g s'.P - pack (γ τ) (S τ)).2 i) j).trans ((norm_le_pi_norm _ i).trans h7)

/-! ## Linear systems -/

/-- `x' = b + A x`. -/
def linDyn (A : Mat n n ℝ) (b : Vec n ℝ) : Dyn (Vec n ℝ) ℝ n := ⟨fun _ g => b + A *ᵥ g, fun _ _ => A⟩

theorem abs_symU_le {M : Mat n n ℝ} {c : ℝ} (h : ∀ i j, |M i j| ≤ c) (i j : Fin n) : |symU M i j| ≤ c := by
  unfold symU
  split_ifs <;> exact h _ _

theorem symU_sub (M N : Mat n n ℝ) : symU M - symU N = symU (M - N) := by
  ext i j
  simp only [symU, Matrix.sub_apply]
  split_ifs <;> rfl

theorem linear_lipschitz (A : Mat n n ℝ) (b : Vec n ℝ) (Q : Mat n n ℝ) {a : ℝ} (ha : 0 ≤ a) (hA : ∀ i, ∑ j, |A i j| ≤ a) (t t' : ℝ) (z z' : Both n) :
    ‖bothRhs (linDyn A b) Q t z - bothRhs (linDyn A b) Q t' z'‖ ≤ 2 * a * ‖z - z'‖ := by
  have hn := norm_nonneg (z - z')
  have hrow : ∀ (i : Fin n) (w : Fin n → ℝ) (c : ℝ), (∀ j, |w j| ≤ c) → |∑ j, A i j * w j| ≤ a * c := by
    intro i w c hw
    calc |∑ j, A i j * w j| ≤ ∑ j, |A i j * w j| := Finset.abs_sum_le_sum_abs _ _
      _ ≤ ∑ j, |A i j| * c := Finset.sum_le_sum fun j _ => by rw [abs_mul]; exact mul_le_mul_of_nonneg_left (hw j) (abs_nonneg _)
      _ = (∑ j, |A i j|) * c := by rw [Finset.sum_mul]
      _ ≤ a * c := by
        rcases isEmpty_or_nonempty (Fin n) with hE | ⟨⟨j⟩⟩
        · exact (hE.false i).elim
        · exact mul_le_mul_of_nonneg_right (hA i) ((abs_nonneg _).trans (hw j))
  have h1 : ∀ j, |(z.1 - z'.1) j| ≤ ‖z - z'‖ := fun j => (norm_le_pi_norm (z.1 - z'.1) j).trans (norm_fst_le (z - z'))
  have h2 : ∀ i j, |z.2 i j - z'.2 i j| ≤ ‖z - z'‖ := fun i j =>
    (norm_le_pi_norm ((z.2 - z'.2) i) j).trans ((norm_le_pi_norm (z.2 - z'.2) i).trans (norm_snd_le (z - z')))
  refine norm_prod_le_iff.2 ⟨?_, ?_⟩
  · refine (pi_norm_le_iff_of_nonneg (by positivity)).2 fun i => ?_
    show |(b + A *ᵥ z.1) i - (b + A *ᵥ z'.1) i| ≤ _
    have e : (b + A *ᵥ z.1) i - (b + A *ᵥ z'.1) i = ∑ j, A i j * (z.1 - z'.1) j := by
      rw [Pi.add_apply, Pi.add_apply, add_sub_add_left_eq_sub, ← Pi.sub_apply, ← Matrix.mulVec_sub]
      rfl
    rw [e]
    refine (hrow i _ _ h1).trans ?_
    nlinarith [mul_nonneg ha hn]
  · refine (pi_norm_le_iff_of_nonneg (by positivity)).2 fun i => (pi_norm_le_iff_of_nonneg (by positivity)).2 fun j => ?_
    show |(symU (A * Matrix.of z.2 + Matrix.of z.2 * Aᵀ + Q) - symU (A * Matrix.of z'.2 + Matrix.of z'.2 * Aᵀ + Q)) i j| ≤ _
    rw [symU_sub]
    refine abs_symU_le (fun i j => ?_) i j
    have e : (A * Matrix.of z.2 + Matrix.of z.2 * Aᵀ + Q - (A * Matrix.of z'.2 + Matrix.of z'.2 * Aᵀ + Q)) i j
        = ∑ k, A i k * (z.2 k j - z'.2 k j) + ∑ k, A j k * (z.2 i k - z'.2 i k) := by
      simp only [Matrix.sub_apply, Matrix.add_apply, Matrix.mul_apply, Matrix.of_apply, Matrix.transpose_apply, mul_sub, Finset.sum_sub_distrib]
      have c1 : ∀ w : Fin n → Fin n → ℝ, ∑ k, w i k * A j k = ∑ k, A j k * w i k := fun w => Finset.sum_congr rfl fun k _ => mul_comm _ _
      rw [c1, c1]
      ring
    rw [e]
    have := abs_add_le (∑ k, A i k * (z.2 k j - z'.2 k j)) (∑ k, A j k * (z.2 i k - z'.2 i k))
    have r1 := hrow i _ _ (fun k => h2 k j)
    have r2 := hrow j _ _ (fun k => h2 i k)
    linarith

/-- **C147** For a linear system there is a constant such that a prediction over `τ` with steps `dt` differs from the solution of the
differential equations of estimate and covariance by at most the constant times `dt` in every entry, for every `dt > 0`. -/
theorem ekf_predict_linear_first_order (env : Env (Vec n ℝ) ℝ n) (he : env.tab = Tableau.euler) (hv : VectorSpace env) (had : ∀ v, env.ad v = 0)
    (A : Mat n n ℝ) (b : Vec n ℝ) {Q : Mat n n ℝ} (hQ : Q.IsSymm) {τ : ℝ} (hτ : 0 < τ) {γ : ℝ → Vec n ℝ} {S : ℝ → Mat n n ℝ}
    (hf : Flow (linDyn A b) Q τ γ S) :
    ∃ C, ∀ dt, 0 < dt → ∃ (fuel : ℕ) (s' : State (Vec n ℝ) ℝ n),
      (∀ f, fuel ≤ f → predict env (linDyn A b) Q τ (some dt) f ⟨γ 0, S 0⟩ = some s') ∧
      (∀ i, |s'.g i - γ τ i| ≤ C * dt) ∧ ∀ i j, |s'.P i j - S τ i j| ≤ C * dt := by
  set a := ∑ i, ∑ j, |A i j| with ha
  have ha0 : 0 ≤ a := Finset.sum_nonneg fun i _ => Finset.sum_nonneg fun j _ => abs_nonneg _
  have hA : ∀ i, ∑ j, |A i j| ≤ a := fun i =>
    Finset.single_le_sum (f := fun i => ∑ j, |A i j|) (fun i _ => Finset.sum_nonneg fun j _ => abs_nonneg _) (Finset.mem_univ i)
  have hlip := linear_lipschitz A b Q ha0 hA
  set Y := fun t => pack (γ t) (S t) with hY
  have hd := flow_deriv hQ hf
  have hcY : ContinuousOn Y (Set.Icc 0 τ) := fun t ht => (hd t ht).continuousAt.continuousWithinAt
  have hcD : ContinuousOn (fun t => bothRhs (linDyn A b) Q t (Y t)) (Set.Icc 0 τ) := by
    have hc : Continuous (fun z => bothRhs (linDyn A b) Q 0 z) :=
      (LipschitzWith.of_dist_le_mul (K := ⟨2 * a, by positivity⟩) fun z z' => by
        rw [dist_eq_norm, dist_eq_norm]; exact hlip 0 0 z z').continuous
    exact (hc.comp_continuousOn hcY).congr fun t _ => rfl
  obtain ⟨M, hM⟩ := isCompact_Icc.exists_bound_of_continuousOn hcD
  have hM0 : 0 ≤ M := (norm_nonneg _).trans (hM 0 ⟨le_rfl, hτ.le⟩)
  have hYM : ∀ s ∈ Set.Icc 0 τ, ∀ t ∈ Set.Icc 0 τ, ‖Y s - Y t‖ ≤ M * |s - t| := fun s hs t ht =>
    (convex_Icc 0 τ).norm_image_sub_le_of_norm_hasDerivWithin_le (fun x hx => (hd x hx).hasDerivWithinAt) hM ht hs
  refine ⟨Real.exp (2 * a * τ) * (2 * a * M) * τ, fun dt hdt => ?_⟩
  exact ekf_predict_first_order env he hv had hQ hτ hf (K := 2 * a * M) (ℓ := 2 * a) (ρ := Real.exp (2 * a * τ) * (2 * a * M * dt * τ)) (by positivity) (by positivity)
    (fun s hs t ht => (hlip s t (Y s) (Y t)).trans (by
      have := mul_le_mul_of_nonneg_left (hYM s hs t ht) (show 0 ≤ 2 * a by positivity)
      linarith))
    (fun t _ z _ => hlip t t z _) hdt le_rfl

/-! ## `x' = -x` with process noise 1 -/

noncomputable def realLineEnv : Env (Vec 1 ℝ) ℝ 1 where
  tab := .euler
  rplus g v := g + v
  ad _ := 0
  default := 0
  solve S B := S⁻¹ * B

/-- From estimate 1 with variance 1, the estimate of the continuous equations is `e⁻ᵗ` and the variance `1/2 + e⁻²ᵗ/2`. -/
theorem decay_flow (τ : ℝ) : Flow (linDyn (-1 : Mat 1 1 ℝ) 0) 1 τ (fun t _ => Real.exp (-t))
    (fun t => Matrix.of fun _ _ => 1 / 2 + Real.exp (-2 * t) / 2) where
  state t _ i := by
    obtain rfl : i = 0 := Subsingleton.elim _ _
    have h : HasDerivAt (fun t : ℝ => Real.exp (-t)) (Real.exp (-t) * -1) t := (hasDerivAt_neg t).exp
    convert h using 1
    simp [linDyn, Matrix.neg_mulVec]
  cov t _ i j := by
    obtain rfl : i = 0 := Subsingleton.elim _ _
    obtain rfl : j = 0 := Subsingleton.elim _ _
    have h1 : HasDerivAt (fun t : ℝ => -2 * t) (-2) t := by simpa using (hasDerivAt_id t).const_mul (-2 : ℝ)
    have h : HasDerivAt (fun t : ℝ => 1 / 2 + Real.exp (-2 * t) / 2) (Real.exp (-2 * t) * -2 / 2) t := (h1.exp.div_const 2).const_add (1 / 2)
    have e : ∀ c : ℝ, (((-1 : Mat 1 1 ℝ) * (Matrix.of (fun _ _ => c) : Mat 1 1 ℝ) + (Matrix.of (fun _ _ => c) : Mat 1 1 ℝ) * (-1 : Mat 1 1 ℝ)ᵀ + 1 : Mat 1 1 ℝ) 0 0
        = 1 - 2 * c) := by
      intro c
      rw [Matrix.transpose_neg, Matrix.transpose_one, Matrix.neg_mul, Matrix.mul_neg, Matrix.one_mul, Matrix.mul_one, Matrix.add_apply, Matrix.add_apply,
        Matrix.neg_apply, Matrix.of_apply, Matrix.one_apply_eq]
      ring
    have e2 : Real.exp (-2 * t) * -2 / 2 = 1 - 2 * (1 / 2 + Real.exp (-2 * t) / 2) := by ring
    rw [e2, ← e] at h
    exact h
  symm t _ := by ext i j; rfl

theorem decay_predicted : ∃ C, ∀ dt, 0 < dt → ∃ (fuel : ℕ) (s' : State (Vec 1 ℝ) ℝ 1),
    (∀ f, fuel ≤ f → predict realLineEnv (linDyn (-1 : Mat 1 1 ℝ) 0) 1 1 (some dt) f
      ⟨fun _ => Real.exp (-0), Matrix.of fun _ _ => 1 / 2 + Real.exp (-2 * 0) / 2⟩ = some s') ∧
    |s'.P 0 0 - (1 / 2 + Real.exp (-2 * 1) / 2)| ≤ C * dt := by
  obtain ⟨C, hC⟩ := ekf_predict_linear_first_order realLineEnv rfl (fun _ _ => rfl) (fun _ => rfl) (-1) 0 Matrix.isSymm_one one_pos (decay_flow 1)
  refine ⟨C, fun dt hdt => ?_⟩
  obtain ⟨fuel, s', h1, -, h2⟩ := hC dt hdt
  exact ⟨fuel, s', h1, h2 0 0⟩

end Verif.EKF
