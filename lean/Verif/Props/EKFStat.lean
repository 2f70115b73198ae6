import Verif.Proofs.EKFStat

/-! # The covariance of the filter and the errors of its estimates (C119) -/

set_option linter.unusedSectionVars false

namespace Verif.EKF

open Matrix EKFSpec Lin

universe v

variable {Ω G : Type*} {F : Type v} [Fintype Ω] [Field F] [LinearOrder F] [IsStrictOrderedRing F] {n m : ℕ} {p : Ω → F}
  {env : Env (Vec n F) F n} {fuel : ℕ}

/-- **C119** (partial). FULL CLAIM: if the filter is told covariances of the first estimate and of the noises that cover the real ones, then
after any history of predictions and updates of a linear system with uncorrelated noise, its covariance covers that of the error of its
estimate; false of the code, see `ekf_predict_wrong`. Proved if the process noise also covers the term of second order that the forward
step drops, in particular for histories of updates and for `A = 0`. -/
theorem ekf_covers_partial (he : Plain env) (hf : 0 < fuel) (hp : ∀ o, 0 ≤ p o) (l : List (Ev Ω F n)) (P : Mat n n F) (x g : Ω → Vec n F)
    (h : PSD (P - moment p (fun o => x o - g o) fun o => x o - g o)) (hw : White p [⟨n, fun o => x o - g o⟩] l) (hc : Covered p P l) :
    ∃ g' : Ω → Vec n F, (∀ o, run env fuel ⟨g o, P⟩ (opsOf o (x o) l) = some ⟨g' o, cov P l⟩) ∧
      PSD (cov P l - moment p (fun o => truth l (x o) o - g' o) fun o => truth l (x o) o - g' o) :=
  run_covered he hf hp l P x g h hw hc

/-- **C119** With exact covariances and measurements only, the filter's covariance is that of the error. -/
theorem ekf_update_statistics (he : Plain env) (hf : 0 < fuel) (hp : ∀ o, 0 ≤ p o) (zs : List (Obs Ω F n)) (x g : Ω → Vec n F)
    (hR : ∀ z ∈ zs, PD z.R ∧ moment p z.v z.v = z.R) (hw : White p [⟨n, fun o => x o - g o⟩] (zs.map Ev.obs)) :
    ∃ g' : Ω → Vec n F, ∀ o, run env fuel ⟨g o, moment p (fun o => x o - g o) fun o => x o - g o⟩ (opsOf o (x o) (zs.map Ev.obs)) =
      some ⟨g' o, moment p (fun o => x o - g' o) fun o => x o - g' o⟩ := by
  set P := moment p (fun o => x o - g o) fun o => x o - g o with hPd
  have h0 : PSD (P - P) := by rw [sub_self]; exact ⟨Matrix.isSymm_zero, fun v => by simp⟩
  have hex : Exact p (zs.map Ev.obs) := by
    intro e hm
    obtain ⟨z, hz, rfl⟩ := List.mem_map.mp hm
    exact hR z hz
  have hcov : Covered p P (zs.map Ev.obs) := by
    intro l₁ e l₂ heq
    have hm : e ∈ zs.map Ev.obs := by rw [heq]; simp
    obtain ⟨z, hz, rfl⟩ := List.mem_map.mp hm
    refine ⟨(hR z hz).1, ?_⟩
    rw [(hR z hz).2, sub_self]
    exact ⟨Matrix.isSymm_zero, fun v => by simp⟩
  have hpsd : ∀ l₁ l₂, zs.map Ev.obs = l₁ ++ l₂ → PSD (cov P l₁) := by
    intro l₁ l₂ heq
    have hw' : White p [⟨n, fun o => x o - g o⟩] l₁ := by
      rw [heq] at hw
      generalize ([⟨n, fun o => x o - g o⟩] : List (RVec Ω F)) = past at hw
      clear heq
      induction l₁ generalizing past with
      | nil => trivial
      | cons e l ih => exact ⟨hw.1, ih _ hw.2⟩
    obtain ⟨g', -, h2⟩ := run_covered (fuel := fuel) he hf hp l₁ P x g h0 hw' fun a e b hab => hcov a e (b ++ l₂) (by rw [heq, hab]; simp)
    have := h2.add (moment_psd hp fun o => truth l₁ (x o) o - g' o)
    rwa [sub_add_cancel] at this
  obtain ⟨g', a1, a2⟩ := run_covered (fuel := fuel) he hf hp _ P x g h0 hw hcov
  obtain ⟨g'', b1, b2⟩ := run_exact (fuel := fuel) he hf _ P x g h0 hw hex hpsd
  have hg : g'' = g' := by
    funext o
    have := (b1 o).symm.trans (a1 o)
    simp only [Option.some.injEq, State.mk.injEq] at this
    exact this.1
  subst hg
  have ht : ∀ o, truth (zs.map Ev.obs) (x o) o = x o := by
    intro o
    have : ∀ (l : List (Obs Ω F n)) y, truth (l.map Ev.obs) y o = y := by
      intro l
      induction l with
      | nil => exact fun y => rfl
      | cons z l ih => exact fun y => ih y
    exact this zs (x o)
  simp only [ht] at a2 b2
  refine ⟨g'', fun o => ?_⟩
  rw [a1 o]
  congr 2
  have key : ∀ w : Vec n F, w ⬝ᵥ (cov P (zs.map Ev.obs) - moment p (fun o => x o - g'' o) fun o => x o - g'' o) *ᵥ w = 0 := by
    intro w
    refine le_antisymm ?_ (a2.2 w)
    have := b2.2 w
    rw [← neg_sub, Matrix.neg_mulVec, dotProduct_neg] at this
    linarith
  generalize hD : (cov P (zs.map Ev.obs) - moment p (fun o => x o - g'' o) fun o => x o - g'' o) = D at key a2
  have hsym := a2.1
  have hzero : D = 0 := by
    ext i j
    have h1 := key (Pi.single i 1 + Pi.single j 1)
    have h2 := key (Pi.single i 1)
    have h3 := key (Pi.single j 1)
    simp only [Matrix.mulVec_add, add_dotProduct, dotProduct_add, single_one_dotProduct, Matrix.mulVec_single_one, Matrix.col_apply] at h1 h2 h3
    have h4 := hsym.apply i j
    rw [Matrix.zero_apply]
    linarith
  rw [hzero] at hD
  exact sub_eq_zero.mp hD

/-- **C119** With exact covariances, after any history during which the filter's covariance stays positive semidefinite, the error is at
least as large as the filter says: the forward steps never err on the safe side. -/
theorem ekf_optimistic (he : Plain env) (hf : 0 < fuel) (l : List (Ev Ω F n)) (x g : Ω → Vec n F)
    (hw : White p [⟨n, fun o => x o - g o⟩] l) (hx : Exact p l)
    (hpsd : ∀ l₁ l₂, l = l₁ ++ l₂ → PSD (cov (moment p (fun o => x o - g o) fun o => x o - g o) l₁)) :
    ∃ g' : Ω → Vec n F, (∀ o, run env fuel ⟨g o, moment p (fun o => x o - g o) fun o => x o - g o⟩ (opsOf o (x o) l) =
        some ⟨g' o, cov (moment p (fun o => x o - g o) fun o => x o - g o) l⟩) ∧
      PSD (moment p (fun o => truth l (x o) o - g' o) (fun o => truth l (x o) o - g' o) - cov (moment p (fun o => x o - g o) fun o => x o - g o) l) :=
  run_exact he hf l _ x g (by rw [sub_self]; exact ⟨Matrix.isSymm_zero, fun v => by simp⟩) hw hx hpsd

/-- **C119, violated.** What a prediction misses: with exact covariances, the error is larger by exactly `dt² A P Aᵀ` than the filter says,
for every linear system, prior, noise and length of the step. -/
theorem ekf_predict_gap (he : Plain env) (hf : 0 < fuel) (s : Shift Ω F n) (hdt : 0 ≤ s.dt) (hQ : s.Q.IsSymm) (hs : moment p s.w s.w = s.dt • s.Q)
    (x g : Ω → Vec n F) (hw : moment p (fun o => x o - g o) s.w = 0) (P : Mat n n F) (hP : P = moment p (fun o => x o - g o) fun o => x o - g o) :
    ∃ (g' : Ω → Vec n F) (P' : Mat n n F), (∀ o, predict env ⟨fun _ y => s.b + s.A *ᵥ y, fun _ _ => s.A⟩ s.Q s.dt none fuel ⟨g o, P⟩ = some ⟨g' o, P'⟩) ∧
      moment p (fun o => x o + s.dt • (s.b + s.A *ᵥ x o) + s.w o - g' o) (fun o => x o + s.dt • (s.b + s.A *ᵥ x o) + s.w o - g' o) =
        P' + (s.dt * s.dt) • (s.A * P * s.Aᵀ) := by
  have hsym : P.IsSymm := by rw [hP]; exact moment_transpose _ _
  choose g' k1 k2 using fun o => step_shift (fuel := fuel) he hf s hdt hQ ⟨g o, P⟩ hsym (x o) o
  refine ⟨g', Ev.cov P (.shift s : Ev Ω F n), k1, ?_⟩
  rw [show (fun o => x o + s.dt • (s.b + s.A *ᵥ x o) + s.w o - g' o) = fun o => (1 + s.dt • s.A) *ᵥ (x o - g o) + (1 : Mat n n F) *ᵥ s.w o from funext k2,
    moment_combine _ _ _ _ hw, hs, ← hP, cov_shift]
  simp only [Matrix.one_mul, Matrix.transpose_one, Matrix.mul_one]
  abel

/-! ## The gain -/

theorem gain_square {m : ℕ} (P : Mat n n F) (H : Mat m n F) (R : Mat m m F) (hP : PSD P) (hR : PD R) (L : Mat n m F) :
    (1 - L * H) * P * (1 - L * H)ᵀ + L * R * Lᵀ = (1 - P * Hᵀ * (innov P H R)⁻¹ * H) * P +
      (L - P * Hᵀ * (innov P H R)⁻¹) * innov P H R * (L - P * Hᵀ * (innov P H R)⁻¹)ᵀ := by
  have hS := innov_PD H hP hR
  have hu := hS.isUnit_det
  set K := P * Hᵀ * (innov P H R)⁻¹ with hK
  have h1 : K * innov P H R = P * Hᵀ := gain_mul P H R hu
  have h2 : innov P H R * Kᵀ = H * P := by
    have e1 : (K * innov P H R)ᵀ = (P * Hᵀ)ᵀ := by rw [h1]
    rwa [Matrix.transpose_mul, Matrix.transpose_mul P, Matrix.transpose_transpose, hS.1.eq, hP.1.eq] at e1
  have e1 : (L - K) * innov P H R * (L - K)ᵀ = L * innov P H R * Lᵀ - P * Hᵀ * Lᵀ - L * (H * P) + K * (H * P) := by
    rw [Matrix.transpose_sub, Matrix.mul_sub, Matrix.sub_mul, Matrix.sub_mul, Matrix.sub_mul, h1, Matrix.mul_assoc L _ Kᵀ, h2, ← h1, Matrix.mul_assoc K _ Kᵀ, h2]
    abel
  rw [e1, innov, Matrix.transpose_sub, Matrix.transpose_mul, Matrix.transpose_one]
  simp only [Matrix.mul_add, Matrix.add_mul, Matrix.mul_sub, Matrix.sub_mul, Matrix.one_mul, Matrix.mul_one, Matrix.mul_assoc]
  abel

/-- The covariance after an update. -/
theorem update_P {env : Env G F n} (hs : SolveOk env) (z : Meas G F n) (R : Mat z.m z.m F) (s : State G F n) (hP : PSD s.P) (hR : PD R) :
    (update env z R s).P = (1 - s.P * (z.jac s.g)ᵀ * (innov s.P (z.jac s.g) R)⁻¹ * z.jac s.g) * s.P := by
  have hsR : symU R = R := symU_of_isSymm _ hR.1
  have he := update_eq env hs z R s hP (hsR.symm ▸ hR)
  rw [he]
  simp only [hsR]
  exact symU_of_isSymm _ (update_cov_PSD s.P _ _ hP hR).1

/-- **C119** The gain is the best one: any other weight `L` on the innovation gives a covariance that is at least as large. On any state
manifold, for any measurement model. -/
theorem ekf_update_best {env : Env G F n} (hs : SolveOk env) (z : Meas G F n) (R : Mat z.m z.m F) (s : State G F n) (hP : PSD s.P) (hR : PD R)
    (L : Mat n z.m F) : PSD ((1 - L * z.jac s.g) * s.P * (1 - L * z.jac s.g)ᵀ + L * R * Lᵀ - (update env z R s).P) := by
  rw [update_P hs z R s hP hR, gain_square _ _ _ hP hR L, add_sub_cancel_left]
  exact (innov_PD _ hP hR).psd.congr _

/-- **C119** An update with a larger prior covariance or a larger noise covariance gives a larger covariance. -/
theorem ekf_update_monotone {env : Env G F n} (hs : SolveOk env) (z : Meas G F n) (R₁ R₂ : Mat z.m z.m F) (g : G) (P₁ P₂ : Mat n n F) (h1 : PSD P₁) (h2 : PSD P₂)
    (hR₁ : PD R₁) (hR₂ : PD R₂) (hP : PSD (P₂ - P₁)) (hR : PSD (R₂ - R₁)) : PSD ((update env z R₂ ⟨g, P₂⟩).P - (update env z R₁ ⟨g, P₁⟩).P) := by
  set K := P₂ * (z.jac g)ᵀ * (innov P₂ (z.jac g) R₂)⁻¹ with hK
  have e2 : (update env z R₂ ⟨g, P₂⟩).P = (1 - K * z.jac g) * P₂ * (1 - K * z.jac g)ᵀ + K * R₂ * Kᵀ := by
    rw [update_P hs z R₂ ⟨g, P₂⟩ h2 hR₂]
    exact joseph P₂ _ R₂ (innov_PD _ h2 hR₂).isUnit_det K hK
  have a := ((ekf_update_best hs z R₁ ⟨g, P₁⟩ h1 hR₁ K).add (hP.congr (1 - K * z.jac g))).add (hR.congr K)
  rw [e2]
  convert a using 1
  simp only [Matrix.mul_sub, Matrix.sub_mul]
  abel

/-! ## Examples -/

/-- A scalar filter as a vector space of dimension one. -/
noncomputable def lineEnv : Env (Vec 1 ℚ) ℚ 1 where
  tab := .euler
  rplus g v := g + v
  ad _ := 0
  default := 0
  solve S B := S⁻¹ * B

theorem lineEnv_plain : Plain lineEnv where
  solve := by
    intro m S B hS
    show S * (S⁻¹ * B) = B
    rw [← Matrix.mul_assoc, Matrix.mul_nonsing_inv S hS, Matrix.one_mul]
  plus _ _ := rfl
  tab := rfl
  ad _ := rfl

/-- Two outcomes for the first error, two for the noise of a measurement. -/
def coin : Bool × Bool → ℚ := fun _ => 1 / 4
def sign (b : Bool) : Vec 1 ℚ := fun _ => if b then 1 else -1

/-- A measurement of the state. -/
def oneObs : List (Obs (Bool × Bool) ℚ 1) := [⟨1, 1, 0, 1, fun o => sign o.2⟩]

/-- The hypotheses of `ekf_update_statistics` are met. -/
example : (∀ o, 0 ≤ coin o) ∧ (∀ z ∈ oneObs, PD z.R ∧ moment coin z.v z.v = z.R) ∧
    White coin [⟨1, fun o => sign o.1 - 0⟩] (oneObs.map Ev.obs) ∧ moment coin (fun o => sign o.1 - 0) (fun o => sign o.1 - 0) = 1 := by
  refine ⟨fun o => by norm_num [coin], ?_, ⟨?_, trivial⟩, by decide +kernel⟩
  · intro z hz
    obtain rfl := List.mem_singleton.mp hz
    refine ⟨?_, by decide +kernel⟩
    have := pd_one_by_one 1 (by norm_num)
    rwa [show (!![1] : Mat 1 1 ℚ) = 1 by decide +kernel] at this
  · intro a ha
    obtain rfl := List.mem_singleton.mp ha
    show moment coin (fun o => sign o.1 - 0) (fun o : Bool × Bool => sign o.2) = 0
    decide +kernel

/-- `x' = -x` for half a time unit, without noise. -/
def decay : Shift (Bool × Bool) ℚ 1 := ⟨1 / 2, -1, 0, 0, fun _ => 0⟩

/-- **C119, violated.** For `x' = -x` without process noise and the estimate 0 of a state that is -1 or 1, after half a time unit the filter
claims to know the state exactly, although it is -1/2 or 1/2. -/
theorem ekf_predict_wrong : PSD ((1 : Mat 1 1 ℚ) - moment coin (fun o => sign o.1 - 0) fun o => sign o.1 - 0) ∧
    White coin [⟨1, fun o => sign o.1 - 0⟩] [Ev.shift decay] ∧ Exact coin [Ev.shift decay] ∧
    (∀ o, run lineEnv 1 ⟨0, 1⟩ (opsOf o (sign o.1) [.shift decay]) = some ⟨0, 0⟩) ∧
    (∀ o, truth [.shift decay] (sign o.1) o = (1 / 2 : ℚ) • sign o.1) := by
  refine ⟨?_, ⟨?_, trivial⟩, ?_, fun o => ?_, fun o => ?_⟩
  · rw [show moment coin (fun o => sign o.1 - 0) (fun o => sign o.1 - 0) = 1 by decide +kernel, sub_self]
    exact ⟨Matrix.isSymm_zero, fun v => by simp⟩
  · intro a ha
    obtain rfl := List.mem_singleton.mp ha
    show moment coin (fun o => sign o.1 - 0) (fun _ : Bool × Bool => (0 : Vec 1 ℚ)) = 0
    decide +kernel
  · intro e hm
    obtain rfl := List.mem_singleton.mp hm
    exact ⟨by norm_num [decay], Matrix.isSymm_zero, by show moment coin (fun _ : Bool × Bool => (0 : Vec 1 ℚ)) (fun _ => 0) = (1 / 2 : ℚ) • 0; decide +kernel⟩
  · obtain ⟨g', h1, -⟩ := step_shift (fuel := 1) lineEnv_plain one_pos decay (by norm_num [decay]) Matrix.isSymm_zero (⟨0, 1⟩ : State (Vec 1 ℚ) ℚ 1) Matrix.isSymm_one (sign o.1) o
    have hg : g' = 0 := by
      simp only [step, Ev.op] at h1
      rw [ekf_predict_default_single_step lineEnv _ _ _ (by norm_num [decay]) _ 1 one_pos, odeStep_euler lineEnv rfl] at h1
      simp only [Option.some.injEq, State.mk.injEq] at h1
      rw [← h1.1]
      simp [lineEnv, decay]
    have hc : Ev.cov (1 : Mat 1 1 ℚ) (.shift decay : Ev (Bool × Bool) ℚ 1) = 0 := by
      show (1 : Mat 1 1 ℚ) + (1 / 2 : ℚ) • (-1 * 1 + 1 * (-1)ᵀ + 0) = 0
      decide +kernel
    rw [hg, hc] at h1
    simp only [opsOf, run, h1, Option.bind_some]
  · simp only [truth, List.foldl_cons, List.foldl_nil]
    funext i
    rcases o with ⟨a, b⟩
    cases a <;> norm_num [decay, sign, Matrix.neg_mulVec]

/-- Slow steps with process noise: the hypotheses of `ekf_covers_partial` are met with a prediction and an update. -/
example : Covered coin (1 : Mat 1 1 ℚ) [.shift ⟨1 / 2, -1, 0, 1, fun _ => 0⟩, .obs ⟨1, 1, 0, 2, fun o => sign o.2⟩] := by
  have psd : ∀ M : Mat 1 1 ℚ, 0 ≤ M 0 0 → PSD M := by
    intro M h
    refine ⟨by ext i j; fin_cases i; fin_cases j; rfl, fun v => ?_⟩
    simp only [Matrix.mulVec, dotProduct, Fin.sum_univ_one]
    nlinarith [mul_self_nonneg (v 0)]
  intro l₁ e l₂ heq
  match l₁, heq with
  | [], heq =>
    simp only [List.nil_append, List.cons.injEq] at heq
    obtain ⟨rfl, -⟩ := heq
    refine ⟨by norm_num, ?_, psd _ ?_⟩
    · ext i j; fin_cases i; fin_cases j; rfl
    · show 0 ≤ ((1 / 2 : ℚ) • (1 : Mat 1 1 ℚ) - moment coin (fun _ : Bool × Bool => (0 : Vec 1 ℚ)) (fun _ => 0) - ((1 / 2 : ℚ) * (1 / 2)) • ((-1 : Mat 1 1 ℚ) * 1 * (-1 : Mat 1 1 ℚ)ᵀ) : Mat 1 1 ℚ) 0 0
      decide +kernel
  | [_], heq =>
    simp only [List.cons_append, List.nil_append, List.cons.injEq] at heq
    obtain ⟨-, rfl, -⟩ := heq
    refine ⟨?_, psd _ ?_⟩
    · have := pd_one_by_one 2 (by norm_num)
      rwa [show (!![2] : Mat 1 1 ℚ) = 2 by decide +kernel] at this
    · show 0 ≤ ((2 : Mat 1 1 ℚ) - moment coin (fun o : Bool × Bool => sign o.2) (fun o => sign o.2)) 0 0
      decide +kernel
  | _ :: _ :: _, heq => simp at heq

end Verif.EKF
