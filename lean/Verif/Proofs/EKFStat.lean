import Verif.Spec.EKFStat
import Verif.Props.EKF

/-! # Proofs: second moments of errors -/

set_option linter.unusedSectionVars false

namespace Verif.EKF

open Matrix EKFSpec Lin

universe v

variable {Ω : Type*} {F : Type v} [Fintype Ω] [Field F] [LinearOrder F] [IsStrictOrderedRing F] {n k l m : ℕ} {p : Ω → F}

theorem moment_mul_left (A : Mat m k F) (a : Ω → Vec k F) (b : Ω → Vec l F) : moment p (fun o => A *ᵥ a o) b = A * moment p a b := by
  ext i j
  simp only [moment, Matrix.mul_apply, mulVec, dotProduct, Finset.sum_mul, Finset.mul_sum]
  rw [Finset.sum_comm]
  refine Finset.sum_congr rfl fun _ _ => Finset.sum_congr rfl fun _ _ => ?_
  ring

theorem moment_transpose (a : Ω → Vec k F) (b : Ω → Vec l F) : (moment p a b)ᵀ = moment p b a := by
  ext i j
  simp only [moment, Matrix.transpose_apply]
  refine Finset.sum_congr rfl fun _ _ => ?_
  ring

theorem moment_mul_right (A : Mat m l F) (a : Ω → Vec k F) (b : Ω → Vec l F) : moment p a (fun o => A *ᵥ b o) = moment p a b * Aᵀ := by
  rw [← moment_transpose, moment_mul_left, Matrix.transpose_mul, moment_transpose]

theorem moment_add_left (a a' : Ω → Vec k F) (b : Ω → Vec l F) : moment p (fun o => a o + a' o) b = moment p a b + moment p a' b := by
  ext i j
  simp only [moment, Matrix.add_apply, Pi.add_apply, ← Finset.sum_add_distrib]
  refine Finset.sum_congr rfl fun _ _ => ?_
  ring

theorem moment_add_right (a : Ω → Vec k F) (b b' : Ω → Vec l F) : moment p a (fun o => b o + b' o) = moment p a b + moment p a b' := by
  rw [← moment_transpose, moment_add_left, Matrix.transpose_add, moment_transpose, moment_transpose]

/-- The second moments of a combination of uncorrelated vectors. -/
theorem moment_combine (A : Mat m k F) (B : Mat m l F) (a : Ω → Vec k F) (b : Ω → Vec l F) (h : moment p a b = 0) :
    moment p (fun o => A *ᵥ a o + B *ᵥ b o) (fun o => A *ᵥ a o + B *ᵥ b o) = A * moment p a a * Aᵀ + B * moment p b b * Bᵀ := by
  have h' : moment p b a = 0 := by rw [← moment_transpose, h, Matrix.transpose_zero]
  rw [moment_add_left, moment_add_right, moment_add_right]
  simp only [moment_mul_left, moment_mul_right, h, h', Matrix.mul_zero, Matrix.zero_mul, add_zero, zero_add, Matrix.mul_assoc]

theorem moment_psd (hp : ∀ o, 0 ≤ p o) (a : Ω → Vec k F) : PSD (moment p a a) := by
  refine ⟨moment_transpose a a, fun w => ?_⟩
  have : w ⬝ᵥ moment p a a *ᵥ w = ∑ o, p o * (w ⬝ᵥ a o) ^ 2 := by
    simp only [dotProduct, mulVec, moment, sq, Finset.mul_sum, Finset.sum_mul]
    calc _ = ∑ i, ∑ j, ∑ o, w i * (p o * (a o i * a o j) * w j) := rfl
      _ = ∑ i, ∑ o, ∑ j, w i * (p o * (a o i * a o j) * w j) := Finset.sum_congr rfl fun _ _ => Finset.sum_comm
      _ = ∑ o, ∑ i, ∑ j, w i * (p o * (a o i * a o j) * w j) := Finset.sum_comm
      _ = _ := by
        refine Finset.sum_congr rfl fun o _ => ?_
        rw [Finset.sum_comm]
        refine Finset.sum_congr rfl fun i _ => Finset.sum_congr rfl fun j _ => ?_
        ring
  rw [this]
  exact Finset.sum_nonneg fun o _ => mul_nonneg (hp o) (sq_nonneg _)

/-- The past can be replaced by anything that is linear in it. -/
theorem White.weaken {past past' : List (RVec Ω F)} (l : List (Ev Ω F n))
    (h : ∀ a ∈ past', ∀ (k : ℕ) (v : Ω → Vec k F), (∀ b ∈ past, moment p b.2 v = 0) → moment p a.2 v = 0) (hl : White p past l) : White p past' l := by
  induction l generalizing past past' with
  | nil => trivial
  | cons e l ih =>
    refine ⟨fun a ha => h a ha _ _ hl.1, ih (fun a ha k v hv => ?_) hl.2⟩
    rcases List.mem_cons.mp ha with rfl | ha
    · exact hv _ List.mem_cons_self
    · exact h a ha k v fun b hb => hv b (List.mem_cons_of_mem _ hb)

/-- What the filter is handed when the truth is `x`. -/
def Ev.op (x : Vec n F) (o : Ω) : Ev Ω F n → Op (Vec n F) F n
  | .obs z => .update (toMeas ⟨z.m, z.H, z.c, z.R, z.H *ᵥ x + z.c + z.v o⟩) z.R
  | .shift s => .predict ⟨fun _ g => s.b + s.A *ᵥ g, fun _ _ => s.A⟩ s.Q s.dt none

/-- The history of the filter in one outcome. -/
def opsOf (o : Ω) : Vec n F → List (Ev Ω F n) → List (Op (Vec n F) F n)
  | _, [] => []
  | x, e :: l => Ev.op x o e :: opsOf o (truth [e] x o) l

/-- A vector-space filter with the default stepper. -/
structure Plain (env : Env (Vec n F) F n) : Prop where
  solve : SolveOk env
  plus : VectorSpace env
  tab : env.tab = Tableau.euler
  ad : ∀ v, env.ad v = 0

variable {env : Env (Vec n F) F n} {fuel : ℕ}

theorem alg_obs (A : Mat n n F) (K : Mat n m F) (P E : Mat n n F) (R V : Mat m m F) :
    A * P * Aᵀ + K * R * Kᵀ - (A * E * Aᵀ + -K * V * (-K)ᵀ) = A * (P - E) * Aᵀ + K * (R - V) * Kᵀ := by
  simp only [Matrix.mul_sub, Matrix.sub_mul, Matrix.neg_mul, Matrix.transpose_neg, Matrix.mul_neg, neg_neg]
  abel

theorem alg_shift (A P E X W : Mat n n F) : A * P * Aᵀ + X - (A * E * Aᵀ + 1 * W * (1 : Mat n n F)ᵀ) = A * (P - E) * Aᵀ + (X - W) := by
  simp only [Matrix.mul_sub, Matrix.sub_mul, Matrix.one_mul, Matrix.transpose_one, Matrix.mul_one]
  abel

theorem alg_square (a : F) (A P : Mat n n F) : (a • A) * P * (a • A)ᵀ = (a * a) • (A * P * Aᵀ) := by
  simp only [Matrix.transpose_smul, Matrix.smul_mul, Matrix.mul_smul, smul_smul]

/-- The gain. -/
noncomputable def gain (P : Mat n n F) (z : Obs Ω F n) : Mat n z.m F := P * z.Hᵀ * (innov P z.H z.R)⁻¹

theorem step_obs (he : Plain env) (z : Obs Ω F n) (hR : PD z.R) (s : State (Vec n F) F n) (hP : PSD s.P) (x : Vec n F) (o : Ω) :
    ∃ g', step env fuel s (Ev.op x o (.obs z)) = some ⟨g', Ev.cov s.P (.obs z : Ev Ω F n)⟩ ∧
      x - g' = (1 - gain s.P z * z.H) *ᵥ (x - s.g) + (-gain s.P z) *ᵥ z.v o := by
  have hsR : symU z.R = z.R := symU_of_isSymm _ hR.1
  have hu := update_eq env he.solve (toMeas ⟨z.m, z.H, z.c, z.R, z.H *ᵥ x + z.c + z.v o⟩) z.R s hP (show PD (symU z.R) from hsR.symm ▸ hR)
  simp only [toMeas] at hu
  rw [hsR] at hu
  have hpsd := update_cov_PSD s.P z.H z.R hP hR
  refine ⟨s.g + gain s.P z *ᵥ (z.H *ᵥ x + z.c + z.v o - (z.H *ᵥ s.g + z.c)), ?_, ?_⟩
  · have hc : (1 - s.P * z.Hᵀ * (innov s.P z.H z.R)⁻¹ * z.H) * s.P = Ev.cov s.P (.obs z : Ev Ω F n) := by
      rw [Ev.cov, Matrix.sub_mul, Matrix.one_mul]
      simp only [innov, Matrix.mul_assoc]
    exact congrArg some (hu.trans (congrArg₂ State.mk (he.plus _ _) ((symU_of_isSymm _ hpsd.1).trans hc)))
  · have : z.H *ᵥ x + z.c + z.v o - (z.H *ᵥ s.g + z.c) = z.H *ᵥ (x - s.g) + z.v o := by
      rw [Matrix.mulVec_sub]
      abel
    rw [this, Matrix.mulVec_add, Matrix.sub_mulVec, Matrix.one_mulVec, Matrix.neg_mulVec, Matrix.mulVec_mulVec]
    abel

theorem step_shift (he : Plain env) (hf : 0 < fuel) (z : Shift Ω F n) (hdt : 0 ≤ z.dt) (hQ : z.Q.IsSymm) (s : State (Vec n F) F n) (hP : s.P.IsSymm)
    (x : Vec n F) (o : Ω) :
    ∃ g', step env fuel s (Ev.op x o (.shift z)) = some ⟨g', Ev.cov s.P (.shift z : Ev Ω F n)⟩ ∧
      truth [.shift z] x o - g' = (1 + z.dt • z.A) *ᵥ (x - s.g) + (1 : Mat n n F) *ᵥ z.w o := by
  refine ⟨s.g + z.dt • (z.b + z.A *ᵥ s.g), ?_, ?_⟩
  · simp only [step, Ev.op]
    rw [ekf_predict_default_single_step env _ _ _ hdt s fuel hf, odeStep_euler env he.tab, he.plus]
    have hsym : (z.A * s.P + s.P * z.Aᵀ + z.Q).IsSymm := by
      unfold Matrix.IsSymm
      rw [Matrix.transpose_add, Matrix.transpose_add, Matrix.transpose_mul, Matrix.transpose_mul, Matrix.transpose_transpose, hP.eq, hQ.eq]
      abel
    simp only [covRhs, he.ad, neg_zero, zero_add, symU_of_isSymm _ hsym, Ev.cov]
  · simp only [truth, List.foldl_cons, List.foldl_nil, Matrix.add_mulVec, Matrix.one_mulVec, Matrix.smul_mulVec, Matrix.mulVec_sub, smul_add, smul_sub]
    abel

theorem cov_obs (z : Obs Ω F n) (hR : PD z.R) {P : Mat n n F} (hP : PSD P) :
    Ev.cov P (.obs z : Ev Ω F n) = (1 - gain P z * z.H) * P * (1 - gain P z * z.H)ᵀ + gain P z * z.R * (gain P z)ᵀ := by
  rw [← joseph P z.H z.R (innov_PD z.H hP hR).isUnit_det (gain P z) rfl, Ev.cov, Matrix.sub_mul, Matrix.one_mul]
  simp only [gain, innov, Matrix.mul_assoc]

theorem cov_shift (z : Shift Ω F n) (P : Mat n n F) :
    Ev.cov P (.shift z : Ev Ω F n) = (1 + z.dt • z.A) * P * (1 + z.dt • z.A)ᵀ + (z.dt • z.Q - (z.dt * z.dt) • (z.A * P * z.Aᵀ)) := by
  have ht : (1 + z.dt • z.A)ᵀ = 1 + z.dt • z.Aᵀ := by rw [Matrix.transpose_add, Matrix.transpose_one, Matrix.transpose_smul]
  rw [ht, Ev.cov]
  simp only [Matrix.add_mul, Matrix.mul_add, Matrix.one_mul, Matrix.mul_one, Matrix.smul_mul, Matrix.mul_smul, smul_add, smul_smul, Matrix.mul_assoc]
  abel

theorem truth_cons (e : Ev Ω F n) (l : List (Ev Ω F n)) (x : Vec n F) (o : Ω) : truth (e :: l) x o = truth l (truth [e] x o) o := rfl

/-- The new error is linear in the old one and the noise. -/
theorem white_next {e : Ev Ω F n} {l : List (Ev Ω F n)} {d d' : Ω → Vec n F} (A : Mat n n F) (B : Mat n e.size F) (hd : ∀ o, d' o = A *ᵥ d o + B *ᵥ e.noise o)
    (h : White p [⟨n, d⟩] (e :: l)) : White p [⟨n, d'⟩] l := by
  refine White.weaken l (fun a ha k v hv => ?_) h.2
  obtain rfl := List.mem_singleton.mp ha
  have h1 := hv ⟨n, d⟩ (by simp)
  have h2 := hv ⟨e.size, e.noise⟩ (by simp)
  rw [show (⟨n, d'⟩ : RVec Ω F).2 = fun o => A *ᵥ d o + B *ᵥ e.noise o from funext hd, moment_add_left, moment_mul_left, moment_mul_left]
  simp only at h1 h2
  rw [h1, h2, Matrix.mul_zero, Matrix.mul_zero, add_zero]

/-- The stated covariances cover the noise: the filter's covariance covers the error. -/
theorem run_covered (he : Plain env) (hf : 0 < fuel) (hp : ∀ o, 0 ≤ p o) (l : List (Ev Ω F n)) : ∀ (P : Mat n n F) (x g : Ω → Vec n F),
    PSD (P - moment p (fun o => x o - g o) fun o => x o - g o) → White p [⟨n, fun o => x o - g o⟩] l → Covered p P l →
    ∃ g' : Ω → Vec n F, (∀ o, run env fuel ⟨g o, P⟩ (opsOf o (x o) l) = some ⟨g' o, cov P l⟩) ∧
      PSD (cov P l - moment p (fun o => truth l (x o) o - g' o) fun o => truth l (x o) o - g' o) := by
  induction l with
  | nil => exact fun P x g h _ _ => ⟨g, fun o => rfl, h⟩
  | cons e l ih =>
    intro P x g h hw hc
    have hP : PSD P := by
      have := h.add (moment_psd hp fun o => x o - g o)
      rwa [sub_add_cancel] at this
    have hc2 : Covered p (Ev.cov P e) l := fun l₁ e' l₂ heq => hc (e :: l₁) e' l₂ (by rw [heq]; rfl)
    have h0 := hc [] e l rfl
    have hun : moment p (fun o => x o - g o) e.noise = 0 := hw.1 ⟨n, _⟩ (by simp)
    obtain ⟨g1, A, B, k1, k2, k3⟩ : ∃ (g1 : Ω → Vec n F) (A : Mat n n F) (B : Mat n e.size F), (∀ o, step env fuel ⟨g o, P⟩ (Ev.op (x o) o e) = some ⟨g1 o, Ev.cov P e⟩) ∧
        (∀ o, truth [e] (x o) o - g1 o = A *ᵥ (x o - g o) + B *ᵥ e.noise o) ∧
        PSD (Ev.cov P e - (A * moment p (fun o => x o - g o) (fun o => x o - g o) * Aᵀ + B * moment p e.noise e.noise * Bᵀ)) := by
      cases e with
      | obs z =>
        obtain ⟨h1, h2⟩ := h0
        choose g1 q1 q2 using fun o => step_obs (fuel := fuel) he z h1 ⟨g o, P⟩ hP (x o) o
        have k3 : PSD (Ev.cov P (.obs z : Ev Ω F n) - ((1 - gain P z * z.H) * moment p (fun o => x o - g o) (fun o => x o - g o) * (1 - gain P z * z.H)ᵀ +
            -gain P z * moment p z.v z.v * (-gain P z)ᵀ)) := by
          rw [cov_obs z h1 hP, alg_obs]
          exact (h.congr _).add (h2.congr _)
        exact ⟨g1, 1 - gain P z * z.H, -gain P z, q1, q2, k3⟩
      | shift z =>
        obtain ⟨h1, h2, h3⟩ := h0
        choose g1 q1 q2 using fun o => step_shift (fuel := fuel) he hf z h1 h2 ⟨g o, P⟩ hP.1 (x o) o
        have k3 : PSD (Ev.cov P (.shift z : Ev Ω F n) - ((1 + z.dt • z.A) * moment p (fun o => x o - g o) (fun o => x o - g o) * (1 + z.dt • z.A)ᵀ +
            1 * moment p z.w z.w * (1 : Mat n n F)ᵀ)) := by
          rw [cov_shift z P, alg_shift, sub_right_comm]
          exact (h.congr _).add h3
        exact ⟨g1, 1 + z.dt • z.A, (1 : Mat n n F), q1, q2, k3⟩
    have k4 : moment p (fun o => truth [e] (x o) o - g1 o) (fun o => truth [e] (x o) o - g1 o) =
        A * moment p (fun o => x o - g o) (fun o => x o - g o) * Aᵀ + B * moment p e.noise e.noise * Bᵀ := by
      rw [funext k2]
      exact moment_combine A B _ _ hun
    obtain ⟨g', r1, r2⟩ := ih (Ev.cov P e) (fun o => truth [e] (x o) o) g1 (by rw [k4]; exact k3) (white_next A B k2 hw) hc2
    refine ⟨g', fun o => ?_, r2⟩
    simp only [opsOf, run]
    rw [k1 o]
    exact r1 o

/-- The stated covariances are exact: the filter's covariance is at most that of the error. -/
theorem run_exact (he : Plain env) (hf : 0 < fuel) (l : List (Ev Ω F n)) : ∀ (P : Mat n n F) (x g : Ω → Vec n F),
    PSD (moment p (fun o => x o - g o) (fun o => x o - g o) - P) → White p [⟨n, fun o => x o - g o⟩] l → Exact p l →
    (∀ l₁ l₂, l = l₁ ++ l₂ → PSD (cov P l₁)) →
    ∃ g' : Ω → Vec n F, (∀ o, run env fuel ⟨g o, P⟩ (opsOf o (x o) l) = some ⟨g' o, cov P l⟩) ∧
      PSD (moment p (fun o => truth l (x o) o - g' o) (fun o => truth l (x o) o - g' o) - cov P l) := by
  induction l with
  | nil => exact fun P x g h _ _ _ => ⟨g, fun o => rfl, h⟩
  | cons e l ih =>
    intro P x g h hw hc hpsd
    have hP : PSD P := hpsd [] (e :: l) rfl
    have hc2 : Exact p l := fun e' he' => hc e' (List.mem_cons_of_mem _ he')
    have h0 := hc e List.mem_cons_self
    have hun : moment p (fun o => x o - g o) e.noise = 0 := hw.1 ⟨n, _⟩ (by simp)
    obtain ⟨g1, A, B, k1, k2, k3⟩ : ∃ (g1 : Ω → Vec n F) (A : Mat n n F) (B : Mat n e.size F), (∀ o, step env fuel ⟨g o, P⟩ (Ev.op (x o) o e) = some ⟨g1 o, Ev.cov P e⟩) ∧
        (∀ o, truth [e] (x o) o - g1 o = A *ᵥ (x o - g o) + B *ᵥ e.noise o) ∧
        PSD (A * moment p (fun o => x o - g o) (fun o => x o - g o) * Aᵀ + B * moment p e.noise e.noise * Bᵀ - Ev.cov P e) := by
      cases e with
      | obs z =>
        obtain ⟨h1, h2⟩ := h0
        choose g1 q1 q2 using fun o => step_obs (fuel := fuel) he z h1 ⟨g o, P⟩ hP (x o) o
        have k3 : PSD ((1 - gain P z * z.H) * moment p (fun o => x o - g o) (fun o => x o - g o) * (1 - gain P z * z.H)ᵀ +
            -gain P z * moment p z.v z.v * (-gain P z)ᵀ - Ev.cov P (.obs z : Ev Ω F n)) := by
          rw [cov_obs z h1 hP, h2, ← neg_sub, alg_obs, sub_self, Matrix.mul_zero, Matrix.zero_mul, add_zero, ← Matrix.neg_mul, ← Matrix.mul_neg, neg_sub]
          exact h.congr _
        exact ⟨g1, 1 - gain P z * z.H, -gain P z, q1, q2, k3⟩
      | shift z =>
        obtain ⟨h1, h2, h3⟩ := h0
        choose g1 q1 q2 using fun o => step_shift (fuel := fuel) he hf z h1 h2 ⟨g o, P⟩ hP.1 (x o) o
        have k3 : PSD ((1 + z.dt • z.A) * moment p (fun o => x o - g o) (fun o => x o - g o) * (1 + z.dt • z.A)ᵀ +
            1 * moment p z.w z.w * (1 : Mat n n F)ᵀ - Ev.cov P (.shift z : Ev Ω F n)) := by
          rw [cov_shift z P, h3, ← neg_sub, alg_shift, sub_sub_cancel_left, neg_add, neg_neg, ← Matrix.neg_mul, ← Matrix.mul_neg, neg_sub, ← alg_square]
          exact (h.congr _).add (hP.congr _)
        exact ⟨g1, 1 + z.dt • z.A, (1 : Mat n n F), q1, q2, k3⟩
    have k4 : moment p (fun o => truth [e] (x o) o - g1 o) (fun o => truth [e] (x o) o - g1 o) =
        A * moment p (fun o => x o - g o) (fun o => x o - g o) * Aᵀ + B * moment p e.noise e.noise * Bᵀ := by
      rw [funext k2]
      exact moment_combine A B _ _ hun
    obtain ⟨g', r1, r2⟩ := ih (Ev.cov P e) (fun o => truth [e] (x o) o) g1 (by rw [k4]; exact k3) (white_next A B k2 hw) hc2
      fun l₁ l₂ heq => hpsd (e :: l₁) l₂ (by rw [heq]; rfl)
    refine ⟨g', fun o => ?_, r2⟩
    simp only [opsOf, run]
    rw [k1 o]
    exact r1 o

end Verif.EKF
