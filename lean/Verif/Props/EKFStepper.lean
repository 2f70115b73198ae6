import Verif.Props.EKF

/-!
# Steppers with several stages (C86)

State and covariance of the filter solve one coupled differential equation: the matrix `A` of the covariance depends on the state. A stepper
that is applied to the coupled equation evaluates `A` at the state of each stage. The code applies it to the two halves separately, with the
state frozen while the covariance is stepped.
-/

set_option linter.unusedSectionVars false

namespace Verif.EKF

open Matrix EKFSpec Lin

universe v

variable {G : Type*} {F : Type v} {n : ℕ} [Field F] [LinearOrder F] [IsStrictOrderedRing F]

/-- The linearisation of the error dynamics at `g`. -/
def linz (env : Env G F n) (d : Dyn G F n) (t : F) (g : G) : Mat n n F := d.df t g - env.ad (d.f t g)

/-- Right-hand side of the coupled equation `g' = f`, `P' = A P + P Aᵀ + Q`. -/
def jointRhs (env : Env G F n) (d : Dyn G F n) (Q : Mat n n F) (t : F) (s : G × Mat n n F) : Vec n F × Mat n n F :=
  (d.f t s.1, linz env d t s.1 * s.2 + s.2 * (linz env d t s.1)ᵀ + Q)

/-- Moving along a slope. -/
def jointAdd (env : Env G F n) (s : G × Mat n n F) (v : Vec n F × Mat n n F) : G × Mat n n F := (env.rplus s.1 v.1, s.2 + v.2)

/-- One step of the stepper on the coupled equation. -/
def jointStep (env : Env G F n) (d : Dyn G F n) (Q : Mat n n F) (s : State G F n) (t dt : F) : State G F n :=
  ⟨(doStep env.tab (jointRhs env d Q) (jointAdd env) (s.g, s.P) t dt).1, (doStep env.tab (jointRhs env d Q) (jointAdd env) (s.g, s.P) t dt).2⟩

theorem combine_zip {V W : Type*} [AddCommMonoid V] [Module F V] [AddCommMonoid W] [Module F W] (dt : F) (ws : List F) :
    ∀ (ks : List V) (ls : List W), ks.length = ls.length → combine dt ws (ks.zip ls) = (combine dt ws ks, combine dt ws ls) := by
  induction ws with
  | nil => intro ks ls _; rfl
  | cons w ws ih =>
    intro ks ls h
    cases ks with
    | nil =>
      cases ls with
      | nil => rfl
      | cons l ls => simp at h
    | cons k ks =>
      cases ls with
      | nil => simp at h
      | cons l ls => simp [combine, ih ks ls (by simpa using h)]

theorem covRhs_eq (env : Env G F n) (d : Dyn G F n) {Q : Mat n n F} (hQ : Q.IsSymm) (g : G) (t : F) {P : Mat n n F} (hP : P.IsSymm) :
    covRhs env d Q g t P = linz env d t g * P + P * (linz env d t g)ᵀ + Q := by
  have e : -env.ad (d.f t g) + d.df t g = linz env d t g := by unfold linz; abel
  unfold covRhs
  simp only
  rw [e]
  refine symU_of_isSymm _ ?_
  unfold Matrix.IsSymm
  rw [Matrix.transpose_add, Matrix.transpose_add, Matrix.transpose_mul, Matrix.transpose_mul, Matrix.transpose_transpose, hP.eq, hQ.eq]
  abel

/-- The state half of the coupled slopes is what the code computes for the state, and the covariance half too if `A` does not depend on the
state. -/
theorem slopes_joint (env : Env G F n) (d : Dyn G F n) {Q : Mat n n F} (hQ : Q.IsSymm) (hA : ∀ t g g', linz env d t g = linz env d t g')
    (g : G) {P : Mat n n F} (hP : P.IsSymm) (t dt : F) (l : List (F × List F)) : ∀ (ks : List (Vec n F)) (ls : List (Mat n n F)), ks.length = ls.length →
    (∀ k ∈ ls, k.IsSymm) →
    slopes (jointRhs env d Q) (jointAdd env) (g, P) t dt l (ks.zip ls) =
      (slopes d.f env.rplus g t dt l ks).zip (slopes (covRhs env d Q g) (· + ·) P t dt l ls) ∧
    (slopes d.f env.rplus g t dt l ks).length = (slopes (covRhs env d Q g) (· + ·) P t dt l ls).length := by
  induction l with
  | nil => intro ks ls h _; exact ⟨rfl, h⟩
  | cons ca l ih =>
    intro ks ls h hs
    obtain ⟨c, a⟩ := ca
    unfold slopes
    have hsym : (P + combine dt a ls).IsSymm := hP.add (combine_isSymm _ _ _ hs)
    have e : jointRhs env d Q (t + c * dt) (jointAdd env (g, P) (combine dt a (ks.zip ls))) =
        (d.f (t + c * dt) (env.rplus g (combine dt a ks)), covRhs env d Q g (t + c * dt) (P + combine dt a ls)) := by
      rw [combine_zip dt a ks ls h, covRhs_eq env d hQ g _ hsym]
      unfold jointRhs jointAdd
      simp only
      rw [hA (t + c * dt) (env.rplus g (combine dt a ks)) g]
    have hz : ks.zip ls ++ [jointRhs env d Q (t + c * dt) (jointAdd env (g, P) (combine dt a (ks.zip ls)))] =
        (ks ++ [d.f (t + c * dt) (env.rplus g (combine dt a ks))]).zip (ls ++ [covRhs env d Q g (t + c * dt) (P + combine dt a ls)]) := by
      rw [e, List.zip_append h]
      rfl
    rw [hz]
    refine ih _ _ (by simp [h]) fun k hk => ?_
    rcases List.mem_append.1 hk with hk | hk
    · exact hs k hk
    · obtain rfl := List.mem_singleton.1 hk
      exact symU_isSymm _

/-- The state of the filter is stepped as in the coupled equation, always. -/
theorem slopes_fst (env : Env G F n) (d : Dyn G F n) (Q : Mat n n F) (g : G) (P : Mat n n F) (t dt : F) (l : List (F × List F)) :
    ∀ ks : List (Vec n F × Mat n n F), (slopes (jointRhs env d Q) (jointAdd env) (g, P) t dt l ks).map Prod.fst =
      slopes d.f env.rplus g t dt l (ks.map Prod.fst) := by
  have hc : ∀ (ws : List F) (ks : List (Vec n F × Mat n n F)), (combine dt ws ks).1 = combine dt ws (ks.map Prod.fst) := by
    intro ws
    induction ws with
    | nil => intro ks; rfl
    | cons w ws ih =>
      intro ks
      cases ks with
      | nil => rfl
      | cons k ks => simp [combine, ih]
  induction l with
  | nil => intro ks; rfl
  | cons ca l ih =>
    intro ks
    obtain ⟨c, a⟩ := ca
    unfold slopes
    rw [ih]
    simp [jointRhs, jointAdd, hc]

/-- **C86, what holds.** FULL CLAIM: a step of the filter is a step of the stepper on the coupled equation of state and covariance. Proved: for
the default stepper (and every other one with a single stage), and for every stepper if the linearisation does not depend on the state. Missing:
steppers with several stages on other systems, for which it is false, see `ekf_stepper_wrong`; the state alone is always right. -/
theorem ekf_stepper_partial (env : Env G F n) (d : Dyn G F n) (Q : Mat n n F) (hQ : Q.IsSymm) (s : State G F n) (hP : s.P.IsSymm) (t dt : F) :
    (odeStep env d Q s t dt).g = (jointStep env d Q s t dt).g ∧
    (env.tab.stages = [] ∨ (∀ t g g', linz env d t g = linz env d t g') → odeStep env d Q s t dt = jointStep env d Q s t dt) := by
  have hg : (odeStep env d Q s t dt).g = (jointStep env d Q s t dt).g := by
    have := slopes_fst env d Q s.g s.P t dt env.tab.stages [jointRhs env d Q t (s.g, s.P)]
    have hc : ∀ (ws : List F) (ks : List (Vec n F × Mat n n F)), (combine dt ws ks).1 = combine dt ws (ks.map Prod.fst) := by
      intro ws
      induction ws with
      | nil => intro ks; rfl
      | cons w ws ih =>
        intro ks
        cases ks with
        | nil => rfl
        | cons k ks => simp [combine, ih]
    change env.rplus s.g _ = env.rplus s.g _
    rw [hc, this]
    rfl
  refine ⟨hg, fun h => ?_⟩
  have hk : jointRhs env d Q t (s.g, s.P) = (d.f t s.g, covRhs env d Q s.g t s.P) := by
    rw [covRhs_eq env d hQ s.g t hP]
    rfl
  have hPP : (odeStep env d Q s t dt).P = (jointStep env d Q s t dt).P := by
    rcases h with h | h
    · change s.P + combine dt env.tab.weights (slopes (covRhs env d Q s.g) (· + ·) s.P t dt env.tab.stages [covRhs env d Q s.g t s.P]) =
        s.P + (combine dt env.tab.weights (slopes (jointRhs env d Q) (jointAdd env) (s.g, s.P) t dt env.tab.stages [jointRhs env d Q t (s.g, s.P)])).2
      rw [h]
      unfold slopes
      rw [hk, show [(d.f t s.g, covRhs env d Q s.g t s.P)] = [d.f t s.g].zip [covRhs env d Q s.g t s.P] from rfl,
        combine_zip dt _ [d.f t s.g] [covRhs env d Q s.g t s.P] rfl]
    · obtain ⟨e, el⟩ := slopes_joint env d hQ h s.g hP t dt env.tab.stages [d.f t s.g] [covRhs env d Q s.g t s.P] rfl
        (fun k hk => by obtain rfl := List.mem_singleton.1 hk; exact symU_isSymm _)
      change s.P + combine dt env.tab.weights (slopes (covRhs env d Q s.g) (· + ·) s.P t dt env.tab.stages [covRhs env d Q s.g t s.P]) =
        s.P + (combine dt env.tab.weights (slopes (jointRhs env d Q) (jointAdd env) (s.g, s.P) t dt env.tab.stages [jointRhs env d Q t (s.g, s.P)])).2
      rw [hk, show [(d.f t s.g, covRhs env d Q s.g t s.P)] = [d.f t s.g].zip [covRhs env d Q s.g t s.P] from rfl, e, combine_zip dt _ _ _ el]
  calc odeStep env d Q s t dt = ⟨(odeStep env d Q s t dt).g, (odeStep env d Q s t dt).P⟩ := rfl
    _ = _ := by rw [hg, hPP]

/-- The same for a whole prediction. -/
theorem ekf_predict_joint_partial [Archimedean F] (env : Env G F n) (d : Dyn G F n) (Q : Mat n n F) (hQ : Q.IsSymm)
    (h : env.tab.stages = [] ∨ ∀ t g g', linz env d t g = linz env d t g') (tau dt : F) (hdt : 0 < dt) (s : State G F n) (hP : s.P.IsSymm) :
    ∃ (fuel : ℕ) (full : List (F × F)) (tl : F), Grid 0 tau (full ++ [(tl, tau - tl)]) ∧ (∀ p ∈ full, p.2 = dt) ∧ tau - tl ≤ dt ∧
      ∀ f, fuel ≤ f → predict env d Q tau (some dt) f s = some ((full ++ [(tl, tau - tl)]).foldl (fun s p => jointStep env d Q s p.1 p.2) s) := by
  obtain ⟨fuel, s', full, tl, h1, h2, h3, h4, -, h5⟩ := ekf_predict_covers_interval env d Q tau dt hdt s
  refine ⟨fuel, full, tl, h2, h3, h4, fun f hf => (h1 f hf).trans (congrArg some (h5.trans ?_))⟩
  clear h1 h2 h3 h4 h5
  generalize full ++ [(tl, tau - tl)] = l
  induction l generalizing s with
  | nil => rfl
  | cons p l ih =>
    simp only [List.foldl_cons]
    rw [← (ekf_stepper_partial env d Q hQ s hP p.1 p.2).2 h]
    exact ih _ (odeStep_isSymm env d Q s p.1 p.2 hP)

/-- `x' = x²` on the line, with `runge_kutta4`. -/
noncomputable def rkEnv : Env ℚ ℚ 1 := { demoEnv with tab := .rk4 }
def sqDyn : Dyn ℚ ℚ 1 := { f := fun _ g _ => g ^ 2, df := fun _ g => Matrix.of fun _ _ => 2 * g }

theorem rk_cov (t : ℚ) (P : Mat 1 1 ℚ) : covRhs rkEnv sqDyn 0 1 t P = (4 : ℚ) • P := by
  ext i j
  fin_cases i; fin_cases j
  simp [covRhs, symU, rkEnv, demoEnv, sqDyn, Matrix.mul_apply]
  ring

theorem rk_code : (odeStep rkEnv sqDyn 0 ⟨1, 1⟩ 0 (1 / 2)).P 0 0 = 7 := by
  change doStep rkEnv.tab (covRhs rkEnv sqDyn 0 1) (· + ·) (1 : Mat 1 1 ℚ) 0 (1 / 2) 0 0 = 7
  rw [show covRhs rkEnv sqDyn 0 1 = fun _ P => (4 : ℚ) • P from funext fun t => funext fun P => rk_cov t P, show rkEnv.tab = Tableau.rk4 from rfl]
  simp only [doStep, slopes, combine, Tableau.rk4, List.nil_append, List.cons_append, Matrix.add_apply, Matrix.smul_apply, Matrix.one_apply_eq, smul_eq_mul,
    Matrix.zero_apply]
  norm_num

theorem rk_joint : 11 < (jointStep rkEnv sqDyn 0 ⟨1, 1⟩ 0 (1 / 2)).P 0 0 := by
  norm_num [jointStep, doStep, slopes, combine, rkEnv, Tableau.rk4, demoEnv, sqDyn, jointRhs, jointAdd, linz, Matrix.mul_apply, Matrix.add_apply,
    Matrix.sub_apply, Matrix.of_apply]

theorem rk_pred : predict rkEnv sqDyn 0 (1 / 2) none 1 ⟨1, 1⟩ = some (odeStep rkEnv sqDyn 0 ⟨1, 1⟩ 0 (1 / 2)) :=
  ekf_predict_default_single_step rkEnv sqDyn 0 (1 / 2) (by norm_num) _ 1 one_pos

/-- **C86 is false of the code** for steppers with several stages: `x' = x²` from `x = 1`, `P = 1` without noise over half a time unit with
`runge_kutta4`. The code's covariance is the one of the linear system `x' = 2 x`. -/
theorem ekf_stepper_wrong : ∃ s', predict rkEnv sqDyn 0 (1 / 2) none 1 ⟨1, 1⟩ = some s' ∧ s'.g = (jointStep rkEnv sqDyn 0 ⟨1, 1⟩ 0 (1 / 2)).g ∧
    s'.P 0 0 = 7 ∧ 11 < (jointStep rkEnv sqDyn 0 ⟨1, 1⟩ 0 (1 / 2)).P 0 0 := by
  exact ⟨_, rk_pred, (ekf_stepper_partial rkEnv sqDyn 0 Matrix.isSymm_zero ⟨1, 1⟩ Matrix.isSymm_one 0 (1 / 2)).1, rk_code, rk_joint⟩

/-- A system with constant linearisation and several stages: `x' = -x`. -/
example : (∀ t g g', linz rkEnv demoDyn t g = linz rkEnv demoDyn t g') ∧ rkEnv.tab.stages ≠ [] :=
  ⟨fun _ _ _ => rfl, by simp [rkEnv, Tableau.rk4]⟩

end Verif.EKF
