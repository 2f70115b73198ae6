import Verif.Model.EKF
import Verif.Spec.EKF
import Verif.Proofs.Linear
import Mathlib.LinearAlgebra.Matrix.SchurComplement
import Mathlib.LinearAlgebra.Matrix.ToLinearEquiv
import Mathlib.Tactic.Linarith
import Mathlib.Tactic.NoncommRing
import Mathlib.Tactic.Ring
import Mathlib.Algebra.Order.Archimedean.Basic

/-! # Helper lemmas for the Kalman filter -/

set_option linter.unusedSectionVars false

namespace Verif.EKF

open Matrix EKFSpec Lin

universe v

variable {G : Type*} {F : Type v} {n : ℕ} [Field F] [LinearOrder F] [IsStrictOrderedRing F]

theorem symU_isSymm (M : Mat n n F) : (symU M).IsSymm := by
  ext i j
  simp only [Matrix.transpose_apply, symU]
  rcases lt_trichotomy i j with h | h | h
  · simp [h.le, not_le.2 h]
  · simp [h]
  · simp [h.le, not_le.2 h]

theorem symU_of_isSymm (M : Mat n n F) (h : M.IsSymm) : symU M = M := by
  ext i j
  unfold symU
  split_ifs
  · rfl
  · exact h.apply i j

/-- Upper triangles agree. -/
def UpperEq {n : ℕ} (A B : Mat n n F) : Prop := ∀ i j, i ≤ j → A i j = B i j

theorem symU_congr {A B : Mat n n F} (h : UpperEq A B) : symU A = symU B := by
  ext i j
  unfold symU
  split_ifs with hij
  · exact h i j hij
  · exact h j i (not_le.1 hij).le

theorem upperEq_add_left (C : Mat n n F) {A B : Mat n n F} (h : UpperEq A B) : UpperEq (C + A) (C + B) :=
  fun i j hij => by simp [Matrix.add_apply, h i j hij]

/-- The assumption on the external solver: it solves systems with an invertible matrix. -/
def SolveOk (env : Env G F n) : Prop :=
  ∀ {m : ℕ} (S : Mat m m F) (B : Mat m n F), IsUnit S.det → S * env.solve S B = B

theorem solve_eq (env : Env G F n) (h : SolveOk env) {m : ℕ} (S : Mat m m F) (B : Mat m n F) (hS : IsUnit S.det) :
    env.solve S B = S⁻¹ * B := by
  have := h S B hS
  conv_rhs => rw [← this, ← Matrix.mul_assoc, Matrix.nonsing_inv_mul S hS, Matrix.one_mul]

theorem combine_isSymm (dt : F) (ws : List F) : ∀ ks : List (Mat n n F), (∀ k ∈ ks, k.IsSymm) → (combine dt ws ks).IsSymm := by
  induction ws with
  | nil => intro ks _; exact Matrix.isSymm_zero
  | cons w ws ih =>
    intro ks h
    cases ks with
    | nil => exact Matrix.isSymm_zero
    | cons k ks =>
      exact ((h k List.mem_cons_self).smul _).add (ih ks fun k' hk' => h k' (List.mem_cons_of_mem _ hk'))

theorem slopes_mem {S V : Type*} [AddCommMonoid V] [Module F V] (rhs : F → S → V) (add : S → V → S) (x : S) (t dt : F) (p : V → Prop) (hr : ∀ t x, p (rhs t x))
    (l : List (F × List F)) : ∀ ks : List V, (∀ k ∈ ks, p k) → ∀ k ∈ slopes rhs add x t dt l ks, p k := by
  induction l with
  | nil => intro ks h; exact h
  | cons ca l ih =>
    intro ks h
    refine ih _ fun k hk => ?_
    rcases List.mem_append.1 hk with hk | hk
    · exact h k hk
    · obtain rfl := List.mem_singleton.1 hk
      exact hr _ _

theorem odeStep_isSymm (env : Env G F n) (d : Dyn G F n) (Q : Mat n n F) (s : State G F n) (t dt : F)
    (h : s.P.IsSymm) : (odeStep env d Q s t dt).P.IsSymm := by
  refine h.add (combine_isSymm _ _ _ (slopes_mem _ _ _ _ _ _ (fun t P => symU_isSymm _) _ _ fun k hk => ?_))
  obtain rfl := List.mem_singleton.1 hk
  exact symU_isSymm _

/-- With the default stepper: one Euler step. -/
theorem odeStep_euler (env : Env G F n) (he : env.tab = Tableau.euler) (d : Dyn G F n) (Q : Mat n n F) (s : State G F n) (t dt : F) :
    odeStep env d Q s t dt = ⟨env.rplus s.g (dt • d.f t s.g), s.P + dt • covRhs env d Q s.g t s.P⟩ := by
  simp [odeStep, doStep, he, Tableau.euler, slopes, combine]

theorem predictLoop_isSymm (env : Env G F n) (d : Dyn G F n) (Q : Mat n n F) (tau dtv : F) (fuel : ℕ) :
    ∀ (t : F) (s : State G F n) (r), s.P.IsSymm → predictLoop env d Q tau dtv fuel t s = some r → r.2.P.IsSymm := by
  induction fuel with
  | zero => intro t s r _ h; simp [predictLoop] at h
  | succ k ih =>
    intro t s r hs h
    unfold predictLoop at h
    split_ifs at h
    · exact ih _ _ _ (odeStep_isSymm env d Q s t dtv hs) h
    · cases h; exact hs

/-- Innovation covariance. -/
def innov {m : ℕ} (P : Mat n n F) (H : Mat m n F) (R : Mat m m F) : Mat m m F := H * P * Hᵀ + R

theorem innov_PD {m : ℕ} {P : Mat n n F} (H : Mat m n F) {R : Mat m m F} (hP : PSD P) (hR : PD R) :
    PD (innov P H R) := PSD.add_PD (hP.congr H) hR

/-- Closed form of an update, when the prior covariance is positive semidefinite and the noise covariance positive
definite. -/
theorem update_eq (env : Env G F n) (hs : SolveOk env) (z : Meas G F n) (R : Mat z.m z.m F) (s : State G F n)
    (hP : PSD s.P) (hR : PD (symU R)) :
    let H := z.jac s.g
    let K := s.P * Hᵀ * (innov s.P H (symU R))⁻¹
    update env z R s = { g := env.rplus s.g (K *ᵥ z.yminus z.y (z.h s.g)), P := symU ((1 - K * H) * s.P) } := by
  intro H K
  have hS : symU (H * symU s.P * Hᵀ + R) = innov s.P H (symU R) := by
    rw [symU_of_isSymm _ hP.1]
    have hsy : (H * s.P * Hᵀ).IsSymm := (hP.congr H).1
    ext i j
    rw [innov, Matrix.add_apply]
    by_cases hij : i ≤ j
    · simp [symU, hij]
    · have := hsy.apply i j
      simp [symU, hij, this]
  have hu := (innov_PD H hP hR).isUnit_det
  have hK : (env.solve (innov s.P H (symU R)) (H * s.P))ᵀ = K := by
    rw [solve_eq env hs _ _ hu, Matrix.transpose_mul, Matrix.transpose_mul, hP.1.eq,
      (isSymm_inv (innov_PD H hP hR).1).eq]
  show State.mk _ _ = _
  rw [hS, hK]

theorem gain_mul {m : ℕ} (P : Mat n n F) (H : Mat m n F) (R : Mat m m F) (hu : IsUnit (innov P H R).det) :
    P * Hᵀ * (innov P H R)⁻¹ * innov P H R = P * Hᵀ := by
  rw [Matrix.mul_assoc, Matrix.nonsing_inv_mul _ hu, Matrix.mul_one]

/-- Joseph form. -/
theorem joseph {m : ℕ} (P : Mat n n F) (H : Mat m n F) (R : Mat m m F) 
    (hu : IsUnit (innov P H R).det) (K : Mat n m F) (hK : K = P * Hᵀ * (innov P H R)⁻¹) :
    (1 - K * H) * P = (1 - K * H) * P * (1 - K * H)ᵀ + K * R * Kᵀ := by
  have h1 : K * innov P H R = P * Hᵀ := by rw [hK]; exact gain_mul P H R hu
  have h2 : K * R = P * Hᵀ - K * H * P * Hᵀ := by
    rw [← h1]; unfold innov; rw [Matrix.mul_add]
    simp [Matrix.mul_assoc]
  rw [h2, Matrix.transpose_sub, Matrix.transpose_mul, Matrix.transpose_one]
  simp only [Matrix.sub_mul, Matrix.mul_sub, Matrix.one_mul, Matrix.mul_one, Matrix.mul_assoc]
  abel

theorem update_cov_PSD {m : ℕ} (P : Mat n n F) (H : Mat m n F) (R : Mat m m F) (hP : PSD P) (hR : PD R) :
    PSD ((1 - P * Hᵀ * (innov P H R)⁻¹ * H) * P) := by
  rw [joseph P H R (innov_PD H hP hR).isUnit_det _ rfl]
  exact (hP.congr _).add ((PD.psd hR).congr _)

theorem update_cov_decrease {m : ℕ} (P : Mat n n F) (H : Mat m n F) (R : Mat m m F) (hP : PSD P) (hR : PD R) :
    PSD (P - (1 - P * Hᵀ * (innov P H R)⁻¹ * H) * P) := by
  have hS := innov_PD H hP hR
  have hu := hS.isUnit_det
  set K := P * Hᵀ * (innov P H R)⁻¹ with hK
  have h1 : K * innov P H R = P * Hᵀ := gain_mul P H R hu
  have : P - (1 - K * H) * P = K * innov P H R * Kᵀ := by
    have hKt : Kᵀ = (innov P H R)⁻¹ * (H * P) := by
      rw [hK, Matrix.transpose_mul, Matrix.transpose_mul, hP.1.eq, Matrix.transpose_transpose, (isSymm_inv hS.1).eq]
    rw [hKt, Matrix.mul_assoc K, ← Matrix.mul_assoc (innov P H R), Matrix.mul_nonsing_inv _ hu, Matrix.one_mul,
      Matrix.sub_mul, Matrix.one_mul, Matrix.mul_assoc]
    abel
  rw [this]
  exact (PD.psd hS).congr K

/-! ### Prediction loop -/

theorem predictLoop_grid (env : Env G F n) (d : Dyn G F n) (Q : Mat n n F) (tau dtv : F) (fuel : ℕ) :
    ∀ (t : F) (s : State G F n) (r), predictLoop env d Q tau dtv fuel t s = some r →
      ∃ k : ℕ, r.1 = t + k * dtv ∧ (∀ j : ℕ, j < k → t + j * dtv + dtv < tau) ∧ ¬ (t + k * dtv + dtv < tau) ∧
        r.2 = ((List.range k).map (fun j : ℕ => (t + j * dtv, dtv))).foldl (fun s p => odeStep env d Q s p.1 p.2) s := by
  induction fuel with
  | zero => intro t s r h; simp [predictLoop] at h
  | succ f ih =>
    intro t s r h
    unfold predictLoop at h
    split_ifs at h with hc
    · obtain ⟨k, h1, h2, h3, h4⟩ := ih _ _ _ h
      refine ⟨k + 1, ?_, ?_, ?_, ?_⟩
      · rw [h1]; push_cast; ring
      · intro j hj
        cases j with
        | zero => simpa using hc
        | succ j =>
          have := h2 j (by omega)
          push_cast
          calc t + (j + 1) * dtv + dtv = t + dtv + j * dtv + dtv := by ring
            _ < tau := this
      · push_cast
        convert h3 using 2
        ring
      · rw [h4, List.range_succ_eq_map, List.map_cons, List.foldl_cons, List.map_map]
        simp only [Nat.cast_zero, zero_mul, add_zero]
        congr 1
        apply List.map_congr_left
        intro j _
        simp only [Function.comp, Nat.succ_eq_add_one]
        push_cast
        congr 1
        ring
    · cases h
      exact ⟨0, by simp, by simp, by simpa using hc, by simp⟩

theorem predictLoop_terminates [Archimedean F] (env : Env G F n) (d : Dyn G F n) (Q : Mat n n F) (tau dtv : F)
    (hdt : 0 < dtv) (t : F) (s : State G F n) : ∃ fuel r, predictLoop env d Q tau dtv fuel t s = some r := by
  obtain ⟨k, hk⟩ := Archimedean.arch (tau - t) hdt
  rw [nsmul_eq_mul] at hk
  have : ∀ k : ℕ, ∀ t s, tau - t ≤ k * dtv → ∃ r, predictLoop env d Q tau dtv (k + 1) t s = some r := by
    intro k
    induction k with
    | zero =>
      intro t s h
      refine ⟨(t, s), ?_⟩
      unfold predictLoop
      rw [if_neg]
      push_cast at h
      linarith
    | succ k ih =>
      intro t s h
      unfold predictLoop
      split_ifs with hc
      · apply ih
        push_cast at h
        linarith
      · exact ⟨_, rfl⟩
  exact ⟨k + 1, this k t s hk⟩

theorem predictLoop_fuel_mono (env : Env G F n) (d : Dyn G F n) (Q : Mat n n F) (tau dtv : F) (f1 f2 : ℕ) (hf : f1 ≤ f2) :
    ∀ (t : F) (s : State G F n) (r), predictLoop env d Q tau dtv f1 t s = some r →
      predictLoop env d Q tau dtv f2 t s = some r := by
  induction f1 generalizing f2 with
  | zero => intro t s r h; simp [predictLoop] at h
  | succ k ih =>
    intro t s r h
    obtain ⟨f2', rfl⟩ : ∃ f2', f2 = f2' + 1 := ⟨f2 - 1, by omega⟩
    unfold predictLoop at h ⊢
    split_ifs at h ⊢ with hc
    · exact ih f2' (by omega) _ _ _ h
    · exact h

theorem grid_range (dtv : F) (k : ℕ) : ∀ (a b : F) (l : List (F × F)), Grid (a + k * dtv) b l →
    Grid a b ((List.range k).map (fun j : ℕ => (a + j * dtv, dtv)) ++ l) := by
  induction k with
  | zero => intro a b l h; simpa using h
  | succ k ih =>
    intro a b l h
    rw [List.range_succ_eq_map, List.map_cons, List.map_map, List.cons_append]
    refine ⟨by simp, ?_⟩
    have h' : Grid (a + dtv + k * dtv) b l := by
      convert h using 1
      push_cast; ring
    have := ih (a + dtv) b l h'
    convert this using 3
    funext j
    simp only [Function.comp, Nat.succ_eq_add_one]
    push_cast
    congr 1
    ring

/-! ### Information form of linear updates -/

theorem psd_inv {ι : Type*} [Fintype ι] [DecidableEq ι] {R : Matrix ι ι F} (hR : PD R) : PSD R⁻¹ := by
  have h := (PD.psd hR).congr R⁻¹
  rwa [Matrix.nonsing_inv_mul _ hR.isUnit_det, Matrix.one_mul, (isSymm_inv hR.1).eq] at h

theorem info_right_inv {m : ℕ} (P : Mat n n F) (H : Mat m n F) (R : Mat m m F) (hP : PSD P) (hR : PD R) :
    (1 + P * (Hᵀ * R⁻¹ * H)) * (1 - P * Hᵀ * (innov P H R)⁻¹ * H) = 1 ∧
    (1 + P * (Hᵀ * R⁻¹ * H)) * (P * Hᵀ * (innov P H R)⁻¹) = P * Hᵀ * R⁻¹ := by
  have hS := (innov_PD H hP hR).isUnit_det
  have hRu := hR.isUnit_det
  have key : (1 + P * (Hᵀ * R⁻¹ * H)) * (P * Hᵀ * (innov P H R)⁻¹) = P * Hᵀ * R⁻¹ := by
    have h1 : H * (P * Hᵀ) = innov P H R - R := by unfold innov; rw [← Matrix.mul_assoc]; abel
    calc (1 + P * (Hᵀ * R⁻¹ * H)) * (P * Hᵀ * (innov P H R)⁻¹)
        = P * Hᵀ * (innov P H R)⁻¹ + P * Hᵀ * R⁻¹ * (H * (P * Hᵀ)) * (innov P H R)⁻¹ := by
          simp only [Matrix.add_mul, Matrix.one_mul, Matrix.mul_assoc]
      _ = P * Hᵀ * (innov P H R)⁻¹ + (P * Hᵀ * R⁻¹ * (innov P H R * (innov P H R)⁻¹)
            - P * Hᵀ * (R⁻¹ * R) * (innov P H R)⁻¹) := by
          rw [h1]; simp only [Matrix.mul_sub, Matrix.sub_mul, Matrix.mul_assoc]
      _ = P * Hᵀ * R⁻¹ := by
          rw [Matrix.mul_nonsing_inv _ hS, Matrix.nonsing_inv_mul _ hRu, Matrix.mul_one, Matrix.mul_one]
          abel
  refine ⟨?_, key⟩
  calc (1 + P * (Hᵀ * R⁻¹ * H)) * (1 - P * Hᵀ * (innov P H R)⁻¹ * H)
      = (1 + P * (Hᵀ * R⁻¹ * H)) - (1 + P * (Hᵀ * R⁻¹ * H)) * (P * Hᵀ * (innov P H R)⁻¹) * H := by
        rw [Matrix.mul_sub, Matrix.mul_one,
          Matrix.mul_assoc (1 + P * (Hᵀ * R⁻¹ * H)) (P * Hᵀ * (innov P H R)⁻¹) H]
    _ = 1 := by rw [key]; simp only [Matrix.mul_assoc]; abel

/-- A linear measurement seen as an argument of `update` on a vector space. -/
def toMeas (z : LinMeas F n) : Meas (Vec n F) F n :=
  { m := z.m, Y := Vec z.m F, h := fun g => z.H *ᵥ g + z.c, jac := fun _ => z.H, yminus := fun a b => a - b, y := z.y }

/-- Fusing a list of linear measurements, first one first. -/
def fuse (env : Env (Vec n F) F n) (zs : List (LinMeas F n)) (s : State (Vec n F) F n) : State (Vec n F) F n :=
  zs.foldl (fun s z => update env (toMeas z) z.R s) s

/-- A vector-space filter: the update is plain addition. -/
def VectorSpace (env : Env (Vec n F) F n) : Prop := ∀ g v, env.rplus g v = g + v

theorem update_info (env : Env (Vec n F) F n) (hs : SolveOk env) (hv : VectorSpace env) (z : LinMeas F n)
    (hR : PD z.R) (s : State (Vec n F) F n) (hP : PSD s.P) :
    let s' := update env (toMeas z) z.R s
    let M := z.Hᵀ * z.R⁻¹ * z.H
    IsUnit (1 + s.P * M).det ∧ PSD s'.P ∧ (1 + s.P * M) * s'.P = s.P ∧
      (1 + s.P * M) *ᵥ s'.g = s.g + s.P *ᵥ ((z.Hᵀ * z.R⁻¹) *ᵥ (z.y - z.c)) := by
  intro s' M
  have hsR : symU z.R = z.R := symU_of_isSymm _ hR.1
  have hu := update_eq env hs (toMeas z) z.R s hP (show PD (symU z.R) from hsR.symm ▸ hR)
  simp only [toMeas] at hu
  rw [hsR] at hu
  obtain ⟨h1, h2⟩ := info_right_inv s.P z.H z.R hP hR
  have hpsd := update_cov_PSD s.P z.H z.R hP hR
  have hP' : s'.P = (1 - s.P * z.Hᵀ * (innov s.P z.H z.R)⁻¹ * z.H) * s.P := by
    show (update env (toMeas z) z.R s).P = _
    rw [show update env (toMeas z) z.R s = _ from hu]
    exact symU_of_isSymm _ hpsd.1
  refine ⟨?_, hP' ▸ hpsd, ?_, ?_⟩
  · exact Matrix.isUnit_det_of_right_inverse h1
  · rw [hP', ← Matrix.mul_assoc, h1, Matrix.one_mul]
  · have hg : s'.g = s.g + (s.P * z.Hᵀ * (innov s.P z.H z.R)⁻¹) *ᵥ (z.y - (z.H *ᵥ s.g + z.c)) := by
      show (update env (toMeas z) z.R s).g = _
      rw [show update env (toMeas z) z.R s = _ from hu]
      exact hv _ _
    have hg2 : s'.g = (1 - s.P * z.Hᵀ * (innov s.P z.H z.R)⁻¹ * z.H) *ᵥ s.g
        + (s.P * z.Hᵀ * (innov s.P z.H z.R)⁻¹) *ᵥ (z.y - z.c) := by
      rw [hg]
      generalize s.P * z.Hᵀ * (innov s.P z.H z.R)⁻¹ = K
      rw [Matrix.sub_mulVec, Matrix.one_mulVec, ← Matrix.mulVec_mulVec, sub_add_eq_sub_sub_swap,
        Matrix.mulVec_sub _ (z.y - z.c)]
      abel
    rw [hg2, Matrix.mulVec_add, Matrix.mulVec_mulVec, Matrix.mulVec_mulVec, h1, h2, Matrix.one_mulVec,
      Matrix.mulVec_mulVec, Matrix.mul_assoc]

theorem fuse_info (env : Env (Vec n F) F n) (hs : SolveOk env) (hv : VectorSpace env) (zs : List (LinMeas F n)) :
    ∀ s : State (Vec n F) F n, PSD s.P → (∀ z ∈ zs, PD z.R) →
    IsUnit (1 + s.P * info zs).det ∧ PSD (fuse env zs s).P ∧ (1 + s.P * info zs) * (fuse env zs s).P = s.P ∧
      (1 + s.P * info zs) *ᵥ (fuse env zs s).g = s.g + s.P *ᵥ infoVec zs := by
  induction zs with
  | nil => intro s hP _; simp [info, infoVec, fuse, hP]
  | cons z zs ih =>
    intro s hP hR
    obtain ⟨a1, a2, a3, a4⟩ := update_info env hs hv z (hR z List.mem_cons_self) s hP
    obtain ⟨b1, b2, b3, b4⟩ := ih (update env (toMeas z) z.R s) a2 (fun z' hz' => hR z' (List.mem_cons_of_mem _ hz'))
    have hi : info (z :: zs) = z.Hᵀ * z.R⁻¹ * z.H + info zs := by simp [info]
    have hiv : infoVec (z :: zs) = (z.Hᵀ * z.R⁻¹) *ᵥ (z.y - z.c) + infoVec zs := by simp [infoVec]
    have hf : fuse env (z :: zs) s = fuse env zs (update env (toMeas z) z.R s) := rfl
    set s1 := update env (toMeas z) z.R s
    set M := z.Hᵀ * z.R⁻¹ * z.H
    have hfac : 1 + s.P * info (z :: zs) = (1 + s.P * M) * (1 + s1.P * info zs) := by
      rw [hi, Matrix.mul_add, Matrix.mul_add (1 + s.P * M), Matrix.mul_one, ← Matrix.mul_assoc (1 + s.P * M), a3]
      abel
    rw [hfac, hf]
    refine ⟨?_, b2, ?_, ?_⟩
    · rw [Matrix.det_mul]; exact a1.mul b1
    · rw [Matrix.mul_assoc, b3, a3]
    · rw [← Matrix.mulVec_mulVec, b4, Matrix.mulVec_add, a4, Matrix.mulVec_mulVec (infoVec zs) (1 + s.P * M) s1.P, a3, hiv, Matrix.mulVec_add]
      abel

theorem isUnit_det_cancel {M : Mat n n F} (h : IsUnit M.det) {A B : Mat n n F} (hab : M * A = M * B) : A = B := by
  have := congrArg (M⁻¹ * ·) hab
  simpa [← Matrix.mul_assoc, Matrix.nonsing_inv_mul _ h] using this

theorem isUnit_det_cancel_vec {M : Mat n n F} (h : IsUnit M.det) {a b : Vec n F} (hab : M *ᵥ a = M *ᵥ b) : a = b := by
  have := congrArg (M⁻¹ *ᵥ ·) hab
  simpa [Matrix.mulVec_mulVec, Matrix.nonsing_inv_mul _ h] using this

/-- Expansion of a weighted squared residual around a point. -/
theorem quad_expand {ι : Type*} [Fintype ι] (W : Matrix ι ι F) (hW : W.IsSymm) (r d : ι → F) :
    (r + d) ⬝ᵥ W *ᵥ (r + d) = r ⬝ᵥ W *ᵥ r + 2 * (d ⬝ᵥ W *ᵥ r) + d ⬝ᵥ W *ᵥ d := by
  have hsym : r ⬝ᵥ W *ᵥ d = d ⬝ᵥ W *ᵥ r := by
    rw [Matrix.dotProduct_mulVec, ← Matrix.mulVec_transpose, hW.eq, dotProduct_comm]
  rw [Matrix.mulVec_add, dotProduct_add, add_dotProduct, add_dotProduct, hsym]
  ring

theorem residuals_lower (zs : List (LinMeas F n)) (hR : ∀ z ∈ zs, PD z.R) (w e : Vec n F) :
    (zs.map (fun z => (z.y - z.c - z.H *ᵥ w) ⬝ᵥ z.R⁻¹ *ᵥ (z.y - z.c - z.H *ᵥ w))).sum
        - 2 * (e ⬝ᵥ (infoVec zs - info zs *ᵥ w))
      ≤ (zs.map (fun z => (z.y - z.c - z.H *ᵥ (w + e)) ⬝ᵥ z.R⁻¹ *ᵥ (z.y - z.c - z.H *ᵥ (w + e)))).sum := by
  induction zs with
  | nil => simp [info, infoVec]
  | cons z zs ih =>
    have ih' := ih (fun z' hz' => hR z' (List.mem_cons_of_mem _ hz'))
    have hRi := psd_inv (hR z List.mem_cons_self)
    have hi : info (z :: zs) = z.Hᵀ * z.R⁻¹ * z.H + info zs := by simp [info]
    have hiv : infoVec (z :: zs) = (z.Hᵀ * z.R⁻¹) *ᵥ (z.y - z.c) + infoVec zs := by simp [infoVec]
    set r := z.y - z.c - z.H *ᵥ w with hr
    have h1 : z.y - z.c - z.H *ᵥ (w + e) = r + (-(z.H *ᵥ e)) := by rw [hr, Matrix.mulVec_add]; abel
    have h2 := quad_expand z.R⁻¹ hRi.1 r (-(z.H *ᵥ e))
    have h3 := hRi.2 (-(z.H *ᵥ e))
    have h4 : (-(z.H *ᵥ e)) ⬝ᵥ z.R⁻¹ *ᵥ r = -(e ⬝ᵥ ((z.Hᵀ * z.R⁻¹) *ᵥ r)) := by
      rw [neg_dotProduct, ← Matrix.mulVec_mulVec, Matrix.dotProduct_mulVec e, Matrix.vecMul_transpose]
    have h5 : infoVec (z :: zs) - info (z :: zs) *ᵥ w
        = (z.Hᵀ * z.R⁻¹) *ᵥ r + (infoVec zs - info zs *ᵥ w) := by
      rw [hi, hiv, hr, Matrix.mulVec_sub _ (z.y - z.c), Matrix.add_mulVec, Matrix.mulVec_mulVec]
      abel
    rw [h5, dotProduct_add, List.map_cons, List.sum_cons, List.map_cons, List.sum_cons, h1, h2, h4]
    linarith

end Verif.EKF
