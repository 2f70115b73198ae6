import Verif.Props.QPThreshold

/-! # Rows that determine the variables exclude both infeasibility verdicts (C120) -/

set_option linter.unusedSectionVars false

namespace Verif.QP

open Matrix Verif.QPSpec

variable {n m : ℕ} {env : Env ℝ n} {prm : Params ℝ} {p : Pbm ℝ n m} {ws : Option ((Fin n → ℝ) × (Fin m → ℝ))} {fuel : ℕ} {sol : Sol ℝ n m}

/-- The rows determine the variables, within the factor `C`. -/
def Determines (A : Matrix (Fin m) (Fin n) ℝ) (C : ℝ) : Prop :=
  ∀ v r, (∀ i, |(A *ᵥ v) i| ≤ r) → ∀ j, |v j| ≤ C * r

theorem determines_surj {A : Matrix (Fin m) (Fin n) ℝ} {C : ℝ} (hA : Determines A C) (hmn : m = n) (r : Fin m → ℝ) : ∃ v, A *ᵥ v = r := by
  have hinj : Function.Injective A.mulVecLin := by
    refine (injective_iff_map_eq_zero _).2 fun v hv => funext fun j => ?_
    rw [mulVecLin_apply] at hv
    have := hA v 0 (fun i => by rw [hv]; simp) j
    rw [mul_zero] at this
    exact abs_eq_zero.1 (le_antisymm this (abs_nonneg _))
  have := (LinearMap.injective_iff_surjective_of_finrank_eq_finrank (by simp [hmn])).1 hinj
  obtain ⟨v, hv⟩ := this r
  exact ⟨v, by rwa [mulVecLin_apply] at hv⟩

/-- No approximate Farkas certificate. -/
theorem determines_farkas {C e : ℝ} (hA : Determines p.A C) (hmn : m = n) (hC : 0 ≤ C) (he : e * (n * C) ≤ 1) (d : Fin m → ℝ) : ¬ ApproxFarkas p e d := by
  rintro ⟨r, ⟨-, h1, h2⟩, hr, h3, -⟩
  obtain h2 | ⟨i, hi⟩ := h2
  · exact hr.ne' h2
  obtain ⟨v, hv⟩ := determines_surj hA hmn (Pi.single i 1)
  have hv1 : ∀ j, |v j| ≤ C := fun j => by
    have := hA v 1 (fun k => by
      rw [hv, Pi.single_apply]
      split_ifs <;> simp) j
    rwa [mul_one] at this
  have hd : d i = ∑ j, (p.Aᵀ *ᵥ d) j * v j := by
    have : d ⬝ᵥ (p.A *ᵥ v) = (p.Aᵀ *ᵥ d) ⬝ᵥ v := by rw [dotProduct_mulVec, mulVec_transpose]
    rw [hv, dotProduct_single, mul_one] at this
    exact this
  have hn : 0 < n := by have := i.2; omega
  have hmx : ∃ k, ∀ j, |(p.Aᵀ *ᵥ d) j| ≤ |(p.Aᵀ *ᵥ d) k| := by
    haveI : Nonempty (Fin n) := ⟨⟨0, hn⟩⟩
    exact Finite.exists_max fun j => |(p.Aᵀ *ᵥ d) j|
  obtain ⟨k, hk⟩ := hmx
  have h4 : r ≤ n * (|(p.Aᵀ *ᵥ d) k| * C) := by
    rw [hi, hd]
    calc |∑ j, (p.Aᵀ *ᵥ d) j * v j| ≤ ∑ j, |(p.Aᵀ *ᵥ d) j * v j| := Finset.abs_sum_le_sum_abs _ _
      _ ≤ ∑ _j : Fin n, |(p.Aᵀ *ᵥ d) k| * C := Finset.sum_le_sum fun j _ => by
          rw [abs_mul]
          exact mul_le_mul (hk j) (hv1 j) (abs_nonneg _) (abs_nonneg _)
      _ = _ := by simp
  have hn' : (0 : ℝ) < n := by exact_mod_cast hn
  rcases hC.eq_or_lt with rfl | hC
  · rw [mul_zero, mul_zero] at h4; linarith
  have h5 : n * (|(p.Aᵀ *ᵥ d) k| * C) < n * ((e * r) * C) := mul_lt_mul_of_pos_left (mul_lt_mul_of_pos_right (h3 k) hC) hn'
  nlinarith

/-- With two finite bounds on every row the dual test cannot pass. -/
theorem determines_dual {C : ℝ} {dx : Fin n → ℝ} (hA : Determines p.A C) (hC : 0 ≤ C) (hm : 0 < m)
    (hfin : ∀ i, p.l i ≠ .neg ∧ p.u i ≠ .pos) (he : prm.epsDualInf * C ≤ 1) : dualInfTest prm p dx = false := by
  rw [← Bool.not_eq_true]
  intro h
  unfold dualInfTest at h
  simp only [Bool.and_eq_true, decide_eq_true_eq, List.all_eq_true] at h
  obtain ⟨-, h3⟩ := h
  have h4 : ∀ i, |(p.A *ᵥ dx) i| < prm.epsDualInf * norm dx := by
    intro i
    have := h3 i (List.mem_finRange i)
    obtain ⟨ha, hb⟩ := hfin i
    cases hu : p.u i <;> cases hl : p.l i <;> rw [hu] at this hb <;> rw [hl] at this ha <;> simp_all [dualRow]
  haveI : Nonempty (Fin m) := ⟨⟨0, hm⟩⟩
  obtain ⟨k, hk⟩ := Finite.exists_max fun i => |(p.A *ᵥ dx) i|
  have h5 := hA dx _ hk
  obtain ⟨h6, -, h7⟩ := norm_isMaxNorm dx
  have h8 := h4 k
  have h9 : norm dx ≤ C * |(p.A *ᵥ dx) k| := by
    rcases h7 with h7 | ⟨j, h7⟩
    · rw [h7]; positivity
    · rw [h7]; exact h5 j
  have h10 : 0 < norm dx := by
    rcases h6.eq_or_lt with h | h
    · rw [← h, mul_zero] at h8
      exact absurd h8 (not_lt.2 (abs_nonneg _))
    · exact h
  rcases hC.eq_or_lt with rfl | hC
  · rw [zero_mul] at h9; linarith
  have := mul_lt_mul_of_pos_left h8 hC
  nlinarith

/-- **C120, the solver.** When as many rows as variables determine the variables within a factor `C`, every row has two finite bounds in order, and the
tolerances of the infeasibility tests are at most `1 / (n C)` and `1 / C`, no verdict of infeasibility is ever given: not for any cost, any warm start or any
surroundings. -/
theorem qp_square_verdict {C : ℝ} (hA : Determines p.A C) (hmn : m = n) (hn : 0 < n) (hC : 0 ≤ C)
    (hfin : ∀ i, ∃ a b, p.l i = .fin a ∧ p.u i = .fin b ∧ a ≤ b) (hep : 0 ≤ prm.epsPrimalInf) (hp : prm.epsPrimalInf * (n * C) ≤ 1)
    (hd : prm.epsDualInf * C ≤ 1) (h : solveQP env prm p ws fuel = .ok sol) : sol.code ≠ .primalInfeasible ∧ sol.code ≠ .dualInfeasible := by
  constructor
  · intro hc
    rcases qp_primal_infeasible_partial hep h hc with ⟨-, h1⟩ | ⟨d, -, hF, -⟩
    · choose a b ha hb hab using hfin
      obtain ⟨v, hv⟩ := determines_surj hA hmn a
      refine h1 v fun i => ?_
      rw [hv, ha, hb]
      exact ⟨le_rfl, hab i⟩
    · exact determines_farkas hA hmn hC hp d hF
  · intro hc
    obtain ⟨s, k, -, -, h1⟩ := dual_verdict h hc
    rw [determines_dual hA hC (by omega) (fun i => by
      obtain ⟨a, b, ha, hb, -⟩ := hfin i
      rw [ha, hb]
      exact ⟨by simp, by simp⟩) hd] at h1
    cases h1

/-- By how much an answer to tolerance may leave finite bounds. -/
theorem kkt_rows {ea er B : ℝ} {x : Fin n → ℝ} {y : Fin m → ℝ} (h : ApproxKKT p ea er x y) (her : 0 ≤ er) (her1 : er < 1) (hB0 : 0 ≤ B)
    (hB : ∀ i, ∃ a b, p.l i = .fin a ∧ p.u i = .fin b ∧ |a| ≤ B ∧ |b| ≤ B) (i : Fin m) :
    ∃ a b, p.l i = .fin a ∧ p.u i = .fin b ∧ a - (ea + er * B) / (1 - er) ≤ (p.A *ᵥ x) i ∧ (p.A *ᵥ x) i ≤ b + (ea + er * B) / (1 - er) := by
  obtain ⟨z, rp, rd, hz, -, ⟨rv, rw, rt, ⟨-, -, hv⟩, ⟨-, -, hw⟩, ⟨-, -, ht⟩, hrp⟩, h1, -⟩ := h
  have hzB : ∀ i, |z i| ≤ B := by
    intro i
    obtain ⟨a, b, ha, hb, h3, h4⟩ := hB i
    have := hz i
    rw [ha, hb] at this
    obtain ⟨h5, h6⟩ := this
    simp only [lower, upper] at h5 h6
    rw [abs_le] at h3 h4 ⊢
    constructor <;> linarith
  have hrp0 : 0 ≤ rp := (abs_nonneg _).trans (h1 i)
  have hrv : rv ≤ B + rp := by
    rcases hv with rfl | ⟨j, rfl⟩
    · linarith
    · have e1 := h1 j
      have e2 := hzB j
      have e3 := abs_add_le ((p.A *ᵥ x) j - z j) (z j)
      rw [sub_add_cancel] at e3
      linarith
  have hrw : rw ≤ B + rp := by
    rcases hw with rfl | ⟨j, rfl⟩
    · linarith
    · linarith [hzB j]
  have hrt : rt ≤ B + rp := by
    rcases ht with rfl | ⟨j, rfl⟩
    · linarith
    · linarith [hzB j]
  have h2 := mul_le_mul_of_nonneg_left (max_le (max_le hrv hrw) hrt) her
  have h3 : rp ≤ (ea + er * B) / (1 - er) := by
    rw [le_div_iff₀ (by linarith)]
    nlinarith
  obtain ⟨a, b, ha, hb, -⟩ := hB i
  have h4 := hz i
  rw [ha, hb] at h4
  obtain ⟨h5, h6⟩ := h4
  simp only [lower, upper] at h5 h6
  have h7 := abs_le.1 (h1 i)
  exact ⟨a, b, ha, hb, by linarith, by linarith⟩

end Verif.QP
