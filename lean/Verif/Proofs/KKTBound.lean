import Verif.Proofs.Hoffman
import Verif.Proofs.QPCert

/-! # Distance to the solutions of the optimality conditions in terms of the residuals -/

set_option linter.unusedSectionVars false

namespace Verif.QP

open Matrix Verif.QPSpec

variable {F : Type*} [Field F] [LinearOrder F] [IsStrictOrderedRing F] {n m : ℕ}

/-- Which of the four inequalities `a x ≤ hi`, `lo ≤ a x`, `y ≤ 0`, `0 ≤ y` of each row are imposed. -/
abbrev Pat (m : ℕ) := Fin m → Bool × Bool × Bool × Bool

/-- The inequalities: stationarity in both directions, then four per row. -/
abbrev KRow (n m : ℕ) := Fin n × Bool ⊕ Fin m × Fin 4

/-- Left-hand sides. -/
def kRow (P : Matrix (Fin n) (Fin n) F) (A : Matrix (Fin m) (Fin n) F) (τ : Pat m) : KRow n m → Fin n ⊕ Fin m → F
  | .inl (j, true) => Sum.elim (P j) (Aᵀ j)
  | .inl (j, false) => -Sum.elim (P j) (Aᵀ j)
  | .inr (i, 0) => cond (τ i).1 (Sum.elim (A i) 0) 0
  | .inr (i, 1) => cond (τ i).2.1 (-Sum.elim (A i) 0) 0
  | .inr (i, 2) => cond (τ i).2.2.1 (Sum.elim (0 : Fin n → F) (Pi.single i (1 : F))) 0
  | .inr (i, 3) => cond (τ i).2.2.2 (-Sum.elim (0 : Fin n → F) (Pi.single i (1 : F))) 0

/-- Right-hand sides. -/
def kRhs (q : Fin n → F) (hi lo : Fin m → Option F) : KRow n m → F
  | .inl (j, true) => -q j
  | .inl (j, false) => q j
  | .inr (i, 0) => (hi i).getD 0
  | .inr (i, 1) => -(lo i).getD 0
  | .inr (_, 2) => 0
  | .inr (_, 3) => 0

/-- The finite value of a bound. -/
def Ext.finite : Ext F → Option F
  | .fin b => some b
  | _ => none

/-- Signs of the multipliers: `some true` at the upper, `some false` at the lower bound. -/
abbrev Sgn (m : ℕ) := Fin m → Option Bool

def hiOf (p : Pbm F n m) (σ : Sgn m) (i : Fin m) : Option F := if σ i = some false then (p.l i).finite else (p.u i).finite
def loOf (p : Pbm F n m) (σ : Sgn m) (i : Fin m) : Option F := if σ i = some true then (p.u i).finite else (p.l i).finite

def patOf (p : Pbm F n m) (σ : Sgn m) : Pat m := fun i =>
  ((hiOf p σ i).isSome, (loOf p σ i).isSome, σ i ≠ some true, σ i ≠ some false)

theorem elim_dot (v : Fin n → F) (w : Fin m → F) (x : Fin n → F) (y : Fin m → F) : Sum.elim v w ⬝ᵥ Sum.elim x y = v ⬝ᵥ x + w ⬝ᵥ y := by
  simp only [dotProduct, Fintype.sum_sum_type, Sum.elim_inl, Sum.elim_inr]

/-- The signs of given multipliers. -/
def sgnOf (y : Fin m → F) : Sgn m := fun i => if 0 < y i then some true else if y i < 0 then some false else none

/-- Residuals bound the violations. -/
theorem rows_of_residual {p : Pbm F n m} {x : Fin n → F} {y z : Fin m → F} {r : F} (hr : 0 ≤ r) (hz : InBox p z) (hc : Complementary p z y)
    (hp : ∀ i, |(p.A *ᵥ x) i - z i| ≤ r) (hd : ∀ j, |(p.P *ᵥ x) j + p.q j + (p.Aᵀ *ᵥ y) j| ≤ r) (k : KRow n m) :
    kRow p.P p.A (patOf p (sgnOf y)) k ⬝ᵥ Sum.elim x y ≤ kRhs p.q (hiOf p (sgnOf y)) (loOf p (sgnOf y)) k + r := by
  rcases k with ⟨j, s⟩ | ⟨i, k⟩
  · have h1 := abs_le.1 (hd j)
    have e : p.P j ⬝ᵥ x + p.Aᵀ j ⬝ᵥ y = (p.P *ᵥ x) j + (p.Aᵀ *ᵥ y) j := rfl
    cases s
    · simp only [kRow, kRhs, neg_dotProduct, elim_dot, e]
      linarith
    · simp only [kRow, kRhs, elim_dot, e]
      linarith
  · have h1 := abs_le.1 (hp i)
    have e : p.A i ⬝ᵥ x = (p.A *ᵥ x) i := rfl
    fin_cases k
    · simp only [kRow, kRhs, patOf, Fin.zero_eta]
      rcases hv : hiOf p (sgnOf y) i with _ | b
      · simpa using hr
      · simp only [Option.isSome_some, cond_true, elim_dot, zero_dotProduct, add_zero, e, Option.getD_some]
        have hzb : z i ≤ b := by
          unfold hiOf at hv
          split_ifs at hv with hs
          · have hy : y i < 0 := by
              unfold sgnOf at hs
              split_ifs at hs with h2 h3
              · simp at hs
              · exact h3
            rw [(hc i).2 hy] at hv
            simp only [Ext.finite, Option.some.injEq] at hv
            exact hv.le
          · have h2 := (hz i).2
            cases hu : p.u i with
            | fin c =>
              rw [hu] at hv h2
              simp only [Ext.finite, Option.some.injEq] at hv
              rw [← hv]; exact h2
            | neg => rw [hu] at h2; exact h2.elim
            | pos => rw [hu] at hv; simp [Ext.finite] at hv
        linarith
    · simp only [kRow, kRhs, patOf, Fin.mk_one]
      rcases hv : loOf p (sgnOf y) i with _ | b
      · simpa using hr
      · simp only [Option.isSome_some, cond_true, neg_dotProduct, elim_dot, zero_dotProduct, add_zero, e, Option.getD_some]
        have hzb : b ≤ z i := by
          unfold loOf at hv
          split_ifs at hv with hs
          · have hy : 0 < y i := by
              unfold sgnOf at hs
              split_ifs at hs with h2 h3
              · exact h2
              · simp at hs
            rw [(hc i).1 hy] at hv
            simp only [Ext.finite, Option.some.injEq] at hv
            exact hv.ge
          · have h2 := (hz i).1
            cases hu : p.l i with
            | fin c =>
              rw [hu] at hv h2
              simp only [Ext.finite, Option.some.injEq] at hv
              rw [← hv]; exact h2
            | pos => rw [hu] at h2; exact h2.elim
            | neg => rw [hu] at hv; simp [Ext.finite] at hv
        linarith
    · simp only [kRow, kRhs, patOf, Fin.reduceFinMk]
      by_cases hs : sgnOf y i ≠ some true
      · have hy : ¬ 0 < y i := by
          intro hy
          simp [sgnOf, hy] at hs
        rw [decide_eq_true hs, cond_true, elim_dot, zero_dotProduct, single_one_dotProduct, zero_add]
        linarith
      · rw [decide_eq_false hs, cond_false, zero_dotProduct]; linarith
    · simp only [kRow, kRhs, patOf, Fin.reduceFinMk]
      by_cases hs : sgnOf y i ≠ some false
      · have hy : ¬ y i < 0 := by
          intro hy
          simp [sgnOf, hy, not_lt.2 hy.le] at hs
        rw [decide_eq_true hs, cond_true, neg_dotProduct, elim_dot, zero_dotProduct, single_one_dotProduct, zero_add]
        linarith
      · rw [decide_eq_false hs, cond_false, zero_dotProduct]; linarith

/-- Solutions of the inequalities satisfy the optimality conditions. -/
theorem kkt_of_rows {p : Pbm F n m} {σ : Sgn m} {z : Fin m → F} (hz : InBox p z) (hu : ∀ i, σ i = some true → ∃ b, p.u i = .fin b)
    (hl : ∀ i, σ i = some false → ∃ b, p.l i = .fin b) {v : Fin n ⊕ Fin m → F}
    (h : ∀ k, kRow p.P p.A (patOf p σ) k ⬝ᵥ v ≤ kRhs p.q (hiOf p σ) (loOf p σ) k) : KKT p (v ∘ .inl) (v ∘ .inr) := by
  obtain ⟨x, y, rfl⟩ : ∃ x y, v = Sum.elim x y := ⟨v ∘ .inl, v ∘ .inr, (Sum.elim_comp_inl_inr v).symm⟩
  simp only [Sum.elim_comp_inl, Sum.elim_comp_inr]
  have hhi : ∀ i b, hiOf p σ i = some b → (p.A *ᵥ x) i ≤ b := by
    intro i b hb
    have := h (.inr (i, 0))
    simp only [kRow, kRhs, patOf, hb, Option.isSome_some, cond_true, elim_dot, zero_dotProduct, add_zero, Option.getD_some] at this
    exact this
  have hlo : ∀ i b, loOf p σ i = some b → b ≤ (p.A *ᵥ x) i := by
    intro i b hb
    have := h (.inr (i, 1))
    simp only [kRow, kRhs, patOf, hb, Option.isSome_some, cond_true, neg_dotProduct, elim_dot, zero_dotProduct, add_zero, Option.getD_some] at this
    exact neg_le_neg_iff.1 this
  have hyn : ∀ i, σ i ≠ some true → y i ≤ 0 := by
    intro i hs
    have := h (.inr (i, 2))
    simp only [kRow, kRhs, patOf, hs, ne_eq, not_false_eq_true, decide_true, cond_true, elim_dot, zero_dotProduct, zero_add, single_one_dotProduct] at this
    exact this
  have hyp : ∀ i, σ i ≠ some false → 0 ≤ y i := by
    intro i hs
    have := h (.inr (i, 3))
    simp only [kRow, kRhs, patOf, hs, ne_eq, not_false_eq_true, decide_true, cond_true, neg_dotProduct, elim_dot, zero_dotProduct, zero_add,
      single_one_dotProduct] at this
    exact neg_nonpos.1 this
  refine ⟨fun i => ⟨?_, ?_⟩, ?_, fun i => ⟨fun hy => ?_, fun hy => ?_⟩⟩
  · have h1 := (hz i).1
    have h2 := (hz i).2
    cases hl' : p.l i with
    | neg => trivial
    | pos => rw [hl'] at h1; exact h1.elim
    | fin b =>
      rw [hl'] at h1
      by_cases hs : σ i = some true
      · obtain ⟨c, hc⟩ := hu i hs
        rw [hc] at h2
        have := hlo i c (by rw [loOf, if_pos hs, hc]; rfl)
        exact le_trans h1 (le_trans h2 this)
      · exact hlo i b (by rw [loOf, if_neg hs, hl']; rfl)
  · have h1 := (hz i).1
    have h2 := (hz i).2
    cases hu' : p.u i with
    | pos => trivial
    | neg => rw [hu'] at h2; exact h2.elim
    | fin b =>
      rw [hu'] at h2
      by_cases hs : σ i = some false
      · obtain ⟨c, hc⟩ := hl i hs
        rw [hc] at h1
        have := hhi i c (by rw [hiOf, if_pos hs, hc]; rfl)
        exact le_trans this (le_trans h1 h2)
      · exact hhi i b (by rw [hiOf, if_neg hs, hu']; rfl)
  · funext j
    have h1 := h (.inl (j, true))
    have h2 := h (.inl (j, false))
    simp only [kRow, kRhs, neg_dotProduct, elim_dot] at h1 h2
    have e1 : p.P j ⬝ᵥ x = (p.P *ᵥ x) j := rfl
    have e2 : p.Aᵀ j ⬝ᵥ y = (p.Aᵀ *ᵥ y) j := rfl
    rw [e1, e2] at h1 h2
    simp only [Pi.add_apply, Pi.zero_apply]
    linarith
  · have hs : σ i = some true := by
      by_contra hs
      exact absurd hy (not_lt.2 (hyn i hs))
    obtain ⟨c, hc⟩ := hu i hs
    have h3 := hlo i c (by rw [loOf, if_pos hs, hc]; rfl)
    have h4 := hhi i c (by rw [hiOf, if_neg (by rw [hs]; simp), hc]; rfl)
    rw [hc, le_antisymm h4 h3]
  · have hs : σ i = some false := by
      by_contra hs
      exact absurd hy (not_lt.2 (hyp i hs))
    obtain ⟨c, hc⟩ := hl i hs
    have h3 := hhi i c (by rw [hiOf, if_pos hs, hc]; rfl)
    have h4 := hlo i c (by rw [loOf, if_neg (by rw [hs]; simp), hc]; rfl)
    rw [hc, le_antisymm h3 h4]

theorem exists_lb_fintype {κ : Type} [Fintype κ] {f : κ → F} (h : ∀ i, 0 < f i) : ∃ e, 0 < e ∧ ∀ i, e ≤ f i := by
  have h0 : 0 ≤ ∑ i, (f i)⁻¹ := Finset.sum_nonneg fun i _ => (inv_pos.2 (h i)).le
  have h1 : 0 < 1 + ∑ i, (f i)⁻¹ := by linarith
  refine ⟨(1 + ∑ i, (f i)⁻¹)⁻¹, inv_pos.2 h1, fun i => ?_⟩
  have h2 := Finset.single_le_sum (f := fun i => (f i)⁻¹) (fun i _ => (inv_pos.2 (h i)).le) (Finset.mem_univ i)
  rw [inv_le_comm₀ h1 (h i)]
  linarith

/-- **Error bound of the optimality conditions.** For all matrices `P` and `A` there is a constant `C`, and for all vectors and bounds a threshold, so
that small residuals (below the threshold) are met only within `C` times the residual of an exact solution of the optimality conditions. -/
theorem kkt_error_bound (P : Matrix (Fin n) (Fin n) F) (A : Matrix (Fin m) (Fin n) F) : ∃ C : F, 0 ≤ C ∧ ∀ (q : Fin n → F) (l u : Fin m → Ext F),
    ∃ e0 : F, 0 < e0 ∧ ∀ (x : Fin n → F) (y z : Fin m → F) (r : F), 0 ≤ r → r ≤ e0 → InBox ⟨P, q, A, l, u⟩ z → Complementary ⟨P, q, A, l, u⟩ z y →
      (∀ i, |(A *ᵥ x) i - z i| ≤ r) → (∀ j, |(P *ᵥ x) j + q j + (Aᵀ *ᵥ y) j| ≤ r) →
      ∃ x' y', KKT ⟨P, q, A, l, u⟩ x' y' ∧ (∀ j, |x' j - x j| ≤ C * r) ∧ ∀ i, |y' i - y i| ≤ C * r := by
  have hex : ∀ τ : Pat m, ∃ C : F, 0 ≤ C ∧ ∀ b : KRow n m → F, (∃ x, ∀ k, kRow P A τ k ⬝ᵥ x ≤ b k) → ∀ (x : Fin n ⊕ Fin m → F) (r : F), 0 ≤ r →
      (∀ k, kRow P A τ k ⬝ᵥ x ≤ b k + r) → ∃ x', (∀ k, kRow P A τ k ⬝ᵥ x' ≤ b k) ∧ ∀ j, |x' j - x j| ≤ C * r :=
    fun τ => Hoffman.hoffman (kRow P A τ)
  choose C hC hmain using hex
  refine ⟨∑ τ, C τ, Finset.sum_nonneg fun τ _ => hC τ, fun q l u => ?_⟩
  let p : Pbm F n m := ⟨P, q, A, l, u⟩
  have hmar : ∀ σ : Sgn m, ∃ e : F, 0 < e ∧ ((∃ v, ∀ k, kRow P A (patOf p σ) k ⬝ᵥ v ≤ kRhs q (hiOf p σ) (loOf p σ) k) ∨
      ∀ v, ¬ ∀ k, kRow P A (patOf p σ) k ⬝ᵥ v ≤ kRhs q (hiOf p σ) (loOf p σ) k + e) := by
    intro σ
    by_cases h : ∃ v, ∀ k, kRow P A (patOf p σ) k ⬝ᵥ v ≤ kRhs q (hiOf p σ) (loOf p σ) k
    · exact ⟨1, one_pos, Or.inl h⟩
    · obtain ⟨e, he, h'⟩ := Hoffman.margin _ _ h
      exact ⟨e, he, Or.inr h'⟩
  choose e he hor using hmar
  obtain ⟨e0, h0, hle⟩ := exists_lb_fintype he
  refine ⟨e0, h0, fun x y z r hr hre hz hc hp hd => ?_⟩
  have hrow := rows_of_residual (p := p) hr hz hc hp hd
  rcases hor (sgnOf y) with hs | hs
  · obtain ⟨v, hv, hclose⟩ := hmain (patOf p (sgnOf y)) _ hs (Sum.elim x y) r hr hrow
    have hCle : C (patOf p (sgnOf y)) * r ≤ (∑ τ, C τ) * r :=
      mul_le_mul_of_nonneg_right (Finset.single_le_sum (f := C) (fun τ _ => hC τ) (Finset.mem_univ _)) hr
    refine ⟨v ∘ .inl, v ∘ .inr, kkt_of_rows (p := p) (σ := sgnOf y) hz (fun i hi => ?_) (fun i hi => ?_) hv, fun j => ?_, fun i => ?_⟩
    · have hy : 0 < y i := by
        unfold sgnOf at hi
        split_ifs at hi with h2 h3
        · exact h2
        · simp at hi
      exact ⟨_, (hc i).1 hy⟩
    · have hy : y i < 0 := by
        unfold sgnOf at hi
        split_ifs at hi with h2 h3
        · simp at hi
        · exact h3
      exact ⟨_, (hc i).2 hy⟩
    · exact le_trans (hclose (.inl j)) hCle
    · exact le_trans (hclose (.inr i)) hCle
  · exact absurd (fun k => le_trans (hrow k) (by have := hle (sgnOf y); show _ ≤ _; exact add_le_add le_rfl (le_trans hre this))) (hs (Sum.elim x y))

end Verif.QP
