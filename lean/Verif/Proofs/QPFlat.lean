import Verif.Proofs.KKTBound
import Verif.Proofs.QPInf

/-! # Flat directions and approximate certificates of infeasibility (for C112) -/

set_option linter.unusedSectionVars false

namespace Verif.QP

open Matrix Verif.QPSpec

variable {F : Type*} [Field F] [LinearOrder F] [IsStrictOrderedRing F] {n m : ℕ}

/-- A direction along which the cost does not grow and no bound is approached. -/
def FlatDir (p : Pbm F n m) (d : Fin n → F) : Prop :=
  p.P *ᵥ d = 0 ∧ p.q ⬝ᵥ d ≤ 0 ∧ ∀ i, (p.u i ≠ .pos → (p.A *ᵥ d) i ≤ 0) ∧ (p.l i ≠ .neg → 0 ≤ (p.A *ᵥ d) i)

/-- A direction along which multipliers can be changed. -/
def FlatMult (p : Pbm F n m) (d : Fin m → F) : Prop :=
  p.Aᵀ *ᵥ d = 0 ∧ support p d ≤ 0 ∧ ∀ i, (p.u i = .pos → d i ≤ 0) ∧ (p.l i = .neg → 0 ≤ d i)

theorem flatDir_kkt {p : Pbm F n m} (hP : p.P.IsSymm) {x d : Fin n → F} {y : Fin m → F} (h : KKT p x y) (hd : FlatDir p d) {t : F} (ht : 0 ≤ t) :
    KKT p (x + t • d) y := by
  obtain ⟨hf, hs, hc⟩ := h
  obtain ⟨d1, d2, d3⟩ := hd
  have hA : ∀ i, (p.A *ᵥ (x + t • d)) i = (p.A *ᵥ x) i + t * (p.A *ᵥ d) i := fun i => by
    rw [mulVec_add, mulVec_smul]; rfl
  -- the multipliers see no change
  have h0 : y ⬝ᵥ p.A *ᵥ d = -(p.q ⬝ᵥ d) := by
    have e := congrArg (fun v => v ⬝ᵥ d) hs
    simp only [add_dotProduct, zero_dotProduct] at e
    have e1 : (p.P *ᵥ x) ⬝ᵥ d = 0 := by
      have : (p.P *ᵥ x) ⬝ᵥ d = x ⬝ᵥ p.P *ᵥ d := by
        rw [dotProduct_mulVec, ← mulVec_transpose, hP.eq]
      rw [this, d1, dotProduct_zero]
    have e2 : (p.Aᵀ *ᵥ y) ⬝ᵥ d = y ⬝ᵥ p.A *ᵥ d := by rw [mulVec_transpose, ← dotProduct_mulVec]
    rw [e1, e2] at e
    linarith
  have hterm : ∀ i, y i * (p.A *ᵥ d) i ≤ 0 := by
    intro i
    rcases lt_trichotomy (y i) 0 with hy | hy | hy
    · have := (d3 i).2 (by rw [(hc i).2 hy]; simp)
      exact mul_nonpos_of_nonpos_of_nonneg hy.le this
    · rw [hy, zero_mul]
    · have := (d3 i).1 (by rw [(hc i).1 hy]; simp)
      exact mul_nonpos_of_nonneg_of_nonpos hy.le this
  have hz : ∀ i, y i * (p.A *ᵥ d) i = 0 := by
    have hsum : ∑ i, y i * (p.A *ᵥ d) i = 0 := le_antisymm (Finset.sum_nonpos fun i _ => hterm i) (by
      have : ∑ i, y i * (p.A *ᵥ d) i = y ⬝ᵥ p.A *ᵥ d := rfl
      rw [this, h0]; linarith)
    intro i
    exact (Finset.sum_eq_zero_iff_of_nonpos fun i _ => hterm i).1 hsum i (Finset.mem_univ i)
  have hyd : ∀ i, y i ≠ 0 → (p.A *ᵥ (x + t • d)) i = (p.A *ᵥ x) i := fun i hy => by
    rw [hA, (mul_eq_zero.1 (hz i)).resolve_left hy, mul_zero, add_zero]
  refine ⟨fun i => ⟨?_, ?_⟩, ?_, fun i => ⟨fun hy => ?_, fun hy => ?_⟩⟩
  · rw [hA]
    have h1 := (hf i).1
    cases hl : p.l i with
    | neg => trivial
    | pos => rw [hl] at h1; exact h1.elim
    | fin b =>
      rw [hl] at h1
      have h2 := (d3 i).2 (by rw [hl]; simp)
      have h3 : b ≤ (p.A *ᵥ x) i := h1
      show b ≤ _
      nlinarith
  · rw [hA]
    have h1 := (hf i).2
    cases hu : p.u i with
    | pos => trivial
    | neg => rw [hu] at h1; exact h1.elim
    | fin b =>
      rw [hu] at h1
      have h2 := (d3 i).1 (by rw [hu]; simp)
      have h3 : (p.A *ᵥ x) i ≤ b := h1
      show _ ≤ b
      nlinarith
  · rw [mulVec_add, mulVec_smul, d1, smul_zero, add_zero]
    exact hs
  · rw [hyd i hy.ne']; exact (hc i).1 hy
  · rw [hyd i hy.ne]; exact (hc i).2 hy

theorem flatMult_kkt {p : Pbm F n m} {x : Fin n → F} {y d : Fin m → F} (h : KKT p x y) (hd : FlatMult p d) {t : F} (ht : 0 ≤ t) :
    KKT p x (y + t • d) := by
  obtain ⟨hf, hs, hc⟩ := h
  obtain ⟨d1, d2, d3⟩ := hd
  have h0 : ∑ i, d i * (p.A *ᵥ x) i = 0 := by
    have : ∑ i, d i * (p.A *ᵥ x) i = d ⬝ᵥ p.A *ᵥ x := rfl
    rw [this, dotProduct_mulVec, ← mulVec_transpose, d1, zero_dotProduct]
  let g : Fin m → F := fun i => (match p.u i with | .fin b => b * max 0 (d i) | _ => 0) + (match p.l i with | .fin a => a * min 0 (d i) | _ => 0)
  have hg : ∀ i, 0 ≤ g i - d i * (p.A *ᵥ x) i ∧ (g i - d i * (p.A *ᵥ x) i = 0 → (0 < d i → p.u i = .fin ((p.A *ᵥ x) i)) ∧
      (d i < 0 → p.l i = .fin ((p.A *ᵥ x) i))) := by
    intro i
    obtain ⟨f1, f2⟩ := hf i
    have hc1 := (d3 i).1
    have hc2 := (d3 i).2
    rcases lt_trichotomy (d i) 0 with hi | hi | hi
    · cases hl : p.l i with
      | neg => exact absurd (hc2 hl) (not_le.2 hi)
      | pos => rw [hl] at f1; exact f1.elim
      | fin a =>
        rw [hl] at f1
        have f1' : a ≤ (p.A *ᵥ x) i := f1
        have e : g i = a * d i := by
          simp only [g, hl, max_eq_left hi.le, min_eq_right hi.le, mul_zero]
          cases p.u i <;> simp
        rw [e]
        refine ⟨by nlinarith, fun h => ⟨fun h' => absurd h' (not_lt.2 hi.le), fun _ => ?_⟩⟩
        have : d i * (a - (p.A *ᵥ x) i) = 0 := by linarith
        rw [sub_eq_zero.1 ((mul_eq_zero.1 this).resolve_left hi.ne)]
    · have e : g i = 0 := by
        simp only [g, hi, max_self, min_self, mul_zero]
        cases p.u i <;> cases p.l i <;> simp
      rw [e, hi]
      exact ⟨by simp, fun _ => ⟨fun h => absurd h (lt_irrefl _), fun h => absurd h (lt_irrefl _)⟩⟩
    · cases hu : p.u i with
      | pos => exact absurd (hc1 hu) (not_le.2 hi)
      | neg => rw [hu] at f2; exact f2.elim
      | fin a =>
        rw [hu] at f2
        have f2' : (p.A *ᵥ x) i ≤ a := f2
        have e : g i = a * d i := by
          simp only [g, hu, max_eq_right hi.le, min_eq_left hi.le, mul_zero]
          cases p.l i <;> simp
        rw [e]
        refine ⟨by nlinarith, fun h => ⟨fun _ => ?_, fun h' => absurd h' (not_lt.2 hi.le)⟩⟩
        have : d i * (a - (p.A *ᵥ x) i) = 0 := by linarith
        rw [sub_eq_zero.1 ((mul_eq_zero.1 this).resolve_left hi.ne')]
  have hsum : ∑ i, (g i - d i * (p.A *ᵥ x) i) = 0 := le_antisymm (by
    rw [Finset.sum_sub_distrib, h0, sub_zero]; exact d2) (Finset.sum_nonneg fun i _ => (hg i).1)
  have hz := fun i => (hg i).2 ((Finset.sum_eq_zero_iff_of_nonneg fun i _ => (hg i).1).1 hsum i (Finset.mem_univ i))
  refine ⟨hf, ?_, fun i => ⟨fun hy => ?_, fun hy => ?_⟩⟩
  · rw [mulVec_add, mulVec_smul, d1, smul_zero, add_zero]; exact hs
  · simp only [Pi.add_apply, Pi.smul_apply, smul_eq_mul] at hy
    by_cases h1 : 0 < y i
    · exact (hc i).1 h1
    · refine (hz i).1 ?_
      by_contra h2
      have := mul_nonpos_of_nonneg_of_nonpos ht (not_lt.1 h2)
      linarith [not_lt.1 h1]
  · simp only [Pi.add_apply, Pi.smul_apply, smul_eq_mul] at hy
    by_cases h1 : y i < 0
    · exact (hc i).2 h1
    · refine (hz i).2 ?_
      by_contra h2
      have := mul_nonneg ht (not_lt.1 h2)
      linarith [not_lt.1 h1]

theorem bounded_no_line {k : ℕ} {R : F} {v d : Fin k → F} (h : ∀ t : F, 0 ≤ t → ∀ j, |(v + t • d) j| ≤ R) : d = 0 := by
  funext j
  by_contra hj
  have hj' : 0 < |d j| := abs_pos.2 hj
  have h0 := h 0 le_rfl j
  have hR : 0 ≤ R := le_trans (abs_nonneg _) h0
  have h1 := h ((2 * R + 1) / |d j|) (div_nonneg (by linarith) hj'.le) j
  simp only [Pi.add_apply, Pi.smul_apply, smul_eq_mul, zero_mul, add_zero] at h0 h1
  have h2 : |(2 * R + 1) / |d j| * d j| = 2 * R + 1 := by
    rw [abs_mul, abs_div, abs_abs, abs_of_nonneg (by linarith : 0 ≤ 2 * R + 1), div_mul_cancel₀ _ hj'.ne']
  have h3 : |(2 * R + 1) / |d j| * d j| ≤ |v j + (2 * R + 1) / |d j| * d j| + |v j| := by
    have := abs_sub (v j + (2 * R + 1) / |d j| * d j) (v j)
    rwa [add_sub_cancel_left] at this
  linarith

/-! ### Approximate directions are excluded by a margin -/

/-- Left-hand sides for directions of the unknowns; the last row says that entry `k` is at least one in absolute value. -/
def dirRow (p : Pbm F n m) (k : Fin n) (s : Bool) : (Fin n × Bool ⊕ Fin m × Bool) ⊕ Bool → Fin n → F
  | .inl (.inl (j, true)) => p.P j
  | .inl (.inl (j, false)) => -p.P j
  | .inl (.inr (i, true)) => if p.u i = .pos then 0 else p.A i
  | .inl (.inr (i, false)) => if p.l i = .neg then 0 else -p.A i
  | .inr true => p.q
  | .inr false => if s then -Pi.single k 1 else Pi.single k 1

def dirRhs : (Fin n × Bool ⊕ Fin m × Bool) ⊕ Bool → F
  | .inr false => -1
  | _ => 0

/-- No approximate direction of unboundedness except zero, below a threshold. -/
theorem recession_margin {p : Pbm F n m} (h : ∀ d, FlatDir p d → d = 0) : ∃ e : F, 0 < e ∧ ∀ e' d, e' ≤ e → ApproxRecession p e' d → d = 0 := by
  have hno : ∀ ks : Fin n × Bool, ¬ ∃ d, ∀ r, dirRow p ks.1 ks.2 r ⬝ᵥ d ≤ dirRhs r := by
    rintro ⟨k, s⟩ ⟨d, hd⟩
    have hflat : FlatDir p d := by
      refine ⟨?_, ?_, fun i => ⟨fun hu => ?_, fun hl => ?_⟩⟩
      · funext j
        have h1 := hd (.inl (.inl (j, true)))
        have h2 := hd (.inl (.inl (j, false)))
        simp only [dirRow, dirRhs, neg_dotProduct] at h1 h2
        exact le_antisymm h1 (neg_nonpos.1 h2)
      · exact hd (.inr true)
      · have h1 := hd (.inl (.inr (i, true)))
        simp only [dirRow, dirRhs, if_neg hu] at h1
        exact h1
      · have h1 := hd (.inl (.inr (i, false)))
        simp only [dirRow, dirRhs, if_neg hl, neg_dotProduct] at h1
        exact neg_nonpos.1 h1
    have h1 := hd (.inr false)
    rw [h d hflat, dotProduct_zero] at h1
    simp only [dirRhs] at h1
    linarith [zero_lt_one (α := F)]
  choose e he hm using fun ks => Hoffman.margin _ _ (hno ks)
  obtain ⟨e0, h0, hle⟩ := exists_lb_fintype he
  refine ⟨e0, h0, fun e' d he' ⟨r, hr, h1, h2, h3⟩ => ?_⟩
  by_contra hd
  have hrpos : 0 < r := by
    refine lt_of_le_of_ne hr.1 fun hr0 => hd ?_
    funext j
    have := hr.2.1 j
    rw [← hr0] at this
    exact abs_eq_zero.1 (le_antisymm this (abs_nonneg _))
  obtain ⟨k, hk⟩ := hr.2.2.resolve_left hrpos.ne'
  have hinv : 0 ≤ r⁻¹ := (inv_pos.2 hrpos).le
  have hdiv : ∀ a : F, a ≤ e' * r → r⁻¹ * a ≤ 0 + e' := fun a ha => by
    have := mul_le_mul_of_nonneg_left ha hinv
    rwa [mul_comm e' r, ← mul_assoc, inv_mul_cancel₀ hrpos.ne', one_mul, ← zero_add e'] at this
  have he0 : 0 ≤ e' ∨ False := by
    left
    have := h1 k
    have h4 := le_trans (abs_nonneg _) this
    exact nonneg_of_mul_nonneg_left h4 hrpos
  have hen := he0.resolve_right id
  refine hm (k, decide (0 < d k)) (r⁻¹ • d) fun row => ?_
  refine le_trans ?_ (add_le_add le_rfl (le_trans he' (hle _)))
  rw [dotProduct_smul, smul_eq_mul]
  match row with
  | .inl (.inl (j, true)) => exact hdiv _ (le_trans (le_abs_self _) (h1 j))
  | .inl (.inl (j, false)) =>
    simp only [dirRow, dirRhs, neg_dotProduct]
    exact hdiv _ (le_trans (neg_le_abs _) (h1 j))
  | .inl (.inr (i, true)) =>
    simp only [dirRow, dirRhs]
    split_ifs with hu
    · rw [zero_dotProduct, mul_zero]; linarith
    · exact hdiv _ ((h3 i).1 hu)
  | .inl (.inr (i, false)) =>
    simp only [dirRow, dirRhs]
    split_ifs with hl
    · rw [zero_dotProduct, mul_zero]; linarith
    · rw [neg_dotProduct]
      exact hdiv _ (neg_le.1 ((h3 i).2 hl))
  | .inr true => exact hdiv _ h2
  | .inr false =>
    simp only [dirRow, dirRhs, decide_eq_true_eq]
    split_ifs with hs
    · rw [neg_dotProduct, single_one_dotProduct, ← abs_of_pos hs, ← hk, mul_neg, inv_mul_cancel₀ hrpos.ne']
      linarith
    · have : d k = -r := by rw [hk, abs_of_nonpos (not_lt.1 hs), neg_neg]
      rw [single_one_dotProduct, this, mul_neg, inv_mul_cancel₀ hrpos.ne']
      linarith

/-- Left-hand sides for directions of the multipliers with signs `σ`. -/
def mulRow (p : Pbm F n m) (σ : Fin m → Bool) (k : Fin m) (s : Bool) : (Fin n × Bool ⊕ Fin m × Fin 3) ⊕ Bool → Fin m → F
  | .inl (.inl (j, true)) => p.Aᵀ j
  | .inl (.inl (j, false)) => -p.Aᵀ j
  | .inl (.inr (i, 0)) => if σ i then -Pi.single i 1 else Pi.single i 1
  | .inl (.inr (i, 1)) => if p.u i = .pos then Pi.single i 1 else 0
  | .inl (.inr (i, 2)) => if p.l i = .neg then -Pi.single i 1 else 0
  | .inr true => fun i => if σ i then (p.u i).finite.getD 0 else (p.l i).finite.getD 0
  | .inr false => if s then -Pi.single k 1 else Pi.single k 1

def mulRhs : (Fin n × Bool ⊕ Fin m × Fin 3) ⊕ Bool → F
  | .inr false => -1
  | _ => 0

theorem support_sign (p : Pbm F n m) {σ : Fin m → Bool} {d : Fin m → F} (h : ∀ i, if σ i then 0 ≤ d i else d i ≤ 0) :
    support p d = (fun i => if σ i then (p.u i).finite.getD 0 else (p.l i).finite.getD 0) ⬝ᵥ d := by
  refine Finset.sum_congr rfl fun i _ => ?_
  have hi := h i
  cases hs : σ i
  · rw [hs] at hi
    simp only [Bool.false_eq_true, if_false] at hi ⊢
    rw [max_eq_left hi, min_eq_right hi]
    cases p.u i <;> cases p.l i <;> simp [Ext.finite, hs]
  · rw [hs] at hi
    simp only [if_true] at hi ⊢
    rw [max_eq_right hi, min_eq_left hi]
    cases p.u i <;> cases p.l i <;> simp [Ext.finite, hs]

/-- No approximate Farkas certificate below a threshold. -/
theorem farkas_margin {p : Pbm F n m} (h : ∀ d, FlatMult p d → d = 0) : ∃ e : F, 0 < e ∧ ∀ e' d, 0 ≤ e' → e' ≤ e → ¬ ApproxFarkas p e' d := by
  have hno : ∀ ks : (Fin m → Bool) × Fin m × Bool, ¬ ∃ d, ∀ r, mulRow p ks.1 ks.2.1 ks.2.2 r ⬝ᵥ d ≤ mulRhs r := by
    rintro ⟨σ, k, s⟩ ⟨d, hd⟩
    have hsg : ∀ i, if σ i then 0 ≤ d i else d i ≤ 0 := by
      intro i
      have h1 := hd (.inl (.inr (i, 0)))
      simp only [mulRow, mulRhs] at h1
      split_ifs at h1 ⊢ with hs
      · rw [neg_dotProduct, single_one_dotProduct] at h1
        exact neg_nonpos.1 h1
      · rw [single_one_dotProduct] at h1
        exact h1
    have hflat : FlatMult p d := by
      refine ⟨?_, ?_, fun i => ⟨fun hu => ?_, fun hl => ?_⟩⟩
      · funext j
        have h1 := hd (.inl (.inl (j, true)))
        have h2 := hd (.inl (.inl (j, false)))
        simp only [mulRow, mulRhs, neg_dotProduct] at h1 h2
        exact le_antisymm h1 (neg_nonpos.1 h2)
      · rw [support_sign p hsg]
        exact hd (.inr true)
      · have h1 := hd (.inl (.inr (i, 1)))
        simp only [mulRow, mulRhs, if_pos hu, single_one_dotProduct] at h1
        exact h1
      · have h1 := hd (.inl (.inr (i, 2)))
        simp only [mulRow, mulRhs, if_pos hl, neg_dotProduct, single_one_dotProduct] at h1
        exact neg_nonpos.1 h1
    have h1 := hd (.inr false)
    rw [h d hflat, dotProduct_zero] at h1
    simp only [mulRhs] at h1
    linarith [zero_lt_one (α := F)]
  choose e he hm using fun ks => Hoffman.margin _ _ (hno ks)
  obtain ⟨e0, h0, hle⟩ := exists_lb_fintype he
  refine ⟨e0, h0, fun e' d hen he' ⟨r, hr, hrpos, h1, h2, h3⟩ => ?_⟩
  obtain ⟨k, hk⟩ := hr.2.2.resolve_left hrpos.ne'
  have hinv : 0 ≤ r⁻¹ := (inv_pos.2 hrpos).le
  have hdiv : ∀ a : F, a ≤ e' * r → r⁻¹ * a ≤ 0 + e' := fun a ha => by
    have := mul_le_mul_of_nonneg_left ha hinv
    rwa [mul_comm e' r, ← mul_assoc, inv_mul_cancel₀ hrpos.ne', one_mul, ← zero_add e'] at this
  have hsg : ∀ i, if decide (0 ≤ d i) then 0 ≤ d i else d i ≤ 0 := fun i => by
    by_cases h : 0 ≤ d i
    · simpa [h] using h
    · simpa [h] using (not_le.1 h).le
  refine hm (fun i => decide (0 ≤ d i), k, decide (0 < d k)) (r⁻¹ • d) fun row => ?_
  refine le_trans ?_ (add_le_add le_rfl (le_trans he' (hle _)))
  rw [dotProduct_smul, smul_eq_mul]
  match row with
  | .inl (.inl (j, true)) => exact hdiv _ (le_trans (le_abs_self _) (h1 j).le)
  | .inl (.inl (j, false)) =>
    simp only [mulRow, mulRhs, neg_dotProduct]
    exact hdiv _ (le_trans (neg_le_abs _) (h1 j).le)
  | .inl (.inr (i, 0)) =>
    simp only [mulRow, mulRhs, decide_eq_true_eq]
    refine hdiv _ (le_trans ?_ (mul_nonneg hen hrpos.le))
    split_ifs with hs
    · rw [neg_dotProduct, single_one_dotProduct]; linarith
    · rw [single_one_dotProduct]; exact (not_le.1 hs).le
  | .inl (.inr (i, 1)) =>
    simp only [mulRow, mulRhs]
    refine hdiv _ ?_
    split_ifs with hu
    · rw [single_one_dotProduct]; exact (h3 i).1 hu
    · rw [zero_dotProduct]; exact mul_nonneg hen hrpos.le
  | .inl (.inr (i, 2)) =>
    simp only [mulRow, mulRhs]
    refine hdiv _ ?_
    split_ifs with hl
    · rw [neg_dotProduct, single_one_dotProduct]; linarith [(h3 i).2 hl]
    · rw [zero_dotProduct]; exact mul_nonneg hen hrpos.le
  | .inr true =>
    have := support_sign p hsg
    rw [this] at h2
    exact hdiv _ h2.le
  | .inr false =>
    simp only [mulRow, mulRhs, decide_eq_true_eq]
    split_ifs with hs
    · rw [neg_dotProduct, single_one_dotProduct, ← abs_of_pos hs, ← hk, mul_neg, inv_mul_cancel₀ hrpos.ne']
      linarith
    · have : d k = -r := by rw [hk, abs_of_nonpos (not_lt.1 hs), neg_neg]
      rw [single_one_dotProduct, this, mul_neg, inv_mul_cancel₀ hrpos.ne']
      linarith

end Verif.QP
