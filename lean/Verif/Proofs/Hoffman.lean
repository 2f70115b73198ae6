import Mathlib.Algebra.Order.Field.Basic
import Mathlib.Algebra.Order.BigOperators.Group.Finset
import Mathlib.Data.Fin.Tuple.Basic
import Mathlib.Algebra.BigOperators.Fin
import Mathlib.Data.Matrix.Mul
import Mathlib.Data.Finset.Max
import Mathlib.Tactic.Linarith
import Mathlib.Tactic.FieldSimp
import Mathlib.Tactic.Ring

/-! # Error bounds for systems of linear inequalities, by elimination of variables -/

set_option linter.unusedSectionVars false

namespace Verif.Hoffman

open Matrix

variable {F : Type*} [Field F] [LinearOrder F] [IsStrictOrderedRing F]

/-- The rows after elimination of the first variable: rows without it, and sums of an upper and a lower bound on it. -/
def elim {n : ℕ} {ι : Type} (a : ι → Fin (n + 1) → F) : ι ⊕ ι × ι → Fin n → F
  | .inl i => if a i 0 = 0 then Fin.tail (a i) else 0
  | .inr (i, j) => if 0 < a i 0 ∧ a j 0 < 0 then (a i 0)⁻¹ • Fin.tail (a i) + (-a j 0)⁻¹ • Fin.tail (a j) else 0

/-- The right-hand sides after elimination. -/
def elimR {n : ℕ} {ι : Type} (a : ι → Fin (n + 1) → F) (b : ι → F) : ι ⊕ ι × ι → F
  | .inl i => if a i 0 = 0 then b i else 0
  | .inr (i, j) => if 0 < a i 0 ∧ a j 0 < 0 then (a i 0)⁻¹ * b i + (-a j 0)⁻¹ * b j else 0

/-- How much elimination enlarges a violation. -/
def grow {n : ℕ} {ι : Type} [Fintype ι] (a : ι → Fin (n + 1) → F) : F := 1 + 2 * ∑ i, |a i 0|⁻¹

theorem dot_split {n : ℕ} (v x : Fin (n + 1) → F) : v ⬝ᵥ x = v 0 * x 0 + Fin.tail v ⬝ᵥ Fin.tail x := by
  simp only [dotProduct, Fin.sum_univ_succ, Fin.tail]

theorem grow_pos {n : ℕ} {ι : Type} [Fintype ι] (a : ι → Fin (n + 1) → F) : 1 ≤ grow a := by
  have := Finset.sum_nonneg (s := Finset.univ) fun (i : ι) _ => inv_nonneg.2 (abs_nonneg (a i 0))
  unfold grow
  linarith

theorem inv_le_sum {n : ℕ} {ι : Type} [Fintype ι] (a : ι → Fin (n + 1) → F) (i : ι) : |a i 0|⁻¹ ≤ ∑ i, |a i 0|⁻¹ :=
  Finset.single_le_sum (f := fun i => |a i 0|⁻¹) (fun i _ => inv_nonneg.2 (abs_nonneg (a i 0))) (Finset.mem_univ i)

/-- Elimination enlarges violations at most by `grow`. -/
theorem elim_le {n : ℕ} {ι : Type} [Fintype ι] {a : ι → Fin (n + 1) → F} {b : ι → F} {x : Fin (n + 1) → F} {r : F} (hr : 0 ≤ r)
    (h : ∀ i, a i ⬝ᵥ x ≤ b i + r) (k : ι ⊕ ι × ι) : elim a k ⬝ᵥ Fin.tail x ≤ elimR a b k + grow a * r := by
  have hg : r ≤ grow a * r := le_mul_of_one_le_left hr (grow_pos a)
  rcases k with i | ⟨i, j⟩
  · simp only [elim, elimR]
    split_ifs with h0
    · have := h i
      rw [dot_split, h0, zero_mul, zero_add] at this
      linarith
    · rw [zero_dotProduct]; linarith
  · simp only [elim, elimR]
    split_ifs with h0
    · obtain ⟨h1, h2⟩ := h0
      have h3 := h i
      have h4 := h j
      rw [dot_split] at h3 h4
      rw [add_dotProduct, smul_dotProduct, smul_dotProduct, smul_eq_mul, smul_eq_mul]
      have h5 := mul_le_mul_of_nonneg_left h3 (inv_nonneg.2 h1.le)
      have h6 := mul_le_mul_of_nonneg_left h4 (inv_nonneg.2 (neg_nonneg.2 h2.le))
      have e1 : (a i 0)⁻¹ * (a i 0 * x 0 + Fin.tail (a i) ⬝ᵥ Fin.tail x) = x 0 + (a i 0)⁻¹ * (Fin.tail (a i) ⬝ᵥ Fin.tail x) := by
        rw [mul_add, ← mul_assoc, inv_mul_cancel₀ h1.ne', one_mul]
      have e2 : (-a j 0)⁻¹ * (a j 0 * x 0 + Fin.tail (a j) ⬝ᵥ Fin.tail x) = -x 0 + (-a j 0)⁻¹ * (Fin.tail (a j) ⬝ᵥ Fin.tail x) := by
        have h7 : (-a j 0)⁻¹ * a j 0 = -1 := by
          rw [inv_neg, neg_mul, inv_mul_cancel₀ h2.ne]
        rw [mul_add, ← mul_assoc, h7, neg_one_mul]
      rw [e1] at h5
      rw [e2] at h6
      have h8 := inv_le_sum a i
      have h9 := inv_le_sum a j
      rw [abs_of_pos h1] at h8
      rw [abs_of_neg h2] at h9
      have h10 := Finset.sum_nonneg (s := Finset.univ) fun (i : ι) _ => inv_nonneg.2 (abs_nonneg (a i 0))
      have h11 := mul_le_mul_of_nonneg_right h8 hr
      have h12 := mul_le_mul_of_nonneg_right h9 hr
      have h13 : grow a * r = r + 2 * ((∑ i, |a i 0|⁻¹) * r) := by unfold grow; ring
      rw [h13]
      nlinarith
    · rw [zero_dotProduct]
      linarith

/-- A value above all lower and below all upper bounds, close to a given one. -/
theorem between {κ : Type} [Fintype κ] (lo hi : κ → Prop) [DecidablePred lo] (L U : κ → F) (v D : F)
    (h1 : ∀ i j, hi i → lo j → L j ≤ U i) (h2 : ∀ j, lo j → L j ≤ v + D) (h3 : ∀ i, hi i → v - D ≤ U i) (hD : 0 ≤ D) :
    ∃ w, (∀ j, lo j → L j ≤ w) ∧ (∀ i, hi i → w ≤ U i) ∧ |w - v| ≤ D := by
  classical
  let s : Finset F := insert (v - D) ((Finset.univ.filter lo).image L)
  have hne : s.Nonempty := ⟨v - D, Finset.mem_insert_self _ _⟩
  have hin := Finset.max'_mem s hne
  have hcase : s.max' hne = v - D ∨ ∃ j, lo j ∧ L j = s.max' hne := by
    rcases Finset.mem_insert.1 hin with e | e
    · exact Or.inl e
    · obtain ⟨j, hj, e⟩ := Finset.mem_image.1 e
      exact Or.inr ⟨j, (Finset.mem_filter.1 hj).2, e⟩
  refine ⟨s.max' hne, fun j hj => ?_, fun i hi' => ?_, ?_⟩
  · exact Finset.le_max' _ _ (Finset.mem_insert_of_mem (Finset.mem_image.2 ⟨j, Finset.mem_filter.2 ⟨Finset.mem_univ _, hj⟩, rfl⟩))
  · rcases hcase with e | ⟨j, hj, e⟩
    · rw [e]; exact h3 i hi'
    · rw [← e]; exact h1 i j hi' hj
  · have h4 : v - D ≤ s.max' hne := Finset.le_max' _ _ (Finset.mem_insert_self _ _)
    have h5 : s.max' hne ≤ v + D := by
      rcases hcase with e | ⟨j, hj, e⟩
      · rw [e]; linarith
      · rw [← e]; exact h2 j hj
    rw [abs_le]
    constructor <;> linarith

/-- A solution of the eliminated system extends to one of the system, the first variable close to a given value. -/
theorem extend {n : ℕ} {ι : Type} [Fintype ι] {a : ι → Fin (n + 1) → F} {b : ι → F} {x' : Fin n → F}
    (h : ∀ k, elim a k ⬝ᵥ x' ≤ elimR a b k) (v D : F) (hD : 0 ≤ D)
    (hv : ∀ i, a i 0 ≠ 0 → a i 0 * v + Fin.tail (a i) ⬝ᵥ x' ≤ b i + |a i 0| * D) :
    ∃ w, (∀ i, a i ⬝ᵥ (Fin.cons w x' : Fin (n + 1) → F) ≤ b i) ∧ |w - v| ≤ D := by
  have k1 : ∀ i j, 0 < a i 0 → a j 0 < 0 → (b j - Fin.tail (a j) ⬝ᵥ x') / a j 0 ≤ (b i - Fin.tail (a i) ⬝ᵥ x') / a i 0 := by
    intro i j hi hj
    have := h (.inr (i, j))
    simp only [elim, elimR, if_pos (And.intro hi hj), add_dotProduct, smul_dotProduct, smul_eq_mul] at this
    have e1 : (b j - Fin.tail (a j) ⬝ᵥ x') / a j 0 = -((-a j 0)⁻¹ * b j - (-a j 0)⁻¹ * (Fin.tail (a j) ⬝ᵥ x')) := by
      rw [inv_neg]; ring
    have e2 : (b i - Fin.tail (a i) ⬝ᵥ x') / a i 0 = (a i 0)⁻¹ * b i - (a i 0)⁻¹ * (Fin.tail (a i) ⬝ᵥ x') := by ring
    rw [e1, e2]
    linarith
  have k2 : ∀ j, a j 0 < 0 → (b j - Fin.tail (a j) ⬝ᵥ x') / a j 0 ≤ v + D := by
    intro j hj
    have := hv j hj.ne
    rw [abs_of_neg hj] at this
    rw [div_le_iff_of_neg hj]
    linarith
  have k3 : ∀ i, 0 < a i 0 → v - D ≤ (b i - Fin.tail (a i) ⬝ᵥ x') / a i 0 := by
    intro i hi
    have := hv i hi.ne'
    rw [abs_of_pos hi] at this
    rw [le_div_iff₀ hi]
    linarith
  obtain ⟨w, h1, h2, h3⟩ := between (κ := ι) (fun j => a j 0 < 0) (fun i => 0 < a i 0) (fun j => (b j - Fin.tail (a j) ⬝ᵥ x') / a j 0)
    (fun i => (b i - Fin.tail (a i) ⬝ᵥ x') / a i 0) v D k1 k2 k3 hD
  refine ⟨w, fun i => ?_, h3⟩
  rw [dot_split, Fin.cons_zero, Fin.tail_cons]
  rcases lt_trichotomy (a i 0) 0 with hi | hi | hi
  · have := h1 i hi
    rw [div_le_iff_of_neg hi] at this
    linarith
  · have := h (.inl i)
    simp only [elim, elimR, if_pos hi] at this
    rw [hi, zero_mul, zero_add]
    exact this
  · have := h2 i hi
    rw [le_div_iff₀ hi] at this
    linarith

theorem dot_le_abs {n : ℕ} (v : Fin n → F) {w : Fin n → F} {r : F} (h : ∀ j, |w j| ≤ r) : v ⬝ᵥ w ≤ (∑ j, |v j|) * r := by
  rw [Finset.sum_mul]
  refine Finset.sum_le_sum fun j _ => ?_
  calc v j * w j ≤ |v j * w j| := le_abs_self _
    _ = |v j| * |w j| := abs_mul _ _
    _ ≤ |v j| * r := mul_le_mul_of_nonneg_left (h j) (abs_nonneg _)

/-- A solvable system of linear inequalities has, close to every point that violates each of them by at most `r`, a solution: the distance is at most
`C r`, with a constant that depends on the left-hand sides only. -/
theorem hoffman_fin (n : ℕ) : ∀ {ι : Type} [Fintype ι] (a : ι → Fin n → F), ∃ C : F, 0 ≤ C ∧
    ∀ b : ι → F, (∃ x, ∀ i, a i ⬝ᵥ x ≤ b i) → ∀ (x : Fin n → F) (r : F), 0 ≤ r → (∀ i, a i ⬝ᵥ x ≤ b i + r) →
      ∃ x', (∀ i, a i ⬝ᵥ x' ≤ b i) ∧ ∀ j, |x' j - x j| ≤ C * r := by
  induction n with
  | zero =>
    intro ι _ a
    refine ⟨0, le_rfl, fun b ⟨x0, h0⟩ x r _ _ => ⟨x0, h0, fun j => j.elim0⟩⟩
  | succ n ih =>
    intro ι _ a
    obtain ⟨C, hC, hmain⟩ := ih (elim a)
    have hg := grow_pos a
    let M : F := ∑ i, |a i 0|⁻¹ * (1 + (∑ j, |Fin.tail (a i) j|) * (C * grow a))
    have hCg : 0 ≤ C * grow a := mul_nonneg hC (le_trans zero_le_one hg)
    have hterm : ∀ i, 0 ≤ |a i 0|⁻¹ * (1 + (∑ j, |Fin.tail (a i) j|) * (C * grow a)) := fun i =>
      mul_nonneg (inv_nonneg.2 (abs_nonneg _)) (add_nonneg zero_le_one (mul_nonneg (Finset.sum_nonneg fun _ _ => abs_nonneg _) hCg))
    have hM : 0 ≤ M := Finset.sum_nonneg fun i _ => hterm i
    refine ⟨M + C * grow a, add_nonneg hM hCg, fun b ⟨x0, h0⟩ x r hr hx => ?_⟩
    obtain ⟨x', h1, h2⟩ := hmain (elimR a b) ⟨Fin.tail x0, fun k => by
      have := elim_le (r := 0) (b := b) le_rfl (fun i => by simpa using h0 i) k
      simpa using this⟩ (Fin.tail x) (grow a * r) (mul_nonneg (le_trans zero_le_one hg) hr) (elim_le hr hx)
    obtain ⟨w, h3, h4⟩ := extend (b := b) h1 (x 0) (M * r) (mul_nonneg hM hr) fun i hi => by
      have h5 := hx i
      rw [dot_split] at h5
      have h6 : Fin.tail (a i) ⬝ᵥ x' ≤ Fin.tail (a i) ⬝ᵥ Fin.tail x + (∑ j, |Fin.tail (a i) j|) * (C * (grow a * r)) := by
        have := dot_le_abs (Fin.tail (a i)) (w := x' - Fin.tail x) (fun j => h2 j)
        rw [dotProduct_sub] at this
        linarith
      have h7 : |a i 0|⁻¹ * (1 + (∑ j, |Fin.tail (a i) j|) * (C * grow a)) ≤ M :=
        Finset.single_le_sum (f := fun i => |a i 0|⁻¹ * (1 + (∑ j, |Fin.tail (a i) j|) * (C * grow a))) (fun i _ => hterm i) (Finset.mem_univ i)
      have h8 : 1 + (∑ j, |Fin.tail (a i) j|) * (C * grow a) ≤ |a i 0| * M := by
        rwa [inv_mul_le_iff₀ (abs_pos.2 hi)] at h7
      have h9 := mul_le_mul_of_nonneg_right h8 hr
      have e : (1 + (∑ j, |Fin.tail (a i) j|) * (C * grow a)) * r = r + (∑ j, |Fin.tail (a i) j|) * (C * (grow a * r)) := by ring
      rw [e] at h9
      rw [← mul_assoc]
      linarith
    refine ⟨Fin.cons w x', h3, fun j => ?_⟩
    have hMr := mul_nonneg hM hr
    have hCr := mul_nonneg hCg hr
    refine Fin.cases ?_ (fun j => ?_) j
    · rw [Fin.cons_zero, add_mul]
      linarith
    · rw [Fin.cons_succ, add_mul]
      have := h2 j
      rw [← mul_assoc] at this
      have e : Fin.tail x j = x j.succ := rfl
      rw [e] at this
      linarith

/-- A system without solution is violated by a fixed amount everywhere. -/
theorem margin_fin (n : ℕ) : ∀ {ι : Type} [Fintype ι] (a : ι → Fin n → F) (b : ι → F), (¬ ∃ x, ∀ i, a i ⬝ᵥ x ≤ b i) →
    ∃ e : F, 0 < e ∧ ∀ x, ¬ ∀ i, a i ⬝ᵥ x ≤ b i + e := by
  induction n with
  | zero =>
    intro ι _ a b h
    have h1 : ∃ i, b i < 0 := by
      by_contra hc
      exact h ⟨fun j => j.elim0, fun i => by
        have := not_lt.1 fun h2 => hc ⟨i, h2⟩
        simpa [dotProduct] using this⟩
    obtain ⟨i, hi⟩ := h1
    refine ⟨-b i / 2, by linarith, fun x hx => ?_⟩
    have := hx i
    simp only [dotProduct, Finset.univ_eq_empty, Finset.sum_empty] at this
    linarith
  | succ n ih =>
    intro ι _ a b h
    obtain ⟨e, he, hm⟩ := ih (elim a) (elimR a b) fun ⟨x', hx'⟩ => by
      let D : F := ∑ i, |a i 0|⁻¹ * |Fin.tail (a i) ⬝ᵥ x' - b i|
      have hterm : ∀ i, 0 ≤ |a i 0|⁻¹ * |Fin.tail (a i) ⬝ᵥ x' - b i| := fun i => mul_nonneg (inv_nonneg.2 (abs_nonneg _)) (abs_nonneg _)
      obtain ⟨w, hw, -⟩ := extend (b := b) hx' 0 D (Finset.sum_nonneg fun i _ => hterm i) fun i hi => by
        have h7 : |a i 0|⁻¹ * |Fin.tail (a i) ⬝ᵥ x' - b i| ≤ D :=
          Finset.single_le_sum (f := fun i => |a i 0|⁻¹ * |Fin.tail (a i) ⬝ᵥ x' - b i|) (fun i _ => hterm i) (Finset.mem_univ i)
        rw [inv_mul_le_iff₀ (abs_pos.2 hi)] at h7
        have := le_abs_self (Fin.tail (a i) ⬝ᵥ x' - b i)
        linarith
      exact h ⟨_, hw⟩
    have hg := lt_of_lt_of_le zero_lt_one (grow_pos a)
    refine ⟨e / grow a, div_pos he hg, fun x hx => hm (Fin.tail x) fun k => ?_⟩
    have := elim_le (div_pos he hg).le hx k
    rwa [mul_div_cancel₀ _ hg.ne'] at this

/-- Both for any finite type of variables. -/
theorem hoffman {ν ι : Type} [Fintype ν] [Fintype ι] (a : ι → ν → F) : ∃ C : F, 0 ≤ C ∧
    ∀ b : ι → F, (∃ x, ∀ i, a i ⬝ᵥ x ≤ b i) → ∀ (x : ν → F) (r : F), 0 ≤ r → (∀ i, a i ⬝ᵥ x ≤ b i + r) →
      ∃ x', (∀ i, a i ⬝ᵥ x' ≤ b i) ∧ ∀ j, |x' j - x j| ≤ C * r := by
  let e := Fintype.equivFin ν
  have hd : ∀ (v x : ν → F), (v ∘ e.symm) ⬝ᵥ (x ∘ e.symm) = v ⬝ᵥ x := fun v x => e.symm.sum_comp fun j => v j * x j
  obtain ⟨C, hC, h⟩ := hoffman_fin (Fintype.card ν) fun i => a i ∘ e.symm
  refine ⟨C, hC, fun b ⟨x0, h0⟩ x r hr hx => ?_⟩
  obtain ⟨x', h1, h2⟩ := h b ⟨x0 ∘ e.symm, fun i => by rw [hd]; exact h0 i⟩ (x ∘ e.symm) r hr fun i => by rw [hd]; exact hx i
  refine ⟨x' ∘ e, fun i => ?_, fun j => ?_⟩
  · rw [← hd, Function.comp_assoc, Equiv.self_comp_symm, Function.comp_id]
    exact h1 i
  · have := h2 (e j)
    rwa [Function.comp_apply, Equiv.symm_apply_apply] at this

theorem margin {ν ι : Type} [Fintype ν] [Fintype ι] (a : ι → ν → F) (b : ι → F) (h : ¬ ∃ x, ∀ i, a i ⬝ᵥ x ≤ b i) :
    ∃ e : F, 0 < e ∧ ∀ x, ¬ ∀ i, a i ⬝ᵥ x ≤ b i + e := by
  let e := Fintype.equivFin ν
  have hd : ∀ (v x : ν → F), (v ∘ e.symm) ⬝ᵥ (x ∘ e.symm) = v ⬝ᵥ x := fun v x => e.symm.sum_comp fun j => v j * x j
  obtain ⟨m, hm, h'⟩ := margin_fin (Fintype.card ν) (fun i => a i ∘ e.symm) b fun ⟨x, hx⟩ => h ⟨x ∘ e, fun i => by
    rw [← hd, Function.comp_assoc, Equiv.self_comp_symm, Function.comp_id]
    exact hx i⟩
  exact ⟨m, hm, fun x hx => h' (x ∘ e.symm) fun i => by rw [hd]; exact hx i⟩

end Verif.Hoffman
