import Verif.Proofs.QPCert
import Mathlib.LinearAlgebra.Pi
import Mathlib.LinearAlgebra.Matrix.ToLin
import Mathlib.Algebra.Order.Field.Basic

/-!
# Farkas' lemma over an ordered field, and multipliers of quadratic programs

The induction on the number of inequalities is due to Bartl.
-/

set_option linter.unusedSectionVars false

namespace Verif.QP

open Matrix Verif.QPSpec

section Farkas

variable {F : Type*} [Field F] [LinearOrder F] [IsStrictOrderedRing F] {V : Type*} [AddCommGroup V] [Module F V]
  {ι : Type*} [DecidableEq ι]

/-- Farkas' lemma for finitely many linear functionals on any vector space. -/
theorem farkas_finset (s : Finset ι) (a : ι → V →ₗ[F] F) (b : V →ₗ[F] F)
    (h : ∀ x, (∀ i ∈ s, a i x ≤ 0) → b x ≤ 0) : ∃ c : ι → F, (∀ i, 0 ≤ c i) ∧ b = ∑ i ∈ s, c i • a i := by
  induction s using Finset.induction_on generalizing a b with
  | empty =>
    refine ⟨0, fun _ => le_rfl, ?_⟩
    ext x
    rw [Finset.sum_empty]
    have h1 := h x (by simp)
    have h2 := h (-x) (by simp)
    rw [map_neg] at h2
    simp only [LinearMap.zero_apply]
    linarith
  | insert k s hk ih =>
    by_cases h0 : ∀ x, (∀ i ∈ s, a i x ≤ 0) → b x ≤ 0
    · obtain ⟨c, hc, hb⟩ := ih a b h0
      refine ⟨Function.update c k 0, fun i => ?_, ?_⟩
      · by_cases hi : i = k
        · subst hi; simp
        · rw [Function.update_of_ne hi]; exact hc i
      · rw [Finset.sum_insert hk, Function.update_self, zero_smul, zero_add, hb]
        refine Finset.sum_congr rfl fun i hi => ?_
        rw [Function.update_of_ne]
        rintro rfl; exact hk hi
    · push Not at h0
      obtain ⟨y, hy, hby⟩ := h0
      have hky : 0 < a k y := by
        by_contra hc
        have := h y (by
          intro i hi
          rcases Finset.mem_insert.1 hi with rfl | hi
          · exact not_lt.1 hc
          · exact hy i hi)
        linarith
      set z : V := (a k y)⁻¹ • y with hz
      have hkz : a k z = 1 := by rw [hz, map_smul, smul_eq_mul, inv_mul_cancel₀ hky.ne']
      have hiz : ∀ i ∈ s, a i z ≤ 0 := fun i hi => by
        rw [hz, map_smul, smul_eq_mul]; exact mul_nonpos_of_nonneg_of_nonpos (inv_pos.2 hky).le (hy i hi)
      have hbz : 0 < b z := by rw [hz, map_smul, smul_eq_mul]; exact mul_pos (inv_pos.2 hky) hby
      obtain ⟨c, hc, hb⟩ := ih (fun i => a i - a i z • a k) (b - b z • a k) (by
        intro x hx
        have hx' : ∀ i ∈ insert k s, a i (x - a k x • z) ≤ 0 := by
          intro i hi
          rcases Finset.mem_insert.1 hi with rfl | hi
          · rw [map_sub, map_smul, hkz, smul_eq_mul, mul_one, sub_self]
          · have := hx i hi
            simp only [LinearMap.sub_apply, LinearMap.smul_apply, smul_eq_mul] at this
            rw [map_sub, map_smul, smul_eq_mul]
            linarith [mul_comm (a k x) (a i z)]
        have := h _ hx'
        rw [map_sub, map_smul, smul_eq_mul] at this
        simp only [LinearMap.sub_apply, LinearMap.smul_apply, smul_eq_mul]
        linarith [mul_comm (a k x) (b z)])
      have hcoef : 0 ≤ b z - ∑ i ∈ s, c i * a i z := by
        have : ∑ i ∈ s, c i * a i z ≤ 0 := Finset.sum_nonpos fun i hi => mul_nonpos_of_nonneg_of_nonpos (hc i) (hiz i hi)
        linarith
      refine ⟨Function.update c k (b z - ∑ i ∈ s, c i * a i z), fun i => ?_, ?_⟩
      · by_cases hi : i = k
        · subst hi; rw [Function.update_self]; exact hcoef
        · rw [Function.update_of_ne hi]; exact hc i
      · rw [Finset.sum_insert hk, Function.update_self]
        have e1 : ∑ i ∈ s, Function.update c k (b z - ∑ i ∈ s, c i * a i z) i • a i = ∑ i ∈ s, c i • a i := by
          refine Finset.sum_congr rfl fun i hi => ?_
          rw [Function.update_of_ne]
          rintro rfl; exact hk hi
        rw [e1]
        ext x
        have := LinearMap.congr_fun hb x
        simp only [LinearMap.sub_apply, LinearMap.smul_apply, smul_eq_mul, LinearMap.sum_apply, LinearMap.add_apply] at this ⊢
        have e2 : ∑ i ∈ s, c i * (a i x - a i z * a k x) = ∑ i ∈ s, c i * a i x - (∑ i ∈ s, c i * a i z) * a k x := by
          rw [Finset.sum_mul, ← Finset.sum_sub_distrib]
          exact Finset.sum_congr rfl fun i _ => by ring
        rw [e2] at this
        linear_combination this

end Farkas

variable {F : Type*} [Field F] [LinearOrder F] [IsStrictOrderedRing F] {n m : ℕ} {p : Pbm F n m}

/-- Scalar product with a vector, as a linear map. -/
def dotMap (v : Fin n → F) : (Fin n → F) →ₗ[F] F where
  toFun x := v ⬝ᵥ x
  map_add' x y := dotProduct_add _ _ _
  map_smul' c x := by rw [dotProduct_smul]; rfl

@[simp] theorem dotMap_apply (v x : Fin n → F) : dotMap v x = v ⬝ᵥ x := rfl

/-- Finitely many positive numbers have a positive lower bound. -/
theorem exists_small {ι : Type*} [Fintype ι] (P : ι → F → Prop) (h : ∀ i, ∃ r, 0 < r ∧ ∀ t, 0 < t → t ≤ r → P i t) :
    ∃ r, 0 < r ∧ ∀ t, 0 < t → t ≤ r → ∀ i, P i t := by
  classical
  choose r hr hP using h
  suffices H : ∀ s : Finset ι, ∃ q, 0 < q ∧ ∀ i ∈ s, q ≤ r i by
    obtain ⟨q, hq, hle⟩ := H Finset.univ
    exact ⟨q, hq, fun t ht htq i => hP i t ht (htq.trans (hle i (Finset.mem_univ i)))⟩
  intro s
  induction s using Finset.induction_on with
  | empty => exact ⟨1, one_pos, by simp⟩
  | insert k s _ ih =>
    obtain ⟨q, hq, hle⟩ := ih
    refine ⟨min q (r k), lt_min hq (hr k), fun i hi => ?_⟩
    rcases Finset.mem_insert.1 hi with rfl | hi
    · exact min_le_right _ _
    · exact (min_le_left _ _).trans (hle i hi)

theorem mulVec_line (M : Matrix (Fin m) (Fin n) F) (x d : Fin n → F) (t : F) (i : Fin m) :
    (M *ᵥ (x + t • d)) i = (M *ᵥ x) i + t * (M *ᵥ d) i := by
  rw [mulVec_add, mulVec_smul]; rfl

/-- A direction that respects the active bounds stays feasible for a while. -/
theorem feasible_line {x d : Fin n → F} (hx : Feasible p x) (hu : ∀ i, p.u i = .fin ((p.A *ᵥ x) i) → (p.A *ᵥ d) i ≤ 0)
    (hl : ∀ i, p.l i = .fin ((p.A *ᵥ x) i) → 0 ≤ (p.A *ᵥ d) i) :
    ∃ r : F, 0 < r ∧ ∀ t : F, 0 < t → t ≤ r → Feasible p (x + t • d) := by
  have key : ∀ (a b : F), 0 < a → ∃ r, 0 < r ∧ ∀ t, 0 < t → t ≤ r → t * b ≤ a := by
    intro a b ha
    refine ⟨a / (1 + |b|), by positivity, fun t ht htr => ?_⟩
    have h1 : t * (1 + |b|) ≤ a := (le_div_iff₀ (by positivity)).1 htr
    nlinarith [le_abs_self b]
  have h1 : ∀ i, ∃ r : F, 0 < r ∧ ∀ t : F, 0 < t → t ≤ r → upper (p.u i) ((p.A *ᵥ (x + t • d)) i) := by
    intro i
    have hxi := (hx i).2
    cases hui : p.u i with
    | pos => exact ⟨1, one_pos, fun _ _ _ => trivial⟩
    | neg => rw [hui] at hxi; exact hxi.elim
    | fin b =>
      rw [hui] at hxi
      rcases eq_or_lt_of_le (show (p.A *ᵥ x) i ≤ b from hxi) with h | h
      · have := hu i (by rw [hui, h])
        refine ⟨1, one_pos, fun t ht _ => ?_⟩
        change (p.A *ᵥ (x + t • d)) i ≤ b
        rw [mulVec_line]
        have := mul_nonpos_of_nonneg_of_nonpos ht.le this
        linarith
      · obtain ⟨r, hr, hk⟩ := key (b - (p.A *ᵥ x) i) ((p.A *ᵥ d) i) (by linarith)
        refine ⟨r, hr, fun t ht htr => ?_⟩
        change (p.A *ᵥ (x + t • d)) i ≤ b
        rw [mulVec_line]
        have := hk t ht htr
        linarith
  have h2 : ∀ i, ∃ r : F, 0 < r ∧ ∀ t : F, 0 < t → t ≤ r → lower (p.l i) ((p.A *ᵥ (x + t • d)) i) := by
    intro i
    have hxi := (hx i).1
    cases hui : p.l i with
    | neg => exact ⟨1, one_pos, fun _ _ _ => trivial⟩
    | pos => rw [hui] at hxi; exact hxi.elim
    | fin b =>
      rw [hui] at hxi
      rcases eq_or_lt_of_le (show b ≤ (p.A *ᵥ x) i from hxi) with h | h
      · have := hl i (by rw [hui, ← h])
        refine ⟨1, one_pos, fun t ht _ => ?_⟩
        change b ≤ (p.A *ᵥ (x + t • d)) i
        rw [mulVec_line]
        have := mul_nonneg ht.le this
        linarith
      · obtain ⟨r, hr, hk⟩ := key ((p.A *ᵥ x) i - b) (-(p.A *ᵥ d) i) (by linarith)
        refine ⟨r, hr, fun t ht htr => ?_⟩
        change b ≤ (p.A *ᵥ (x + t • d)) i
        rw [mulVec_line]
        have := hk t ht htr
        linarith
  obtain ⟨r1, hr1, h1⟩ := exists_small _ h1
  obtain ⟨r2, hr2, h2⟩ := exists_small _ h2
  exact ⟨min r1 r2, lt_min hr1 hr2, fun t ht htr i =>
    ⟨h2 t ht (htr.trans (min_le_right _ _)) i, h1 t ht (htr.trans (min_le_left _ _)) i⟩⟩

theorem cost_line (hP : p.P.IsSymm) (x d : Fin n → F) (t : F) :
    cost p (x + t • d) = cost p x + t * ((p.P *ᵥ x + p.q) ⬝ᵥ d) + t ^ 2 / 2 * (d ⬝ᵥ p.P *ᵥ d) := by
  have e4 : x ⬝ᵥ p.P *ᵥ d = d ⬝ᵥ p.P *ᵥ x := by
    rw [dotProduct_comm, Matrix.dotProduct_mulVec, ← Matrix.mulVec_transpose, hP.eq, dotProduct_comm, dotProduct_comm]
  unfold cost
  rw [mulVec_add, mulVec_smul, dotProduct_add, add_dotProduct, add_dotProduct, dotProduct_add, add_dotProduct]
  simp only [smul_dotProduct, dotProduct_smul, smul_eq_mul]
  rw [e4, dotProduct_comm (p.P *ᵥ x) d]
  ring

/-- **Multipliers exist.** A minimiser of a quadratic program with linear constraints satisfies the KKT conditions with
some multipliers. Convexity is not needed. -/
theorem minimiser_kkt (hP : p.P.IsSymm) {x : Fin n → F} (h : Minimiser p x) : ∃ y, KKT p x y := by
  classical
  set g := p.P *ᵥ x + p.q with hg
  -- admissible directions do not decrease the cost
  have hdir : ∀ d, (∀ i, p.u i = .fin ((p.A *ᵥ x) i) → (p.A *ᵥ d) i ≤ 0) →
      (∀ i, p.l i = .fin ((p.A *ᵥ x) i) → 0 ≤ (p.A *ᵥ d) i) → 0 ≤ g ⬝ᵥ d := by
    intro d hu hl
    obtain ⟨r, hr, hfeas⟩ := feasible_line h.1 hu hl
    by_contra hc
    push Not at hc
    set c := d ⬝ᵥ p.P *ᵥ d with hcdef
    set t := min r (-(g ⬝ᵥ d) / (1 + |c|)) with ht
    have hpos : 0 < t := lt_min hr (div_pos (by linarith) (by positivity))
    have h1 := h.2 _ (hfeas t hpos (min_le_left _ _))
    rw [cost_line hP, ← hg, ← hcdef] at h1
    have h2 : t * (1 + |c|) ≤ -(g ⬝ᵥ d) := (le_div_iff₀ (by positivity)).1 (min_le_right _ _)
    have h3 : t * c ≤ t * |c| := mul_le_mul_of_nonneg_left (le_abs_self c) hpos.le
    have h4 : 0 ≤ t * (g ⬝ᵥ d + t / 2 * c) := by nlinarith
    have h5 : 0 ≤ g ⬝ᵥ d + t / 2 * c := by
      by_contra hneg
      push Not at hneg
      have := mul_neg_of_pos_of_neg hpos hneg
      linarith
    have h6 : 0 ≤ t * |c| := mul_nonneg hpos.le (abs_nonneg c)
    nlinarith
  obtain ⟨c, hc, hb⟩ := farkas_finset (F := F) (V := Fin n → F) (ι := Fin m ⊕ Fin m) Finset.univ
    (fun a => match a with
      | .inl i => if p.u i = .fin ((p.A *ᵥ x) i) then dotMap (p.A i) else 0
      | .inr i => if p.l i = .fin ((p.A *ᵥ x) i) then -dotMap (p.A i) else 0) (-dotMap g) (by
    intro d hd
    have := hdir d (fun i hi => by
      have := hd (.inl i) (Finset.mem_univ _)
      simp only [if_pos hi, dotMap_apply] at this
      exact this) (fun i hi => by
      have := hd (.inr i) (Finset.mem_univ _)
      simp only [if_pos hi, LinearMap.neg_apply, dotMap_apply] at this
      change 0 ≤ p.A i ⬝ᵥ d
      linarith)
    simp only [LinearMap.neg_apply, dotMap_apply]
    linarith)
  set lam : Fin m → F := fun i => if p.u i = .fin ((p.A *ᵥ x) i) then c (.inl i) else 0 with hlam
  set mu : Fin m → F := fun i => if p.l i = .fin ((p.A *ᵥ x) i) then c (.inr i) else 0 with hmu
  refine ⟨fun i => lam i - mu i, h.1, ?_, fun i => ⟨fun hi => ?_, fun hi => ?_⟩⟩
  · funext j
    have h1 := LinearMap.congr_fun hb (Pi.single j 1)
    rw [LinearMap.sum_apply, Fintype.sum_sum_type] at h1
    simp only [LinearMap.neg_apply, dotMap_apply, LinearMap.smul_apply, smul_eq_mul, dotProduct_single_one] at h1
    have e1 : ∀ i, c (.inl i) * (if p.u i = .fin ((p.A *ᵥ x) i) then dotMap (p.A i) else 0) (Pi.single j 1) = p.A i j * lam i := by
      intro i
      rw [hlam]
      dsimp only
      split_ifs
      · rw [dotMap_apply, dotProduct_single_one, mul_comm]
      · simp
    have e2 : ∀ i, c (.inr i) * (if p.l i = .fin ((p.A *ᵥ x) i) then -dotMap (p.A i) else 0) (Pi.single j 1) = -(p.A i j * mu i) := by
      intro i
      rw [hmu]
      dsimp only
      split_ifs
      · rw [LinearMap.neg_apply, dotMap_apply, dotProduct_single_one]; ring
      · simp
    simp only [e1, e2] at h1
    have e3 : (p.Aᵀ *ᵥ fun i => lam i - mu i) j = ∑ i, p.A i j * lam i + ∑ i, -(p.A i j * mu i) := by
      rw [← Finset.sum_add_distrib]
      simp only [mulVec, dotProduct, transpose_apply]
      exact Finset.sum_congr rfl fun i _ => by ring
    have e4 : (p.P *ᵥ x + p.q + p.Aᵀ *ᵥ fun i => lam i - mu i) j = g j + (p.Aᵀ *ᵥ fun i => lam i - mu i) j := rfl
    rw [e4, e3, ← h1, Pi.zero_apply]
    ring
  · by_contra hn
    have h1 : lam i = 0 := by simp only [hlam]; rw [if_neg hn]
    have h2 : 0 ≤ mu i := by simp only [hmu]; split_ifs; exacts [hc _, le_rfl]
    linarith
  · by_contra hn
    have h1 : mu i = 0 := by simp only [hmu]; rw [if_neg hn]
    have h2 : 0 ≤ lam i := by simp only [hlam]; split_ifs; exacts [hc _, le_rfl]
    linarith

/-- Multiples of a bound that is there. -/
def bMul (c : F) : Ext F → F
  | .fin b => c * b
  | _ => 0

/-- **Certificates exist.** If the box is not empty and no point is feasible, there is a Farkas certificate. -/
theorem infeasible_farkas {w : Fin m → F} (hw : InBox p w) (h : ∀ x, ¬ Feasible p x) : ∃ f, Farkas p f := by
  classical
  set ev : Fin m → ((Fin n → F) × F) →ₗ[F] F := fun i => (dotMap (p.A i)).comp (LinearMap.fst F (Fin n → F) F) with hev
  set tm : ((Fin n → F) × F) →ₗ[F] F := LinearMap.snd F (Fin n → F) F with htm
  obtain ⟨c, hc, hb⟩ := farkas_finset (F := F) (V := (Fin n → F) × F) (ι := Fin m ⊕ Fin m) Finset.univ
    (fun a => match a with
      | .inl i => (match p.u i with | .fin b => ev i - b • tm | _ => 0)
      | .inr i => (match p.l i with | .fin b => b • tm - ev i | _ => 0)) tm (by
    rintro ⟨x, t⟩ hx
    by_contra ht
    have ht : 0 < t := not_le.1 ht
    refine h (t⁻¹ • x) fun i => ⟨?_, ?_⟩
    · have hwi := (hw i).1
      have h1 := hx (.inr i) (Finset.mem_univ _)
      cases hl : p.l i with
      | neg => trivial
      | pos => rw [hl] at hwi; exact hwi.elim
      | fin a =>
        simp only [hl, hev, htm, LinearMap.sub_apply, LinearMap.smul_apply, LinearMap.snd_apply, LinearMap.comp_apply,
          LinearMap.fst_apply, dotMap_apply, smul_eq_mul] at h1
        change a ≤ (p.A *ᵥ (t⁻¹ • x)) i
        rw [mulVec_smul, Pi.smul_apply, smul_eq_mul, le_inv_mul_iff₀ ht]
        change t * a ≤ p.A i ⬝ᵥ x
        linarith
    · have hwi := (hw i).2
      have h1 := hx (.inl i) (Finset.mem_univ _)
      cases hl : p.u i with
      | pos => trivial
      | neg => rw [hl] at hwi; exact hwi.elim
      | fin a =>
        simp only [hl, hev, htm, LinearMap.sub_apply, LinearMap.smul_apply, LinearMap.snd_apply, LinearMap.comp_apply,
          LinearMap.fst_apply, dotMap_apply, smul_eq_mul] at h1
        change (p.A *ᵥ (t⁻¹ • x)) i ≤ a
        rw [mulVec_smul, Pi.smul_apply, smul_eq_mul, inv_mul_le_iff₀ ht]
        change p.A i ⬝ᵥ x ≤ t * a
        linarith)
  set lam : Fin m → F := fun i => match p.u i with | .fin _ => c (.inl i) | _ => 0 with hlam
  set mu : Fin m → F := fun i => match p.l i with | .fin _ => c (.inr i) | _ => 0 with hmu
  have hlam0 : ∀ i, 0 ≤ lam i := fun i => by simp only [hlam]; cases p.u i <;> first | exact le_rfl | exact hc _
  have hmu0 : ∀ i, 0 ≤ mu i := fun i => by simp only [hmu]; cases p.l i <;> first | exact le_rfl | exact hc _
  have hval : ∀ x t, t = ∑ i, (lam i * (p.A i ⬝ᵥ x) - bMul (lam i) (p.u i) * t) +
      ∑ i, (bMul (mu i) (p.l i) * t - mu i * (p.A i ⬝ᵥ x)) := by
    intro x t
    have h1 := LinearMap.congr_fun hb (x, t)
    rw [LinearMap.sum_apply, Fintype.sum_sum_type] at h1
    simp only [htm, LinearMap.snd_apply, LinearMap.smul_apply, smul_eq_mul] at h1
    refine h1.trans ?_
    congr 1
    · refine Finset.sum_congr rfl fun i _ => ?_
      simp only [hlam, hev]
      cases p.u i <;> simp [bMul]
      ring
    · refine Finset.sum_congr rfl fun i _ => ?_
      simp only [hmu, hev]
      cases p.l i <;> simp [bMul]
      ring
  refine ⟨fun i => lam i - mu i, ?_, ?_, fun i => ⟨fun hi => ?_, fun hi => ?_⟩⟩
  · funext j
    have h1 := hval (Pi.single j 1) 0
    simp only [mul_zero, sub_zero, zero_sub, dotProduct_single_one] at h1
    rw [← Finset.sum_add_distrib] at h1
    rw [Pi.zero_apply, h1]
    simp only [mulVec, dotProduct, transpose_apply]
    exact Finset.sum_congr rfl fun i _ => by ring
  · have h1 := hval 0 1
    simp only [dotProduct_zero, mul_zero, zero_sub, mul_one, sub_zero] at h1
    rw [← Finset.sum_add_distrib] at h1
    have h2 : support p (fun i => lam i - mu i) ≤ ∑ i, (bMul (lam i) (p.u i) - bMul (mu i) (p.l i)) := by
      unfold support
      refine Finset.sum_le_sum fun i _ => ?_
      have hl0 := hlam0 i
      have hm0 := hmu0 i
      have hwi := hw i
      cases hu : p.u i with
      | neg => rw [hu] at hwi; exact hwi.2.elim
      | pos =>
        have hl0 : lam i = 0 := by simp only [hlam, hu]
        cases hl : p.l i with
        | neg =>
          have hm0 : mu i = 0 := by simp only [hmu, hl]
          simp [bMul]
        | pos => rw [hl] at hwi; exact hwi.1.elim
        | fin a =>
          simp only [bMul, hl0]
          rw [zero_sub, min_eq_right (by linarith)]
          linarith [mul_comm a (mu i)]
      | fin b =>
        cases hl : p.l i with
        | neg =>
          have hm0 : mu i = 0 := by simp only [hmu, hl]
          simp only [bMul, hm0]
          rw [sub_zero, max_eq_right hl0]
          linarith [mul_comm b (lam i)]
        | pos => rw [hl] at hwi; exact hwi.1.elim
        | fin a =>
          rw [hu, hl] at hwi
          have hab : a ≤ b := le_trans (show a ≤ w i from hwi.1) hwi.2
          simp only [bMul]
          rcases le_total (mu i) (lam i) with hml | hml
          · rw [max_eq_right (by linarith), min_eq_left (by linarith)]
            nlinarith
          · rw [max_eq_left (by linarith), min_eq_right (by linarith)]
            nlinarith
    have h3 : ∑ i, (bMul (lam i) (p.u i) - bMul (mu i) (p.l i)) = -1 := by
      rw [h1, ← Finset.sum_neg_distrib]
      exact Finset.sum_congr rfl fun i _ => by ring
    linarith
  · have : lam i = 0 := by simp only [hlam, hi]
    have := hmu0 i
    change lam i - mu i ≤ 0
    linarith
  · have : mu i = 0 := by simp only [hmu, hi]
    have := hlam0 i
    change 0 ≤ lam i - mu i
    linarith

end Verif.QP
