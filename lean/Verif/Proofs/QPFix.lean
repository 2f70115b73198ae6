import Verif.Proofs.QPCert

/-! # QP solver: fixed points of the iteration, scaling -/

set_option linter.unusedSectionVars false

namespace Verif.QP

open Matrix Verif.QPSpec

variable {F : Type*} [Field F] [LinearOrder F] [IsStrictOrderedRing F] {n m : ℕ}

/-- Assumption on Eigen's LDLT: when it reports success, its solve function solves the symmetric system given by the
upper triangle (exact arithmetic, nonsingular matrix). -/
def LdltOk (env : Env F n) : Prop :=
  ∀ k H slv, env.factor k H = some slv → ∀ b, symUpper H *ᵥ slv b = b

theorem kkt_mulVec_inl {sigma : F} {p : Pbm F n m} {s : Scaling F n m} {rho : Fin m → F} (hP : p.P.IsSymm)
    (v : Fin n ⊕ Fin m → F) (j : Fin n) :
    (symUpper (kkt sigma p s rho) *ᵥ v) (.inl j) =
      s.c * s.sx j * (p.P *ᵥ (s.unX fun i => v (.inl i))) j + sigma * v (.inl j)
        + s.sx j * (p.Aᵀ *ᵥ fun i => s.sy i * v (.inr i)) j := by
  simp only [Matrix.mulVec, dotProduct, Fintype.sum_sum_type, symUpper, kkt, Scaling.unX]
  congr 1
  · have : ∀ i : Fin n, (if j ≤ i then s.c * s.sx j * p.P j i * s.sx i + (if j = i then sigma else 0)
        else s.c * s.sx i * p.P i j * s.sx j + (if i = j then sigma else 0)) * v (.inl i) =
        s.c * s.sx j * (p.P j i * (s.sx i * v (.inl i))) + (if i = j then sigma * v (.inl i) else 0) := by
      intro i
      rw [hP.apply]
      by_cases h : i = j
      · subst h; simp; ring
      · have h' : ¬ j = i := fun e => h e.symm
        simp only [h, h', if_false]
        split <;> ring
    rw [Finset.sum_congr rfl fun i _ => this i, Finset.sum_add_distrib, ← Finset.mul_sum]
    simp
  · rw [Finset.mul_sum]
    refine Finset.sum_congr rfl fun i _ => ?_
    rw [Matrix.transpose_apply]; ring

theorem kkt_mulVec_inr {sigma : F} {p : Pbm F n m} {s : Scaling F n m} {rho : Fin m → F}
    (v : Fin n ⊕ Fin m → F) (i : Fin m) :
    (symUpper (kkt sigma p s rho) *ᵥ v) (.inr i) =
      s.sy i * (p.A *ᵥ (s.unX fun i => v (.inl i))) i - (rho i)⁻¹ * v (.inr i) := by
  simp only [Matrix.mulVec, dotProduct, Fintype.sum_sum_type, symUpper, kkt, Scaling.unX]
  rw [sub_eq_add_neg]
  congr 1
  · rw [Finset.mul_sum]
    refine Finset.sum_congr rfl fun i _ => by ring
  · have : ∀ k : Fin m, (if i ≤ k then (if i = k then (-rho i)⁻¹ else 0) else (if k = i then (-rho k)⁻¹ else 0)) * v (.inr k) =
        (if k = i then -((rho i)⁻¹ * v (.inr i)) else 0) := by
      intro k
      by_cases h : k = i
      · subst h; simp [inv_neg]
      · have h' : ¬ i = k := fun e => h e.symm
        simp [h, h']
    rw [Finset.sum_congr rfl fun k _ => this k]
    simp

/-- The system matrix of a convex problem is nonsingular. -/
theorem kkt_injective {sigma : F} {p : Pbm F n m} {s : Scaling F n m} {rho : Fin m → F} (hP : Lin.PSD p.P)
    (hs : s.Pos) (hsig : 0 < sigma) (hr : ∀ i, 0 < rho i) {v w : Fin n ⊕ Fin m → F}
    (h : symUpper (kkt sigma p s rho) *ᵥ v = symUpper (kkt sigma p s rho) *ᵥ w) : v = w := by
  have h0 : symUpper (kkt sigma p s rho) *ᵥ (v - w) = 0 := by rw [Matrix.mulVec_sub, h, sub_self]
  suffices hz : v - w = 0 by exact sub_eq_zero.1 hz
  generalize v - w = d at h0
  have h1 : ∀ j, s.c * s.sx j * (p.P *ᵥ (s.unX fun i => d (.inl i))) j + sigma * d (.inl j)
        + s.sx j * (p.Aᵀ *ᵥ fun i => s.sy i * d (.inr i)) j = 0 := fun j => by
    rw [← kkt_mulVec_inl (rho := rho) hP.1, h0]; rfl
  have h2 : ∀ i, s.sy i * (p.A *ᵥ (s.unX fun i => d (.inl i))) i - (rho i)⁻¹ * d (.inr i) = 0 := fun i => by
    rw [← kkt_mulVec_inr (sigma := sigma), h0]; rfl
  set X := s.unX fun i => d (.inl i) with hX
  have e1 : ∑ j, d (.inl j) * (s.c * s.sx j * (p.P *ᵥ X) j + sigma * d (.inl j)
        + s.sx j * (p.Aᵀ *ᵥ fun i => s.sy i * d (.inr i)) j) = 0 := by
    refine Finset.sum_eq_zero fun j _ => by rw [h1]; ring
  have e2 : ∑ j, d (.inl j) * (s.sx j * (p.Aᵀ *ᵥ fun i => s.sy i * d (.inr i)) j) = ∑ i, (rho i)⁻¹ * d (.inr i) ^ 2 := by
    have : ∑ j, d (.inl j) * (s.sx j * (p.Aᵀ *ᵥ fun i => s.sy i * d (.inr i)) j) =
        X ⬝ᵥ (p.Aᵀ *ᵥ fun i => s.sy i * d (.inr i)) := by
      simp only [dotProduct, hX, Scaling.unX]
      refine Finset.sum_congr rfl fun j _ => by ring
    rw [this, Matrix.mulVec_transpose, dotProduct_comm, ← Matrix.dotProduct_mulVec]
    simp only [dotProduct]
    refine Finset.sum_congr rfl fun i _ => ?_
    have := h2 i
    have : s.sy i * (p.A *ᵥ X) i = (rho i)⁻¹ * d (.inr i) := by linarith
    calc s.sy i * d (.inr i) * (p.A *ᵥ X) i = (s.sy i * (p.A *ᵥ X) i) * d (.inr i) := by ring
      _ = _ := by rw [this]; ring
  have e3 : ∑ j, d (.inl j) * (s.c * s.sx j * (p.P *ᵥ X) j) = s.c * (X ⬝ᵥ p.P *ᵥ X) := by
    simp only [dotProduct, hX, Scaling.unX]
    rw [Finset.mul_sum]
    refine Finset.sum_congr rfl fun j _ => by ring
  have e4 : s.c * (X ⬝ᵥ p.P *ᵥ X) + ∑ j, sigma * d (.inl j) ^ 2 + ∑ i, (rho i)⁻¹ * d (.inr i) ^ 2 = 0 := by
    rw [← e1, ← e2, ← e3, ← Finset.sum_add_distrib, ← Finset.sum_add_distrib]
    refine Finset.sum_congr rfl fun j _ => by ring
  have p1 : 0 ≤ s.c * (X ⬝ᵥ p.P *ᵥ X) := mul_nonneg hs.1.le (hP.2 X)
  have p2 : ∀ j, 0 ≤ sigma * d (.inl j) ^ 2 := fun j => mul_nonneg hsig.le (sq_nonneg _)
  have p3 : ∀ i, 0 ≤ (rho i)⁻¹ * d (.inr i) ^ 2 := fun i => mul_nonneg (inv_pos.2 (hr i)).le (sq_nonneg _)
  have q2 := Finset.sum_nonneg fun j (_ : j ∈ Finset.univ) => p2 j
  have q3 := Finset.sum_nonneg fun i (_ : i ∈ Finset.univ) => p3 i
  have z2 : ∑ j, sigma * d (.inl j) ^ 2 = 0 := by linarith
  have z3 : ∑ i, (rho i)⁻¹ * d (.inr i) ^ 2 = 0 := by linarith
  have w2 := (Finset.sum_eq_zero_iff_of_nonneg fun j _ => p2 j).1 z2
  have w3 := (Finset.sum_eq_zero_iff_of_nonneg fun i _ => p3 i).1 z3
  funext a
  cases a with
  | inl j =>
    have := w2 j (Finset.mem_univ _)
    rcases mul_eq_zero.1 this with h | h
    · exact absurd h hsig.ne'
    · exact pow_eq_zero_iff (two_ne_zero) |>.1 h
  | inr i =>
    have := w3 i (Finset.mem_univ _)
    rcases mul_eq_zero.1 this with h | h
    · exact absurd h (inv_pos.2 (hr i)).ne'
    · exact pow_eq_zero_iff (two_ne_zero) |>.1 h

/-- A point of the box satisfies no trivially-empty test. -/
theorem rowOk_of_mem {l u : Ext F} {a : F} (h1 : lower l a) (h2 : upper u a) : RowOk l u := by
  cases l <;> cases u <;> simp only [RowOk, emptyRow, lower, upper, decide_eq_false_iff_not, not_lt, sub_nonneg] at *
  exact h1.trans h2

theorem precheck_of_feasible {p : Pbm F n m} {w : Fin m → F} (h : InBox p w) : precheck p = none := by
  unfold precheck
  rw [if_neg]
  intro hc
  obtain ⟨i, -, hi⟩ := List.any_eq_true.1 hc
  have := rowOk_of_mem (h i).1 (h i).2
  rw [RowOk] at this
  rw [this] at hi; cases hi

/-- The projection fixes a point of the box plus complementary multiplier. -/
theorem proj_fix {l u : Ext F} {s a d : F} (hs : 0 < s) (h1 : lower l a) (h2 : upper u a)
    (h3 : 0 < d → u = .fin a) (h4 : d < 0 → l = .fin a) :
    minE (maxE (d + s * a) (l.scale s)) (u.scale s) = s * a := by
  rcases lt_trichotomy d 0 with hd | hd | hd
  · have := h4 hd
    subst this
    have e : maxE (d + s * a) ((Ext.fin a).scale s) = s * a := by
      simp only [maxE, Ext.scale]; exact max_eq_right (by linarith)
    rw [e]
    cases u with
    | neg => exact absurd h2 (by simp [upper])
    | pos => rfl
    | fin b => simp only [minE, Ext.scale]; exact min_eq_left (mul_le_mul_of_nonneg_left h2 hs.le)
  · subst hd
    rw [zero_add]
    have e : maxE (s * a) (l.scale s) = s * a := by
      cases l with
      | neg => rfl
      | pos => rfl
      | fin b => simp only [maxE, Ext.scale]; exact max_eq_left (mul_le_mul_of_nonneg_left h1 hs.le)
    rw [e]
    cases u with
    | neg => rfl
    | pos => rfl
    | fin b => simp only [minE, Ext.scale]; exact min_eq_left (mul_le_mul_of_nonneg_left h2 hs.le)
  · have := h3 hd
    subst this
    have e : s * a ≤ maxE (d + s * a) (l.scale s) := by
      cases l with
      | neg => simp only [maxE, Ext.scale]; linarith
      | pos => simp only [maxE, Ext.scale]; linarith
      | fin b => simp only [maxE, Ext.scale]; exact le_trans (by linarith) (le_max_left _ _)
    simp only [minE, Ext.scale]; exact min_eq_right e

/-- Scaling of a warm start. -/
theorem start_unX {p : Pbm F n m} {s : Scaling F n m} (hs : s.Pos) (x : Fin n → F) (y : Fin m → F) :
    s.unX (start p s (some (x, y))).x = x := by
  funext j; simp only [Scaling.unX, start]; rw [mul_inv_cancel_left₀ (hs.2.1 j).ne']

theorem start_unY {p : Pbm F n m} {s : Scaling F n m} (hs : s.Pos) (x : Fin n → F) (y : Fin m → F) :
    s.unY (start p s (some (x, y))).y = y := by
  funext i; simp only [Scaling.unY, start]
  have := hs.1.ne'
  have := (hs.2.2 i).ne'
  field_simp

theorem start_unZ {p : Pbm F n m} {s : Scaling F n m} (hs : s.Pos) (x : Fin n → F) (y : Fin m → F) :
    s.unZ (start p s (some (x, y))).z = p.A *ᵥ x := by
  funext i; simp only [Scaling.unZ, start]; rw [inv_mul_cancel_left₀ (hs.2.2 i).ne']

/-- An exact KKT pair, scaled, is a fixed point of the step. -/
theorem step_fix {alpha sigma : F} {p : Pbm F n m} {s : Scaling F n m} {rho : Fin m → F}
    {slv : (Fin n ⊕ Fin m → F) → (Fin n ⊕ Fin m → F)} (hP : Lin.PSD p.P) (hs : s.Pos) (hsig : 0 < sigma)
    (hr : ∀ i, 0 < rho i) (hslv : ∀ b, symUpper (kkt sigma p s rho) *ᵥ slv b = b)
    {x : Fin n → F} {y : Fin m → F} (h : KKT p x y) :
    step alpha sigma p s rho slv (start p s (some (x, y))) = start p s (some (x, y)) := by
  have hsol : slv (Sum.elim (fun j => sigma * (start p s (some (x, y))).x j - s.c * s.sx j * p.q j)
      (fun i => (start p s (some (x, y))).z i - (rho i)⁻¹ * (start p s (some (x, y))).y i)) =
      Sum.elim (start p s (some (x, y))).x (start p s (some (x, y))).y := by
    refine kkt_injective hP hs hsig hr (rho := rho) (sigma := sigma) ?_
    rw [hslv]
    funext a
    cases a with
    | inl j =>
      rw [kkt_mulVec_inl hP.1]
      simp only [Sum.elim_inl, Sum.elim_inr]
      rw [start_unX hs]
      have e : (fun i => s.sy i * (start p s (some (x, y))).y i) = s.c • y := by
        funext i
        simp only [start, Pi.smul_apply, smul_eq_mul]
        have := (hs.2.2 i).ne'
        field_simp
      rw [e, Matrix.mulVec_smul]
      have := congrFun h.2.1 j
      simp only [Pi.add_apply, Pi.zero_apply] at this
      have hq : p.q j = -(p.P *ᵥ x) j - (p.Aᵀ *ᵥ y) j := by linarith
      rw [hq]
      simp only [Pi.smul_apply, smul_eq_mul]
      ring
    | inr i =>
      rw [kkt_mulVec_inr]
      simp only [Sum.elim_inl, Sum.elim_inr]
      rw [start_unX hs]
      rfl
  have hz : ∀ i, minE (maxE (alpha * ((rho i)⁻¹ * (start p s (some (x, y))).y i)
      + (1 - alpha) * ((rho i)⁻¹ * (start p s (some (x, y))).y i) + (start p s (some (x, y))).z i)
      ((p.l i).scale (s.sy i))) ((p.u i).scale (s.sy i)) = (start p s (some (x, y))).z i := by
    intro i
    have e : alpha * ((rho i)⁻¹ * (start p s (some (x, y))).y i)
      + (1 - alpha) * ((rho i)⁻¹ * (start p s (some (x, y))).y i) + (start p s (some (x, y))).z i =
      ((rho i)⁻¹ * (s.c * (s.sy i)⁻¹)) * y i + s.sy i * (p.A *ᵥ x) i := by
      simp only [start]; ring
    rw [e]
    have hpos : 0 < (rho i)⁻¹ * (s.c * (s.sy i)⁻¹) :=
      mul_pos (inv_pos.2 (hr i)) (mul_pos hs.1 (inv_pos.2 (hs.2.2 i)))
    refine proj_fix (hs.2.2 i) (h.1 i).1 (h.1 i).2 ?_ ?_
    · intro hd
      exact (h.2.2 i).1 (pos_of_mul_pos_right hd hpos.le)
    · intro hd
      refine (h.2.2 i).2 ?_
      by_contra hcon
      have := mul_nonneg hpos.le (not_lt.1 hcon)
      linarith
  unfold step
  simp only
  rw [hsol]
  simp only [Sum.elim_inl, Sum.elim_inr]
  simp only [hz]
  generalize start p s (some (x, y)) = it
  cases it with
  | mk a b c =>
    simp only [It.mk.injEq, and_true]
    constructor
    · funext j; ring
    · funext i; ring

/-- A fixed point of the step is an exact KKT pair. -/
theorem fix_kkt {alpha sigma : F} {p : Pbm F n m} {s : Scaling F n m} {rho : Fin m → F}
    {slv : (Fin n ⊕ Fin m → F) → (Fin n ⊕ Fin m → F)} (hP : p.P.IsSymm) (hs : s.Pos) (ha : alpha ≠ 0)
    (hrow : ∀ i, RowOk (p.l i) (p.u i))
    (hr : ∀ i, 0 < rho i) (hslv : ∀ b, symUpper (kkt sigma p s rho) *ᵥ slv b = b)
    {it : It F n m} (h : step alpha sigma p s rho slv it = it) : KKT p (s.unX it.x) (s.unY it.y) := by
  have hbox := step_box (alpha := alpha) (sigma := sigma) (slv := slv) hrow hs.2.2 hs.1 hr it
  rw [h] at hbox
  set b := Sum.elim (fun j => sigma * it.x j - s.c * s.sx j * p.q j) (fun i => it.z i - (rho i)⁻¹ * it.y i) with hb
  have hx : ∀ j, slv b (.inl j) = it.x j := by
    intro j
    have := congrFun (congrArg It.x h) j
    simp only [step] at this
    rw [← hb] at this
    have h2 : alpha * (slv b (.inl j) - it.x j) = 0 := by linear_combination this
    rcases mul_eq_zero.1 h2 with h3 | h3
    · exact absurd h3 ha
    · linarith
  have hy : ∀ i, slv b (.inr i) = it.y i := by
    intro i
    have h1 := congrFun (congrArg It.z h) i
    have := congrFun (congrArg It.y h) i
    simp only [step] at this h1
    rw [← hb] at this h1
    rw [h1] at this
    have h2 : alpha * (slv b (.inr i) - it.y i) = 0 := by linear_combination this
    rcases mul_eq_zero.1 h2 with h3 | h3
    · exact absurd h3 ha
    · linarith
  have hz : s.unZ it.z = p.A *ᵥ s.unX it.x := by
    funext i
    have h1 := congrFun (hslv b) (.inr i)
    rw [kkt_mulVec_inr, hy] at h1
    simp only [hx] at h1
    simp only [hb, Sum.elim_inr] at h1
    have : s.sy i * (p.A *ᵥ s.unX it.x) i = it.z i := by
      have : (fun i => it.x i) = it.x := rfl
      rw [this] at h1
      linarith
    simp only [Scaling.unZ]
    rw [← this, inv_mul_cancel_left₀ (hs.2.2 i).ne']
  rw [hz] at hbox
  refine ⟨hbox.1, ?_, hbox.2⟩
  funext j
  have h1 := congrFun (hslv b) (.inl j)
  rw [kkt_mulVec_inl hP] at h1
  simp only [hx, hy] at h1
  simp only [hb, Sum.elim_inl] at h1
  have e : (fun i => s.sy i * it.y i) = s.c • s.unY it.y := by
    funext i
    simp only [Scaling.unY, Pi.smul_apply, smul_eq_mul]
    have := hs.1.ne'
    field_simp
  rw [e, Matrix.mulVec_smul] at h1
  have e2 : (fun i => it.x i) = it.x := rfl
  rw [e2] at h1
  simp only [Pi.smul_apply, smul_eq_mul] at h1
  have h2 : s.c * s.sx j * ((p.P *ᵥ s.unX it.x) j + p.q j + (p.Aᵀ *ᵥ s.unY it.y) j) = 0 := by linear_combination h1
  rcases mul_eq_zero.1 h2 with h3 | h3
  · rcases mul_eq_zero.1 h3 with h4 | h4
    · exact absurd h4 hs.1.ne'
    · exact absurd h4 (hs.2.1 j).ne'
  · exact h3

end Verif.QP
