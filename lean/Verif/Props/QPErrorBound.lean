import Verif.Proofs.KKTBound
import Verif.Props.QPDuality

/-!
# How far an answer is from an exact solution (C111)

The certificate of C01 says that an `Optimal` answer satisfies the optimality conditions to tolerance. Here: it then lies within a multiple of the
tolerance of a point that satisfies them exactly. The factor depends on the matrices `P` and `A` only.
-/

set_option linter.unusedSectionVars false

namespace Verif.QP

open Matrix Verif.QPSpec Filter Topology

section

variable {F : Type*} [Field F] [LinearOrder F] [IsStrictOrderedRing F] {n m : ℕ}

/-- `B` bounds the entries of the vectors that the relative tolerance refers to. -/
def Magnitude (p : Pbm F n m) (x : Fin n → F) (y : Fin m → F) (B : F) : Prop :=
  0 ≤ B ∧ (∀ i, |(p.A *ᵥ x) i| ≤ B) ∧ (∀ j, |(p.P *ᵥ x) j| ≤ B) ∧ (∀ j, |p.q j| ≤ B) ∧ ∀ j, |(p.Aᵀ *ᵥ y) j| ≤ B

theorem IsMaxNorm.le {k : ℕ} {v : Fin k → F} {r B : F} (h : IsMaxNorm v r) (hB : 0 ≤ B) (hv : ∀ i, |v i| ≤ B) : r ≤ B := by
  rcases h.2.2 with h | ⟨i, h⟩
  · rw [h]; exact hB
  · rw [h]; exact hv i

/-- The residuals of an approximate solution. -/
theorem approx_residual {p : Pbm F n m} {ea er B : F} {x : Fin n → F} {y : Fin m → F} (h : ApproxKKT p ea er x y) (ha : 0 ≤ ea) (hr : 0 ≤ er)
    (hr' : er ≤ 1 / 2) (hB : Magnitude p x y B) : ∃ z, InBox p z ∧ Complementary p z y ∧ (∀ i, |(p.A *ᵥ x) i - z i| ≤ 2 * (ea + er * B)) ∧
      ∀ j, |(p.P *ᵥ x) j + p.q j + (p.Aᵀ *ᵥ y) j| ≤ 2 * (ea + er * B) := by
  obtain ⟨z, rp, rd, hz, hc, ⟨a, b, c, h1, h2, h3, e1⟩, hp, ⟨a', b', c', h1', h2', h3', e2⟩, hd⟩ := h
  obtain ⟨hB0, k1, k2, k3, k4⟩ := hB
  have g1 := IsMaxNorm.le h1 hB0 k1
  have hrB := mul_nonneg hr hB0
  have hrp0 : 0 ≤ rp := by
    rw [e1]
    exact add_nonneg ha (mul_nonneg hr (le_trans h1.1 (le_trans (le_max_left _ _) (le_max_left _ _))))
  have hzB : ∀ i, |z i| ≤ B + rp := fun i => by
    have := hp i
    have h4 := k1 i
    have h5 : |z i| ≤ |(p.A *ᵥ x) i| + |(p.A *ᵥ x) i - z i| := by
      calc |z i| = |(p.A *ᵥ x) i - ((p.A *ᵥ x) i - z i)| := by ring_nf
        _ ≤ _ := abs_sub _ _
    linarith
  have g2 := IsMaxNorm.le h2 (add_nonneg hB0 hrp0) hzB
  have g3 := IsMaxNorm.le h3 (add_nonneg hB0 hrp0) hzB
  have hrp : rp ≤ 2 * (ea + er * B) := by
    have h4 : max (max a b) c ≤ B + rp := max_le (max_le (by linarith) g2) g3
    have h5 := mul_le_mul_of_nonneg_left h4 hr
    have h6 := mul_le_mul_of_nonneg_right hr' hrp0
    have e3 : er * (B + rp) = er * B + er * rp := by ring
    linarith
  have hrd : rd ≤ 2 * (ea + er * B) := by
    have h4 : max (max a' b') c' ≤ B := max_le (max_le (IsMaxNorm.le h1' hB0 k2) (IsMaxNorm.le h2' hB0 k3)) (IsMaxNorm.le h3' hB0 k4)
    have h5 := mul_le_mul_of_nonneg_left h4 hr
    linarith
  exact ⟨z, hz, hc, fun i => le_trans (hp i) hrp, fun j => le_trans (hd j) hrd⟩

/-- **C111.** For all matrices `P`, `A` there is a constant `C`, and for all `q`, `l`, `u` a threshold: an `Optimal` answer without polishing, of any
run with tolerances below the threshold (the relative one counted with the magnitude of the vectors it refers to), is within `C` times the tolerance of
an exact solution of the optimality conditions, which is a global minimiser with its multipliers if the program is convex. Nothing is assumed about the
warm start, the linear solver, the number of iterations or the other parameters. -/
theorem qp_error_bound (P : Matrix (Fin n) (Fin n) F) (A : Matrix (Fin m) (Fin n) F) : ∃ C : F, 0 ≤ C ∧ ∀ (q : Fin n → F) (l u : Fin m → Ext F),
    ∃ e0 : F, 0 < e0 ∧ ∀ (env : Env F n) (prm : Params F) (ws : Option ((Fin n → F) × (Fin m → F))) (fuel : ℕ) (sol : Sol F n m) (B : F),
      SqrtPos env → 0 < prm.rho → prm.polish = false → 0 ≤ prm.epsAbs → 0 ≤ prm.epsRel → prm.epsRel ≤ 1 / 2 →
      solveQP env prm ⟨P, q, A, l, u⟩ ws fuel = .ok sol → sol.code = .optimal → Magnitude ⟨P, q, A, l, u⟩ sol.primal sol.dual B →
      prm.epsAbs + prm.epsRel * B ≤ e0 →
      ∃ x y, KKT ⟨P, q, A, l, u⟩ x y ∧ (Lin.PSD P → Minimiser ⟨P, q, A, l, u⟩ x) ∧
        (∀ j, |x j - sol.primal j| ≤ C * (prm.epsAbs + prm.epsRel * B)) ∧ ∀ i, |y i - sol.dual i| ≤ C * (prm.epsAbs + prm.epsRel * B) := by
  obtain ⟨C, hC, hmain⟩ := kkt_error_bound P A
  refine ⟨C * 2, mul_nonneg hC zero_le_two, fun q l u => ?_⟩
  obtain ⟨e0, he0, hb⟩ := hmain q l u
  refine ⟨e0 / 2, by linarith, fun env prm ws fuel sol B hsq hrho hpol ha hr hr' hsol hopt hB hle => ?_⟩
  obtain ⟨hk, -⟩ := qp_optimal_certificate hsq hrho hpol hsol hopt
  obtain ⟨z, hz, hc, hp, hd⟩ := approx_residual hk ha hr hr' hB
  have h0 : 0 ≤ prm.epsAbs + prm.epsRel * B := add_nonneg ha (mul_nonneg hr hB.1)
  obtain ⟨x, y, h1, h2, h3⟩ := hb sol.primal sol.dual z _ (mul_nonneg zero_le_two h0) (by linarith) hz hc hp hd
  exact ⟨x, y, h1, fun hP => kkt_minimiser hP h1, fun j => by rw [mul_assoc]; exact h2 j, fun i => by rw [mul_assoc]; exact h3 i⟩

/-- **C111, absolute tolerance.** With relative tolerance zero no magnitude is needed. -/
theorem qp_error_bound_abs (P : Matrix (Fin n) (Fin n) F) (A : Matrix (Fin m) (Fin n) F) : ∃ C : F, 0 ≤ C ∧ ∀ (q : Fin n → F) (l u : Fin m → Ext F),
    ∃ e0 : F, 0 < e0 ∧ ∀ (env : Env F n) (prm : Params F) (ws : Option ((Fin n → F) × (Fin m → F))) (fuel : ℕ) (sol : Sol F n m),
      SqrtPos env → 0 < prm.rho → prm.polish = false → 0 ≤ prm.epsAbs → prm.epsRel = 0 → prm.epsAbs ≤ e0 →
      solveQP env prm ⟨P, q, A, l, u⟩ ws fuel = .ok sol → sol.code = .optimal →
      ∃ x y, KKT ⟨P, q, A, l, u⟩ x y ∧ (Lin.PSD P → Minimiser ⟨P, q, A, l, u⟩ x) ∧
        (∀ j, |x j - sol.primal j| ≤ C * prm.epsAbs) ∧ ∀ i, |y i - sol.dual i| ≤ C * prm.epsAbs := by
  obtain ⟨C, hC, hmain⟩ := qp_error_bound P A
  refine ⟨C, hC, fun q l u => ?_⟩
  obtain ⟨e0, he0, hb⟩ := hmain q l u
  refine ⟨e0, he0, fun env prm ws fuel sol hsq hrho hpol ha hr hle hsol hopt => ?_⟩
  have hs : ∀ {k : ℕ} (v : Fin k → F) (i : Fin k), |v i| ≤ ∑ j, |v j| := fun v i =>
    Finset.single_le_sum (f := fun i => |v i|) (fun i _ => abs_nonneg _) (Finset.mem_univ i)
  have hn : ∀ {k : ℕ} (v : Fin k → F), 0 ≤ ∑ j, |v j| := fun v => Finset.sum_nonneg fun i _ => abs_nonneg _
  have := hb env prm ws fuel sol (∑ i, |(A *ᵥ sol.primal) i| + ∑ j, |(P *ᵥ sol.primal) j| + ∑ j, |q j| + ∑ j, |(Aᵀ *ᵥ sol.dual) j|)
    hsq hrho hpol ha hr.ge (by rw [hr]; norm_num) hsol hopt ?_ (by rw [hr, zero_mul, add_zero]; exact hle)
  · rwa [hr, zero_mul, add_zero] at this
  · have g1 := hn (A *ᵥ sol.primal)
    have g2 := hn (P *ᵥ sol.primal)
    have g3 := hn q
    have g4 := hn (Aᵀ *ᵥ sol.dual)
    refine ⟨by linarith, fun i => ?_, fun j => ?_, fun j => ?_, fun j => ?_⟩
    · have := hs (A *ᵥ sol.primal) i
      show |(A *ᵥ sol.primal) i| ≤ _
      linarith
    · have := hs (P *ᵥ sol.primal) j
      show |(P *ᵥ sol.primal) j| ≤ _
      linarith
    · have := hs q j
      show |q j| ≤ _
      linarith
    · have := hs (Aᵀ *ᵥ sol.dual) j
      show |(Aᵀ *ᵥ sol.dual) j| ≤ _
      linarith

/-- **C111, one solution.** If the program is convex and has one minimiser, then every answer is within `C` times the absolute tolerance of it. -/
theorem qp_error_bound_unique (P : Matrix (Fin n) (Fin n) F) (A : Matrix (Fin m) (Fin n) F) (hP : Lin.PSD P) : ∃ C : F, 0 ≤ C ∧
    ∀ (q : Fin n → F) (l u : Fin m → Ext F) (x : Fin n → F), (∀ x', Minimiser ⟨P, q, A, l, u⟩ x' → x' = x) →
    ∃ e0 : F, 0 < e0 ∧ ∀ (env : Env F n) (prm : Params F) (ws : Option ((Fin n → F) × (Fin m → F))) (fuel : ℕ) (sol : Sol F n m),
      SqrtPos env → 0 < prm.rho → prm.polish = false → 0 ≤ prm.epsAbs → prm.epsRel = 0 → prm.epsAbs ≤ e0 →
      solveQP env prm ⟨P, q, A, l, u⟩ ws fuel = .ok sol → sol.code = .optimal → ∀ j, |x j - sol.primal j| ≤ C * prm.epsAbs := by
  obtain ⟨C, hC, hmain⟩ := qp_error_bound_abs P A
  refine ⟨C, hC, fun q l u x hx => ?_⟩
  obtain ⟨e0, he0, hb⟩ := hmain q l u
  refine ⟨e0, he0, fun env prm ws fuel sol hsq hrho hpol ha hr hle hsol hopt => ?_⟩
  obtain ⟨x', y', -, h1, h2, -⟩ := hb env prm ws fuel sol hsq hrho hpol ha hr hle hsol hopt
  rw [← hx x' (h1 hP)]
  exact h2

/-- Bounds of the same kind, finite ones at most `d` apart. -/
def NearBound (d : F) : Ext F → Ext F → Prop
  | .neg, .neg => True
  | .pos, .pos => True
  | .fin a, .fin b => |a - b| ≤ d
  | _, _ => False

/-- A point of an interval, with a multiplier that fits, has a point of a near interval close to it that the multiplier fits. -/
theorem interval_near {l u l' u' : Ext F} {d w v y : F} (hd : 0 ≤ d) (w1 : lower l w) (w2 : upper u w) (hli : NearBound d l' l) (hui : NearBound d u' u) (f1 : lower l' v)
    (f2 : upper u' v) (c1 : 0 < y → u' = .fin v) (c2 : y < 0 → l' = .fin v) :
    ∃ z, (lower l z ∧ upper u z) ∧ |v - z| ≤ d ∧ (0 < y → u = .fin z) ∧ (y < 0 → l = .fin z) := by
  rcases lt_trichotomy y 0 with hy | hy | hy
  · rw [c2 hy] at hli
    cases el : l with
    | neg => rw [el] at hli; exact hli.elim
    | pos => rw [el] at hli; exact hli.elim
    | fin b =>
      rw [el] at hli w1
      refine ⟨b, ⟨le_rfl, ?_⟩, hli, fun h => absurd h (not_lt.2 hy.le), fun _ => rfl⟩
      cases eu : u with
      | neg => rw [eu] at w2; exact w2.elim
      | pos => trivial
      | fin a => rw [eu] at w2; exact le_trans w1 w2
  · -- the nearest point of the interval
    let v1 : F := match (generalizing := false) l with | .fin b => max b v | _ => v
    let z : F := match (generalizing := false) u with | .fin a => min a v1 | _ => v1
    have a1 : lower l v1 ∧ |v - v1| ≤ d ∧ v ≤ v1 := by
      cases el : l with
      | neg => simp only [v1, el]; exact ⟨trivial, by simpa using hd, le_rfl⟩
      | pos => rw [el] at w1; exact w1.elim
      | fin b =>
        simp only [v1, el]
        refine ⟨le_max_left _ _, ?_, le_max_right _ _⟩
        cases el' : l' with
        | neg => rw [el, el'] at hli; exact hli.elim
        | pos => rw [el, el'] at hli; exact hli.elim
        | fin b' =>
          rw [el, el'] at hli
          rw [el'] at f1
          have h1 := abs_le.1 hli
          have h2 : b' ≤ v := f1
          rcases le_total b v with h3 | h3
          · rw [max_eq_right h3]; simpa using hd
          · rw [max_eq_left h3, abs_le]; constructor <;> linarith
    have a2 : (lower l z ∧ upper u z) ∧ |v - z| ≤ d := by
      obtain ⟨b1, b2, b3⟩ := a1
      have b2' := abs_le.1 b2
      cases eu : u with
      | neg => rw [eu] at w2; exact w2.elim
      | pos => simp only [z, eu]; exact ⟨⟨b1, trivial⟩, b2⟩
      | fin a =>
        rw [eu] at w2
        simp only [z, eu]
        refine ⟨⟨?_, min_le_left _ _⟩, ?_⟩
        · cases el : l with
          | neg => trivial
          | pos => rw [el] at w1; exact w1.elim
          | fin b =>
            rw [el] at w1 b1
            exact le_min (le_trans w1 w2) b1
        · cases eu' : u' with
          | neg => rw [eu'] at f2; exact f2.elim
          | pos => rw [eu, eu'] at hui; exact hui.elim
          | fin a' =>
            rw [eu, eu'] at hui
            rw [eu'] at f2
            have h1 := abs_le.1 hui
            have h2 : v ≤ a' := f2
            rcases le_total a v1 with h3 | h3
            · rw [min_eq_left h3, abs_le]; constructor <;> linarith
            · rw [min_eq_right h3]; exact b2
    exact ⟨z, a2.1, a2.2, fun h => absurd h (by rw [hy]; exact lt_irrefl _), fun h => absurd h (by rw [hy]; exact lt_irrefl _)⟩
  · rw [c1 hy] at hui
    cases eu : u with
    | neg => rw [eu] at hui; exact hui.elim
    | pos => rw [eu] at hui; exact hui.elim
    | fin b =>
      rw [eu] at hui w2
      refine ⟨b, ⟨?_, le_rfl⟩, hui, fun _ => rfl, fun h => absurd h (not_lt.2 hy.le)⟩
      cases el : l with
      | pos => rw [el] at w1; exact w1.elim
      | neg => trivial
      | fin a => rw [el] at w1; exact le_trans w1 w2

/-- **C111, dependence on the data.** Exact solutions of a program whose vector and finite bounds differ by at most `d` (below a threshold) lie within
`C d` of exact solutions of the given one: a warm start from the last program is this close. -/
theorem qp_solutions_stable (P : Matrix (Fin n) (Fin n) F) (A : Matrix (Fin m) (Fin n) F) : ∃ C : F, 0 ≤ C ∧ ∀ (q : Fin n → F) (l u : Fin m → Ext F),
    (∃ w, InBox ⟨P, q, A, l, u⟩ w) → ∃ e0 : F, 0 < e0 ∧ ∀ (q' : Fin n → F) (l' u' : Fin m → Ext F) (d : F), 0 ≤ d → d ≤ e0 →
      (∀ j, |q' j - q j| ≤ d) → (∀ i, NearBound d (l' i) (l i)) → (∀ i, NearBound d (u' i) (u i)) →
      ∀ x' y', KKT ⟨P, q', A, l', u'⟩ x' y' → ∃ x y, KKT ⟨P, q, A, l, u⟩ x y ∧ (∀ j, |x j - x' j| ≤ C * d) ∧ ∀ i, |y i - y' i| ≤ C * d := by
  obtain ⟨C, hC, hmain⟩ := kkt_error_bound P A
  refine ⟨C, hC, fun q l u ⟨w, hw⟩ => ?_⟩
  obtain ⟨e0, he0, hb⟩ := hmain q l u
  refine ⟨e0, he0, fun q' l' u' d hd hle hq hl hu x' y' ⟨hf, hs, hc⟩ => ?_⟩
  have key : ∀ i, ∃ z, (lower (l i) z ∧ upper (u i) z) ∧ |(A *ᵥ x') i - z| ≤ d ∧ (0 < y' i → u i = .fin z) ∧ (y' i < 0 → l i = .fin z) :=
    fun i => interval_near hd (hw i).1 (hw i).2 (hl i) (hu i) (hf i).1 (hf i).2 (hc i).1 (hc i).2
  choose z hz hzd hz1 hz2 using key
  obtain ⟨x, y, h1, h2, h3⟩ := hb x' y' z d hd hle hz (fun i => ⟨hz1 i, hz2 i⟩) hzd fun j => by
    have := congrFun hs j
    simp only [Pi.add_apply, Pi.zero_apply] at this
    have e : (P *ᵥ x') j + q j + (Aᵀ *ᵥ y') j = -(q' j - q j) := by linarith
    rw [e, abs_neg]
    exact hq j
  exact ⟨x, y, h1, h2, h3⟩

/-- **C111, answers for near data.** The same for answers: an answer with residuals at most `r` to a program whose vector and finite bounds differ by at most `d` lies within
`C (d + r)` of an exact solution of the given one. -/
theorem qp_answers_stable (P : Matrix (Fin n) (Fin n) F) (A : Matrix (Fin m) (Fin n) F) : ∃ C : F, 0 ≤ C ∧ ∀ (q : Fin n → F) (l u : Fin m → Ext F),
    (∃ w, InBox ⟨P, q, A, l, u⟩ w) → ∃ e0 : F, 0 < e0 ∧ ∀ (q' : Fin n → F) (l' u' : Fin m → Ext F) (d r : F), 0 ≤ d → 0 ≤ r → d + r ≤ e0 →
      (∀ j, |q' j - q j| ≤ d) → (∀ i, NearBound d (l' i) (l i)) → (∀ i, NearBound d (u' i) (u i)) →
      ∀ x' y' z', InBox ⟨P, q', A, l', u'⟩ z' → Complementary ⟨P, q', A, l', u'⟩ z' y' → (∀ i, |(A *ᵥ x') i - z' i| ≤ r) →
      (∀ j, |(P *ᵥ x') j + q' j + (Aᵀ *ᵥ y') j| ≤ r) →
      ∃ x y, KKT ⟨P, q, A, l, u⟩ x y ∧ (∀ j, |x j - x' j| ≤ C * (d + r)) ∧ ∀ i, |y i - y' i| ≤ C * (d + r) := by
  obtain ⟨C, hC, hmain⟩ := kkt_error_bound P A
  refine ⟨C, hC, fun q l u ⟨w, hw⟩ => ?_⟩
  obtain ⟨e0, he0, hb⟩ := hmain q l u
  refine ⟨e0, he0, fun q' l' u' d r hd hr hle hq hl hu x' y' z' hz' hc hp hs => ?_⟩
  have key : ∀ i, ∃ z, (lower (l i) z ∧ upper (u i) z) ∧ |z' i - z| ≤ d ∧ (0 < y' i → u i = .fin z) ∧ (y' i < 0 → l i = .fin z) :=
    fun i => interval_near hd (hw i).1 (hw i).2 (hl i) (hu i) (hz' i).1 (hz' i).2 (hc i).1 (hc i).2
  choose z hz hzd hz1 hz2 using key
  refine hb x' y' z (d + r) (by linarith) hle hz (fun i => ⟨hz1 i, hz2 i⟩) (fun i => ?_) fun j => ?_
  · have h1 := abs_le.1 (hp i)
    have h2 := abs_le.1 (hzd i)
    rw [abs_le]
    constructor <;> linarith
  · have h1 := abs_le.1 (hs j)
    have h2 := abs_le.1 (hq j)
    rw [abs_le]
    constructor <;> linarith

end

variable {n m : ℕ} {env : Env ℝ n} {prm : Params ℝ} {p : Pbm ℝ n m} {ws : Option ((Fin n → ℝ) × (Fin m → ℝ))}

theorem tendsto_bounded {k : ℕ} {f : ℕ → Fin k → ℝ} {a : Fin k → ℝ} (h : Tendsto f atTop (𝓝 a)) : ∃ R, 0 ≤ R ∧ ∀ i j, |f i j| ≤ R := by
  obtain ⟨R, hR⟩ := (Metric.isBounded_range_of_tendsto f h).exists_norm_le
  refine ⟨max R 0, le_max_right _ _, fun i j => le_trans ?_ (le_max_left _ _)⟩
  exact le_trans (norm_le_pi_norm (f i) j) (hR _ (Set.mem_range_self i))

theorem mulVec_bounded {k l : ℕ} (M : Matrix (Fin k) (Fin l) ℝ) {v : Fin l → ℝ} {R : ℝ} (h : ∀ j, |v j| ≤ R) (i : Fin k) :
    |(M *ᵥ v) i| ≤ ∑ i, (∑ j, |M i j|) * R := by
  have h0 : ∀ i, 0 ≤ (∑ j, |M i j|) * R := fun i => by
    rcases isEmpty_or_nonempty (Fin l) with hl | ⟨⟨j⟩⟩
    · simp
    · exact mul_nonneg (Finset.sum_nonneg fun _ _ => abs_nonneg _) (le_trans (abs_nonneg _) (h j))
  exact le_trans (abs_dot_le h) (Finset.single_le_sum (f := fun i => (∑ j, |M i j|) * R) (fun i _ => h0 i) (Finset.mem_univ i))

/-- **C111, both tolerances.** For a convex program that has a minimiser, a warm start and the parameters of the iteration: the `Optimal` answers are
within a constant times the tolerances of a minimiser and its multipliers, whatever the tolerances below some threshold, the infeasibility tolerances,
the limits and the frequency of the checks. In particular the answers tend to the set of solutions as the tolerances tend to zero. -/
theorem qp_answers_converge (hsq : SqrtPos env) (hl : LdltOk env) (hP : Lin.PSD p.P) (ha : 0 < prm.alpha) (ha' : prm.alpha < 2) (hsig : 0 < prm.sigma)
    (hr : 0 < prm.rho) (hmin : ∃ x, Minimiser p x) : ∃ C e0 : ℝ, 0 ≤ C ∧ 0 < e0 ∧ ∀ (prm' : Params ℝ) (fuel : ℕ) (sol : Sol ℝ n m),
      prm'.alpha = prm.alpha → prm'.sigma = prm.sigma → prm'.rho = prm.rho → prm'.scaling = prm.scaling → prm'.polish = false →
      0 ≤ prm'.epsAbs → 0 ≤ prm'.epsRel → prm'.epsAbs + prm'.epsRel ≤ e0 → solveQP env prm' p ws fuel = .ok sol → sol.code = .optimal →
      ∃ x y, Minimiser p x ∧ KKT p x y ∧ (∀ j, |x j - sol.primal j| ≤ C * (prm'.epsAbs + prm'.epsRel)) ∧
        ∀ i, |y i - sol.dual i| ≤ C * (prm'.epsAbs + prm'.epsRel) := by
  obtain ⟨x0, hx0⟩ := hmin
  obtain ⟨y0, hk0⟩ := minimiser_kkt hP.1 hx0
  -- a bound of all iterates
  have hbnd : ∃ B : ℝ, 0 ≤ B ∧ ∀ s slv, chosenScaling env prm p = some s → env.factor m (kkt prm.sigma p s (rhoVec prm p s)) = some slv →
      ∀ k, Magnitude p (s.unX (iterates prm p s slv ws k).x) (s.unY (iterates prm p s slv ws k).y) B := by
    cases hs : chosenScaling env prm p with
    | none => exact ⟨0, le_rfl, fun s slv h => by cases h⟩
    | some s =>
      cases hf : env.factor m (kkt prm.sigma p s (rhoVec prm p s)) with
      | none => exact ⟨0, le_rfl, fun s' slv h h' => by cases h; rw [hf] at h'; cases h'⟩
      | some slv =>
        have hreg : Regular env prm p s slv := ⟨hP, ha, ha', hsig, hr, chosenScaling_pos hsq hs, hl, hf⟩
        obtain ⟨x', y', -, -, h1, h2, -⟩ := qp_iterates_converge (ws := ws) hreg hk0
        obtain ⟨R, hR, h3⟩ := tendsto_bounded h1
        obtain ⟨R', hR', h4⟩ := tendsto_bounded h2
        have g1 : 0 ≤ ∑ i, (∑ j, |p.A i j|) * R := Finset.sum_nonneg fun i _ => mul_nonneg (Finset.sum_nonneg fun _ _ => abs_nonneg _) hR
        have g2 : 0 ≤ ∑ i, (∑ j, |p.P i j|) * R := Finset.sum_nonneg fun i _ => mul_nonneg (Finset.sum_nonneg fun _ _ => abs_nonneg _) hR
        have g3 : 0 ≤ ∑ i, (∑ j, |p.Aᵀ i j|) * R' := Finset.sum_nonneg fun i _ => mul_nonneg (Finset.sum_nonneg fun _ _ => abs_nonneg _) hR'
        have g4 : 0 ≤ ∑ j, |p.q j| := Finset.sum_nonneg fun _ _ => abs_nonneg _
        refine ⟨∑ i, (∑ j, |p.A i j|) * R + ∑ i, (∑ j, |p.P i j|) * R + ∑ i, (∑ j, |p.Aᵀ i j|) * R' + ∑ j, |p.q j|, by linarith, ?_⟩
        intro s' slv' hs' hf' k
        cases hs'
        rw [hf] at hf'
        cases hf'
        refine ⟨by linarith, fun i => ?_, fun j => ?_, fun j => ?_, fun j => ?_⟩
        · have := mulVec_bounded p.A (h3 k) i
          linarith
        · have := mulVec_bounded p.P (h3 k) j
          linarith
        · have := Finset.single_le_sum (f := fun i => |p.q i|) (fun i _ => abs_nonneg _) (Finset.mem_univ j)
          linarith
        · have := mulVec_bounded p.Aᵀ (h4 k) j
          linarith
  obtain ⟨B, hB0, hB⟩ := hbnd
  obtain ⟨C, hC, hmain⟩ := qp_error_bound p.P p.A
  obtain ⟨e0, he0, hb⟩ := hmain p.q p.l p.u
  refine ⟨C * (1 + B), min (1 / 2) (e0 / (1 + B)), mul_nonneg hC (by linarith), lt_min (by norm_num) (div_pos he0 (by linarith)), ?_⟩
  intro prm' fuel sol e1 e2 e3 e4 hpol h1 h2 h3 hsol hopt
  have hle := le_trans h3 (min_le_left _ _)
  have hle' := le_trans h3 (min_le_right _ _)
  rw [le_div_iff₀ (by linarith)] at hle'
  have hEq : ∀ s slv, iterates prm' p s slv ws = iterates prm p s slv ws := fun s slv => by
    have : rhoVec prm' p s = rhoVec prm p s := by funext i; simp only [rhoVec, e3]
    funext k
    simp only [iterates, this, e1, e2]
  have hmag : Magnitude p sol.primal sol.dual B := by
    obtain ⟨s, hs, k1⟩ := solveQP_ok hsol
    obtain ⟨k, r, hf, hcon⟩ := solveScaled_facts k1
    have hcode := conclude_code hcon
    rw [hopt] at hcode
    have hr' := code_optimal hcode.1.symm
    subst hr'
    have hnone : (prepare env prm' p s).2 = none := by
      rcases hf.cases with ⟨_, k2, _⟩ | ⟨-, k2, -⟩
      · exfalso
        rcases prepare_cases env prm' p s with ⟨_, k4⟩ | ⟨slv, _, k4⟩
        · rw [k4] at k2; cases k2
        · rw [k4] at k2
          have := precheck_code k2.symm
          cases this
      · exact k2
    obtain ⟨-, slv, k5, k6⟩ := prepare_none hnone
    rw [conclude_nopolish (Or.inl hpol), k6, hEq] at hcon
    cases hcon
    refine hB s slv ?_ ?_ k
    · unfold chosenScaling at hs ⊢
      rw [← e4]; exact hs
    · have : rhoVec prm p s = rhoVec prm' p s := by funext i; simp only [rhoVec, e3]
      rw [← e2, this]; exact k5
  have hcmp : prm'.epsAbs + prm'.epsRel * B ≤ (prm'.epsAbs + prm'.epsRel) * (1 + B) := by nlinarith [mul_nonneg h1 hB0]
  obtain ⟨x, y, k1, k2, k3, k4⟩ := hb env prm' ws fuel sol B hsq (by rw [e3]; exact hr) hpol h1 h2 (by linarith) hsol hopt hmag (le_trans hcmp hle')
  have hcmp' := mul_le_mul_of_nonneg_left hcmp hC
  have e5 : C * ((prm'.epsAbs + prm'.epsRel) * (1 + B)) = C * (1 + B) * (prm'.epsAbs + prm'.epsRel) := by ring
  rw [e5] at hcmp'
  exact ⟨x, y, k2 hP, k1, fun j => le_trans (k3 j) hcmp', fun i => le_trans (k4 i) hcmp'⟩

end Verif.QP
