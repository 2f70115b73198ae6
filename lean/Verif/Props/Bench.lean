import Verif.Spec.Bench
import Verif.Props.QPFactor
import Verif.Props.QPDuality
import Verif.Props.QPZero
import Verif.Props.OSQP

/-! # The benchmarks (C134) -/

set_option linter.unusedSectionVars false

namespace Verif.Bench

open Matrix Verif.QPSpec
open Verif.QP (Ext Status Pbm Params SqrtPos LdltOk FactorsAll)
open Verif.OSQP (Src)

variable {F : Type*} [Field F] [LinearOrder F] [IsStrictOrderedRing F] {n m : ℕ}

/-! ## The programs -/

theorem chol_diag (R : Matrix (Fin n) (Fin n) F) (i : Fin n) : 1 / 20 ≤ chol R i i := by
  unfold chol
  rw [if_neg (lt_irrefl i), if_pos rfl]
  exact le_max_right _ _

/-- A vector that the transposed triangle maps to zero is zero. -/
theorem chol_inj (R : Matrix (Fin n) (Fin n) F) (w : Fin n → F) (h : (chol R)ᵀ *ᵥ w = 0) : w = 0 := by
  have key : ∀ k : ℕ, ∀ i : Fin n, n ≤ i.val + k → w i = 0 := by
    intro k
    induction k with
    | zero => intro i hi; omega
    | succ k ih =>
      intro i hi
      have h1 := congrFun h i
      simp only [Matrix.mulVec, dotProduct, Matrix.transpose_apply, Pi.zero_apply] at h1
      rw [Finset.sum_eq_single i] at h1
      · have := chol_diag R i
        rcases mul_eq_zero.1 h1 with h2 | h2
        · rw [h2] at this
          norm_num at this
        · exact h2
      · intro j _ hj
        rcases lt_or_gt_of_ne hj with h3 | h3
        · have : chol R j i = 0 := by
            unfold chol
            rw [if_neg (not_lt.2 h3.le), if_neg hj]
          rw [this, zero_mul]
        · rw [ih j (by have : i.val < j.val := h3; omega), mul_zero]
      · simp
  funext i
  exact key n i (by omega)

/-- **C134, convexity.** Every drawn program is strictly convex. -/
theorem draw_convex (d : Draw F n m) : Lin.PD (randomQp d).P := by
  refine ⟨?_, fun w hw => ?_⟩
  · change (chol d.R * (chol d.R)ᵀ)ᵀ = _
    rw [Matrix.transpose_mul, Matrix.transpose_transpose]
    rfl
  · change 0 < w ⬝ᵥ (chol d.R * (chol d.R)ᵀ) *ᵥ w
    rw [← Matrix.mulVec_mulVec, Matrix.dotProduct_mulVec, ← Matrix.mulVec_transpose]
    refine lt_of_le_of_ne (Finset.sum_nonneg fun i _ => mul_self_nonneg _) fun h => hw (chol_inj d.R w ?_)
    have := (Finset.sum_eq_zero_iff_of_nonneg (fun i _ => mul_self_nonneg (((chol d.R)ᵀ *ᵥ w) i))).1 h.symm
    funext i
    exact mul_self_eq_zero.1 (this i (Finset.mem_univ i))

/-- **C134, solvable draws.** Programs whose slack is not negative or whose rows are independent can be satisfied. -/
theorem draw_feasible (d : Draw F n m) (h : (∀ i, 0 ≤ d.delta i) ∨ Function.Surjective d.A.mulVec) : ∃ x, Feasible (randomQp d) x := by
  rcases h with h | h
  · exact ⟨d.v, fun i => ⟨trivial, le_add_of_nonneg_right (h i)⟩⟩
  · obtain ⟨x, hx⟩ := h fun i => (d.A *ᵥ d.v) i + d.delta i
    refine ⟨x, fun i => ⟨trivial, ?_⟩⟩
    have := congrFun hx i
    exact this.le

/-- **C134, other draws.** A row without entries, likely at the density 0.05, whose slack is negative makes the program infeasible. -/
theorem draw_infeasible (d : Draw F n m) (i : Fin m) (h0 : ∀ j, d.A i j = 0) (h : d.delta i < 0) : ¬∃ x, Feasible (randomQp d) x := by
  rintro ⟨x, hx⟩
  have e : ∀ w : Fin n → F, (d.A *ᵥ w) i = 0 := fun w => by
    simp only [Matrix.mulVec, dotProduct]
    exact Finset.sum_eq_zero fun j _ => by rw [h0 j, zero_mul]
  have h2 : (d.A *ᵥ x) i ≤ (d.A *ᵥ d.v) i + d.delta i := (hx i).2
  rw [e, e, zero_add] at h2
  exact absurd h2 (not_le.2 h)

/-- **C134, one solution.** A drawn program has exactly one minimiser if it can be satisfied. -/
theorem draw_unique (d : Draw ℝ n m) : (∃ x, Feasible (randomQp d) x) ↔ ∃! x, Minimiser (randomQp d) x := by
  have hP := draw_convex d
  refine ⟨fun ⟨x, hx⟩ => ?_, fun ⟨x, hx, _⟩ => ⟨x, hx.1⟩⟩
  have hmin : ∃ x, Minimiser (randomQp d) x := by
    rcases (QP.qp_classes hP.psd).1 with h | h | h
    · exact absurd hx (h x)
    · obtain ⟨-, r, hr⟩ := (QP.qp_unbounded_iff hP.psd).1 h
      have : r = 0 := by
        by_contra hne
        have := hP.2 r hne
        rw [hr.1, dotProduct_zero] at this
        exact lt_irrefl _ this
      have := hr.2.1
      rw [‹r = 0›, dotProduct_zero] at this
      exact absurd this (lt_irrefl _)
    · exact h
  obtain ⟨y, hy⟩ := hmin
  refine ⟨y, hy, fun w hw => ?_⟩
  by_contra hne
  have hd := hP.2 (w - y) (sub_ne_zero.2 hne)
  have hfeas : Feasible (randomQp d) ((1 / 2 : ℝ) • (w + y)) := fun i => by
    refine ⟨trivial, ?_⟩
    have h1 : (d.A *ᵥ w) i ≤ (d.A *ᵥ d.v) i + d.delta i := (hw.1 i).2
    have h2 : (d.A *ᵥ y) i ≤ (d.A *ᵥ d.v) i + d.delta i := (hy.1 i).2
    change (d.A *ᵥ ((1 / 2 : ℝ) • (w + y))) i ≤ (d.A *ᵥ d.v) i + d.delta i
    rw [Matrix.mulVec_smul, Matrix.mulVec_add]
    simp only [Pi.smul_apply, Pi.add_apply, smul_eq_mul]
    linarith
  have h1 := hw.2 _ hfeas
  have h2 := hy.2 _ hw.1
  have h3 := hy.2 _ hfeas
  have hs : w ⬝ᵥ (randomQp d).P *ᵥ y = y ⬝ᵥ (randomQp d).P *ᵥ w := by
    rw [Matrix.dotProduct_mulVec, ← Matrix.mulVec_transpose, hP.1, dotProduct_comm]
  unfold cost at h1 h2 h3
  simp only [Matrix.mulVec_smul, Matrix.mulVec_add, smul_dotProduct, dotProduct_smul, add_dotProduct, dotProduct_add, smul_eq_mul] at h1 h2 h3
  simp only [Matrix.mulVec_sub, sub_dotProduct, dotProduct_sub] at hd
  have h4 := hw.2 _ hy.1
  unfold cost at h4
  linarith

/-! ## The sparse copies -/

theorem prune_value {M : F} (h : M = 0 ∨ 1 / 10 ^ 18 < |M|) :
    (((if OSQP.muchSmaller M 0 then none else some M) : Option F).bind fun v => if OSQP.muchSmaller v (1 / 10 ^ 6) then none else some v).getD 0 = M := by
  rcases h with rfl | h
  · simp [OSQP.muchSmaller]
  · have h0 : ¬|M| ≤ |(0 : F)| * OSQP.dummyPrecision := by
      rw [abs_zero, zero_mul]
      exact not_le.2 (lt_trans (by positivity) h)
    have h1 : ¬|M| ≤ |(1 / 10 ^ 6 : F)| * OSQP.dummyPrecision := by
      rw [abs_of_pos (show (0 : F) < 1 / 10 ^ 6 by positivity)]
      refine not_le.2 (lt_of_eq_of_lt ?_ h)
      norm_num [OSQP.dummyPrecision]
    simp only [OSQP.muchSmaller, h0, h1, decide_false, Bool.false_eq_true, if_false, Option.bind_some, Option.getD_some]

/-- **C134, sparse copies.** The sparse copy of a program without tiny entries is the program. -/
theorem sparse_values {p : Pbm F n m} (h : NoDust p) : values (toSparse p) = p := by
  obtain ⟨P, q, A, l, u⟩ := p
  simp only [toSparse, values, OSQP.prune, OSQP.sparseView]
  congr 1
  · funext i j
    exact prune_value (h.1 i j)
  · funext i j
    exact prune_value (h.2 i j)

/-- Whatever the entries, the copy differs from the program by no more than 1e-18. -/
theorem sparse_near (p : Pbm F n m) : (∀ i j, |(values (toSparse p)).P i j - p.P i j| ≤ 1 / 10 ^ 18) ∧ (∀ i j, |(values (toSparse p)).A i j - p.A i j| ≤ 1 / 10 ^ 18) := by
  have key : ∀ M : F, |(((if OSQP.muchSmaller M 0 then none else some M) : Option F).bind fun v => if OSQP.muchSmaller v (1 / 10 ^ 6) then none else some v).getD 0 - M| ≤ 1 / 10 ^ 18 := by
    intro M
    by_cases h : M = 0 ∨ 1 / 10 ^ 18 < |M|
    · rw [prune_value h, sub_self, abs_zero]
      positivity
    · push Not at h
      have h0 : ¬|M| ≤ |(0 : F)| * OSQP.dummyPrecision := by
        rw [abs_zero, zero_mul]
        exact not_le.2 (abs_pos.2 h.1)
      have h1 : |M| ≤ |(1 / 10 ^ 6 : F)| * OSQP.dummyPrecision := by
        rw [abs_of_pos (show (0 : F) < 1 / 10 ^ 6 by positivity)]
        refine h.2.trans_eq ?_
        norm_num [OSQP.dummyPrecision]
      simp only [OSQP.muchSmaller, h0, h1, decide_false, decide_true, Bool.false_eq_true, if_false, if_true, Option.bind_some, Option.getD_none, zero_sub, abs_neg]
      exact h.2
  exact ⟨fun i j => key _, fun i j => key _⟩

/-! ## The results -/

/-- What is reported as objective is the cost of the program. -/
theorem objective_cost {p : Pbm F n m} (hP : p.P.IsSymm) (x : Fin n → F) : objective p x = cost p x := by
  have e : (fun i j => if i ≤ j then p.P i j else p.P j i : Matrix (Fin n) (Fin n) F) = p.P := by
    funext i j
    split_ifs
    · rfl
    · exact congrFun (congrFun hP i) j
  unfold objective cost
  rw [e]
  have : (fun j => 1 / 2 * x j) = (1 / 2 : F) • x := rfl
  rw [this, Matrix.mulVec_smul, add_dotProduct, smul_dotProduct, dotProduct_comm (p.P *ᵥ x) x, smul_eq_mul]
  ring

/-- **C134, a call returns.** Every call of the solver returns within its limit of iterations, and the reported objective is the cost of the reported solution. -/
theorem work_returns (env : QP.Env F n) (fuel : ℕ) (hf : 10001 ≤ fuel) (dt : F) (d : Draw F n m) :
    ∃ r, smoothWork env fuel dt (.dense (randomQp d)) = .ok r ∧ r.dt = dt ∧ r.iter ≤ 10000 ∧ r.objective = cost (randomQp d) r.solution := by
  obtain ⟨sol, h1, h2⟩ := QP.qp_budget_terminates (env := env) (prm := benchPrm) (p := randomQp d) (ws := none) (fuel := fuel) (e := 10000) rfl (by simp [benchPrm, Params.default])
    (fun h => by simp [benchPrm] at h) hf
  refine ⟨⟨sol.code, dt, sol.iter, sol.primal, objective (randomQp d) sol.primal⟩, ?_, rfl, h2, objective_cost (draw_convex d).1 _⟩
  unfold smoothWork values
  simp only [h1]

/-- **C134, dense and sparse.** On a drawn program without tiny entries the dense and the sparse solver report the same but for the time, although their factorisations differ. -/
theorem dense_sparse {env env' : QP.Env F n} (hsq : SqrtPos env) (hl : LdltOk env) (hl' : LdltOk env') (hf : FactorsAll env) (hf' : FactorsAll env') (he : env.eps = env'.eps)
    (d : Draw F n m) (hd : NoDust (randomQp d)) (fuel : ℕ) (hfuel : 10001 ≤ fuel) (dt dt' : F) :
    ∃ a b, smoothWork env fuel dt (.dense (randomQp d)) = .ok a ∧ smoothWork env' fuel dt' (toSparse (randomQp d)) = .ok b ∧ Same a b := by
  obtain ⟨sol, h1, h2⟩ := QP.qp_budget_terminates (env := env) (prm := benchPrm) (p := randomQp d) (ws := none) (fuel := fuel) (e := 10000) rfl (by simp [benchPrm, Params.default])
    (fun h => by simp [benchPrm] at h) hfuel
  have h3 : QP.solveQP env' benchPrm (randomQp d) none fuel = .ok sol := by
    rw [← h1]
    exact (QP.qp_any_factorisation hsq hl hl' hf hf' (fun h => by simp [benchPrm] at h) (fun _ => he) rfl (by norm_num [benchPrm, Params.default])
      (by norm_num [benchPrm, Params.default]) (fun _ => by norm_num [benchPrm, Params.default]) (draw_convex d).psd none fuel).symm
  refine ⟨⟨sol.code, dt, sol.iter, sol.primal, objective (randomQp d) sol.primal⟩, ⟨sol.code, dt', sol.iter, sol.primal, objective (randomQp d) sol.primal⟩, ?_, ?_, rfl, rfl, rfl, rfl⟩
  · unfold smoothWork values
    simp only [h1]
  · unfold smoothWork
    rw [sparse_values hd]
    simp only [h3]

/-- **C134, OSQP.** OSQP is given the drawn program, and its results enter with their cost. -/
theorem osqp_given {ω : Type*} (d : Draw F n m) (hd : NoDust (randomQp d)) : (OSQP.toData (toSparse (randomQp d))).pbm = randomQp d ∧
    ∀ (lib : OSQP.Lib ω F n m) (dt : F) (r : Result F n), osqpWork lib dt (toSparse (randomQp d)) = some r → r.dt = dt ∧ r.objective = cost (randomQp d) r.solution ∧
      ∃ s : OSQP.Ret F n m, OSQP.solveQpOsqp lib (toSparse (randomQp d)) benchPrm none = some s ∧ s.code = r.status ∧ ∃ w, s.res = some w ∧ w.1 = r.iter ∧ w.2.1 = r.solution := by
  have hv := sparse_values hd
  refine ⟨?_, fun lib dt r hr => ?_⟩
  · unfold toSparse at hv ⊢
    rw [OSQP.osqp_problem_sparse]
    have : OSQP.Src.pbm (.sparse (OSQP.prune (1 / 10 ^ 6) (OSQP.sparseView (randomQp d).P)) (randomQp d).q (OSQP.prune (1 / 10 ^ 6) (OSQP.sparseView (randomQp d).A)) (randomQp d).l (randomQp d).u) =
        randomQp d := hv
    rw [this, OSQP.documented_eq _ (draw_convex d).1]
  · unfold osqpWork at hr
    obtain ⟨s, h1, h2⟩ := Option.bind_eq_some_iff.1 hr
    obtain ⟨w, h3, h4⟩ := Option.map_eq_some_iff.1 h2
    subst h4
    refine ⟨rfl, ?_, s, h1, rfl, w, h3, rfl, rfl⟩
    rw [hv]
    exact objective_cost (draw_convex d).1 _

/-! ## The statistics -/

theorem tally_eq (rs : List (Result F n)) : ∀ k a b, tally rs (k, a, b) =
    (k + (rs.filter fun r => decide (r.status = .optimal)).length, a + ((rs.filter fun r => decide (r.status = .optimal)).map (·.dt)).sum,
      b + ((rs.filter fun r => !decide (r.status = .optimal)).map (·.dt)).sum) := by
  induction rs with
  | nil => intro k a b; simp [tally]
  | cons r rs ih =>
    intro k a b
    by_cases h : r.status = .optimal
    · rw [tally, if_pos h, ih]
      simp only [List.filter_cons, h, decide_true, if_true, Bool.not_true, Bool.false_eq_true, if_false, List.length_cons, List.map_cons, List.sum_cons]
      refine Prod.ext (by omega) (Prod.ext ?_ rfl)
      simp only
      ring
    · rw [tally, if_neg h, ih]
      simp only [List.filter_cons, h, decide_false, if_false, Bool.not_false, Bool.false_eq_true, if_true, List.map_cons, List.sum_cons]
      refine Prod.ext rfl (Prod.ext rfl ?_)
      simp only
      ring

/-- **C134, batches.** The number of solved problems, and the average times of solved and of other problems. -/
theorem batch_counts (rs : List (Result F n)) : (solveBatch rs).results = rs ∧
    (solveBatch rs).numOptimal = (rs.filter fun r => decide (r.status = .optimal)).length ∧
    (0 < (solveBatch rs).numOptimal → (solveBatch rs).avgSuccess * ((solveBatch rs).numOptimal : F) = ((rs.filter fun r => decide (r.status = .optimal)).map (·.dt)).sum) ∧
    ((solveBatch rs).numOptimal < rs.length →
      (solveBatch rs).avgFail * ((rs.filter fun r => !decide (r.status = .optimal)).length : F) = ((rs.filter fun r => !decide (r.status = .optimal)).map (·.dt)).sum) := by
  have e := tally_eq rs 0 0 0
  simp only [zero_add] at e
  have hlen : rs.length - (rs.filter fun r => decide (r.status = .optimal)).length = (rs.filter fun r => !decide (r.status = .optimal)).length := by
    have := List.length_eq_length_filter_add (l := rs) fun r => decide (r.status = .optimal)
    omega
  have h1 : (solveBatch rs).numOptimal = (rs.filter fun r => decide (r.status = .optimal)).length := by
    unfold solveBatch
    rw [e]
  refine ⟨rfl, h1, fun h => ?_, fun h => ?_⟩
  · rw [h1] at h ⊢
    unfold solveBatch
    simp only [e]
    rw [if_pos h, div_mul_cancel₀]
    exact_mod_cast h.ne'
  · rw [h1] at h
    unfold solveBatch
    simp only [e]
    have h' : 0 < (rs.filter fun r => !decide (r.status = .optimal)).length := by omega
    rw [hlen, if_pos h', div_mul_cancel₀]
    exact_mod_cast h'.ne'

/-- The minimum of a list, with infinity for the empty list. -/
def lowest (l : List F) : Option F := l.foldl (fun o x => minO x o) none

theorem foldl_min (l : List F) : ∀ o, l.foldl (fun o x => minO x o) (some o) = some (l.foldl (fun a x => min x a) o) := by
  induction l with
  | nil => intro o; rfl
  | cons x l ih => intro o; exact ih _

theorem foldl_min_le (l : List F) : ∀ o, l.foldl (fun a x => min x a) o ≤ o ∧ (∀ x ∈ l, l.foldl (fun a x => min x a) o ≤ x) ∧
    (l.foldl (fun a x => min x a) o = o ∨ l.foldl (fun a x => min x a) o ∈ l) := by
  induction l with
  | nil => intro o; exact ⟨le_rfl, by simp, Or.inl rfl⟩
  | cons x l ih =>
    intro o
    obtain ⟨h1, h2, h3⟩ := ih (min x o)
    refine ⟨h1.trans (min_le_right _ _), fun y hy => ?_, ?_⟩
    · rcases List.mem_cons.1 hy with rfl | hy
      · exact h1.trans (min_le_left _ _)
      · exact h2 y hy
    · rcases h3 with h3 | h3
      · rcases min_choice x o with h4 | h4
        · exact Or.inr (List.mem_cons.2 (Or.inl (h3.trans h4)))
        · exact Or.inl (h3.trans h4)
      · exact Or.inr (List.mem_cons_of_mem _ h3)

theorem foldl_max_le (l : List F) : ∀ o, o ≤ l.foldl (fun a x => max x a) o ∧ (∀ x ∈ l, x ≤ l.foldl (fun a x => max x a) o) ∧
    (l.foldl (fun a x => max x a) o = o ∨ l.foldl (fun a x => max x a) o ∈ l) := by
  induction l with
  | nil => intro o; exact ⟨le_rfl, by simp, Or.inl rfl⟩
  | cons x l ih =>
    intro o
    obtain ⟨h1, h2, h3⟩ := ih (max x o)
    refine ⟨(le_max_right _ _).trans h1, fun y hy => ?_, ?_⟩
    · rcases List.mem_cons.1 hy with rfl | hy
      · exact (le_max_left _ _).trans h1
      · exact h2 y hy
    · rcases h3 with h3 | h3
      · rcases max_choice x o with h4 | h4
        · exact Or.inr (List.mem_cons.2 (Or.inl (h3.trans h4)))
        · exact Or.inl (h3.trans h4)
      · exact Or.inr (List.mem_cons_of_mem _ h3)

theorem sum_between {l : List F} {a b : F} (h : ∀ x ∈ l, a ≤ x ∧ x ≤ b) : a * (l.length : F) ≤ l.sum ∧ l.sum ≤ b * (l.length : F) := by
  induction l with
  | nil => simp
  | cons x l ih =>
    have h1 := h x List.mem_cons_self
    have h2 := ih fun y hy => h y (List.mem_cons_of_mem _ hy)
    simp only [List.length_cons, List.sum_cons, Nat.cast_add, Nat.cast_one, mul_add, mul_one]
    constructor <;> linarith

theorem prod_between {l : List F} {a b : F} (ha : 0 ≤ a) (h : ∀ x ∈ l, a ≤ x ∧ x ≤ b) : a ^ l.length ≤ l.prod ∧ l.prod ≤ b ^ l.length := by
  have hp : ∀ l : List F, (∀ x ∈ l, a ≤ x ∧ x ≤ b) → 0 ≤ l.prod := fun l h => List.prod_nonneg fun x hx => ha.trans (h x hx).1
  induction l with
  | nil => simp
  | cons x l ih =>
    have h1 := h x List.mem_cons_self
    have h3 : ∀ y ∈ l, a ≤ y ∧ y ≤ b := fun y hy => h y (List.mem_cons_of_mem _ hy)
    have h2 := ih h3
    simp only [List.length_cons, List.prod_cons, pow_succ']
    exact ⟨mul_le_mul h1.1 h2.1 (pow_nonneg ha _) (ha.trans h1.1), mul_le_mul h1.2 h2.2 (hp l h3) (ha.trans (h1.1.trans h1.2))⟩

variable {nrm : (Fin n → F) → F}

/-- The quantities that the comparison sums. -/
def ratios (c : List (Result F n × Result F n)) : List F := c.map fun x => x.1.dt / x.2.dt
def diffs (nrm : (Fin n → F) → F) (c : List (Result F n × Result F n)) : List F := c.map fun x => nrm (x.2.solution - x.1.solution)

theorem compareLoop_eq (as : List (Result F n)) : ∀ bs t, as.length = bs.length → ∃ t', compareLoop nrm as bs t = some t' ∧
    t'.optim = t.optim + (bothSolved as bs).length ∧
    t'.durA = t.durA + ((bothSolved as bs).map fun x => x.1.dt).sum ∧ t'.durB = t.durB + ((bothSolved as bs).map fun x => x.2.dt).sum ∧
    t'.ratio = t.ratio * (ratios (bothSolved as bs)).prod ∧
    t'.ratioMin = (ratios (bothSolved as bs)).foldl (fun o x => minO x o) t.ratioMin ∧
    t'.ratioMax = (ratios (bothSolved as bs)).foldl (fun a x => max x a) t.ratioMax ∧
    t'.diff = t.diff + (diffs nrm (bothSolved as bs)).sum ∧
    t'.diffMin = (diffs nrm (bothSolved as bs)).foldl (fun o x => minO x o) t.diffMin ∧
    t'.diffMax = (diffs nrm (bothSolved as bs)).foldl (fun a x => max x a) t.diffMax := by
  induction as with
  | nil => intro bs t _; exact ⟨t, rfl, by simp [bothSolved], by simp [bothSolved], by simp [bothSolved], by simp [bothSolved, ratios], rfl, rfl, by simp [bothSolved, diffs], rfl, rfl⟩
  | cons a as ih =>
    intro bs t hl
    cases bs with
    | nil => simp at hl
    | cons b bs =>
      obtain ⟨t', h0, h1, h2, h3, h4, h5, h6, h7, h8, h9⟩ := ih bs (compareOne nrm a b t) (by simpa using hl)
      refine ⟨t', h0, ?_⟩
      by_cases hc : a.status = .optimal ∧ b.status = .optimal
      · have e : bothSolved (a :: as) (b :: bs) = (a, b) :: bothSolved as bs := by
          unfold bothSolved
          rw [List.zip_cons_cons, List.filter_cons, if_pos (by simp [hc.1, hc.2])]
        have e' : compareOne nrm a b t = _ := if_pos hc
        rw [e] at *
        rw [h1, h2, h3, h4, h5, h6, h7, h8, h9, e']
        simp only [ratios, diffs, List.map_cons, List.length_cons, List.sum_cons, List.prod_cons, List.foldl_cons]
        refine ⟨by omega, by ring, by ring, by ring, ?_, ?_, by ring, ?_, ?_⟩ <;> trivial
      · have e : bothSolved (a :: as) (b :: bs) = bothSolved as bs := by
          unfold bothSolved
          rw [List.zip_cons_cons, List.filter_cons, if_neg (by simpa using hc)]
        rw [e]
        have e' : (compareOne nrm a b t).optim = t.optim ∧ (compareOne nrm a b t).durA = t.durA ∧ (compareOne nrm a b t).durB = t.durB ∧ (compareOne nrm a b t).ratio = t.ratio ∧
            (compareOne nrm a b t).ratioMin = t.ratioMin ∧ (compareOne nrm a b t).ratioMax = t.ratioMax ∧ (compareOne nrm a b t).diff = t.diff ∧
            (compareOne nrm a b t).diffMin = t.diffMin ∧ (compareOne nrm a b t).diffMax = t.diffMax := by
          unfold compareOne
          rw [if_neg hc]
          split_ifs <;> exact ⟨rfl, rfl, rfl, rfl, rfl, rfl, rfl, rfl, rfl⟩
        rw [e'.1] at h1
        rw [e'.2.1] at h2
        rw [e'.2.2.1] at h3
        rw [e'.2.2.2.1] at h4
        rw [e'.2.2.2.2.1] at h5
        rw [e'.2.2.2.2.2.1] at h6
        rw [e'.2.2.2.2.2.2.1] at h7
        rw [e'.2.2.2.2.2.2.2.1] at h8
        rw [e'.2.2.2.2.2.2.2.2] at h9
        exact ⟨h1, h2, h3, h4, h5, h6, h7, h8, h9⟩

/-- **C134, comparisons.** For batches of the same size the comparison is about the problems that both methods solved. Sums, products and extremes are those of these problems, and the printed
averages lie between the printed extremes: the arithmetic mean of the differences, and the geometric mean of the ratios of positive durations (stated as powers). -/
theorem compare_sound (a b : Batch F n) (hl : a.results.length = b.results.length) (hn : ∀ v, 0 ≤ nrm v) (hpos : (∀ r ∈ a.results, 0 < r.dt) ∧ ∀ r ∈ b.results, 0 < r.dt) :
    ∃ t, compareResults nrm a b = some t ∧ t.optim = (bothSolved a.results b.results).length ∧
      t.durA = ((bothSolved a.results b.results).map fun x => x.1.dt).sum ∧ t.durB = ((bothSolved a.results b.results).map fun x => x.2.dt).sum ∧
      t.diff = (diffs nrm (bothSolved a.results b.results)).sum ∧ t.ratio = (ratios (bothSolved a.results b.results)).prod ∧
      (0 < t.optim → ∃ x y, t.diffMin = some x ∧ x ∈ diffs nrm (bothSolved a.results b.results) ∧ (∀ z ∈ diffs nrm (bothSolved a.results b.results), x ≤ z ∧ z ≤ t.diffMax) ∧
        t.diffMax ∈ diffs nrm (bothSolved a.results b.results) ∧ x * (t.optim : F) ≤ t.diff ∧ t.diff ≤ t.diffMax * (t.optim : F) ∧
        t.ratioMin = some y ∧ y ∈ ratios (bothSolved a.results b.results) ∧ (∀ z ∈ ratios (bothSolved a.results b.results), y ≤ z ∧ z ≤ t.ratioMax) ∧
        t.ratioMax ∈ ratios (bothSolved a.results b.results) ∧ y ^ t.optim ≤ t.ratio ∧ t.ratio ≤ t.ratioMax ^ t.optim) := by
  obtain ⟨t, h0, h1, h2, h3, h4, h5, h6, h7, h8, h9⟩ := compareLoop_eq (nrm := nrm) a.results b.results ⟨0, 0, 0, 1, none, 0, 0, none, 0, 0, 0⟩ hl
  simp only [zero_add, one_mul] at h1 h2 h3 h4 h7
  refine ⟨t, by rw [compareResults, if_pos hl, h0], h1, h2, h3, h7, h4, fun hp => ?_⟩
  have gen : ∀ l : List F, 0 < l.length → (∀ x ∈ l, 0 ≤ x) → ∃ x, l.foldl (fun o x => minO x o) none = some x ∧ x ∈ l ∧ (∀ z ∈ l, x ≤ z ∧ z ≤ l.foldl (fun a x => max x a) 0) ∧
      l.foldl (fun a x => max x a) 0 ∈ l := by
    intro l hl h
    cases l with
    | nil => simp at hl
    | cons w l =>
      have g := foldl_min_le l w
      have g' := foldl_max_le (w :: l) 0
      refine ⟨l.foldl (fun a x => min x a) w, foldl_min l w, ?_, fun z hz => ⟨?_, g'.2.1 z hz⟩, ?_⟩
      · rcases g.2.2 with h | h
        · rw [h]; exact List.mem_cons_self
        · exact List.mem_cons_of_mem _ h
      · rcases List.mem_cons.1 hz with rfl | hz
        · exact g.1
        · exact g.2.1 z hz
      · rcases g'.2.2 with h' | h'
        · have hw := h w List.mem_cons_self
          have hw' := g'.2.1 w List.mem_cons_self
          rw [h'] at hw' ⊢
          rw [le_antisymm hw hw']
          exact List.mem_cons_self
        · exact h'
  have hd : ∀ x ∈ diffs nrm (bothSolved a.results b.results), 0 ≤ x := fun x hx => by
    obtain ⟨c, -, rfl⟩ := List.mem_map.1 hx
    exact hn _
  have hr : ∀ x ∈ ratios (bothSolved a.results b.results), 0 ≤ x := fun x hx => by
    obtain ⟨c, hc, rfl⟩ := List.mem_map.1 hx
    have hc' := List.mem_of_mem_filter hc
    exact (div_pos (hpos.1 _ (List.of_mem_zip hc').1) (hpos.2 _ (List.of_mem_zip hc').2)).le
  have ld : (diffs nrm (bothSolved a.results b.results)).length = t.optim := by rw [h1]; simp [diffs]
  have lr : (ratios (bothSolved a.results b.results)).length = t.optim := by rw [h1]; simp [ratios]
  obtain ⟨x, x1, x2, x3, x4⟩ := gen _ (by rw [ld]; exact hp) hd
  obtain ⟨y, y1, y2, y3, y4⟩ := gen _ (by rw [lr]; exact hp) hr
  rw [← h9] at x3 x4
  rw [← h6] at y3 y4
  have sx := sum_between x3
  have sy := prod_between (hr y y2) y3
  rw [ld, ← h7] at sx
  rw [lr, ← h4] at sy
  exact ⟨x, y, h8.trans x1, x2, x3, x4, sx.1, sx.2, h5.trans y1, y2, y3, y4, sy.1, sy.2⟩

/-- **C134, the two comparisons.** Batches that agree but for durations, as those of the dense and of the sparse solver, have the same numbers of solved problems, and their comparisons with a
third batch agree but for durations: in the numbers of problems and in the differences of solutions. -/
theorem compare_same (as bs cs : List (Result F n)) (h : List.Forall₂ Same as bs) : (solveBatch as).numOptimal = (solveBatch bs).numOptimal ∧
    ∀ t, compareResults nrm (solveBatch as) (solveBatch cs) = some t → ∃ t', compareResults nrm (solveBatch bs) (solveBatch cs) = some t' ∧
      t'.optim = t.optim ∧ t'.diff = t.diff ∧ t'.diffMin = t.diffMin ∧ t'.diffMax = t.diffMax ∧ t'.pinfeas = t.pinfeas ∧ t'.dinfeas = t.dinfeas := by
  constructor
  · rw [(batch_counts as).2.1, (batch_counts bs).2.1]
    induction h with
    | nil => rfl
    | cons hab _ ih =>
      simp only [List.filter_cons, hab.1]
      split_ifs
      · simp only [List.length_cons, ih]
      · exact ih
  · have key : ∀ {as bs : List (Result F n)}, List.Forall₂ Same as bs → ∀ cs (t t' u : Tab F), compareLoop nrm as cs t = some u →
        (t'.optim = t.optim ∧ t'.diff = t.diff ∧ t'.diffMin = t.diffMin ∧ t'.diffMax = t.diffMax ∧ t'.pinfeas = t.pinfeas ∧ t'.dinfeas = t.dinfeas) →
        ∃ u', compareLoop nrm bs cs t' = some u' ∧ u'.optim = u.optim ∧ u'.diff = u.diff ∧ u'.diffMin = u.diffMin ∧ u'.diffMax = u.diffMax ∧ u'.pinfeas = u.pinfeas ∧ u'.dinfeas = u.dinfeas := by
      intro as bs h
      induction h with
      | nil => intro cs t t' u hu ht; rw [compareLoop] at hu; cases hu; exact ⟨t', rfl, ht⟩
      | @cons a b as bs hab _ ih =>
        intro cs t t' u hu ht
        cases cs with
        | nil => simp [compareLoop] at hu
        | cons c cs =>
          rw [compareLoop] at hu ⊢
          refine ih cs _ _ u hu ?_
          obtain ⟨s1, -, s3, -⟩ := hab
          obtain ⟨k1, k2, k3, k4, k5, k6⟩ := ht
          unfold compareOne
          rw [← s1, ← s3]
          split_ifs
          · exact ⟨by simp only [k1], by simp only [k2], by simp only [k3], by simp only [k4], k5, k6⟩
          · exact ⟨k1, k2, k3, k4, by simp only [k5], k6⟩
          · exact ⟨k1, k2, k3, k4, k5, by simp only [k6]⟩
          · exact ⟨k1, k2, k3, k4, k5, k6⟩
    intro t ht
    have e : (solveBatch as).results = as ∧ (solveBatch bs).results = bs ∧ (solveBatch cs).results = cs := ⟨rfl, rfl, rfl⟩
    rw [compareResults, e.1, e.2.2] at ht
    rw [compareResults, e.2.1, e.2.2, ← h.length_eq]
    by_cases hl : as.length = cs.length
    · rw [if_pos hl] at ht ⊢
      exact key h cs _ _ t ht ⟨rfl, rfl, rfl, rfl, rfl, rfl⟩
    · rw [if_neg hl] at ht
      cases ht

/-- **C134, the plotted times.** If the sparse and the dense solver agree, the problems counted for the plot are those that the dense solver and OSQP both solved. -/
theorem plotted (ds ss os : List (Result F n)) (h : List.Forall₂ Same ds ss) (hl : ds.length = os.length) : ∀ k x y z,
    (solvedByAll ds ss os (k, x, y, z)).1 = k + (bothSolved ds os).length ∧
    (solvedByAll ds ss os (k, x, y, z)).2.2.1 = y + ((bothSolved ds os).map fun x => x.1.dt).sum ∧
    (solvedByAll ds ss os (k, x, y, z)).2.2.2 = z + ((bothSolved ds os).map fun x => x.2.dt).sum ∧
    (solvedByAll ds ss os (k, x, y, z)).2.1 = x + ((bothSolved ss os).map fun x => x.1.dt).sum := by
  induction h generalizing os with
  | nil => intro k x y z; simp [solvedByAll, bothSolved]
  | @cons d s ds ss hds _ ih =>
    cases os with
    | nil => simp at hl
    | cons o os =>
      intro k x y z
      have ih' := ih os (by simpa using hl)
      rw [solvedByAll]
      have hs := hds.1
      by_cases hc : d.status = .optimal ∧ o.status = .optimal
      · have e : ∀ (a : Result F n) as, a.status = .optimal → bothSolved (a :: as) (o :: os) = (a, o) :: bothSolved as os := fun a as ha => by
          unfold bothSolved
          rw [List.zip_cons_cons, List.filter_cons, if_pos (by simp [hc.2, ha])]
        rw [if_pos ⟨hc.1, hs ▸ hc.1, hc.2⟩, e d ds hc.1, e s ss (hs ▸ hc.1)]
        obtain ⟨i1, i2, i3, i4⟩ := ih' (k + 1) (x + s.dt) (y + d.dt) (z + o.dt)
        rw [i1, i2, i3, i4]
        simp only [List.map_cons, List.length_cons, List.sum_cons]
        refine ⟨by omega, by ring, by ring, by ring⟩
      · have e : ∀ (a : Result F n) as, a.status = d.status → bothSolved (a :: as) (o :: os) = bothSolved as os := fun a as ha => by
          unfold bothSolved
          rw [List.zip_cons_cons, List.filter_cons, if_neg (by simpa [ha] using hc)]
        rw [if_neg (fun h => hc ⟨h.1, h.2.2⟩), e d ds rfl, e s ss hs.symm]
        exact ih' k x y z

/-- **C134, a run.** For every list of draws without tiny entries, with factorisations that work, the calls of the dense and of the sparse solver all return and agree but for durations. -/
theorem bench_run {env env' : QP.Env F n} (hsq : SqrtPos env) (hl : LdltOk env) (hl' : LdltOk env') (hf : FactorsAll env) (hf' : FactorsAll env') (he : env.eps = env'.eps)
    (ds : List (Draw F n m × F × F)) (hd : ∀ d ∈ ds, NoDust (randomQp d.1)) (fuel : ℕ) (hfuel : 10001 ≤ fuel) :
    ∃ as bs, List.Forall₂ (fun d a => smoothWork env fuel d.2.1 (.dense (randomQp d.1)) = .ok a) ds as ∧
      List.Forall₂ (fun d b => smoothWork env' fuel d.2.2 (toSparse (randomQp d.1)) = .ok b) ds bs ∧ List.Forall₂ Same as bs := by
  induction ds with
  | nil => exact ⟨[], [], .nil, .nil, .nil⟩
  | cons d ds ih =>
    obtain ⟨as, bs, h1, h2, h3⟩ := ih fun e he => hd e (List.mem_cons_of_mem _ he)
    obtain ⟨a, b, g1, g2, g3⟩ := dense_sparse hsq hl hl' hf hf' he d.1 (hd d List.mem_cons_self) fuel hfuel d.2.1 d.2.2
    exact ⟨a :: as, b :: bs, .cons g1 h1, .cons g2 h2, .cons g3 h3⟩

end Verif.Bench
