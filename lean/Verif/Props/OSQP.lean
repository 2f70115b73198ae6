import Verif.Spec.OSQP
import Mathlib.LinearAlgebra.Matrix.Notation
import Mathlib.LinearAlgebra.Matrix.Symmetric
import Mathlib.Tactic.Ring
import Mathlib.Tactic.FinCases
import Mathlib.Tactic.NormNum
import Mathlib.Tactic.Linarith
import Mathlib.Tactic.FieldSimp
import Mathlib.Tactic.Positivity
import Mathlib.Data.Rat.Defs
import Mathlib.Algebra.Order.Ring.Rat

/-! # C62, C63, C69: the OSQP interface -/

namespace Verif.OSQP

open Matrix Verif.QP Verif.QPSpec

set_option linter.unusedSectionVars false

variable {F : Type*} [Field F] [LinearOrder F] [IsStrictOrderedRing F] {n m : ℕ} {ω : Type*}

/-! ### The problem -/

/-- Entries of this size are lost: `prune(1e-6)` compares with `1e-6 * dummy_precision`. -/
theorem prune_view {r c : ℕ} (M : Matrix (Fin r) (Fin c) F) (i : Fin r) (j : Fin c) :
    prune (1 / 10 ^ 6) (sparseView M) i j = if |M i j| ≤ 1 / 10 ^ 18 then none else some (M i j) := by
  have e : |(1 / 10 ^ 6 : F)| * dummyPrecision = 1 / 10 ^ 18 := by
    rw [abs_of_pos (by positivity), dummyPrecision]
    field_simp
  unfold prune sparseView muchSmaller
  simp only [e, abs_zero, zero_mul, decide_eq_true_eq]
  by_cases h0 : |M i j| ≤ 0
  · rw [if_pos h0, if_pos (h0.trans (by positivity))]
    rfl
  · rw [if_neg h0, Option.bind_some]

/-- **C63.** The matrix `P` handed to OSQP has no entry below the diagonal. -/
theorem osqp_upper (s : Src F n m) : (toData s).Upper := by
  intro i j hij
  cases s with
  | sparse P q A l u => exact if_neg (not_le.2 hij)
  | dense p =>
    change prune _ (sparseView (upperDense p.P)) i j = none
    rw [prune_view, if_pos]
    rw [upperDense, if_neg (not_le.2 hij), abs_zero]
    positivity

/-- **C63.** For a sparse problem the data are those of the documented problem. -/
theorem osqp_problem_sparse (P : CSC F n n) (q : Fin n → F) (A : CSC F m n) (l u : Fin m → Ext F) :
    (toData (.sparse P q A l u)).pbm = documented (Src.pbm (.sparse P q A l u)) := by
  unfold Data.pbm documented toData Src.pbm
  congr 1
  funext i j
  simp only [symm, CSC.val, upperSparse]
  rcases le_total i j with h | h
  · rw [if_pos h, if_pos h, if_pos h]
  · by_cases h' : i ≤ j
    · rw [if_pos h', if_pos h', if_pos h']
    · rw [if_neg h', if_neg h', if_pos h]

/-- **C63.** For a dense problem every number handed over is the given one or, if that is at most `10⁻¹⁸`, zero. -/
theorem osqp_entries (p : Pbm F n m) :
    (∀ i j, (toData (.dense p)).A.val i j = if |p.A i j| ≤ 1 / 10 ^ 18 then 0 else p.A i j) ∧
    (∀ i j, (toData (.dense p)).pbm.P i j = if |symm p.P i j| ≤ 1 / 10 ^ 18 then 0 else symm p.P i j) ∧
    (toData (.dense p)).q = p.q ∧ (toData (.dense p)).l = p.l ∧ (toData (.dense p)).u = p.u := by
  have key : ∀ {r c : ℕ} (M : Matrix (Fin r) (Fin c) F) i j,
      CSC.val (prune (1 / 10 ^ 6) (sparseView M)) i j = if |M i j| ≤ 1 / 10 ^ 18 then 0 else M i j := by
    intro r c M i j
    unfold CSC.val
    rw [prune_view]
    split_ifs <;> rfl
  refine ⟨fun i j => key _ _ _, fun i j => ?_, rfl, rfl, rfl⟩
  change symm (CSC.val (prune (1 / 10 ^ 6) (sparseView (upperDense p.P)))) i j = _
  simp only [symm, key, upperDense]
  rcases le_total i j with h | h
  · simp only [if_pos h]
  · by_cases h' : i ≤ j
    · simp only [if_pos h']
    · simp only [if_neg h', if_pos h]

/-- No nonzero number of the problem is as small as `10⁻¹⁸`; sparse problems are not pruned. -/
def Src.Clean : Src F n m → Prop
  | .dense p => (∀ i j, |p.A i j| ≤ 1 / 10 ^ 18 → p.A i j = 0) ∧ ∀ i j, i ≤ j → |p.P i j| ≤ 1 / 10 ^ 18 → p.P i j = 0
  | .sparse .. => True

/-- **C63 (partial).** The problem handed to OSQP is the given one, of which only the upper triangle of `P` is used (qp.hpp:34, 64):
same feasible points, same objective. Missing for the full claim: dense problems with nonzero entries of size at most `10⁻¹⁸`, which
are dropped (`osqp_problem_wrong`). -/
theorem osqp_problem_partial (s : Src F n m) (hs : s.Clean) :
    (toData s).pbm = documented s.pbm ∧ SameProblem (toData s).pbm (documented s.pbm) := by
  have e : (toData s).pbm = documented s.pbm := by
    cases s with
    | sparse P q A l u => exact osqp_problem_sparse P q A l u
    | dense p =>
      obtain ⟨hA, hP, -⟩ := osqp_entries p
      unfold Data.pbm documented Src.pbm
      have e1 : (toData (.dense p)).A.val = p.A := by
        funext i j
        rw [hA]
        split_ifs with h
        · exact (hs.1 i j h).symm
        · rfl
      have e2 : symm (toData (.dense p)).P.val = symm p.P := by
        funext i j
        have := hP i j
        unfold Data.pbm at this
        dsimp only at this
        rw [this]
        split_ifs with h
        · unfold symm at h ⊢
          split_ifs at h ⊢ with hij
          · exact (hs.2 i j hij h).symm
          · exact (hs.2 j i (not_le.1 hij).le h).symm
        · rfl
      rw [e1, e2]
      rfl
  exact ⟨e, e ▸ ⟨fun _ => Iff.rfl, fun _ => rfl⟩⟩

/-- A symmetric matrix is its own completion. -/
theorem documented_eq (p : Pbm F n m) (h : Matrix.IsSymm p.P) : documented p = p := by
  have e : symm p.P = p.P := by
    funext i j
    unfold symm
    split_ifs
    · rfl
    · exact h.apply i j
  unfold documented
  rw [e]

/-- A tiny constraint: `10⁻¹⁸ x ≥ 1`, objective `10⁻¹⁸ x² / 2`. -/
def tiny : Pbm ℚ 1 1 := ⟨fun _ _ => 1 / 10 ^ 18, fun _ => 0, fun _ _ => 1 / 10 ^ 18, fun _ => .fin 1, fun _ => .pos⟩

/-- **C63, violated.** The given problem has a feasible point, the one handed to OSQP has none; the objectives differ as well. -/
theorem osqp_problem_wrong : (∃ x, Feasible tiny x) ∧ (¬ ∃ x, Feasible (toData (.dense tiny)).pbm x) ∧
    cost tiny (fun _ => 1) ≠ cost (toData (.dense tiny)).pbm fun _ => 1 := by
  obtain ⟨hA, hP, hq, hl, hu⟩ := osqp_entries tiny
  have hA0 : (toData (.dense tiny)).pbm.A = 0 := by
    funext i j
    change (toData (.dense tiny)).A.val i j = 0
    rw [hA, if_pos (by norm_num [tiny])]
  have hP0 : (toData (.dense tiny)).pbm.P = 0 := by
    funext i j
    rw [hP, if_pos (by norm_num [tiny, symm])]
    rfl
  refine ⟨⟨fun _ => 10 ^ 18, fun i => ⟨?_, trivial⟩⟩, ?_, ?_⟩
  · change (1 : ℚ) ≤ _
    simp [tiny, Matrix.mulVec, dotProduct]
  · rintro ⟨x, hx⟩
    have := (hx 0).1
    rw [hA0, Matrix.zero_mulVec] at this
    change (1 : ℚ) ≤ 0 at this
    norm_num at this
  · unfold cost
    rw [hP0, Matrix.zero_mulVec]
    change _ ≠ _ / 2 + (toData (.dense tiny)).q ⬝ᵥ _
    rw [hq]
    simp [tiny, Matrix.mulVec, dotProduct]

/-- A problem that is not touched. -/
def fine : Pbm ℚ 2 1 := ⟨!![2, 1; 1, 2], ![1, 0], !![1, 1], fun _ => .fin 1, fun _ => .fin 1⟩

theorem fine_clean : (Src.dense fine).Clean := by
  refine ⟨fun i j => ?_, fun i j _ => ?_⟩ <;> fin_cases i <;> fin_cases j <;> simp [fine] <;> norm_num

example : SameProblem (toData (.dense fine)).pbm fine := by
  have := (osqp_problem_partial _ fine_clean).2
  rwa [documented_eq] at this
  ext i j
  change fine.P j i = fine.P i j
  fin_cases i <;> fin_cases j <;> rfl

/-! ### The outcome -/

theorem zero_and (x : BitVec 64) : (0 : BitVec 64) &&& x = 0 := BitVec.zero_and

/-- **C62.** What is returned. Nothing is defined if `osqp_setup` does not write the workspace. If it returns an error, the code is
`Unknown` and nothing else is set. Otherwise the code is the translation of OSQP's status after solving from the warm start. -/
theorem osqp_outcome (lib : Lib ω F n m) (s : Src F n m) (prm : Params F) (w : Option ((Fin n → F) × (Fin m → F))) (e : BitVec 64)
    (work : Option ω) (he : lib.setup (toData s) (toSettings lib.cmax prm) = (e, work)) :
    (work = none → solveQpOsqp lib s prm w = none) ∧
    (∀ k, work = some k → e ≠ 0 → solveQpOsqp lib s prm w = some ⟨.unknown, none⟩) ∧
    (∀ k, work = some k → e = 0 → ∀ k', k' = (match w with | some v => lib.warmStart k v.1 v.2 | none => k) →
      ∀ i, i = lib.info (lib.solve k').2 →
      ∃ r, solveQpOsqp lib s prm w = some r ∧ r.res = some (i.iter, i.x, i.y, i.obj) ∧
        (r.code = .optimal ↔ i.status = .solved) ∧ (r.code = .primalInfeasible ↔ i.status = .primalInfeasible) ∧
        (r.code = .dualInfeasible ↔ i.status = .dualInfeasible) ∧ (r.code = .maxIterations ↔ i.status = .maxIterReached) ∧
        (r.code = .maxTime ↔ i.status = .timeLimitReached) ∧ (r.code = .unknown ↔ i.status = .other) ∧ r.code ≠ .polishFailed) := by
  refine ⟨?_, ?_, ?_⟩
  · rintro rfl
    simp only [solveQpOsqp, he]
  · rintro k rfl h
    simp only [solveQpOsqp, he, if_neg h]
  · rintro k rfl rfl k' rfl i rfl
    simp only [solveQpOsqp, he, if_true, zero_and]
    refine ⟨_, rfl, rfl, ?_⟩
    dsimp only
    generalize (lib.info _).status = v
    cases v <;> simp [toCode]

/-- **C62 (partial).** A failed setup that leaves a workspace is reported as `Unknown`. Missing for the full claim: a failed setup
that leaves no workspace is undefined behaviour (`osqp_setup_undefined`), and errors of `osqp_solve` are ignored
(`osqp_solve_error_ignored`). -/
theorem osqp_error_partial (lib : Lib ω F n m) (s : Src F n m) (prm : Params F) (w : Option ((Fin n → F) × (Fin m → F))) (r : Ret F n m)
    (he : (lib.setup (toData s) (toSettings lib.cmax prm)).1 ≠ 0) (hr : solveQpOsqp lib s prm w = some r) :
    r.code = .unknown ∧ r.res = none := by
  obtain ⟨h1, h2, -⟩ := osqp_outcome lib s prm w _ _ rfl
  cases h : (lib.setup (toData s) (toSettings lib.cmax prm)).2 with
  | none =>
    rw [h1 h] at hr
    exact absurd hr (by simp)
  | some k =>
    rw [h2 k h he] at hr
    obtain rfl := Option.some.inj hr
    exact ⟨rfl, rfl⟩

/-- **C62, violated.** The error code of `osqp_solve` plays no role: `error &= osqp_solve(work)` keeps the zero. -/
theorem osqp_solve_error_ignored (lib : Lib ω F n m) (err : ω → BitVec 64) (s : Src F n m) (prm : Params F)
    (w : Option ((Fin n → F) × (Fin m → F))) :
    solveQpOsqp { lib with solve := fun k => (err k, (lib.solve k).2) } s prm w = solveQpOsqp lib s prm w := by
  unfold solveQpOsqp
  dsimp only
  cases (lib.setup (toData s) (toSettings lib.cmax prm)).2 with
  | none => rfl
  | some k =>
    dsimp only
    by_cases h : (lib.setup (toData s) (toSettings lib.cmax prm)).1 = 0
    · simp only [h, if_true, zero_and]
    · simp only [if_neg h]

/-- A library whose workspace is the result, and whose `osqp_solve` always fails with a stale status. -/
def broken : Lib Unit ℚ 2 1 where
  cmax := 2 ^ 63 - 1
  setup := fun _ _ => (0, some ())
  warmStart := fun w _ _ => w
  solve := fun w => (6, w)
  info := fun _ => ⟨.solved, 0, 0, 0, 0⟩

/-- **C62, violated.** An error of `osqp_solve` is reported as `Optimal`. -/
theorem osqp_solve_error_optimal : (broken.solve ()).1 ≠ 0 ∧
    ∃ r, solveQpOsqp broken (.dense fine) Params.default none = some r ∧ r.code = .optimal := by
  refine ⟨by simp [broken], ?_⟩
  obtain ⟨-, -, h⟩ := osqp_outcome broken (.dense fine) Params.default none 0 (some ()) rfl
  obtain ⟨r, hr, -, h, -⟩ := h () rfl rfl () rfl _ rfl
  exact ⟨r, hr, h.2 rfl⟩

/-- The settings that OSQP 0.6 rejects (`validate_settings`) before it allocates a workspace, among those that come from the
parameters. -/
def Settings.Rejected (s : Settings F) : Prop :=
  s.rho ≤ 0 ∨ s.sigma ≤ 0 ∨ s.delta ≤ 0 ∨ s.maxIter = 0 ∨ s.epsAbs < 0 ∨ s.epsRel < 0 ∨ (s.epsAbs = 0 ∧ s.epsRel = 0) ∨
    s.epsPrimInf ≤ 0 ∨ s.epsDualInf ≤ 0 ∨ s.alpha ≤ 0 ∨ 2 ≤ s.alpha ∨ s.timeLimit < 0

/-- Assumption on OSQP: rejected settings give an error and no workspace. -/
def Lib.Validates (lib : Lib ω F n m) : Prop := ∀ d s, s.Rejected → (lib.setup d s).1 ≠ 0 ∧ (lib.setup d s).2 = none

/-- **C69.** Parameters that OSQP rejects lead to undefined behaviour (the uninitialised pointer is given to `osqp_cleanup`), for every
problem: `max_iter = 0`, a negative `max_time`, both tolerances zero, `rho`, `sigma` or `delta` not positive, `alpha` outside `(0, 2)`. -/
theorem osqp_setup_undefined (lib : Lib ω F n m) (hv : lib.Validates) (s : Src F n m) (prm : Params F)
    (w : Option ((Fin n → F) × (Fin m → F)))
    (hp : prm.maxIter = some 0 ∨ (∃ t, prm.maxTime = some t ∧ t < 0) ∨ (prm.epsAbs = 0 ∧ prm.epsRel = 0) ∨ prm.rho ≤ 0 ∨ prm.sigma ≤ 0 ∨
      prm.delta ≤ 0 ∨ prm.alpha ≤ 0 ∨ 2 ≤ prm.alpha) : solveQpOsqp lib s prm w = none := by
  have hr : (toSettings lib.cmax prm).Rejected := by
    unfold Settings.Rejected toSettings
    dsimp only
    rcases hp with h | ⟨t, h, ht⟩ | h | h | h | h | h | h
    · rw [h]; simp
    · rw [h]
      dsimp only
      have h' : (t : F) < 0 := Int.cast_lt_zero.2 ht
      have : (t : F) / 10 ^ 9 < 0 := div_neg_of_neg_of_pos h' (by positivity)
      simp only [this, or_true]
    · exact Or.inr <| Or.inr <| Or.inr <| Or.inr <| Or.inr <| Or.inr <| Or.inl h
    all_goals simp only [h, true_or, or_true]
  exact (osqp_outcome lib s prm w _ _ rfl).1 (hv _ _ hr).2

/-- **C69.** The settings given to `osqp_setup` are those of the parameters. -/
theorem osqp_settings (cmax : ℕ) (prm : Params F) : (toSettings cmax prm).For cmax prm where
  relaxation := rfl
  steps := ⟨rfl, rfl⟩
  fixed := rfl
  convergence := ⟨rfl, rfl, rfl⟩
  infeasibility := ⟨rfl, rfl⟩
  checks := rfl
  scale := by
    unfold toSettings
    cases prm.scaling <;> simp
  polishing := ⟨rfl, rfl, rfl⟩
  iterations := by
    intro k
    unfold toSettings
    dsimp only
    cases prm.maxIter with
    | none => simp [eq_comm]
    | some j => simp
  time := by
    intro t ht
    unfold toSettings
    rw [ht]
    dsimp only
    field_simp
  noTime := by
    intro ht
    unfold toSettings
    rw [ht]

/-- **C69.** The parameters reach OSQP: a run with no limit has the largest iteration count and time limit zero, which means none; so
does `max_time = 0`. -/
theorem osqp_time_zero (lib : Lib ω F n m) (s : Src F n m) (prm : Params F) (w : Option ((Fin n → F) × (Fin m → F))) :
    solveQpOsqp lib s { prm with maxTime := some 0 } w = solveQpOsqp lib s { prm with maxTime := none } w := by
  have e : toSettings lib.cmax { prm with maxTime := some 0 } = toSettings lib.cmax { prm with maxTime := none } := by
    simp [toSettings]
  unfold solveQpOsqp
  rw [e]

/-- **C63.** With a library that solves its problem, the code `Optimal` means that the primal vector minimises the given problem
(symmetric `P`, no tiny entries). -/
theorem osqp_optimal (lib : Lib ω F n m) (hl : lib.Exact) (s : Src F n m) (hs : s.Clean) (hP : Matrix.IsSymm s.pbm.P) (prm : Params F)
    (w : Option ((Fin n → F) × (Fin m → F))) (r : Ret F n m) (hr : solveQpOsqp lib s prm w = some r) (hc : r.code = .optimal) :
    ∃ i x y o, r.res = some (i, x, y, o) ∧ Minimiser s.pbm x := by
  rcases hset : lib.setup (toData s) (toSettings lib.cmax prm) with ⟨e, work⟩
  obtain ⟨h1, h2, h3⟩ := osqp_outcome lib s prm w e work hset
  cases work with
  | none =>
    rw [h1 rfl] at hr
    exact absurd hr (by simp)
  | some k =>
    by_cases he : e = 0
    · subst he
      obtain ⟨r', hr', hres, hopt, -⟩ := h3 k rfl rfl _ rfl _ rfl
      obtain rfl := Option.some.inj (hr.symm.trans hr')
      refine ⟨_, _, _, _, hres, ?_⟩
      have hst := hopt.1 hc
      have hd : (toData s).pbm = s.pbm := by rw [(osqp_problem_partial s hs).1, documented_eq _ hP]
      rw [← hd]
      cases w with
      | none => exact (hl _ _ k hset).2 hst
      | some v => exact (hl _ _ k hset).1 _ _ hst
    · rw [h2 k rfl he] at hr
      obtain rfl := Option.some.inj hr
      exact absurd hc (by simp)

/-! ### Example -/

open Classical in
/-- A library that checks its settings and then finds a minimiser if there is one; the workspace is the data. -/
noncomputable def ideal : Lib (Data ℚ n m) ℚ n m where
  cmax := 2 ^ 63 - 1
  setup := fun d s => if s.Rejected then (4, none) else (0, some d)
  warmStart := fun w _ _ => w
  solve := fun w => (0, w)
  info := fun d => if h : ∃ x, Minimiser d.pbm x then ⟨.solved, 1, h.choose, 0, cost d.pbm h.choose⟩ else ⟨.other, 0, 0, 0, 0⟩

theorem ideal_validates : (ideal : Lib _ ℚ n m).Validates := by
  intro d s hs
  simp only [ideal, if_pos hs]
  exact ⟨by decide, trivial⟩

theorem ideal_exact : (ideal : Lib _ ℚ n m).Exact := by
  have key : ∀ d : Data ℚ n m, (ideal.info d).status = .solved → Minimiser d.pbm (ideal.info d).x := by
    intro d h
    unfold ideal at h ⊢
    dsimp only at h ⊢
    split_ifs at h ⊢ with hx
    exact hx.choose_spec
  intro d s w hs
  have : w = d := by
    unfold ideal at hs
    dsimp only at hs
    split_ifs at hs with hr
    · simp at hs
    · exact (Option.some.inj (Prod.ext_iff.1 hs).2).symm
  subst this
  exact ⟨fun _ _ => key w, key w⟩

theorem fine_symm : Matrix.IsSymm fine.P := by
  ext i j
  change fine.P j i = fine.P i j
  fin_cases i <;> fin_cases j <;> rfl

theorem fine_min : Minimiser fine ![0, 1] := by
  refine ⟨fun i => ?_, fun w hw => ?_⟩
  · change (1 : ℚ) ≤ _ ∧ _ ≤ (1 : ℚ)
    fin_cases i
    simp [fine, Matrix.mulVec, dotProduct, Fin.sum_univ_two]
  · have h := hw 0
    change (1 : ℚ) ≤ _ ∧ _ ≤ (1 : ℚ) at h
    simp only [fine, Matrix.mulVec, dotProduct, Fin.sum_univ_two, Matrix.of_apply, Matrix.cons_val_zero, Matrix.cons_val_one] at h
    have e : w 1 = 1 - w 0 := by linarith [h.1, h.2]
    simp only [cost, fine, Matrix.mulVec, dotProduct, Fin.sum_univ_two, Matrix.of_apply, Matrix.cons_val_zero, Matrix.cons_val_one, e]
    nlinarith [sq_nonneg (w 0)]

/-- The default parameters are accepted, and the problem `fine` is solved through the interface: the minimiser is unique. -/
example (w : Option ((Fin 2 → ℚ) × (Fin 1 → ℚ))) : ∃ r i x y o, solveQpOsqp ideal (.dense fine) Params.default w = some r ∧ r.code = .optimal ∧
    r.res = some (i, x, y, o) ∧ Minimiser fine x := by
  have ha : ¬ (toSettings (ideal : Lib _ ℚ 2 1).cmax (Params.default : Params ℚ)).Rejected := by
    norm_num [Settings.Rejected, toSettings, Params.default, ideal]
  have hd : (toData (.dense fine)).pbm = fine := by
    rw [(osqp_problem_partial _ fine_clean).1]
    exact documented_eq _ fine_symm
  obtain ⟨-, -, h⟩ := osqp_outcome ideal (.dense fine) Params.default w 0 (some (toData (.dense fine))) (by simp only [ideal] at ha ⊢; rw [if_neg ha])
  obtain ⟨r, hr, -, hopt, -⟩ := h _ rfl rfl (toData (.dense fine)) (by cases w <;> rfl) _ rfl
  have hc : r.code = .optimal := by
    refine hopt.2 ?_
    have hx : ∃ x, Minimiser (toData (.dense fine)).pbm x := ⟨_, hd ▸ fine_min⟩
    simp only [ideal]
    rw [dif_pos hx]
  obtain ⟨i, x, y, o, hres, hm⟩ := osqp_optimal ideal ideal_exact (.dense fine) fine_clean fine_symm Params.default w r hr hc
  exact ⟨r, i, x, y, o, hr, hc, hres, hm⟩

/-- A run with `max_iter = 0` is undefined. -/
example : solveQpOsqp ideal (.dense fine) { Params.default with maxIter := some 0 } none = none :=
  osqp_setup_undefined _ ideal_validates _ _ _ (Or.inl rfl)

end Verif.OSQP
