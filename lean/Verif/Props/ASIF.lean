import Verif.Proofs.ASIF

/-!
# The program of the safety filter (C45, C46, C47, C48, C50, C64)
-/

set_option linter.unusedSectionVars false

namespace Verif.ASIF

open Verif.QPSpec
open Verif.QP (Ext Status)

variable {X U F : Type*} {nx nu : ℕ} [Field F] [LinearOrder F] [IsStrictOrderedRing F]

/-! ## More fuel -/

theorem advance_mono (env : Env X U F nx nu) (d : Dyn X U F nx nu) (b : Backup X U F nx) (target dt : F) (fuel fuel' : ℕ) (hf : fuel ≤ fuel')
    (s s' : St X F nx) (h : advance env d b target dt fuel s = some s') : advance env d b target dt fuel' s = some s' := by
  induction fuel generalizing fuel' s with
  | zero => simp [advance] at h
  | succ fuel ih =>
    obtain ⟨fuel', rfl⟩ := Nat.exists_eq_succ_of_ne_zero (by omega : fuel' ≠ 0)
    rw [advance] at h ⊢
    split_ifs at h ⊢
    · exact ih fuel' (by omega) _ h
    · exact h

theorem barrierLoop_mono (env : Env X U F nx nu) (d : Dyn X U F nx nu) (b : Backup X U F nx) (h : Barrier X F nx) (alpha tau dt : F)
    (f0 : Fin nx → F) (df0 : Matrix (Fin nx) (Fin nu) F) (fuel fuel' : ℕ) (hf : fuel ≤ fuel') (n k : ℕ) (s : St X F nx) (qp qp' : DQP F)
    (h' : barrierLoop env d b h alpha tau dt f0 df0 fuel n k s qp = some qp') :
    barrierLoop env d b h alpha tau dt f0 df0 fuel' n k s qp = some qp' := by
  induction n generalizing k s qp with
  | zero => exact h'
  | succ n ih =>
    rw [barrierLoop, Option.bind_eq_some_iff] at h' ⊢
    obtain ⟨q1, h1, h2⟩ := h'
    refine ⟨q1, h1, ?_⟩
    dsimp only at h2 ⊢
    rw [Option.bind_eq_some_iff] at h2 ⊢
    obtain ⟨s1, h3, h4⟩ := h2
    exact ⟨s1, advance_mono env d b _ _ fuel fuel' hf s s1 h3, ih _ _ _ h4⟩

/-- With more fuel the result is the same. -/
theorem update_mono (env : Env X U F nx nu) (d : Dyn X U F nx nu) (b : Backup X U F nx) (h : Barrier X F nx) (p : Pbm X U F nu) (prm : Prm F)
    (fuel fuel' : ℕ) (hf : fuel ≤ fuel') (qp qp' : DQP F) (h' : update env d b h p prm fuel qp = some qp') :
    update env d b h p prm fuel' qp = some qp' := by
  unfold update at h' ⊢
  split_ifs at h' with c
  rw [if_pos c]
  dsimp only at h' ⊢
  rw [Option.bind_eq_some_iff] at h' ⊢
  obtain ⟨q1, h1, h2⟩ := h'
  exact ⟨q1, barrierLoop_mono env d b h _ _ _ _ _ fuel fuel' hf _ _ _ _ _ h1, h2⟩

/-! ## C48: the integration -/

/-- With a positive horizon and step there is a schedule. The times of the constraints increase strictly, constraint `k` is not
before `k tau` and less than one step after it, and no step is longer than `dt`. -/
theorem asif_schedule [Archimedean F] (T dt : F) (K : ℕ) (hT : 0 < T) (hdt : 0 < dt) (hK : 1 ≤ K) :
    ∃ steps : ℕ → List F, Schedule K (T / K) (min dt (T / K)) steps ∧
      (∀ k < K, (steps k).sum < (steps (k + 1)).sum) ∧
      (∀ k ≤ K, T / K * k ≤ (steps k).sum ∧ (steps k).sum < T / K * k + min dt (T / K)) ∧
      (∀ k ≤ K, ∀ e ∈ steps k, 0 < e ∧ e ≤ dt) := by
  have hKF : (0 : F) < K := by exact_mod_cast hK
  have htau : 0 < T / K := div_pos hT hKF
  have hd : 0 < min dt (T / K) := lt_min hdt htau
  obtain ⟨steps, hS⟩ := exists_schedule (T / K) (min dt (T / K)) hd (min_le_right _ _) K
  have ht := hS.time hd (min_le_right _ _)
  refine ⟨steps, hS, fun k hk => ?_, ht, fun k hk => ?_⟩
  · have h1 := (ht k hk.le).2
    have h2 := (ht (k + 1) hk).1
    have h3 := min_le_right dt (T / K)
    push_cast at h2
    linarith
  · induction k with
    | zero => rw [hS.zero]; simp
    | succ k ih =>
      obtain ⟨n, a1, -, -⟩ := hS.rule k (by omega)
      intro e he
      rw [a1, List.mem_append] at he
      rcases he with he | he
      · exact ih (by omega) e he
      · rw [List.eq_of_mem_replicate he]
        refine ⟨lt_min hd ?_, (min_le_left _ _).trans (min_le_left _ _)⟩
        have h1 := (ht k (by omega)).2
        have h3 := min_le_right dt (T / K)
        push_cast
        linarith

/-- The construction of the program ends exactly if there is nothing to integrate or the step is positive. -/
theorem asif_terminates_iff [Archimedean F] (env : Env X U F nx nu) (d : Dyn X U F nx nu) (b : Backup X U F nx) (h : Barrier X F nx) (p : Pbm X U F nu)
    (prm : Prm F) : (∃ fuel qp, toQP env d b h p prm fuel = some qp) ↔ prm.K = 0 ∨ p.T ≤ 0 ∨ 0 < prm.dt := by
  constructor
  · rintro ⟨fuel, qp, hq⟩
    by_contra hc
    push Not at hc
    obtain ⟨hK, hT, hdt⟩ := hc
    obtain ⟨K, hK'⟩ := Nat.exists_eq_succ_of_ne_zero hK
    have hKF : (0 : F) < prm.K := by exact_mod_cast Nat.pos_of_ne_zero hK
    have htau : 0 < p.T / prm.K := div_pos hT hKF
    unfold toQP update at hq
    split_ifs at hq
    dsimp only at hq
    rw [Option.bind_eq_some_iff] at hq
    obtain ⟨q1, h1, -⟩ := hq
    generalize prm.K = K' at *
    subst hK'
    rw [barrierLoop, Option.bind_eq_some_iff] at h1
    obtain ⟨q2, -, h2⟩ := h1
    dsimp only at h2
    rw [advance_stuck] at h2
    · simp at h2
    · exact (min_le_left _ _).trans ((min_le_left _ _).trans hdt)
    · simpa using htau
  · intro hc
    have : ∃ steps : ℕ → List F, Schedule prm.K (p.T / prm.K) (min prm.dt (p.T / prm.K)) steps := by
      rcases hc with hc | hc | hc
      · exact ⟨fun _ => [], rfl, fun k hk => absurd hk (by omega)⟩
      · exact ⟨_, schedule_empty _ _ _ (div_nonpos_of_nonpos_of_nonneg hc (by positivity))⟩
      · by_cases hT : p.T ≤ 0
        · exact ⟨_, schedule_empty _ _ _ (div_nonpos_of_nonpos_of_nonneg hT (by positivity))⟩
        · by_cases hK : prm.K = 0
          · exact ⟨fun _ => [], rfl, fun k hk => absurd hk (by omega)⟩
          · obtain ⟨steps, hS, -⟩ := asif_schedule p.T prm.dt prm.K (lt_of_not_ge hT) hc (by omega)
            exact ⟨steps, hS⟩
    obtain ⟨steps, hS⟩ := this
    refine ⟨(Finset.range (prm.K + 1)).sup (fun k => (steps k).length) + 1, _, update_eq env d b h p prm _ steps hS (fun k hk => ?_) _ (allocate_clean _ _ _ _)⟩
    exact Nat.lt_succ_of_le (Finset.le_sup (f := fun k => (steps k).length) (Finset.mem_range.mpr (by omega)))

/-! ## The program -/

/-- Whatever program is built, it belongs to a schedule: its feasible points are the corrections and slacks that satisfy the barrier
conditions along the schedule, the input constraints of the first-order corrected input, and a nonnegative slack; its cost is
the weighted square. -/
theorem asif_program (env : Env X U F nx nu) (d : Dyn X U F nx nu) (b : Backup X U F nx) (h : Barrier X F nx) (p : Pbm X U F nu)
    (prm : Prm F) (steps : ℕ → List F) (hS : Schedule prm.K (p.T / prm.K) (min prm.dt (p.T / prm.K)) steps) (fuel : ℕ) (qp : DQP F)
    (hq : toQP env d b h p prm fuel = some qp) :
    HasSize qp (nu + 1) (prm.K * h.nh + p.ulim.rows + 1) ∧ ∀ v : Fin (nu + 1) → F,
      (Feasible (qp.pbm (nu + 1) (prm.K * h.nh + p.ulim.rows + 1)) v ↔
        Safe env d b h p prm steps (corr v) (slack v) ∧ InPoly p.ulim (env.uminus p.udes p.ulim.c + corr v) ∧ 0 ≤ slack v) ∧
      cost (qp.pbm (nu + 1) (prm.K * h.nh + p.ulim.rows + 1)) v = (∑ i, p.W i * corr v i ^ 2 + prm.relax * slack v ^ 2) / 2 := by
  have hb := update_eq env d b h p prm (max fuel ((Finset.range (prm.K + 1)).sup (fun k => (steps k).length) + 1)) steps hS (fun k hk =>
    lt_max_of_lt_right (Nat.lt_succ_of_le (Finset.le_sup (f := fun k => (steps k).length) (Finset.mem_range.mpr (by omega))))) _
    (allocate_clean nu prm.K p.ulim.rows h.nh)
  have h2 := update_mono env d b h p prm fuel (max fuel ((Finset.range (prm.K + 1)).sup (fun k => (steps k).length) + 1)) (le_max_left _ _) _ _ hq
  rw [hb] at h2
  obtain rfl := Option.some.inj h2
  exact ⟨built_size env d b h p prm steps, fun v => ⟨built_feasible env d b h p prm steps v, built_cost env d b h p prm steps _ v⟩⟩

/-- A program that was built has a schedule. -/
theorem toQP_schedule [Archimedean F] (env : Env X U F nx nu) (d : Dyn X U F nx nu) (b : Backup X U F nx) (h : Barrier X F nx) (p : Pbm X U F nu)
    (prm : Prm F) (fuel : ℕ) (qp : DQP F) (hq : toQP env d b h p prm fuel = some qp) :
    ∃ steps : ℕ → List F, Schedule prm.K (p.T / prm.K) (min prm.dt (p.T / prm.K)) steps := by
  by_cases hK : prm.K = 0
  · exact ⟨fun _ => [], rfl, fun k hk => absurd hk (by omega)⟩
  by_cases hT : p.T ≤ 0
  · exact ⟨_, schedule_empty _ _ _ (div_nonpos_of_nonpos_of_nonneg hT (by positivity))⟩
  rcases (asif_terminates_iff env d b h p prm).mp ⟨fuel, qp, hq⟩ with hc | hc | hc
  · exact absurd hc hK
  · exact absurd hc hT
  · obtain ⟨steps, hS, -⟩ := asif_schedule p.T prm.dt prm.K (lt_of_not_ge hT) hc (by omega)
    exact ⟨steps, hS⟩

/-! ## C64: the input rows -/

/-- For inputs in a vector space, the rows of the program that come from the input constraints say that the corrected input is in the set. -/
theorem asif_input_rows (env : Env X (Fin nu → F) F nx nu) (he : FlatInput env) (d : Dyn X (Fin nu → F) F nx nu) (b : Backup X (Fin nu → F) F nx)
    (h : Barrier X F nx) (p : Pbm X (Fin nu → F) F nu) (prm : Prm F) (steps : ℕ → List F)
    (hS : Schedule prm.K (p.T / prm.K) (min prm.dt (p.T / prm.K)) steps) (fuel : ℕ) (qp : DQP F)
    (hq : toQP env d b h p prm fuel = some qp) (v : Fin (nu + 1) → F) :
    Feasible (qp.pbm (nu + 1) (prm.K * h.nh + p.ulim.rows + 1)) v ↔
      Safe env d b h p prm steps (corr v) (slack v) ∧ InBounds env p.ulim (env.uplus p.udes (corr v)) ∧ 0 ≤ slack v := by
  rw [(asif_program env d b h p prm steps hS fuel qp hq).2 v |>.1]
  unfold InBounds
  rw [he.minus, he.minus, he.plus, add_sub_right_comm]

/-! ## C45: feasibility -/

theorem exists_slack (env : Env X U F nx nu) (d : Dyn X U F nx nu) (b : Backup X U F nx) (h : Barrier X F nx) (p : Pbm X U F nu)
    (prm : Prm F) (steps : ℕ → List F) (mu : Fin nu → F) : ∃ s, 0 ≤ s ∧ Safe env d b h p prm steps mu s := by
  suffices ∀ K, ∃ s : F, 0 ≤ s ∧ ∀ k < K, ∀ j, 0 ≤ barrier d h prm.alpha p.x0 p.udes (steps k).sum (march env d b (steps k) 0 p.x0)
      (sens env d b (steps k) 0 p.x0 1) mu j + s from this prm.K
  intro K
  induction K with
  | zero => exact ⟨0, le_rfl, fun k hk => absurd hk (by omega)⟩
  | succ K ih =>
    obtain ⟨s, h0, hs⟩ := ih
    set g := barrier d h prm.alpha p.x0 p.udes (steps K).sum (march env d b (steps K) 0 p.x0) (sens env d b (steps K) 0 p.x0 1) mu
    refine ⟨s + ∑ j, |g j|, by positivity, fun k hk j => ?_⟩
    have hn : 0 ≤ ∑ j, |g j| := Finset.sum_nonneg fun _ _ => abs_nonneg _
    rcases Nat.lt_succ_iff_lt_or_eq.mp hk with hk | rfl
    · have := hs k hk j
      linarith
    · have h1 : |g j| ≤ ∑ j, |g j| := Finset.single_le_sum (fun i _ => abs_nonneg (g i)) (Finset.mem_univ j)
      have h2 := neg_abs_le (g j)
      linarith

/-- The program has a feasible point as soon as some input satisfies the input constraints. -/
theorem asif_feasible [Archimedean F] (env : Env X U F nx nu) (d : Dyn X U F nx nu) (b : Backup X U F nx) (h : Barrier X F nx) (p : Pbm X U F nu)
    (prm : Prm F) (fuel : ℕ) (qp : DQP F) (hq : toQP env d b h p prm fuel = some qp) (u : U) (hu : InBounds env p.ulim u) :
    ∃ v, Feasible (qp.pbm (nu + 1) (prm.K * h.nh + p.ulim.rows + 1)) v := by
  obtain ⟨steps, hS⟩ := toQP_schedule env d b h p prm fuel qp hq
  obtain ⟨s, h0, hs⟩ := exists_slack env d b h p prm steps (env.uminus u p.ulim.c - env.uminus p.udes p.ulim.c)
  refine ⟨Fin.snoc (α := fun _ => F) (env.uminus u p.ulim.c - env.uminus p.udes p.ulim.c) s, ?_⟩
  rw [(asif_program env d b h p prm steps hS fuel qp hq).2 _ |>.1]
  have e1 : corr (Fin.snoc (α := fun _ => F) (env.uminus u p.ulim.c - env.uminus p.udes p.ulim.c) s) = env.uminus u p.ulim.c - env.uminus p.udes p.ulim.c := by
    funext i; simp [corr]
  have e2 : slack (Fin.snoc (α := fun _ => F) (env.uminus u p.ulim.c - env.uminus p.udes p.ulim.c) s) = s := by simp [slack]
  rw [e1, e2, add_sub_cancel]
  exact ⟨hs, hu, h0⟩

/-- For inputs in a vector space the program is feasible exactly if the input set is nonempty. -/
theorem asif_feasible_iff [Archimedean F] (env : Env X (Fin nu → F) F nx nu) (he : FlatInput env) (d : Dyn X (Fin nu → F) F nx nu)
    (b : Backup X (Fin nu → F) F nx) (h : Barrier X F nx) (p : Pbm X (Fin nu → F) F nu)
    (prm : Prm F) (fuel : ℕ) (qp : DQP F) (hq : toQP env d b h p prm fuel = some qp) :
    (∃ v, Feasible (qp.pbm (nu + 1) (prm.K * h.nh + p.ulim.rows + 1)) v) ↔ ∃ u, InBounds env p.ulim u := by
  constructor
  · rintro ⟨v, hv⟩
    obtain ⟨steps, hS⟩ := toQP_schedule env d b h p prm fuel qp hq
    exact ⟨_, ((asif_input_rows env he d b h p prm steps hS fuel qp hq v).mp hv).2.1⟩
  · rintro ⟨u, hu⟩
    exact asif_feasible env d b h p prm fuel qp hq u hu

/-! ## C46: minimal invasiveness -/

/-- If the desired input satisfies the input constraints and the barrier conditions, zero correction and slack are the only minimiser. -/
theorem asif_zero_unique (env : Env X U F nx nu) (d : Dyn X U F nx nu) (b : Backup X U F nx) (h : Barrier X F nx) (p : Pbm X U F nu)
    (prm : Prm F) (hW : ∀ i, 0 < p.W i) (hr : 0 < prm.relax) (steps : ℕ → List F)
    (hS : Schedule prm.K (p.T / prm.K) (min prm.dt (p.T / prm.K)) steps) (fuel : ℕ) (qp : DQP F)
    (hq : toQP env d b h p prm fuel = some qp) (hu : InBounds env p.ulim p.udes) (hs : Safe env d b h p prm steps 0 0) (v : Fin (nu + 1) → F) :
    Minimiser (qp.pbm (nu + 1) (prm.K * h.nh + p.ulim.rows + 1)) v ↔ v = 0 := by
  have hp := (asif_program env d b h p prm steps hS fuel qp hq).2
  have c0 : corr (0 : Fin (nu + 1) → F) = 0 := rfl
  have s0 : slack (0 : Fin (nu + 1) → F) = 0 := rfl
  have f0 : Feasible (qp.pbm (nu + 1) (prm.K * h.nh + p.ulim.rows + 1)) 0 := by
    rw [(hp 0).1, c0, s0, add_zero]
    exact ⟨hs, hu, le_rfl⟩
  have k0 : cost (qp.pbm (nu + 1) (prm.K * h.nh + p.ulim.rows + 1)) 0 = 0 := by
    rw [(hp 0).2, c0, s0]
    simp
  have hpos : ∀ v : Fin (nu + 1) → F, 0 ≤ ∑ i, p.W i * corr v i ^ 2 := fun v =>
    Finset.sum_nonneg fun i _ => mul_nonneg (hW i).le (sq_nonneg _)
  constructor
  · intro hm
    have h1 := hm.2 0 f0
    rw [k0, (hp v).2] at h1
    have h2 := hpos v
    have h3 : 0 ≤ prm.relax * slack v ^ 2 := mul_nonneg hr.le (sq_nonneg _)
    have h4 : ∑ i, p.W i * corr v i ^ 2 = 0 := by linarith
    have h5 : prm.relax * slack v ^ 2 = 0 := by linarith
    rw [Finset.sum_eq_zero_iff_of_nonneg fun i _ => mul_nonneg (hW i).le (sq_nonneg _)] at h4
    funext i
    refine Fin.lastCases ?_ (fun i => ?_) i
    · have := (mul_eq_zero.mp h5).resolve_left hr.ne'
      exact pow_eq_zero_iff (two_ne_zero) |>.mp this
    · have := (mul_eq_zero.mp (h4 i (Finset.mem_univ _))).resolve_left (hW i).ne'
      exact pow_eq_zero_iff (two_ne_zero) |>.mp this
  · rintro rfl
    refine ⟨f0, fun w _ => ?_⟩
    rw [k0, (hp w).2]
    have := hpos w
    have h3 : 0 ≤ prm.relax * slack w ^ 2 := mul_nonneg hr.le (sq_nonneg _)
    linarith

/-! ## C47: the times of the constraints -/

/-- All constraints are at the documented times exactly if there is at most one constraint or the interval is a whole number of steps. -/
theorem asif_times_partial (K : ℕ) (tau dt : F) (hdt : 0 < dt) (hle : dt ≤ tau) (steps : ℕ → List F) (hS : Schedule K tau dt steps) :
    (∀ k < K, (steps k).sum = k * tau) ↔ K ≤ 1 ∨ ∃ n : ℕ, tau = n * dt := by
  constructor
  · intro h
    by_cases hK : K ≤ 1
    · exact Or.inl hK
    · right
      obtain ⟨n, a1, -, -⟩ := hS.rule 0 (by omega)
      have h1 := h 1 (by omega)
      refine ⟨n, ?_⟩
      rw [a1, hS.zero] at h1
      simpa [hle] using h1.symm
  · rintro (hK | ⟨m, hm⟩) k hk
    · obtain rfl : k = 0 := by omega
      simp [hS.zero]
    · suffices ∀ k ≤ K, (steps k).sum = k * tau from this k hk.le
      clear hk k
      intro k hk
      induction k with
      | zero => simp [hS.zero]
      | succ k ih =>
        have ih := ih (by omega)
        obtain ⟨n, a1, a2, a3⟩ := hS.rule k (by omega)
        have he : min dt (tau * ((k + 1 : ℕ) : F) - (steps k).sum) = dt := by
          rw [ih, min_eq_left]
          push_cast
          linarith
        rw [he] at a1 a2
        rw [a1] at a3
        simp only [List.sum_append, List.sum_replicate, nsmul_eq_mul] at a3
        rw [ih] at a2 a3
        have h1 : m ≤ n := by
          push_cast at a3
          have : (m : F) * dt ≤ n * dt := by linarith
          exact_mod_cast le_of_mul_le_mul_right this hdt
        have h2 : n ≤ m := by
          by_contra hc
          have := a2 m (by omega)
          push_cast at this
          linarith
        obtain rfl : n = m := by omega
        rw [a1]
        simp only [List.sum_append, List.sum_replicate, nsmul_eq_mul]
        rw [ih]
        push_cast
        linarith

/-! ## C50: histories of calls -/

theorem barrierRows_indep (alpha : F) (h : Barrier X F nx) (f0 : Fin nx → F) (df0 : Matrix (Fin nx) (Fin nu) F) (k : ℕ) (s : St X F nx)
    (q1 q2 r1 : DQP F) (hA : q1.A.rows = q2.A.rows ∧ q1.A.cols = q2.A.cols) (hl : q1.l.size = q2.l.size) (hu : q1.u.size = q2.u.size)
    (hr : barrierRows nu alpha h f0 df0 k s q1 = some r1) :
    ∃ r2, barrierRows nu alpha h f0 df0 k s q2 = some r2 ∧ (r1.A.rows = r2.A.rows ∧ r1.A.cols = r2.A.cols) ∧ r1.l.size = r2.l.size ∧
      r1.u.size = r2.u.size := by
  unfold barrierRows DM.setBlock DV.setSeg at hr ⊢
  rw [hA.1, hA.2, hl, hu] at hr
  dsimp only at hr ⊢
  split_ifs at hr ⊢ <;> simp only [Option.bind_some, Option.bind_none, Option.map_some, Option.map_none, reduceCtorEq, Option.some.injEq] at hr ⊢
  subst hr
  exact ⟨_, rfl, ⟨rfl, rfl⟩, rfl, rfl⟩

theorem barrierLoop_indep (env : Env X U F nx nu) (d : Dyn X U F nx nu) (b : Backup X U F nx) (h : Barrier X F nx) (alpha tau dt : F)
    (f0 : Fin nx → F) (df0 : Matrix (Fin nx) (Fin nu) F) (fuel : ℕ) (n k : ℕ) (s : St X F nx) (q1 q2 r1 : DQP F)
    (hA : q1.A.rows = q2.A.rows ∧ q1.A.cols = q2.A.cols) (hl : q1.l.size = q2.l.size) (hu : q1.u.size = q2.u.size)
    (hr : barrierLoop env d b h alpha tau dt f0 df0 fuel n k s q1 = some r1) :
    ∃ r2, barrierLoop env d b h alpha tau dt f0 df0 fuel n k s q2 = some r2 := by
  induction n generalizing k s q1 q2 with
  | zero => exact ⟨q2, rfl⟩
  | succ n ih =>
    rw [barrierLoop, Option.bind_eq_some_iff] at hr
    obtain ⟨w1, h1, h2⟩ := hr
    dsimp only at h2
    rw [Option.bind_eq_some_iff] at h2
    obtain ⟨s1, h3, h4⟩ := h2
    obtain ⟨w2, g1, g2, g3, g4⟩ := barrierRows_indep alpha h f0 df0 k s q1 q2 w1 hA hl hu h1
    obtain ⟨r2, g5⟩ := ih _ _ _ _ g2 g3 g4 h4
    refine ⟨r2, ?_⟩
    rw [barrierLoop, g1, Option.bind_some]
    dsimp only
    rw [h3, Option.bind_some, g5]

theorem update_indep [Archimedean F] (env : Env X U F nx nu) (d : Dyn X U F nx nu) (b : Backup X U F nx) (h : Barrier X F nx) (p : Pbm X U F nu)
    (prm : Prm F) (fuel : ℕ) (q1 q2 : DQP F) (h1 : Clean nu prm.K p.ulim.rows h.nh q1) (h2 : Clean nu prm.K p.ulim.rows h.nh q2)
    (steps : ℕ → List F) (hS : Schedule prm.K (p.T / prm.K) (min prm.dt (p.T / prm.K)) steps) (r : DQP F)
    (hr : update env d b h p prm fuel q1 = some r) : r = built env d b h p prm steps ∧ update env d b h p prm fuel q2 = some r := by
  set N := max fuel ((Finset.range (prm.K + 1)).sup (fun k => (steps k).length) + 1) with hN
  have hlen : ∀ k ≤ prm.K, (steps k).length < N := fun k hk =>
    lt_max_of_lt_right (Nat.lt_succ_of_le (Finset.le_sup (f := fun k => (steps k).length) (Finset.mem_range.mpr (by omega))))
  have e1 := update_eq env d b h p prm N steps hS hlen q1 h1
  have e2 := update_eq env d b h p prm N steps hS hlen q2 h2
  have e3 := update_mono env d b h p prm fuel N (le_max_left _ _) _ _ hr
  rw [e1] at e3
  obtain rfl := Option.some.inj e3
  refine ⟨rfl, ?_⟩
  have hs2 : sizesOk q2 (prm.K * h.nh + p.ulim.rows + 1) (nu + 1) = true := by
    simp [sizesOk, h2.A, h2.l, h2.u, h2.P, h2.q]
  unfold update at hr e2 ⊢
  rw [if_pos hs2] at e2 ⊢
  split_ifs at hr
  dsimp only at hr e2 ⊢
  rw [Option.bind_eq_some_iff] at hr
  obtain ⟨w1, g1, -⟩ := hr
  obtain ⟨w2, g2⟩ := barrierLoop_indep env d b h _ _ _ _ _ fuel _ _ _ q1 q2 w1 ⟨by rw [h1.A.1, h2.A.1], by rw [h1.A.2, h2.A.2]⟩ (by rw [h1.l, h2.l])
    (by rw [h1.u, h2.u]) g1
  rw [barrierLoop_mono env d b h _ _ _ _ _ fuel N (le_max_left _ _) _ _ _ _ _ g2, Option.bind_some] at e2
  rw [g2, Option.bind_some, e2]

/-- An update of a program left by earlier calls gives the same program as a new one, with the same work. -/
theorem update_fresh [Archimedean F] (env : Env X U F nx nu) (d : Dyn X U F nx nu) (b : Backup X U F nx) (h : Barrier X F nx) (p : Pbm X U F nu)
    (prm : Prm F) (fuel : ℕ) (qp : DQP F) (hq : Clean nu prm.K p.ulim.rows h.nh qp) :
    update env d b h p prm fuel qp = toQP env d b h p prm fuel ∧
      ∀ r, update env d b h p prm fuel qp = some r → Clean nu prm.K p.ulim.rows h.nh r := by
  have key : ∀ q1 q2 : DQP F, Clean nu prm.K p.ulim.rows h.nh q1 → Clean nu prm.K p.ulim.rows h.nh q2 → ∀ r, update env d b h p prm fuel q1 = some r →
      update env d b h p prm fuel q2 = some r ∧ Clean nu prm.K p.ulim.rows h.nh r := by
    intro q1 q2 h1 h2 r hr
    have : ∃ steps : ℕ → List F, Schedule prm.K (p.T / prm.K) (min prm.dt (p.T / prm.K)) steps := by
      by_cases hK : prm.K = 0
      · exact ⟨fun _ => [], rfl, fun k hk => absurd hk (by omega)⟩
      by_cases hT : p.T ≤ 0
      · exact ⟨_, schedule_empty _ _ _ (div_nonpos_of_nonpos_of_nonneg hT (by positivity))⟩
      by_cases hdt : 0 < prm.dt
      · obtain ⟨steps, hS, -⟩ := asif_schedule p.T prm.dt prm.K (lt_of_not_ge hT) hdt (by omega)
        exact ⟨steps, hS⟩
      · exfalso
        obtain ⟨K, hK'⟩ := Nat.exists_eq_succ_of_ne_zero hK
        have hKF : (0 : F) < prm.K := by exact_mod_cast Nat.pos_of_ne_zero hK
        have htau : 0 < p.T / prm.K := div_pos (lt_of_not_ge hT) hKF
        unfold update at hr
        split_ifs at hr
        dsimp only at hr
        rw [Option.bind_eq_some_iff] at hr
        obtain ⟨w1, g1, -⟩ := hr
        generalize prm.K = K' at *
        subst hK'
        rw [barrierLoop, Option.bind_eq_some_iff] at g1
        obtain ⟨w2, -, g2⟩ := g1
        dsimp only at g2
        rw [advance_stuck] at g2
        · simp at g2
        · exact (min_le_left _ _).trans ((min_le_left _ _).trans (not_lt.mp hdt))
        · simpa using htau
    obtain ⟨steps, hS⟩ := this
    obtain ⟨e1, e2⟩ := update_indep env d b h p prm fuel q1 q2 h1 h2 steps hS r hr
    exact ⟨e2, e1 ▸ built_clean env d b h p prm steps⟩
  have ha := allocate_clean (F := F) nu prm.K p.ulim.rows h.nh
  refine ⟨?_, fun r hr => (key _ _ hq ha r hr).2⟩
  unfold toQP
  cases h1 : update env d b h p prm fuel qp with
  | some r => exact ((key _ _ hq ha r h1).1).symm
  | none =>
    cases h2 : update env d b h p prm fuel (allocate nu prm.K p.ulim.rows h.nh) with
    | none => rfl
    | some r => rw [(key _ _ ha hq r h2).1] at h1; cases h1

theorem run_inv [Archimedean F] (env : Env X U F nx nu) (solver : Solver F) (fuel : ℕ) (d : Dyn X U F nx nu) (prm : FPrm U F nu)
    (cs : List (Call X U F nx)) (s0 s : Filter X U F nx nu) (h0 : s0.d = d ∧ s0.prm = prm ∧ Clean nu prm.asif.K prm.ulim.rows prm.nh s0.qp)
    (h : Filter.run env solver fuel cs s0 = some s) : s.d = d ∧ s.prm = prm ∧ Clean nu prm.asif.K prm.ulim.rows prm.nh s.qp := by
  induction cs generalizing s0 with
  | nil => cases h; exact h0
  | cons c cs ih =>
    rw [Filter.run, Option.bind_eq_some_iff] at h
    obtain ⟨⟨s1, u, code⟩, h1, h2⟩ := h
    refine ih s1 ?_ h2
    obtain ⟨rfl, rfl, hc⟩ := h0
    unfold Filter.call at h1
    split_ifs at h1 with hn
    rw [Option.bind_eq_some_iff] at h1
    obtain ⟨q1, g1, g2⟩ := h1
    rw [Option.bind_eq_some_iff] at g2
    obtain ⟨sol, g3, g4⟩ := g2
    by_cases hsz : nu ≤ sol.primal.size
    swap
    · rw [if_neg hsz] at g4; cases g4
    rw [if_pos hsz] at g4
    obtain ⟨rfl, -, -⟩ := by simpa using g4
    refine ⟨rfl, rfl, ?_⟩
    rw [hn] at hc ⊢
    exact (update_fresh env s0.d c.b c.h (s0.prm.pbm c) s0.prm.asif fuel s0.qp hc).2 q1 g1

/-- After any history of calls, a call solves the program of its own arguments; of the earlier calls only the warm start
is left, and it is replaced exactly by an optimal solution. -/
theorem asif_call_program [Archimedean F] (env : Env X U F nx nu) (solver : Solver F) (fuel : ℕ) (d : Dyn X U F nx nu) (prm : FPrm U F nu)
    (cs : List (Call X U F nx)) (s : Filter X U F nx nu) (hrun : Filter.run env solver fuel cs (Filter.new d prm) = some s)
    (c : Call X U F nx) (hn : c.h.nh = prm.nh) :
    s.call env solver fuel c = (toQP env d c.b c.h ⟨prm.T, c.g, c.udes, prm.W, prm.ulim⟩ prm.asif fuel).bind fun qp =>
      (solver qp s.warm).bind fun sol => if nu ≤ sol.primal.size then
        some (⟨d, qp, prm, if sol.code = .optimal then some sol else s.warm⟩, env.uplus c.udes fun i => sol.primal.val i, sol.code) else none := by
  obtain ⟨h1, h2, h3⟩ := run_inv env solver fuel d prm cs (Filter.new d prm) s ⟨rfl, rfl, allocate_clean _ _ _ _⟩ hrun
  rw [← hn] at h3
  obtain ⟨sd, sq, sp, sw⟩ := s
  dsimp only at h1 h2 h3
  subst h1 h2
  unfold Filter.call
  rw [if_pos hn.symm]
  dsimp only
  rw [(update_fresh env sd c.b c.h (sp.pbm c) sp.asif fuel sq h3).1]
  rfl

/-- Two histories that leave the same warm start give the same results for every further call. -/
theorem asif_history_irrelevant [Archimedean F] (env : Env X U F nx nu) (solver : Solver F) (fuel : ℕ) (d : Dyn X U F nx nu) (prm : FPrm U F nu)
    (cs cs' : List (Call X U F nx)) (s s' : Filter X U F nx nu) (h : Filter.run env solver fuel cs (Filter.new d prm) = some s)
    (h' : Filter.run env solver fuel cs' (Filter.new d prm) = some s') (hw : s.warm = s'.warm) (c : Call X U F nx) :
    s.call env solver fuel c = s'.call env solver fuel c := by
  by_cases hn : c.h.nh = prm.nh
  · rw [asif_call_program env solver fuel d prm cs s h c hn, asif_call_program env solver fuel d prm cs' s' h' c hn, hw]
  · have h1 := (run_inv env solver fuel d prm cs (Filter.new d prm) s ⟨rfl, rfl, allocate_clean _ _ _ _⟩ h).2.1
    have h2 := (run_inv env solver fuel d prm cs' (Filter.new d prm) s' ⟨rfl, rfl, allocate_clean _ _ _ _⟩ h').2.1
    unfold Filter.call
    rw [if_neg (by rw [h1]; exact fun e => hn e.symm), if_neg (by rw [h2]; exact fun e => hn e.symm)]

/-- A program of any other size is rejected: an update that succeeds was given one of the size of its arguments. -/
theorem asif_update_size (env : Env X U F nx nu) (d : Dyn X U F nx nu) (b : Backup X U F nx) (h : Barrier X F nx) (p : Pbm X U F nu) (prm : Prm F)
    (fuel : ℕ) (qp r : DQP F) (e : update env d b h p prm fuel qp = some r) :
    qp.A.rows = prm.K * h.nh + p.ulim.rows + 1 ∧ qp.A.cols = nu + 1 ∧ qp.l.size = prm.K * h.nh + p.ulim.rows + 1 ∧
      qp.u.size = prm.K * h.nh + p.ulim.rows + 1 ∧ qp.P.rows = nu + 1 ∧ qp.P.cols = nu + 1 ∧ qp.q.size = nu + 1 := by
  unfold update at e
  split at e
  · rename_i hs
    simpa [sizesOk] using hs
  · exact absurd e (by simp)

/-! ## C46: what the filter returns -/

/-- An optimal call of the filter: the correction and the slack of a minimiser of the program of its arguments. -/
theorem asif_optimal_call [Archimedean F] (env : Env X U F nx nu) (solver : Solver F) (hex : Exact solver) (fuel : ℕ) (d : Dyn X U F nx nu)
    (prm : FPrm U F nu) (cs : List (Call X U F nx)) (s s' : Filter X U F nx nu) (hrun : Filter.run env solver fuel cs (Filter.new d prm) = some s)
    (c : Call X U F nx) (u : U) (hc : s.call env solver fuel c = some (s', u, .optimal)) :
    ∃ qp v, toQP env d c.b c.h ⟨prm.T, c.g, c.udes, prm.W, prm.ulim⟩ prm.asif fuel = some qp ∧
      Minimiser (qp.pbm (nu + 1) (prm.asif.K * c.h.nh + prm.ulim.rows + 1)) v ∧ u = env.uplus c.udes (corr v) := by
  have hn : c.h.nh = prm.nh := by
    by_contra hn
    have h1 := (run_inv env solver fuel d prm cs (Filter.new d prm) s ⟨rfl, rfl, allocate_clean _ _ _ _⟩ hrun).2.1
    unfold Filter.call at hc
    rw [if_neg (by rw [h1]; exact fun e => hn e.symm)] at hc
    cases hc
  rw [asif_call_program env solver fuel d prm cs s hrun c hn, Option.bind_eq_some_iff] at hc
  obtain ⟨qp, h1, h2⟩ := hc
  rw [Option.bind_eq_some_iff] at h2
  obtain ⟨sol, h3, h4⟩ := h2
  by_cases hps : nu ≤ sol.primal.size
  swap
  · rw [if_neg hps] at h4; cases h4
  rw [if_pos hps] at h4
  obtain ⟨-, h5, h6⟩ := by simpa using h4
  obtain ⟨steps, hS⟩ := toQP_schedule _ _ _ _ _ _ _ _ h1
  have hsz := (asif_program _ _ _ _ _ _ steps hS fuel qp h1).1
  obtain ⟨g1, g2⟩ := hex qp s.warm sol h3 h6
  rw [hsz.q, hsz.l] at g2
  exact ⟨qp, _, h1, g2, h5.symm⟩

/-- If the desired input satisfies the input constraints and the barrier conditions, an optimal call returns it unchanged. -/
theorem asif_passes [Archimedean F] (env : Env X U F nx nu) (h0 : ∀ u, env.uplus u 0 = u) (solver : Solver F) (hex : Exact solver) (fuel : ℕ)
    (d : Dyn X U F nx nu) (prm : FPrm U F nu) (hW : ∀ i, 0 < prm.W i) (hr : 0 < prm.asif.relax)
    (cs : List (Call X U F nx)) (s s' : Filter X U F nx nu) (hrun : Filter.run env solver fuel cs (Filter.new d prm) = some s)
    (c : Call X U F nx) (u : U) (hc : s.call env solver fuel c = some (s', u, .optimal)) (steps : ℕ → List F)
    (hS : Schedule prm.asif.K (prm.T / prm.asif.K) (min prm.asif.dt (prm.T / prm.asif.K)) steps)
    (hu : InBounds env prm.ulim c.udes) (hs : Safe env d c.b c.h ⟨prm.T, c.g, c.udes, prm.W, prm.ulim⟩ prm.asif steps 0 0) : u = c.udes := by
  obtain ⟨qp, v, h1, h2, rfl⟩ := asif_optimal_call env solver hex fuel d prm cs s s' hrun c u hc
  have := (asif_zero_unique env d c.b c.h ⟨prm.T, c.g, c.udes, prm.W, prm.ulim⟩ prm.asif hW hr steps hS fuel qp h1 hu hs v).mp h2
  subst this
  exact h0 _

/-- An optimal call in a vector space of inputs returns an input that satisfies the input constraints exactly and the barrier conditions up
to a nonnegative slack; and no input satisfying them is cheaper. -/
theorem asif_safe [Archimedean F] (env : Env X (Fin nu → F) F nx nu) (he : FlatInput env) (solver : Solver F) (hex : Exact solver) (fuel : ℕ)
    (d : Dyn X (Fin nu → F) F nx nu) (prm : FPrm (Fin nu → F) F nu)
    (cs : List (Call X (Fin nu → F) F nx)) (s s' : Filter X (Fin nu → F) F nx nu)
    (hrun : Filter.run env solver fuel cs (Filter.new d prm) = some s)
    (c : Call X (Fin nu → F) F nx) (u : Fin nu → F) (hc : s.call env solver fuel c = some (s', u, .optimal)) (steps : ℕ → List F)
    (hS : Schedule prm.asif.K (prm.T / prm.asif.K) (min prm.asif.dt (prm.T / prm.asif.K)) steps) :
    InBounds env prm.ulim u ∧ ∃ sl, 0 ≤ sl ∧ Safe env d c.b c.h ⟨prm.T, c.g, c.udes, prm.W, prm.ulim⟩ prm.asif steps (u - c.udes) sl ∧
      ∀ u' sl', InBounds env prm.ulim u' → 0 ≤ sl' →
        Safe env d c.b c.h ⟨prm.T, c.g, c.udes, prm.W, prm.ulim⟩ prm.asif steps (u' - c.udes) sl' →
        ∑ i, prm.W i * (u - c.udes) i ^ 2 + prm.asif.relax * sl ^ 2 ≤ ∑ i, prm.W i * (u' - c.udes) i ^ 2 + prm.asif.relax * sl' ^ 2 := by
  obtain ⟨qp, v, h1, h2, rfl⟩ := asif_optimal_call env solver hex fuel d prm cs s s' hrun c u hc
  have hrow := asif_input_rows env he d c.b c.h ⟨prm.T, c.g, c.udes, prm.W, prm.ulim⟩ prm.asif steps hS fuel qp h1
  have hcost := (asif_program env d c.b c.h ⟨prm.T, c.g, c.udes, prm.W, prm.ulim⟩ prm.asif steps hS fuel qp h1).2
  obtain ⟨g1, g2, g3⟩ := (hrow v).mp h2.1
  have e1 : env.uplus c.udes (corr v) - c.udes = corr v := by rw [he.plus, add_sub_cancel_left]
  refine ⟨g2, slack v, g3, by rw [e1]; exact g1, fun u' sl' k1 k2 k3 => ?_⟩
  have c1 : corr (Fin.snoc (α := fun _ => F) (u' - c.udes) sl') = u' - c.udes := by funext i; simp [corr]
  have c2 : slack (Fin.snoc (α := fun _ => F) (u' - c.udes) sl') = sl' := by simp [slack]
  have := h2.2 (Fin.snoc (α := fun _ => F) (u' - c.udes) sl') ((hrow _).mpr ⟨by rw [c1, c2]; exact k3, by rw [c1, he.plus, add_sub_cancel]; exact k1, by rw [c2]; exact k2⟩)
  rw [(hcost _).2, (hcost _).2, c1, c2] at this
  rw [e1]
  dsimp only at this
  linarith

end Verif.ASIF
