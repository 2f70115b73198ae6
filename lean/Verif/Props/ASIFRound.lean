import Verif.Proofs.ASIFRound
import Verif.Props.ASIFExamples

/-!
# The program of the safety filter in rounded arithmetic (C106)
-/

set_option linter.unusedSectionVars false

namespace Verif.ASIF

open Verif.QPSpec
open Verif.QP (Ext Arith floatArith floatArith_rounds flBits)
open Verif.EKF (mulR flBits_short flBits_tie)

variable {X U F : Type*} {nx nu : ℕ} [Field F] [LinearOrder F] [IsStrictOrderedRing F]

/-- **C106.** Without rounding the model is the one of `Model/ASIF.lean`. -/
theorem toQPR_exact (env : Env X U F nx nu) (d : Dyn X U F nx nu) (b : Backup X U F nx) (h : Barrier X F nx) (p : Pbm X U F nu) (prm : Prm F)
    (fuel : ℕ) : toQPR Arith.exact env d b h p prm fuel = toQP env d b h p prm fuel := by
  unfold toQPR toQP updateR update
  have : ∀ (a : Ext F) c, extSubR Arith.exact a c = extSub a c := by intro a c; cases a <;> rfl
  simp only [barrierLoopR_exact, tailRowsR, tailRows, this]
  rfl

section

variable {ar : Arith F} {u : F}

/-- The times of the constraints are determined. -/
theorem ScheduleR.unique {fl : F → F} {K : ℕ} {tau dt : F} {t t' e e' : ℕ → F} {n n' : ℕ → ℕ} (hS : ScheduleR fl K tau dt t e n)
    (hS' : ScheduleR fl K tau dt t' e' n') (k : ℕ) (hk : k ≤ K) : t k = t' k ∧ (k < K → e k = e' k ∧ n k = n' k) := by
  have step : ∀ k < K, t k = t' k → e k = e' k ∧ n k = n' k := by
    intro k hk ht
    have he : e k = e' k := by rw [hS.step k hk, hS'.step k hk, ht]
    refine ⟨he, ?_⟩
    have h1 := hS.reach k hk
    have h2 := hS'.reach k hk
    rw [hS.next k hk] at h1
    rw [hS'.next k hk] at h2
    rcases lt_trichotomy (n k) (n' k) with h | h | h
    · have := hS'.before k hk _ h
      rw [← he, ← ht] at this
      exact absurd h1 (not_le.2 this)
    · exact h
    · have := hS.before k hk _ h
      rw [he, ht] at this
      exact absurd h2 (not_le.2 this)
  have ht : t k = t' k := by
    induction k with
    | zero => rw [hS.zero, hS'.zero]
    | succ k ih =>
      have h := ih (by omega)
      obtain ⟨h1, h2⟩ := step k hk h
      rw [hS.next k hk, hS'.next k hk, h, h1, h2]
  exact ⟨ht, fun h => step k h ht⟩

/-- **C106.** The program is built exactly if there is a rounded schedule, and the rows of constraint `k` come from the barrier at the time of the
schedule and at the state and sensitivity after the steps of the schedule.  The other rows are the input bounds, shifted with rounding, and the sign of
the relaxation variable. -/
theorem asif_rounded_rows (env : Env X U F nx nu) (d : Dyn X U F nx nu) (b : Backup X U F nx) (h : Barrier X F nx) (p : Pbm X U F nu) (prm : Prm F)
    {t e : ℕ → F} {n : ℕ → ℕ} (hS : ScheduleR ar.fl prm.K (ar.fl (p.T / prm.K)) (min prm.dt (ar.fl (p.T / prm.K))) t e n) (fuel : ℕ)
    (hf : ∀ k < prm.K, n k < fuel) :
    ∃ (qp : DQP F) (s : ℕ → St X F nx), toQPR ar env d b h p prm fuel = some qp ∧ s 0 = ⟨0, p.x0, 1⟩ ∧ (∀ k < prm.K, s (k + 1) = (odeStepR ar env d b (e k))^[n k] (s k)) ∧
      (∀ k ≤ prm.K, (s k).t = t k) ∧ (∀ k < prm.K, ∀ i : Fin h.nh,
      (∀ c : Fin nu, qp.A.val (k * h.nh + i) c = mulR ar (mulR ar (h.dx (t k) (s k).x) (s k).S) (d.du p.x0 p.udes) i c) ∧
      qp.l.val (k * h.nh + i) = .fin (ar.fl (ar.fl (-h.dt (t k) (s k).x i - ar.fl (prm.alpha * h.h (t k) (s k).x i))
        - ar.mv (mulR ar (h.dx (t k) (s k).x) (s k).S) (d.f p.x0 p.udes) i)) ∧ qp.u.val (k * h.nh + i) = .pos) ∧ Tail ar env p prm h.nh qp := by
  have hs : Sized (allocate nu prm.K p.ulim.rows h.nh : DQP F) (prm.K * h.nh + p.ulim.rows + 1) (nu + 1) := ⟨⟨rfl, rfl⟩, rfl, rfl, ⟨rfl, rfl⟩, rfl⟩
  obtain ⟨q1, h1, h2, h3⟩ := barrierLoopR_spec ar env d b h prm.alpha _ _ (d.f p.x0 p.udes) (d.du p.x0 p.udes) fuel p.x0 prm.K p.ulim.rows hS hf
    prm.K 0 (by omega) _ hs ⟨fun a ha => absurd ha (by omega), fun a ha => absurd ha (by omega), fun a ha => absurd ha (by omega)⟩
  obtain ⟨q2, h4, -, h6, h7⟩ := tailRowsR_spec ar env p prm h prm.alpha (d.f p.x0 p.udes) (d.du p.x0 p.udes) _ q1 h2 h3
  refine ⟨q2, trace ar env d b e n p.x0, ?_, rfl, fun k _ => rfl, fun k hk => trace_t env d b hS p.x0 k hk, fun k hk i => ⟨fun c => ?_, ?_, h6.u k hk i⟩, h7⟩
  · unfold toQPR updateR
    rw [if_pos ((sizesOk_iff _ _ _).2 hs)]
    change (barrierLoopR ar env d b h prm.alpha _ _ _ _ fuel prm.K 0 (trace ar env d b e n p.x0 0) _).bind _ = _
    rw [h1, Option.bind_some]
    exact h4
  · rw [h6.A k hk i c, rowA, trace_t env d b hS p.x0 k hk.le]
  · rw [h6.l k hk i, rowL, trace_t env d b hS p.x0 k hk.le]

/-- **C106.** The program is built exactly if there is a rounded schedule. -/
theorem asif_rounded_returns_iff (env : Env X U F nx nu) (d : Dyn X U F nx nu) (b : Backup X U F nx) (h : Barrier X F nx) (p : Pbm X U F nu)
    (prm : Prm F) : (∃ fuel qp, toQPR ar env d b h p prm fuel = some qp) ↔
      ∃ t e n, ScheduleR ar.fl prm.K (ar.fl (p.T / prm.K)) (min prm.dt (ar.fl (p.T / prm.K))) t e n := by
  constructor
  · rintro ⟨fuel, qp, hq⟩
    unfold toQPR updateR at hq
    split_ifs at hq with hc
    dsimp only at hq
    rw [Option.bind_eq_some_iff] at hq
    obtain ⟨q1, h1, -⟩ := hq
    obtain ⟨t, e, n, ht, hr⟩ := barrierLoopR_walk ar env d b h _ _ _ _ _ fuel prm.K 0 _ _ _ h1
    exact ⟨t, e, n, ht, fun k hk => (hr k (by omega) (by omega)).2.1, fun k hk => (hr k (by omega) (by omega)).2.2.1,
      fun k hk => (hr k (by omega) (by omega)).2.2.2.1, fun k hk => (hr k (by omega) (by omega)).2.2.2.2⟩
  · rintro ⟨t, e, n, hS⟩
    obtain ⟨qp, s, hq, -⟩ := asif_rounded_rows env d b h p prm hS ((Finset.range prm.K).sup n + 1)
      (fun k hk => Nat.lt_succ_of_le (Finset.le_sup (f := n) (Finset.mem_range.2 hk)))
    exact ⟨_, qp, hq⟩

/-- **C106.** Whenever the program is built, constraint `k` is not before the rounded `k tau` and at most one step (rounded) after it; in terms of
the horizon, up to three roundings it is between `k T / K` and `k T / K + dt`. -/
theorem asif_rounded_times (hr : Rounds ar u) {T dt : F} {K : ℕ} (hT : 0 ≤ T) (hdt : 0 ≤ dt) {t e : ℕ → F} {n : ℕ → ℕ}
    (hS : ScheduleR ar.fl K (ar.fl (T / K)) (min dt (ar.fl (T / K))) t e n) (k : ℕ) (hk : k ≤ K) :
    ar.fl (ar.fl (T / K) * k) ≤ t k ∧ t k ≤ ar.fl (ar.fl (ar.fl (T / K) * k) + min dt (ar.fl (T / K))) ∧
    (1 - u) ^ 2 * (T * k / K) ≤ t k ∧ t k ≤ (1 + u) ^ 3 * (T * k / K) + (1 + u) * dt := by
  have hTK : 0 ≤ T / K := div_nonneg hT (Nat.cast_nonneg _)
  set tau := ar.fl (T / K) with htd
  have htau : 0 ≤ tau := hr.fl_nonneg hTK
  set d := min dt tau with hdd
  have hd : 0 ≤ d := le_min hdt htau
  have hz : ar.fl 0 = 0 := by simpa using hr.fl_err 0
  have main : ar.fl (tau * k) ≤ t k ∧ t k ≤ ar.fl (ar.fl (tau * k) + d) := by
    induction k with
    | zero =>
      rw [hS.zero]
      simp only [Nat.cast_zero, mul_zero, hz, le_refl, zero_add, true_and]
      exact hr.fl_nonneg hd
    | succ k ih =>
      refine ⟨hS.reach k hk, ?_⟩
      rw [hS.next k hk]
      rcases hn : n k with _ | m
      · refine (ih (by omega)).2.trans (hr.fl_mono (add_le_add_left (hr.fl_mono ?_) d))
        push_cast
        nlinarith
      · refine hr.fl_mono (add_le_add (hS.before k hk m (by omega)).le ?_)
        rw [hS.step k hk]
        exact min_le_left _ _
  refine ⟨main.1, main.2, ?_, ?_⟩
  · have h1 : (1 - u) * (tau * k) ≤ ar.fl (tau * k) := fl_ge hr (mul_nonneg htau (Nat.cast_nonneg _))
    have h2 : (1 - u) * (T / K) ≤ tau := fl_ge hr hTK
    have h3 : (1 - u) * (T / K) * k ≤ tau * k := mul_le_mul_of_nonneg_right h2 (Nat.cast_nonneg _)
    have h4 := mul_le_mul_of_nonneg_left h3 (by linarith [hr.small] : (0 : F) ≤ 1 - u)
    have e1 : (1 - u) ^ 2 * (T * k / K) = (1 - u) * ((1 - u) * (T / K) * k) := by ring
    rw [e1]
    linarith [main.1]
  · have hu := hr.nonneg
    have h1 : ar.fl (tau * k) ≤ (1 + u) * (tau * k) := hr.fl_le (mul_nonneg htau (Nat.cast_nonneg _))
    have h2 : tau ≤ (1 + u) * (T / K) := hr.fl_le hTK
    have h3 : tau * k ≤ (1 + u) * (T / K) * k := mul_le_mul_of_nonneg_right h2 (Nat.cast_nonneg _)
    have h0 : 0 ≤ ar.fl (tau * k) := hr.fl_nonneg (mul_nonneg htau (Nat.cast_nonneg _))
    have h4 : t k ≤ (1 + u) * (ar.fl (tau * k) + d) := main.2.trans (hr.fl_le (add_nonneg h0 hd))
    have h5 : d ≤ dt := min_le_left _ _
    have h6 : (1 + u) * (tau * k) ≤ (1 + u) * ((1 + u) * (T / K) * k) := mul_le_mul_of_nonneg_left h3 (by linarith)
    have h7 : (1 + u) * (ar.fl (tau * k) + d) ≤ (1 + u) * ((1 + u) * ((1 + u) * (T / K) * k) + dt) :=
      mul_le_mul_of_nonneg_left (by linarith) (by linarith)
    have e1 : (1 + u) ^ 3 * (T * k / K) + (1 + u) * dt = (1 + u) * ((1 + u) * ((1 + u) * (T / K) * k) + dt) := by ring
    rw [e1]
    linarith

/-- **C106** (partial).  FULL CLAIM: in rounded arithmetic the program is built for every positive horizon and step, with constraint `k` at the time it
has in exact arithmetic up to rounding errors.  Both parts are false: see `asif_rounded_hangs` and `asif_rounded_default_late`.
Proved: it is built, after at most `4 T / dt + 3` steps per constraint, whenever the rounding unit resolves the step
(`2 u (2 T + dt) ≤ dt`, with `dt` the smaller one of the given step and the interval), and constraint `k` is then between `k T / K` and
`k T / K + dt` up to three roundings.  Missing: steps that are not resolved, and the whole step by which a constraint may be late. -/
theorem asif_rounded_program_partial (hr : Rounds ar u) (hs : Subtracts ar) (hu : 16 * u ≤ 1) (env : Env X U F nx nu) (d : Dyn X U F nx nu)
    (b : Backup X U F nx) (h : Barrier X F nx) (p : Pbm X U F nu) (prm : Prm F) (hT : 0 < p.T) (hdt : 0 < prm.dt) (hK : 1 ≤ prm.K)
    (hres : 2 * u * (2 * p.T + min prm.dt (ar.fl (p.T / prm.K))) ≤ min prm.dt (ar.fl (p.T / prm.K))) (N : ℕ)
    (hN : 4 * p.T ≤ N * min prm.dt (ar.fl (p.T / prm.K))) :
    ∃ qp t e n, toQPR ar env d b h p prm (N + 4) = some qp ∧
      ScheduleR ar.fl prm.K (ar.fl (p.T / prm.K)) (min prm.dt (ar.fl (p.T / prm.K))) t e n ∧ (∀ k < prm.K, n k ≤ N + 3) ∧
      ∀ k ≤ prm.K, (1 - u) ^ 2 * (p.T * k / prm.K) ≤ t k ∧ t k ≤ (1 + u) ^ 3 * (p.T * k / prm.K) + (1 + u) * prm.dt := by
  have hKF : (0 : F) < prm.K := by exact_mod_cast hK
  have hTK : 0 < p.T / prm.K := div_pos hT hKF
  set tau := ar.fl (p.T / prm.K) with htd
  have htau : 0 < tau := hr.fl_pos hTK
  set dd := min prm.dt tau with hdd
  have hd : 0 < dd := lt_min hdt htau
  have hz : ar.fl 0 = 0 := by simpa using hr.fl_err 0
  have hun := hr.nonneg
  have htgt : ∀ k < prm.K, ar.fl (tau * ((k + 1 : ℕ) : F)) ≤ 2 * p.T := by
    intro k hk
    have h1 : ar.fl (tau * ((k + 1 : ℕ) : F)) ≤ (1 + u) * (tau * ((k + 1 : ℕ) : F)) := hr.fl_le (mul_nonneg htau.le (Nat.cast_nonneg _))
    have h2 : tau ≤ (1 + u) * (p.T / prm.K) := hr.fl_le hTK.le
    have h3 : ((k + 1 : ℕ) : F) ≤ prm.K := by exact_mod_cast hk
    have h4 : tau * ((k + 1 : ℕ) : F) ≤ (1 + u) * (p.T / prm.K) * prm.K :=
      mul_le_mul h2 h3 (Nat.cast_nonneg _) (mul_nonneg (by linarith) hTK.le)
    rw [mul_assoc, div_mul_cancel₀ _ hKF.ne'] at h4
    have h5 : (1 + u) * (tau * ((k + 1 : ℕ) : F)) ≤ (1 + u) * ((1 + u) * p.T) := mul_le_mul_of_nonneg_left h4 (by linarith)
    have h6 : u * p.T ≤ p.T / 16 := by nlinarith
    have h7 : u * (u * p.T) ≤ p.T / 16 / 16 := by nlinarith
    nlinarith
  -- the schedule, one interval after the other
  have hex : ∀ t : { t : F // 0 ≤ t ∧ ar.fl t = t }, ∀ k : ℕ, ∃ r : { t : F // 0 ≤ t ∧ ar.fl t = t } × ℕ, k < prm.K →
      r.2 ≤ N + 3 ∧ (r.1 : F) = tick ar.fl (min dd (ar.fl (ar.fl (tau * ((k + 1 : ℕ) : F)) - t))) t r.2 ∧
      (∀ i < r.2, tick ar.fl (min dd (ar.fl (ar.fl (tau * ((k + 1 : ℕ) : F)) - t))) t i < ar.fl (tau * ((k + 1 : ℕ) : F))) ∧
      ar.fl (tau * ((k + 1 : ℕ) : F)) ≤ (r.1 : F) := by
    intro t k
    by_cases hk : k < prm.K
    · obtain ⟨n, hn, h1, h2, h3, h4, -⟩ := interval_reach hr hs hu hd t.2.1 t.2.2
        (hs.idem _ (mul_nonneg htau.le (Nat.cast_nonneg (k + 1)))) (htgt k hk) hres N hN
      exact ⟨(⟨_, h3, h4⟩, n), fun _ => ⟨hn, rfl, h1, h2⟩⟩
    · exact ⟨(t, 0), fun h => absurd h hk⟩
  choose f hf using hex
  let tt : ℕ → { t : F // 0 ≤ t ∧ ar.fl t = t } := fun k => Nat.rec ⟨0, le_rfl, hz⟩ (fun k t => (f t k).1) k
  have hS : ScheduleR ar.fl prm.K tau dd (fun k => (tt k).1) (fun k => min dd (ar.fl (ar.fl (tau * ((k + 1 : ℕ) : F)) - (tt k).1)))
      (fun k => (f (tt k) k).2) := by
    refine ⟨rfl, fun k _ => rfl, fun k hk => (hf (tt k) k hk).2.1, fun k hk => (hf (tt k) k hk).2.2.1, fun k hk => ?_⟩
    exact (hf (tt k) k hk).2.2.2
  have hn : ∀ k < prm.K, (f (tt k) k).2 ≤ N + 3 := fun k hk => (hf (tt k) k hk).1
  obtain ⟨qp, s, hq, -⟩ := asif_rounded_rows env d b h p prm hS (N + 4) (fun k hk => Nat.lt_succ_of_le (hn k hk))
  exact ⟨qp, _, _, _, hq, hS, hn, fun k hk => (asif_rounded_times hr hT.le hdt.le hS k hk).2.2⟩

end

/-! ### Binary floating point numbers -/

/-- **C106.** In binary floating point numbers with `p + 1` bits the program is never built when the step is a power of two and the interval between
constraints is at least `2^(p+2)` steps: the clock stops. -/
theorem asif_rounded_hangs (p : ℕ) (hp : 1 ≤ p) (env : Env X U ℚ nx nu) (d : Dyn X U ℚ nx nu) (b : Backup X U ℚ nx) (h : Barrier X ℚ nx)
    (pb : Pbm X U ℚ nu) (prm : Prm ℚ) (hK : 1 ≤ prm.K) (e : ℤ) (he : prm.dt = 2 ^ e) (hT : 2 ^ (p + 2) * 2 ^ e ≤ pb.T / prm.K) (fuel : ℕ) :
    toQPR (floatArith p) env d b h pb prm fuel = none := by
  have h2 : (0 : ℚ) < 2 ^ e := zpow_pos (by norm_num) _
  have hr := floatArith_rounds p
  by_contra hne
  obtain ⟨qp, hq⟩ := Option.ne_none_iff_exists'.1 hne
  obtain ⟨t, e', n, hS⟩ := (asif_rounded_returns_iff (ar := floatArith p) env d b h pb prm).1 ⟨fuel, qp, hq⟩
  set tau := (floatArith p).fl (pb.T / prm.K) with htd
  have hbig : (2 : ℚ) ^ (p + 2) * 2 ^ e ≤ tau := by
    have h1 := hr.fl_mono hT
    have h3 : flBits p (((1 : ℕ) : ℚ) * 2 ^ ((p : ℤ) + 2 + e)) = ((1 : ℕ) : ℚ) * 2 ^ ((p : ℤ) + 2 + e) := flBits_short p 1 Nat.one_le_two_pow _
    have h4 : ((1 : ℕ) : ℚ) * 2 ^ ((p : ℤ) + 2 + e) = 2 ^ (p + 2) * 2 ^ e := by
      rw [Nat.cast_one, one_mul, zpow_add₀ (by norm_num)]
      norm_cast
    rw [h4] at h3
    change flBits p _ ≤ _ at h1
    rw [h3] at h1
    exact h1
  have hlt : (2 : ℚ) ^ (p + 1) * 2 ^ e < tau := by
    refine lt_of_lt_of_le ?_ hbig
    rw [pow_succ (2 : ℚ) (p + 1)]
    have : (0 : ℚ) < 2 ^ (p + 1) * 2 ^ e := by positivity
    linarith
  have h1p : (1 : ℚ) ≤ 2 ^ (p + 1) := one_le_pow₀ (by norm_num)
  have hle : (2 : ℚ) ^ e ≤ tau := by nlinarith
  have hTK : 0 ≤ pb.T / prm.K := le_trans (by positivity) hT
  have hid : (floatArith p).fl tau = tau := (floatArith_subtracts p).idem _ hTK
  have he0 : e' 0 = 2 ^ e := by
    rw [hS.step 0 hK, hS.zero, he]
    simp [hid, hle]
  have hticks : ∀ i, ∃ k : ℕ, k ≤ 2 ^ (p + 1) ∧ tick (floatArith p).fl (2 ^ e) 0 i = k * 2 ^ e := by
    intro i
    induction i with
    | zero => exact ⟨0, Nat.zero_le _, by simp [tick]⟩
    | succ i ih =>
      obtain ⟨k, hk, hi⟩ := ih
      rw [tick, hi]
      rcases hk.lt_or_eq with hlt | heq
      · refine ⟨k + 1, hlt, ?_⟩
        rw [show (k : ℚ) * 2 ^ e + 2 ^ e = ((k + 1 : ℕ) : ℚ) * 2 ^ e by push_cast; ring]
        exact flBits_short p (k + 1) hlt e
      · refine ⟨k, hk, ?_⟩
        rw [heq]; push_cast; exact flBits_tie p hp e
  have hreach := hS.reach 0 hK
  rw [hS.next 0 hK, he0, hS.zero] at hreach
  obtain ⟨k, hk, hi⟩ := hticks (n 0)
  rw [hi] at hreach
  simp only [zero_add, Nat.cast_one, mul_one, hid] at hreach
  have hk' : (k : ℚ) ≤ 2 ^ (p + 1) := by exact_mod_cast hk
  have := mul_le_mul_of_nonneg_right hk' h2.le
  linarith

/-- A year with steps of a nanosecond cannot be looked ahead in double precision. -/
example (fuel : ℕ) : toQPR (floatArith 52) line car halt wall ⟨2 ^ 25, 0, fun _ => (0 : ℚ), fun _ => 1, box⟩ ⟨1, 1, 2 ^ (-30 : ℤ), 10⟩ fuel = none :=
  asif_rounded_hangs 52 (by norm_num) _ _ _ _ _ _ (by norm_num) (-30) rfl (by norm_num) fuel

/-- One tenth in double precision. -/
def tenth : ℚ := flBits 52 (1 / 10)

/-- The default parameters are resolved: the program is built, with at most 43 steps per constraint. -/
example (env : Env X U ℚ nx nu) (d : Dyn X U ℚ nx nu) (b : Backup X U ℚ nx) (h : Barrier X ℚ nx) (x0 : X) (udes : U) (W : Fin nu → ℚ) (B : Bounds U ℚ nu) :
    ∃ qp, toQPR (floatArith 52) env d b h ⟨1, x0, udes, W, B⟩ ⟨10, 1, tenth, 100⟩ (40 + 4) = some qp := by
  obtain ⟨qp, _, _, _, hq, -⟩ := asif_rounded_program_partial (floatArith_rounds 52) (floatArith_subtracts 52) (by norm_num) env d b h
    ⟨1, x0, udes, W, B⟩ ⟨10, 1, tenth, 100⟩ (by norm_num)
    (by change 0 < tenth; decide +kernel) (by norm_num)
    (by change 2 * (1 / 2 ^ (52 + 1)) * (2 * 1 + min tenth (flBits 52 (1 / (10 : ℕ)))) ≤ min tenth (flBits 52 (1 / (10 : ℕ))); decide +kernel) 40
    (by change 4 * 1 ≤ ((40 : ℕ) : ℚ) * min tenth (flBits 52 (1 / (10 : ℕ))); decide +kernel)
  exact ⟨qp, hq⟩

/-- **C106, negation.** With the default parameters (horizon 1, ten constraints, `dt = 0.1`) in double precision the barrier `-t` with `alpha = 1` asks at
constraint `k` for `1 + t k`: constraint 6 is at time 0.7 instead of 0.6 and constraint 7 is there once more, because `0.5 + 0.1 < 0.1 * 6`.  In exact
arithmetic with the same step all constraints are where they should be. -/
theorem asif_rounded_default_late :
    (∃ qp, toQPR (floatArith 52) line car halt clock ⟨1, 0, 0, fun _ => 1, free⟩ ⟨10, 1, tenth, 100⟩ 4 = some qp ∧
      ∀ k < 10, ∃ a, qp.l.val k = .fin a ∧ |a - (1 + (if k = 6 then 7 else k) / 10)| ≤ 1 / 10 ^ 15) ∧
    ∃ qp, toQP line car halt clock ⟨1, 0, 0, fun _ => 1, free⟩ ⟨10, 1, 1 / 10, 100⟩ 4 = some qp ∧
      ∀ k < 10, qp.l.val k = .fin (1 + k / 10) := by
  have key : ∀ (o : Option (DQP ℚ)) (c : ℕ → ℚ → Bool),
      o.any (fun qp => (List.range 10).all fun k => match qp.l.val k with | .fin a => c k a | _ => false) = true →
      ∃ qp, o = some qp ∧ ∀ k < 10, ∃ a, qp.l.val k = .fin a ∧ c k a = true := by
    intro o c h
    cases o with
    | none => simp at h
    | some qp =>
      refine ⟨qp, rfl, fun k hk => ?_⟩
      have h1 := List.all_eq_true.1 h k (List.mem_range.2 hk)
      split at h1
      · rename_i a ha
        exact ⟨a, ha, h1⟩
      · cases h1
  constructor
  · obtain ⟨qp, h1, h2⟩ := key (toQPR (floatArith 52) line car halt clock ⟨1, 0, 0, fun _ => 1, free⟩ ⟨10, 1, tenth, 100⟩ 4)
      (fun k a => |a - (1 + (if k = 6 then 7 else k) / 10)| ≤ 1 / 10 ^ 15) (by decide +kernel)
    exact ⟨qp, h1, fun k hk => by simpa using h2 k hk⟩
  · obtain ⟨qp, h1, h2⟩ := key (toQP line car halt clock ⟨1, 0, 0, fun _ => 1, free⟩ ⟨10, 1, 1 / 10, 100⟩ 4)
      (fun k a => a = 1 + k / 10) (by decide +kernel)
    exact ⟨qp, h1, fun k hk => by obtain ⟨a, h3, h4⟩ := h2 k hk; rw [h3]; simpa using h4⟩

end Verif.ASIF
