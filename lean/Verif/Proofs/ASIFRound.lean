import Verif.Model.ASIFRound
import Verif.Spec.ASIFRound
import Verif.Proofs.ASIF
import Verif.Proofs.EKFRound

/-! # Helper lemmas for the safety filter in rounded arithmetic -/

namespace Verif.ASIF

open Verif.QPSpec
open Verif.QP (Ext Arith flBits floatArith ulp ulp_pos nearest le_nearest nearest_le log_bounds)
open Verif.EKF (mulR mulR_exact flBits_short)

variable {X U F : Type*} {nx nu : ℕ} [Field F] [LinearOrder F]

/-! ### Without rounding -/

section

variable [IsStrictOrderedRing F]

theorem odeStepR_exact (env : Env X U F nx nu) (d : Dyn X U F nx nu) (b : Backup X U F nx) (dt : F) (s : St X F nx) :
    odeStepR Arith.exact env d b dt s = odeStep env d b dt s := by
  unfold odeStepR odeStep
  simp only [mulR_exact]
  rfl

theorem advanceR_exact (env : Env X U F nx nu) (d : Dyn X U F nx nu) (b : Backup X U F nx) (target dt : F) (fuel : ℕ) (s : St X F nx) :
    advanceR Arith.exact env d b target dt fuel s = advance env d b target dt fuel s := by
  induction fuel generalizing s with
  | zero => rfl
  | succ f ih => simp only [advanceR, advance, ih, odeStepR_exact]

theorem barrierLoopR_exact (env : Env X U F nx nu) (d : Dyn X U F nx nu) (b : Backup X U F nx) (h : Barrier X F nx) (alpha tau dt : F)
    (f0 : Fin nx → F) (df0 : Matrix (Fin nx) (Fin nu) F) (fuel n k : ℕ) (s : St X F nx) (qp : DQP F) :
    barrierLoopR Arith.exact env d b h alpha tau dt f0 df0 fuel n k s qp = barrierLoop env d b h alpha tau dt f0 df0 fuel n k s qp := by
  induction n generalizing k s qp with
  | zero => rfl
  | succ n ih =>
    simp only [barrierLoopR, barrierLoop, ih, advanceR_exact]
    rfl

end

/-! ### The inner loop -/

theorem tick_succ (fl : F → F) (e t : F) (i : ℕ) : tick fl e t (i + 1) = tick fl e (fl (t + e)) i := by
  induction i with
  | zero => rfl
  | succ i ih => rw [tick, ih, tick]

theorem iterate_t (ar : Arith F) (env : Env X U F nx nu) (d : Dyn X U F nx nu) (b : Backup X U F nx) (e : F) (s : St X F nx) (n : ℕ) :
    ((odeStepR ar env d b e)^[n] s).t = tick ar.fl e s.t n := by
  induction n with
  | zero => rfl
  | succ n ih => rw [Function.iterate_succ_apply']; change ar.fl (_ + e) = _; rw [ih]; rfl

theorem advanceR_eq (ar : Arith F) (env : Env X U F nx nu) (d : Dyn X U F nx nu) (b : Backup X U F nx) (target e : F) (n : ℕ) (s : St X F nx)
    (h1 : ∀ i < n, tick ar.fl e s.t i < target) (h2 : target ≤ tick ar.fl e s.t n) (fuel : ℕ) (hf : n < fuel) :
    advanceR ar env d b target e fuel s = some ((odeStepR ar env d b e)^[n] s) := by
  induction n generalizing fuel s with
  | zero =>
    obtain ⟨f, rfl⟩ := Nat.exists_eq_succ_of_ne_zero (by omega : fuel ≠ 0)
    have h3 : ¬s.t < target := not_lt.2 h2
    rw [advanceR, if_neg h3]
    rfl
  | succ n ih =>
    obtain ⟨f, rfl⟩ := Nat.exists_eq_succ_of_ne_zero (by omega : fuel ≠ 0)
    have h3 : s.t < target := h1 0 (by omega)
    rw [advanceR, if_pos h3, Function.iterate_succ_apply]
    refine ih _ (fun i hi => ?_) ?_ f (by omega)
    · have := h1 (i + 1) (by omega)
      rwa [tick_succ] at this
    · rwa [tick_succ] at h2

theorem advanceR_walk (ar : Arith F) (env : Env X U F nx nu) (d : Dyn X U F nx nu) (b : Backup X U F nx) (target e : F) (fuel : ℕ) (s s' : St X F nx)
    (h : advanceR ar env d b target e fuel s = some s') :
    ∃ n < fuel, s' = (odeStepR ar env d b e)^[n] s ∧ (∀ i < n, tick ar.fl e s.t i < target) ∧ target ≤ tick ar.fl e s.t n := by
  induction fuel generalizing s with
  | zero => simp [advanceR] at h
  | succ f ih =>
    rw [advanceR] at h
    by_cases hc : s.t < target
    · rw [if_pos hc] at h
      obtain ⟨n, hn, e1, e2, e3⟩ := ih _ h
      refine ⟨n + 1, by omega, by rw [Function.iterate_succ_apply, e1], fun i hi => ?_, by rw [tick_succ]; exact e3⟩
      cases i with
      | zero => exact hc
      | succ i => rw [tick_succ]; exact e2 i (by omega)
    · rw [if_neg hc] at h
      cases h
      exact ⟨0, by omega, rfl, fun i hi => absurd hi (by omega), not_lt.1 hc⟩

/-! ### The outer loop -/

/-- The iteration variables at the constraints. -/
def trace (ar : Arith F) (env : Env X U F nx nu) (d : Dyn X U F nx nu) (b : Backup X U F nx) (e : ℕ → F) (n : ℕ → ℕ) (x0 : X) : ℕ → St X F nx
  | 0 => ⟨0, x0, 1⟩
  | k + 1 => (odeStepR ar env d b (e k))^[n k] (trace ar env d b e n x0 k)

theorem trace_t {ar : Arith F} (env : Env X U F nx nu) (d : Dyn X U F nx nu) (b : Backup X U F nx) {K : ℕ} {tau dt : F} {t e : ℕ → F} {n : ℕ → ℕ}
    (hS : ScheduleR ar.fl K tau dt t e n) (x0 : X) (k : ℕ) (hk : k ≤ K) : (trace ar env d b e n x0 k).t = t k := by
  induction k with
  | zero => exact hS.zero.symm
  | succ k ih => rw [trace, iterate_t, ih (by omega), hS.next k (by omega)]

/-- The barrier rows in rounded arithmetic, from the state at the constraint. -/
def rowA (ar : Arith F) (h : Barrier X F nx) (df0 : Matrix (Fin nx) (Fin nu) F) (s : St X F nx) : Matrix (Fin h.nh) (Fin nu) F :=
  mulR ar (mulR ar (h.dx s.t s.x) s.S) df0

def rowL (ar : Arith F) (alpha : F) (h : Barrier X F nx) (f0 : Fin nx → F) (s : St X F nx) (i : Fin h.nh) : F :=
  ar.fl (ar.fl (-h.dt s.t s.x i - ar.fl (alpha * h.h s.t s.x i)) - ar.mv (mulR ar (h.dx s.t s.x) s.S) f0 i)

/-- The first `k` constraints are in place. -/
structure Rows (ar : Arith F) (alpha : F) (h : Barrier X F nx) (f0 : Fin nx → F) (df0 : Matrix (Fin nx) (Fin nu) F) (s : ℕ → St X F nx) (k : ℕ)
    (qp : DQP F) : Prop where
  A : ∀ a < k, ∀ (i : Fin h.nh) (c : Fin nu), qp.A.val (a * h.nh + i) c = rowA ar h df0 (s a) i c
  l : ∀ a < k, ∀ i : Fin h.nh, qp.l.val (a * h.nh + i) = .fin (rowL ar alpha h f0 (s a) i)
  u : ∀ a < k, ∀ i : Fin h.nh, qp.u.val (a * h.nh + i) = .pos

/-- The sizes. -/
structure Sized (qp : DQP F) (M N : ℕ) : Prop where
  A : qp.A.rows = M ∧ qp.A.cols = N
  l : qp.l.size = M
  u : qp.u.size = M
  P : qp.P.rows = N ∧ qp.P.cols = N
  q : qp.q.size = N

theorem sizesOk_iff (qp : DQP F) (M N : ℕ) : sizesOk qp M N = true ↔ Sized qp M N := by
  unfold sizesOk
  rw [decide_eq_true_iff]
  constructor
  · rintro ⟨a, b, c, d, e, f, g⟩; exact ⟨⟨a, b⟩, c, d, ⟨e, f⟩, g⟩
  · rintro ⟨⟨a, b⟩, c, d, ⟨e, f⟩, g⟩; exact ⟨a, b, c, d, e, f, g⟩

theorem row_lt {nh a k : ℕ} (h : a < k) (i : Fin nh) : a * nh + i < k * nh := by
  have h1 : (a + 1) * nh ≤ k * nh := Nat.mul_le_mul_right _ h
  have h2 := i.2
  rw [Nat.add_mul] at h1
  omega

theorem barrierRowsR_spec (ar : Arith F) (alpha : F) (h : Barrier X F nx) (f0 : Fin nx → F) (df0 : Matrix (Fin nx) (Fin nu) F) (s : ℕ → St X F nx)
    (k K R : ℕ) (hk : k < K) (qp : DQP F) (hs : Sized qp (K * h.nh + R + 1) (nu + 1)) (hr : Rows ar alpha h f0 df0 s k qp) :
    ∃ qp', barrierRowsR ar nu alpha h f0 df0 k (s k) qp = some qp' ∧ Sized qp' (K * h.nh + R + 1) (nu + 1) ∧
      Rows ar alpha h f0 df0 s (k + 1) qp' := by
  have hle : k * h.nh + h.nh ≤ K * h.nh := by
    have := Nat.mul_le_mul_right h.nh (Nat.succ_le_of_lt hk)
    rwa [Nat.succ_mul] at this
  unfold barrierRowsR DM.setBlock DV.setSeg
  dsimp only
  rw [if_pos ⟨by rw [hs.A.1]; omega, by rw [hs.A.2]; omega⟩, if_pos (by rw [hs.l]; omega), if_pos (by rw [hs.u]; omega)]
  simp only [Option.bind_some, Option.map_some]
  refine ⟨_, rfl, ⟨hs.A, hs.l, hs.u, hs.P, hs.q⟩, ⟨?_, ?_, ?_⟩⟩
  all_goals
    intro a ha i
    rcases Nat.lt_succ_iff_lt_or_eq.1 ha with hlt | rfl
    · have := row_lt hlt i
      first
        | (intro c; dsimp only; rw [if_neg (by omega)]; exact hr.A a hlt i c)
        | (dsimp only; rw [if_neg (by omega)]; exact hr.l a hlt i)
        | (dsimp only; rw [if_neg (by omega)]; exact hr.u a hlt i)
    · have h2 := i.2
      first
        | (intro c
           have h3 := c.2
           dsimp only
           rw [if_pos (by omega), show a * h.nh + i - a * h.nh = (i : ℕ) by omega, Nat.sub_zero]
           simp [extM, rowA])
        | (dsimp only
           rw [if_pos (by omega)]
           try rw [show a * h.nh + i - a * h.nh = (i : ℕ) by omega]
           try simp [extV, rowL])

theorem barrierLoopR_spec (ar : Arith F) (env : Env X U F nx nu) (d : Dyn X U F nx nu) (b : Backup X U F nx) (h : Barrier X F nx) (alpha tau dt : F)
    (f0 : Fin nx → F) (df0 : Matrix (Fin nx) (Fin nu) F) (fuel : ℕ) (x0 : X) (K R : ℕ) {t e : ℕ → F} {n : ℕ → ℕ}
    (hS : ScheduleR ar.fl K tau dt t e n) (hf : ∀ k < K, n k < fuel) (m k : ℕ) (hm : k + m = K) (qp : DQP F)
    (hs : Sized qp (K * h.nh + R + 1) (nu + 1)) (hr : Rows ar alpha h f0 df0 (trace ar env d b e n x0) k qp) :
    ∃ qp', barrierLoopR ar env d b h alpha tau dt f0 df0 fuel m k (trace ar env d b e n x0 k) qp = some qp' ∧
      Sized qp' (K * h.nh + R + 1) (nu + 1) ∧ Rows ar alpha h f0 df0 (trace ar env d b e n x0) K qp' := by
  induction m generalizing k qp with
  | zero =>
    obtain rfl : k = K := by omega
    exact ⟨qp, rfl, hs, hr⟩
  | succ m ih =>
    obtain ⟨q1, h1, h2, h3⟩ := barrierRowsR_spec ar alpha h f0 df0 _ k K R (by omega) qp hs hr
    obtain ⟨q2, h4, h5, h6⟩ := ih (k + 1) (by omega) q1 h2 h3
    refine ⟨q2, ?_, h5, h6⟩
    rw [barrierLoopR, h1, Option.bind_some]
    dsimp only
    have ht := trace_t env d b hS x0 k (by omega)
    rw [ht, ← hS.step k (by omega), advanceR_eq ar env d b _ (e k) (n k) _ (by rw [ht]; exact hS.before k (by omega))
      (by rw [ht, ← hS.next k (by omega)]; exact hS.reach k (by omega)) fuel (hf k (by omega)), Option.bind_some]
    exact h4

/-- The loop that returns has gone through a schedule. -/
theorem barrierLoopR_walk (ar : Arith F) (env : Env X U F nx nu) (d : Dyn X U F nx nu) (b : Backup X U F nx) (h : Barrier X F nx) (alpha tau dt : F)
    (f0 : Fin nx → F) (df0 : Matrix (Fin nx) (Fin nu) F) (fuel : ℕ) (m k : ℕ) (s : St X F nx) (qp qp' : DQP F)
    (hh : barrierLoopR ar env d b h alpha tau dt f0 df0 fuel m k s qp = some qp') :
    ∃ (t e : ℕ → F) (n : ℕ → ℕ), t k = s.t ∧ ∀ a, k ≤ a → a < k + m → n a < fuel ∧ e a = min dt (ar.fl (ar.fl (tau * ((a + 1 : ℕ) : F)) - t a)) ∧
      t (a + 1) = tick ar.fl (e a) (t a) (n a) ∧ (∀ i < n a, tick ar.fl (e a) (t a) i < ar.fl (tau * ((a + 1 : ℕ) : F))) ∧
      ar.fl (tau * ((a + 1 : ℕ) : F)) ≤ t (a + 1) := by
  induction m generalizing k s qp with
  | zero => exact ⟨fun _ => s.t, fun _ => 0, fun _ => 0, rfl, fun a h1 h2 => absurd h2 (by omega)⟩
  | succ m ih =>
    rw [barrierLoopR, Option.bind_eq_some_iff] at hh
    obtain ⟨q1, -, h2⟩ := hh
    dsimp only at h2
    rw [Option.bind_eq_some_iff] at h2
    obtain ⟨s1, h3, h4⟩ := h2
    obtain ⟨n0, hn, e1, e2, e3⟩ := advanceR_walk ar env d b _ _ fuel s s1 h3
    obtain ⟨t, e, n, ht, hr⟩ := ih (k + 1) s1 q1 h4
    have ht1 : s1.t = tick ar.fl (min dt (ar.fl (ar.fl (tau * ((k + 1 : ℕ) : F)) - s.t))) s.t n0 := by rw [e1, iterate_t]
    refine ⟨fun a => if a = k then s.t else t a, fun a => if a = k then min dt (ar.fl (ar.fl (tau * ((k + 1 : ℕ) : F)) - s.t)) else e a,
      fun a => if a = k then n0 else n a, by simp, fun a h5 h6 => ?_⟩
    rcases Nat.eq_or_lt_of_le h5 with rfl | hlt
    · simp only [if_true, if_neg (Nat.succ_ne_self k)]
      refine ⟨hn, trivial, by rw [ht, ht1], e2, ?_⟩
      rw [ht, ht1]; exact e3
    · have := hr a hlt (by omega)
      simpa only [if_neg (show a ≠ k by omega), if_neg (show a + 1 ≠ k by omega)] using this

/-- The remaining rows can always be written and leave the constraints alone. -/
theorem tailRowsR_spec (ar : Arith F) (env : Env X U F nx nu) (p : Pbm X U F nu) (prm : Prm F) (h : Barrier X F nx) (alpha : F) (f0 : Fin nx → F)
    (df0 : Matrix (Fin nx) (Fin nu) F) (s : ℕ → St X F nx) (qp : DQP F) (hs : Sized qp (prm.K * h.nh + p.ulim.rows + 1) (nu + 1))
    (hr : Rows ar alpha h f0 df0 s prm.K qp) :
    ∃ qp', tailRowsR ar env p prm h.nh qp = some qp' ∧ Sized qp' (prm.K * h.nh + p.ulim.rows + 1) (nu + 1) ∧
      Rows ar alpha h f0 df0 s prm.K qp' ∧ Tail ar env p prm h.nh qp' := by
  unfold tailRowsR DM.setBlock DV.setSeg
  dsimp only
  have c1 : 0 + prm.K * h.nh ≤ qp.A.rows ∧ nu + 1 ≤ qp.A.cols := ⟨by rw [hs.A.1]; omega, by rw [hs.A.2]⟩
  have c2 : prm.K * h.nh + p.ulim.rows ≤ qp.A.rows ∧ 0 + nu ≤ qp.A.cols := ⟨by rw [hs.A.1]; omega, by rw [hs.A.2]; omega⟩
  have c3 : prm.K * h.nh + p.ulim.rows ≤ qp.l.size := by rw [hs.l]; omega
  have c4 : prm.K * h.nh + p.ulim.rows ≤ qp.u.size := by rw [hs.u]; omega
  have c5 : prm.K * h.nh + p.ulim.rows + 1 ≤ qp.A.rows ∧ nu + 1 ≤ qp.A.cols := ⟨by rw [hs.A.1], by rw [hs.A.2]⟩
  have c6 : prm.K * h.nh + p.ulim.rows + 1 ≤ qp.l.size := by rw [hs.l]
  have c7 : prm.K * h.nh + p.ulim.rows + 1 ≤ qp.u.size := by rw [hs.u]
  have c8 : 0 + nu ≤ qp.P.rows ∧ 0 + nu ≤ qp.P.cols := ⟨by rw [hs.P.1]; omega, by rw [hs.P.2]; omega⟩
  have c9 : nu + 1 ≤ qp.P.rows ∧ nu + 1 ≤ qp.P.cols := ⟨by rw [hs.P.1], by rw [hs.P.2]⟩
  have c10 : nu + 1 ≤ qp.q.size := by rw [hs.q]
  rw [if_pos c1, Option.bind_some, if_pos c2, Option.bind_some, if_pos c3, Option.bind_some, if_pos c4, Option.bind_some, if_pos c5,
    Option.bind_some, if_pos c6, Option.bind_some, if_pos c7, Option.bind_some, if_pos c8, Option.bind_some, if_pos c9, Option.bind_some,
    if_pos c10, Option.map_some]
  refine ⟨_, rfl, ⟨hs.A, hs.l, hs.u, hs.P, hs.q⟩, ⟨?_, ?_, ?_⟩, ⟨?_, ?_, ?_, ?_, ⟨?_, ?_, ?_⟩, ?_, ?_, ?_⟩⟩
  · intro a ha i c
    have h1 := row_lt ha i
    have h2 := c.2
    dsimp only
    rw [if_neg (by omega), if_neg (by omega), if_neg (by omega)]
    exact hr.A a ha i c
  · intro a ha i
    have h1 := row_lt ha i
    dsimp only
    rw [if_neg (by omega), if_neg (by omega)]
    exact hr.l a ha i
  · intro a ha i
    have h1 := row_lt ha i
    dsimp only
    rw [if_neg (by omega), if_neg (by omega)]
    exact hr.u a ha i
  · intro r h1
    dsimp only
    rw [if_neg (by omega), if_neg (by omega), if_pos (by omega)]
  · intro i c
    have h1 := i.2
    have h2 := c.2
    dsimp only
    rw [if_neg (by omega), if_pos (by omega), show prm.K * h.nh + i - prm.K * h.nh = (i : ℕ) by omega, Nat.sub_zero]
    simp [extM]
  · intro i
    have h1 := i.2
    dsimp only
    rw [if_neg (by omega), if_pos (by omega), show prm.K * h.nh + i - prm.K * h.nh = (i : ℕ) by omega]
    simp only [extV, i.2, dif_pos, Fin.eta]
    cases p.ulim.l i <;> rfl
  · intro i
    have h1 := i.2
    dsimp only
    rw [if_neg (by omega), if_pos (by omega), show prm.K * h.nh + i - prm.K * h.nh = (i : ℕ) by omega]
    simp only [extV, i.2, dif_pos, Fin.eta]
    cases p.ulim.u i <;> rfl
  · dsimp only
    rw [if_pos (by omega)]
  · dsimp only
    rw [if_pos (by omega)]
  · dsimp only
    rw [if_pos (by omega)]
  · intro i j
    have h1 := i.2
    dsimp only
    rw [if_neg (by omega), if_pos (by omega), Nat.sub_zero, Nat.sub_zero]
    simp [extM, Matrix.diagonal_apply]
  · dsimp only
    rw [if_pos (by omega)]
  · dsimp only
    rw [if_pos (by omega)]

/-! ### The clock -/

section

variable [IsStrictOrderedRing F] {ar : Arith F} {u : F}

theorem tick_nonneg (hr : Rounds ar u) {e t : F} (he : 0 ≤ e) (ht : 0 ≤ t) : ∀ i, 0 ≤ tick ar.fl e t i
  | 0 => ht
  | i + 1 => hr.fl_nonneg (add_nonneg (tick_nonneg hr he ht i) he)

theorem tick_rep (hr : Rounds ar u) (hs : Subtracts ar) {e t : F} (he : 0 ≤ e) (ht : 0 ≤ t) (h : ar.fl t = t) :
    ∀ i, ar.fl (tick ar.fl e t i) = tick ar.fl e t i
  | 0 => h
  | i + 1 => hs.idem _ (add_nonneg (tick_nonneg hr he ht i) he)

theorem fl_ge (hr : Rounds ar u) {a : F} (ha : 0 ≤ a) : (1 - u) * a ≤ ar.fl a := by
  have h1 := hr.fl_err a
  rw [abs_of_nonneg ha] at h1
  have h2 := (abs_le.1 h1).1
  linarith

/-- Resolved steps reach the target. -/
theorem reach_of_resolved (hr : Rounds ar u) {e target : F} (he : 0 < e) (hres : 2 * u * (target + e) ≤ e) (N : ℕ) : ∀ t, 0 ≤ t →
    target - t ≤ N * (e / 2) → ∃ n ≤ N, (∀ i < n, tick ar.fl e t i < target) ∧ target ≤ tick ar.fl e t n := by
  induction N with
  | zero =>
    intro t _ h
    simp at h
    exact ⟨0, le_rfl, fun i hi => absurd hi (by omega), h⟩
  | succ N ih =>
    intro t ht h
    by_cases hc : t < target
    · have h1 := fl_ge hr (add_nonneg ht he.le)
      have h2 : u * (t + e) ≤ u * (target + e) := mul_le_mul_of_nonneg_left (by linarith) hr.nonneg
      have h3 : t + e / 2 ≤ ar.fl (t + e) := by linarith
      push_cast at h
      obtain ⟨n, hn, h4, h5⟩ := ih (ar.fl (t + e)) (by linarith) (by linarith)
      refine ⟨n + 1, by omega, fun i hi => ?_, by rw [tick_succ]; exact h5⟩
      cases i with
      | zero => exact hc
      | succ i => rw [tick_succ]; exact h4 i (by omega)
    · exact ⟨0, by omega, fun i hi => absurd hi (by omega), not_lt.1 hc⟩

/-- One interval. -/
theorem interval_reach (hr : Rounds ar u) (hs : Subtracts ar) (hu : 16 * u ≤ 1) {d t target T : F} (hd : 0 < d) (ht : 0 ≤ t) (htr : ar.fl t = t)
    (hg : ar.fl target = target) (hT : target ≤ 2 * T) (hres : 2 * u * (2 * T + d) ≤ d) (N : ℕ) (hN : 4 * T ≤ N * d) :
    ∃ n ≤ N + 3, (∀ i < n, tick ar.fl (min d (ar.fl (target - t))) t i < target) ∧
      target ≤ tick ar.fl (min d (ar.fl (target - t))) t n ∧ 0 ≤ tick ar.fl (min d (ar.fl (target - t))) t n ∧
      ar.fl (tick ar.fl (min d (ar.fl (target - t))) t n) = tick ar.fl (min d (ar.fl (target - t))) t n ∧
      (n = 0 ∨ tick ar.fl (min d (ar.fl (target - t))) t n ≤ ar.fl (target + d)) := by
  by_cases hc : t < target
  · set g := ar.fl (target - t) with hgd
    have hgp : 0 < g := hr.fl_pos (by linarith)
    have he : 0 < min d g := lt_min hd hgp
    have main : ∃ n ≤ N + 3, (∀ i < n, tick ar.fl (min d g) t i < target) ∧ target ≤ tick ar.fl (min d g) t n := by
      rcases le_total d g with hdg | hgd'
      · rw [min_eq_left hdg]
        have h2 : u * (target + d) ≤ u * (2 * T + d) := mul_le_mul_of_nonneg_left (by linarith) hr.nonneg
        obtain ⟨n, hn, h⟩ := reach_of_resolved hr hd (target := target) (by linarith) N t ht (by linarith)
        exact ⟨n, by omega, h⟩
      · rw [min_eq_right hgd']
        by_cases hcl : target ≤ 2 * t
        · have hex : g = target - t := hs.close t target ht htr hg hc.le hcl
          refine ⟨1, by omega, fun i hi => ?_, ?_⟩
          · obtain rfl : i = 0 := by omega
            exact hc
          · change target ≤ ar.fl (t + g)
            rw [hex, add_sub_cancel, hg]
        · have h1 : (1 - u) * (target - t) ≤ g := fl_ge hr (by linarith)
          have h2 : g ≤ (1 + u) * (target - t) := hr.fl_le (by linarith)
          have h0 : 0 < target - t := by linarith
          have hun := hr.nonneg
          have h5 : u * (target - t) ≤ (target - t) / 16 := by nlinarith
          have h6 : u * target ≤ target / 16 := by nlinarith
          have h7 : u * g ≤ g / 16 := by nlinarith
          obtain ⟨n, hn, h⟩ := reach_of_resolved hr hgp (target := target) (by nlinarith) 3 t ht (by
            push_cast
            nlinarith)
          exact ⟨n, by omega, h⟩
    obtain ⟨n, hn, h1, h2⟩ := main
    refine ⟨n, hn, h1, h2, tick_nonneg hr he.le ht n, tick_rep hr hs he.le ht htr n, ?_⟩
    cases n with
    | zero => exact Or.inl rfl
    | succ n => exact Or.inr (hr.fl_mono (add_le_add (h1 n (by omega)).le (min_le_left _ _)))
  · exact ⟨0, by omega, fun i hi => absurd hi (by omega), not_lt.1 hc, ht, htr, Or.inl rfl⟩

end

/-! ### Binary floating point numbers -/

theorem flBits_rep (p : ℕ) {x : ℚ} (hx : 0 < x) : ∃ (z : ℕ) (e : ℤ), flBits p x = z * 2 ^ e ∧ 2 ^ p ≤ z ∧ z ≤ 2 ^ (p + 1) := by
  have hu := ulp_pos p x
  have hb := log_bounds hx.ne'
  have e1 : (2 : ℚ) ^ Int.log 2 |x| = ((2 ^ p : ℤ) : ℚ) * ulp p x := by
    unfold ulp
    push_cast
    rw [← zpow_natCast, ← zpow_add₀ (by norm_num)]
    congr 1; ring
  have e2 : (2 : ℚ) ^ (Int.log 2 |x| + 1) = ((2 ^ (p + 1) : ℤ) : ℚ) * ulp p x := by
    rw [zpow_add_one₀ (by norm_num), e1]; push_cast; ring
  rw [e1, e2, abs_of_pos hx] at hb
  have h1 : (2 ^ p : ℤ) ≤ nearest (x / ulp p x) := le_nearest (by rw [le_div_iff₀ hu]; exact hb.1)
  have h2 : nearest (x / ulp p x) ≤ (2 ^ (p + 1) : ℤ) := nearest_le (by rw [div_le_iff₀ hu]; exact hb.2.le)
  obtain ⟨z, hz⟩ : ∃ z : ℕ, nearest (x / ulp p x) = z := Int.eq_ofNat_of_zero_le (le_trans (by positivity) h1)
  refine ⟨z, Int.log 2 |x| - p, ?_, ?_, ?_⟩
  · unfold flBits
    rw [if_neg hx.ne', hz]
    rfl
  · rw [hz] at h1; exact_mod_cast h1
  · rw [hz] at h2; exact_mod_cast h2

/-- Binary floating point numbers have both properties. -/
theorem floatArith_subtracts (p : ℕ) : Subtracts (floatArith p) where
  idem := by
    intro a ha
    change flBits p (flBits p a) = flBits p a
    rcases ha.eq_or_lt with rfl | hpos
    · simp [flBits]
    · obtain ⟨z, e, h1, -, h3⟩ := flBits_rep p hpos
      rw [h1, flBits_short p z h3]
  close := by
    intro a b ha ra rb hab hba
    change flBits p a = a at ra
    change flBits p b = b at rb
    change flBits p (b - a) = b - a
    rcases ha.eq_or_lt with rfl | hpos
    · obtain rfl : b = 0 := by linarith
      simp [flBits]
    · obtain ⟨z, e, h1, h2, h3⟩ := flBits_rep p hpos
      obtain ⟨w, f, k1, k2, k3⟩ := flBits_rep p (hpos.trans_le hab)
      rw [ra] at h1
      rw [rb] at k1
      have he : (0 : ℚ) < 2 ^ e := zpow_pos (by norm_num) _
      have hf : (0 : ℚ) < 2 ^ f := zpow_pos (by norm_num) _
      by_cases hef : e ≤ f
      · obtain ⟨c, hc⟩ : ∃ c : ℕ, f = c + e := ⟨(f - e).toNat, by omega⟩
        have hb : b = ((w * 2 ^ c : ℕ) : ℚ) * 2 ^ e := by
          rw [k1, hc, zpow_add₀ (by norm_num)]
          push_cast
          rw [zpow_natCast]
          ring
        have hz : z ≤ w * 2 ^ c := by
          have : (z : ℚ) * 2 ^ e ≤ ((w * 2 ^ c : ℕ) : ℚ) * 2 ^ e := by rw [← h1, ← hb]; exact hab
          exact_mod_cast le_of_mul_le_mul_right this he
        have hw : w * 2 ^ c ≤ 2 * z := by
          have : ((w * 2 ^ c : ℕ) : ℚ) * 2 ^ e ≤ (2 * z : ℕ) * 2 ^ e := by
            rw [← hb]; push_cast; rw [mul_assoc, ← h1]; exact hba
          exact_mod_cast le_of_mul_le_mul_right this he
        have hd : b - a = ((w * 2 ^ c - z : ℕ) : ℚ) * 2 ^ e := by
          rw [hb, h1, Nat.cast_sub hz]
          ring
        rw [hd]
        exact flBits_short p _ (by omega) e
      · have hle : b ≤ a := by
          rw [h1, k1]
          obtain ⟨c, hc⟩ : ∃ c : ℕ, e = c + 1 + f := ⟨(e - f - 1).toNat, by omega⟩
          rw [hc, zpow_add₀ (by norm_num), ← mul_assoc]
          refine mul_le_mul_of_nonneg_right ?_ hf.le
          have : w ≤ z * 2 ^ (c + 1) := by
            calc w ≤ 2 ^ (p + 1) := k3
              _ = 2 ^ p * 2 := by ring
              _ ≤ z * 2 ^ (c + 1) := Nat.mul_le_mul h2 (by rw [pow_succ]; exact Nat.le_mul_of_pos_left _ (by positivity))
          have h9 : (w : ℚ) ≤ (z : ℚ) * 2 ^ (c + 1) := by exact_mod_cast this
          rw [show ((c : ℤ) + 1) = ((c + 1 : ℕ) : ℤ) by push_cast; ring, zpow_natCast]
          exact h9
        rw [show b - a = 0 by linarith]
        simp [flBits]

end Verif.ASIF
