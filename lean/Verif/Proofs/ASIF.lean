import Verif.Spec.ASIF
import Mathlib.Tactic.Ring
import Mathlib.Tactic.Linarith
import Mathlib.Tactic.Positivity
import Mathlib.Algebra.Order.Archimedean.Basic
import Mathlib.Algebra.BigOperators.Fin

/-! # Lemmas about the safety filter -/

set_option linter.unusedSectionVars false

namespace Verif.ASIF

open Verif.QPSpec
open Verif.QP (Ext Status)

variable {X U F : Type*} {nx nu : ℕ} [Field F] [LinearOrder F] [IsStrictOrderedRing F]

/-! ## Integration -/

theorem march_append (env : Env X U F nx nu) (d : Dyn X U F nx nu) (b : Backup X U F nx) (l1 l2 : List F) (t : F) (x : X) :
    march env d b (l1 ++ l2) t x = march env d b l2 (t + l1.sum) (march env d b l1 t x) := by
  induction l1 generalizing t x with
  | nil => simp [march]
  | cons e l ih => simp [march, ih, add_assoc]

theorem sens_append (env : Env X U F nx nu) (d : Dyn X U F nx nu) (b : Backup X U F nx) (l1 l2 : List F) (t : F) (x : X) (S) :
    sens env d b (l1 ++ l2) t x S = sens env d b l2 (t + l1.sum) (march env d b l1 t x) (sens env d b l1 t x S) := by
  induction l1 generalizing t x S with
  | nil => simp [march, sens]
  | cons e l ih => simp [march, sens, ih, add_assoc]

/-- The iteration variables after these steps. -/
def after (env : Env X U F nx nu) (d : Dyn X U F nx nu) (b : Backup X U F nx) (l : List F) (s : St X F nx) : St X F nx :=
  ⟨s.t + l.sum, march env d b l s.t s.x, sens env d b l s.t s.x s.S⟩

theorem after_append (env : Env X U F nx nu) (d : Dyn X U F nx nu) (b : Backup X U F nx) (l1 l2 : List F) (s : St X F nx) :
    after env d b (l1 ++ l2) s = after env d b l2 (after env d b l1 s) := by
  simp [after, march_append, sens_append, add_assoc]

theorem after_cons (env : Env X U F nx nu) (d : Dyn X U F nx nu) (b : Backup X U F nx) (e : F) (l : List F) (s : St X F nx) :
    after env d b (e :: l) s = after env d b l (odeStep env d b e s) := by
  simp only [after, odeStep, march, sens, fcl, List.sum_cons, add_assoc]
  congr 4
  rw [neg_add_eq_sub]

theorem advance_eq (env : Env X U F nx nu) (d : Dyn X U F nx nu) (b : Backup X U F nx) (target e : F) (n : ℕ) (s : St X F nx)
    (h1 : ∀ i < n, s.t + i * e < target) (h2 : target ≤ s.t + n * e) (fuel : ℕ) (hf : n < fuel) :
    advance env d b target e fuel s = some (after env d b (List.replicate n e) s) := by
  induction n generalizing s fuel with
  | zero =>
    obtain ⟨fuel, rfl⟩ := Nat.exists_eq_succ_of_ne_zero (by omega : fuel ≠ 0)
    have : ¬s.t < target := by simpa using h2
    simp [advance, this, after, march, sens]
  | succ n ih =>
    obtain ⟨fuel, rfl⟩ := Nat.exists_eq_succ_of_ne_zero (by omega : fuel ≠ 0)
    have h0 := h1 0 (by omega)
    simp only [Nat.cast_zero, zero_mul, add_zero] at h0
    rw [advance, if_pos h0, List.replicate_succ, after_cons]
    apply ih
    · intro i hi
      have := h1 (i + 1) (by omega)
      have e2 : (odeStep env d b e s).t = s.t + e := rfl
      rw [e2]
      push_cast at this
      linarith
    · have e2 : (odeStep env d b e s).t = s.t + e := rfl
      rw [e2]
      push_cast at h2
      linarith
    · omega

/-- Without progress the loop never ends. -/
theorem advance_stuck (env : Env X U F nx nu) (d : Dyn X U F nx nu) (b : Backup X U F nx) (target e : F) (he : e ≤ 0) (fuel : ℕ) (s : St X F nx)
    (h : s.t < target) : advance env d b target e fuel s = none := by
  induction fuel generalizing s with
  | zero => rfl
  | succ n ih =>
    rw [advance, if_pos h]
    apply ih
    change s.t + e < target
    linarith

/-- The number of steps to get past a target. -/
theorem steps_to [Archimedean F] (t target e : F) (he : 0 < e) (ht : t < target) :
    ∃ n : ℕ, 1 ≤ n ∧ (∀ i < n, t + i * e < target) ∧ target ≤ t + n * e ∧ t + n * e < target + e := by
  classical
  have hex : ∃ n : ℕ, target ≤ t + n * e := by
    obtain ⟨n, hn⟩ := Archimedean.arch (target - t) he
    rw [nsmul_eq_mul] at hn
    exact ⟨n, by linarith⟩
  have hmin : ∀ i < Nat.find hex, t + i * e < target := fun i hi => not_le.mp (Nat.find_min hex hi)
  have h1 : 1 ≤ Nat.find hex := by
    rw [Nat.one_le_iff_ne_zero]
    intro h0
    have := Nat.find_spec hex
    rw [h0] at this
    simp at this
    linarith
  refine ⟨Nat.find hex, h1, hmin, Nat.find_spec hex, ?_⟩
  have := hmin (Nat.find hex - 1) (by omega)
  rw [Nat.cast_sub h1] at this
  push_cast at this
  linarith

/-- The times of the constraints. -/
theorem Schedule.time {K : ℕ} {tau dt : F} {steps : ℕ → List F} (hS : Schedule K tau dt steps) (hdt : 0 < dt) (hle : dt ≤ tau) (k : ℕ) (hk : k ≤ K) :
    tau * k ≤ (steps k).sum ∧ (steps k).sum < tau * k + dt := by
  induction k with
  | zero => rw [hS.zero]; simpa using hdt
  | succ k ih =>
    obtain ⟨h1, h2⟩ := ih (by omega)
    obtain ⟨n, a1, a2, a3⟩ := hS.rule k (by omega)
    refine ⟨a3, ?_⟩
    have hsum : (steps (k + 1)).sum = (steps k).sum + n * min dt (tau * ((k + 1 : ℕ) : F) - (steps k).sum) := by rw [a1]; simp
    have hn : 1 ≤ n := by
      rw [Nat.one_le_iff_ne_zero]
      rintro rfl
      rw [hsum] at a3
      push_cast at a3
      linarith
    have := a2 (n - 1) (by omega)
    rw [Nat.cast_sub hn] at this
    have h4 := min_le_left dt (tau * ((k + 1 : ℕ) : F) - (steps k).sum)
    rw [hsum]
    push_cast at this h4 ⊢
    linarith

theorem exists_schedule [Archimedean F] (tau dt : F) (hdt : 0 < dt) (hle : dt ≤ tau) (K : ℕ) : ∃ steps : ℕ → List F, Schedule K tau dt steps := by
  induction K with
  | zero => exact ⟨fun _ => [], rfl, fun k hk => absurd hk (by omega)⟩
  | succ K ih =>
    obtain ⟨steps, hS⟩ := ih
    obtain ⟨h1, h2⟩ := hS.time hdt hle K le_rfl
    have hlt : (steps K).sum < tau * ((K + 1 : ℕ) : F) := by push_cast; linarith
    have hpos : 0 < min dt (tau * ((K + 1 : ℕ) : F) - (steps K).sum) := lt_min hdt (by linarith)
    obtain ⟨n, a1, a2, a3, a4⟩ := steps_to (steps K).sum _ _ hpos hlt
    refine ⟨fun k => if k ≤ K then steps k else steps K ++ List.replicate n (min dt (tau * ((K + 1 : ℕ) : F) - (steps K).sum)), by simp [hS.zero], fun k hk => ?_⟩
    by_cases hkK : k = K
    · subst hkK
      refine ⟨n, by simp, by simpa using a2, ?_⟩
      simpa using a3
    · obtain ⟨n, b1, b2, b3⟩ := hS.rule k (by omega)
      refine ⟨n, ?_, ?_, ?_⟩
      · rw [if_pos (by omega), if_pos (by omega)]; exact b1
      · rw [if_pos (by omega)]; exact b2
      · rw [if_pos (by omega)]; exact b3

/-- Without a horizon there are no steps. -/
theorem schedule_empty (K : ℕ) (tau dt : F) (ht : tau ≤ 0) : Schedule K tau dt fun _ => [] :=
  ⟨rfl, fun k _ => ⟨0, by simp, by simp, by simpa using mul_nonpos_of_nonpos_of_nonneg ht (by positivity)⟩⟩

/-! ## The rows -/

/-- The entries that the barrier loop writes, for the steps before each constraint. -/
def barA (env : Env X U F nx nu) (d : Dyn X U F nx nu) (b : Backup X U F nx) (h : Barrier X F nx) (p : Pbm X U F nu) (steps : ℕ → List F) (r c : ℕ) : F :=
  let s := after env d b (steps (r / h.nh)) ⟨0, p.x0, 1⟩
  extM (h.dx s.t s.x * s.S * d.du p.x0 p.udes) (r % h.nh) c
def barL (env : Env X U F nx nu) (d : Dyn X U F nx nu) (b : Backup X U F nx) (h : Barrier X F nx) (p : Pbm X U F nu) (alpha : F) (steps : ℕ → List F)
    (r : ℕ) : Ext F :=
  let s := after env d b (steps (r / h.nh)) ⟨0, p.x0, 1⟩
  extV (fun i => .fin (-h.dt s.t s.x i - alpha * h.h s.t s.x i - (h.dx s.t s.x * s.S).mulVec (d.f p.x0 p.udes) i)) (r % h.nh)

theorem row_split {nh k r : ℕ} (h1 : k * nh ≤ r) (h2 : r < k * nh + nh) : r / nh = k ∧ r % nh = r - k * nh := by
  have h : 0 < nh := by omega
  have e : r / nh = k := Nat.div_eq_of_lt_le (by omega) (by rw [Nat.succ_mul]; omega)
  refine ⟨e, ?_⟩
  have := Nat.div_add_mod r nh
  rw [e, Nat.mul_comm] at this
  omega

theorem barrierLoop_eq (env : Env X U F nx nu) (d : Dyn X U F nx nu) (b : Backup X U F nx) (h : Barrier X F nx) (p : Pbm X U F nu) (alpha tau dt : F)
    (fuel : ℕ) {K : ℕ} (steps : ℕ → List F) (hS : Schedule K tau dt steps) (n k : ℕ) (hK : k + n ≤ K)
    (hf : ∀ i ≤ K, (steps i).length < fuel) (qp : DQP F) (hA : (k + n) * h.nh ≤ qp.A.rows ∧ nu ≤ qp.A.cols) (hl : (k + n) * h.nh ≤ qp.l.size)
    (hu : (k + n) * h.nh ≤ qp.u.size) :
    barrierLoop env d b h alpha tau dt (d.f p.x0 p.udes) (d.du p.x0 p.udes) fuel n k (after env d b (steps k) ⟨0, p.x0, 1⟩) qp =
      some { qp with
        A := ⟨qp.A.rows, qp.A.cols, fun r c => if k * h.nh ≤ r ∧ r < (k + n) * h.nh ∧ c < nu then barA env d b h p steps r c else qp.A.val r c⟩
        l := ⟨qp.l.size, fun r => if k * h.nh ≤ r ∧ r < (k + n) * h.nh then barL env d b h p alpha steps r else qp.l.val r⟩
        u := ⟨qp.u.size, fun r => if k * h.nh ≤ r ∧ r < (k + n) * h.nh then .pos else qp.u.val r⟩ } := by
  induction n generalizing k qp with
  | zero =>
    have hn : ∀ r, ¬(k * h.nh ≤ r ∧ r < (k + 0) * h.nh) := fun r hr => by simp at hr; omega
    have hn' : ∀ r c, ¬(k * h.nh ≤ r ∧ r < (k + 0) * h.nh ∧ c < nu) := fun r c hr => hn r ⟨hr.1, hr.2.1⟩
    simp only [barrierLoop, hn, hn', if_false]
  | succ n ih =>
    have hk1 : k * h.nh + h.nh = (k + 1) * h.nh := by ring
    have hle : (k + 1) * h.nh ≤ (k + (n + 1)) * h.nh := Nat.mul_le_mul_right _ (by omega)
    set s := after env d b (steps k) ⟨0, p.x0, 1⟩ with hs
    have hst : s.t = (steps k).sum := by simp [hs, after]
    have hrow : barrierRows nu alpha h (d.f p.x0 p.udes) (d.du p.x0 p.udes) k s qp = some { qp with
        A := ⟨qp.A.rows, qp.A.cols, fun r c => if k * h.nh ≤ r ∧ r < k * h.nh + h.nh ∧ 0 ≤ c ∧ c < 0 + nu then
          extM (h.dx s.t s.x * s.S * d.du p.x0 p.udes) (r - k * h.nh) (c - 0) else qp.A.val r c⟩
        l := ⟨qp.l.size, fun r => if k * h.nh ≤ r ∧ r < k * h.nh + h.nh then
          extV (fun i => .fin (-h.dt s.t s.x i - alpha * h.h s.t s.x i - (h.dx s.t s.x * s.S).mulVec (d.f p.x0 p.udes) i)) (r - k * h.nh) else qp.l.val r⟩
        u := ⟨qp.u.size, fun r => if k * h.nh ≤ r ∧ r < k * h.nh + h.nh then .pos else qp.u.val r⟩ } := by
      unfold barrierRows DM.setBlock DV.setSeg
      have c1 : k * h.nh + h.nh ≤ qp.A.rows ∧ 0 + nu ≤ qp.A.cols := ⟨by omega, by omega⟩
      have c2 : k * h.nh + h.nh ≤ qp.l.size := by omega
      have c3 : k * h.nh + h.nh ≤ qp.u.size := by omega
      simp only [if_pos c1, if_pos c2, if_pos c3]
      rfl
    obtain ⟨cnt, b1, b2, b3⟩ := hS.rule k (by omega)
    have hcnt : cnt < fuel := by
      have := hf (k + 1) (by omega)
      rw [b1] at this
      simp at this
      omega
    have hadv := advance_eq env d b (tau * ((k + 1 : ℕ) : F)) (min dt (tau * ((k + 1 : ℕ) : F) - s.t)) cnt s
      (by rw [hst]; exact b2) (by rw [hst]; rw [b1] at b3; simpa using b3) fuel hcnt
    have hnext : after env d b (List.replicate cnt (min dt (tau * ((k + 1 : ℕ) : F) - s.t))) s = after env d b (steps (k + 1)) ⟨0, p.x0, 1⟩ := by
      rw [hst, b1, after_append]
    rw [barrierLoop, hrow, Option.bind_some]
    simp only
    rw [hadv, hnext, Option.bind_some]
    have hkn : k + 1 + n = k + (n + 1) := by omega
    rw [ih (k + 1) (by omega)]
    rotate_left
    · rw [hkn]; exact hA
    · rw [hkn]; exact hl
    · rw [hkn]; exact hu
    rw [hkn]
    dsimp only
    congr 2
    · congr 1
      funext r c
      by_cases h1 : (k + 1) * h.nh ≤ r ∧ r < (k + (n + 1)) * h.nh ∧ c < nu
      · rw [if_pos h1, if_pos ⟨by omega, h1.2⟩]
      · rw [if_neg h1]
        by_cases h2 : k * h.nh ≤ r ∧ r < k * h.nh + h.nh ∧ 0 ≤ c ∧ c < 0 + nu
        · rw [if_pos h2, if_pos ⟨h2.1, by omega, by omega⟩]
          obtain ⟨e1, e2⟩ := row_split h2.1 h2.2.1
          unfold barA
          rw [e1, e2]
          rfl
        · rw [if_neg h2, if_neg (by omega)]
    · congr 1
      funext r
      by_cases h1 : (k + 1) * h.nh ≤ r ∧ r < (k + (n + 1)) * h.nh
      · rw [if_pos h1, if_pos ⟨by omega, h1.2⟩]
      · rw [if_neg h1]
        by_cases h2 : k * h.nh ≤ r ∧ r < k * h.nh + h.nh
        · rw [if_pos h2, if_pos ⟨h2.1, by omega⟩]
          obtain ⟨e1, e2⟩ := row_split h2.1 h2.2
          unfold barL
          rw [e1, e2]
        · rw [if_neg h2, if_neg (by omega)]
    · congr 1
      funext r
      by_cases h1 : (k + 1) * h.nh ≤ r ∧ r < (k + (n + 1)) * h.nh
      · rw [if_pos h1, if_pos ⟨by omega, h1.2⟩]
      · rw [if_neg h1]
        by_cases h2 : k * h.nh ≤ r ∧ r < k * h.nh + h.nh
        · rw [if_pos h2, if_pos ⟨h2.1, by omega⟩]
        · rw [if_neg h2, if_neg (by omega)]

/-- Everything that no update writes still has its first value. -/
structure Clean (nu K nuIneq nh : ℕ) (qp : DQP F) : Prop where
  A : qp.A.rows = K * nh + nuIneq + 1 ∧ qp.A.cols = nu + 1
  l : qp.l.size = K * nh + nuIneq + 1
  u : qp.u.size = K * nh + nuIneq + 1
  P : qp.P.rows = nu + 1 ∧ qp.P.cols = nu + 1
  q : qp.q.size = nu + 1
  Av : ∀ r c, ¬(r < K * nh ∧ c ≤ nu) → ¬(r < K * nh + nuIneq ∧ c < nu) → ¬(r = K * nh + nuIneq ∧ c = nu) → qp.A.val r c = 0
  lv : ∀ r, ¬r < K * nh + nuIneq + 1 → qp.l.val r = .fin 0
  uv : ∀ r, ¬r < K * nh + nuIneq + 1 → qp.u.val r = .fin 0
  Pv : ∀ r c, ¬(r < nu ∧ c < nu) → ¬(r = nu ∧ c = nu) → qp.P.val r c = 0
  qv : ∀ r, qp.q.val r = 0

theorem allocate_clean (nu K nuIneq nh : ℕ) : Clean nu K nuIneq nh (allocate nu K nuIneq nh : DQP F) :=
  ⟨⟨rfl, rfl⟩, rfl, rfl, ⟨rfl, rfl⟩, rfl, fun _ _ _ _ _ => rfl, fun _ _ => rfl, fun _ _ => rfl, fun _ _ _ _ => rfl, fun _ => rfl⟩

/-- The program, entry by entry. -/
def built (env : Env X U F nx nu) (d : Dyn X U F nx nu) (b : Backup X U F nx) (h : Barrier X F nx) (p : Pbm X U F nu) (prm : Prm F) (steps : ℕ → List F) :
    DQP F :=
  let n := prm.K * h.nh
  let m := p.ulim.rows
  let sh := p.ulim.A.mulVec (env.uminus p.udes p.ulim.c)
  { A := ⟨n + m + 1, nu + 1, fun r c =>
      if r < n then (if c < nu then barA env d b h p steps r c else if c = nu then 1 else 0)
      else if r < n + m then (if c < nu then extM p.ulim.A (r - n) c else 0)
      else if r = n + m ∧ c = nu then 1 else 0⟩
    l := ⟨n + m + 1, fun r => if r < n then barL env d b h p prm.alpha steps r else if r < n + m then extV (fun i => extSub (p.ulim.l i) (sh i)) (r - n) else .fin 0⟩
    u := ⟨n + m + 1, fun r => if r < n then .pos else if r < n + m then extV (fun i => extSub (p.ulim.u i) (sh i)) (r - n) else
      if r = n + m then .pos else .fin 0⟩
    P := ⟨nu + 1, nu + 1, fun r c => if r < nu ∧ c < nu then extM (Matrix.diagonal p.W) r c else if r = nu ∧ c = nu then prm.relax else 0⟩
    q := ⟨nu + 1, fun _ => 0⟩ }

theorem built_clean (env : Env X U F nx nu) (d : Dyn X U F nx nu) (b : Backup X U F nx) (h : Barrier X F nx) (p : Pbm X U F nu) (prm : Prm F)
    (steps : ℕ → List F) : Clean nu prm.K p.ulim.rows h.nh (built env d b h p prm steps) := by
  refine ⟨⟨rfl, rfl⟩, rfl, rfl, ⟨rfl, rfl⟩, rfl, fun r c h1 h2 h3 => ?_, fun r h1 => ?_, fun r h1 => ?_, fun r c h1 h2 => ?_, fun r => rfl⟩
  · simp only [built]
    split_ifs <;> first | rfl | omega
  · simp only [built]
    split_ifs <;> first | rfl | omega
  · simp only [built]
    split_ifs <;> first | rfl | omega
  · simp only [built]
    rw [if_neg h1, if_neg h2]

/-- An update writes the whole program. -/
theorem update_eq (env : Env X U F nx nu) (d : Dyn X U F nx nu) (b : Backup X U F nx) (h : Barrier X F nx) (p : Pbm X U F nu) (prm : Prm F)
    (fuel : ℕ) (steps : ℕ → List F) (hS : Schedule prm.K (p.T / prm.K) (min prm.dt (p.T / prm.K)) steps) (hf : ∀ k ≤ prm.K, (steps k).length < fuel)
    (qp : DQP F) (hq : Clean nu prm.K p.ulim.rows h.nh qp) :
    update env d b h p prm fuel qp = some (built env d b h p prm steps) := by
  have hsz : sizesOk qp (prm.K * h.nh + p.ulim.rows + 1) (nu + 1) = true := by
    simp [sizesOk, hq.A, hq.l, hq.u, hq.P, hq.q]
  obtain ⟨P, q, A, l, u⟩ := qp
  obtain ⟨⟨a1, a2⟩, a3, a4, ⟨a5, a6⟩, a7, a8, a9, a10, a11, a12⟩ := hq
  dsimp only at a1 a2 a3 a4 a5 a6 a7 a8 a9 a10 a11 a12
  unfold update
  rw [if_pos hsz]
  have hst : (⟨0, p.x0, 1⟩ : St X F nx) = after env d b (steps 0) ⟨0, p.x0, 1⟩ := by rw [hS.zero]; simp [after, march, sens]
  dsimp only
  rw [hst, barrierLoop_eq env d b h p prm.alpha _ _ fuel steps hS prm.K 0 (by simp) hf _ (by dsimp only; rw [a1, a2]; constructor <;> simp; omega)
    (by dsimp only; rw [a3]; simp; omega) (by dsimp only; rw [a4]; simp; omega), Option.bind_some]
  simp only [Nat.zero_add, Nat.zero_mul, Nat.zero_le, true_and]
  unfold tailRows DM.setBlock DV.setSeg
  have c1 : 0 + prm.K * h.nh ≤ A.rows ∧ nu + 1 ≤ A.cols := by rw [a1, a2]; omega
  have c2 : prm.K * h.nh + p.ulim.rows ≤ A.rows ∧ 0 + nu ≤ A.cols := by rw [a1, a2]; omega
  have c3 : prm.K * h.nh + p.ulim.rows ≤ l.size := by omega
  have c4 : prm.K * h.nh + p.ulim.rows ≤ u.size := by omega
  have c5 : prm.K * h.nh + p.ulim.rows + 1 ≤ A.rows ∧ nu + 1 ≤ A.cols := by rw [a1, a2]; omega
  have c6 : prm.K * h.nh + p.ulim.rows + 1 ≤ l.size := by omega
  have c7 : prm.K * h.nh + p.ulim.rows + 1 ≤ u.size := by omega
  have c8 : 0 + nu ≤ P.rows ∧ 0 + nu ≤ P.cols := by omega
  have c9 : nu + 1 ≤ P.rows ∧ nu + 1 ≤ P.cols := by omega
  have c10 : nu + 1 ≤ q.size := by omega
  simp only [if_pos c1, if_pos c2, if_pos c3, if_pos c4, if_pos c5, if_pos c6, if_pos c7, if_pos c8, if_pos c9, if_pos c10, Option.bind_some, Option.map_some]
  unfold built
  simp only [a1, a2, a3, a4, a5, a6, a7]
  congr 2
  · congr 1
    funext r c
    by_cases h1 : r = nu ∧ c = nu
    · rw [if_pos (by omega), if_neg (by omega), if_pos h1]
    · rw [if_neg (by omega)]
      by_cases h2 : r < nu ∧ c < nu
      · rw [if_pos (by omega), if_pos h2]; rfl
      · rw [if_neg (by omega), if_neg h2, if_neg h1, a11 r c h2 h1]
  · congr 1
    funext r
    split_ifs
    · rfl
    · exact a12 r
  · congr 1
    funext r c
    by_cases h1 : r = prm.K * h.nh + p.ulim.rows ∧ c = nu
    · rw [if_pos (by omega), if_neg (by omega), if_neg (by omega), if_pos h1]
    · rw [if_neg (by omega)]
      by_cases h2 : r < prm.K * h.nh
      · rw [if_neg (by omega), if_pos h2]
        by_cases h3 : c < nu
        · rw [if_neg (by omega), if_pos ⟨h2, h3⟩, if_pos h3]
        · rw [if_neg h3]
          by_cases h4 : c = nu
          · rw [if_pos (by omega), if_pos h4]
          · rw [if_neg (by omega), if_neg (by omega), if_neg h4, a8 r c (by omega) (by omega) (by omega)]
      · rw [if_neg h2]
        by_cases h3 : r < prm.K * h.nh + p.ulim.rows
        · rw [if_pos h3]
          by_cases h4 : c < nu
          · rw [if_pos (by omega), if_pos h4]; rfl
          · rw [if_neg (by omega), if_neg (by omega), if_neg (by omega), if_neg h4, a8 r c (by omega) (by omega) (by omega)]
        · rw [if_neg (by omega), if_neg (by omega), if_neg (by omega), if_neg h3, if_neg h1, a8 r c (by omega) (by omega) (by omega)]
  · congr 1
    funext r
    by_cases h1 : r < prm.K * h.nh
    · rw [if_neg (by omega), if_neg (by omega), if_pos h1, if_pos h1]
    · rw [if_neg h1, if_neg h1]
      by_cases h2 : r < prm.K * h.nh + p.ulim.rows
      · rw [if_neg (by omega), if_pos (by omega), if_pos h2]
      · rw [if_neg h2]
        by_cases h3 : r = prm.K * h.nh + p.ulim.rows
        · rw [if_pos (by omega)]
        · rw [if_neg (by omega), if_neg (by omega), a9 r (by omega)]
  · congr 1
    funext r
    by_cases h1 : r < prm.K * h.nh
    · rw [if_neg (by omega), if_neg (by omega), if_pos h1, if_pos h1]
    · rw [if_neg h1, if_neg h1]
      by_cases h2 : r < prm.K * h.nh + p.ulim.rows
      · rw [if_neg (by omega), if_pos (by omega), if_pos h2]
      · rw [if_neg h2]
        by_cases h3 : r = prm.K * h.nh + p.ulim.rows
        · rw [if_pos (by omega), if_pos h3]
        · rw [if_neg (by omega), if_neg (by omega), if_neg h3, a10 r (by omega)]

/-! ## The program -/

theorem extV_fin {α : Type*} [Inhabited α] {n : ℕ} (g : Fin n → α) (i : Fin n) : extV g i = g i := by simp [extV]
theorem extM_fin {m n : ℕ} (g : Matrix (Fin m) (Fin n) F) (i : Fin m) (j : Fin n) : extM g i j = g i j := by simp [extM]

theorem lower_sub (b : Ext F) (a w : F) : lower (extSub b a) w ↔ lower b (a + w) := by
  cases b with
  | neg => rfl
  | pos => rfl
  | fin b => exact ⟨fun h => by change b - a ≤ w at h; change b ≤ a + w; linarith, fun h => by change b ≤ a + w at h; change b - a ≤ w; linarith⟩
theorem upper_sub (b : Ext F) (a w : F) : upper (extSub b a) w ↔ upper b (a + w) := by
  cases b with
  | neg => rfl
  | pos => rfl
  | fin b => exact ⟨fun h => by change w ≤ b - a at h; change a + w ≤ b; linarith, fun h => by change a + w ≤ b at h; change w ≤ b - a; linarith⟩

theorem row_val (qp : DQP F) (n : ℕ) (v : Fin (nu + 1) → F) (i : Fin n) :
    ((qp.pbm (nu + 1) n).A.mulVec v) i = ∑ j : Fin nu, qp.A.val i j * corr v j + qp.A.val i nu * slack v := by
  unfold Matrix.mulVec dotProduct
  rw [Fin.sum_univ_castSucc]
  rfl

theorem built_size (env : Env X U F nx nu) (d : Dyn X U F nx nu) (b : Backup X U F nx) (h : Barrier X F nx) (p : Pbm X U F nu) (prm : Prm F)
    (steps : ℕ → List F) : HasSize (built env d b h p prm steps) (nu + 1) (prm.K * h.nh + p.ulim.rows + 1) :=
  ⟨⟨rfl, rfl⟩, rfl, ⟨rfl, rfl⟩, rfl, rfl⟩

theorem bar_row (env : Env X U F nx nu) (d : Dyn X U F nx nu) (b : Backup X U F nx) (h : Barrier X F nx) (p : Pbm X U F nu) (alpha : F)
    (steps : ℕ → List F) (k : ℕ) (j : Fin h.nh) (mu : Fin nu → F) (s : F) :
    lower (barL env d b h p alpha steps (k * h.nh + j)) (∑ i : Fin nu, barA env d b h p steps (k * h.nh + j) i * mu i + 1 * s) ↔
      0 ≤ barrier d h alpha p.x0 p.udes (steps k).sum (march env d b (steps k) 0 p.x0) (sens env d b (steps k) 0 p.x0 1) mu j + s := by
  obtain ⟨e1, e2⟩ := row_split (nh := h.nh) (k := k) (r := k * h.nh + j) (by omega) (by omega)
  have e3 : k * h.nh + (j : ℕ) - k * h.nh = j := by omega
  unfold barL barA
  rw [e1, e2, e3]
  simp only [after, zero_add]
  rw [extV_fin]
  simp only [extM_fin]
  set t := (steps k).sum
  set x := march env d b (steps k) 0 p.x0
  set S := sens env d b (steps k) 0 p.x0 1
  have : ∑ i : Fin nu, (h.dx t x * S * d.du p.x0 p.udes) j i * mu i = (h.dx t x).mulVec (S.mulVec ((d.du p.x0 p.udes).mulVec mu)) j := by
    rw [Matrix.mulVec_mulVec, Matrix.mulVec_mulVec]
    rfl
  rw [this]
  unfold barrier
  rw [Matrix.mulVec_add, Matrix.mulVec_add, Pi.add_apply, Matrix.mulVec_mulVec (d.f p.x0 p.udes)]
  change _ ≤ _ ↔ _
  constructor <;> intro h' <;> linarith

theorem built_feasible (env : Env X U F nx nu) (d : Dyn X U F nx nu) (b : Backup X U F nx) (h : Barrier X F nx) (p : Pbm X U F nu) (prm : Prm F)
    (steps : ℕ → List F) (v : Fin (nu + 1) → F) :
    Feasible ((built env d b h p prm steps).pbm (nu + 1) (prm.K * h.nh + p.ulim.rows + 1)) v ↔
      Safe env d b h p prm steps (corr v) (slack v) ∧ InPoly p.ulim (env.uminus p.udes p.ulim.c + corr v) ∧ 0 ≤ slack v := by
  set n := prm.K * h.nh with hn
  set m := p.ulim.rows with hm
  have rowU : ∀ i : Fin m, (lower (extSub (p.ulim.l i) (p.ulim.A.mulVec (env.uminus p.udes p.ulim.c) i)) (∑ j : Fin nu, p.ulim.A i j * corr v j) ↔
      lower (p.ulim.l i) (p.ulim.A.mulVec (env.uminus p.udes p.ulim.c + corr v) i)) ∧
      (upper (extSub (p.ulim.u i) (p.ulim.A.mulVec (env.uminus p.udes p.ulim.c) i)) (∑ j : Fin nu, p.ulim.A i j * corr v j) ↔
      upper (p.ulim.u i) (p.ulim.A.mulVec (env.uminus p.udes p.ulim.c + corr v) i)) := by
    intro i
    rw [lower_sub, upper_sub, Matrix.mulVec_add]
    exact ⟨Iff.rfl, Iff.rfl⟩
  constructor
  · intro hF
    refine ⟨fun k hk j => ?_, fun i => ?_, ?_⟩
    · have hr : k * h.nh + j < n := by
        have : (k + 1) * h.nh ≤ prm.K * h.nh := Nat.mul_le_mul_right _ hk
        rw [Nat.succ_mul] at this
        omega
      obtain ⟨h1, -⟩ := hF ⟨k * h.nh + j, by omega⟩
      rw [row_val] at h1
      rw [← bar_row]
      simp only [built, DQP.pbm] at h1
      simp only [← hn, ← hm, hr, if_true, Fin.is_lt, if_true, lt_irrefl, if_false] at h1
      exact h1
    · obtain ⟨h1, h2⟩ := hF ⟨n + i, by omega⟩
      rw [row_val] at h1 h2
      have c1 : ¬n + (i : ℕ) < n := by omega
      have c2 : n + (i : ℕ) < n + m := by omega
      have c3 : n + (i : ℕ) - n = i := by omega
      simp only [built, DQP.pbm] at h1 h2
      simp only [← hn, ← hm, c1, c2, c3, if_true, if_false, Fin.is_lt, lt_irrefl, extV_fin, extM_fin, zero_mul, add_zero] at h1 h2
      exact ⟨(rowU i).1.mp h1, (rowU i).2.mp h2⟩
    · obtain ⟨h1, -⟩ := hF ⟨n + m, by omega⟩
      rw [row_val] at h1
      have c1 : ¬n + m < n := by omega
      have c4 : ∀ j : Fin nu, ¬(j : ℕ) = nu := fun j => by omega
      simp only [built, DQP.pbm] at h1
      simp only [← hn, ← hm, c1, c4, if_false, lt_irrefl, true_and, if_true, zero_mul, Finset.sum_const_zero, zero_add, one_mul] at h1
      exact h1
  · rintro ⟨hs, hb, h0⟩ ⟨r, hr⟩
    rw [row_val]
    by_cases c1 : r < n
    · have hnh : 0 < h.nh := by
        rw [Nat.pos_iff_ne_zero]
        intro h0
        rw [hn, h0] at c1
        omega
      obtain ⟨k, j, hk, rfl⟩ : ∃ (k : ℕ) (j : Fin h.nh), k < prm.K ∧ r = k * h.nh + j :=
        ⟨r / h.nh, ⟨r % h.nh, Nat.mod_lt _ hnh⟩, (Nat.div_lt_iff_lt_mul hnh).mpr c1, (Nat.div_add_mod' r h.nh).symm⟩
      have := (bar_row env d b h p prm.alpha steps k j (corr v) (slack v)).mpr (hs k hk j)
      simp only [built, DQP.pbm]
      simp only [← hn, ← hm, c1, if_true, Fin.is_lt, if_true, lt_irrefl, if_false]
      exact ⟨this, trivial⟩
    · by_cases c2 : r < n + m
      · obtain ⟨i, rfl⟩ : ∃ i : Fin m, r = n + i := ⟨⟨r - n, by omega⟩, by simp; omega⟩
        have c3 : n + (i : ℕ) - n = i := by omega
        simp only [built, DQP.pbm]
        simp only [← hn, ← hm, c1, c2, c3, if_true, if_false, Fin.is_lt, lt_irrefl, extV_fin, extM_fin, zero_mul, add_zero]
        exact ⟨(rowU i).1.mpr (hb i).1, (rowU i).2.mpr (hb i).2⟩
      · obtain rfl : r = n + m := by omega
        have c4 : ∀ j : Fin nu, ¬(j : ℕ) = nu := fun j => by omega
        simp only [built, DQP.pbm]
        simp only [← hn, ← hm, c1, c4, if_false, lt_irrefl, true_and, if_true, zero_mul, Finset.sum_const_zero, zero_add, one_mul]
        exact ⟨h0, trivial⟩

theorem built_cost (env : Env X U F nx nu) (d : Dyn X U F nx nu) (b : Backup X U F nx) (h : Barrier X F nx) (p : Pbm X U F nu) (prm : Prm F)
    (steps : ℕ → List F) (m : ℕ) (v : Fin (nu + 1) → F) :
    cost ((built env d b h p prm steps).pbm (nu + 1) m) v = (∑ i, p.W i * corr v i ^ 2 + prm.relax * slack v ^ 2) / 2 := by
  unfold cost Matrix.mulVec dotProduct
  have c4 : ∀ j : Fin nu, ¬(j : ℕ) = nu := fun j => by omega
  have hq : ∑ i, ((built env d b h p prm steps).pbm (nu + 1) m).q i * v i = 0 := Finset.sum_eq_zero fun i _ => zero_mul _
  rw [hq, add_zero, Fin.sum_univ_castSucc]
  simp only [Fin.sum_univ_castSucc (n := nu)]
  simp only [built, DQP.pbm, Fin.val_castSucc, Fin.is_lt, Fin.val_last, c4, lt_irrefl, true_and, and_true, and_false, false_and, if_true, if_false,
    zero_mul, add_zero, zero_add, Finset.sum_const_zero]
  congr 2
  · refine Finset.sum_congr rfl fun i _ => ?_
    have : ∑ j : Fin nu, extM (Matrix.diagonal p.W) i j * v j.castSucc = p.W i * v i.castSucc := by
      simp only [extM_fin]
      rw [Finset.sum_eq_single i (fun j _ hj => by rw [Matrix.diagonal_apply_ne _ (Ne.symm hj), zero_mul]) (by simp), Matrix.diagonal_apply_eq]
    rw [this]
    simp only [corr]
    ring
  · simp only [slack]
    ring

end Verif.ASIF
