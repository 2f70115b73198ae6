import Verif.Model.PIDSe2
import Mathlib.Tactic.Ring
import Mathlib.Tactic.Linarith
import Mathlib.Tactic.FinCases
import Mathlib.Tactic.FieldSimp
import Mathlib.Algebra.Order.Field.Rat

/-! # The vehicle under PID control: inputs and velocities (C122) -/

namespace Verif.PIDSe2

open Verif.Lie

variable {X F : Type*} [Field F] [LinearOrder F] [IsStrictOrderedRing F]

theorem clamp_abs (a : F) : |clamp a| ≤ 1 := by
  unfold clamp
  split_ifs with h1 h2
  · simp
  · simp
  · exact abs_le.2 ⟨not_lt.1 h1, not_lt.1 h2⟩

theorem clamp_of_abs {a : F} (h : |a| ≤ 1) : clamp a = a := by
  have := abs_le.1 h
  unfold clamp
  rw [if_neg (not_lt.2 this.1), if_neg (not_lt.2 this.2)]

/-- The step of the integrator: the velocity grows with the input, the pose moves along the mean velocity. -/
theorem step_eq (L : LieOps X F 3) (u : Fin 2 → F) (dt : F) (s : X × (Fin 3 → F)) :
    step L u dt s = (L.rplus s.1 (dt • s.2 + (dt ^ 2 / 2) • ![u 0, 0, u 1]), s.2 + dt • ![u 0, 0, u 1]) := by
  refine Prod.ext ?_ ?_
  · simp only [step, ode, plus, Prod.fst_add, Prod.smul_fst, Prod.smul_snd]
    congr 1
    funext k
    simp only [Pi.add_apply, Pi.smul_apply, smul_eq_mul]
    ring
  · simp only [step, ode, plus, Prod.snd_add, Prod.smul_snd]
    congr 1
    funext k
    simp only [Pi.add_apply, Pi.smul_apply, smul_eq_mul]
    ring

theorem clamp_eq (a : F) : clamp a = max (-1) (min 1 a) := by
  unfold clamp
  split_ifs with h1 h2
  · rw [max_eq_left]
    exact (min_le_right _ _).trans h1.le
  · rw [min_eq_left h2.le, max_eq_right]
    linarith
  · rw [min_eq_right (not_lt.1 h2), max_eq_right (not_lt.1 h1)]

/-- The controller of the example: unit gains on pose and velocity, none on the integral; its memory does not matter. -/
def Std (L : LieOps X F 3) (g0 : X) (p : PID.State F X F 3) : Prop := p.kp = (fun _ => 1) ∧ p.kd = (fun _ => 1) ∧ p.ki = (fun _ => 0) ∧ p.xdes = xdes L g0

theorem setup_std (L : LieOps X F 3) (rminus : X → X → Fin 3 → F) (one g0 : X) : Std L g0 (setup L rminus one g0) := ⟨rfl, rfl, rfl, rfl⟩

/-- The acceleration that the controller asks for. -/
def want (L : LieOps X F 3) (rminus : X → X → Fin 3 → F) (g0 : X) (t : F) (s : X × (Fin 3 → F)) : Fin 3 → F :=
  fun k => rminus (L.rplus g0 (t • vdes)) s.1 k + (vdes k - s.2 k)

theorem call_std {L : LieOps X F 3} {rminus : X → X → Fin 3 → F} {one g0 : X} {p : PID.State F X F 3} (h : Std L g0 p) (t : F) (s : X × (Fin 3 → F)) :
    Std L g0 (PID.call (env rminus one) p t s.1 s.2).1 ∧ (PID.call (env rminus one) p t s.1 s.2).2 = want L rminus g0 t s := by
  obtain ⟨h1, h2, h3, h4⟩ := h
  refine ⟨⟨h1, h2, h3, h4⟩, ?_⟩
  funext k
  simp only [PID.call, h1, h2, h3, h4, xdes, env, want]
  simp

/-- The loop without the memory of the controller. -/
def free (L : LieOps X F 3) (rminus : X → X → Fin 3 → F) (g0 : X) : ℕ → ℕ → X × (Fin 3 → F) → List ((X × (Fin 3 → F)) × (Fin 2 → F))
  | 0, _, _ => []
  | n + 1, k, s => (s, alloc (want L rminus g0 ((k : F) / 20) s)) :: free L rminus g0 n (k + 1) (step L (alloc (want L rminus g0 ((k : F) / 20) s)) (1 / 20) s)

theorem loop_free {L : LieOps X F 3} {rminus : X → X → Fin 3 → F} {one g0 : X} (n k : ℕ) {p : PID.State F X F 3} (h : Std L g0 p) (s : X × (Fin 3 → F)) :
    loop L (env rminus one) n k p s = free L rminus g0 n k s := by
  induction n generalizing k p s with
  | zero => rfl
  | succ n ih =>
    obtain ⟨h1, h2⟩ := call_std (rminus := rminus) (one := one) h ((k : F) / 20) s
    simp only [loop, free]
    rw [ih (k + 1) h1, h2]

theorem free_length (L : LieOps X F 3) (rminus : X → X → Fin 3 → F) (g0 : X) (n k : ℕ) (s : X × (Fin 3 → F)) : (free L rminus g0 n k s).length = n := by
  induction n generalizing k s with
  | zero => rfl
  | succ n ih => simp [free, ih]

theorem free_head (L : LieOps X F 3) (rminus : X → X → Fin 3 → F) (g0 : X) (n k : ℕ) (s : X × (Fin 3 → F)) {r : (X × (Fin 3 → F)) × (Fin 2 → F)}
    (h : (free L rminus g0 n k s)[0]? = some r) : r.1 = s := by
  cases n with
  | zero => simp [free] at h
  | succ n =>
    simp only [free, List.getElem?_cons_zero, Option.some.injEq] at h
    rw [← h]

theorem free_input (L : LieOps X F 3) (rminus : X → X → Fin 3 → F) (g0 : X) (n k j : ℕ) (s : X × (Fin 3 → F)) {r : (X × (Fin 3 → F)) × (Fin 2 → F)}
    (h : (free L rminus g0 n k s)[j]? = some r) : r.2 = alloc (want L rminus g0 (((k + j : ℕ) : F) / 20) r.1) := by
  induction n generalizing k s j with
  | zero => simp [free] at h
  | succ n ih =>
    cases j with
    | zero =>
      simp only [free, List.getElem?_cons_zero, Option.some.injEq] at h
      rw [← h, Nat.add_zero]
    | succ j =>
      simp only [free, List.getElem?_cons_succ] at h
      rw [ih (k + 1) j _ h, show k + 1 + j = k + (j + 1) by omega]

theorem free_next (L : LieOps X F 3) (rminus : X → X → Fin 3 → F) (g0 : X) (n k j : ℕ) (s : X × (Fin 3 → F)) {r r' : (X × (Fin 3 → F)) × (Fin 2 → F)}
    (h : (free L rminus g0 n k s)[j]? = some r) (h' : (free L rminus g0 n k s)[j + 1]? = some r') : r'.1 = step L r.2 (1 / 20) r.1 := by
  induction n generalizing k s j with
  | zero => simp [free] at h
  | succ n ih =>
    cases j with
    | zero =>
      simp only [free, List.getElem?_cons_zero, List.getElem?_cons_succ, Option.some.injEq] at h h'
      rw [free_head L rminus g0 _ _ _ h', ← h]
    | succ j =>
      simp only [free, List.getElem?_cons_succ] at h h'
      exact ih (k + 1) j _ h h'

/-- **The motion of the vehicle.** The inputs are the difference of poses plus the difference of velocities, allocated and limited to `[-1, 1]`; whatever the difference of
poses is, the lateral velocity never changes, the other velocities grow by at most 1/20 per turn, and the pose moves along the mean velocity. -/
theorem pid_se2_motion (L : LieOps X F 3) (rminus : X → X → Fin 3 → F) (one g0 : X) (n : ℕ) (s : X × (Fin 3 → F)) :
    (main L rminus one g0 n s).length = n ∧ (∀ r, (main L rminus one g0 n s)[0]? = some r → r.1 = s) ∧
    (∀ (k : ℕ) r, (main L rminus one g0 n s)[k]? = some r →
      r.2 0 = max (-1) (min 1 (rminus (L.rplus g0 (((k : F) / 20) • ![1, 0, 2 / 5])) r.1.1 0 + (1 - r.1.2 0))) ∧
      r.2 1 = max (-1) (min 1 (rminus (L.rplus g0 (((k : F) / 20) • ![1, 0, 2 / 5])) r.1.1 2 + (2 / 5 - r.1.2 2) +
        3 / 10 * (rminus (L.rplus g0 (((k : F) / 20) • ![1, 0, 2 / 5])) r.1.1 1 - r.1.2 1))) ∧
      r.1.2 1 = s.2 1 ∧ |r.1.2 0 - s.2 0| ≤ (k : F) / 20 ∧ |r.1.2 2 - s.2 2| ≤ (k : F) / 20) ∧
    ∀ (k : ℕ) r r', (main L rminus one g0 n s)[k]? = some r → (main L rminus one g0 n s)[k + 1]? = some r' →
      r'.1.1 = L.rplus r.1.1 ((1 / 20 : F) • r.1.2 + (1 / 800 : F) • ![r.2 0, 0, r.2 1]) ∧ r'.1.2 = r.1.2 + (1 / 20 : F) • ![r.2 0, 0, r.2 1] := by
  have e : main L rminus one g0 n s = free L rminus g0 n 0 s := loop_free n 0 (setup_std L rminus one g0) s
  rw [e]
  have hi : ∀ (k : ℕ) r, (free L rminus g0 n 0 s)[k]? = some r → r.2 = alloc (want L rminus g0 ((k : F) / 20) r.1) := fun k r hr => by
    have := free_input L rminus g0 n 0 k s hr
    rwa [Nat.zero_add] at this
  have hn : ∀ (k : ℕ) r r', (free L rminus g0 n 0 s)[k]? = some r → (free L rminus g0 n 0 s)[k + 1]? = some r' →
      r'.1.1 = L.rplus r.1.1 ((1 / 20 : F) • r.1.2 + (1 / 800 : F) • ![r.2 0, 0, r.2 1]) ∧ r'.1.2 = r.1.2 + (1 / 20 : F) • ![r.2 0, 0, r.2 1] := by
    intro k r r' h h'
    have := free_next L rminus g0 n 0 k s h h'
    rw [step_eq] at this
    rw [this]
    norm_num
  refine ⟨free_length L rminus g0 n 0 s, fun r hr => free_head L rminus g0 n 0 s hr, fun k r hr => ?_, hn⟩
  have hu := hi k r hr
  refine ⟨?_, ?_, ?_⟩
  · rw [hu]
    simp only [alloc, want, Matrix.cons_val_zero, clamp_eq]
    rfl
  · rw [hu]
    simp only [alloc, want, Matrix.cons_val_one, Matrix.cons_val_zero, clamp_eq]
    simp [vdes, sub_eq_add_neg]
  clear hu
  induction k generalizing r with
  | zero =>
    rw [free_head L rminus g0 n 0 s hr]
    simp
  | succ k ih =>
    have hk : k < (free L rminus g0 n 0 s).length := by
      have := (List.getElem?_eq_some_iff.1 hr).1
      omega
    obtain ⟨i1, i2, i3⟩ := ih _ (List.getElem?_eq_getElem hk)
    have hv := (hn k _ r (List.getElem?_eq_getElem hk) hr).2
    have hu := hi k _ (List.getElem?_eq_getElem hk)
    generalize (free L rminus g0 n 0 s)[k] = q at *
    have a0 : |q.2 0| ≤ 1 := by
      rw [hu]
      exact clamp_abs _
    have a1 : |q.2 1| ≤ 1 := by
      rw [hu]
      exact clamp_abs _
    have v0 : r.1.2 0 = q.1.2 0 + 1 / 20 * q.2 0 := by rw [hv]; simp
    have v1 : r.1.2 1 = q.1.2 1 := by rw [hv]; simp
    have v2 : r.1.2 2 = q.1.2 2 + 1 / 20 * q.2 1 := by rw [hv]; simp
    rw [abs_le] at i2 i3 a0 a1
    refine ⟨v1.trans i1, ?_, ?_⟩
    · rw [v0, abs_le]
      push_cast
      constructor <;> linarith
    · rw [v2, abs_le]
      push_cast
      constructor <;> linarith

end Verif.PIDSe2
