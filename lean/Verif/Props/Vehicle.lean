import Verif.Props.ASIFNear
import Verif.Model.Vehicle
import Mathlib.Tactic.FinCases
import Mathlib.Tactic.Linarith
import Mathlib.Tactic.FieldSimp

/-! # The vehicle with predictive control and a safety filter: speeds and the filter (C124) -/

set_option linter.unusedSectionVars false

namespace Verif.Vehicle

open scoped Matrix
open Verif.Lie Verif.QPSpec
open Verif.QP (Ext Status)

variable {X F σ : Type*} [Field F] [LinearOrder F] [IsStrictOrderedRing F] {L : LieOps X F 6} {P : Parts X F}

/-! ## The step -/

/-- What a step of the classical Runge-Kutta method makes of `y' = -y` in time `z`. -/
def decay (z : F) : F := 1 - z + z ^ 2 / 2 - z ^ 3 / 6 + z ^ 4 / 24

/-- The speeds after a step, whatever the group is. -/
theorem step_vel (hv : VelPart L P) (u : Fin 2 → F) (dt : F) (x : X) :
    P.vel (step L P u dt x) = ![decay (dt / 5) * P.vel x 0 + (1 - decay (dt / 5)) * (5 * u 0), P.vel x 1,
      decay (2 * dt / 5) * P.vel x 2 + (1 - decay (2 * dt / 5)) * (5 / 2 * u 1)] := by
  have h : ∀ x a k, P.vel (L.rplus x a) k = P.vel x k + ![a 3, a 4, a 5] k := fun x a k => by rw [hv]; rfl
  funext k
  unfold step
  simp only [h]
  fin_cases k <;> simp [f, h, decay] <;> ring

theorem decay_mem {z : F} (h0 : 0 ≤ z) (h1 : z ≤ 1) : 0 ≤ decay z ∧ decay z ≤ 1 := by
  unfold decay
  have a2 : 0 ≤ z ^ 2 := by positivity
  have a3 : 0 ≤ z ^ 3 := by positivity
  have b2 : z ^ 2 ≤ z := by nlinarith
  have b3 : z ^ 3 ≤ z ^ 2 := by nlinarith
  have b4 : z ^ 4 ≤ z ^ 3 := by nlinarith
  have a4 : 0 ≤ z ^ 4 := by positivity
  constructor <;> linarith

/-- Between two numbers. -/
theorem mix {a x y lo hi : F} (h0 : 0 ≤ a) (h1 : a ≤ 1) (hx : lo ≤ x ∧ x ≤ hi) (hy : lo ≤ y ∧ y ≤ hi) : lo ≤ a * x + (1 - a) * y ∧ a * x + (1 - a) * y ≤ hi := by
  have a1 := mul_le_mul_of_nonneg_left hx.1 h0
  have a2 := mul_le_mul_of_nonneg_left hx.2 h0
  have a3 := mul_le_mul_of_nonneg_left hy.1 (sub_nonneg.2 h1)
  have a4 := mul_le_mul_of_nonneg_left hy.2 (sub_nonneg.2 h1)
  constructor <;> linarith

/-- The bounds of the filter's inputs. -/
theorem bounds_iff (L : LieOps X F 6) (ε : F) (u : Fin 2 → F) : ASIF.InBoundsBy ε (env L) (prm : ASIF.FPrm (Fin 2 → F) F 2).ulim u ↔
    (-(1 / 5) - ε ≤ u 0 ∧ u 0 ≤ 1 / 2 + ε) ∧ -(1 / 2) - ε ≤ u 1 ∧ u 1 ≤ 1 / 2 + ε := by
  have e : ASIF.InBoundsBy ε (env L) (prm : ASIF.FPrm (Fin 2 → F) F 2).ulim u ↔ ∀ i : Fin 2, lower ((![.fin (-(1 / 5)), .fin (-(1 / 2))] : Fin 2 → Ext F) i)
      (((!![1, 0; 0, 1] : Matrix (Fin 2) (Fin 2) F) *ᵥ (u - 0)) i + ε) ∧ upper ((![.fin (1 / 2), .fin (1 / 2)] : Fin 2 → Ext F) i)
      (((!![1, 0; 0, 1] : Matrix (Fin 2) (Fin 2) F) *ᵥ (u - 0)) i - ε) := Iff.rfl
  rw [e, Fin.forall_fin_two]
  simp [lower, upper, Matrix.mulVec, dotProduct, Fin.sum_univ_two, Matrix.vecHead, Matrix.vecTail]

theorem inBounds_iff (L : LieOps X F 6) (u : Fin 2 → F) : ASIF.InBounds (env L) (prm : ASIF.FPrm (Fin 2 → F) F 2).ulim u ↔
    (-(1 / 5) ≤ u 0 ∧ u 0 ≤ 1 / 2) ∧ -(1 / 2) ≤ u 1 ∧ u 1 ≤ 1 / 2 := by
  have := bounds_iff L 0 u
  simp only [ASIF.InBoundsBy, sub_zero, add_zero] at this
  exact this

/-- An input within the bounds keeps the speeds moderate. -/
theorem step_moderate (hv : VelPart L P) {ε : F} {u : Fin 2 → F} (hu : ASIF.InBoundsBy ε (env L) (prm : ASIF.FPrm (Fin 2 → F) F 2).ulim u) {x : X} (hx : Moderate P ε x) :
    Moderate P ε (step L P u (1 / 40) x) ∧ P.vel (step L P u (1 / 40) x) 1 = P.vel x 1 := by
  obtain ⟨⟨u1, u2⟩, u3, u4⟩ := (bounds_iff L ε u).1 hu
  obtain ⟨d1, d2⟩ := decay_mem (F := F) (z := 1 / 40 / 5) (by norm_num) (by norm_num)
  obtain ⟨d3, d4⟩ := decay_mem (F := F) (z := 2 * (1 / 40) / 5) (by norm_num) (by norm_num)
  have e0 : P.vel (step L P u (1 / 40) x) 0 = decay (1 / 40 / 5) * P.vel x 0 + (1 - decay (1 / 40 / 5)) * (5 * u 0) := by rw [step_vel hv]; rfl
  have e1 : P.vel (step L P u (1 / 40) x) 1 = P.vel x 1 := by rw [step_vel hv]; rfl
  have e2 : P.vel (step L P u (1 / 40) x) 2 = decay (2 * (1 / 40) / 5) * P.vel x 2 + (1 - decay (2 * (1 / 40) / 5)) * (5 / 2 * u 1) := by rw [step_vel hv]; rfl
  refine ⟨⟨?_, ?_⟩, e1⟩
  · rw [e0]
    exact mix d1 d2 hx.1 ⟨by linarith, by linarith⟩
  · rw [e2]
    exact mix d3 d4 hx.2 ⟨by linarith, by linarith⟩

/-! ## The loop -/

variable [Archimedean F]

theorem env_flat (L : LieOps X F 6) : ASIF.FlatInput (env L) := ⟨fun _ _ => rfl, fun _ _ => rfl⟩

/-- The loop, from a filter with any history. -/
theorem loop_moderate {sqrt : F → F} {sys : MPC.Sys F F σ X (Fin 2 → F) 6 2} (hv : VelPart sys.LX P) {solver : ASIF.Solver F} {ε : F} (hn : ASIF.Near 3 ε solver) (fuel n k : ℕ)
    (w : MPC.World F F σ X (Fin 2 → F) 6 2 2) (cs : List (ASIF.Call X (Fin 2 → F) F 6)) (a : ASIF.Filter X (Fin 2 → F) F 6 2)
    (ha : ASIF.Filter.run (env sys.LX) solver fuel cs (ASIF.Filter.new (dyn P) prm) = some a) (x : X) (hx : Moderate P ε x) (out : List (Turn X F))
    (h : loop P sqrt sys solver fuel n k w a x = some out) (l1 l2 : List (Turn X F)) (e : Turn X F) (he : out = l1 ++ e :: l2) (ho : ∀ e' ∈ l1, e'.code = .optimal) :
    (Moderate P ε e.x ∧ P.vel e.x 1 = P.vel x 1) ∧ (e.code = .optimal → ASIF.InBoundsBy ε (env sys.LX) (prm : ASIF.FPrm (Fin 2 → F) F 2).ulim e.u) := by
  induction n generalizing k w cs a x out l1 with
  | zero =>
    obtain rfl : ([] : List (Turn X F)) = out := Option.some.inj h
    exact absurd he (by simp)
  | succ n ih =>
    rw [loop] at h
    cases hc : w.step sys (.call 0 ((k : F) / 40) x) with
    | none => rw [hc] at h; cases h
    | some r =>
      obtain ⟨w', r⟩ := r
      rw [hc] at h
      cases r with
      | none => cases h
      | some r =>
        simp only [] at h
        rw [Option.bind_eq_some_iff] at h
        obtain ⟨⟨a', u, code⟩, h1, h2⟩ := h
        rw [Option.map_eq_some_iff] at h2
        obtain ⟨l, h3, rfl⟩ := h2
        have hb : code = .optimal → ASIF.InBoundsBy ε (env sys.LX) (prm : ASIF.FPrm (Fin 2 → F) F 2).ulim u := by
          rintro rfl
          exact ASIF.asif_near_call (env sys.LX) (env_flat _) solver hn fuel (dyn P) prm cs a a' ha _ u h1
        cases l1 with
        | nil =>
          rw [List.nil_append, List.cons.injEq] at he
          obtain ⟨rfl, -⟩ := he
          exact ⟨⟨hx, rfl⟩, hb⟩
        | cons e1 l1 =>
          rw [List.cons_append, List.cons.injEq] at he
          obtain ⟨rfl, he⟩ := he
          obtain ⟨m1, m2⟩ := step_moderate hv (hb (ho _ List.mem_cons_self)) hx
          obtain ⟨⟨i1, i2⟩, i3⟩ := ih (k + 1) w' (cs ++ [⟨x, r.u, safe P sqrt, backup P⟩]) a' (by
            have : ∀ (cs : List (ASIF.Call X (Fin 2 → F) F 6)) c s a, ASIF.Filter.run (env sys.LX) solver fuel cs s = some a →
                ASIF.Filter.run (env sys.LX) solver fuel (cs ++ [c]) s = (a.call (env sys.LX) solver fuel c).map (·.1) := by
              intro cs
              induction cs with
              | nil =>
                intro c s a h
                obtain rfl : s = a := Option.some.inj h
                rw [List.nil_append, ASIF.Filter.run]
                cases ASIF.Filter.call (env sys.LX) solver fuel s c <;> rfl
              | cons d cs ih =>
                intro c s a h
                rw [ASIF.Filter.run, Option.bind_eq_some_iff] at h
                obtain ⟨r, hr, h⟩ := h
                rw [List.cons_append, ASIF.Filter.run, hr]
                exact ih c _ _ h
            rw [this cs _ _ a ha, h1]
            rfl) _ m1 l h3 l1 he (fun e' h' => ho e' (List.mem_cons_of_mem _ h'))
          exact ⟨⟨i1, i2.trans m2⟩, i3⟩

/-- **C124, the speeds.** In every run of the program from a state with moderate speeds, with any group of states whose second part is the velocity, any predictive
controller and solver of it, and any solver of the filter that is accurate to `ε`: as long as the filter reports Optimal the speeds stay moderate, the lateral speed
is the initial one and the inputs respect the bounds up to `ε`. -/
theorem vehicle_moderate {sqrt : F → F} {sys : MPC.Sys F F σ X (Fin 2 → F) 6 2} (hv : VelPart sys.LX P) {solver : ASIF.Solver F} {ε : F} (hn : ASIF.Near 3 ε solver) (fuel n : ℕ)
    (g0 x : X) (hx : Moderate P ε x) (out : List (Turn X F)) (h : main P sqrt sys solver fuel g0 x n = some out) (l1 l2 : List (Turn X F)) (e : Turn X F)
    (he : out = l1 ++ e :: l2) (ho : ∀ e' ∈ l1, e'.code = .optimal) :
    (Moderate P ε e.x ∧ P.vel e.x 1 = P.vel x 1) ∧
      (e.code = .optimal → (-(1 / 5) - ε ≤ e.u 0 ∧ e.u 0 ≤ 1 / 2 + ε) ∧ -(1 / 2) - ε ≤ e.u 1 ∧ e.u 1 ≤ 1 / 2 + ε) := by
  unfold main at h
  rw [Option.bind_eq_some_iff] at h
  obtain ⟨w, -, h⟩ := h
  have := loop_moderate hv hn fuel n 0 w [] _ rfl x hx out h l1 l2 e he ho
  rw [bounds_iff] at this
  exact this

/-- The turns are where the inputs lead: each state is the step of the previous one under the filtered input. -/
def Flow (L : LieOps X F 6) (P : Parts X F) : X → List (Turn X F) → Prop
  | _, [] => True
  | x, e :: l => e.x = x ∧ Flow L P (step L P e.u (1 / 40) x) l

theorem vehicle_flow {sqrt : F → F} {sys : MPC.Sys F F σ X (Fin 2 → F) 6 2} {solver : ASIF.Solver F} (fuel n : ℕ) (g0 x : X) (out : List (Turn X F))
    (h : main P sqrt sys solver fuel g0 x n = some out) : out.length = n ∧ Flow sys.LX P x out := by
  unfold main at h
  rw [Option.bind_eq_some_iff] at h
  obtain ⟨w, -, h⟩ := h
  have key : ∀ (n k : ℕ) w a (x : X) out, loop P sqrt sys solver fuel n k w a x = some out → out.length = n ∧ Flow sys.LX P x out := by
    intro n
    induction n with
    | zero =>
      intro k w a x out h
      obtain rfl : ([] : List (Turn X F)) = out := Option.some.inj h
      exact ⟨rfl, trivial⟩
    | succ n ih =>
      intro k w a x out h
      rw [loop] at h
      cases hc : w.step sys (.call 0 ((k : F) / 40) x) with
      | none => rw [hc] at h; cases h
      | some r =>
        obtain ⟨w', r⟩ := r
        rw [hc] at h
        cases r with
        | none => cases h
        | some r =>
          simp only [] at h
          rw [Option.bind_eq_some_iff] at h
          obtain ⟨⟨a', u, code⟩, h1, h2⟩ := h
          rw [Option.map_eq_some_iff] at h2
          obtain ⟨l, h3, rfl⟩ := h2
          obtain ⟨i1, i2⟩ := ih _ _ _ _ _ h3
          exact ⟨by rw [List.length_cons, i1], rfl, i2⟩
  exact key n 0 w _ x out h

/-! ## The backup controller -/

/-- The backup input respects the bounds of the filter exactly at forward speeds between -1 and 5/2. -/
theorem backup_iff (L : LieOps X F 6) (P : Parts X F) (t : F) (x : X) :
    ASIF.InBounds (env L) (prm : ASIF.FPrm (Fin 2 → F) F 2).ulim ((backup P).bu t x) ↔ -1 ≤ P.vel x 0 ∧ P.vel x 0 ≤ 5 / 2 := by
  rw [inBounds_iff]
  simp only [backup, Matrix.cons_val_zero, Matrix.cons_val_one]
  constructor
  · rintro ⟨⟨h1, h2⟩, -⟩
    constructor <;> linarith
  · rintro ⟨h1, h2⟩
    refine ⟨⟨by linarith, by linarith⟩, le_rfl, by norm_num⟩

/-- **C124, the backup controller.** Along the trajectories of the filter from a state with moderate speeds, with whatever steps up to 5/2, the speeds stay moderate
with the same forward and lateral speed, so the backup input respects the bounds all along. -/
theorem backup_admissible (hv : VelPart L P) (l : List F) (hl : ∀ e ∈ l, 0 ≤ e ∧ e ≤ 5 / 2) (t s : F) (x : X) (hx : Moderate P 0 x) :
    Moderate P 0 (ASIF.march (env L) (dyn P) (backup P) l t x) ∧ P.vel (ASIF.march (env L) (dyn P) (backup P) l t x) 0 = P.vel x 0 ∧
      P.vel (ASIF.march (env L) (dyn P) (backup P) l t x) 1 = P.vel x 1 ∧
      ASIF.InBounds (env L) (prm : ASIF.FPrm (Fin 2 → F) F 2).ulim ((backup P).bu s (ASIF.march (env L) (dyn P) (backup P) l t x)) := by
  have key : Moderate P 0 (ASIF.march (env L) (dyn P) (backup P) l t x) ∧ P.vel (ASIF.march (env L) (dyn P) (backup P) l t x) 0 = P.vel x 0 ∧
      P.vel (ASIF.march (env L) (dyn P) (backup P) l t x) 1 = P.vel x 1 := by
    induction l generalizing t x with
    | nil => exact ⟨hx, rfl, rfl⟩
    | cons e l ih =>
      rw [ASIF.march]
      have h : P.vel ((env L).xplus x (e • (dyn P).f x ((backup P).bu t x))) = ![P.vel x 0, P.vel x 1, (1 - 2 / 5 * e) * P.vel x 2 + (1 - (1 - 2 / 5 * e)) * -(5 / 4)] := by
        refine (hv x _).trans ?_
        funext k
        fin_cases k <;> simp [dyn, f, backup]
        ring
      have e0 : P.vel ((env L).xplus x (e • (dyn P).f x ((backup P).bu t x))) 0 = P.vel x 0 := by rw [h]; rfl
      have e1 : P.vel ((env L).xplus x (e • (dyn P).f x ((backup P).bu t x))) 1 = P.vel x 1 := by rw [h]; rfl
      have e2 : P.vel ((env L).xplus x (e • (dyn P).f x ((backup P).bu t x))) 2 = (1 - 2 / 5 * e) * P.vel x 2 + (1 - (1 - 2 / 5 * e)) * -(5 / 4) := by rw [h]; rfl
      obtain ⟨b1, b2⟩ := hl e (by simp)
      obtain ⟨i1, i2, i3⟩ := ih (fun e' h' => hl e' (List.mem_cons_of_mem _ h')) (t + e) _ (show Moderate P 0 _ from by
        unfold Moderate
        rw [e0, e2]
        exact ⟨hx.1, mix (by linarith) (by linarith) hx.2 ⟨by linarith, by linarith⟩⟩)
      exact ⟨i1, i2.trans e0, i3.trans e1⟩
  refine ⟨key.1, key.2.1, key.2.2, (backup_iff L P s _).2 ?_⟩
  have := key.1.1
  constructor <;> linarith

/-! ## The filter -/

/-- **C124, the filter.** In every state and for every input of the predictive controller the program of the filter is built and has a feasible point. -/
theorem filter_feasible (L : LieOps X F 6) (P : Parts X F) (sqrt : F → F) (x : X) (ud : Fin 2 → F) :
    ∃ fuel qp, ASIF.toQP (env L) (dyn P) (backup P) (safe P sqrt) ⟨5 / 2, x, ud, ![20, 1], (prm : ASIF.FPrm (Fin 2 → F) F 2).ulim⟩ (prm : ASIF.FPrm (Fin 2 → F) F 2).asif fuel = some qp ∧
      ∃ v, Feasible (qp.pbm 3 203) v := by
  obtain ⟨fuel, qp, h⟩ := (ASIF.asif_terminates_iff (env L) (dyn P) (backup P) (safe P sqrt) ⟨5 / 2, x, ud, ![20, 1], (prm : ASIF.FPrm (Fin 2 → F) F 2).ulim⟩
    (prm : ASIF.FPrm (Fin 2 → F) F 2).asif).2 (Or.inr (Or.inr (by norm_num [prm])))
  refine ⟨fuel, qp, h, ?_⟩
  exact ASIF.asif_feasible (env L) (dyn P) (backup P) (safe P sqrt) ⟨5 / 2, x, ud, ![20, 1], (prm : ASIF.FPrm (Fin 2 → F) F 2).ulim⟩ (prm : ASIF.FPrm (Fin 2 → F) F 2).asif
    fuel qp h 0 ((inBounds_iff L 0).2 (by norm_num))

end Verif.Vehicle
