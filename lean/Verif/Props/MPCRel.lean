import Verif.Props.MPCRun
import Verif.Props.MPCExamples
import Verif.Props.Time

/-! # Desired trajectories in relative time (C93) -/

set_option linter.unusedSectionVars false

namespace Verif.MPC

open Verif.Mesh Verif.Sparse Verif.MeshFn Verif.NLP Verif.OQP Verif.QPSpec Verif.Lie Verif.Flatten
open Verif.QP (Ext Status)

variable {T σ X U : Type*} {nx nu ncr n N : ℕ}
variable {𝔸 𝔹 : Type*} [NormedRing 𝔸] [NormedAlgebra ℝ 𝔸] [FiniteDimensional ℝ 𝔸] [CompleteSpace 𝔸] [NormedRing 𝔹] [NormedAlgebra ℝ 𝔹]
  [FiniteDimensional ℝ 𝔹] [CompleteSpace 𝔹] {mat : X → 𝔸} {hat : (Fin nx → ℝ) →ₗ[ℝ] 𝔸} {matU : U → 𝔹} {hatU : (Fin nu → ℝ) →ₗ[ℝ] 𝔹}

/-- Time arithmetic is exact up to `ε` (C59). -/
structure Clock (plus : T → ℝ → T) (minus : T → T → ℝ) (ε : ℝ) : Prop where
  zero : ∀ t, plus t 0 = t
  add : ∀ t d s, |minus (plus t d) s - (minus t s + d)| ≤ ε

/-- Floating-point time, idealised. -/
theorem float_clock : Clock (T := ℝ) Time.fplus Time.fminus 0 where
  zero t := by simp [Time.fplus]
  add t d s := by
    rw [Time.fplus, Time.fminus, Time.fminus, show t + d - s - (t - s + d) = 0 by ring, abs_zero]

/-- Tick clocks: one tick. -/
theorem tick_clock (per : ℝ) (hper : 0 < per) : Clock (T := ℤ) (Time.tplus per) (Time.tminus per) per where
  zero t := by simp [Time.tplus, Time.trunc]
  add t d s := by
    have h := (Time.time_tick_roundtrip per hper t d).1
    have e : Time.tminus per (Time.tplus per t d) s - (Time.tminus per t s + d) = Time.tminus per (Time.tplus per t d) t - d := by
      simp only [Time.tminus]
      push_cast
      ring
    rw [e]
    exact h.le

/-- **C93.** After `set_xdes_rel(fx, tx)` and `set_udes_rel(fu, tu)`, a call at time `t` returns the input `fu(t - tu)` plus the first input deviation, and
trajectories that are `fu` and `fx` at the times `t - tu + τ` and `t - tx + τ` plus the deviations, with `τ` the time of the node after `t`; up to the
accuracy of the clock. -/
theorem mpc_rel_output (sys : Sys T ℝ σ X U nx nu) (minus : T → T → ℝ) (ε : ℝ) (hc : Clock sys.plus minus ε) (l : List (Op T ℝ X U nx nu ncr))
    (w w1 w2 w' : World T ℝ σ X U nx nu ncr) (hw : World.run sys l World.empty = some w) (i : ℕ) (a : Args T ℝ X U nx nu ncr)
    (hL : ∀ K, a.Kmesh ≤ K → K ≤ a.Kmesh + 1 → IsLGR sys.env K) (xd : T → X) (dxd : T → Fin nx → ℝ) (ud : T → U) (hF : w.Follows i a xd dxd ud)
    (fx : ℝ → X) (dfx : ℝ → Fin nx → ℝ) (tx : T) (fu : ℝ → U) (tu : T) (o1 o2 : Option (Out X U))
    (h1 : w.step sys (.setXRel minus i fx dfx tx) = some (w1, o1)) (h2 : w1.step sys (.setURel minus i fu tu) = some (w2, o2))
    (t : T) (x : X) (out : Option (Out X U)) (h : w2.step sys (.call i t x) = some (w', out)) :
    ∃ s r, w2.answer sys i t x = some s ∧ out = some r ∧
      r.u = sys.LU.rplus (fu (minus t tu)) (fun k => s.primal.val (nx * (nColloc (meshOf a) + 1) + k)) ∧
      (∀ j : Fin (nColloc (meshOf a)), ∃ q : ℝ, |q - (minus t tu + a.tf * tauAt sys.env (meshOf a) j)| ≤ ε ∧
        r.uTraj[(j : ℕ)]? = some (sys.LU.rplus (fu q) fun k => zOf s.primal (.u j k : QVar (nColloc (meshOf a)) nx nu))) ∧
      (∀ j : Fin (nColloc (meshOf a) + 1), ∃ q : ℝ, |q - (minus t tx + a.tf * tauAt sys.env (meshOf a) j)| ≤ ε ∧
        r.xTraj[(j : ℕ)]? = some (sys.LX.rplus (fx q) fun k => zOf s.primal (.x j k : QVar (nColloc (meshOf a)) nx nu))) := by
  have hF2 : w2.Follows i a (relDes minus fx tx) (relDes minus dfx tx) (relDes minus fu tu) := by
    obtain ⟨o, xc, uc, e1, e2, e3, e4, -, -, -⟩ := hF
    simp only [Op.setXRel, World.step, e1, e3, Option.bind_some, Option.map_some, Option.some.injEq, Prod.mk.injEq] at h1
    obtain ⟨rfl, -⟩ := h1
    simp only [Op.setURel, World.step, e1, e4, Option.bind_some, Option.map_some, Option.some.injEq, Prod.mk.injEq] at h2
    obtain ⟨rfl, -⟩ := h2
    obtain ⟨l3, -⟩ := List.getElem?_eq_some_iff.mp e3
    obtain ⟨l4, -⟩ := List.getElem?_eq_some_iff.mp e4
    exact ⟨o, _, _, e1, e2, List.getElem?_set_self l3, List.getElem?_set_self l4, rfl, rfl, rfl⟩
  have hw2 : World.run sys (l ++ [.setXRel minus i fx dfx tx, .setURel minus i fu tu]) World.empty = some w2 := by
    rw [run_append, hw]
    simp [World.run, h1, h2]
  obtain ⟨s, r, g1, g2, -, g3, -, -, -, -, -, g4, g5, -, -⟩ := mpc_output sys _ w2 hw2 i a hL _ _ _ hF2 t x w' out h
  refine ⟨s, r, g1, g2, ?_, fun j => ⟨minus (nodeTime sys (meshOf a) a.tf t j) tu, hc.add _ _ _, g4 j⟩,
    fun j => ⟨minus (nodeTime sys (meshOf a) a.tf t j) tx, hc.add _ _ _, g5 j⟩⟩
  rw [g3, hc.zero]
  rfl

/-- **C93.** With an exact clock, what `set_xdes_rel` stores as the velocity is the velocity of what it stores as the trajectory, at every time. -/
theorem mpc_rel_velocity (plus : T → ℝ → T) (minus : T → T → ℝ) (hc : Clock plus minus 0) (fx : ℝ → X) (dfx : ℝ → Fin nx → ℝ)
    (hv : ∀ q, HasVel mat hat fx (dfx q) Set.univ q) (tx t : T) (τ : ℝ) :
    HasVel mat hat (fun τ => relDes minus fx tx (plus t τ)) (relDes minus dfx tx (plus t τ)) Set.univ τ := by
  have e : ∀ τ, minus (plus t τ) tx = minus t tx + τ := fun τ => by
    have := abs_nonpos_iff.1 (hc.add t τ tx)
    linarith
  simp only [relDes, e]
  have h := hv (minus t tx + τ)
  unfold HasVel at h ⊢
  rw [hasDerivWithinAt_univ] at h ⊢
  exact HasDerivAt.comp_const_add (minus t tx) τ h

/-- The hypotheses of `mpc_rel_output`: follow `x = q²` with the input `2 q`, where `q` is the time since 5, called at time 7; the input returned is `4` plus
a deviation. -/
example : ∃ (w w1 w2 w' : World ℝ ℝ Unit (Fin 1 → ℝ) (Fin 1 → ℝ) 1 1 1) (r : Out (Fin 1 → ℝ) (Fin 1 → ℝ)) (s : QSol ℝ),
    World.run exSys [.new (exArgs true), .setU 0 fun _ _ => 1] World.empty = some w ∧
    w.step exSys (.setXRel Time.fminus 0 (fun q _ => q ^ 2) (fun q _ => 2 * q) 5) = some (w1, none) ∧
    w1.step exSys (.setURel Time.fminus 0 (fun q _ => 2 * q) 5) = some (w2, none) ∧ w2.step exSys (.call 0 7 0) = some (w', some r) ∧
    w2.answer exSys 0 7 0 = some s ∧ r.u 0 = 4 + s.primal.val (nColloc (meshOf (exArgs true)) + 1) := by
  obtain ⟨w, hw, hl, hF⟩ := ex_setU true 1
  have hF' := hF
  obtain ⟨o, xc, uc, e1, e2, e3, e4, -, -, -⟩ := hF'
  let w1 : World ℝ ℝ Unit (Fin 1 → ℝ) (Fin 1 → ℝ) 1 1 1 :=
    { w with xs := w.xs.set o.xp { xc with xdes := relDes Time.fminus (fun q _ => q ^ 2) 5, dxdes := relDes Time.fminus (fun q _ => 2 * q) 5 } }
  have h1 : w.step exSys (.setXRel Time.fminus 0 (fun q _ => q ^ 2) (fun q _ => 2 * q) 5) = some (w1, none) := by
    simp [Op.setXRel, World.step, e1, e3, w1]
  let w2 : World ℝ ℝ Unit (Fin 1 → ℝ) (Fin 1 → ℝ) 1 1 1 := { w1 with us := w1.us.set o.up { uc with udes := relDes Time.fminus (fun q _ => 2 * q) 5 } }
  have h2 : w1.step exSys (.setURel Time.fminus 0 (fun q _ => 2 * q) 5) = some (w2, none) := by
    simp [Op.setURel, World.step, e1, e4, w1, w2]
  have hw2 : World.run exSys ([.new (exArgs true), .setU 0 fun _ _ => 1] ++ [.setXRel Time.fminus 0 (fun q _ => q ^ 2) (fun q _ => 2 * q) 5,
      .setURel Time.fminus 0 (fun q _ => 2 * q) 5]) World.empty = some w2 := by
    rw [run_append, hw]
    simp [World.run, h1, h2]
  obtain ⟨w', r, h3⟩ := mpc_call_defined exSys _ w2 hw2 0 (by change 0 < w.objs.length; omega) 7 0 (fun qp warm st => bestSolver_total qp warm st)
  obtain ⟨s, r', g0, g1, g2, -, -⟩ := mpc_rel_output exSys Time.fminus 0 float_clock _ w w1 w2 w' hw 0 (exArgs true) (fun K a b => lowEnv_lgr K a b) _ _ _ hF
    _ _ 5 _ 5 _ _ h1 h2 7 0 _ h3
  obtain rfl := Option.some.inj g1
  refine ⟨w, w1, w2, w', r, s, hw, h1, h2, h3, g0, ?_⟩
  rw [g2]
  change 2 * Time.fminus 7 5 + s.primal.val (1 * (nColloc (meshOf (exArgs true)) + 1) + 0) = _
  rw [show 2 * Time.fminus (7 : ℝ) 5 = 4 by norm_num [Time.fminus], one_mul, add_zero]

end Verif.MPC
