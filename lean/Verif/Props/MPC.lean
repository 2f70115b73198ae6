import Verif.Proofs.MPCWorld

/-! # The optimisation problem of the controller (C39, C40, C41) -/

set_option linter.unusedSectionVars false

namespace Verif.MPC

open Verif.Mesh Verif.Sparse Verif.MeshFn Verif.NLP Verif.OQP Verif.QPSpec Verif.Lie Verif.Flatten
open Verif.QP (Ext Status)

variable {T σ X U : Type*} {nx nu ncr n N : ℕ}
variable {𝔸 𝔹 : Type*} [NormedRing 𝔸] [NormedAlgebra ℝ 𝔸] [FiniteDimensional ℝ 𝔸] [CompleteSpace 𝔸] [NormedRing 𝔹] [NormedAlgebra ℝ 𝔹]
  [FiniteDimensional ℝ 𝔹] [CompleteSpace 𝔹] {mat : X → 𝔸} {hat : (Fin nx → ℝ) →ₗ[ℝ] 𝔸} {matU : U → 𝔹} {hatU : (Fin nu → ℝ) →ₗ[ℝ] 𝔹}

theorem program_of_follows (sys : Sys T ℝ σ X U nx nu) (w : World T ℝ σ X U nx nu ncr) (hw : w.Ok sys) (i : ℕ) (a : Args T ℝ X U nx nu ncr)
    (xd : T → X) (dxd : T → Fin nx → ℝ) (ud : T → U) (hF : w.Follows i a xd dxd ud) (t : T) (x : X) :
    ∃ o o', w.objs[i]? = some o ∧ o.Ok sys ∧ o.args = a ∧ o.mesh = meshOf a ∧ o.transcribe sys ⟨t, xd, dxd⟩ ⟨t, ud⟩ t x = some o' ∧
      w.program sys i t x = some o'.qp := by
  obtain ⟨o, xc, uc, h1, h2, h3, h4, rfl, rfl, rfl⟩ := hF
  obtain ⟨ho, -, -⟩ := hw i o h1
  obtain ⟨o', e, -⟩ := transcribe_spec sys o ho xc.xdes xc.dxdes uc.udes t x
  have e' : o.transcribe sys { xc with t0 := t } { uc with t0 := t } t x = some o' := e
  refine ⟨o, o', h1, ho, h2, by rw [ho.meshOf, h2], e, ?_⟩
  unfold World.program
  rw [h1, Option.bind_some, h3, Option.bind_some, h4, Option.bind_some, e', Option.map_some]

/-- After any history, a call of the controller hands a program to the solver. Its constraints are the collocated linearised
error dynamics and running constraints from the current state on, around the desired trajectory, except that running constraints
without `set_time` stay linearised around the default elements. States and inputs are on Lie groups. Its objective has unit weights on the deviations at the collocation points and a quarter on
the first state, whatever the history. -/
theorem mpc_program (sys : Sys T ℝ σ X U nx nu) (l : List (Op T ℝ X U nx nu ncr)) (w : World T ℝ σ X U nx nu ncr) (hw : World.run sys l World.empty = some w)
    (i : ℕ) (a : Args T ℝ X U nx nu ncr) (hG : sys.IsLie mat hat matU hatU) (hf : IsUFn sys a.f)
    (hcr : IsUFn sys a.cr) (xd : T → X) (dxd : T → Fin nx → ℝ) (ud : T → U)
    (hF : w.Follows i a xd dxd ud) (t : T) (x : X) :
    ∃ qp, w.program sys i t x = some qp ∧ HasSize qp (numV (nColloc (meshOf a)) nx nu) (numC (nColloc (meshOf a)) nx ncr nx) ∧
      ∀ (z : QVar (nColloc (meshOf a)) nx nu → ℝ) v, IsPrimal z v →
        (Feasible (toPbm qp (numV (nColloc (meshOf a)) nx nu) (numC (nColloc (meshOf a)) nx ncr nx)) v ↔
          Horizon sys (meshOf a) a xd dxd ud t x z ∧
          if a.cr.timed then RunningAround sys (meshOf a) a xd ud t z else RunningAtDefault sys (meshOf a) a z) ∧
        QPSpec.cost (toPbm qp (numV (nColloc (meshOf a)) nx nu) (numC (nColloc (meshOf a)) nx ncr nx)) v = unitCost sys.env (meshOf a) a.tf z := by
  obtain ⟨o, o', h1, ho, rfl, hm, e, hp⟩ := program_of_follows sys w (run_ok sys l _ w (empty_ok sys) hw) i a xd dxd ud hF t x
  have := program_spec sys o ho hG hf hcr xd dxd ud t x o' e
  rw [hm] at this
  exact ⟨o'.qp, hp, this⟩

/-! ## Desired trajectories -/

theorem follows_step (sys : Sys T ℝ σ X U nx nu) (w : World T ℝ σ X U nx nu ncr) (hw : w.Ok sys) (hinj : ∀ (i j : ℕ) o p, w.objs[i]? = some o → w.objs[j]? = some p → i ≠ j →
      o.xp ≠ p.xp ∧ o.up ≠ p.up) (op : Op T ℝ X U nx nu ncr) (hs : op.shares = false)
    (r : World T ℝ σ X U nx nu ncr × Option (Out X U)) (h : w.step sys op = some r) :
    (∀ (i j : ℕ) o p, r.1.objs[i]? = some o → r.1.objs[j]? = some p → i ≠ j → o.xp ≠ p.xp ∧ o.up ≠ p.up) ∧
    (∀ i a xd dxd ud, w.Follows i a xd dxd ud → r.1.Follows i a (lastX i [op] (xd, dxd)).1 (lastX i [op] (xd, dxd)).2 (lastU i [op] ud)) ∧
    (∀ a, op = .new a → r.1.Follows w.objs.length a (fun _ => sys.dfltX) (fun _ _ => 0) (fun _ => sys.dfltU)) ∧
    r.1.objs.length = w.objs.length + (made [op]).length ∧
    ∀ i, w.objs.length ≤ i → ∀ d e, lastX i [op] d = d ∧ lastU i [op] e = e := by
  cases op with
  | copy j => cases hs
  | assign j k => cases hs
  | new a =>
    obtain ⟨o, ho, rfl⟩ := Option.map_eq_some_iff.mp h
    obtain ⟨h1, h2, h3, h4, h5, h6⟩ := new_ok sys a _ _ o ho
    refine ⟨fun i j p q hp hq hij => ?_, fun i a' xd dxd ud hF => ?_, fun a' ha' => ?_, by simp [made], fun i hi d e => ⟨rfl, rfl⟩⟩
    · rcases getElem?_snoc_some hp with ⟨ha, hb⟩ | ⟨-, ha⟩ <;> rcases getElem?_snoc_some hq with ⟨hc, hd⟩ | ⟨-, hc⟩
      · omega
      · subst hb
        have := hw j q hc
        omega
      · subst hd
        have := hw i p ha
        omega
      · exact hinj i j p q ha hc hij
    · obtain ⟨p, xc, uc, a1, a2, a3, a4, rfl, rfl, rfl⟩ := hF
      obtain ⟨b1, -⟩ := List.getElem?_eq_some_iff.mp a1
      obtain ⟨b3, -⟩ := List.getElem?_eq_some_iff.mp a3
      obtain ⟨b4, -⟩ := List.getElem?_eq_some_iff.mp a4
      exact ⟨p, xc, uc, by simp only; rw [List.getElem?_append_left b1, a1], a2, by simp only; rw [List.getElem?_append_left b3, a3],
        by simp only; rw [List.getElem?_append_left b4, a4], rfl, rfl, rfl⟩
    · cases ha'
      exact ⟨o, newX sys, newU sys, by simp, h2, by simp [h3], by simp [h4], rfl, rfl, rfl⟩
  | call j t x =>
    obtain ⟨o, ho, h⟩ := Option.bind_eq_some_iff.mp h
    obtain ⟨xc, hxc, h⟩ := Option.bind_eq_some_iff.mp h
    obtain ⟨uc, huc, h⟩ := Option.bind_eq_some_iff.mp h
    obtain ⟨q, hq, rfl⟩ := Option.map_eq_some_iff.mp h
    obtain ⟨a1, a2, a3⟩ := hw j o ho
    obtain ⟨o1, s, -, b1, b2, b3, b4, b5, -, -, -, c1, c2, b6, -⟩ := call_spec sys o a1 xc uc t x q hq
    have hobj : ∀ (i : ℕ) p, (w.objs.set j q.2.2.1)[i]? = some p → ∃ p', w.objs[i]? = some p' ∧ p'.xp = p.xp ∧ p'.up = p.up ∧ p'.args = p.args := by
      intro i p hp
      rcases getElem?_set_some hp with ⟨rfl, rfl⟩ | ⟨-, hp⟩
      · exact ⟨o, ho, by rw [b6]; exact b4.symm, by rw [b6]; exact b5.symm, by rw [b6]; exact b2.symm⟩
      · exact ⟨p, hp, rfl, rfl, rfl⟩
    refine ⟨fun i k p q' hp hq' hij => ?_, fun i a' xd dxd ud hF => ?_, (fun a' ha' => by cases ha'), by simp [made], fun i hi d e => ⟨rfl, rfl⟩⟩
    · obtain ⟨p1, e1, e2, e3, -⟩ := hobj i p hp
      obtain ⟨p2, f1, f2, f3, -⟩ := hobj k q' hq'
      rw [← e2, ← e3, ← f2, ← f3]
      exact hinj i k p1 p2 e1 f1 hij
    · obtain ⟨p, xc', uc', d1, d2, d3, d4, rfl, rfl, rfl⟩ := hF
      obtain ⟨hl, -⟩ := List.getElem?_eq_some_iff.mp d1
      have hl' : i < (w.objs.set j q.2.2.1).length := by simpa using hl
      obtain ⟨p', e1, e2, e3, e4⟩ := hobj i _ (List.getElem?_eq_getElem hl')
      rw [d1] at e1
      obtain rfl := Option.some.inj e1
      refine ⟨_, if o.xp = p.xp then q.1 else xc', if o.up = p.up then q.2.1 else uc', List.getElem?_eq_getElem hl', e4 ▸ d2, ?_, ?_, ?_, ?_, ?_⟩
      · simp only
        rw [← e2, List.getElem?_set]
        by_cases hx : o.xp = p.xp
        · simp only [hx, if_true]
          rw [if_pos (by rw [← hx]; exact a2)]
        · rw [if_neg hx, if_neg hx, d3]
      · simp only
        rw [← e3, List.getElem?_set]
        by_cases hx : o.up = p.up
        · simp only [hx, if_true]
          rw [if_pos (by rw [← hx]; exact a3)]
        · rw [if_neg hx, if_neg hx, d4]
      · by_cases hx : o.xp = p.xp
        · rw [hx, d3] at hxc
          obtain rfl := Option.some.inj hxc
          rw [if_pos hx, c1]; rfl
        · rw [if_neg hx]; rfl
      · by_cases hx : o.xp = p.xp
        · rw [hx, d3] at hxc
          obtain rfl := Option.some.inj hxc
          rw [if_pos hx, c1]; rfl
        · rw [if_neg hx]; rfl
      · by_cases hx : o.up = p.up
        · rw [hx, d4] at huc
          obtain rfl := Option.some.inj huc
          rw [if_pos hx, c2]; rfl
        · rw [if_neg hx]; rfl
  | setX j xd dxd =>
    obtain ⟨o, ho, h⟩ := Option.bind_eq_some_iff.mp h
    obtain ⟨xc, hxc, rfl⟩ := Option.map_eq_some_iff.mp h
    refine ⟨hinj, fun i a' xd' dxd' ud hF => ?_, (fun a' ha' => by cases ha'), by simp [made], fun i hi d e => ⟨?_, rfl⟩⟩
    · obtain ⟨p, xc', uc', d1, d2, d3, d4, rfl, rfl, rfl⟩ := hF
      refine ⟨p, if j = i then { xc with xdes := xd, dxdes := dxd } else xc', uc', d1, d2, ?_, d4, ?_, ?_, rfl⟩
      · simp only
        rw [List.getElem?_set]
        by_cases hij : j = i
        · subst hij
          rw [ho] at d1
          obtain rfl := Option.some.inj d1
          rw [if_pos rfl, if_pos rfl, if_pos (hw j o ho).2.1]
        · rw [if_neg (hinj j i o p ho d1 hij).1, if_neg hij, d3]
      · by_cases hij : j = i <;> simp [lastX, hij]
      · by_cases hij : j = i <;> simp [lastX, hij]
    · obtain ⟨hl, -⟩ := List.getElem?_eq_some_iff.mp ho
      have hij : j ≠ i := by omega
      simp [lastX, lastU, hij]
  | setU j ud =>
    obtain ⟨o, ho, h⟩ := Option.bind_eq_some_iff.mp h
    obtain ⟨uc, huc, rfl⟩ := Option.map_eq_some_iff.mp h
    refine ⟨hinj, fun i a' xd' dxd' ud' hF => ?_, (fun a' ha' => by cases ha'), by simp [made], fun i hi d e => ⟨rfl, ?_⟩⟩
    · obtain ⟨p, xc', uc', d1, d2, d3, d4, rfl, rfl, rfl⟩ := hF
      refine ⟨p, xc', if j = i then { uc with udes := ud } else uc', d1, d2, d3, ?_, rfl, rfl, ?_⟩
      · simp only
        rw [List.getElem?_set]
        by_cases hij : j = i
        · subst hij
          rw [ho] at d1
          obtain rfl := Option.some.inj d1
          rw [if_pos rfl, if_pos rfl, if_pos (hw j o ho).2.2]
        · rw [if_neg (hinj j i o p ho d1 hij).2, if_neg hij, d4]
      · by_cases hij : j = i <;> simp [lastU, hij]
    · obtain ⟨hl, -⟩ := List.getElem?_eq_some_iff.mp ho
      have hij : j ≠ i := by omega
      simp [lastX, lastU, hij]
  | setW j Q Qtf R =>
    obtain ⟨o, ho, rfl⟩ := Option.map_eq_some_iff.mp h
    have hobj : ∀ (i : ℕ) p, (w.objs.set j (o.setWeights Q Qtf R))[i]? = some p → ∃ p', w.objs[i]? = some p' ∧ p'.xp = p.xp ∧ p'.up = p.up ∧ p'.args = p.args := by
      intro i p hp
      rcases getElem?_set_some hp with ⟨rfl, rfl⟩ | ⟨-, hp⟩
      · exact ⟨o, ho, rfl, rfl, rfl⟩
      · exact ⟨p, hp, rfl, rfl, rfl⟩
    refine ⟨fun i k p q' hp hq' hij => ?_, fun i a' xd dxd ud hF => ?_, (fun a' ha' => by cases ha'), by simp [made], fun i hi d e => ⟨rfl, rfl⟩⟩
    · obtain ⟨p1, e1, e2, e3, -⟩ := hobj i p hp
      obtain ⟨p2, f1, f2, f3, -⟩ := hobj k q' hq'
      rw [← e2, ← e3, ← f2, ← f3]
      exact hinj i k p1 p2 e1 f1 hij
    · obtain ⟨p, xc', uc', d1, d2, d3, d4, rfl, rfl, rfl⟩ := hF
      obtain ⟨hl, -⟩ := List.getElem?_eq_some_iff.mp d1
      have hl' : i < (w.objs.set j (o.setWeights Q Qtf R)).length := by simpa using hl
      obtain ⟨p', e1, e2, e3, e4⟩ := hobj i _ (List.getElem?_eq_getElem hl')
      rw [d1] at e1
      obtain rfl := Option.some.inj e1
      exact ⟨_, xc', uc', List.getElem?_eq_getElem hl', e4 ▸ d2, e2 ▸ d3, e3 ▸ d4, rfl, rfl, rfl⟩
  | reset j =>
    obtain ⟨o, ho, rfl⟩ := Option.map_eq_some_iff.mp h
    have hobj : ∀ (i : ℕ) p, (w.objs.set j o.reset)[i]? = some p → ∃ p', w.objs[i]? = some p' ∧ p'.xp = p.xp ∧ p'.up = p.up ∧ p'.args = p.args := by
      intro i p hp
      rcases getElem?_set_some hp with ⟨rfl, rfl⟩ | ⟨-, hp⟩
      · exact ⟨o, ho, rfl, rfl, rfl⟩
      · exact ⟨p, hp, rfl, rfl, rfl⟩
    refine ⟨fun i k p q' hp hq' hij => ?_, fun i a' xd dxd ud hF => ?_, (fun a' ha' => by cases ha'), by simp [made], fun i hi d e => ⟨rfl, rfl⟩⟩
    · obtain ⟨p1, e1, e2, e3, -⟩ := hobj i p hp
      obtain ⟨p2, f1, f2, f3, -⟩ := hobj k q' hq'
      rw [← e2, ← e3, ← f2, ← f3]
      exact hinj i k p1 p2 e1 f1 hij
    · obtain ⟨p, xc', uc', d1, d2, d3, d4, rfl, rfl, rfl⟩ := hF
      obtain ⟨hl, -⟩ := List.getElem?_eq_some_iff.mp d1
      have hl' : i < (w.objs.set j o.reset).length := by simpa using hl
      obtain ⟨p', e1, e2, e3, e4⟩ := hobj i _ (List.getElem?_eq_getElem hl')
      rw [d1] at e1
      obtain rfl := Option.some.inj e1
      exact ⟨_, xc', uc', List.getElem?_eq_getElem hl', e4 ▸ d2, e2 ▸ d3, e3 ▸ d4, rfl, rfl, rfl⟩

theorem lastX_append (i : ℕ) (l k : List (Op T ℝ X U nx nu ncr)) (d) : lastX i (l ++ k) d = lastX i k (lastX i l d) := by
  induction l generalizing d with
  | nil => rfl
  | cons op l ih => cases op <;> simp only [List.cons_append, lastX, ih]

theorem lastU_append (i : ℕ) (l k : List (Op T ℝ X U nx nu ncr)) (d) : lastU i (l ++ k) d = lastU i k (lastU i l d) := by
  induction l generalizing d with
  | nil => rfl
  | cons op l ih => cases op <;> simp only [List.cons_append, lastU, ih]

theorem made_append (l k : List (Op T ℝ X U nx nu ncr)) : made (l ++ k) = made l ++ made k := by
  induction l with
  | nil => rfl
  | cons op l ih => cases op <;> simp only [List.cons_append, made, ih]

theorem run_follows (sys : Sys T ℝ σ X U nx nu) (l : List (Op T ℝ X U nx nu ncr)) (hl : ∀ op ∈ l, op.shares = false) (w : World T ℝ σ X U nx nu ncr)
    (hw : World.run sys l World.empty = some w) :
    w.Ok sys ∧ (∀ (i j : ℕ) o p, w.objs[i]? = some o → w.objs[j]? = some p → i ≠ j → o.xp ≠ p.xp ∧ o.up ≠ p.up) ∧
    w.objs.length = (made l).length ∧
    (∀ i a, (made l)[i]? = some a → w.Follows i a (lastX i l (fun _ => sys.dfltX, fun _ _ => 0)).1 (lastX i l (fun _ => sys.dfltX, fun _ _ => 0)).2
      (lastU i l fun _ => sys.dfltU)) ∧
    ∀ i, w.objs.length ≤ i → ∀ d e, lastX i l d = d ∧ lastU i l e = e := by
  induction l using List.reverseRecOn generalizing w with
  | nil =>
    obtain rfl := Option.some.inj hw
    exact ⟨empty_ok sys, by simp [World.empty], rfl, by simp [made], fun i _ d e => ⟨rfl, rfl⟩⟩
  | append_singleton l op ih =>
    rw [run_append] at hw
    obtain ⟨w1, hw1, hw⟩ := Option.bind_eq_some_iff.mp hw
    obtain ⟨r, hr, hw⟩ := Option.bind_eq_some_iff.mp hw
    obtain rfl := Option.some.inj hw
    obtain ⟨i1, i2, i3, i4, i5⟩ := ih (fun o ho => hl o (by simp [ho])) w1 hw1
    obtain ⟨j1, j2, j3, j4, j5⟩ := follows_step sys w1 i1 i2 op (hl op (by simp)) r hr
    refine ⟨step_ok sys w1 i1 op r hr, j1, by rw [j4, i3, made_append, List.length_append], fun i a ha => ?_, fun i hi d e => ?_⟩
    · rw [lastX_append, lastU_append]
      rw [made_append] at ha
      by_cases h : i < (made l).length
      · rw [List.getElem?_append_left h] at ha
        exact j2 i a _ _ _ (i4 i a ha)
      · have hop : ∃ b, op = .new b := by
          cases op with
          | new b => exact ⟨b, rfl⟩
          | _ => simp [made, List.getElem?_eq_none (by omega : (made l).length ≤ i)] at ha
        obtain ⟨b, rfl⟩ := hop
        rw [List.getElem?_append_right (by omega)] at ha
        have hi : i = w1.objs.length := by
          obtain ⟨h1, -⟩ := List.getElem?_eq_some_iff.mp ha
          simp [made] at h1
          omega
        have hz : i - (made l).length = 0 := by omega
        rw [hz] at ha
        obtain rfl := Option.some.inj ha
        obtain ⟨e1, e2⟩ := i5 i (by omega) (fun _ => sys.dfltX, fun _ _ => 0) (fun _ => sys.dfltU)
        rw [e1, e2, hi]
        exact j3 b rfl
    · rw [lastX_append, lastU_append]
      obtain ⟨e1, e2⟩ := i5 i (by omega) d e
      rw [e1, e2]
      exact j5 i (by omega) d e

/-- Without copies and assignments, a controller follows the desired trajectories that were last set for it, and the default elements before. -/
theorem mpc_follows (sys : Sys T ℝ σ X U nx nu) (l : List (Op T ℝ X U nx nu ncr)) (hl : ∀ op ∈ l, op.shares = false) (w : World T ℝ σ X U nx nu ncr)
    (hw : World.run sys l World.empty = some w) (i : ℕ) (a : Args T ℝ X U nx nu ncr) (ha : (made l)[i]? = some a) :
    w.Follows i a (lastX i l (fun _ => sys.dfltX, fun _ _ => 0)).1 (lastX i l (fun _ => sys.dfltX, fun _ _ => 0)).2 (lastU i l fun _ => sys.dfltU) :=
  (run_follows sys l hl w hw).2.2.2.1 i a ha

end Verif.MPC
