import Verif.Props.MPCRun

/-! # Copies of controllers (C43) -/

set_option linter.unusedSectionVars false

namespace Verif.MPC

open Verif.Mesh Verif.Sparse Verif.MeshFn Verif.NLP Verif.OQP Verif.QPSpec Verif.Lie Verif.Flatten
open Verif.QP (Ext Status)

variable {T σ X U : Type*} {nx nu ncr n N : ℕ}

/-- What a call returns, as a function of the object and of the trajectories it points to. -/
theorem step_call_eq (sys : Sys T ℝ σ X U nx nu) (w w' : World T ℝ σ X U nx nu ncr) (i : ℕ) (t : T) (x : X) (o : Obj T ℝ σ X U nx nu ncr)
    (h1 : w.objs[i]? = some o) (h2 : w'.objs[i]? = some o)
    (hx : (w.xs[o.xp]?.map fun c => (c.xdes, c.dxdes)) = w'.xs[o.xp]?.map fun c => (c.xdes, c.dxdes))
    (hu : (w.us[o.up]?.map fun c => c.udes) = w'.us[o.up]?.map fun c => c.udes) :
    (w.step sys (.call i t x)).map (·.2) = (w'.step sys (.call i t x)).map (·.2) := by
  unfold World.step
  simp only [h1, h2, Option.bind_some]
  cases hxc : w.xs[o.xp]? with
  | none =>
    rw [hxc] at hx
    cases hxc' : w'.xs[o.xp]? with
    | none => rfl
    | some c => rw [hxc'] at hx; cases hx
  | some xc =>
    cases hxc' : w'.xs[o.xp]? with
    | none => rw [hxc, hxc'] at hx; cases hx
    | some xc' =>
      rw [hxc, hxc'] at hx
      obtain ⟨e1, e2⟩ := Prod.mk.inj (Option.some.inj hx)
      cases huc : w.us[o.up]? with
      | none =>
        rw [huc] at hu
        cases huc' : w'.us[o.up]? with
        | none => rfl
        | some c => rw [huc'] at hu; cases hu
      | some uc =>
        cases huc' : w'.us[o.up]? with
        | none => rw [huc, huc'] at hu; cases hu
        | some uc' =>
          rw [huc, huc'] at hu
          have e3 := Option.some.inj hu
          simp only [Option.bind_some, Option.map_map]
          have hx2 : ({ xc with t0 := t } : XCell T ℝ X nx) = { xc' with t0 := t } := by
            cases xc; cases xc'; simp only at e1 e2; simp [e1, e2]
          have hu2 : ({ uc with t0 := t } : UCell T U) = { uc' with t0 := t } := by
            cases uc; cases uc'; simp only at e3; simp [e3]
          have : o.call sys xc uc t x = o.call sys xc' uc' t x := by
            unfold Obj.call
            rw [hx2, hu2]
          rw [this]
          rfl

/-- **C43, what holds.** After any history, a call on another object (copy or not), or setting its weights, resetting its warm start,
copying or assigning to it, does not change what object `i` returns; nor does setting its desired trajectories, unless the two
share them. -/
theorem mpc_copy_partial (sys : Sys T ℝ σ X U nx nu) (l : List (Op T ℝ X U nx nu ncr)) (w : World T ℝ σ X U nx nu ncr) (hw : World.run sys l World.empty = some w)
    (i : ℕ) (hi : i < w.objs.length) (op : Op T ℝ X U nx nu ncr) (hop : op.on ≠ some i)
    (hs : op.sets = true → ∀ j, op.on = some j → ¬w.Share i j) (r : World T ℝ σ X U nx nu ncr × Option (Out X U))
    (h : w.step sys op = some r) (t : T) (x : X) :
    (r.1.step sys (.call i t x)).map (·.2) = (w.step sys (.call i t x)).map (·.2) := by
  have hok := run_ok sys l _ w (empty_ok sys) hw
  have h1 : w.objs[i]? = some w.objs[i] := List.getElem?_eq_getElem hi
  obtain ⟨ho, hxp, hup⟩ := hok i _ h1
  set o := w.objs[i] with hO
  cases op with
  | new a =>
    obtain ⟨p, hp, rfl⟩ := Option.map_eq_some_iff.mp h
    exact step_call_eq sys _ w i t x o (by simp only; rw [List.getElem?_append_left hi, h1]) h1
      (by simp only; rw [List.getElem?_append_left hxp]) (by simp only; rw [List.getElem?_append_left hup])
  | copy j =>
    obtain ⟨p, hp, rfl⟩ := Option.map_eq_some_iff.mp h
    exact step_call_eq sys _ w i t x o (by simp only; rw [List.getElem?_append_left hi, h1]) h1 rfl rfl
  | assign j k =>
    obtain ⟨o0, ho0, h⟩ := Option.bind_eq_some_iff.mp h
    obtain ⟨p, hp, rfl⟩ := Option.map_eq_some_iff.mp h
    have hj : j ≠ i := fun h => hop (by rw [h]; rfl)
    exact step_call_eq sys _ w i t x o (by simp only; rw [List.getElem?_set_ne hj, h1]) h1 rfl rfl
  | setW j Q Qtf R =>
    obtain ⟨p, hp, rfl⟩ := Option.map_eq_some_iff.mp h
    have hj : j ≠ i := fun h => hop (by rw [h]; rfl)
    exact step_call_eq sys _ w i t x o (by simp only; rw [List.getElem?_set_ne hj, h1]) h1 rfl rfl
  | reset j =>
    obtain ⟨p, hp, rfl⟩ := Option.map_eq_some_iff.mp h
    have hj : j ≠ i := fun h => hop (by rw [h]; rfl)
    exact step_call_eq sys _ w i t x o (by simp only; rw [List.getElem?_set_ne hj, h1]) h1 rfl rfl
  | setX j xd dxd =>
    obtain ⟨p, hp, h⟩ := Option.bind_eq_some_iff.mp h
    obtain ⟨xc, hxc, rfl⟩ := Option.map_eq_some_iff.mp h
    refine step_call_eq sys _ w i t x o h1 h1 ?_ rfl
    simp only
    rw [List.getElem?_set_ne]
    intro he
    exact hs rfl j rfl ⟨o, p, h1, hp, Or.inl he.symm⟩
  | setU j ud =>
    obtain ⟨p, hp, h⟩ := Option.bind_eq_some_iff.mp h
    obtain ⟨uc, huc, rfl⟩ := Option.map_eq_some_iff.mp h
    refine step_call_eq sys _ w i t x o h1 h1 rfl ?_
    simp only
    rw [List.getElem?_set_ne]
    intro he
    exact hs rfl j rfl ⟨o, p, h1, hp, Or.inr he.symm⟩
  | call j t' x' =>
    obtain ⟨p, hp, h⟩ := Option.bind_eq_some_iff.mp h
    obtain ⟨xc, hxc, h⟩ := Option.bind_eq_some_iff.mp h
    obtain ⟨uc, huc, h⟩ := Option.bind_eq_some_iff.mp h
    obtain ⟨q, hq, rfl⟩ := Option.map_eq_some_iff.mp h
    have hj : j ≠ i := fun h => hop (by rw [h]; rfl)
    obtain ⟨a1, a2, a3⟩ := hok j p hp
    obtain ⟨o1, s, -, -, -, -, -, -, -, -, -, c1, c2, -⟩ := call_spec sys p a1 xc uc t' x' q hq
    refine step_call_eq sys _ w i t x o (by simp only; rw [List.getElem?_set_ne hj, h1]) h1 ?_ ?_
    · simp only
      by_cases he : p.xp = o.xp
      · rw [he, List.getElem?_set_self hxp, ← he, hxc, c1]; rfl
      · rw [List.getElem?_set_ne he]
    · simp only
      by_cases he : p.up = o.up
      · rw [he, List.getElem?_set_self hup, ← he, huc, c2]; rfl
      · rw [List.getElem?_set_ne he]

/-- Objects that were constructed, not copied or assigned, share nothing. -/
theorem mpc_no_share (sys : Sys T ℝ σ X U nx nu) (l : List (Op T ℝ X U nx nu ncr)) (hl : ∀ op ∈ l, op.shares = false) (w : World T ℝ σ X U nx nu ncr)
    (hw : World.run sys l World.empty = some w) (i j : ℕ) (hij : i ≠ j) : ¬w.Share i j := by
  rintro ⟨o, p, ho, hp, h⟩
  have := (run_follows sys l hl w hw).2.1 i j o p ho hp hij
  tauto

/-- **C43, violated.** After any history, copy object `i` and set the desired input and trajectory of the copy: object `i` follows
them too. -/
theorem mpc_copy_shared (sys : Sys T ℝ σ X U nx nu) (l : List (Op T ℝ X U nx nu ncr)) (w : World T ℝ σ X U nx nu ncr) (hw : World.run sys l World.empty = some w)
    (i : ℕ) (hi : i < w.objs.length) (xd : T → X) (dxd : T → Fin nx → ℝ) (ud : T → U) :
    ∃ w' a, World.run sys [.copy i, .setX w.objs.length xd dxd, .setU w.objs.length ud] w = some w' ∧ w'.Follows i a xd dxd ud := by
  have hok := run_ok sys l _ w (empty_ok sys) hw
  have h1 : w.objs[i]? = some w.objs[i] := List.getElem?_eq_getElem hi
  obtain ⟨ho, hxp, hup⟩ := hok i _ h1
  set o := w.objs[i] with hO
  have e1 : (w.objs ++ [o.copy sys])[w.objs.length]? = some (o.copy sys) := by simp
  have e2 : w.xs[(o.copy sys).xp]? = some w.xs[o.xp] := List.getElem?_eq_getElem hxp
  have e3 : w.us[(o.copy sys).up]? = some w.us[o.up] := List.getElem?_eq_getElem hup
  refine ⟨⟨w.xs.set o.xp { w.xs[o.xp] with xdes := xd, dxdes := dxd }, w.us.set o.up { w.us[o.up] with udes := ud }, w.objs ++ [o.copy sys]⟩, o.args, ?_, ?_⟩
  · simp only [World.run, World.step, h1, Option.map_some, Option.bind_some, e1, e2, e3]
    rfl
  · exact ⟨o, _, _, by simp only; rw [List.getElem?_append_left hi, h1], rfl, List.getElem?_set_self hxp, List.getElem?_set_self hup, rfl, rfl, rfl⟩

/-- A copy and an assigned object start as the object they were made from: if copying a solver keeps its state, the next call returns the
same on both. -/
theorem mpc_copy_same (sys : Sys T ℝ σ X U nx nu) (hcopy : ∀ s, sys.solver.copy s = s) (w w' : World T ℝ σ X U nx nu ncr) (i j : ℕ)
    (r : Option (Out X U)) (hi : i < w.objs.length)
    (h : w.step sys (.copy i) = some (w', r) ∧ j = w.objs.length ∨ w.step sys (.assign j i) = some (w', r)) (t : T) (x : X) :
    (w'.step sys (.call j t x)).map (·.2) = (w.step sys (.call i t x)).map (·.2) := by
  have h1 : w.objs[i]? = some w.objs[i] := List.getElem?_eq_getElem hi
  have h2 : w.objs[i].copy sys = w.objs[i] := by unfold Obj.copy; rw [hcopy]
  have key : ∀ objs : List (Obj T ℝ σ X U nx nu ncr), objs[j]? = some w.objs[i] →
      ((⟨w.xs, w.us, objs⟩ : World T ℝ σ X U nx nu ncr).step sys (.call j t x)).map (·.2) = (w.step sys (.call i t x)).map (·.2) := by
    intro objs ho
    unfold World.step
    simp only [ho, h1, Option.bind_some, Option.map_bind, Function.comp_def, Option.map_map]
  rcases h with ⟨h, rfl⟩ | h
  · simp only [World.step, h1, Option.map_some, Option.some.injEq, Prod.mk.injEq] at h
    obtain ⟨rfl, -⟩ := h
    exact key _ (by rw [h2]; simp)
  · rw [World.step, Option.bind_eq_some_iff] at h
    obtain ⟨o, ho, h⟩ := h
    simp only [h1, Option.map_some, Option.some.injEq, Prod.mk.injEq] at h
    obtain ⟨rfl, -⟩ := h
    have hj : j < w.objs.length := by
      by_contra hc
      rw [List.getElem?_eq_none (by omega)] at ho
      cases ho
    exact key _ (by rw [h2, List.getElem?_set_self hj])

end Verif.MPC
