import Verif.Props.MPC

/-! # Weights of the controller (C39, C40, C41) -/

set_option linter.unusedSectionVars false

namespace Verif.MPC

open Verif.Mesh Verif.Sparse Verif.MeshFn Verif.NLP Verif.OQP Verif.QPSpec Verif.Lie Verif.Flatten
open Verif.QP (Ext Status)

variable {T σ X U : Type*} {nx nu ncr n N : ℕ}
variable {𝔸 𝔹 : Type*} [NormedRing 𝔸] [NormedAlgebra ℝ 𝔸] [FiniteDimensional ℝ 𝔸] [CompleteSpace 𝔸] [NormedRing 𝔹] [NormedAlgebra ℝ 𝔹]
  [FiniteDimensional ℝ 𝔹] [CompleteSpace 𝔹] {mat : X → 𝔸} {hat : (Fin nx → ℝ) →ₗ[ℝ] 𝔸} {matU : U → 𝔹} {hatU : (Fin nu → ℝ) →ₗ[ℝ] 𝔹}

/-! ## C39 -/

theorem transcribe_weights (sys : Sys T ℝ σ X U nx nu) (o : Obj T ℝ σ X U nx nu ncr) (Q Qtf : Fin nx → Fin nx → ℝ) (R : Fin nu → Fin nu → ℝ)
    (xc : XCell T ℝ X nx) (uc : UCell T U) (t : T) (x : X) :
    (o.setWeights Q Qtf R).transcribe sys xc uc t x = (o.transcribe sys xc uc t x).map fun o' => o'.setWeights Q Qtf R := by
  unfold Obj.transcribe
  simp only [Option.map_bind, Option.map_map, Function.comp_def]
  rfl

theorem call_weights (sys : Sys T ℝ σ X U nx nu) (o : Obj T ℝ σ X U nx nu ncr) (Q Qtf : Fin nx → Fin nx → ℝ) (R : Fin nu → Fin nu → ℝ)
    (xc : XCell T ℝ X nx) (uc : UCell T U) (t : T) (x : X) :
    (o.setWeights Q Qtf R).call sys xc uc t x =
      (o.call sys xc uc t x).map fun r => (r.1, r.2.1, r.2.2.1.setWeights Q Qtf R, r.2.2.2) := by
  unfold Obj.call
  simp only [transcribe_weights]
  cases o.transcribe sys { xc with t0 := t } { uc with t0 := t } t x with
  | none => rfl
  | some o' =>
    simp only [Option.map_some, Option.bind_some, Option.map_bind, Option.map_map, Function.comp_def]
    rfl

/-- **C39, violated.** `set_weights` changes neither the program of any object nor what any call returns. -/
theorem mpc_weights_ignored (sys : Sys T ℝ σ X U nx nu) (w : World T ℝ σ X U nx nu ncr) (i : ℕ) (Q Qtf : Fin nx → Fin nx → ℝ) (R : Fin nu → Fin nu → ℝ)
    (r : World T ℝ σ X U nx nu ncr × Option (Out X U)) (h : w.step sys (.setW i Q Qtf R) = some r) (j : ℕ) (t : T) (x : X) :
    r.1.program sys j t x = w.program sys j t x ∧
      (r.1.step sys (.call j t x)).map (·.2) = (w.step sys (.call j t x)).map (·.2) := by
  obtain ⟨o, ho, rfl⟩ := Option.map_eq_some_iff.mp h
  obtain ⟨hi, -⟩ := List.getElem?_eq_some_iff.mp ho
  by_cases hij : i = j
  · subst hij
    have hn : (w.objs.set i (o.setWeights Q Qtf R))[i]? = some (o.setWeights Q Qtf R) := by rw [List.getElem?_set_self hi]
    unfold World.program World.step
    simp only [hn, ho, Option.bind_some]
    constructor
    · simp only [transcribe_weights, Option.map_map]
      rfl
    · change Option.map _ (w.xs[o.xp]?.bind _) = _
      cases w.xs[o.xp]? with
      | none => rfl
      | some xc =>
        simp only [Option.bind_some]
        change Option.map _ (w.us[o.up]?.bind _) = _
        cases w.us[o.up]? with
        | none => rfl
        | some uc =>
          simp only [Option.bind_some, call_weights, Option.map_map]
          rfl
  · have hn : (w.objs.set i (o.setWeights Q Qtf R))[j]? = w.objs[j]? := List.getElem?_set_ne hij
    unfold World.program World.step
    simp only [hn]
    refine ⟨trivial, ?_⟩
    cases w.objs[j]? with
    | none => rfl
    | some p =>
      simp only [Option.bind_some]
      cases w.xs[p.xp]? with
      | none => rfl
      | some xc =>
        simp only [Option.bind_some]
        cases w.us[p.up]? with
        | none => rfl
        | some uc =>
          simp only [Option.bind_some, Option.map_map]
          rfl

/-- **C39, C40, what holds.** For unit weights of states and inputs and no terminal weight, the objective is the documented cost, up
to a constant, on everything that is feasible. -/
theorem mpc_weights_partial (sys : Sys T ℝ σ X U nx nu) (l : List (Op T ℝ X U nx nu ncr)) (w : World T ℝ σ X U nx nu ncr) (hw : World.run sys l World.empty = some w)
    (i : ℕ) (a : Args T ℝ X U nx nu ncr) (hG : sys.IsLie mat hat matU hatU) (hf : IsUFn sys a.f)
    (hcr : IsUFn sys a.cr) (xd : T → X) (dxd : T → Fin nx → ℝ) (ud : T → U)
    (hF : w.Follows i a xd dxd ud) (t : T) (x : X) :
    ∃ qp, w.program sys i t x = some qp ∧ ∀ (z : QVar (nColloc (meshOf a)) nx nu → ℝ) v, IsPrimal z v →
      Feasible (toPbm qp (numV (nColloc (meshOf a)) nx nu) (numC (nColloc (meshOf a)) nx ncr nx)) v →
      QPSpec.cost (toPbm qp (numV (nColloc (meshOf a)) nx nu) (numC (nColloc (meshOf a)) nx ncr nx)) v =
        docCost sys.env (meshOf a) a.tf (fun k l => if k = l then 1 else 0) (fun _ _ => 0) (fun k l => if k = l then 1 else 0) z +
          1 / 4 * ∑ k, sys.rminus (xd (sys.plus t 0)) x k ^ 2 := by
  obtain ⟨qp, h1, -, h2⟩ := mpc_program sys l w hw i a hG hf hcr xd dxd ud hF t x
  refine ⟨qp, h1, fun z v hv hfe => ?_⟩
  obtain ⟨h3, h4⟩ := h2 z v hv
  have hx := (h3.mp hfe).1.initial
  rw [h4]
  unfold unitCost docCost
  have e1 : ∀ k, sys.rminus (xd (sys.plus t 0)) x k ^ 2 = z (.x 0 k) ^ 2 := fun k => by
    have := congrFun hx k
    simp only [Pi.neg_apply] at this
    rw [this, neg_sq]
  simp only [e1]
  simp only [ite_mul, one_mul, zero_mul, Finset.sum_ite_eq, Finset.mem_univ, if_true, Finset.sum_const_zero, add_zero, sq]
  ring

/-! ## C40 -/

/-- **C40, violated.** The objective never depends on the final state of the horizon. -/
theorem mpc_terminal_ignored (sys : Sys T ℝ σ X U nx nu) (l : List (Op T ℝ X U nx nu ncr)) (w : World T ℝ σ X U nx nu ncr) (hw : World.run sys l World.empty = some w)
    (i : ℕ) (a : Args T ℝ X U nx nu ncr) (hG : sys.IsLie mat hat matU hatU) (hf : IsUFn sys a.f)
    (hcr : IsUFn sys a.cr) (xd : T → X) (dxd : T → Fin nx → ℝ) (ud : T → U)
    (hF : w.Follows i a xd dxd ud) (t : T) (x : X) :
    ∃ qp, w.program sys i t x = some qp ∧ ∀ (z z' : QVar (nColloc (meshOf a)) nx nu → ℝ) v v', IsPrimal z v → IsPrimal z' v' →
      (∀ q, (∀ k, q ≠ .x (Fin.last _) k) → z q = z' q) →
      QPSpec.cost (toPbm qp (numV (nColloc (meshOf a)) nx nu) (numC (nColloc (meshOf a)) nx ncr nx)) v =
        QPSpec.cost (toPbm qp (numV (nColloc (meshOf a)) nx nu) (numC (nColloc (meshOf a)) nx ncr nx)) v' := by
  obtain ⟨qp, h1, -, h2⟩ := mpc_program sys l w hw i a hG hf hcr xd dxd ud hF t x
  obtain ⟨o, -, -, ho, ha, hm, -⟩ := program_of_follows sys w (run_ok sys l _ w (empty_ok sys) hw) i a xd dxd ud hF t x
  have hN : 1 ≤ nColloc (meshOf a) := by rw [← hm]; exact ho.pos
  refine ⟨qp, h1, fun z z' v v' hv hv' he => ?_⟩
  rw [(h2 z v hv).2, (h2 z' v' hv').2]
  have h0 : ∀ (i : Fin (nColloc (meshOf a) + 1)) k, (i : ℕ) < nColloc (meshOf a) → z (.x i k) = z' (.x i k) := by
    intro i k hi
    refine he _ fun k' h => ?_
    have := (QVar.x.inj h).1
    rw [this] at hi
    simp at hi
  have hx : ∀ i, dxAt z i = dxAt z' i := fun i => funext fun k => h0 _ _ i.2
  have hu : ∀ i, duAt z i = duAt z' i := fun i => funext fun k => he _ fun k' h => by cases h
  have hz : ∀ k, z (.x 0 k) = z' (.x 0 k) := fun k => h0 _ _ (by rw [Fin.val_zero]; omega)
  unfold unitCost
  simp only [hx, hu, hz]

/-- **C40, violated.** The Hessian of the terminal cost has `Qtf` in the block of the first state, and nothing in that of the last. -/
theorem mpc_terminal_hessian (Qtf : Fin nx → Fin nx → ℝ) (buf : Sp ℝ) (h : buf.rows = 1 + 2 * nx + 1 ∧ buf.cols = 1 + 2 * nx + 1) :
    ∃ H, thetaHess Qtf buf = some H ∧ ∀ a b : EArg nx 1, H.val a.pos b.pos = match a, b with
      | .x0 k, .x0 l => Qtf k l
      | _, _ => 0 := by
  obtain ⟨H, e, -, -, hH⟩ := thetaHess_spec Qtf buf h
  refine ⟨H, e, fun a b => ?_⟩
  rw [hH]
  have hp : ∀ a : EArg nx 1, (1 ≤ a.pos ∧ a.pos < 1 + nx) ↔ ∃ k, a = .x0 k := by
    intro a
    cases a with
    | x0 k => simp [EArg.pos]
    | tf => simp [EArg.pos]
    | xf k =>
      have h1 : (EArg.xf k : EArg nx 1).pos = 1 + nx + k := rfl
      rw [h1]
      exact ⟨fun h => by omega, fun ⟨_, h⟩ => by cases h⟩
    | q k =>
      have h1 : (EArg.q k : EArg nx 1).pos = 1 + 2 * nx + k := rfl
      rw [h1]
      exact ⟨fun h => by omega, fun ⟨_, h⟩ => by cases h⟩
  by_cases h1 : (1 ≤ a.pos ∧ a.pos < 1 + nx) ∧ 1 ≤ b.pos ∧ b.pos < 1 + nx
  · rw [if_pos h1]
    obtain ⟨k, rfl⟩ := (hp a).mp h1.1
    obtain ⟨l, rfl⟩ := (hp b).mp h1.2
    have h2 : (EArg.x0 k : EArg nx 1).pos - 1 = k := by simp only [EArg.pos]; omega
    have h3 : (EArg.x0 l : EArg nx 1).pos - 1 = l := by simp only [EArg.pos]; omega
    rw [h2, h3, full_fin]
  · rw [if_neg h1, hp, hp] at *
    cases a <;> cases b <;> simp at h1 ⊢

/-! ## C41 -/

/-- The Hessian of the running cost, for any weights. -/
theorem mpc_input_hessian (Q : Fin nx → Fin nx → ℝ) (R : Fin nu → Fin nu → ℝ) (hn : nu ≤ nx) (buf : Sp ℝ)
    (h : buf.rows = 1 + nx + nu ∧ buf.cols = 1 + nx + nu) :
    ∃ H, gHess Q R buf = some H ∧ ∀ a b : Arg nx nu, H.val a.pos b.pos = match a, b with
      | .x k, .x l => Q k l
      | .u k, .u l => if Q (k.castLE hn) (l.castLE hn) = 0 then 0 else R k l
      | _, _ => 0 := by
  obtain ⟨H, e, -, -, hH⟩ := gHess_spec Q R hn buf h
  refine ⟨H, e, fun a b => ?_⟩
  rw [hH]
  cases a with
  | t => simp [Arg.pos]
  | x k =>
    cases b with
    | t => simp [Arg.pos]
    | x l =>
      have h1 : (Arg.x k : Arg nx nu).pos = 1 + k := rfl
      have h2 : (Arg.x l : Arg nx nu).pos = 1 + l := rfl
      rw [h1, h2, if_pos (by omega), Nat.add_sub_cancel_left, Nat.add_sub_cancel_left, full_fin]
    | u l =>
      have h1 : (Arg.x k : Arg nx nu).pos = 1 + k := rfl
      have h2 : (Arg.u l : Arg nx nu).pos = 1 + nx + l := rfl
      rw [h1, h2, if_neg (by omega), if_neg (by omega)]
  | u k =>
    cases b with
    | t => simp [Arg.pos]
    | x l =>
      have h1 : (Arg.u k : Arg nx nu).pos = 1 + nx + k := rfl
      have h2 : (Arg.x l : Arg nx nu).pos = 1 + l := rfl
      rw [h1, h2, if_neg (by omega), if_neg (by omega)]
    | u l =>
      have h1 : (Arg.u k : Arg nx nu).pos = 1 + nx + k := rfl
      have h2 : (Arg.u l : Arg nx nu).pos = 1 + nx + l := rfl
      rw [h1, h2, if_neg (by omega), if_pos (by omega), Nat.add_sub_cancel_left, Nat.add_sub_cancel_left, full_fin]
      have hQ : full Q k l = Q (k.castLE hn) (l.castLE hn) := full_fin Q (k.castLE hn) (l.castLE hn)
      rw [hQ]
      by_cases h0 : Q (k.castLE hn) (l.castLE hn) = 0 <;> simp [h0]

/-- **C41, what holds.** With no more inputs than states, and `Q` without zeros where `R` has none, every entry of `R` is used. -/
theorem mpc_input_weight_partial (Q : Fin nx → Fin nx → ℝ) (R : Fin nu → Fin nu → ℝ) (hn : nu ≤ nx)
    (hQ : ∀ k l, R k l ≠ 0 → Q (Fin.castLE hn k) (Fin.castLE hn l) ≠ 0) (buf : Sp ℝ) (h : buf.rows = 1 + nx + nu ∧ buf.cols = 1 + nx + nu) :
    ∃ H, gHess Q R buf = some H ∧ ∀ a b : Arg nx nu, H.val a.pos b.pos = match a, b with
      | .x k, .x l => Q k l
      | .u k, .u l => R k l
      | _, _ => 0 := by
  obtain ⟨H, e, hH⟩ := mpc_input_hessian Q R hn buf h
  refine ⟨H, e, fun a b => ?_⟩
  rw [hH]
  cases a with
  | u k =>
    cases b with
    | u l =>
      simp only
      by_cases h0 : R k l = 0
      · simp [h0]
      · rw [if_neg (hQ k l h0)]
    | _ => rfl
  | _ => cases b <;> rfl

example : (1 : ℕ) ≤ 1 ∧ ∀ k l : Fin 1, (fun _ _ => 2 : Fin 1 → Fin 1 → ℝ) k l ≠ 0 → (fun _ _ => 3 : Fin 1 → Fin 1 → ℝ) (Fin.castLE le_rfl k) (Fin.castLE le_rfl l) ≠ 0 := by
  norm_num

/-- **C41, violated.** An off-diagonal entry of `R` is lost when `Q` is diagonal, a diagonal one when the entry of `Q` is zero. -/
theorem mpc_input_weight_wrong :
    (∃ H, gHess (fun k l : Fin 2 => if k = l then (1 : ℝ) else 0) (fun _ _ : Fin 2 => 1) (Sp.empty 5 5) = some H ∧
      H.val (Arg.u 0 : Arg 2 2).pos (Arg.u 1 : Arg 2 2).pos = 0) ∧
    ∃ H, gHess (fun k l : Fin 2 => if k = 1 ∧ l = 1 then (1 : ℝ) else 0) (fun _ _ : Fin 1 => 1) (Sp.empty 4 4) = some H ∧
      H.val (Arg.u 0 : Arg 2 1).pos (Arg.u 0 : Arg 2 1).pos = 0 := by
  constructor
  · obtain ⟨H, e, h⟩ := mpc_input_hessian (fun k l : Fin 2 => if k = l then (1 : ℝ) else 0) (fun _ _ : Fin 2 => 1) le_rfl (Sp.empty 5 5) ⟨rfl, rfl⟩
    exact ⟨H, e, by rw [h]; simp⟩
  · obtain ⟨H, e, h⟩ := mpc_input_hessian (fun k l : Fin 2 => if k = 1 ∧ l = 1 then (1 : ℝ) else 0) (fun _ _ : Fin 1 => 1) (by omega) (Sp.empty 4 4) ⟨rfl, rfl⟩
    exact ⟨H, e, by rw [h]; simp⟩

/-! ### The constructor -/

theorem new_def (sys : Sys T ℝ σ X U nx nu) (a : Args T ℝ X U nx nu ncr) (hk : 1 ≤ a.Kmesh) (hn : nu ≤ nx) (han : ∀ qp s, sys.solver.analyze qp s ≠ none) (xp up : ℕ) :
    ∃ o, Obj.new sys a xp up = some o := by
  obtain ⟨mesh, hm⟩ := uniform_def (K := a.Kmesh) (n := (a.K + a.Kmesh - 1) / a.Kmesh)
  obtain ⟨H1, e1, hH1⟩ := gHess_eye hn
  obtain ⟨H2, e2, hH2⟩ := thetaHess_eye (nx := nx)
  set o0 : Obj T ℝ σ X U nx nu ncr :=
      { xp := xp, up := up, mesh := mesh, args := a, xfDes := sys.dfltX, Qtf := eye nx, thetaH := H2, Q := eye nx, R := eye nu,
        gH := H1, ft0 := sys.t00, crt0 := sys.t00, x0fix := sys.dfltX, work := ⟨freshMV, freshMV⟩,
        qp := ⟨Sp.empty 0 0, ⟨0, fun _ => 0⟩, Sp.empty 0 0 true, ⟨0, fun _ => .fin 0⟩, ⟨0, fun _ => .fin 0⟩⟩,
        solver := sys.solver.init, warm := none } with ho0
  have hV := valid_uniform hm
  have hN : 1 ≤ nColloc mesh := nColloc_pos hV.ne_nil fun v hv => by have := (hV.degree v hv).1; omega
  set lin := linOf sys.plus (newX sys : XCell T ℝ X nx) (newU sys : UCell T U) with hlin
  set l0 := localOCP nu (o0.ocp sys) (fun _ => sys.dfltX) (fun _ => sys.dfltU) a.tf with hl0
  set lo := localOCP nu (o0.ocp sys) lin.x lin.u a.tf with hlo
  obtain ⟨s, es, hs⟩ := allocate_spec sys.env mesh l0 (fun _ => rfl) (fun _ => rfl) (cePat sys) ⟨freshMV, freshMV⟩
    (Sized.fresh rfl) (Sized.fresh rfl)
  obtain ⟨P, q, int, ec, hP, hq, hI, hPv, hqv⟩ := updateCost_raw sys.env mesh hN lo (fun _ => rfl) a.tf (zeroLin nu lin.dx) s hs.P hs.q hs.int
  obtain ⟨q1, ed, hP1, hq1, hC1, -, -, -, hk1, hkl1, hku1⟩ := updateDyn_spec sys.env mesh hV.ne_nil lo (fun _ => rfl)
    (localAd sys.LX sys.comm) (localAd_ok _ _) a.tf (zeroLin nu lin.dx) ({ s.1 with P := P, q := q }, { s.2 with int := int }) ⟨hs.con.A, hs.con.l, hs.con.u⟩
  have hst1 : CrStored (nColloc mesh) nx nu ncr (q1, { s.2 with int := int }) := CrStored.of_ent (s := s) hs.cr rfl fun r hr _ c => hk1 r hr c
  obtain ⟨q2, cr, er, hP2, hq2, hC2, hs2, h2, h2l, h2u, k2, k2l, k2u⟩ := updateCr_spec sys.env mesh lo (fun _ => rfl) a.tf (zeroLin nu lin.dx)
    (q1, { s.2 with int := int }) hC1 hst1
  have hse2 : CeStored (nColloc mesh) nx nu ncr nx (cePat sys) q2.A := CeStored.of_ent hs.ce fun r hr c =>
    (k2 r (Or.inr hr) c).trans (hk1 r (by omega) c)
  obtain ⟨q3, ee, hP3, hq3, hC3, hse3, -, -, -, k3, k3l, k3u⟩ := updateCe_spec mesh hN lo (fun _ => rfl) (cePat sys) a.tf (zeroLin nu lin.dx)
    (fun k c _ _ => ceFn_pat sys sys.dfltX a.tf (lin.x 0) (lin.x a.tf) (fun _ => 1) k c) (q2, { s.2 with int := int, cr := cr }) hC2 hse2
  have eu : updateG nu sys.env mesh sys.LX sys.comm (o0.ocp sys) a.tf lin s = some (q3, { s.2 with int := int, cr := cr }) := by
    rw [updateG_local]
    unfold update
    rw [ec, Option.bind_some, ed, Option.bind_some, er, Option.bind_some]
    exact ee
  obtain ⟨st, hst⟩ := Option.ne_none_iff_exists'.mp (han q3 sys.solver.init)
  refine ⟨{ o0 with qp := q3, work := { s.2 with int := int, cr := cr }, solver := st }, ?_⟩
  unfold Obj.new
  rw [if_neg (by omega), hm, Option.bind_some, e2, Option.bind_some, e1, Option.bind_some]
  simp only
  rw [← ho0]
  rw [allocateG_local sys.dfltX sys.dfltU sys.env mesh (o0.ocp sys) a.tf, es, Option.bind_some, eu, Option.bind_some]
  change Option.map _ (sys.solver.analyze q3 sys.solver.init) = _
  rw [hst, Option.map_some]

/-- **C41, violated.** A controller with more inputs than states cannot be constructed: `hessian` reads `Q` out of range. All others
can. -/
theorem mpc_construct_iff (sys : Sys T ℝ σ X U nx nu) (a : Args T ℝ X U nx nu ncr) (hk : 1 ≤ a.Kmesh) (han : ∀ qp s, sys.solver.analyze qp s ≠ none) (xp up : ℕ) :
    (∃ o, Obj.new sys a xp up = some o) ↔ nu ≤ nx :=
  ⟨fun ⟨o, ho⟩ => (new_ok sys a xp up o ho).2.2.2.2.2, fun hn => new_def sys a hk hn han xp up⟩

end Verif.MPC
