import Verif.Spec.MPCFrame
import Verif.Spec.Frame
import Verif.Proofs.MPCFrame
import Verif.Props.MPCExamples
import Verif.Props.MPCSolver

/-! # The predictive controller in another frame of reference (C118) -/

set_option linter.unusedSectionVars false

namespace Verif.MPC

open Verif.Mesh Verif.Sparse Verif.MeshFn Verif.NLP Verif.OQP Verif.QPSpec Verif.Lie Verif.Flatten
open Verif.QP (Ext Status UpperOnly)

variable {T X U T' X' U' : Type*} {nx nu ncr : ℕ} {env : (n : ℕ) → QP.Env ℝ n} {prm : QP.Params ℝ} {fuel : ℕ}

/-- **C118.** Two histories of constructions, copies, assignments, calls, changes of the desired trajectories and of the weights and resets
that differ by a change of frame and of clock: the inputs and trajectories that come back differ by the change of frame, the codes are the
same, and so is the first call that does not return. With the controller's own QP solver. What is missing from the claim is the hypothesis
`hC`: without `set_time`, running constraints are taken at the default elements, which do not move along. -/
theorem mpc_frame_partial {sys : Sys T ℝ (QState ℝ) X U nx nu} {sys' : Sys T' ℝ (QState ℝ) X' U' nx nu} {e : X → X'} {eu : U → U'} {τ : T → T'}
    (hf : IsFrame sys sys' e eu τ) (hs : sys.solver = qpObject env prm fuel) (hs' : sys'.solver = qpObject env prm fuel) (hup : ∀ n, UpperOnly (env n))
    (l : List (Op T ℝ X U nx nu ncr)) (l' : List (Op T' ℝ X' U' nx nu ncr)) (hl : List.Forall₂ (Moved e eu τ) l l') (hR : Referred 0 l)
    (hC : CrFrames sys sys' l l') :
    outs sys' l' World.empty = (outs sys l World.empty).map (Option.map (Option.map (Out.moved e eu))) := by
  rw [mpc_reuse sys hs hup l, mpc_reuse sys' hs' hup l']
  exact outs_moved (sys := sys.withSolver (qpFresh env prm fuel)) (sys' := sys'.withSolver (qpFresh env prm fuel))
    ⟨hf.env, hf.plus, hf.xplus, hf.uplus, hf.rminus, hf.ad, hf.drExpinv, hf.pat, hf.comm⟩ rfl rfl l l' World.empty World.empty ⟨.nil, .nil, .nil⟩ hl hC hR

/-- Without running constraints that lack `set_time`, nothing is missing. -/
theorem crFrames_timed {σ σ' : Type*} (sys : Sys T ℝ σ X U nx nu) (sys' : Sys T' ℝ σ' X' U' nx nu) (l : List (Op T ℝ X U nx nu ncr)) (l' : List (Op T' ℝ X' U' nx nu ncr))
    (h : ∀ a, Op.new a ∈ l → a.cr.timed = true) : CrFrames sys sys' l l' :=
  fun a _ hm => .inl (h a (List.of_mem_zip hm).1)

/-- Left translations of groups, by any elements, and shifts of the clock are frames. -/
theorem mpc_left {σ : Type*} [Group X] [Group U] (sys : Sys T ℝ σ X U nx nu) (exp : (Fin nx → ℝ) → X) (log : X → Fin nx → ℝ) (expU : (Fin nu → ℝ) → U)
    (hx : ∀ x v, sys.LX.rplus x v = x * exp v) (hm : ∀ x y : X, sys.rminus x y = log (y⁻¹ * x)) (hu : ∀ u v, sys.LU.rplus u v = u * expU v)
    (τ : T → T) (ht : ∀ t d, sys.plus (τ t) d = τ (sys.plus t d)) (g : X) (h : U) : IsFrame sys sys (Frame.leftMul g) (Frame.leftMul h) τ where
  env := rfl
  plus := ht
  xplus x v := by rw [hx, hx, Frame.leftMul, Frame.leftMul, mul_assoc]
  uplus u v := by rw [hu, hu, Frame.leftMul, Frame.leftMul, mul_assoc]
  rminus x y := by rw [hm, hm, Frame.leftMul, Frame.leftMul, mul_inv_rev, mul_assoc, inv_mul_cancel_left]
  ad := rfl
  drExpinv := rfl
  pat := rfl
  comm := rfl

/-- Translations of vectors. -/
theorem vec_frame {σ : Type*} (solver : Solver ℝ σ) (c : Fin nx → ℝ) (d : Fin nu → ℝ) (s : ℝ) :
    IsFrame (vecSys nx nu (lowEnv ℝ) (fun t s : ℝ => t + s) 0 solver) (vecSys nx nu (lowEnv ℝ) (fun t s : ℝ => t + s) 0 solver) (c + ·) (d + ·) (s + ·) where
  env := rfl
  plus t d := add_assoc _ _ _
  xplus x v := by simp [vecSys, vec, add_assoc]
  uplus x v := by simp [vecSys, vec, add_assoc]
  rminus x y := by simp [vecSys]
  ad := rfl
  drExpinv := rfl
  pat := rfl
  comm := rfl

/-! ## A history -/

/-- `x' = u - d` with `-1 ≤ u - d ≤ 1`. -/
noncomputable def mvArgs (d : ℝ) : Args ℝ ℝ (Fin 1 → ℝ) (Fin 1 → ℝ) 1 1 1 :=
  { exArgs true with
    f := ⟨false, fun _ _ u _ => u 0 - d, fun _ _ _ _ _ => 0, fun _ _ _ _ _ => 1⟩
    cr := ⟨true, fun _ _ u _ => u 0 - d, fun _ _ _ _ _ => 0, fun _ _ _ _ _ => 1⟩ }

/-- The hypotheses of `mpc_frame_partial` are met: the state moved by 3, the input by 2, the clock by 7. -/
example (n : ℕ) (hup : ∀ n, UpperOnly (env n)) :
    let sys := vecSys 1 1 (lowEnv ℝ) (fun t s : ℝ => t + s) 0 (qpObject env prm fuel)
    ∀ l l', l = ([.new (mvArgs 0), .setX 0 (fun t _ => t) (fun _ _ => 1), .setU 0 (fun _ _ => 1), .copy 0] ++ List.replicate n (.call 1 0 fun _ => 5) : List (Op ℝ ℝ (Fin 1 → ℝ) (Fin 1 → ℝ) 1 1 1)) →
      l' = ([.new (mvArgs 2), .setX 0 (fun t _ => 3 + (t - 7)) (fun _ _ => 1), .setU 0 (fun _ _ => 3), .copy 0] ++ List.replicate n (.call 1 7 fun _ => 8) : List (Op ℝ ℝ (Fin 1 → ℝ) (Fin 1 → ℝ) 1 1 1)) →
      outs sys l' World.empty = (outs sys l World.empty).map (Option.map (Option.map (Out.moved ((fun _ => (3 : ℝ)) + ·) ((fun _ => (2 : ℝ)) + ·)))) := by
  rintro sys l l' rfl rfl
  refine mpc_frame_partial (vec_frame _ _ _ 7) rfl rfl hup _ _ ?_ ?_ (crFrames_timed _ _ _ _ fun a ha => ?_)
  · have hc : List.Forall₂ (Moved ((fun _ : Fin 1 => (3 : ℝ)) + ·) ((fun _ : Fin 1 => (2 : ℝ)) + ·) ((7 : ℝ) + ·))
        (List.replicate n (.call 1 0 fun _ => 5) : List (Op ℝ ℝ (Fin 1 → ℝ) (Fin 1 → ℝ) 1 1 1)) (List.replicate n (.call 1 7 fun _ => 8)) := by
      have := Moved.call (F := ℝ) (nx := 1) (nu := 1) (ncr := 1) (e := ((fun _ : Fin 1 => (3 : ℝ)) + ·)) (eu := ((fun _ : Fin 1 => (2 : ℝ)) + ·)) (τ := ((7 : ℝ) + ·)) 1 0 fun _ => 5
      have e : (fun _ : Fin 1 => (3 : ℝ)) + (fun _ => 5) = fun _ => 8 := by funext k; rw [Pi.add_apply]; norm_num
      rw [e, add_zero] at this
      induction n with
      | zero => exact .nil
      | succ n ih => exact .cons this ih
    refine .cons (.new _ _ ?_) (.cons (.setX _ _ _ _ _ (fun t => ?_) fun t => rfl) (.cons (.setU _ _ _ fun t => ?_) (.cons (.copy _) hc)))
    · exact ⟨⟨rfl, fun _ _ _ => by funext k; simp [mvArgs], fun _ _ _ => rfl, fun _ _ _ => rfl⟩, ⟨rfl, fun _ _ _ => by funext k; simp [mvArgs], fun _ _ _ => rfl, fun _ _ _ => rfl⟩,
        rfl, rfl, rfl, rfl, rfl, rfl⟩
    · funext k
      rw [Pi.add_apply]
      ring
    · funext k
      rw [Pi.add_apply]
      norm_num
  · refine ⟨rfl, rfl, ?_⟩
    have : ∀ n k, Referred k (List.replicate n (.call 1 0 fun _ => 5) : List (Op ℝ ℝ (Fin 1 → ℝ) (Fin 1 → ℝ) 1 1 1)) := by
      intro n
      induction n with
      | zero => intro k; trivial
      | succ n ih => exact fun k => ih k
    exact this n _
  · simp only [List.mem_append, List.mem_cons, List.mem_replicate] at ha
    simp at ha
    rw [ha]
    rfl

/-! ## Running constraints on the state, without `set_time` -/

/-- `x' = u` with `x = c`. -/
noncomputable def stArgs (c : ℝ) : Args ℝ ℝ (Fin 1 → ℝ) (Fin 1 → ℝ) 1 1 1 :=
  { exArgs false with
    cr := ⟨false, fun _ x _ _ => x 0 - c, fun _ _ _ _ _ => 1, fun _ _ _ _ _ => 0⟩
    crl := fun _ => .fin 0
    cru := fun _ => .fin 0 }

/-- The controller that follows `x = c`, `u = 0`. -/
noncomputable def stOps (c : ℝ) : List (Op ℝ ℝ (Fin 1 → ℝ) (Fin 1 → ℝ) 1 1 1) := [.new (stArgs c), .setX 0 (fun _ _ => c) (fun _ _ => 0), .setU 0 (fun _ _ => 0)]

theorem stCr_ufn (c : ℝ) : IsUFn exSys (stArgs c).cr := by
  intro t x u k
  have h := (Flatten.hasPd_const (x 0 - c) (0 : Arg 1 1 → ℝ)).add (Flatten.hasPd_coord (Arg.x 0) 0)
  have e : (fun δ : Arg 1 1 → ℝ => near exSys.LX exSys.LU (stArgs c).cr t x u δ k) = fun z => x 0 - c + z (Arg.x 0) := by
    funext z
    simp [near, stArgs, exSys, vecSys, vec]
    ring
  rw [e]
  refine h.of_eq fun a => ?_
  cases a with
  | t => simp
  | u l => simp [stArgs]
  | x l =>
    obtain rfl : l = 0 := Subsingleton.elim _ _
    simp [stArgs]

theorem stMoved (c : ℝ) : List.Forall₂ (Moved (fun x : Fin 1 → ℝ => (fun _ => c) + x) (fun u : Fin 1 → ℝ => 0 + u) (fun t : ℝ => 0 + t)) (stOps 0) (stOps c) :=
  .cons (.new _ _ ⟨⟨rfl, fun _ _ _ => by funext k; simp [stArgs, exArgs], fun _ _ _ => rfl, fun _ _ _ => rfl⟩,
      ⟨rfl, fun _ _ _ => by funext k; simp [stArgs], fun _ _ _ => rfl, fun _ _ _ => rfl⟩, rfl, rfl, rfl, rfl, rfl, rfl⟩)
    (.cons (.setX _ _ _ _ _ (fun t => by funext k; simp) fun _ => rfl) (.cons (.setU _ _ _ fun t => by funext k; simp) .nil))

theorem st_follows (c : ℝ) : ∃ w : World ℝ ℝ Unit (Fin 1 → ℝ) (Fin 1 → ℝ) 1 1 1, World.run exSys (stOps c) World.empty = some w ∧
    w.Follows 0 (stArgs c) (fun _ _ => c) (fun _ _ => 0) fun _ _ => 0 := by
  obtain ⟨o, ho⟩ := new_def exSys (stArgs c) le_rfl le_rfl (fun qp s => by simp [exSys, bestSolver, vecSys]) 0 0
  obtain ⟨-, h2, h3, h4, -⟩ := new_ok exSys _ _ _ o ho
  refine ⟨⟨[{ (newX exSys : XCell ℝ ℝ (Fin 1 → ℝ) 1) with xdes := fun _ _ => c, dxdes := fun _ _ => 0 }], [{ (newU exSys : UCell ℝ (Fin 1 → ℝ)) with udes := fun _ _ => 0 }], [o]⟩, ?_, ?_⟩
  · simp [stOps, World.run, World.step, World.empty, ho, h3, h4]
  · exact ⟨o, _, _, rfl, h2, by rw [h3]; rfl, by rw [h4]; rfl, rfl, rfl, rfl⟩

theorem st_running (c : ℝ) (z : QVar (nColloc oneMesh) 1 1 → ℝ) : RunningAtDefault exSys oneMesh (stArgs c) z ↔ z (.x 0 0) = c := by
  unfold RunningAtDefault
  have e : ∀ i : Fin (nColloc oneMesh), expand exSys (stArgs c).cr none exSys.dfltX exSys.dfltU (OQP.dev z i) 0 = z (.x 0 0) - c := by
    intro i
    obtain rfl : i = ⟨0, by simp [oneN]⟩ := Subsingleton.elim (α := Fin 1) _ _
    rw [expand_sum exSys_isLie (stCr_ufn c)]
    simp [stArgs, OQP.dev, exSys, vecSys]
    rw [add_comm, sub_eq_add_neg]
    rfl
  constructor
  · intro h
    have := h ⟨0, by simp [oneN]⟩ 0
    rw [e] at this
    have : (0 : ℝ) ≤ z (.x 0 0) - c ∧ z (.x 0 0) - c ≤ 0 := by simpa [Within, lower, upper, stArgs] using this
    linarith [this.1, this.2]
  · intro h i k
    obtain rfl : k = 0 := Subsingleton.elim _ _
    rw [e, h]
    simp [Within, lower, upper, stArgs]

/-- **C118, violated.** The system `x' = u` with the constraint `x = 0` on the way to `x = 0`, and the same in the frame whose origin is
at -1, where the constraint is `x = 1`. A call at the desired state has a solution in the first frame, and none in the second. -/
theorem mpc_frame_wrong : List.Forall₂ (Moved (fun x : Fin 1 → ℝ => (fun _ => (1 : ℝ)) + x) (fun u : Fin 1 → ℝ => 0 + u) (fun t : ℝ => 0 + t)) (stOps 0) (stOps 1) ∧
    ∃ (w w' : World ℝ ℝ Unit (Fin 1 → ℝ) (Fin 1 → ℝ) 1 1 1) (qp qp' : QPD ℝ),
      World.run exSys (stOps 0) World.empty = some w ∧ w.program exSys 0 0 0 = some qp ∧
      World.run exSys (stOps 1) World.empty = some w' ∧ w'.program exSys 0 (0 + 0) ((fun _ => 1) + 0) = some qp' ∧
      (∃ v, Feasible (toPbm qp (numV (nColloc oneMesh) 1 1) (numC (nColloc oneMesh) 1 1 1)) v) ∧
      ¬∃ v, Feasible (toPbm qp' (numV (nColloc oneMesh) 1 1) (numC (nColloc oneMesh) 1 1 1)) v := by
  obtain ⟨w, hw, hF⟩ := st_follows 0
  obtain ⟨w', hw', hF'⟩ := st_follows 1
  have hm : ∀ c, meshOf (stArgs c) = oneMesh := fun c => exMeshOf false
  have hf : ∀ c, IsUFn exSys (stArgs c).f := fun c => exF_ufn false
  obtain ⟨qp, h1, -, h3⟩ := mpc_program exSys _ w hw 0 _ exSys_isLie (hf 0) (stCr_ufn 0) _ _ _ hF 0 0
  obtain ⟨qp', h1', -, h3'⟩ := mpc_program exSys _ w' hw' 0 _ exSys_isLie (hf 1) (stCr_ufn 1) _ _ _ hF' (0 + 0) ((fun _ => 1) + 0)
  rw [hm] at h3 h3'
  refine ⟨stMoved 1, w, w', qp, qp', hw, h1, hw', h1', ?_, ?_⟩
  · obtain ⟨v, hv⟩ := ex_primal (dev 0 0 0)
    refine ⟨v, (h3 _ v hv).1.mpr ⟨?_, ?_⟩⟩
    · exact (vec_horizon 1 1 (lowEnv ℝ) (fun t s : ℝ => t + s) 0 bestSolver oneMesh (stArgs 0) (hf 0) (fun _ _ => 0) (fun _ _ => 0) (fun _ _ => 0) 0 0 _).mpr
        ((vec_horizon 1 1 (lowEnv ℝ) (fun t s : ℝ => t + s) 0 bestSolver oneMesh (exArgs false) (exF_ufn false) (fun _ _ => 0) (fun _ _ => 0) (fun _ _ => 0) 0 0 _).mp
          ((one_horizon false 0 0 0 0 0 0).mpr ⟨by ring, rfl⟩))
    · exact (st_running 0 _).mpr (by simp [dev])
  · rintro ⟨v, hv⟩
    obtain ⟨a, b⟩ := (h3' (fun q => v ⟨q.pos, q.pos_lt⟩) v fun q hq => rfl).1.mp hv
    have b := (st_running 1 _).mp b
    have a := (vec_horizon 1 1 (lowEnv ℝ) (fun t s : ℝ => t + s) 0 bestSolver oneMesh (stArgs 1) (hf 1) (fun _ _ => 1) (fun _ _ => 0) (fun _ _ => 0) (0 + 0) ((fun _ => 1) + 0) _).mp a
    have a2 := a.2 0
    simp at a2
    simp [a2] at b

end Verif.MPC
