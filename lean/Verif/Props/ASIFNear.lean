import Verif.Props.ASIF
import Verif.Spec.Vehicle

/-! # What the safety filter returns when its solver is accurate to a tolerance -/

set_option linter.unusedSectionVars false

namespace Verif.ASIF

open Verif.QPSpec
open Verif.QP (Ext Status)

variable {F X U : Type*} [Field F] [LinearOrder F] [IsStrictOrderedRing F] [Archimedean F] {nx nu : ℕ}

/-- A program that was built is the one of a schedule. -/
theorem toQP_built (env : Env X U F nx nu) (d : Dyn X U F nx nu) (b : Backup X U F nx) (h : Barrier X F nx) (p : Pbm X U F nu) (prm : Prm F) (fuel : ℕ) (qp : DQP F)
    (hq : toQP env d b h p prm fuel = some qp) : ∃ steps, Schedule prm.K (p.T / prm.K) (min prm.dt (p.T / prm.K)) steps ∧ qp = built env d b h p prm steps := by
  obtain ⟨steps, hS⟩ := toQP_schedule env d b h p prm fuel qp hq
  refine ⟨steps, hS, ?_⟩
  have hb := update_eq env d b h p prm (max fuel ((Finset.range (prm.K + 1)).sup (fun k => (steps k).length) + 1)) steps hS (fun k hk =>
    lt_max_of_lt_right (Nat.lt_succ_of_le (Finset.le_sup (f := fun k => (steps k).length) (Finset.mem_range.mpr (by omega))))) _
    (allocate_clean nu prm.K p.ulim.rows h.nh)
  have h2 := update_mono env d b h p prm fuel (max fuel ((Finset.range (prm.K + 1)).sup (fun k => (steps k).length) + 1)) (le_max_left _ _) _ _ hq
  rw [hb] at h2
  exact (Option.some.inj h2).symm

/-- The rows of the input constraints. -/
theorem built_input_row (env : Env X U F nx nu) (d : Dyn X U F nx nu) (b : Backup X U F nx) (h : Barrier X F nx) (p : Pbm X U F nu) (prm : Prm F) (steps : ℕ → List F)
    (v : Fin (nu + 1) → F) (i : Fin p.ulim.rows) : ∃ r : Fin (prm.K * h.nh + p.ulim.rows + 1),
      ((built env d b h p prm steps).pbm (nu + 1) (prm.K * h.nh + p.ulim.rows + 1)).A.mulVec v r = p.ulim.A.mulVec (corr v) i ∧
      (built env d b h p prm steps).l.val r = extSub (p.ulim.l i) (p.ulim.A.mulVec (env.uminus p.udes p.ulim.c) i) ∧
      (built env d b h p prm steps).u.val r = extSub (p.ulim.u i) (p.ulim.A.mulVec (env.uminus p.udes p.ulim.c) i) := by
  have c1 : ¬prm.K * h.nh + (i : ℕ) < prm.K * h.nh := by omega
  have c2 : prm.K * h.nh + (i : ℕ) < prm.K * h.nh + p.ulim.rows := by omega
  have c3 : prm.K * h.nh + (i : ℕ) - prm.K * h.nh = i := by omega
  refine ⟨⟨prm.K * h.nh + i, by omega⟩, ?_, ?_, ?_⟩
  · rw [row_val]
    simp only [built]
    simp only [c1, c2, c3, if_true, if_false, Fin.is_lt, lt_irrefl, extM_fin, zero_mul, add_zero]
    rfl
  · simp only [built, c1, c2, c3, if_true, if_false, extV_fin]
  · simp only [built, c1, c2, c3, if_true, if_false, extV_fin]

/-- What all calls leave in place. -/
def Kept (d : Dyn X U F nx nu) (prm : FPrm U F nu) (s : Filter X U F nx nu) : Prop :=
  s.d = d ∧ s.prm = prm ∧ Clean nu prm.asif.K prm.ulim.rows prm.nh s.qp

theorem kept_new (d : Dyn X U F nx nu) (prm : FPrm U F nu) : Kept d prm (Filter.new d prm) := ⟨rfl, rfl, allocate_clean _ _ _ _⟩

theorem kept_call {env : Env X U F nx nu} {solver : Solver F} {fuel : ℕ} {d : Dyn X U F nx nu} {prm : FPrm U F nu} {s : Filter X U F nx nu} (hs : Kept d prm s)
    (c : Call X U F nx) (r : Filter X U F nx nu × U × Status) (h : s.call env solver fuel c = some r) : Kept d prm r.1 :=
  run_inv env solver fuel d prm [c] s r.1 hs (by rw [Filter.run, h]; rfl)

theorem kept_program {env : Env X U F nx nu} (solver : Solver F) (fuel : ℕ) {d : Dyn X U F nx nu} {prm : FPrm U F nu} {s : Filter X U F nx nu} (hs : Kept d prm s)
    (c : Call X U F nx) (hn : c.h.nh = prm.nh) :
    s.call env solver fuel c = (toQP env d c.b c.h ⟨prm.T, c.g, c.udes, prm.W, prm.ulim⟩ prm.asif fuel).bind fun qp =>
      (solver qp s.warm).bind fun sol => if nu ≤ sol.primal.size then
        some (⟨d, qp, prm, if sol.code = .optimal then some sol else s.warm⟩, env.uplus c.udes fun i => sol.primal.val i, sol.code) else none := by
  obtain ⟨h1, h2, h3⟩ := hs
  rw [← hn] at h3
  obtain ⟨sd, sq, sp, sw⟩ := s
  dsimp only at h1 h2 h3
  subst h1 h2
  unfold Filter.call
  rw [if_pos hn.symm]
  dsimp only
  rw [(update_fresh env sd c.b c.h (sp.pbm c) sp.asif fuel sq h3).1]
  rfl

/-- An optimal call in a vector space of inputs returns an input that satisfies the input constraints up to the tolerance of the solver. -/
theorem near_call (env : Env X (Fin nu → F) F nx nu) (he : FlatInput env) (solver : Solver F) {ε : F} (hex : Near (nu + 1) ε solver) (fuel : ℕ) (d : Dyn X (Fin nu → F) F nx nu)
    (prm : FPrm (Fin nu → F) F nu) (s s' : Filter X (Fin nu → F) F nx nu) (hs : Kept d prm s) (c : Call X (Fin nu → F) F nx) (u : Fin nu → F)
    (hc : s.call env solver fuel c = some (s', u, .optimal)) : InBoundsBy ε env prm.ulim u := by
  have hn : c.h.nh = prm.nh := by
    by_contra hn
    unfold Filter.call at hc
    rw [if_neg (by rw [hs.2.1]; exact fun e => hn e.symm)] at hc
    cases hc
  rw [kept_program solver fuel hs c hn, Option.bind_eq_some_iff] at hc
  obtain ⟨qp, h1, h2⟩ := hc
  rw [Option.bind_eq_some_iff] at h2
  obtain ⟨sol, h3, h4⟩ := h2
  by_cases hps : nu ≤ sol.primal.size
  swap
  · rw [if_neg hps] at h4; cases h4
  rw [if_pos hps] at h4
  obtain ⟨-, h5, h6⟩ := by simpa using h4
  obtain ⟨steps, -, rfl⟩ := toQP_built _ _ _ _ _ _ _ _ h1
  intro i
  obtain ⟨r, e1, e2, e3⟩ := built_input_row env d c.b c.h ⟨prm.T, c.g, c.udes, prm.W, prm.ulim⟩ prm.asif steps (fun j => sol.primal.val j) i
  have g := hex _ _ _ rfl h3 h6 r
  have e1' : ((built env d c.b c.h ⟨prm.T, c.g, c.udes, prm.W, prm.ulim⟩ prm.asif steps).pbm
      (built env d c.b c.h ⟨prm.T, c.g, c.udes, prm.W, prm.ulim⟩ prm.asif steps).q.size
      (built env d c.b c.h ⟨prm.T, c.g, c.udes, prm.W, prm.ulim⟩ prm.asif steps).l.size).A.mulVec (fun j => sol.primal.val j) r =
      prm.ulim.A.mulVec (fun j => sol.primal.val j) i := e1
  rw [e1', e2, e3, lower_sub, upper_sub] at g
  have eu : prm.ulim.A.mulVec (env.uminus u prm.ulim.c) i = prm.ulim.A.mulVec (env.uminus c.udes prm.ulim.c) i + prm.ulim.A.mulVec (fun j => sol.primal.val j) i := by
    rw [← h5, he.plus, he.minus, he.minus, add_sub_right_comm, Matrix.mulVec_add]
    rfl
  rw [eu, add_assoc, add_sub_assoc]
  exact g

/-- An optimal call in a vector space of inputs, after any history, returns an input that satisfies the input constraints up to the tolerance of the solver. -/
theorem asif_near_call (env : Env X (Fin nu → F) F nx nu) (he : FlatInput env) (solver : Solver F) {ε : F} (hex : Near (nu + 1) ε solver) (fuel : ℕ) (d : Dyn X (Fin nu → F) F nx nu)
    (prm : FPrm (Fin nu → F) F nu) (cs : List (Call X (Fin nu → F) F nx)) (s s' : Filter X (Fin nu → F) F nx nu)
    (hrun : Filter.run env solver fuel cs (Filter.new d prm) = some s) (c : Call X (Fin nu → F) F nx) (u : Fin nu → F) (hc : s.call env solver fuel c = some (s', u, .optimal)) :
    InBoundsBy ε env prm.ulim u :=
  near_call env he solver hex fuel d prm s s' (run_inv env solver fuel d prm cs _ s (kept_new d prm) hrun) c u hc

/-- A solver that returns minimisers leaves nothing undone. -/
theorem Exact.near {s : Solver F} (h : Exact s) (n : ℕ) : Near n 0 s := by
  intro qp warm r _ hr hc i
  obtain ⟨h1, h2, -⟩ := h qp warm r hr hc
  have := h2 i
  rw [add_zero, sub_zero]
  exact this

end Verif.ASIF
