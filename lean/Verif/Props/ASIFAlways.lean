import Verif.Props.ASIFPass
import Verif.Props.ASIFNear
import Verif.Props.QPSoft
import Verif.Props.MPCAlways

/-! # The safety filter with the modelled solver: every call returns, and softened constraints are never called infeasible (C125) -/

set_option linter.unusedSectionVars false

namespace Verif.ASIF

open scoped Matrix
open Verif.QPSpec
open Verif.QP (Ext Status Softened)
open Verif.MPC (Solves Verdict)

variable {X U : Type*} {nx nu : ℕ} {qenv : (n : ℕ) → QP.Env ℝ n} {qprm : QP.Params ℝ}

/-- The cost of the program is diagonal. -/
theorem built_diag (env : Env X U ℝ nx nu) (d : Dyn X U ℝ nx nu) (b : Backup X U ℝ nx) (h : Barrier X ℝ nx) (p : Pbm X U ℝ nu) (prm : Prm ℝ) (steps : ℕ → List ℝ) (m : ℕ) :
    ((built env d b h p prm steps).pbm (nu + 1) m).P = Matrix.diagonal (Fin.snoc (α := fun _ => ℝ) p.W prm.relax) := by
  ext i j
  change (built env d b h p prm steps).P.val i j = _
  simp only [built]
  induction i using Fin.lastCases with
  | last =>
    induction j using Fin.lastCases with
    | last => simp
    | cast j =>
      rw [Matrix.diagonal_apply_ne _ (Fin.castSucc_lt_last j).ne']
      simp [j.2.ne]
  | cast i =>
    induction j using Fin.lastCases with
    | last =>
      rw [Matrix.diagonal_apply_ne _ (Fin.castSucc_lt_last i).ne]
      simp [i.2.ne]
    | cast j =>
      by_cases hij : i = j
      · subst hij
        simp [extM_fin]
      · rw [Matrix.diagonal_apply_ne _ (by simpa using hij)]
        simp [extM_fin, hij]

/-- The coefficients of the inputs in the barrier conditions are at most `a`. -/
def Steep (env : Env X U ℝ nx nu) (d : Dyn X U ℝ nx nu) (prm : FPrm U ℝ nu) (c : Call X U ℝ nx) (a : ℝ) : Prop :=
  ∀ steps, Schedule prm.asif.K (prm.T / prm.asif.K) (min prm.asif.dt (prm.T / prm.asif.K)) steps → ∀ k < prm.asif.K, ∀ (i : Fin c.h.nh) (j : Fin nu),
    |(c.h.dx (steps k).sum (march env d c.b (steps k) 0 c.g) * sens env d c.b (steps k) 0 c.g 1 * d.du c.g c.udes) i j| ≤ a

/-- Every row of the input constraints has an input of its own. -/
def Own (B : Bounds U ℝ nu) : Prop := ∀ i, ∃ j, B.A i j = 1 ∧ ∀ i', i' ≠ i → B.A i' j = 0

/-- The program is softened by the slack variable. -/
theorem built_softened (env : Env X U ℝ nx nu) (d : Dyn X U ℝ nx nu) (prm : FPrm U ℝ nu) (c : Call X U ℝ nx) {a : ℝ} (ha : 0 ≤ a) (hA : Steep env d prm c a)
    (hU : Own prm.ulim) (steps : ℕ → List ℝ) (hS : Schedule prm.asif.K (prm.T / prm.asif.K) (min prm.asif.dt (prm.T / prm.asif.K)) steps) :
    ∃ S : Finset (Fin (prm.asif.K * c.h.nh + prm.ulim.rows + 1)), S.card = prm.asif.K * c.h.nh + 1 ∧
      Softened ((built env d c.b c.h ⟨prm.T, c.g, c.udes, prm.W, prm.ulim⟩ prm.asif steps).pbm (nu + 1) (prm.asif.K * c.h.nh + prm.ulim.rows + 1)) S (Fin.last nu) a := by
  set n := prm.asif.K * c.h.nh with hn
  set m := prm.ulim.rows with hm
  refine ⟨Finset.univ.filter fun r => (r : ℕ) < n ∨ (r : ℕ) = n + m, ?_, ?_⟩
  · have : (Finset.univ.filter fun r : Fin (n + m + 1) => (r : ℕ) < n ∨ (r : ℕ) = n + m) =
        (Finset.univ.image fun r : Fin n => (⟨r, by omega⟩ : Fin (n + m + 1))) ∪ {⟨n + m, by omega⟩} := by
      ext r
      simp only [Finset.mem_filter, Finset.mem_univ, true_and, Finset.mem_union, Finset.mem_image, Finset.mem_singleton, Fin.ext_iff]
      constructor
      · rintro (h | h)
        · exact Or.inl ⟨⟨r, h⟩, rfl⟩
        · exact Or.inr h
      · rintro (⟨q, h⟩ | h)
        · left; rw [← h]; exact q.2
        · exact Or.inr h
    rw [this, Finset.card_union_of_disjoint, Finset.card_image_of_injective, Finset.card_univ, Fintype.card_fin, Finset.card_singleton]
    · intro x y h
      simpa [Fin.ext_iff] using h
    · rw [Finset.disjoint_singleton_right, Finset.mem_image]
      rintro ⟨q, -, h⟩
      have := congrArg Fin.val h
      have h2 := q.2
      simp only at this
      omega
  · have hent : ∀ (r : Fin (n + m + 1)) (j : Fin (nu + 1)), ((built env d c.b c.h ⟨prm.T, c.g, c.udes, prm.W, prm.ulim⟩ prm.asif steps).pbm (nu + 1) (n + m + 1)).A r j =
        if (r : ℕ) < n then (if (j : ℕ) < nu then barA env d c.b c.h ⟨prm.T, c.g, c.udes, prm.W, prm.ulim⟩ steps r j else if (j : ℕ) = nu then 1 else 0)
        else if (r : ℕ) < n + m then (if (j : ℕ) < nu then extM prm.ulim.A (r - n) j else 0)
        else if (r : ℕ) = n + m ∧ (j : ℕ) = nu then 1 else 0 := fun r j => rfl
    refine ⟨fun r => ?_, fun r hr => ?_, fun r hr j hj => ?_, fun r hr => ?_⟩
    · rw [hent]
      simp only [Finset.mem_filter, Finset.mem_univ, true_and, Fin.val_last, lt_irrefl, if_false, if_true, and_true]
      have := r.2
      by_cases h1 : (r : ℕ) < n
      · simp [h1]
      · by_cases h2 : (r : ℕ) < n + m
        · simp [h1, h2, h2.ne]
        · have h3 : (r : ℕ) = n + m := by omega
          simp [h1, h2, h3]
    · rw [Finset.mem_filter] at hr
      change (if (r : ℕ) < n then Ext.pos else if (r : ℕ) < n + m then extV _ (r - n) else if (r : ℕ) = n + m then Ext.pos else Ext.fin 0) = _
      rcases hr.2 with h | h
      · rw [if_pos h]
      · rw [if_neg (by omega), if_neg (by omega), if_pos h]
    · rw [Finset.mem_filter] at hr
      have hj' : (j : ℕ) < nu := by
        have h1 := j.2
        have h2 : (j : ℕ) ≠ nu := fun h => hj (Fin.ext h)
        omega
      rw [hent]
      rcases hr.2 with h | h
      · rw [if_pos h, if_pos hj']
        have hnh : 0 < c.h.nh := by
          rcases Nat.eq_zero_or_pos c.h.nh with h0 | h0
          · have : n = 0 := by rw [hn, h0, mul_zero]
            omega
          · exact h0
        have hk : (r : ℕ) / c.h.nh < prm.asif.K := Nat.div_lt_of_lt_mul (by rw [mul_comm]; exact h)
        have := hA steps hS ((r : ℕ) / c.h.nh) hk ⟨(r : ℕ) % c.h.nh, Nat.mod_lt _ hnh⟩ ⟨j, hj'⟩
        unfold barA extM
        dsimp only
        rw [dif_pos ⟨Nat.mod_lt _ hnh, hj'⟩]
        simp only [after, zero_add]
        exact this
      · rw [if_neg (by omega), if_neg (by omega), if_neg (by omega), abs_zero]
        exact ha
    · rw [Finset.mem_filter] at hr
      have h1 := r.2
      have h2 : ¬ ((r : ℕ) < n ∨ (r : ℕ) = n + m) := fun h => hr ⟨Finset.mem_univ _, h⟩
      push Not at h2
      have h3 : (r : ℕ) < n + m := by omega
      obtain ⟨j, e1, e2⟩ := hU ⟨(r : ℕ) - n, by omega⟩
      refine ⟨j.castSucc, (Fin.castSucc_lt_last j).ne, ?_, fun r' hr' hne => ?_⟩
      · rw [hent, if_neg (by omega), if_pos h3, if_pos (by simp)]
        rw [← e1]
        exact extM_fin prm.ulim.A ⟨(r : ℕ) - n, by omega⟩ j
      · rw [Finset.mem_filter] at hr'
        have h5 : ¬ ((r' : ℕ) < n ∨ (r' : ℕ) = n + m) := fun h => hr' ⟨Finset.mem_univ _, h⟩
        push Not at h5
        have h6 := r'.2
        have h7 : (r' : ℕ) < n + m := by omega
        rw [hent, if_neg (by omega), if_pos h7, if_pos (by simp)]
        have h8 := e2 ⟨(r' : ℕ) - n, by omega⟩ (by
          intro h
          have := congrArg Fin.val h
          simp only at this
          exact hne (Fin.ext (by omega)))
        rw [← h8]
        exact extM_fin prm.ulim.A ⟨(r' : ℕ) - n, by omega⟩ j

/-- The modelled solver without polishing and relative tolerance satisfies constraints up to its absolute tolerance. -/
theorem withQP_near (hsq : Verif.QP.SqrtPos (qenv (nu + 1))) (hr : 0 < qprm.rho) (hpol : qprm.polish = false) (her : qprm.epsRel = 0) (fuel : ℕ) :
    Near (nu + 1) qprm.epsAbs (withQP (qenv (nu + 1)) qprm fuel) := by
  rintro ⟨P, ⟨qn, q⟩, A, l, u⟩ warm r hsz h hc i
  dsimp only at hsz
  subst hsz
  unfold withQP at h
  dsimp only at h
  split at h
  · rename_i s hs
    obtain rfl := Option.some.inj h
    obtain ⟨⟨z, rp, rd, hz, -, ⟨rv, rw, rt, -, -, -, hrp⟩, hp, -⟩, -⟩ := QP.qp_optimal_certificate hsq hr hpol hs hc
    rw [her, zero_mul, add_zero] at hrp
    have h1 := hp i
    have h2 := hz i
    rw [hrp] at h1
    have e : (fun j : Fin (nu + 1) => if h : (j : ℕ) < nu + 1 then s.primal ⟨j, h⟩ else 0) = s.primal := by
      funext j
      rw [dif_pos j.2]
    dsimp only
    rw [e]
    have h3 := abs_le.1 h1
    refine ⟨?_, ?_⟩
    · have := h2.1
      dsimp only at this
      cases hl : l.val i with
      | fin a =>
        rw [hl] at this
        change a ≤ _
        have h4 : a ≤ z i := this
        have h5 := h3.1
        change _ ≤ (Matrix.mulVec (fun (i : Fin l.size) (j : Fin (nu + 1)) => A.val i j) s.primal) i - z i at h5
        change a ≤ (Matrix.mulVec (fun (i : Fin l.size) (j : Fin (nu + 1)) => A.val i j) s.primal) i + _
        linarith
      | neg => trivial
      | pos => rw [hl] at this; exact this
    · have := h2.2
      dsimp only at this
      cases hl : u.val i with
      | fin a =>
        rw [hl] at this
        have h4 : z i ≤ a := this
        have h5 := h3.2
        change (Matrix.mulVec (fun (i : Fin l.size) (j : Fin (nu + 1)) => A.val i j) s.primal) i - z i ≤ _ at h5
        change (Matrix.mulVec (fun (i : Fin l.size) (j : Fin (nu + 1)) => A.val i j) s.primal) i - _ ≤ a
        linarith
      | pos => trivial
      | neg => rw [hl] at this; exact this
  · cases h
  · cases h

/-- The tolerances under which softened constraints are never called infeasible. -/
structure Fine (qprm : QP.Params ℝ) (prm : FPrm U ℝ nu) (a : ℝ) : Prop where
  nonneg : 0 ≤ a
  weight : ∀ i, qprm.epsDualInf < prm.W i
  relax : qprm.epsDualInf < prm.asif.relax
  rows : qprm.epsPrimalInf * (2 * (prm.asif.K * prm.nh + 1 : ℕ) + 1) ≤ 1
  coeff : qprm.epsPrimalInf * (1 + a * (2 * (prm.asif.K * prm.nh + 1 : ℕ) + 1)) ≤ 1
  limit : qprm.maxIter = none ∧ qprm.maxTime = none

/-- One call returns, with the same result for all fuel that is enough; with fine tolerances and coefficients that are not too large it is Optimal. -/
theorem call_always (hS : Solves qenv qprm) (env : Env X U ℝ nx nu) (d : Dyn X U ℝ nx nu) (prm : FPrm U ℝ nu) (hW : ∀ i, 0 ≤ prm.W i) (hr : 0 ≤ prm.asif.relax)
    (ht : prm.asif.K = 0 ∨ prm.T ≤ 0 ∨ 0 < prm.asif.dt) (s : Filter X U ℝ nx nu) (hs : Kept d prm s) (c : Call X U ℝ nx) (hn : c.h.nh = prm.nh) :
    ∃ N r, (∀ fuel, N ≤ fuel → s.call env (withQP (qenv (nu + 1)) qprm fuel) fuel c = some r) ∧ Kept d prm r.1 ∧
      (qprm.maxIter = none → qprm.maxTime = none → Verdict r.2.2) ∧
      ∀ a, Fine qprm prm a → Steep env d prm c a → Own prm.ulim → (∃ i x y, prm.ulim.l i = .fin x ∧ prm.ulim.u i = .fin y) → (∃ u, InBounds env prm.ulim u) →
        r.2.2 = .optimal := by
  obtain ⟨N1, qp, h1⟩ := (asif_terminates_iff env d c.b c.h ⟨prm.T, c.g, c.udes, prm.W, prm.ulim⟩ prm.asif).2 ht
  obtain ⟨steps, hSch, hqp⟩ := toQP_built _ _ _ _ _ _ _ _ h1
  have hpsd := built_psd env d c.b c.h ⟨prm.T, c.g, c.udes, prm.W, prm.ulim⟩ prm.asif hW hr steps qp.l.size
  rw [← hqp] at hpsd
  have hsize : qp.l.size = prm.asif.K * c.h.nh + prm.ulim.rows + 1 := by rw [hqp]; rfl
  have hq0 : (qp.pbm (nu + 1) qp.l.size).q = 0 := by
    funext j
    change qp.q.val j = 0
    rw [hqp]
    rfl
  obtain ⟨N2, hN2⟩ := QP.qp_always_returns_partial (env := qenv (nu + 1)) (prm := qprm) (p := qp.pbm (nu + 1) qp.l.size)
    (ws := s.warm.map fun w => (fun j => w.primal.val j, fun i => w.dual.val i)) (hS.sqrt _) (hS.ldlt _) hpsd hS.alpha.1 hS.alpha.2 hS.sigma hS.rho hS.epsAbs hS.epsRel
    hS.epsPrimalInf hS.epsDualInf hS.check (fun _ => ⟨by omega, by omega⟩) (hS.finds _ _ _ hpsd) (fun d hd => by
      have := hd.2.1
      rw [hq0, zero_dotProduct] at this
      exact absurd this (lt_irrefl _))
  obtain ⟨sol, hsol⟩ := hN2 N2 le_rfl
  have key : ∀ fuel, max N1 N2 ≤ fuel → s.call env (withQP (qenv (nu + 1)) qprm fuel) fuel c = some (⟨d, qp, prm, if sol.code = .optimal then
      some ⟨sol.code, ⟨nu + 1, fun j => if h : j < nu + 1 then sol.primal ⟨j, h⟩ else 0⟩, ⟨qp.l.size, fun i => if h : i < qp.l.size then sol.dual ⟨i, h⟩ else 0⟩⟩ else s.warm⟩,
      env.uplus c.udes fun i => if h : (i : ℕ) < nu + 1 then sol.primal ⟨i, h⟩ else 0, sol.code) := by
    intro fuel hf
    have h2 : toQP env d c.b c.h ⟨prm.T, c.g, c.udes, prm.W, prm.ulim⟩ prm.asif fuel = some qp :=
      update_mono env d c.b c.h _ prm.asif N1 fuel (le_of_max_le_left hf) _ _ h1
    rw [kept_program _ _ hs c hn, h2, Option.bind_some, withQP_of (qenv (nu + 1)) qprm fuel qp s.warm sol (QP.solveQP_fuel (le_of_max_le_right hf) hsol), Option.bind_some,
      if_pos (Nat.le_succ nu)]
  refine ⟨max N1 N2, _, key, kept_call hs c _ (key _ le_rfl), ?_, ?_⟩
  · intro hmi hmt
    exact MPC.code_verdict (hS.sqrt _) hS.epsDualInf.le (hS.finds _ _ _ hpsd) hmi hmt hsol
  · intro a hF hA hU hrow hu
    have hv := MPC.code_verdict (hS.sqrt _) hS.epsDualInf.le (hS.finds _ _ _ hpsd) hF.limit.1 hF.limit.2 hsol
    have hne : sol.code ≠ .primalInfeasible ∧ sol.code ≠ .dualInfeasible := by
      obtain ⟨S, hcard, hsoft⟩ := built_softened env d prm c hF.nonneg hA hU steps hSch
      obtain ⟨u, hu⟩ := hu
      have hfeas := asif_feasible env d c.b c.h ⟨prm.T, c.g, c.udes, prm.W, prm.ulim⟩ prm.asif N1 qp h1 u hu
      obtain ⟨i, x, y, hx, hy⟩ := hrow
      obtain ⟨r, -, e2, e3⟩ := built_input_row env d c.b c.h ⟨prm.T, c.g, c.udes, prm.W, prm.ulim⟩ prm.asif steps 0 i
      subst hqp
      have hcard : S.card = prm.asif.K * prm.nh + 1 := hcard.trans (by rw [hn])
      have k1 : qprm.epsPrimalInf * (2 * S.card + 1) ≤ 1 := by rw [hcard]; exact hF.rows
      have k2 : qprm.epsPrimalInf * (1 + a * (2 * S.card + 1)) ≤ 1 := by rw [hcard]; exact hF.coeff
      refine QP.qp_soft_verdict (S := S) (c := Fin.last nu) (a := a) hsoft hF.nonneg (built_diag _ _ _ _ _ _ _ _) ?_
        ⟨r, x - prm.ulim.A.mulVec (env.uminus c.udes prm.ulim.c) i, y - prm.ulim.A.mulVec (env.uminus c.udes prm.ulim.c) i,
          e2.trans (congrArg (fun b => extSub b _) hx), e3.trans (congrArg (fun b => extSub b _) hy)⟩ hfeas hS.epsPrimalInf.le k1 k2 hsol
      intro j
      induction j using Fin.lastCases with
      | last => rw [Fin.snoc_last]; exact hF.relax
      | cast j => rw [Fin.snoc_castSucc]; exact hF.weight j
    rcases hv with h | h | h
    · exact h
    · exact absurd h hne.1
    · exact absurd h hne.2

/-- **C125, the filter.** With the modelled solver, exact arithmetic and any positive tolerances, every call of a filter returns, after any calls: with the same result for all
fuel of the model that is enough. Without limits the code is a verdict. When the coefficients of the inputs in the barrier conditions are at most `a`, the tolerances are fine
for that and the bounds are separate bounds of inputs with a common point, the verdict is Optimal. -/
theorem asif_always_returns (hS : Solves qenv qprm) (env : Env X U ℝ nx nu) (d : Dyn X U ℝ nx nu) (prm : FPrm U ℝ nu) (hW : ∀ i, 0 ≤ prm.W i) (hr : 0 ≤ prm.asif.relax)
    (ht : prm.asif.K = 0 ∨ prm.T ≤ 0 ∨ 0 < prm.asif.dt) (cs : List (Call X U ℝ nx)) (hcs : ∀ c ∈ cs, c.h.nh = prm.nh) (c : Call X U ℝ nx) (hn : c.h.nh = prm.nh) :
    ∃ N s r, (∀ fuel, N ≤ fuel → Filter.run env (withQP (qenv (nu + 1)) qprm fuel) fuel cs (Filter.new d prm) = some s ∧
        s.call env (withQP (qenv (nu + 1)) qprm fuel) fuel c = some r) ∧
      (qprm.maxIter = none → qprm.maxTime = none → Verdict r.2.2) ∧
      ∀ a, Fine qprm prm a → Steep env d prm c a → Own prm.ulim → (∃ i x y, prm.ulim.l i = .fin x ∧ prm.ulim.u i = .fin y) → (∃ u, InBounds env prm.ulim u) →
        r.2.2 = .optimal := by
  have key : ∀ (cs : List (Call X U ℝ nx)) (s0 : Filter X U ℝ nx nu), (∀ c ∈ cs, c.h.nh = prm.nh) → Kept d prm s0 →
      ∃ N s, (∀ fuel, N ≤ fuel → Filter.run env (withQP (qenv (nu + 1)) qprm fuel) fuel cs s0 = some s) ∧ Kept d prm s := by
    intro cs
    induction cs with
    | nil => exact fun s0 _ h => ⟨0, s0, fun _ _ => rfl, h⟩
    | cons c cs ih =>
      intro s0 hcs h
      obtain ⟨N1, r, h1, h2, -⟩ := call_always hS env d prm hW hr ht s0 h c (hcs c List.mem_cons_self)
      obtain ⟨N2, s, h3, h4⟩ := ih r.1 (fun c' h' => hcs c' (List.mem_cons_of_mem _ h')) h2
      refine ⟨max N1 N2, s, fun fuel hf => ?_, h4⟩
      rw [Filter.run, h1 fuel (le_of_max_le_left hf), Option.bind_some]
      exact h3 fuel (le_of_max_le_right hf)
  obtain ⟨N1, s, h1, h2⟩ := key cs _ hcs (kept_new d prm)
  obtain ⟨N2, r, h3, -, h4, h5⟩ := call_always hS env d prm hW hr ht s h2 c hn
  exact ⟨max N1 N2, s, r, fun fuel hf => ⟨h1 fuel (le_of_max_le_left hf), h3 fuel (le_of_max_le_right hf)⟩, h4, h5⟩

end Verif.ASIF
