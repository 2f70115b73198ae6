import Verif.Proofs.OCPQPCost
import Verif.Props.OCPNLPSol
import Mathlib.Analysis.Calculus.FDeriv.Symmetric

/-! # The quadratic program of an optimal control problem (C32, C33, C34) -/

set_option linter.unusedSectionVars false

namespace Verif.OQP

open Verif.Mesh Verif.Sparse Verif.MeshFn Verif.NLP Verif.QP Verif.QPSpec

variable {N nx nu ncr nce : ℕ}

/-! ## C32 -/

theorem slope_sum {ι : Type*} [Fintype ι] (env : Mesh.Env ℝ) (r : List (Ival ℝ × ℝ)) (X : ι → ℕ → ℝ) (c : ι → ℝ) (p : ℕ) :
    ∑ v, MeshFn.slope env r (X v) p * c v = MeshFn.slope env r (fun j => ∑ v, X v j * c v) p := by
  induction r generalizing X p with
  | nil => simp [MeshFn.slope]
  | cons a r ih =>
    obtain ⟨v, b⟩ := a
    simp only [MeshFn.slope]
    by_cases h : p < v.K
    · simp only [dif_pos h, Finset.mul_sum, Finset.sum_mul]
      rw [Finset.sum_comm]
      simp only [mul_assoc]
    · simp only [dif_neg h]
      exact ih _ _

theorem slope_unit (env : Mesh.Env ℝ) (r : List (Ival ℝ × ℝ)) (z : QVar N nx nu → ℝ) (k : Fin nx) (p : ℕ) :
    ∑ v, MeshFn.slope env r (coordQ (unitQ v) k) p * z v = MeshFn.slope env r (coordQ z k) p := by
  rw [slope_sum]
  congr 1
  funext j
  unfold coordQ
  by_cases h : j < N + 1
  · simp [h, unitQ]
  · simp [h]

theorem lower_extSub (b : Ext ℝ) (a c : ℝ) : lower (extSub b a) c ↔ lower b (a + c) := by
  cases b <;> simp [lower, extSub, sub_le_iff_le_add, add_comm]

theorem upper_extSub (b : Ext ℝ) (a c : ℝ) : upper (extSub b a) c ↔ upper b (a + c) := by
  cases b <;> simp [upper, extSub, le_sub_iff_add_le, add_comm]

/-- A row of the constraints. -/
theorem row_sum (qp : QPD ℝ) {z : QVar N nx nu → ℝ} {x : Fin (numV N nx nu) → ℝ} (hx : IsPrimal z x) {M : ℕ} (c : Fin M) :
    ((toPbm qp (numV N nx nu) M).A.mulVec x) c = ∑ v : QVar N nx nu, qp.A.val c v.pos * z v := by
  unfold Matrix.mulVec dotProduct
  rw [sum_vars]
  refine Finset.sum_congr rfl fun v _ => ?_
  rw [hx v v.pos_lt]
  rfl

/-- The rows of the program at a vector. -/
theorem built_rows {env : Mesh.Env ℝ} {m : Mesh ℝ} {ocp : OCP ℝ nx nu 1 ncr nce} {ad : Option ((Fin nx → ℝ) → Sp ℝ)} {tf : ℝ}
    {lin : Lin ℝ nx nu} {qp : QPD ℝ} (h : Built env m ocp ad tf lin qp) (z : QVar (nColloc m) nx nu → ℝ) :
    (∀ (p : Fin (nColloc m)) (k : Fin nx), ∑ v : QVar (nColloc m) nx nu, qp.A.val (nx * p + k) v.pos * z v =
      tf * (fderiv ℝ (fun y => ocp.f.val y k) (linPt lin (tf * tauAt env m p)) (dev z p) +
        adTerm ad (ocp.f.val (linPt lin (tf * tauAt env m p)) + lin.dx (tf * tauAt env m p)) (fun l => z (.x p.castSucc l)) k) -
      MeshFn.slope env (spans 1 m) (coordQ z k) p) ∧
    (∀ (i : Fin (nColloc m)) (k : Fin ncr), ∑ v : QVar (nColloc m) nx nu, qp.A.val (nx * nColloc m + (ncr * i + k)) v.pos * z v =
      fderiv ℝ (fun y => ocp.cr.val y k) (linPt lin (tf * tauAt env m i)) (dev z i)) ∧
    ∀ k : Fin nce, ∑ v : QVar (nColloc m) nx nu, qp.A.val (nx * nColloc m + ncr * nColloc m + k) v.pos * z v =
      fderiv ℝ (fun y => ocp.ce.val y k) (linEnd lin tf) (devEnd z) := by
  refine ⟨?_, ?_, ?_⟩
  · intro p k
    simp only [h.dyn, sub_mul, add_mul, Finset.sum_sub_distrib, Finset.sum_add_distrib, mul_assoc, ← Finset.mul_sum, slope_unit, sum_pullN,
      fderiv_pd]
    congr 1
    rw [mul_add]
    congr 1
    rw [arg_sum_eq]
    unfold adTerm adRow
    cases ad with
    | none => simp
    | some a =>
      simp only [dev]
      simp only [zero_mul, Finset.sum_const_zero, zero_add, add_zero]
      ring
  · intro i k
    simp only [h.cr, sum_pullN, fderiv_pd]
  · intro k
    simp only [h.ce, sum_pullQ, fderiv_pd]

theorem built_feasible {env : Mesh.Env ℝ} {m : Mesh ℝ} {ocp : OCP ℝ nx nu 1 ncr nce} {ad : Option ((Fin nx → ℝ) → Sp ℝ)} {tf : ℝ}
    {lin : Lin ℝ nx nu} {qp : QPD ℝ} (h : Built env m ocp ad tf lin qp) (z : QVar (nColloc m) nx nu → ℝ)
    (x : Fin (numV (nColloc m) nx nu) → ℝ) (hx : IsPrimal z x) :
    Feasible (toPbm qp (numV (nColloc m) nx nu) (numC (nColloc m) nx ncr nce)) x ↔ LinFeasible env m ocp ad tf lin z := by
  obtain ⟨hdyn, hcr, hce⟩ := built_rows h z
  constructor
  · intro hf
    have hrow : ∀ c : QCon (nColloc m) nx ncr nce, lower (qp.l.val c.pos) (∑ v : QVar (nColloc m) nx nu, qp.A.val c.pos v.pos * z v) ∧
        upper (qp.u.val c.pos) (∑ v : QVar (nColloc m) nx nu, qp.A.val c.pos v.pos * z v) := by
      intro c
      have := hf ⟨c.pos, c.pos_lt⟩
      rw [row_sum qp hx] at this
      exact this
    refine ⟨fun i k => ?_, fun i k => ?_, fun k => ?_⟩
    · obtain ⟨h1, h2⟩ := hrow (.dyn i k)
      simp only [QCon.pos, hdyn, h.dynl, h.dynu, lower, upper] at h1 h2
      have := le_antisymm h1 h2
      unfold coordQ at this
      unfold taylor1
      linear_combination this
    · have h1 := hrow (.cr i k)
      simp only [QCon.pos, add_assoc, hcr, h.crl, h.cru, lower_extSub, upper_extSub] at h1
      exact h1
    · have h1 := hrow (.ce k)
      simp only [QCon.pos, hce, h.cel, h.ceu, lower_extSub, upper_extSub] at h1
      exact h1
  · intro hL c
    obtain ⟨c', hc'⟩ := QCon.pos_surj c.2
    rw [row_sum qp hx]
    change lower (qp.l.val c) _ ∧ upper (qp.u.val c) _
    rw [← hc']
    cases c' with
    | dyn i k =>
      have h1 : MeshFn.slope env (spans 1 m) (coordQ z k) i = _ := hL.dynamics i k
      unfold taylor1 at h1
      simp only [QCon.pos, hdyn, h.dynl, h.dynu, lower, upper, h1]
      constructor <;> apply le_of_eq <;> ring
    | cr i k =>
      have h1 := hL.running i k
      simp only [QCon.pos, add_assoc, hcr, h.crl, h.cru, lower_extSub, upper_extSub]
      exact h1
    | ce k =>
      have h1 := hL.endpoint k
      simp only [QCon.pos, hce, h.cel, h.ceu, lower_extSub, upper_extSub]
      exact h1

theorem ocpToQp_built (env : Mesh.Env ℝ) (m : Mesh ℝ) (hm : m ≠ []) (hK : ∀ v ∈ m, 1 ≤ v.K) (ocp : OCP ℝ nx nu 1 ncr nce) (ho : IsDrOCP ocp)
    (ad : Option ((Fin nx → ℝ) → Sp ℝ)) (hA : IsAd ad) (tf : ℝ) (lin : Lin ℝ nx nu) :
    ∃ qp, ocpToQp env m ocp ad tf lin = some qp ∧ Built env m ocp ad tf lin qp := by
  have hN := nColloc_pos hm hK
  obtain ⟨s, e, hs⟩ := allocate_spec env m ocp ho.cr.jac_rows ho.g.jac_rows (fun k c => (ocp.ce.jac (linEnd lin tf)).ent k c ≠ none) ⟨freshMV, freshMV⟩
    (Sized.fresh rfl) (Sized.fresh rfl)
  obtain ⟨s', e', -, hb⟩ := update_spec env m hm hN ocp ho ad hA tf lin _ (fun _ _ _ _ => Iff.rfl) s hs
  exact ⟨s'.1, by unfold ocpToQp; rw [e, Option.bind_some, e', Option.map_some], hb⟩

/-- **C32.** The conversion succeeds, the program has the sizes of the layout, and a vector satisfies its constraints if and only if
the deviation it holds satisfies the collocated linearised problem. -/
theorem ocp_qp_feasible (env : Mesh.Env ℝ) (m : Mesh ℝ) (hm : m ≠ []) (hK : ∀ v ∈ m, 1 ≤ v.K) (ocp : OCP ℝ nx nu 1 ncr nce) (ho : IsDrOCP ocp)
    (ad : Option ((Fin nx → ℝ) → Sp ℝ)) (hA : IsAd ad) (tf : ℝ) (lin : Lin ℝ nx nu) :
    ∃ qp, ocpToQp env m ocp ad tf lin = some qp ∧ HasSize qp (numV (nColloc m) nx nu) (numC (nColloc m) nx ncr nce) ∧
      ∀ (z : QVar (nColloc m) nx nu → ℝ) x, IsPrimal z x →
        (Feasible (toPbm qp (numV (nColloc m) nx nu) (numC (nColloc m) nx ncr nce)) x ↔ LinFeasible env m ocp ad tf lin z) := by
  obtain ⟨qp, e, hb⟩ := ocpToQp_built env m hm hK ocp ho ad hA tf lin
  exact ⟨qp, e, hb.size, fun z x hx => built_feasible hb z x hx⟩

/-- Every vector holds exactly one deviation, and every deviation is held by exactly one vector. -/
theorem qp_layout (N nx nu ncr nce : ℕ) :
    (∀ z : QVar N nx nu → ℝ, ∃! x, IsPrimal z x) ∧ (∀ x : Fin (numV N nx nu) → ℝ, ∃! z : QVar N nx nu → ℝ, IsPrimal z x) ∧
    (∀ r < numC N nx ncr nce, ∃! c : QCon N nx ncr nce, c.pos = r) := by
  refine ⟨fun z => ?_, fun x => ⟨fun v => x ⟨v.pos, v.pos_lt⟩, fun v h => rfl, fun z hz => funext fun v => (hz v v.pos_lt).symm⟩, fun r hr => ?_⟩
  · refine ⟨fun i => z (QVar.pos_surj i.2).choose, fun v h => ?_, fun y hy => funext fun i => ?_⟩
    · exact congrArg z (QVar.pos_inj (QVar.pos_surj (N := N) (nx := nx) (nu := nu) h).choose_spec)
    · have := (QVar.pos_surj i.2).choose_spec
      rw [← hy (QVar.pos_surj i.2).choose (by rw [this]; exact i.2)]
      congr 1
      exact Fin.ext this.symm
  · obtain ⟨c, hc⟩ := QCon.pos_surj hr
    exact ⟨c, hc, fun c' hc' => QCon.pos_inj (hc'.trans hc.symm)⟩

/-! ## C34 -/

theorem Built.same {env : Mesh.Env ℝ} {m : Mesh ℝ} {ocp : OCP ℝ nx nu 1 ncr nce} {ad : Option ((Fin nx → ℝ) → Sp ℝ)} {tf : ℝ}
    {lin : Lin ℝ nx nu} {a b : QPD ℝ} (ha : Built env m ocp ad tf lin a) (hb : Built env m ocp ad tf lin b) :
    SameQP a b (numV (nColloc m) nx nu) (numC (nColloc m) nx ncr nce) := by
  refine ⟨ha.size, hb.size, fun i hi j hj => ?_, fun i hi => ?_, fun i hi j hj => ?_, fun i hi => ?_, fun i hi => ?_⟩
  · obtain ⟨v, rfl⟩ := QVar.pos_surj hi
    obtain ⟨w, rfl⟩ := QVar.pos_surj hj
    rw [ha.P, hb.P]
  · obtain ⟨v, rfl⟩ := QVar.pos_surj hi
    rw [ha.q, hb.q]
  · obtain ⟨c, rfl⟩ := QCon.pos_surj hi
    obtain ⟨v, rfl⟩ := QVar.pos_surj hj
    cases c with
    | dyn p k => simp only [QCon.pos, ha.dyn, hb.dyn]
    | cr p k => simp only [QCon.pos, add_assoc, ha.cr, hb.cr]
    | ce k => simp only [QCon.pos, ha.ce, hb.ce]
  · obtain ⟨c, rfl⟩ := QCon.pos_surj hi
    cases c with
    | dyn p k => simp only [QCon.pos, ha.dynl, hb.dynl]
    | cr p k => simp only [QCon.pos, add_assoc, ha.crl, hb.crl]
    | ce k => simp only [QCon.pos, ha.cel, hb.cel]
  · obtain ⟨c, rfl⟩ := QCon.pos_surj hi
    cases c with
    | dyn p k => simp only [QCon.pos, ha.dynu, hb.dynu]
    | cr p k => simp only [QCon.pos, add_assoc, ha.cru, hb.cru]
    | ce k => simp only [QCon.pos, ha.ceu, hb.ceu]

theorem call_inv (env : Mesh.Env ℝ) (m : Mesh ℝ) (hm : m ≠ []) (hN : 1 ≤ nColloc m) (S : ℕ → ℕ → Prop) (c : Call nx nu ncr nce)
    (hc : c.args.Ok S) (s : QPD ℝ × Work ℝ) (hs : QInv (nColloc m) nx nu ncr nce S s) :
    ∃ s', c.run env m s = some s' ∧ QInv (nColloc m) nx nu ncr nce S s' := by
  cases c with
  | all a =>
    obtain ⟨s', e, h, -⟩ := update_spec env m hm hN a.ocp hc.dr a.ad hc.ad a.tf a.lin S hc.stored s hs
    exact ⟨s', e, h⟩
  | cost a =>
    obtain ⟨P, q, int, e1, hP, hq, hI, -, -⟩ := updateCost_spec env m hN a.ocp hc.dr.g a.tf a.lin s hs.P hs.q hs.int
    exact ⟨_, e1, hP, hq, ⟨hs.con.A, hs.con.l, hs.con.u⟩, hI, hs.cr, hs.ce⟩
  | dyn a =>
    obtain ⟨qp, e, p, q, c, -, -, -, ka, -, -⟩ := updateDyn_spec env m hm a.ocp hc.dr.f.jac_rows a.ad hc.ad a.tf a.lin s hs.con
    exact ⟨_, e, by rw [p]; exact hs.P, by rw [q]; exact hs.q, c, hs.int, hs.cr.of_ent rfl fun r hr _ c => ka r hr c,
      hs.ce.of_ent fun r hr c => ka r (by omega) c⟩
  | cr a =>
    obtain ⟨qp, cr, e, p, q, c, st, -, -, -, ka, -, -⟩ := updateCr_spec env m a.ocp hc.dr.cr.jac_rows a.tf a.lin s hs.con hs.cr
    exact ⟨_, e, by rw [p]; exact hs.P, by rw [q]; exact hs.q, c, hs.int, st, hs.ce.of_ent fun r hr c => ka r (Or.inr hr) c⟩
  | ce a =>
    obtain ⟨qp, e, p, q, c, st, -, -, -, ka, -, -⟩ := updateCe_spec m hN a.ocp hc.dr.ce.jac_rows S a.tf a.lin hc.stored s hs.con hs.ce
    exact ⟨_, e, by rw [p]; exact hs.P, by rw [q]; exact hs.q, c, hs.int, hs.cr.of_ent rfl fun r _ hr c => ka r hr c, st⟩

theorem runAll_inv (env : Mesh.Env ℝ) (m : Mesh ℝ) (hm : m ≠ []) (hN : 1 ≤ nColloc m) (S : ℕ → ℕ → Prop) (l : List (Call nx nu ncr nce))
    (hl : ∀ c ∈ l, c.args.Ok S) (s : QPD ℝ × Work ℝ) (hs : QInv (nColloc m) nx nu ncr nce S s) :
    ∃ s', runAll env m l s = some s' ∧ QInv (nColloc m) nx nu ncr nce S s' := by
  induction l generalizing s with
  | nil => exact ⟨s, rfl, hs⟩
  | cons c l ih =>
    obtain ⟨s1, e1, h1⟩ := call_inv env m hm hN S c (hl c (by simp)) s hs
    obtain ⟨s2, e2, h2⟩ := ih (fun c hc => hl c (List.mem_cons_of_mem _ hc)) s1 h1
    exact ⟨s2, by rw [runAll, e1, Option.bind_some, e2], h2⟩

/-- **C34.** Allocate a program, for any problem and with any work memory of fitting sizes, and update it in place any number of
times, wholly or in parts, with any problems, times and linearisations whose Jacobians of the end constraints store the same
entries. A further update succeeds and gives the same numbers as a conversion from scratch. -/
theorem qp_update_fresh (env : Mesh.Env ℝ) (m : Mesh ℝ) (hm : m ≠ []) (hK : ∀ v ∈ m, 1 ≤ v.K) (S : ℕ → ℕ → Prop)
    (ocp0 : OCP ℝ nx nu 1 ncr nce) (h0 : IsDrOCP ocp0) (work : Work ℝ)
    (hcr : Sized 1 (ncr * nColloc m) (numVars (nColloc m) nx nu) work.cr) (hint : Sized 2 1 (numVars (nColloc m) nx nu) work.int)
    (l : List (Call nx nu ncr nce)) (hl : ∀ c ∈ l, c.args.Ok S) (a : Args nx nu ncr nce) (ha : a.Ok S) :
    ∃ s0 s s' qp, allocate env m ocp0 work = some s0 ∧ runAll env m l s0 = some s ∧ update env m a.ocp a.ad a.tf a.lin s = some s' ∧
      ocpToQp env m a.ocp a.ad a.tf a.lin = some qp ∧ SameQP s'.1 qp (numV (nColloc m) nx nu) (numC (nColloc m) nx ncr nce) := by
  have hN := nColloc_pos hm hK
  obtain ⟨s0, e0, hs0⟩ := allocate_spec env m ocp0 h0.cr.jac_rows h0.g.jac_rows S work hcr hint
  obtain ⟨s, e, hs⟩ := runAll_inv env m hm hN S l hl s0 hs0
  obtain ⟨s', e', -, hb⟩ := update_spec env m hm hN a.ocp ha.dr a.ad ha.ad a.tf a.lin S ha.stored s hs
  obtain ⟨qp, e'', hb'⟩ := ocpToQp_built env m hm hK a.ocp ha.dr a.ad ha.ad a.tf a.lin
  exact ⟨s0, s, s', qp, e0, e, e', e'', hb.same hb'⟩

end Verif.OQP
