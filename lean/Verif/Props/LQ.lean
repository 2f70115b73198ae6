import Verif.Spec.LQ
import Verif.Props.OCPQPCost
import Verif.Props.Collocated

/-! # The quadratic program of a linear-quadratic problem is the problem (C101) -/

set_option linter.unusedSectionVars false

namespace Verif.OQP

open Verif.Mesh Verif.Sparse Verif.MeshFn Verif.NLP Verif.QP Verif.QPSpec
open Polynomial (derivative X C)

variable {N nx nu ncr nce : ℕ} {ι κ : Type*} [Fintype ι] [DecidableEq ι] [Fintype κ] [DecidableEq κ]

theorem line_hasDerivAt {f : (ι → ℝ) → ℝ} (hf : Differentiable ℝ f) (p d : ι → ℝ) (s : ℝ) :
    HasDerivAt (fun s : ℝ => f (p + s • d)) (fderiv ℝ f (p + s • d) d) s := by
  have h1 : HasDerivAt (fun s : ℝ => p + s • d) d s := by
    have := ((hasDerivAt_id s).smul_const d).const_add p
    simpa using this
  exact (hf (p + s • d)).hasFDerivAt.comp_hasDerivAt s h1

/-- An affine function is its first-order expansion. -/
theorem AffineIn.taylor {D : (ι → ℝ) → Prop} {f : (ι → ℝ) → ℝ} (h : AffineIn D f) (hf : Differentiable ℝ f) (p : ι → ℝ) {d : ι → ℝ} (hd : D d) :
    taylor1 f p d = f (p + d) := by
  have h1 := line_hasDerivAt hf p d 0
  rw [zero_smul, add_zero] at h1
  have h2 : HasDerivAt (fun s : ℝ => f p + s * (f (p + d) - f p)) (f (p + d) - f p) 0 := by
    have := ((hasDerivAt_id (0 : ℝ)).mul_const (f (p + d) - f p)).const_add (f p)
    simpa using this
  rw [funext (h p d hd)] at h1
  rw [taylor1, h1.unique h2]
  ring

/-- A quadratic polynomial on a line is its second-order expansion. -/
theorem quad_taylor {f : (ι → ℝ) → ℝ} (hf : ContDiff ℝ 2 f) (p d : ι → ℝ) {a b : ℝ} (h : ∀ s : ℝ, f (p + s • d) = f p + s * a + s ^ 2 * b) :
    fderiv ℝ f p d = a ∧ second f p d = 2 * b := by
  have h1 : ∀ s : ℝ, fderiv ℝ f (p + s • d) d = a + 2 * s * b := by
    intro s
    have k1 := line_hasDerivAt (contDiff_differentiable hf) p d s
    rw [funext h] at k1
    have k2 : HasDerivAt (fun s : ℝ => f p + s * a + s ^ 2 * b) (a + 2 * s * b) s := by
      have := (((hasDerivAt_id s).mul_const a).const_add (f p)).add (((hasDerivAt_id s).pow 2).mul_const b)
      refine (this.congr_deriv ?_)
      simp
    exact k1.unique k2
  have h2 := line_hasDerivAt (dir_differentiable hf d) p d 0
  rw [funext h1] at h2
  have h3 : HasDerivAt (fun s : ℝ => a + 2 * s * b) (2 * b) 0 := by
    have := (((hasDerivAt_id (0 : ℝ)).const_mul 2).mul_const b).const_add a
    simpa using this
  have h4 := h1 0
  rw [zero_smul, add_zero] at h4 h2
  refine ⟨by rw [h4]; ring, h2.unique h3⟩

theorem AffineIn.second {D : (ι → ℝ) → Prop} {f : (ι → ℝ) → ℝ} (h : AffineIn D f) (hf : ContDiff ℝ 2 f) (p : ι → ℝ) {d : ι → ℝ} (hd : D d) :
    second f p d = 0 := by
  have := (quad_taylor hf p d (a := f (p + d) - f p) (b := 0) fun s => by rw [h p d hd s]; ring).2
  simpa using this

theorem slope_add (env : Mesh.Env ℝ) (r : List (Ival ℝ × ℝ)) (X Y : ℕ → ℝ) (p : ℕ) :
    MeshFn.slope env r (fun j => X j + Y j) p = MeshFn.slope env r X p + MeshFn.slope env r Y p := by
  induction r generalizing X Y p with
  | nil => simp [MeshFn.slope]
  | cons a r ih =>
    obtain ⟨v, b⟩ := a
    simp only [MeshFn.slope]
    split_ifs with h
    · rw [← Finset.sum_add_distrib]
      exact Finset.sum_congr rfl fun k _ => by ring
    · exact ih _ _ _

theorem linPt_dev (lin : Lin ℝ nx nu) (t : ℝ) (z : QVar N nx nu → ℝ) (i : Fin N) :
    linPt lin t + dev z i = pt t (fun k => lin.x t k + z (.x i.castSucc k)) fun k => lin.u t k + z (.u i k) := by
  funext a
  cases a <;> simp [linPt, dev, pt]

variable {env : Mesh.Env ℝ} {m : Mesh ℝ} {ocp : OCP ℝ nx nu 1 ncr nce} {lin : Lin ℝ nx nu} {tf b : ℝ}

theorem nlpPoint_ends (h0 : tauAt env m 0 = 0) (h1 : tauAt env m (nColloc m) = 1) (z : QVar (nColloc m) nx nu → ℝ) :
    ends (nlpPoint env m ocp lin tf z) = trajEnd lin tf z (integralSpec env m ocp.g.val 0 (trajVars env m lin tf z)) := by
  funext a
  cases a with
  | tf => rfl
  | q k => rfl
  | x0 k => simp [ends, nlpPoint, trajEnd, h0]
  | xf k => simp [ends, nlpPoint, trajEnd, h1]

theorem nlpPoint_objective (h0 : tauAt env m 0 = 0) (h1 : tauAt env m (nColloc m) = 1) (z : QVar (nColloc m) nx nu → ℝ) :
    objective ocp (nlpPoint env m ocp lin tf z) = trajCost env m ocp lin tf z := by
  rw [objective, nlpPoint_ends h0 h1]; rfl

theorem nodePt_traj (z : QVar (nColloc m) nx nu → ℝ) (i : Fin (nColloc m)) : nodePt (tauAt env m i) i (trajVars env m lin tf z) =
    pt (tf * tauAt env m i) (fun k => lin.x (tf * tauAt env m i) k + z (.x i.castSucc k)) fun k => lin.u (tf * tauAt env m i) k + z (.u i k) := by
  funext a
  cases a <;> simp [nodePt, trajVars, pt]

/-- The constraint functions at the point are the linearised ones. -/
theorem lq_values (ho : IsDrOCP ocp) (hlq : IsLQ ocp b) (hl : OnMesh env m lin tf) (h0 : tauAt env m 0 = 0) (h1 : tauAt env m (nColloc m) = 1)
    (z : QVar (nColloc m) nx nu → ℝ) :
    (∀ (i : Fin (nColloc m)) k, taylor1 (fun p => ocp.f.val p k) (linPt lin (tf * tauAt env m i)) (dev z i) =
      ocp.f.val (pt (tf * tauAt env m i) (fun k => lin.x (tf * tauAt env m i) k + z (.x i.castSucc k)) fun k => lin.u (tf * tauAt env m i) k + z (.u i k)) k) ∧
    (∀ (i : Fin (nColloc m)) k, taylor1 (fun p => ocp.cr.val p k) (linPt lin (tf * tauAt env m i)) (dev z i) =
      ocp.cr.val (pt (tf * tauAt env m i) (fun k => lin.x (tf * tauAt env m i) k + z (.x i.castSucc k)) fun k => lin.u (tf * tauAt env m i) k + z (.u i k)) k) ∧
    (∀ k, taylor1 (fun e => ocp.ce.val e k) (linEnd lin tf) (devEnd z) = ocp.ce.val (ends (nlpPoint env m ocp lin tf z)) k) ∧
    ∀ (i : Fin (nColloc m)) k, MeshFn.slope env (spans 1 m) (fun l => if h : l < nColloc m + 1 then nlpPoint env m ocp lin tf z (.x ⟨l, h⟩ k) else 0) i =
      tf * lin.dx (tf * tauAt env m i) k + MeshFn.slope env (spans 1 m) (fun j => if h : j < nColloc m + 1 then z (.x ⟨j, h⟩ k) else 0) i := by
  have hdev : ∀ i, SameTime (dev z i) := fun i => rfl
  have hdevE : SameEnd (devEnd z) := ⟨rfl, rfl⟩
  have hf : ∀ (i : Fin (nColloc m)) k, taylor1 (fun p => ocp.f.val p k) (linPt lin (tf * tauAt env m i)) (dev z i) =
      ocp.f.val (pt (tf * tauAt env m i) (fun k => lin.x (tf * tauAt env m i) k + z (.x i.castSucc k)) fun k => lin.u (tf * tauAt env m i) k + z (.u i k)) k := by
    intro i k
    rw [(hlq.f k).taylor (contDiff_differentiable (ho.f.smooth k)) _ (hdev i), linPt_dev]
  have hcr : ∀ (i : Fin (nColloc m)) k, taylor1 (fun p => ocp.cr.val p k) (linPt lin (tf * tauAt env m i)) (dev z i) =
      ocp.cr.val (pt (tf * tauAt env m i) (fun k => lin.x (tf * tauAt env m i) k + z (.x i.castSucc k)) fun k => lin.u (tf * tauAt env m i) k + z (.u i k)) k := by
    intro i k
    rw [(hlq.cr k).taylor (contDiff_differentiable (ho.cr.smooth k)) _ (hdev i), linPt_dev]
  have hce : ∀ k, taylor1 (fun e => ocp.ce.val e k) (linEnd lin tf) (devEnd z) = ocp.ce.val (ends (nlpPoint env m ocp lin tf z)) k := by
    intro k
    rw [(hlq.ce k).taylor (contDiff_differentiable (ho.ce.smooth k)) _ hdevE, nlpPoint_ends h0 h1, trajEnd_eq, hlq.ce_q k]
    rfl
  have hsl : ∀ (i : Fin (nColloc m)) k, MeshFn.slope env (spans 1 m) (fun l => if h : l < nColloc m + 1 then nlpPoint env m ocp lin tf z (.x ⟨l, h⟩ k) else 0) i =
      tf * lin.dx (tf * tauAt env m i) k + MeshFn.slope env (spans 1 m) (fun j => if h : j < nColloc m + 1 then z (.x ⟨j, h⟩ k) else 0) i := by
    intro i k
    rw [← hl i k, ← slope_add]
    congr 1
    funext j
    by_cases hj : j < nColloc m + 1
    · simp [hj, nlpPoint]
    · simp [hj]
  exact ⟨hf, hcr, hce, hsl⟩

/-- The linearised problem is the problem. -/
theorem lq_feasible (ho : IsDrOCP ocp) (hlq : IsLQ ocp b) (htf : 0 ≤ tf) (hl : OnMesh env m lin tf) (h0 : tauAt env m 0 = 0) (h1 : tauAt env m (nColloc m) = 1)
    (z : QVar (nColloc m) nx nu → ℝ) : LinFeasible env m ocp none tf lin z ↔ NLP.Feasible ocp env m (nlpPoint env m ocp lin tf z) := by
  obtain ⟨hf, hcr, hce, hsl⟩ := lq_values ho hlq hl h0 h1 z
  constructor
  · intro h
    refine ⟨htf, fun i k => ?_, fun k => ?_, fun i k => ?_, fun k => ?_⟩
    · rw [hsl, h.dynamics i k, hf]
      simp only [adTerm, nlpPoint, Fin.val_castSucc]
      ring
    · rw [Subsingleton.elim k 0]
      simp only [nlpPoint, integralSpec, nodePt_traj, Fin.val_castSucc]
      simp only [trajVars, sub_zero]
    · have := h.running i k
      rwa [hcr] at this
    · have := h.endpoint k
      rwa [hce] at this
  · intro h
    refine ⟨fun i k => ?_, fun i k => ?_, fun k => ?_⟩
    · have := h.dynamics i k
      rw [hsl] at this
      rw [hf]
      simp only [adTerm, nlpPoint, Fin.val_castSucc] at this ⊢
      linarith
    · rw [hcr]
      exact h.running i k
    · rw [hce]
      exact h.endpoint k

/-- The cost of the trajectory is smooth. -/
theorem trajCost_smooth (ho : IsDrOCP ocp) (hb : LinearInIntegral (fun e => ocp.theta.val e 0) b) : ContDiff ℝ 2 (trajCost env m ocp lin tf) := by
  rw [trajCost_eq env m ocp lin tf b hb]
  exact ((ho.theta.smooth 0).comp (contDiff_const.add liftE.contDiff)).add
    (contDiff_const.mul (((intCost_smooth env m ocp ho.g).comp (contDiff_const.add liftV.contDiff)).sub contDiff_const))

theorem trajCost_split (hb : LinearInIntegral (fun e => ocp.theta.val e 0) b) (y : QVar (nColloc m) nx nu → ℝ) :
    trajCost env m ocp lin tf y = ocp.theta.val (linEnd lin tf + devEnd y) 0 + b * (integralSpec env m ocp.g.val 0 (trajVars env m lin tf y) - 1) := by
  rw [trajCost_eq env m ocp lin tf b hb, trajVars_eq]
  rfl

/-- The cost of the trajectory is quadratic. -/
theorem trajCost_quad (hlq : IsLQ ocp b) (z : QVar (nColloc m) nx nu → ℝ) :
    ∃ c d, ∀ s : ℝ, trajCost env m ocp lin tf (0 + s • z) = trajCost env m ocp lin tf 0 + s * c + s ^ 2 * d := by
  have hI : ∀ i : Fin (nColloc m), ∃ c d, ∀ s : ℝ, ocp.g.val (nodePt (tauAt env m i) i (trajVars env m lin tf (0 + s • z))) 0 =
      ocp.g.val (nodePt (tauAt env m i) i (trajVars env m lin tf 0)) 0 + s * c + s ^ 2 * d := by
    intro i
    obtain ⟨c, d, h⟩ := hlq.g (nodePt (tauAt env m i) i (trajVars env m lin tf 0)) (dev z i) rfl
    refine ⟨c, d, fun s => ?_⟩
    rw [← h s]
    congr 1
    funext a
    cases a <;> simp [nodePt, trajVars, dev]
  choose c d h using hI
  have hth : ∀ s : ℝ, ocp.theta.val (linEnd lin tf + s • devEnd z) 0 = _ := hlq.theta (linEnd lin tf) (devEnd z) ⟨rfl, rfl⟩
  refine ⟨ocp.theta.val (linEnd lin tf + devEnd z) 0 - ocp.theta.val (linEnd lin tf) 0 + b * (tf * ∑ i : Fin (nColloc m), wAt env m i * c i),
    b * (tf * ∑ i : Fin (nColloc m), wAt env m i * d i), fun s => ?_⟩
  have h1 := trajCost_split (env := env) (m := m) (lin := lin) (tf := tf) hlq.theta_q
  have e0 : devEnd (0 : QVar (nColloc m) nx nu → ℝ) = 0 := by funext a; cases a <;> rfl
  have e1 : devEnd (0 + s • z) = s • devEnd z := by funext a; cases a <;> simp [devEnd]
  rw [h1, h1, e0, e1, add_zero, hth s]
  simp only [integralSpec, h]
  have e2 : ∀ y, trajVars env m lin tf y Var.tf - trajVars env m lin tf y Var.t0 = tf := fun y => by simp [trajVars]
  rw [e2, e2]
  simp only [mul_add, Finset.sum_add_distrib]
  have e3 : ∑ i : Fin (nColloc m), wAt env m i * (s * c i) = s * ∑ i : Fin (nColloc m), wAt env m i * c i := by
    rw [Finset.mul_sum]; exact Finset.sum_congr rfl fun i _ => by ring
  have e4 : ∑ i : Fin (nColloc m), wAt env m i * (s ^ 2 * d i) = s ^ 2 * ∑ i : Fin (nColloc m), wAt env m i * d i := by
    rw [Finset.mul_sum]; exact Finset.sum_congr rfl fun i _ => by ring
  rw [e3, e4]
  ring

/-- Every feasible point with the final time of the program is a deviation from the linearisation. -/
theorem nlpPoint_surj (w : NVar (nColloc m) nx nu 1 → ℝ) (hw : NLP.Feasible ocp env m w) (ht : w .tf = tf) :
    ∃ z, w = nlpPoint env m ocp lin tf z := by
  refine ⟨fun v => match v with
    | .x i k => w (.x i k) - lin.x (tf * tauAt env m i) k
    | .u i k => w (.u i k) - lin.u (tf * tauAt env m i) k, ?_⟩
  funext v
  cases v with
  | tf => exact ht
  | x i k => simp [nlpPoint]
  | u i k => simp [nlpPoint]
  | q k =>
    rw [hw.integrals k, Subsingleton.elim k 0, ht]
    simp only [nlpPoint, integralSpec, nodePt_traj]
    simp [trajVars]

theorem nlpPoint_inj {z z' : QVar (nColloc m) nx nu → ℝ} (h : nlpPoint env m ocp lin tf z = nlpPoint env m ocp lin tf z') : z = z' := by
  funext v
  cases v with
  | x i k => simpa [nlpPoint] using congrFun h (.x i k)
  | u i k => simpa [nlpPoint] using congrFun h (.u i k)

/-- **C101.** Let the problem be linear-quadratic, and let the linearisation move as its interpolation on the mesh does, for instance not at
all. Then the quadratic program is the collocated problem with the final time fixed: the vectors `x` correspond one to one to the points with
that final time and with the integral by quadrature, feasible vectors to feasible points, and the objectives differ by a constant. -/
theorem lq_exact (env : Mesh.Env ℝ) {Kmin Kmax : ℕ} (hK : 1 ≤ Kmin) (m : Mesh ℝ) (hm : Valid Kmin Kmax m)
    (hL : ∀ K, Kmin ≤ K → K ≤ Kmax + 1 → IsLGR env K) (ocp : OCP ℝ nx nu 1 ncr nce) (ho : IsDrOCP ocp) (b : ℝ) (hlq : IsLQ ocp b)
    (tf : ℝ) (htf : 0 ≤ tf) (lin : Lin ℝ nx nu) (hl : OnMesh env m lin tf) :
    ∃ qp, ocpToQp env m ocp none tf lin = some qp ∧
      (∀ (z : QVar (nColloc m) nx nu → ℝ) x, IsPrimal z x →
        (Feasible (toPbm qp (numV (nColloc m) nx nu) (numC (nColloc m) nx ncr nce)) x ↔ NLP.Feasible ocp env m (nlpPoint env m ocp lin tf z)) ∧
        cost (toPbm qp (numV (nColloc m) nx nu) (numC (nColloc m) nx ncr nce)) x =
          objective ocp (nlpPoint env m ocp lin tf z) - objective ocp (nlpPoint env m ocp lin tf 0)) ∧
      ∀ w, NLP.Feasible ocp env m w → w .tf = tf → ∃! z, w = nlpPoint env m ocp lin tf z := by
  obtain ⟨h0, h1, -⟩ := Flatten.tauAt_bounds env hK m hm hL
  have hm' := hm.ne_nil
  have hK' : ∀ v ∈ m, 1 ≤ v.K := fun v hv => hK.trans (hm.degree v hv).1
  have hA : IsAd (nx := nx) none := by intro a h; cases h
  obtain ⟨qp, e, -, hF⟩ := ocp_qp_feasible env m hm' hK' ocp ho none hA tf lin
  obtain ⟨qp', e', hC⟩ := ocp_qp_cost_exact env m hm' hK' ocp ho none hA tf lin b hlq.theta_q fun z => hlq.theta.second (ho.theta.smooth 0) _ ⟨rfl, rfl⟩
  obtain rfl : qp = qp' := Option.some.inj (e.symm.trans e')
  refine ⟨qp, e, fun z x hx => ⟨(hF z x hx).trans (lq_feasible ho hlq htf hl h0 h1 z), ?_⟩, fun w hw ht => ?_⟩
  · rw [hC z x hx, nlpPoint_objective h0 h1, nlpPoint_objective h0 h1]
    obtain ⟨c, d, h⟩ := trajCost_quad (env := env) (m := m) (lin := lin) (tf := tf) hlq z
    obtain ⟨q1, q2⟩ := quad_taylor (trajCost_smooth (env := env) (m := m) (lin := lin) (tf := tf) ho hlq.theta_q) 0 z h
    have := h 1
    rw [one_smul, zero_add] at this
    rw [q1, q2, this]
    ring
  · obtain ⟨z, hz⟩ := nlpPoint_surj (lin := lin) w hw ht
    exact ⟨z, hz, fun z' hz' => nlpPoint_inj (hz'.symm.trans hz)⟩

/-- The minimisers correspond. -/
theorem lq_minimiser (env : Mesh.Env ℝ) {Kmin Kmax : ℕ} (hK : 1 ≤ Kmin) (m : Mesh ℝ) (hm : Valid Kmin Kmax m)
    (hL : ∀ K, Kmin ≤ K → K ≤ Kmax + 1 → IsLGR env K) (ocp : OCP ℝ nx nu 1 ncr nce) (ho : IsDrOCP ocp) (b : ℝ) (hlq : IsLQ ocp b)
    (tf : ℝ) (htf : 0 ≤ tf) (lin : Lin ℝ nx nu) (hl : OnMesh env m lin tf) :
    ∃ qp, ocpToQp env m ocp none tf lin = some qp ∧ ∀ (z : QVar (nColloc m) nx nu → ℝ) x, IsPrimal z x →
      ((Feasible (toPbm qp (numV (nColloc m) nx nu) (numC (nColloc m) nx ncr nce)) x ∧
        ∀ y, Feasible (toPbm qp (numV (nColloc m) nx nu) (numC (nColloc m) nx ncr nce)) y →
          cost (toPbm qp (numV (nColloc m) nx nu) (numC (nColloc m) nx ncr nce)) x ≤ cost (toPbm qp (numV (nColloc m) nx nu) (numC (nColloc m) nx ncr nce)) y) ↔
      (NLP.Feasible ocp env m (nlpPoint env m ocp lin tf z) ∧
        ∀ w, NLP.Feasible ocp env m w → w .tf = tf → objective ocp (nlpPoint env m ocp lin tf z) ≤ objective ocp w)) := by
  obtain ⟨qp, e, h, hs⟩ := lq_exact env hK m hm hL ocp ho b hlq tf htf lin hl
  refine ⟨qp, e, fun z x hx => ?_⟩
  obtain ⟨hf, hc⟩ := h z x hx
  constructor
  · rintro ⟨h1, h2⟩
    refine ⟨hf.1 h1, fun w hw ht => ?_⟩
    obtain ⟨z', rfl, -⟩ := hs w hw ht
    obtain ⟨y, hy, -⟩ := (qp_layout (nColloc m) nx nu ncr nce).1 z'
    obtain ⟨kf, kc⟩ := h z' y hy
    have := h2 y (kf.2 hw)
    rw [hc, kc] at this
    linarith
  · rintro ⟨h1, h2⟩
    refine ⟨hf.2 h1, fun y hy => ?_⟩
    obtain ⟨z', hz', -⟩ := (qp_layout (nColloc m) nx nu ncr nce).2.1 y
    obtain ⟨kf, kc⟩ := h z' y hz'
    have := h2 _ (kf.1 hy) rfl
    rw [hc, kc]
    linarith

/-- A linearisation that is a polynomial in time, of the degree of the mesh, moves as its interpolation does. -/
theorem onMesh_poly (env : Mesh.Env ℝ) (hB : IsLagrange env) {Kmin Kmax : ℕ} (hK : 1 ≤ Kmin) (m : Mesh ℝ) (hm : Valid Kmin Kmax m)
    (hL : ∀ K, Kmin ≤ K → K ≤ Kmax + 1 → IsLGR env K) (tf : ℝ) (Q : Fin nx → Polynomial ℝ) (hQ : ∀ k, (Q k).natDegree ≤ Kmin) (u : ℝ → Fin nu → ℝ) :
    OnMesh env m (⟨fun t k => (Q k).eval t, fun t k => (derivative (Q k)).eval t, u⟩ : Lin ℝ nx nu) tf := by
  intro i k
  have hi : (i : ℕ) < points m := lt_of_lt_of_eq i.2 (nColloc_eq m)
  obtain ⟨p, hp, -, -, h⟩ := slope_poly hB hm.increasing hm.below
    (fun v hv => ⟨hK.trans (hm.degree v hv).1, hL _ (hm.degree v hv).1 (hm.degree v hv).2⟩) (fun t => (Q k).eval (tf * t)) (fun _ => (Q k).comp (C tf * X))
    (fun p hp => by
      have h1 : (p.1 : Ival ℝ) ∈ m := mem_spans_fst hp
      refine (Polynomial.natDegree_comp_le).trans ?_
      have h2 : (C tf * X : Polynomial ℝ).natDegree ≤ 1 := (Polynomial.natDegree_C_mul_le _ _).trans Polynomial.natDegree_X_le
      exact (Nat.mul_le_mul_left _ h2).trans (by rw [mul_one]; exact (hQ k).trans (hm.degree _ h1).1))
    (fun p hp t a b => by simp)
    (fun j => if j < nColloc m + 1 then (Q k).eval (tf * tauAt env m j) else 0) (by
      intro j hj
      have hj' : j < nColloc m + 1 := by rw [nColloc_eq]; omega
      rw [if_pos hj', tauAt, allNodes_eq env m hm.ne_nil]) i hi
  simp only [← allNodes_eq env m hm.ne_nil] at h
  rw [h, Polynomial.derivative_comp]
  simp [tauAt]

end Verif.OQP
