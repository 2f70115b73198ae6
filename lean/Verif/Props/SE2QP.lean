import Verif.Proofs.SE2QP
import Verif.Proofs.Collocation
import Verif.Props.OCPQPLieExamples
import Verif.Props.QPDuality
import Verif.Props.QPThreshold
import Verif.Props.MeshReal

/-! # The quadratic program of the problem on SE(2) (C128) -/

namespace Verif.SE2

open Verif.Mesh Verif.Sparse Verif.MeshFn Verif.NLP Verif.Lie Verif.Flatten Verif.OQP Verif.QP Verif.QPSpec Verif.DI

open scoped Matrix

variable {env : Mesh.Env ℝ} {m : Mesh ℝ} {qp : QPD ℝ}

/-! ### The program and the regulation problem -/

theorem Numbers.feasible (hn : Numbers env m qp) {z : QVar (nColloc m) 5 2 → ℝ} {x : Fin (numV (nColloc m) 5 2) → ℝ} (hx : IsPrimal z x) :
    QPSpec.Feasible (toPbm qp (numV (nColloc m) 5 2) (numC (nColloc m) 5 2 6)) x ↔ Regulates env m z := by
  constructor
  · intro hf
    have hrow : ∀ c : QCon (nColloc m) 5 2 6, lower (qp.l.val c.pos) (∑ v : QVar (nColloc m) 5 2, qp.A.val c.pos v.pos * z v) ∧
        upper (qp.u.val c.pos) (∑ v : QVar (nColloc m) 5 2, qp.A.val c.pos v.pos * z v) := by
      intro c
      have := hf ⟨c.pos, c.pos_lt⟩
      rw [row_sum qp hx] at this
      exact this
    refine ⟨fun i k => ?_, ?_, fun i k => ?_⟩
    · obtain ⟨h1, h2⟩ := hrow (.dyn i k)
      simp only [QCon.pos, hn.dyn, (hn.dynB i k).1, (hn.dynB i k).2, lower, upper] at h1 h2
      have := le_antisymm h1 h2
      exact (sub_eq_zero.1 this.symm).symm
    · funext k
      obtain ⟨h1, h2⟩ := hrow (.ce k.succ)
      simp only [QCon.pos, Fin.val_succ, add_comm (k : ℕ) 1, hn.ce, (hn.ceB k).1, (hn.ceB k).2, lower, upper] at h1 h2
      exact le_antisymm h2 h1
    · obtain ⟨h1, h2⟩ := hrow (.cr i k)
      simp only [QCon.pos, add_assoc, hn.cr, (hn.crB i k).1, (hn.crB i k).2, lower, upper] at h1 h2
      exact abs_le.2 ⟨h1, h2⟩
  · intro hR c
    obtain ⟨c', hc'⟩ := QCon.pos_surj c.2
    rw [row_sum qp hx]
    change lower (qp.l.val c) _ ∧ upper (qp.u.val c) _
    rw [← hc']
    cases c' with
    | dyn i k =>
      have h1 : slope env (spans 1 m) (coordQ z k) i = _ := hR.moves i k
      simp only [QCon.pos, hn.dyn, (hn.dynB i k).1, (hn.dynB i k).2, lower, upper, h1, sub_self, le_refl, and_self]
    | cr i k =>
      have h1 := abs_le.1 (hR.limits i k)
      simp only [QCon.pos, add_assoc, hn.cr, (hn.crB i k).1, (hn.crB i k).2, lower, upper]
      exact h1
    | ce k =>
      refine Fin.cases ?_ (fun k => ?_) k
      · have e : (QCon.ce (0 : Fin 6) : QCon (nColloc m) 5 2 6).pos = 5 * nColloc m + 2 * nColloc m + 0 := rfl
        rw [e, hn.timeB.1, hn.timeB.2]
        simp only [hn.time, zero_mul, Finset.sum_const_zero, lower, upper, le_refl, and_self]
      · have h1 : z (.x 0 k) = _ := congrFun hR.start k
        simp only [QCon.pos, Fin.val_succ, add_comm (k : ℕ) 1, hn.ce, (hn.ceB k).1, (hn.ceB k).2, lower, upper, h1, le_refl, and_self]

theorem atNode_sum (v : QVar (nColloc m) 5 2) (w : ℕ → ℝ) : ∑ i : Fin (nColloc m), w i * atNode v i =
    match v with | .x j _ => if (j : ℕ) < nColloc m then w j else 0 | .u j _ => w j := by
  cases v with
  | x j k =>
    induction j using Fin.lastCases with
    | last =>
      simp only [atNode, Fin.val_last, lt_irrefl, if_false]
      refine Finset.sum_eq_zero fun i _ => ?_
      rw [if_neg (Fin.castSucc_lt_last i).ne', mul_zero]
    | cast j =>
      simp [atNode, j.2]
  | u j k => simp [atNode]

theorem Numbers.diag (hn : Numbers env m qp) {v w : QVar (nColloc m) 5 2} (h : v ≠ w) : qp.P.val v.pos w.pos = 0 := by
  rw [hn.P, if_neg h]

theorem Numbers.pbm (hn : Numbers env m qp) : MPC.pbmOf qp (numV (nColloc m) 5 2) (numC (nColloc m) 5 2 6) = toPbm qp (numV (nColloc m) 5 2) (numC (nColloc m) 5 2 6) := by
  unfold MPC.pbmOf toPbm
  congr 1
  funext i j
  by_cases h : i ≤ j
  · rw [if_pos h]
  · rw [if_neg h]
    obtain ⟨v, hv⟩ := QVar.pos_surj i.2
    obtain ⟨w, hw⟩ := QVar.pos_surj j.2
    have hvw : v ≠ w := by
      rintro rfl
      exact h (le_of_eq (Fin.ext (hv.symm.trans hw)))
    rw [← hv, ← hw, hn.diag hvw, hn.diag hvw.symm]

theorem Numbers.cost (hn : Numbers env m qp) {z : QVar (nColloc m) 5 2 → ℝ} {x : Fin (numV (nColloc m) 5 2) → ℝ} (hx : IsPrimal z x) :
    QPSpec.cost (toPbm qp (numV (nColloc m) 5 2) (numC (nColloc m) 5 2 6)) x = effort env m z := by
  rw [← hn.pbm]
  have hq : (MPC.pbmOf qp (numV (nColloc m) 5 2) (numC (nColloc m) 5 2 6)).q = 0 := by
    funext j
    obtain ⟨v, hv⟩ := QVar.pos_surj j.2
    change qp.q.val j = 0
    rw [← hv, hn.q]
  unfold QPSpec.cost
  rw [hq, zero_dotProduct, add_zero]
  unfold Matrix.mulVec dotProduct
  rw [sum_vars]
  have e1 : ∀ v : QVar (nColloc m) 5 2, ∑ j, (MPC.pbmOf qp (numV (nColloc m) 5 2) (numC (nColloc m) 5 2 6)).P ⟨v.pos, v.pos_lt⟩ j * x j =
      5 * (∑ i : Fin (nColloc m), wAt env m i * atNode v i) * z v := by
    intro v
    rw [sum_vars, Finset.sum_eq_single v]
    · change qp.P.val v.pos v.pos * x _ = _
      rw [hn.P, if_pos rfl, hx v v.pos_lt]
    · intro w _ hw
      change qp.P.val v.pos w.pos * _ = 0
      rw [hn.diag hw.symm, zero_mul]
    · exact fun h => absurd (Finset.mem_univ _) h
  simp only [e1]
  simp only [fun v : QVar (nColloc m) 5 2 => hx v v.pos_lt]
  rw [QVar.sum_eq]
  unfold effort stateAt inputAt
  have e2 : ∀ (j : Fin (nColloc m)) (k : Fin 5), ∑ i : Fin (nColloc m), wAt env m i * atNode (.x j.castSucc k : QVar (nColloc m) 5 2) i = wAt env m j := by
    intro j k
    rw [atNode_sum]
    simp [j.2]
  have e3 : ∀ (k : Fin 5), ∑ i : Fin (nColloc m), wAt env m i * atNode (.x (Fin.last _) k : QVar (nColloc m) 5 2) i = 0 := by
    intro k
    rw [atNode_sum]
    simp
  have e4 : ∀ (j : Fin (nColloc m)) (k : Fin 2), ∑ i : Fin (nColloc m), wAt env m i * atNode (.u j k : QVar (nColloc m) 5 2) i = wAt env m j := by
    intro j k
    rw [atNode_sum]
  rw [Fin.sum_univ_castSucc]
  simp only [e2, e3, e4]
  simp only [mul_zero, zero_mul, Finset.sum_const_zero, add_zero]
  rw [add_div, Finset.sum_div, Finset.sum_div, ← Finset.sum_add_distrib, Finset.mul_sum]
  refine Finset.sum_congr rfl fun i _ => ?_
  simp only [Fin.sum_univ_five, Fin.sum_univ_two]
  ring

/-! ### Exactly one best deviation -/

/-- The error moves linearly. -/
noncomputable def errMat : Matrix (Fin 5) (Fin 5) ℝ := !![0, 1 / 2, 0, 1, 0; -(1 / 2), 0, 1, 0, 0; 0, 0, 0, 0, 1; 0, 0, 0, 0, 0; 0, 0, 0, 0, 0]

theorem errRate_eq (e : Fin 5 → ℝ) (v : Fin 2 → ℝ) (k : Fin 5) : 5 * errRate e v k = (((5 : ℝ) • errMat) *ᵥ e) k + (![0, 0, 0, 5 * v 0, 5 * v 1] : Fin 5 → ℝ) k := by
  fin_cases k <;> simp [errRate, errMat, Matrix.mulVec, dotProduct, Fin.sum_univ_five] <;> ring

/-- Every disturbance gives exactly one motion of the error. -/
theorem error_solve (hB : IsLagrange env) {Kmin Kmax : ℕ} (hK : 1 ≤ Kmin) (hm : Valid Kmin Kmax m) (hL : ∀ K, Kmin ≤ K → K ≤ Kmax + 1 → IsLGR env K)
    (hfine : ∀ p ∈ spans 1 m, p.2 - p.1.tau0 < 1 / 5) (r : Fin (nColloc m) → Fin 5 → ℝ) (y0 : Fin 5 → ℝ) :
    ∃! Y : Fin (nColloc m + 1) → Fin 5 → ℝ, Y 0 = y0 ∧ ∀ (i : Fin (nColloc m)) k, slope env (spans 1 m) (fun j => if h : j < nColloc m + 1 then Y ⟨j, h⟩ k else 0) i =
      (((5 : ℝ) • errMat) *ᵥ Y i.castSucc) k + r i k :=
  colloc_solve hB (nColloc_eq m) hm.increasing hm.below (fun v hv => ⟨hK.trans (hm.degree v hv).1, hL _ (hm.degree v hv).1 (hm.degree v hv).2⟩)
    (fun _ : Fin 5 => (1 : ℝ)) (fun _ => one_pos) 5 (fun p hp => by have := hfine p hp; linarith) (fun _ => (5 : ℝ) • errMat) (fun j y => by
      simp [errMat, Matrix.mulVec, dotProduct, Fin.sum_univ_five]
      nlinarith [sq_nonneg (y 0 - y 3), sq_nonneg (y 1 - y 2), sq_nonneg (y 2 - y 4), sq_nonneg (y 0), sq_nonneg (y 1), sq_nonneg (y 3), sq_nonneg (y 4)])
    r y0

/-- Every input gives exactly one motion of the error. -/
theorem error_motion (hB : IsLagrange env) {Kmin Kmax : ℕ} (hK : 1 ≤ Kmin) (hm : Valid Kmin Kmax m) (hL : ∀ K, Kmin ≤ K → K ≤ Kmax + 1 → IsLGR env K)
    (hfine : ∀ p ∈ spans 1 m, p.2 - p.1.tau0 < 1 / 5) (v : Fin (nColloc m) → Fin 2 → ℝ) (y0 : Fin 5 → ℝ) :
    ∃! Y : Fin (nColloc m + 1) → Fin 5 → ℝ, Y 0 = y0 ∧ ∀ (i : Fin (nColloc m)) k, slope env (spans 1 m) (fun j => if h : j < nColloc m + 1 then Y ⟨j, h⟩ k else 0) i =
      5 * errRate (Y i.castSucc) (v i) k := by
  have := error_solve hB hK hm hL hfine (fun i => ![0, 0, 0, 5 * v i 0, 5 * v i 1]) y0
  simp only [errRate_eq]
  exact this

/-- The deviation with given states and inputs. -/
def ofParts {N : ℕ} (Y : Fin (N + 1) → Fin 5 → ℝ) (v : Fin N → Fin 2 → ℝ) : QVar N 5 2 → ℝ
  | .x i k => Y i k
  | .u i k => v i k

theorem regulates_zero (hB : IsLagrange env) {Kmin Kmax : ℕ} (hK : 1 ≤ Kmin) (hm : Valid Kmin Kmax m) (hL : ∀ K, Kmin ≤ K → K ≤ Kmax + 1 → IsLGR env K)
    (hfine : ∀ p ∈ spans 1 m, p.2 - p.1.tau0 < 1 / 5) : ∃ z, Regulates env m z ∧ ∀ i k, z (.u i k) = 0 := by
  obtain ⟨Y, ⟨h0, h1⟩, -⟩ := error_motion hB hK hm hL hfine 0 ![0, 0, 0, 0, -(1 / 2)]
  exact ⟨ofParts Y 0, ⟨fun i k => h1 i k, h0, fun i k => by simp [inputAt, ofParts]⟩, fun i k => rfl⟩

/-- A motion is determined by its inputs. -/
theorem regulates_ext (hB : IsLagrange env) {Kmin Kmax : ℕ} (hK : 1 ≤ Kmin) (hm : Valid Kmin Kmax m) (hL : ∀ K, Kmin ≤ K → K ≤ Kmax + 1 → IsLGR env K)
    (hfine : ∀ p ∈ spans 1 m, p.2 - p.1.tau0 < 1 / 5) {z z' : QVar (nColloc m) 5 2 → ℝ} (h : Regulates env m z) (h' : Regulates env m z')
    (hu : ∀ i k, z (.u i k) = z' (.u i k)) : z = z' := by
  have hi : inputAt z' = inputAt z := by
    funext i k
    exact (hu i k).symm
  have e := (error_motion hB hK hm hL hfine (inputAt z) ![0, 0, 0, 0, -(1 / 2)]).unique (y₁ := stateAt z) (y₂ := stateAt z') ⟨h.start, fun i k => h.moves i k⟩ ⟨h'.start, fun i k => by
    rw [← hi]
    exact h'.moves i k⟩
  funext v
  cases v with
  | x i k => exact congrFun (congrFun e i) k
  | u i k => exact hu i k

theorem effort_mid (z z' : QVar (nColloc m) 5 2 → ℝ) : effort env m (fun v => (z v + z' v) / 2) = (effort env m z + effort env m z') / 2 -
    effort env m (fun v => (z v - z' v) / 2) := by
  unfold effort stateAt inputAt
  rw [← mul_add, mul_div_assoc, ← mul_sub, ← Finset.sum_add_distrib, Finset.sum_div, ← Finset.sum_sub_distrib]
  congr 1
  refine Finset.sum_congr rfl fun i _ => ?_
  simp only [Fin.sum_univ_five, Fin.sum_univ_two]
  ring

theorem effort_nonneg (hw : ∀ i : Fin (nColloc m), 0 < wAt env m i) (z : QVar (nColloc m) 5 2 → ℝ) : 0 ≤ effort env m z :=
  mul_nonneg (by norm_num) (Finset.sum_nonneg fun i _ => mul_nonneg (hw i).le (by positivity))

theorem effort_inputs (hw : ∀ i : Fin (nColloc m), 0 < wAt env m i) {z : QVar (nColloc m) 5 2 → ℝ} (h : effort env m z ≤ 0) (i : Fin (nColloc m)) (k : Fin 2) : z (.u i k) = 0 := by
  have h1 : ∑ i : Fin (nColloc m), wAt env m i * (∑ k, stateAt z i.castSucc k ^ 2 + ∑ k, inputAt z i k ^ 2) ≤ 0 := by
    unfold effort at h
    linarith
  have h2 := (Finset.sum_eq_zero_iff_of_nonneg (fun i _ => mul_nonneg (hw i).le (by positivity))).1
    (le_antisymm h1 (Finset.sum_nonneg fun i _ => mul_nonneg (hw i).le (by positivity))) i (Finset.mem_univ i)
  have h3 := (mul_eq_zero.1 h2).resolve_left (hw i).ne'
  have h4 : ∑ k, inputAt z i k ^ 2 = 0 := by
    have a : 0 ≤ ∑ k, stateAt z i.castSucc k ^ 2 := Finset.sum_nonneg fun _ _ => sq_nonneg _
    have b : 0 ≤ ∑ k, inputAt z i k ^ 2 := Finset.sum_nonneg fun _ _ => sq_nonneg _
    linarith
  exact pow_eq_zero_iff two_ne_zero |>.1 ((Finset.sum_eq_zero_iff_of_nonneg fun _ _ => sq_nonneg _).1 h4 k (Finset.mem_univ k))

theorem regulates_mid {z z' : QVar (nColloc m) 5 2 → ℝ} (h : Regulates env m z) (h' : Regulates env m z') : Regulates env m (fun v => (z v + z' v) / 2) := by
  refine ⟨fun i k => ?_, ?_, fun i k => ?_⟩
  · have e : (fun j => if h : j < nColloc m + 1 then stateAt (fun v => (z v + z' v) / 2) ⟨j, h⟩ k else 0) =
        fun j => 1 / 2 * (if h : j < nColloc m + 1 then stateAt z ⟨j, h⟩ k else 0) + 1 / 2 * (if h : j < nColloc m + 1 then stateAt z' ⟨j, h⟩ k else 0) := by
      funext j
      split_ifs
      · simp only [stateAt]; ring
      · simp
    rw [e, slope_comb, h.moves, h'.moves]
    fin_cases k <;> simp [errRate, stateAt, inputAt] <;> ring
  · funext k
    have h1 := congrFun h.start k
    have h2 := congrFun h'.start k
    change (stateAt z 0 k + stateAt z' 0 k) / 2 = _
    rw [h1, h2]
    ring
  · have h1 := abs_le.1 (h.limits i k)
    have h2 := abs_le.1 (h'.limits i k)
    change |(inputAt z i k + inputAt z' i k) / 2| ≤ 1
    exact abs_le.2 ⟨by linarith, by linarith⟩

theorem Numbers.psd (hn : Numbers env m qp) (hw : ∀ i : Fin (nColloc m), 0 < wAt env m i) :
    Lin.PSD (toPbm qp (numV (nColloc m) 5 2) (numC (nColloc m) 5 2 6)).P := by
  refine ⟨?_, fun x => ?_⟩
  · ext i j
    change (if j ≤ i then qp.P.val j i else qp.P.val i j) = if i ≤ j then qp.P.val i j else qp.P.val j i
    rcases lt_trichotomy i j with h | h | h
    · rw [if_neg (not_le.2 h), if_pos h.le]
    · rw [h]
    · rw [if_pos h.le, if_neg (not_le.2 h)]
  · obtain ⟨z, hz, -⟩ := (qp_layout (nColloc m) 5 2 2 6).2.1 x
    have h1 := hn.cost hz
    have hq : (toPbm qp (numV (nColloc m) 5 2) (numC (nColloc m) 5 2 6)).q = 0 := by
      funext j
      obtain ⟨v, hv⟩ := QVar.pos_surj j.2
      change qp.q.val j = 0
      rw [← hv, hn.q]
    unfold QPSpec.cost at h1
    rw [hq, zero_dotProduct, add_zero] at h1
    have := effort_nonneg hw z
    linarith

theorem best_unique (hn : Numbers env m qp) (hB : IsLagrange env) {Kmin Kmax : ℕ} (hK : 1 ≤ Kmin) (hm : Valid Kmin Kmax m)
    (hL : ∀ K, Kmin ≤ K → K ≤ Kmax + 1 → IsLGR env K) (hfine : ∀ p ∈ spans 1 m, p.2 - p.1.tau0 < 1 / 5) : ∃! z, IsBest env m z := by
  have hw := fun i : Fin (nColloc m) => wAt_pos env hm hL i
  obtain ⟨hl1, hl2, -⟩ := qp_layout (nColloc m) 5 2 2 6
  obtain ⟨z0, hz0, -⟩ := regulates_zero hB hK hm hL hfine
  obtain ⟨x0, hx0, -⟩ := hl1 z0
  obtain ⟨x, hx, hmin⟩ := qp_solvable (hn.psd hw) ((hn.feasible hx0).2 hz0) (b := 0) (fun x _ => by
    obtain ⟨z, hz, -⟩ := hl2 x
    rw [hn.cost hz]
    exact effort_nonneg hw z)
  obtain ⟨z, hz, -⟩ := hl2 x
  have hb : IsBest env m z := by
    refine ⟨(hn.feasible hz).1 hx, fun z' hz' => ?_⟩
    obtain ⟨x', hx', -⟩ := hl1 z'
    rw [← hn.cost hz, ← hn.cost hx']
    exact hmin x' ((hn.feasible hx').2 hz')
  refine ⟨z, hb, fun z' hz' => ?_⟩
  refine regulates_ext hB hK hm hL hfine hz'.1 hb.1 fun i k => ?_
  have h1 := hb.2 _ (regulates_mid hz'.1 hb.1)
  have h2 := hz'.2 _ hb.1
  rw [effort_mid] at h1
  have h3 := effort_inputs hw (z := fun v => (z' v - z v) / 2) (by linarith) i k
  linarith

end Verif.SE2
