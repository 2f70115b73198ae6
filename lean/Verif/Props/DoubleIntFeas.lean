import Verif.Props.DoubleInt
import Verif.Props.MeshReal
import Verif.Props.QPAlways
import Mathlib.Topology.MetricSpace.ProperSpace.Lemmas

/-! # The program of the double integrator example can be solved (C103) -/

namespace Verif.DI

open Verif.Mesh Verif.Sparse Verif.MeshFn Verif.NLP Verif.OQP Verif.QP Verif.QPSpec Polynomial

/-! ### A feasible motion: brake with full force for 1.5 s, coast back at -0.5, and stop in two steps -/

noncomputable def ramp (c t : ℝ) : ℝ := max 0 (t - c)
noncomputable def jump (c t : ℝ) : ℝ := if c ≤ t then 1 else 0

noncomputable def pos (t : ℝ) : ℝ := 1 + t - t ^ 2 / 2 + ramp (3 / 2) t ^ 2 / 2 + ramp 3 t ^ 2 / 10 - ramp (7 / 2) t ^ 2 / 10 + 2 / 5 * ramp 4 t ^ 2 - 2 / 5 * ramp (9 / 2) t ^ 2
noncomputable def vel (t : ℝ) : ℝ := 1 - t + ramp (3 / 2) t + ramp 3 t / 5 - ramp (7 / 2) t / 5 + 4 / 5 * ramp 4 t - 4 / 5 * ramp (9 / 2) t
noncomputable def acc (t : ℝ) : ℝ := -1 + jump (3 / 2) t + jump 3 t / 5 - jump (7 / 2) t / 5 + 4 / 5 * jump 4 t - 4 / 5 * jump (9 / 2) t

theorem pos_ends : pos 0 = 1 ∧ vel 0 = 1 ∧ pos 5 = 1 / 10 ∧ vel 5 = 0 := by
  have h0 : ∀ c : ℝ, 0 ≤ c → ramp c 0 = 0 := fun c hc => max_eq_left (by linarith)
  have h5 : ∀ c : ℝ, c ≤ 5 → ramp c 5 = 5 - c := fun c hc => max_eq_right (by linarith)
  unfold pos vel
  rw [h0 _ (by norm_num), h0 _ (by norm_num), h0 _ (by norm_num), h0 _ (by norm_num), h0 _ (by norm_num), h5 _ (by norm_num), h5 _ (by norm_num),
    h5 _ (by norm_num), h5 _ (by norm_num), h5 _ (by norm_num)]
  norm_num

theorem bounds {t : ℝ} (h0 : 0 ≤ t) (h5 : t ≤ 5) : -(1 / 2) ≤ vel t ∧ vel t ≤ 3 / 2 ∧ -1 ≤ acc t ∧ acc t ≤ 1 := by
  have hr : ∀ c, (t < c ∧ ramp c t = 0 ∧ jump c t = 0) ∨ (c ≤ t ∧ ramp c t = t - c ∧ jump c t = 1) := by
    intro c
    rcases lt_or_ge t c with h | h
    · exact Or.inl ⟨h, max_eq_left (by linarith), if_neg (not_le.2 h)⟩
    · exact Or.inr ⟨h, max_eq_right (by linarith), if_pos h⟩
  unfold vel acc
  rcases hr (3 / 2) with ⟨a1, a2, a3⟩ | ⟨a1, a2, a3⟩ <;> rcases hr 3 with ⟨b1, b2, b3⟩ | ⟨b1, b2, b3⟩ <;>
    rcases hr (7 / 2) with ⟨c1, c2, c3⟩ | ⟨c1, c2, c3⟩ <;> rcases hr 4 with ⟨d1, d2, d3⟩ | ⟨d1, d2, d3⟩ <;>
    rcases hr (9 / 2) with ⟨e1, e2, e3⟩ | ⟨e1, e2, e3⟩ <;> rw [a2, a3, b2, b3, c2, c3, d2, d3, e2, e3] <;>
    refine ⟨?_, ?_, ?_, ?_⟩ <;> linarith

/-- No switch in the interior of the interval. -/
def Whole (p : Ival ℝ × ℝ) : Prop := ∀ c ∈ ([3 / 2, 3, 7 / 2, 4, 9 / 2] : List ℝ), c ≤ 5 * p.1.tau0 ∨ 5 * p.2 ≤ c

noncomputable def posPoly (a : ℝ) : ℝ[X] :=
  let R := fun c : ℝ => C (jump c (5 * a)) * (C 5 * X - C c) ^ 2
  C 1 + C 5 * X - C (25 / 2) * X ^ 2 + C (1 / 2) * R (3 / 2) + C (1 / 10) * R 3 - C (1 / 10) * R (7 / 2) + C (2 / 5) * R 4 - C (2 / 5) * R (9 / 2)

noncomputable def velPoly (a : ℝ) : ℝ[X] :=
  let R := fun c : ℝ => C (jump c (5 * a)) * (C 5 * X - C c)
  C 1 - C 5 * X + R (3 / 2) + C (1 / 5) * R 3 - C (1 / 5) * R (7 / 2) + C (4 / 5) * R 4 - C (4 / 5) * R (9 / 2)

theorem posPoly_deg (a : ℝ) : (posPoly a).natDegree ≤ 2 := by
  unfold posPoly
  dsimp only
  compute_degree

theorem velPoly_deg (a : ℝ) : (velPoly a).natDegree ≤ 2 := by
  have : (velPoly a).natDegree ≤ 1 := by
    unfold velPoly
    dsimp only
    compute_degree
  omega

theorem ramp_on {p : Ival ℝ × ℝ} {c x : ℝ} (hc : c ≤ 5 * p.1.tau0 ∨ 5 * p.2 ≤ c) (hp : p.1.tau0 < p.2) (h1 : p.1.tau0 ≤ x) (h2 : x ≤ p.2) :
    ramp c (5 * x) = jump c (5 * p.1.tau0) * (5 * x - c) := by
  unfold ramp jump
  rcases hc with h | h
  · rw [if_pos h, max_eq_right (by linarith), one_mul]
  · rw [if_neg (by linarith), max_eq_left (by linarith), zero_mul]

theorem jump_on {p : Ival ℝ × ℝ} {c x : ℝ} (hc : c ≤ 5 * p.1.tau0 ∨ 5 * p.2 ≤ c) (h1 : p.1.tau0 ≤ x) (h2 : x < p.2) :
    jump c (5 * x) = jump c (5 * p.1.tau0) := by
  unfold jump
  rcases hc with h | h
  · rw [if_pos h, if_pos (by linarith)]
  · rw [if_neg (by linarith), if_neg (by linarith)]

theorem jump_sq (c t : ℝ) : jump c t ^ 2 = jump c t := by
  unfold jump; split_ifs <;> norm_num

theorem pos_on {p : Ival ℝ × ℝ} (hw : Whole p) (hp : p.1.tau0 < p.2) {x : ℝ} (h1 : p.1.tau0 ≤ x) (h2 : x ≤ p.2) :
    pos (5 * x) = (posPoly p.1.tau0).eval x ∧ vel (5 * x) = (velPoly p.1.tau0).eval x := by
  unfold pos vel
  rw [ramp_on (hw (3 / 2) (by simp)) hp h1 h2, ramp_on (hw 3 (by simp)) hp h1 h2, ramp_on (hw (7 / 2) (by simp)) hp h1 h2, ramp_on (hw 4 (by simp)) hp h1 h2,
    ramp_on (hw (9 / 2) (by simp)) hp h1 h2]
  simp only [posPoly, velPoly, eval_add, eval_sub, eval_mul, eval_pow, eval_C, eval_X]
  constructor
  · linear_combination (5 * x - 3 / 2) ^ 2 / 2 * jump_sq (3 / 2) (5 * p.1.tau0) + (5 * x - 3) ^ 2 / 10 * jump_sq 3 (5 * p.1.tau0) -
      (5 * x - 7 / 2) ^ 2 / 10 * jump_sq (7 / 2) (5 * p.1.tau0) + 2 / 5 * (5 * x - 4) ^ 2 * jump_sq 4 (5 * p.1.tau0) -
      2 / 5 * (5 * x - 9 / 2) ^ 2 * jump_sq (9 / 2) (5 * p.1.tau0)
  · ring

theorem deriv_on {p : Ival ℝ × ℝ} (hw : Whole p) (hp : p.1.tau0 < p.2) {x : ℝ} (h1 : p.1.tau0 ≤ x) (h2 : x < p.2) :
    (derivative (posPoly p.1.tau0)).eval x = 5 * vel (5 * x) ∧ (derivative (velPoly p.1.tau0)).eval x = 5 * acc (5 * x) := by
  rw [(pos_on hw hp h1 h2.le).2]
  unfold acc
  rw [jump_on (hw (3 / 2) (by simp)) h1 h2, jump_on (hw 3 (by simp)) h1 h2, jump_on (hw (7 / 2) (by simp)) h1 h2, jump_on (hw 4 (by simp)) h1 h2,
    jump_on (hw (9 / 2) (by simp)) h1 h2]
  simp only [posPoly, velPoly, derivative_add, derivative_sub, derivative_mul, derivative_pow, derivative_C, derivative_X, eval_add, eval_sub, eval_mul,
    eval_pow, eval_C, eval_X, eval_zero, eval_one]
  constructor
  · simp; ring
  · simp; ring

/-- The motion at the nodes. -/
noncomputable def motion (env : Mesh.Env ℝ) (m : Mesh ℝ) : NVar (nColloc m) 2 1 1 → ℝ
  | .tf => 5
  | .q _ => 5 * ∑ i : Fin (nColloc m), wAt env m i *
      (ocpDi (F := ℝ)).g.val (pt (5 * tauAt env m i) ![pos (5 * tauAt env m i), vel (5 * tauAt env m i)] fun _ => acc (5 * tauAt env m i)) 0
  | .x i k => ![pos (5 * tauAt env m i), vel (5 * tauAt env m i)] k
  | .u i _ => acc (5 * tauAt env m i)

theorem motion_feasible (env : Mesh.Env ℝ) (hB : IsLagrange env) {Kmin Kmax : ℕ} (hK : 2 ≤ Kmin) (m : Mesh ℝ) (hm : Valid Kmin Kmax m)
    (hL : ∀ K, Kmin ≤ K → K ≤ Kmax + 1 → IsLGR env K) (hw : ∀ p ∈ spans 1 m, Whole p) : NLP.Feasible ocpDi env m (motion env m) := by
  obtain ⟨h0, h1, h01⟩ := Flatten.tauAt_bounds env (by omega) m hm hL
  obtain ⟨e1, e2, e3, e4⟩ := pos_ends
  have hsp := (spans_ordered hm.increasing hm.below).1
  have key : ∀ (s : ℝ → ℝ) (P : ℝ → ℝ[X]) (D : ℝ → ℝ), (∀ a, (P a).natDegree ≤ 2) →
      (∀ p, Whole p → p.1.tau0 < p.2 → ∀ x, p.1.tau0 ≤ x → x ≤ p.2 → s (5 * x) = (P p.1.tau0).eval x) →
      (∀ p, Whole p → p.1.tau0 < p.2 → ∀ x, p.1.tau0 ≤ x → x < p.2 → (derivative (P p.1.tau0)).eval x = 5 * D (5 * x)) →
      ∀ i : Fin (nColloc m), slope env (spans 1 m) (fun l => if l < nColloc m + 1 then s (5 * tauAt env m l) else 0) i = 5 * D (5 * tauAt env m i) := by
    intro s P D hP hs hD i
    have hi : (i : ℕ) < points m := lt_of_lt_of_eq i.2 (nColloc_eq m)
    obtain ⟨p, hp, k1, k2, h⟩ := slope_poly hB hm.increasing hm.below
      (fun v hv => ⟨(by have := (hm.degree v hv).1; omega), hL _ (hm.degree v hv).1 (hm.degree v hv).2⟩) (fun t => s (5 * t)) (fun p => P p.1.tau0)
      (fun p hp => (hP _).trans (hK.trans (hm.degree _ (mem_spans_fst hp)).1))
      (fun p hp x a b => hs p (hw p hp) (hsp p hp).1 x a b)
      (fun j => if j < nColloc m + 1 then s (5 * tauAt env m j) else 0) (by
        intro j hj
        have hj' : j < nColloc m + 1 := by rw [nColloc_eq]; omega
        simp only [if_pos hj', tauAt, allNodes_eq env m hm.ne_nil]) i hi
    rw [h, hD p (hw p hp) (hsp p hp).1 _ k1 k2, tauAt, allNodes_eq env m hm.ne_nil]
  refine ⟨by simp [motion], fun i k => ?_, fun k => ?_, fun i k => ?_, fun k => ?_⟩
  · fin_cases k
    · have := key pos posPoly vel posPoly_deg (fun p hw hp x a b => (pos_on hw hp a b).1) (fun p hw hp x a b => (deriv_on hw hp a b).1) i
      simpa [motion, ocpDi, dyn, pt] using this
    · have := key vel velPoly acc velPoly_deg (fun p hw hp x a b => (pos_on hw hp a b).2) (fun p hw hp x a b => (deriv_on hw hp a b).2) i
      simpa [motion, ocpDi, dyn, pt] using this
  · fin_cases k
    simp [motion]
  · obtain ⟨a, b⟩ := h01 i
    obtain ⟨b1, b2, b3, b4⟩ := bounds (t := 5 * tauAt env m i) (by linarith) (by linarith)
    fin_cases k
    · refine ⟨?_, ?_⟩
      · simpa [motion, ocpDi, cr, pt, lower] using b1
      · simpa [motion, ocpDi, cr, pt, upper] using b2
    · simpa [motion, ocpDi, cr, pt, lower, upper] using ⟨b3, b4⟩
  · fin_cases k <;> simp [motion, ocpDi, ce, NLP.ends, lower, upper, h0, h1, e1, e2, e3, e4]

/-- The mesh of the example (ocp_doubleintegrator_qp.cpp:26-27): `Mesh<4, 4>`, `refine_ph(0, 40)`. -/
theorem exampleMesh : refinePh 4 4 [⟨4, 0⟩] 0 40 = some ((List.range 10).map fun k : ℕ => (⟨4, (k : ℝ) / 10⟩ : Ival ℝ)) := by
  simp [refinePh, tauf, splitLoop, List.range, List.range.loop, List.insertIdx]
  norm_num

/-! ### The minimiser -/

theorem di_objective {env : Mesh.Env ℝ} {m : Mesh ℝ} (z : QVar (nColloc m) 2 1 → ℝ) : objective ocpDi (nlpPoint env m ocpDi lin0 5 z) =
    5 * ∑ i : Fin (nColloc m), wAt env m i * (z (.x i.castSucc 0) ^ 2 + z (.x i.castSucc 1) ^ 2 + z (.u i 0) ^ 2) := by
  simp [objective, ocpDi, theta, NLP.ends, nlpPoint, integralSpec, integral, trajVars, nodePt, lin0]
  refine Finset.sum_congr rfl fun i _ => ?_
  ring

theorem di_last {env : Mesh.Env ℝ} {m : Mesh ℝ} {z : QVar (nColloc m) 2 1 → ℝ} (h : NLP.Feasible ocpDi env m (nlpPoint env m ocpDi lin0 5 z)) :
    z (.x (Fin.last _) 0) = 1 / 10 ∧ z (.x (Fin.last _) 1) = 0 := by
  have h3 := h.endpoint 3
  have h4 := h.endpoint 4
  simp [ocpDi, ce, lower, upper, NLP.ends, nlpPoint, lin0] at h3 h4
  exact ⟨by linarith, by linarith⟩

theorem feasible_closed {n k : ℕ} (p : Pbm ℝ n k) : IsClosed {x | QPSpec.Feasible p x} := by
  have hA : ∀ i, Continuous fun x : Fin n → ℝ => (p.A.mulVec x) i := fun i => by
    simp only [Matrix.mulVec, dotProduct]; fun_prop
  have : {x | QPSpec.Feasible p x} = ⋂ i, ({x | lower (p.l i) ((p.A.mulVec x) i)} ∩ {x | upper (p.u i) ((p.A.mulVec x) i)}) := by
    ext x; simp [QPSpec.Feasible, InBox]
  rw [this]
  refine isClosed_iInter fun i => IsClosed.inter ?_ ?_
  · cases h : p.l i with
    | neg => simp [lower]
    | fin b => simpa [lower] using isClosed_le continuous_const (hA i)
    | pos => simp [lower]
  · cases h : p.u i with
    | neg => simp [upper]
    | fin b => simpa [upper] using isClosed_le (hA i) continuous_const
    | pos => simp [upper]

theorem cost_continuous {n k : ℕ} (p : Pbm ℝ n k) : Continuous (cost p) := by
  unfold cost
  simp only [Matrix.mulVec, dotProduct]
  fun_prop

/-- **C103, the optimum.** If there is a feasible point on the mesh there is exactly one global minimiser. -/
theorem di_unique (env : Mesh.Env ℝ) {Kmin Kmax : ℕ} (hK : 1 ≤ Kmin) (m : Mesh ℝ) (hm : Valid Kmin Kmax m)
    (hL : ∀ K, Kmin ≤ K → K ≤ Kmax + 1 → IsLGR env K) (hf : ∃ w, NLP.Feasible ocpDi env m w) :
    ∃! w, NLP.Feasible ocpDi env m w ∧ ∀ w', NLP.Feasible ocpDi env m w' → objective ocpDi w ≤ objective ocpDi w' := by
  obtain ⟨qp, e, h, hs⟩ := lq_exact env hK m hm hL ocpDi ocpDi_dr 1 ocpDi_lq 5 (by norm_num) lin0 (lin0_onMesh env m 5)
  obtain ⟨qp', e', h'⟩ := di_qp_solves_nlp env hK m hm hL
  obtain rfl : qp' = qp := Option.some.inj (e'.symm.trans e)
  have hw := fun i : Fin (nColloc m) => wAt_pos env hm hL i
  set p := toPbm qp' (numV (nColloc m) 2 1) (numC (nColloc m) 2 2 5) with hp
  obtain ⟨hl1, hl2, -⟩ := qp_layout (nColloc m) 2 1 2 5
  obtain ⟨w0, hw0⟩ := hf
  obtain ⟨z0, rfl, -⟩ := hs w0 hw0 (ocpDi_time hw0)
  obtain ⟨x0, hx0, -⟩ := hl1 z0
  have hcompact : IsCompact {x | QPSpec.Feasible p x ∧ cost p x ≤ cost p x0} := by
    refine Metric.isCompact_of_isClosed_isBounded ((feasible_closed p).inter (isClosed_le (cost_continuous p) continuous_const)) ?_
    refine isBounded_iff_forall_norm_le.2 ⟨1 + ∑ i : Fin (nColloc m), cost p x0 / (5 * wAt env m i), ?_⟩
    rintro x ⟨hx, hc⟩
    obtain ⟨z, hz, -⟩ := hl2 x
    have hnn : ∀ i : Fin (nColloc m), 0 ≤ wAt env m i * (z (.x i.castSucc 0) ^ 2 + z (.x i.castSucc 1) ^ 2 + z (.u i 0) ^ 2) := fun i =>
      mul_nonneg (hw i).le (by positivity)
    have hc0 : 0 ≤ cost p x0 := by
      refine le_trans ?_ hc
      rw [(h' z x hz).1, di_objective]
      exact mul_nonneg (by norm_num) (Finset.sum_nonneg fun i _ => hnn i)
    have hterm : ∀ i : Fin (nColloc m), z (.x i.castSucc 0) ^ 2 + z (.x i.castSucc 1) ^ 2 + z (.u i 0) ^ 2 ≤ cost p x0 / (5 * wAt env m i) := by
      intro i
      rw [le_div_iff₀ (by have := hw i; positivity)]
      have := Finset.single_le_sum (fun i _ => hnn i) (Finset.mem_univ i)
      rw [(h' z x hz).1, di_objective] at hc
      nlinarith
    have hterm' : ∀ i : Fin (nColloc m), z (.x i.castSucc 0) ^ 2 + z (.x i.castSucc 1) ^ 2 + z (.u i 0) ^ 2 ≤
        ∑ i : Fin (nColloc m), cost p x0 / (5 * wAt env m i) := fun i => (hterm i).trans
      (Finset.single_le_sum (f := fun i : Fin (nColloc m) => cost p x0 / (5 * wAt env m i)) (fun i _ => div_nonneg hc0 (by have := hw i; positivity)) (Finset.mem_univ i))
    have hB0 : 0 ≤ ∑ i : Fin (nColloc m), cost p x0 / (5 * wAt env m i) := Finset.sum_nonneg fun i _ => div_nonneg hc0 (by have := hw i; positivity)
    obtain ⟨hlast0, hlast1⟩ := di_last ((h z x hz).1.1 hx)
    have habs : ∀ a B : ℝ, a ^ 2 ≤ B → |a| ≤ 1 + B := fun a B hab => abs_le.2 ⟨by nlinarith [sq_nonneg (a + 1)], by nlinarith [sq_nonneg (a - 1)]⟩
    have hz' : ∀ v, |z v| ≤ 1 + ∑ i : Fin (nColloc m), cost p x0 / (5 * wAt env m i) := by
      intro v
      cases v with
      | x i k =>
        induction i using Fin.lastCases with
        | last =>
          fin_cases k
          · show |z (.x (Fin.last _) 0)| ≤ _
            rw [hlast0, abs_of_pos (by norm_num)]; linarith
          · show |z (.x (Fin.last _) 1)| ≤ _
            rw [hlast1, abs_zero]; linarith
        | cast i =>
          have := hterm' i
          fin_cases k
          · exact habs _ _ (by simp only [Fin.zero_eta]; nlinarith [sq_nonneg (z (.x i.castSucc 1)), sq_nonneg (z (.u i 0))])
          · exact habs _ _ (by simp only [Fin.mk_one]; nlinarith [sq_nonneg (z (.x i.castSucc 0)), sq_nonneg (z (.u i 0))])
      | u i k =>
        have := hterm' i
        fin_cases k
        exact habs _ _ (by simp only [Fin.zero_eta]; nlinarith [sq_nonneg (z (.x i.castSucc 0)), sq_nonneg (z (.x i.castSucc 1))])
    refine (pi_norm_le_iff_of_nonneg (by linarith)).2 fun j => ?_
    obtain ⟨v, hv⟩ := QVar.pos_surj j.2
    have := hz v (by rw [hv]; exact j.2)
    rw [show j = ⟨v.pos, by rw [hv]; exact j.2⟩ from Fin.ext hv.symm, this, Real.norm_eq_abs]
    exact hz' v
  obtain ⟨x, ⟨hx, hxc⟩, hmin⟩ := hcompact.exists_isMinOn ⟨x0, (h z0 x0 hx0).1.2 hw0, le_rfl⟩ (cost_continuous p).continuousOn
  obtain ⟨z, hz, -⟩ := hl2 x
  have hglob : ∀ y, QPSpec.Feasible p y → cost p x ≤ cost p y := by
    intro y hy
    rcases le_total (cost p y) (cost p x0) with hle | hle
    · exact hmin ⟨hy, hle⟩
    · exact hxc.trans hle
  have hopt := (h' z x hz).2.1 ⟨hx, hglob⟩
  refine ⟨nlpPoint env m ocpDi lin0 5 z, hopt, fun w2 ⟨k1, k2⟩ => ?_⟩
  obtain ⟨z2, rfl, -⟩ := hs w2 k1 (ocpDi_time k1)
  congr 1
  obtain ⟨y, hy, -⟩ := hl1 z2
  -- the middle
  have hmid : IsPrimal (fun v => (z v + z2 v) / 2) (fun j => (x j + y j) / 2) := fun v hv => by
    show (x _ + y _) / 2 = (z v + z2 v) / 2
    rw [hz v hv, hy v hv]
  have hfm : QPSpec.Feasible p (fun j => (x j + y j) / 2) := by
    have hyf := (h z2 y hy).1.2 k1
    intro i
    have e : (p.A.mulVec fun j => (x j + y j) / 2) i = ((p.A.mulVec x) i + (p.A.mulVec y) i) / 2 := by
      simp only [Matrix.mulVec, dotProduct]
      rw [← Finset.sum_add_distrib, Finset.sum_div]
      exact Finset.sum_congr rfl fun j _ => by ring
    obtain ⟨a1, a2⟩ := hx i
    obtain ⟨b1, b2⟩ := hyf i
    rw [e]
    constructor
    · cases hl : p.l i <;> rw [hl] at a1 b1 <;> simp only [lower] at a1 b1 ⊢
      linarith
    · cases hu : p.u i <;> rw [hu] at a2 b2 <;> simp only [upper] at a2 b2 ⊢
      linarith
  have hle1 := hopt.2 _ ((h _ _ hmid).1.1 hfm)
  have hle2 := k2 _ hopt.1
  rw [di_objective, di_objective] at hle1 hle2
  have hpar : ∑ i : Fin (nColloc m), wAt env m i * ((z2 (.x i.castSucc 0) - z (.x i.castSucc 0)) ^ 2 + (z2 (.x i.castSucc 1) - z (.x i.castSucc 1)) ^ 2 +
      (z2 (.u i 0) - z (.u i 0)) ^ 2) ≤ 0 := by
    have e : ∑ i : Fin (nColloc m), wAt env m i * ((z2 (.x i.castSucc 0) - z (.x i.castSucc 0)) ^ 2 + (z2 (.x i.castSucc 1) - z (.x i.castSucc 1)) ^ 2 +
        (z2 (.u i 0) - z (.u i 0)) ^ 2) =
        2 * ∑ i : Fin (nColloc m), wAt env m i * (z (.x i.castSucc 0) ^ 2 + z (.x i.castSucc 1) ^ 2 + z (.u i 0) ^ 2) +
        2 * ∑ i : Fin (nColloc m), wAt env m i * (z2 (.x i.castSucc 0) ^ 2 + z2 (.x i.castSucc 1) ^ 2 + z2 (.u i 0) ^ 2) -
        4 * ∑ i : Fin (nColloc m), wAt env m i * (((z (.x i.castSucc 0) + z2 (.x i.castSucc 0)) / 2) ^ 2 +
          ((z (.x i.castSucc 1) + z2 (.x i.castSucc 1)) / 2) ^ 2 + ((z (.u i 0) + z2 (.u i 0)) / 2) ^ 2) := by
      rw [Finset.mul_sum, Finset.mul_sum, Finset.mul_sum, ← Finset.sum_add_distrib, ← Finset.sum_sub_distrib]
      exact Finset.sum_congr rfl fun i _ => by ring
    rw [e]
    linarith
  have hzero := (Finset.sum_eq_zero_iff_of_nonneg (fun i _ => mul_nonneg (hw i).le (by positivity))).1
    (le_antisymm hpar (Finset.sum_nonneg fun i _ => mul_nonneg (hw i).le (by positivity)))
  have hnode : ∀ i : Fin (nColloc m), z2 (.x i.castSucc 0) = z (.x i.castSucc 0) ∧ z2 (.x i.castSucc 1) = z (.x i.castSucc 1) ∧ z2 (.u i 0) = z (.u i 0) := by
    intro i
    have := (mul_eq_zero.1 (hzero i (Finset.mem_univ i))).resolve_left (hw i).ne'
    have s1 := sq_nonneg (z2 (.x i.castSucc 0) - z (.x i.castSucc 0))
    have s2 := sq_nonneg (z2 (.x i.castSucc 1) - z (.x i.castSucc 1))
    have s3 := sq_nonneg (z2 (.u i 0) - z (.u i 0))
    refine ⟨sub_eq_zero.1 (pow_eq_zero_iff two_ne_zero |>.1 ?_), sub_eq_zero.1 (pow_eq_zero_iff two_ne_zero |>.1 ?_),
      sub_eq_zero.1 (pow_eq_zero_iff two_ne_zero |>.1 ?_)⟩ <;> linarith
  obtain ⟨l1, l2⟩ := di_last hopt.1
  obtain ⟨l3, l4⟩ := di_last k1
  funext v
  cases v with
  | x i k =>
    induction i using Fin.lastCases with
    | last =>
      fin_cases k
      · exact l3.trans l1.symm
      · exact l4.trans l2.symm
    | cast i =>
      fin_cases k
      · exact (hnode i).1
      · exact (hnode i).2.1
  | u i k =>
    fin_cases k
    exact (hnode i).2.2

theorem exampleMesh_valid : Valid 4 4 ((List.range 10).map fun k : ℕ => (⟨4, (k : ℝ) / 10⟩ : Ival ℝ)) := by
  refine ⟨by simp [List.range, List.range.loop], ?_, fun v hv => ?_, fun v hv => ?_⟩
  · simp [List.range, List.range.loop]
    norm_num
  · obtain ⟨k, hk, rfl⟩ := List.mem_map.1 hv
    have : (k : ℝ) < 10 := by exact_mod_cast List.mem_range.1 hk
    show (k : ℝ) / 10 < 1
    linarith
  · obtain ⟨k, hk, rfl⟩ := List.mem_map.1 hv
    simp

theorem exampleMesh_whole : ∀ p ∈ spans 1 ((List.range 10).map fun k : ℕ => (⟨4, (k : ℝ) / 10⟩ : Ival ℝ)), Whole p := by
  intro p hp c hc
  simp [List.range, List.range.loop, spans] at hp hc
  rcases hp with rfl | rfl | rfl | rfl | rfl | rfl | rfl | rfl | rfl | rfl <;> rcases hc with rfl | rfl | rfl | rfl | rfl <;> norm_num

/-- **C103, the program `ocp_doubleintegrator_qp.cpp`.** On its mesh the nonlinear program has exactly one global minimiser, and the quadratic
program has the same; `solve_qp` returns (there are no limits in the example). If polishing is off (in the example it is on, see C02) and the result is
Optimal, the constraints hold up to `rp` and the cost is within `rd |z' - z|₁ + rp |y|₁` of that of every feasible point. -/
theorem di_example (env : Mesh.Env ℝ) (hB : IsLagrange env) (h4 : IsLGR env 4) (h5 : IsLGR env 5) :
    ∃ m qp, refinePh 4 4 [⟨4, 0⟩] 0 40 = some m ∧ ocpToQp env m ocpDi none 5 lin0 = some qp ∧
      (∃! x, QPSpec.Feasible (toPbm qp (numV (nColloc m) 2 1) (numC (nColloc m) 2 2 5)) x ∧
        ∀ y, QPSpec.Feasible (toPbm qp (numV (nColloc m) 2 1) (numC (nColloc m) 2 2 5)) y →
          cost (toPbm qp (numV (nColloc m) 2 1) (numC (nColloc m) 2 2 5)) x ≤ cost (toPbm qp (numV (nColloc m) 2 1) (numC (nColloc m) 2 2 5)) y) ∧
      (∃! w, NLP.Feasible ocpDi env m w ∧ ∀ w', NLP.Feasible ocpDi env m w' → objective ocpDi w ≤ objective ocpDi w') ∧
      ∀ (qenv : QP.Env ℝ (numV (nColloc m) 2 1)) (prm : Params ℝ), SqrtPos qenv → LdltOk qenv → 0 < prm.alpha → prm.alpha < 2 → 0 < prm.sigma →
        0 < prm.rho → 0 < prm.epsAbs → 0 ≤ prm.epsRel → 0 < prm.epsPrimalInf → 0 < prm.epsDualInf → 2 ≤ prm.stopCheckIter →
        (∀ p : Pbm ℝ (numV (nColloc m) 2 1) (numC (nColloc m) 2 2 5), Lin.PSD p.P → ∀ s : Scaling ℝ (numV (nColloc m) 2 1) (numC (nColloc m) 2 2 5),
          s.Pos → qenv.factor _ (kkt prm.sigma p s (rhoVec prm p s)) ≠ none) →
        ∀ ws, (∃ N, ∀ fuel, N ≤ fuel → ∃ sol, solveQP qenv prm (MPC.pbmOf qp (numV (nColloc m) 2 1) (numC (nColloc m) 2 2 5)) ws fuel = .ok sol) ∧
          ∀ fuel sol, solveQP qenv prm (MPC.pbmOf qp (numV (nColloc m) 2 1) (numC (nColloc m) 2 2 5)) ws fuel = .ok sol → sol.code = .optimal →
            prm.polish = false → ∃ (z : QVar (nColloc m) 2 1 → ℝ) (ζ : Fin (numC (nColloc m) 2 2 5) → ℝ) (rp rd : ℝ), IsPrimal z sol.primal ∧
        Tol prm.epsAbs prm.epsRel ((toPbm qp (numV (nColloc m) 2 1) (numC (nColloc m) 2 2 5)).A.mulVec sol.primal) ζ ζ rp ∧
        Tol prm.epsAbs prm.epsRel ((toPbm qp (numV (nColloc m) 2 1) (numC (nColloc m) 2 2 5)).P.mulVec sol.primal)
          (toPbm qp (numV (nColloc m) 2 1) (numC (nColloc m) 2 2 5)).q
          ((toPbm qp (numV (nColloc m) 2 1) (numC (nColloc m) 2 2 5)).A.transpose.mulVec sol.dual) rd ∧
              NearFeasible ocpDi env m rp (nlpPoint env m ocpDi lin0 5 z) ∧
              ∀ z', NLP.Feasible ocpDi env m (nlpPoint env m ocpDi lin0 5 z') → objective ocpDi (nlpPoint env m ocpDi lin0 5 z) ≤
                objective ocpDi (nlpPoint env m ocpDi lin0 5 z') + rd * ∑ v, |z' v - z v| + rp * ∑ i, |sol.dual i| := by
  have hL : ∀ K, 4 ≤ K → K ≤ 4 + 1 → IsLGR env K := by
    intro K h1 h2
    obtain rfl | rfl : K = 4 ∨ K = 5 := by omega
    · exact h4
    · exact h5
  obtain ⟨m, hmesh, hm, hwhole⟩ : ∃ m : Mesh ℝ, refinePh 4 4 [⟨4, 0⟩] 0 40 = some m ∧ Valid 4 4 m ∧ ∀ p ∈ spans 1 m, Whole p :=
    ⟨_, exampleMesh, exampleMesh_valid, exampleMesh_whole⟩
  refine ⟨m, ?_⟩
  obtain ⟨qp, e, h⟩ := di_qp_solves_nlp env (by norm_num) _ hm hL
  obtain ⟨qp', e', hex, hs⟩ := lq_exact env (by norm_num) _ hm hL ocpDi ocpDi_dr 1 ocpDi_lq 5 (by norm_num) lin0 (lin0_onMesh env _ 5)
  obtain rfl : qp' = qp := Option.some.inj (e'.symm.trans e)
  have hu := di_unique env (by norm_num) _ hm hL ⟨_, motion_feasible env hB (by norm_num) _ hm hL hwhole⟩
  refine ⟨qp', hmesh, e, ?_, hu, ?_⟩
  · obtain ⟨w, ⟨hw1, hw2⟩, hw3⟩ := hu
    obtain ⟨z, rfl, -⟩ := hs w hw1 (ocpDi_time hw1)
    obtain ⟨hl1, hl2, -⟩ := qp_layout (nColloc m) 2 1 2 5
    obtain ⟨x, hx, hx'⟩ := hl1 z
    refine ⟨x, (h z x hx).2.2 ⟨hw1, hw2⟩, fun y hy => ?_⟩
    obtain ⟨z', hz', -⟩ := hl2 y
    have := hw3 _ ((h z' y hz').2.1 hy)
    rw [nlpPoint_inj this] at hz'
    exact hx' y hz'
  · intro qenv prm hsq hld ha ha' hsig hr hea her hep hed hsc hf ws
    obtain ⟨qp2, e2, h2⟩ := lq_returns env (by norm_num) _ hm hL ocpDi ocpDi_dr 1 (by norm_num) ocpDi_lq ocpDi_convex ocpDi_separable 5 (by norm_num) lin0
      (lin0_onMesh env _ 5) (fun k => by left; fin_cases k <;> simp [ocpDi]) (fun k => by left; fin_cases k <;> simp [ocpDi]) qenv prm hsq hld ha ha' hsig
      hr hea her hep hed hsc (fun _ => ⟨by simp [numV], by simp [numC]⟩) hf
    obtain rfl : qp2 = qp' := Option.some.inj (e2.symm.trans e)
    refine ⟨h2 ws, fun fuel sol hsol hopt hpol => ?_⟩
    obtain ⟨qp3, e3, h3⟩ := lq_solved_partial env (by norm_num) _ hm hL ocpDi ocpDi_dr 1 (by norm_num) ocpDi_lq ocpDi_convex ocpDi_separable 5 (by norm_num) lin0
      (lin0_onMesh env _ 5) qenv prm hsq hr hpol
    obtain rfl : qp3 = qp2 := Option.some.inj (e3.symm.trans e2)
    exact h3 ws fuel sol hsol hopt

/-- The assumptions can be met: the rules of `realEnv`, exact square root and factorisation, the default parameters. -/
example : ∃ (m : Mesh ℝ) (qp : QPD ℝ), ocpToQp realEnv m ocpDi none 5 lin0 = some qp ∧ m.length = 10 ∧
    ∃ N, ∀ fuel, N ≤ fuel → ∃ sol, solveQP ⟨Real.sqrt, 0, exactFactor, 0, fun _ => 0⟩ Params.default
      (MPC.pbmOf qp (numV (nColloc m) 2 1) (numC (nColloc m) 2 2 5)) none fuel = .ok sol := by
  obtain ⟨m, qp, h1, h2, -, -, h3⟩ := di_example realEnv realEnv_lagrange (realEnv_lgr 4 (by norm_num)) (realEnv_lgr 5 (by norm_num))
  refine ⟨m, qp, h2, ?_, ?_⟩
  · rw [exampleMesh] at h1
    rw [← Option.some.inj h1]
    simp
  · refine (h3 ⟨Real.sqrt, 0, exactFactor, 0, fun _ => 0⟩ Params.default ?_ ?_ ?_ ?_ ?_ ?_ ?_ ?_ ?_ ?_ ?_ ?_ none).1
    · intro x hx; exact Real.sqrt_pos.2 hx
    · intro k H slv h b; exact exactFactor_ok h b
    all_goals first | norm_num [Params.default] | skip
    intro p hP s hs
    exact exactFactor_ne_none hP hs (by norm_num [Params.default]) fun i => rhoOf_pos (by norm_num [Params.default]) _ _

end Verif.DI
