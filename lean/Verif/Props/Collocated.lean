import Verif.Spec.Collocated
import Verif.Props.Flatten
import Verif.Props.OCPNLP
import Verif.Props.OCPNLPSol
import Verif.Proofs.MeshFnSlope

/-! # The trajectories that come back from the nonlinear program (C94) -/

set_option linter.unusedSectionVars false

namespace Verif.Mesh

open Polynomial Verif.MeshFn

/-- With one value per node, `eval` returns on every closed interval of the mesh the values of polynomials of at most its degree. -/
theorem eval_pieces (env : Env ℝ) (hB : IsLagrange env) (hS : IsSearch env) {Kmin Kmax : ℕ} (h1 : 1 ≤ Kmin) (m : Mesh ℝ)
    (hm : Valid Kmin Kmax m) (hL : ∀ K, Kmin ≤ K → K ≤ Kmax + 1 → IsLGR env K) {d : ℕ} (r : List (Fin d → ℝ)) (hr : r.length = nColloc m + 1)
    (p : Ival ℝ × ℝ) (hp : p ∈ spans 1 m) :
    ∃ P : Fin d → ℝ[X], (∀ c, (P c).natDegree ≤ p.1.K) ∧
      ∀ x, p.1.tau0 ≤ x → x ≤ p.2 → eval env m x r 0 true = some fun c => (P c).eval x := by
  obtain ⟨i, hi⟩ := List.getElem?_of_mem hp
  have hlen : r.length = points m + 1 := by rw [hr, nColloc_eq]
  -- on the half open intervals
  have half : ∀ (i : ℕ) (v : Ival ℝ) (b : ℝ), (spans 1 m)[i]? = some (v, b) → ∃ P : Fin d → ℝ[X], (∀ c, (P c).natDegree ≤ v.K) ∧
      (∀ x, intervalFind env m x = i → eval env m x r 0 true = some fun c => (P c).eval x) ∧
      (∀ j, j ≤ v.K → r[points (m.take i) + j]? = some fun c => (P c).eval (toMesh v.tau0 b (nodeExt env v.K j))) := by
    intro i v b hi
    obtain ⟨hv, -⟩ := spans_some hi
    have hd := hm.degree v (List.mem_of_getElem? hv)
    have hK := hL v.K hd.1 hd.2
    have hord := span_ordered hm hi
    have hpt := points_take_add hv
    have hin : ∀ j : Fin (v.K + 1), points (m.take i) + j < r.length := by intro j; have := j.2; omega
    choose P hPd hP using fun c : Fin d => exists_poly hK hord.1 fun j => (r[points (m.take i) + j]'(hin j)) c
    have hrj : ∀ j, j ≤ v.K → r[points (m.take i) + j]? = some fun c => (P c).eval (toMesh v.tau0 b (nodeExt env v.K j)) := by
      intro j hj
      rw [List.getElem?_eq_getElem (hin ⟨j, by omega⟩)]
      congr 1
      funext c
      exact (hP c ⟨j, by omega⟩).symm
    refine ⟨P, hPd, fun x hx => ?_, hrj⟩
    have := eval_polynomial env hB Kmin Kmax m hm hL x r 0 i v b hx hi true (Or.inl rfl) P hPd hrj
    simpa using this
  obtain ⟨v, b⟩ := p
  obtain ⟨P, hPd, hP, hPr⟩ := half i v b hi
  have hord := span_ordered hm hi
  obtain ⟨hv, htf⟩ := spans_some hi
  refine ⟨P, hPd, fun x hx0 hx1 => ?_⟩
  simp only at hx0 hx1
  have h0 : 0 ≤ x := hord.2.2.trans hx0
  rcases hx1.lt_or_eq with hlt | rfl
  · exact hP x (((interval_find_correct env hS Kmin Kmax m hm x).2.2 h0 (hlt.trans_le hord.2.1)).2 i v b hi hx0 hlt)
  · have hil := (List.getElem?_eq_some_iff.1 hv).1
    by_cases hlast : i + 1 = m.length
    · have hx : x = 1 := by rw [← htf, tauf, List.getElem?_eq_none (by omega)]
      refine hP x ?_
      rw [(interval_find_correct env hS Kmin Kmax m hm x).2.1 hx.ge]
      omega
    · have hw : m[i + 1]? = some m[i + 1] := List.getElem?_eq_getElem (by omega)
      have hb : x = m[i + 1].tau0 := by rw [← htf, tauf, hw]
      have hi' : (spans 1 m)[i + 1]? = some (m[i + 1], tauf m (i + 1)) := by rw [spans_getElem?, hw]; rfl
      have hord' := span_ordered hm hi'
      obtain ⟨Q, hQd, hQ, hQr⟩ := half (i + 1) _ _ hi'
      have hd' := hm.degree _ (List.mem_of_getElem? hw)
      have hf : intervalFind env m x = i + 1 :=
        ((interval_find_correct env hS Kmin Kmax m hm x).2.2 h0 (by rw [hb]; exact hord'.1.trans_le hord'.2.1)).2 _ _ _ hi' hb.ge
          (by rw [hb]; exact hord'.1)
      rw [hQ x hf]
      have e1 := hQr 0 (by omega)
      have e2 := hPr v.K le_rfl
      have hstep : points (m.take (i + 1)) = points (m.take i) + v.K := by
        rw [List.take_add_one, hv]; simp [points]
      rw [hstep, Nat.add_zero, e2] at e1
      have e3 := Option.some.inj e1
      have n1 : toMesh v.tau0 x (nodeExt env v.K v.K) = x := by rw [nodeExt, if_neg (lt_irrefl _), toMesh]; ring
      have n2 : toMesh m[i + 1].tau0 (tauf m (i + 1)) (nodeExt env m[i + 1].K 0) = x := by
        rw [nodeExt, if_pos (by omega), (hL _ hd'.1 hd'.2).first, toMesh]
        refine Eq.trans ?_ hb.symm
        ring
      rw [n1, n2] at e3
      rw [← e3]

/-- The interval of a point is unique. -/
theorem span_unique (env : Env ℝ) (hS : IsSearch env) {Kmin Kmax : ℕ} (m : Mesh ℝ) (hm : Valid Kmin Kmax m) {p p' : Ival ℝ × ℝ}
    (hp : p ∈ spans 1 m) (hp' : p' ∈ spans 1 m) {x : ℝ} (h1 : p.1.tau0 ≤ x) (h2 : x < p.2) (h1' : p'.1.tau0 ≤ x) (h2' : x < p'.2) : p = p' := by
  obtain ⟨i, hi⟩ := List.getElem?_of_mem hp
  obtain ⟨i', hi'⟩ := List.getElem?_of_mem hp'
  have ho := span_ordered hm (v := p.1) (b := p.2) hi
  have h := ((interval_find_correct env hS Kmin Kmax m hm x).2.2 (ho.2.2.trans h1) (h2.trans_le ho.2.1)).2
  have e := (h i p.1 p.2 hi h1 h2).symm.trans (h i' p'.1 p'.2 hi' h1' h2')
  rw [← e, hi] at hi'
  exact Option.some.inj hi'

/-- `eval` always returns a value on a mesh. -/
theorem eval_isSome (env : Env ℝ) (hS : IsSearch env) {Kmin Kmax : ℕ} (h1 : 1 ≤ Kmin) (m : Mesh ℝ) (hm : Valid Kmin Kmax m) {d : ℕ}
    (r : List (Fin d → ℝ)) (x : ℝ) (e : Bool) : ∃ y, eval env m x r 0 e = some y := by
  have hl : intervalFind env m x < m.length := by
    have hpos : 0 < m.length := List.length_pos_of_ne_nil hm.ne_nil
    obtain ⟨a, b, c⟩ := interval_find_correct env hS Kmin Kmax m hm x
    rcases lt_or_ge x 0 with h | h
    · rw [a h]; exact hpos
    rcases lt_or_ge x 1 with h' | h'
    · obtain ⟨v, w, e, -⟩ := (c h h').1
      exact (List.getElem?_eq_some_iff.1 (spans_some e).1).1
    · rw [b h']; omega
  have hv : m[intervalFind env m x]? = some m[intervalFind env m x] := List.getElem?_eq_getElem hl
  have hd := hm.degree _ (List.mem_of_getElem? hv)
  unfold eval
  simp only [hv]
  split_ifs with h
  · exact ⟨_, rfl⟩
  · obtain ⟨N, hN⟩ : ∃ N, m[intervalFind env m x].K = N + 1 := ⟨m[intervalFind env m x].K - 1, by omega⟩
    rw [hN]
    exact ⟨_, rfl⟩

end Verif.Mesh

namespace Verif.NLP

open Verif.Mesh Verif.Sparse Verif.MeshFn Verif.QP Verif.QPSpec

open scoped Polynomial

variable {nx nu nq ncr nce : ℕ}

theorem tauAt_get (env : Mesh.Env ℝ) {Kmin Kmax : ℕ} (h1 : 1 ≤ Kmin) (m : Mesh ℝ) (hm : Valid Kmin Kmax m)
    (hL : ∀ K, Kmin ≤ K → K ≤ Kmax + 1 → IsLGR env K) (i : ℕ) (hi : i < nColloc m + 1) : (allNodes env m)[i]? = some (tauAt env m i) := by
  have h := (nodes_complete env Kmin Kmax h1 m hm hL).1
  rw [tauAt, List.getD_eq_getElem?_getD, List.getElem?_eq_getElem (by omega)]
  rfl

/-- Every collocation point lies in an interval. -/
theorem tauAt_span (env : Mesh.Env ℝ) (hS : IsSearch env) {Kmin Kmax : ℕ} (h1 : 1 ≤ Kmin) (m : Mesh ℝ) (hm : Valid Kmin Kmax m) (t : ℝ)
    (h0 : 0 ≤ t) (ht : t ≤ 1) : ∃ p ∈ spans 1 m, p.1.tau0 ≤ t ∧ t ≤ p.2 ∧ (t < 1 → t < p.2) := by
  rcases ht.lt_or_eq with h | rfl
  · obtain ⟨v, b, e, k1, k2⟩ := ((interval_find_correct env hS Kmin Kmax m hm t).2.2 h0 h).1
    exact ⟨(v, b), List.mem_of_getElem? e, k1, k2.le, fun _ => k2⟩
  · have hml : 0 < m.length := List.length_pos_of_ne_nil hm.ne_nil
    have hv : m[m.length - 1]? = some m[m.length - 1] := List.getElem?_eq_getElem _
    have hi : (spans 1 m)[m.length - 1]? = some (m[m.length - 1], 1) := by
      rw [spans_getElem?, hv]
      simp only [Option.map_some, tauf]
      rw [List.getElem?_eq_none (by omega)]
    exact ⟨_, List.mem_of_getElem? hi, (span_ordered hm hi).1.le, le_rfl, fun h => absurd h (lt_irrefl _)⟩

/-- The trajectories of a solution. -/
theorem ocpsol_pieces (env : Mesh.Env ℝ) (hB : IsLagrange env) (hS : IsSearch env) {Kmin Kmax : ℕ} (h1 : 1 ≤ Kmin) (m : Mesh ℝ)
    (hm : Valid Kmin Kmax m) (hL : ∀ K, Kmin ≤ K → K ≤ Kmax + 1 → IsLGR env K) (sol : NLPSol ℝ)
    (hx : sol.x.size = nVars (nColloc m) nx nu nq) (hl : sol.lambda.size = nCons (nColloc m) nx nq ncr nce) (htf : 0 < sol.x.val 0) :
    ∃ (o : OCPSol ℝ nx nu nq ncr nce) (e : ℝ → Fin nx → ℝ) (v : ℝ → Fin nu → ℝ) (P : Ival ℝ × ℝ → Fin nx → ℝ[X]),
      nlpsolToOcpsol nx nu nq ncr nce env m sol = some o ∧ o.t0 = 0 ∧ o.tf = sol.x.val 0 ∧
      (∀ k, o.Q k = sol.x.val (NVar.q (N := nColloc m) (nx := nx) (nu := nu) k).pos) ∧ (∀ t, o.x t = some (e t)) ∧ (∀ t, o.u t = some (v t)) ∧
      (∀ p ∈ spans 1 m, ∀ c, (P p c).natDegree ≤ p.1.K) ∧
      (∀ p ∈ spans 1 m, ∀ t, p.1.tau0 ≤ t → t ≤ p.2 → e (o.tf * t) = fun c => (P p c).eval t) ∧
      (∀ i : Fin (nColloc m + 1), e (o.tf * tauAt env m i) = fun k => sol.x.val (NVar.x (nu := nu) (nq := nq) i k).pos) ∧
      (∀ i : Fin (nColloc m), v (o.tf * tauAt env m i) = fun k => sol.x.val (NVar.u (nx := nx) (nq := nq) i k).pos) := by
  obtain ⟨b1, b2, b3, b4, b5⟩ := begs nx nu nq (nColloc m)
  obtain ⟨-, -, -, -, c5⟩ := cbegs nx nq ncr nce (nColloc m)
  have hnl := (nodes_complete env Kmin Kmax h1 m hm hL).1
  have hsz : sol.x.size = numX nx nu nq (nColloc m) ∧ sol.lambda.size = numG nx nq ncr nce (nColloc m) := by rw [b5, c5]; exact ⟨hx, hl⟩
  have hlenX : (cols nx (nColloc m + 1) (xB nx nu nq (nColloc m)) sol.x).length = nColloc m + 1 := by simp [cols]
  have hlenU : (cols nu (nColloc m) (uB nx nu nq (nColloc m)) sol.x).length = nColloc m := by simp [cols]
  choose e he using fun t : ℝ => eval_isSome env hS h1 m hm (cols nx (nColloc m + 1) (xB nx nu nq (nColloc m)) sol.x)
    ((t - 0) / (sol.x.val (tfB nx nu nq (nColloc m)) - 0)) true
  choose v hv using fun t : ℝ => eval_isSome env hS h1 m hm (cols nu (nColloc m) (uB nx nu nq (nColloc m)) sol.x)
    ((t - 0) / (sol.x.val (tfB nx nu nq (nColloc m)) - 0)) false
  have hP : ∀ p : Ival ℝ × ℝ, ∃ P : Fin nx → ℝ[X], p ∈ spans 1 m → (∀ c, (P c).natDegree ≤ p.1.K) ∧
      ∀ x, p.1.tau0 ≤ x → x ≤ p.2 → eval env m x (cols nx (nColloc m + 1) (xB nx nu nq (nColloc m)) sol.x) 0 true =
        some fun c => (P c).eval x := by
    intro p
    by_cases hp : p ∈ spans 1 m
    · obtain ⟨P, h⟩ := eval_pieces env hB hS h1 m hm hL _ hlenX p hp
      exact ⟨P, fun _ => h⟩
    · exact ⟨fun _ => 0, fun h => absurd h hp⟩
  choose P hP using hP
  have hdiv : ∀ t, (sol.x.val 0 * t - 0) / (sol.x.val (tfB nx nu nq (nColloc m)) - 0) = t := by
    intro t
    rw [b1, sub_zero, sub_zero, mul_div_cancel_left₀ _ htf.ne']
  refine ⟨_, e, v, P, by unfold nlpsolToOcpsol; simp only; rw [if_pos hsz], rfl, by rw [b1], fun k => ?_, he, hv,
    fun p hp => (hP p hp).1, fun p hp t k1 k2 => ?_, fun i => ?_, fun i => ?_⟩
  · simp only [b2, NVar.pos]
  · have := (hP p hp).2 t k1 k2
    have h2 := he (sol.x.val 0 * t)
    rw [hdiv, this] at h2
    simp only [b1]
    exact (Option.some.inj h2).symm
  · have h2 := he (sol.x.val 0 * tauAt env m i)
    rw [hdiv, eval_interpolates env hB hS Kmin Kmax m hm hL _ (by rw [hlenX, hnl]) i _ (tauAt_get env h1 m hm hL i i.2),
      cols_get _ _ _ _ _ i.2, b3] at h2
    simp only [b1]
    rw [← Option.some.inj h2]
    funext k
    simp only [NVar.pos, Nat.add_assoc]
  · have h2 := hv (sol.x.val 0 * tauAt env m i)
    rw [hdiv, eval_interpolates_open env hB hS Kmin Kmax h1 m hm hL _ hlenU i i.2 _ (tauAt_get env h1 m hm hL i (by have := i.2; omega)),
      cols_get _ _ _ _ _ i.2, b4] at h2
    simp only [b1]
    rw [← Option.some.inj h2]
    funext k
    simp only [NVar.pos, Nat.add_assoc]

end Verif.NLP

namespace Verif.Flatten

open Verif.Mesh Verif.Sparse Verif.Lie Verif.MeshFn Verif.NLP Verif.QP Verif.QPSpec

open scoped Matrix Polynomial

variable {X U 𝔸 : Type*} {nx nu nq ncr nce : ℕ}

/-- The assignment held by a vector. -/
abbrev held (N nx nu nq : ℕ) (x : Vec ℝ) : NVar N nx nu nq → ℝ := fun v => x.val v.pos

/-- The derivative of a piece by time. -/
theorem piece_deriv {tf a b τ : ℝ} (htf : 0 < tf) (ha : a ≤ τ) (hb : τ ≤ b) (e : ℝ → Fin nx → ℝ) (P : Fin nx → ℝ[X])
    (he : ∀ t, a ≤ t → t ≤ b → e (tf * t) = fun c => (P c).eval t) :
    HasDerivWithinAt e (fun c => tf⁻¹ * (P c).derivative.eval τ) (Set.Icc (tf * a) (tf * b)) (tf * τ) := by
  have h1 : HasDerivWithinAt (fun t => fun c => (P c).eval (t / tf)) (fun c => tf⁻¹ * (P c).derivative.eval τ) (Set.Icc (tf * a) (tf * b)) (tf * τ) := by
    rw [hasDerivWithinAt_pi]
    intro c
    have h2 : HasDerivAt (fun t : ℝ => t / tf) (1 / tf) (tf * τ) := (hasDerivAt_id _).div_const tf
    have h3 := (P c).hasDerivAt (tf * τ / tf)
    have h4 := h3.comp (tf * τ) h2
    rw [mul_div_cancel_left₀ _ htf.ne', mul_comm, one_div] at h4
    exact h4.hasDerivWithinAt
  refine h1.congr (fun t ht => ?_) ?_
  · have := he (t / tf) (by rw [le_div_iff₀ htf, mul_comm]; exact ht.1) (by rw [div_le_iff₀ htf, mul_comm]; exact ht.2)
    rwa [mul_div_cancel₀ _ htf.ne'] at this
  · rw [mul_div_cancel_left₀ _ htf.ne']
    exact he τ ha hb

/-- The slopes of the collocation equations are the derivatives of the pieces. -/
theorem slope_piece (env : Mesh.Env ℝ) (hB : IsLagrange env) (hS : IsSearch env) {Kmin Kmax : ℕ} (h1 : 1 ≤ Kmin) (m : Mesh ℝ)
    (hm : Valid Kmin Kmax m) (hL : ∀ K, Kmin ≤ K → K ≤ Kmax + 1 → IsLGR env K) (s : ℝ → Fin nx → ℝ) (P : Ival ℝ × ℝ → Fin nx → ℝ[X])
    (hP : ∀ p ∈ spans 1 m, ∀ c, (P p c).natDegree ≤ p.1.K) (hs : ∀ p ∈ spans 1 m, ∀ t, p.1.tau0 ≤ t → t ≤ p.2 → s t = fun c => (P p c).eval t)
    (z : Fin (nColloc m + 1) → Fin nx → ℝ) (hz : ∀ i : Fin (nColloc m + 1), s (tauAt env m i) = z i) (i : Fin (nColloc m)) (k : Fin nx)
    (p : Ival ℝ × ℝ) (hp : p ∈ spans 1 m) (k1 : p.1.tau0 ≤ tauAt env m i) (k2 : tauAt env m i < p.2) :
    slope env (spans 1 m) (fun l => if h : l < nColloc m + 1 then z ⟨l, h⟩ k else 0) i = (P p k).derivative.eval (tauAt env m i) := by
  have hi : (i : ℕ) < points m := lt_of_lt_of_eq i.2 (nColloc_eq m)
  obtain ⟨p', hp', j1, j2, j3⟩ := slope_poly hB hm.increasing hm.below
    (fun v hv => ⟨h1.trans (hm.degree v hv).1, hL _ (hm.degree v hv).1 (hm.degree v hv).2⟩) (fun t => s t k) (fun p => P p k)
    (fun p hp => hP p hp k) (fun p hp t a b => congrFun (hs p hp t a b) k)
    (fun l => if h : l < nColloc m + 1 then z ⟨l, h⟩ k else 0) (by
      intro j hj
      have hj' : j < nColloc m + 1 := by rw [nColloc_eq]; omega
      rw [dif_pos hj', ← hz, tauAt, allNodes_eq env m hm.ne_nil]) i hi
  simp only [← allNodes_eq env m hm.ne_nil] at j1 j2 j3
  rw [span_unique env hS m hm hp hp' k1 k2 j1 j2]
  exact j3

theorem tauAt_bounds (env : Mesh.Env ℝ) {Kmin Kmax : ℕ} (h1 : 1 ≤ Kmin) (m : Mesh ℝ) (hm : Valid Kmin Kmax m)
    (hL : ∀ K, Kmin ≤ K → K ≤ Kmax + 1 → IsLGR env K) : tauAt env m 0 = 0 ∧ tauAt env m (nColloc m) = 1 ∧
      ∀ i : Fin (nColloc m), 0 ≤ tauAt env m i ∧ tauAt env m i < 1 := by
  obtain ⟨hlen, -, hpw, hh, hlast, -⟩ := nodes_complete env Kmin Kmax h1 m hm hL
  have h0 : tauAt env m 0 = 0 := by
    rw [tauAt, List.getD_eq_getElem?_getD, ← List.head?_eq_getElem?, hh]; rfl
  have hN : tauAt env m (nColloc m) = 1 := by
    rw [List.getLast?_eq_getElem?, hlen, Nat.add_sub_cancel] at hlast
    rw [tauAt, List.getD_eq_getElem?_getD, hlast]; rfl
  have hlt : ∀ i j, i < j → j < nColloc m + 1 → tauAt env m i < tauAt env m j := by
    intro i j hij hj
    have hi' : i < (allNodes env m).length := by omega
    have hj' : j < (allNodes env m).length := by omega
    simp only [tauAt, List.getD_eq_getElem?_getD, List.getElem?_eq_getElem hi', List.getElem?_eq_getElem hj', Option.getD_some]
    exact List.pairwise_iff_getElem.1 hpw i j hi' hj' hij
  refine ⟨h0, hN, fun i => ⟨?_, ?_⟩⟩
  · rcases Nat.eq_zero_or_pos (i : ℕ) with h | h
    · rw [h, h0]
    · rw [← h0]; exact (hlt 0 i h (by have := i.2; omega)).le
  · rw [← hN]; exact hlt i _ i.2 (by omega)

/-- **C94, problems on vector spaces.** Take any vector of the program with positive final time. The trajectories that `nlpsol_to_ocpsol`
makes of it are defined everywhere, the state is continuous, and they satisfy the optimal control problem at the collocation points
exactly when the vector is feasible for the discretised problem; the objective is the cost of the trajectory. -/
theorem nlp_collocated (env : Mesh.Env ℝ) (hB : IsLagrange env) (hS : IsSearch env) {Kmin Kmax : ℕ} (h1 : 1 ≤ Kmin) (m : Mesh ℝ)
    (hm : Valid Kmin Kmax m) (hL : ∀ K, Kmin ≤ K → K ≤ Kmax + 1 → IsLGR env K) (ocp : OCP ℝ nx nu nq ncr nce) (sol : NLPSol ℝ)
    (hx : sol.x.size = nVars (nColloc m) nx nu nq) (hl : sol.lambda.size = nCons (nColloc m) nx nq ncr nce) (htf : 0 < sol.x.val 0) :
    ∃ (o : OCPSol ℝ nx nu nq ncr nce) (e : ℝ → Fin nx → ℝ) (v : ℝ → Fin nu → ℝ),
      nlpsolToOcpsol nx nu nq ncr nce env m sol = some o ∧ o.t0 = 0 ∧ o.tf = sol.x.val 0 ∧
      (∀ t, o.x t = some (e t)) ∧ (∀ t, o.u t = some (v t)) ∧ ContinuousOn e (Set.Icc 0 o.tf) ∧
      (∀ i : Fin (nColloc m), e (o.tf * tauAt env m i) = fun k => held (nColloc m) nx nu nq sol.x (.x i.castSucc k)) ∧
      (∀ i : Fin (nColloc m), ∀ p ∈ spans 1 m, p.1.tau0 ≤ tauAt env m i → tauAt env m i < p.2 →
        DifferentiableWithinAt ℝ e (Set.Icc (o.tf * p.1.tau0) (o.tf * p.2)) (o.tf * tauAt env m i)) ∧
      (Feasible ocp env m (held (nColloc m) nx nu nq sol.x) ↔ FlatCollocated ocp env m o.tf e v o.Q) ∧
      objective ocp (held (nColloc m) nx nu nq sol.x) = flatCost ocp o.tf e o.Q := by
  obtain ⟨o, e, v, P, g1, g2, g3, g4, g5, g6, g7, g8, g9, g10⟩ := ocpsol_pieces (nx := nx) (nu := nu) (nq := nq) (ncr := ncr) (nce := nce) env hB hS h1 m hm hL sol hx hl htf
  obtain ⟨t0, tN, tb⟩ := tauAt_bounds env h1 m hm hL
  have htf' : 0 < o.tf := by rw [g3]; exact htf
  have hztf : held (nColloc m) nx nu nq sol.x .tf = o.tf := by rw [g3]; rfl
  have hNpos : 0 < nColloc m := nColloc_pos hm.ne_nil fun v hv => h1.trans (hm.degree v hv).1
  have e0 : e 0 = fun k => held (nColloc m) nx nu nq sol.x (.x 0 k) := by
    have := g9 0
    rw [show ((0 : Fin (nColloc m + 1)) : ℕ) = 0 from rfl, t0, mul_zero] at this
    exact this
  have eN : e o.tf = fun k => held (nColloc m) nx nu nq sol.x (.x (Fin.last _) k) := by
    have := g9 (Fin.last _)
    rw [Fin.val_last, tN, mul_one] at this
    exact this
  have eX : ∀ i : Fin (nColloc m), e (o.tf * tauAt env m i) = fun k => held (nColloc m) nx nu nq sol.x (.x i.castSucc k) := fun i => g9 i.castSucc
  have hq : (fun k => held (nColloc m) nx nu nq sol.x (.q k)) = o.Q := funext fun k => (g4 k).symm
  have hends : ends (held (nColloc m) nx nu nq sol.x) = ept o.tf (e 0) (e o.tf) o.Q := by
    funext a
    cases a with
    | tf => exact hztf
    | x0 k => exact (congrFun e0 k).symm
    | xf k => exact (congrFun eN k).symm
    | q k => exact (g4 k).symm
  have hpt : ∀ i : Fin (nColloc m), pt (held (nColloc m) nx nu nq sol.x .tf * tauAt env m i) (fun k => held (nColloc m) nx nu nq sol.x (.x i.castSucc k))
      (fun k => held (nColloc m) nx nu nq sol.x (.u i k)) = pt (o.tf * tauAt env m i) (e (o.tf * tauAt env m i)) (v (o.tf * tauAt env m i)) := by
    intro i
    rw [hztf, eX, g10 i]
  have hder : ∀ i : Fin (nColloc m), ∀ p ∈ spans 1 m, p.1.tau0 ≤ tauAt env m i → tauAt env m i < p.2 →
      HasDerivWithinAt e (fun c => o.tf⁻¹ * (P p c).derivative.eval (tauAt env m i)) (Set.Icc (o.tf * p.1.tau0) (o.tf * p.2)) (o.tf * tauAt env m i) :=
    fun i p hp k1 k2 => piece_deriv htf' k1 k2.le e (P p) (g8 p hp)
  have hslope : ∀ (i : Fin (nColloc m)) (k : Fin nx), ∀ p ∈ spans 1 m, p.1.tau0 ≤ tauAt env m i → tauAt env m i < p.2 →
      slope env (spans 1 m) (fun l => if h : l < nColloc m + 1 then held (nColloc m) nx nu nq sol.x (.x ⟨l, h⟩ k) else 0) i =
        (P p k).derivative.eval (tauAt env m i) := fun i k p hp k1 k2 =>
    slope_piece env hB hS h1 m hm hL (fun t => e (o.tf * t)) P g7 g8 (fun i k => held (nColloc m) nx nu nq sol.x (.x i k)) (fun i => g9 i) i k p hp k1 k2
  refine ⟨o, e, v, g1, g2, g3, g5, g6, ?_, eX, fun i p hp k1 k2 => (hder i p hp k1 k2).differentiableWithinAt, ?_, ?_⟩
  · -- continuity
    have hcov : Set.Icc 0 o.tf ⊆ ⋃ p : {p // p ∈ spans 1 m}, Set.Icc (o.tf * p.1.1.tau0) (o.tf * p.1.2) := by
      intro t ht
      obtain ⟨p, hp, k1, k2, -⟩ := tauAt_span env hS h1 m hm (t / o.tf) (div_nonneg ht.1 htf'.le) ((div_le_one htf').2 ht.2)
      refine Set.mem_iUnion.2 ⟨⟨p, hp⟩, ?_, ?_⟩
      · rw [mul_comm]; exact (le_div_iff₀ htf').1 k1
      · rw [mul_comm]; exact (div_le_iff₀ htf').1 k2
    have hfin : Finite {p // p ∈ spans 1 m} := List.finite_toSet (spans 1 m)
    refine ContinuousOn.mono (LocallyFinite.continuousOn_iUnion (locallyFinite_of_finite _) (fun p => isClosed_Icc) fun p => ?_) hcov
    have hc : ContinuousOn (fun t => fun c => (P p.1 c).eval (t / o.tf)) (Set.Icc (o.tf * p.1.1.tau0) (o.tf * p.1.2)) :=
      (continuous_pi fun c => (P p.1 c).continuous.comp (continuous_id.div_const _)).continuousOn
    refine hc.congr fun t ht => ?_
    have := g8 p.1 p.2 (t / o.tf) (by rw [le_div_iff₀ htf', mul_comm]; exact ht.1) (by rw [div_le_iff₀ htf', mul_comm]; exact ht.2)
    rwa [mul_div_cancel₀ _ htf'.ne'] at this
  · constructor
    · intro h
      refine ⟨fun i p hp k1 k2 => ?_, fun k => ?_, fun i k => ?_, fun k => ?_⟩
      · convert hder i p hp k1 k2 using 1
        funext k
        have := h.dynamics i k
        rw [hslope i k p hp k1 k2, hpt, hztf] at this
        rw [this, inv_mul_cancel_left₀ htf'.ne']
      · have := h.integrals k
        simp only [hpt] at this
        rw [hztf] at this
        rw [g4]
        exact this
      · have := h.running i k
        simpa only [hpt] using this
      · have := h.endpoint k
        rwa [hends] at this
    · intro h
      refine ⟨by rw [hztf]; exact htf'.le, fun i k => ?_, fun k => ?_, fun i k => ?_, fun k => ?_⟩
      · obtain ⟨p, hp, k1, -, k2⟩ := tauAt_span env hS h1 m hm (tauAt env m i) (tb i).1 (tb i).2.le
        have hlt : p.1.tau0 < p.2 := k1.trans_lt (k2 (tb i).2)
        have hU : UniqueDiffWithinAt ℝ (Set.Icc (o.tf * p.1.tau0) (o.tf * p.2)) (o.tf * tauAt env m i) :=
          uniqueDiffOn_Icc (mul_lt_mul_of_pos_left hlt htf') _ ⟨mul_le_mul_of_nonneg_left k1 htf'.le, mul_le_mul_of_nonneg_left (k2 (tb i).2).le htf'.le⟩
        have hu := hU.eq_deriv _ (h.dynamics i p hp k1 (k2 (tb i).2)) (hder i p hp k1 (k2 (tb i).2))
        rw [hslope i k p hp k1 (k2 (tb i).2), hpt, hztf, hu, mul_inv_cancel_left₀ htf'.ne']
      · simp only [hpt]
        rw [hztf, ← h.integrals k, g4]
      · simpa only [hpt] using h.running i k
      · rw [hends]
        exact h.endpoint k
  · rw [objective, hends]
    rfl

section

variable [NormedRing 𝔸] [NormedAlgebra ℝ 𝔸] [FiniteDimensional ℝ 𝔸] [CompleteSpace 𝔸]
  {LX : LieOps X ℝ nx} {LU : LieOps U ℝ nu} {mat : X → 𝔸} {hat : (Fin nx → ℝ) →ₗ[ℝ] 𝔸}

/-- **C94.** Flatten a problem on Lie groups around a trajectory `xl`, `ul`, transcribe it, and take any vector of the program with positive
final time whose states `e_i` are points where the exponential map is regular. The trajectories that `unflatten_ocpsol` makes of its
`nlpsol_to_ocpsol` are defined everywhere, the state is continuous, and they satisfy the original problem on the group at the collocation
points (differential equation, running constraints, integrals, end constraints) exactly when the vector is feasible for the program; the
objective of the program is the cost of the trajectory. -/
theorem unflatten_collocated (h : IsLie LX mat hat) (env : Mesh.Env ℝ) (hB : IsLagrange env) (hS : IsSearch env) {Kmin Kmax : ℕ} (h1 : 1 ≤ Kmin)
    (m : Mesh ℝ) (hm : Valid Kmin Kmax m) (hL : ∀ K, Kmin ≤ K → K ≤ Kmax + 1 → IsLGR env K) (ocp : GOCP X U ℝ nx nq ncr nce)
    (xl : Traj X ℝ nx) (ul : Traj U ℝ nu) (sol : NLPSol ℝ) (hx : sol.x.size = nVars (nColloc m) nx nu nq)
    (hl : sol.lambda.size = nCons (nColloc m) nx nq ncr nce) (htf : 0 < sol.x.val 0) (hxl : IsTraj mat hat xl (Set.Icc 0 (sol.x.val 0)))
    (hreg : ∀ i : Fin (nColloc m), IsUnit (LX.drExp fun k => held (nColloc m) nx nu nq sol.x (.x i.castSucc k)).det) :
    ∃ (o : OCPSol ℝ nx nu nq ncr nce) (x : ℝ → X) (u : ℝ → U),
      nlpsolToOcpsol nx nu nq ncr nce env m sol = some o ∧ (unflattenOcpsol LX LU o xl.val ul.val).t0 = 0 ∧
      (unflattenOcpsol LX LU o xl.val ul.val).tf = sol.x.val 0 ∧ (∀ t, (unflattenOcpsol LX LU o xl.val ul.val).x t = some (x t)) ∧
      (∀ t, (unflattenOcpsol LX LU o xl.val ul.val).u t = some (u t)) ∧ ContinuousOn (fun t => mat (x t)) (Set.Icc 0 (sol.x.val 0)) ∧
      (Feasible (flattenOCP LX LU ocp xl ul) env m (held (nColloc m) nx nu nq sol.x) ↔
        Collocated ocp mat hat env m (sol.x.val 0) x u (unflattenOcpsol LX LU o xl.val ul.val).Q) ∧
      objective (flattenOCP LX LU ocp xl ul) (held (nColloc m) nx nu nq sol.x) =
        cost ocp (sol.x.val 0) x (unflattenOcpsol LX LU o xl.val ul.val).Q := by
  obtain ⟨o, e, v, g1, g2, g3, g5, g6, g7, g8, g9, g10, g11⟩ := nlp_collocated env hB hS h1 m hm hL (flattenOCP LX LU ocp xl ul) sol hx hl htf
  refine ⟨o, fun t => LX.rplus (xl.val t) (e t), fun t => LU.rplus (ul.val t) (v t), g1, g2, g3, fun t => ?_, fun t => ?_, ?_, ?_, ?_⟩
  · change (o.x t).map _ = _
    rw [g5]; rfl
  · change (o.u t).map _ = _
    rw [g6]; rfl
  · have hmat : (fun t => mat (LX.rplus (xl.val t) (e t))) = fun t => mat (xl.val t) * NormedSpace.exp (hat (e t)) := funext fun t => h.rplus _ _
    rw [hmat]
    rw [g3] at g7
    refine ContinuousOn.mul (fun t ht => (hxl t ht).continuousWithinAt) ?_
    have hc : Continuous fun a : Fin nx → ℝ => NormedSpace.exp (hat a) := by
      rw [continuous_iff_continuousAt]
      intro a
      obtain ⟨D, hD, -⟩ := h.drExp a
      exact hD.continuousAt
    exact hc.comp_continuousOn g7
  · rw [g10, g3]
    rw [g3] at g8 g9
    have hdyn : ∀ i : Fin (nColloc m), ∀ p ∈ spans 1 m, p.1.tau0 ≤ tauAt env m i → tauAt env m i < p.2 →
        (HasVel mat hat (fun t => LX.rplus (xl.val t) (e t)) (ocp.f.val (sol.x.val 0 * tauAt env m i)
            (LX.rplus (xl.val (sol.x.val 0 * tauAt env m i)) (e (sol.x.val 0 * tauAt env m i)))
            (LU.rplus (ul.val (sol.x.val 0 * tauAt env m i)) (v (sol.x.val 0 * tauAt env m i))))
            (Set.Icc (sol.x.val 0 * p.1.tau0) (sol.x.val 0 * p.2)) (sol.x.val 0 * tauAt env m i) ↔
          HasDerivWithinAt e ((flattenOCP LX LU ocp xl ul).f.val (pt (sol.x.val 0 * tauAt env m i) (e (sol.x.val 0 * tauAt env m i))
            (v (sol.x.val 0 * tauAt env m i)))) (Set.Icc (sol.x.val 0 * p.1.tau0) (sol.x.val 0 * p.2)) (sol.x.val 0 * tauAt env m i)) := by
      intro i p hp k1 k2
      obtain ⟨j, hj⟩ := List.getElem?_of_mem hp
      have ho := span_ordered hm (v := p.1) (b := p.2) hj
      have hsub : Set.Icc (sol.x.val 0 * p.1.tau0) (sol.x.val 0 * p.2) ⊆ Set.Icc 0 (sol.x.val 0) :=
        Set.Icc_subset_Icc (mul_nonneg htf.le ho.2.2) (by nlinarith [ho.2.1])
      have hmem : sol.x.val 0 * tauAt env m i ∈ Set.Icc (sol.x.val 0 * p.1.tau0) (sol.x.val 0 * p.2) :=
        ⟨mul_le_mul_of_nonneg_left k1 htf.le, mul_le_mul_of_nonneg_left k2.le htf.le⟩
      have hU : UniqueDiffWithinAt ℝ (Set.Icc (sol.x.val 0 * p.1.tau0) (sol.x.val 0 * p.2)) (sol.x.val 0 * tauAt env m i) :=
        uniqueDiffOn_Icc (mul_lt_mul_of_pos_left ho.1 htf) _ hmem
      have hr : IsUnit (LX.drExp (e (sol.x.val 0 * tauAt env m i))).det := by rw [g8]; exact hreg i
      have hd := (g9 i p hp k1 k2).hasDerivWithinAt
      obtain ⟨w, hw, e1⟩ := flat_defect (LU := LU) h ocp.f xl ul e (v (sol.x.val 0 * tauAt env m i)) _ _ _ hr
        (HasDerivWithinAt.mono (hxl _ (hsub hmem)) hsub) hd
      constructor
      · intro hv
        rw [h.vel_unique hU hv hw, sub_self, Matrix.mulVec_zero] at e1
        have : dynVal LX LU ocp.f xl ul (sol.x.val 0 * tauAt env m i) (e (sol.x.val 0 * tauAt env m i)) (v (sol.x.val 0 * tauAt env m i)) = _ :=
          sub_eq_zero.1 e1.symm
        change HasDerivWithinAt e (dynVal LX LU ocp.f xl ul (sol.x.val 0 * tauAt env m i) (e (sol.x.val 0 * tauAt env m i))
          (v (sol.x.val 0 * tauAt env m i))) _ _
        rw [this]
        exact hd
      · intro hv
        change HasDerivWithinAt e (dynVal LX LU ocp.f xl ul (sol.x.val 0 * tauAt env m i) (e (sol.x.val 0 * tauAt env m i))
          (v (sol.x.val 0 * tauAt env m i))) _ _ at hv
        rw [hU.eq_deriv _ hv hd, sub_self, h.drExpinv _ hr] at e1
        have e2 := congrArg (fun b => LX.drExp (e (sol.x.val 0 * tauAt env m i)) *ᵥ b) e1
        simp only [Matrix.mulVec_mulVec, Matrix.mul_nonsing_inv _ hr, Matrix.one_mulVec, Matrix.mulVec_zero] at e2
        rw [sub_eq_zero.1 e2]
        exact hw
    constructor
    · intro hF
      exact ⟨fun i p hp k1 k2 => (hdyn i p hp k1 k2).2 (hF.dynamics i p hp k1 k2), hF.integrals, hF.running, hF.endpoint⟩
    · intro hF
      exact ⟨fun i p hp k1 k2 => (hdyn i p hp k1 k2).1 (hF.dynamics i p hp k1 k2), hF.integrals, hF.running, hF.endpoint⟩
  · rw [g11, g3]
    rfl

end

end Verif.Flatten
