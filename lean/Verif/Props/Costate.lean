import Verif.Proofs.CostateGrad
import Verif.Proofs.MeshTransfer
import Verif.Props.Collocated

/-! # The multipliers that come back from the nonlinear program (C109) -/

set_option linter.unusedSectionVars false

namespace Verif.Mesh

open Polynomial Verif.MeshFn

/-- The collocation points of the `k`-th interval by index. -/
theorem tauAt_local (env : Env ℝ) (m : Mesh ℝ) (hm : m ≠ []) {k : ℕ} {p : Ival ℝ × ℝ} (hk : (spans 1 m)[k]? = some p) {j : ℕ} (hj : j < p.1.K) :
    tauAt env m (points (m.take k) + j) = toMesh p.1.tau0 p.2 (env.node p.1.K j) := by
  have hlen := localNodes_length env p
  have h := flatMap_getElem?_at (spans 1 m) (localNodes env) k p j hk (by rw [hlen]; exact hj)
  have hpos : (((spans 1 m).take k).map fun a => (localNodes env a).length).sum = points (m.take k) := by
    unfold points
    conv_rhs => rw [← spans_fst 1 m]
    rw [← List.map_take, List.map_map]
    congr 1
    apply List.map_congr_left
    intro p _
    simp [localNodes]
  rw [hpos] at h
  have hlt : points (m.take k) + j < ((spans 1 m).flatMap (localNodes env)).length := by
    by_contra hc
    rw [List.getElem?_eq_none (by omega)] at h
    rw [List.getElem?_eq_getElem (by rw [hlen]; exact hj)] at h
    simp at h
  rw [tauAt, allNodes_eq env m hm, getD_append_left _ _ _ hlt, ← localNodes_getD env p hj, List.getD_eq_getElem?_getD, h,
    List.getD_eq_getElem?_getD]

/-- Every collocation point by interval. -/
theorem tauAt_index (env : Env ℝ) (m : Mesh ℝ) (hm : m ≠ []) {i : ℕ} (hi : i < nColloc m) :
    ∃ k p j, (spans 1 m)[k]? = some p ∧ j < p.1.K ∧ i = points (m.take k) + j := by
  have hi' : i < points m := lt_of_lt_of_eq hi (nColloc_eq m)
  have hl : i < ((spans 1 m).flatMap (localNodes env)).length := by rw [flatMap_length_localNodes]; exact hi'
  obtain ⟨k, p, j, hk, hj, hij⟩ := flatMap_getElem? _ _ _ _ (List.getElem?_eq_getElem hl)
  have hj' := (List.getElem?_eq_some_iff.1 hj).1
  rw [localNodes_length] at hj'
  refine ⟨k, p, j, hk, hj', ?_⟩
  rw [hij]
  congr 1
  unfold points
  conv_rhs => rw [← spans_fst 1 m]
  rw [← List.map_take, List.map_map]
  congr 1
  apply List.map_congr_left
  intro p _
  simp [localNodes]

/-- An interval is determined by a point other than its start. -/
theorem span_unique_left {Kmin Kmax : ℕ} (m : Mesh ℝ) (hm : Valid Kmin Kmax m) {p p' : Ival ℝ × ℝ}
    (hp : p ∈ spans 1 m) (hp' : p' ∈ spans 1 m) {x : ℝ} (h1 : p.1.tau0 < x) (h2 : x ≤ p.2) (h1' : p'.1.tau0 < x) (h2' : x ≤ p'.2) : p = p' := by
  obtain ⟨i, hi, rfl⟩ := List.getElem_of_mem hp
  obtain ⟨j, hj, rfl⟩ := List.getElem_of_mem hp'
  have hpw := (spans_ordered hm.increasing hm.below).2
  rcases lt_trichotomy i j with h | rfl | h
  · have := List.pairwise_iff_getElem.1 hpw i j hi hj h
    linarith
  · rfl
  · have := List.pairwise_iff_getElem.1 hpw j i hj hi h
    linarith

/-- An interval that does not start at 0 begins where another ends. -/
theorem span_pred {Kmin Kmax : ℕ} (m : Mesh ℝ) (hm : Valid Kmin Kmax m) {p : Ival ℝ × ℝ} (hp : p ∈ spans 1 m) (h0 : 0 < p.1.tau0) :
    ∃ p' ∈ spans 1 m, p'.2 = p.1.tau0 := by
  obtain ⟨k, hk⟩ := List.getElem?_of_mem hp
  obtain ⟨hv, -⟩ := spans_some (v := p.1) (b := p.2) hk
  cases k with
  | zero =>
    have hs := hm.starts
    rw [List.head?_eq_getElem?, List.getElem?_map, hv] at hs
    simp only [Option.map_some, Option.some.injEq] at hs
    linarith
  | succ k =>
    have hlt : k < m.length := by
      have := (List.getElem?_eq_some_iff.1 hv).1; omega
    refine ⟨(m[k], tauf m k), List.mem_of_getElem? (i := k) (by rw [spans_getElem?, List.getElem?_eq_getElem hlt]; rfl), ?_⟩
    simp only [tauf, hv]

/-- The first interval starts at 0, the last ends at 1. -/
theorem span_last {Kmin Kmax : ℕ} (m : Mesh ℝ) (hm : Valid Kmin Kmax m) {p : Ival ℝ × ℝ} {k : ℕ} (hk : (spans 1 m)[k]? = some p) (h : p.2 = 1) :
    k + 1 = m.length := by
  obtain ⟨hv, -⟩ := spans_some (v := p.1) (b := p.2) hk
  have hlt := (List.getElem?_eq_some_iff.1 hv).1
  by_contra hc
  have hlt' : k + 1 < m.length := by omega
  have h2 : p.2 = tauf m k := by
    rw [spans_getElem?, hv] at hk
    simp only [Option.map_some, Option.some.injEq] at hk
    rw [← hk]
  rw [h, tauf, List.getElem?_eq_getElem hlt'] at h2
  have := hm.below m[k + 1] (List.getElem_mem _)
  simp only at h2
  linarith

end Verif.Mesh

namespace Verif.NLP

open Verif.Mesh Verif.Sparse Verif.MeshFn Verif.QP Verif.QPSpec Verif.Flatten

open scoped Polynomial

variable {nx nu nq ncr nce : ℕ}

/-- `s` consists of the values of the functions of a solution. -/
structure Reads (o : OCPSol ℝ nx nu nq ncr nce) (s : Extremal nx nu nq ncr nce) : Prop where
  t0 : o.t0 = 0
  tf : o.tf = s.tf
  q : o.Q = s.q
  x : ∀ t, o.x t = some (s.x t)
  u : ∀ t, o.u t = some (s.u t)
  ldyn : ∀ t, o.lambda_dyn t = some (s.ldyn t)
  lcr : ∀ t, o.lambda_cr t = some (s.lcr t)
  lq : o.lambda_q = s.lq
  lce : o.lambda_ce = s.lce

/-- What a solution contains, by index. -/
structure Contains (env : Mesh.Env ℝ) (m : Mesh ℝ) (sol : NLPSol ℝ) (s : Extremal nx nu nq ncr nce) : Prop where
  tf : s.tf = sol.x.val 0
  q : ∀ k, s.q k = held (nColloc m) nx nu nq sol.x (.q k)
  x : ∀ i : Fin (nColloc m + 1), s.x (s.tf * tauAt env m i) = fun k => held (nColloc m) nx nu nq sol.x (.x i k)
  u : ∀ i : Fin (nColloc m), s.u (s.tf * tauAt env m i) = fun k => held (nColloc m) nx nu nq sol.x (.u i k)
  ldyn : ∀ i : Fin (nColloc m), s.ldyn (s.tf * tauAt env m i) = fun k => sol.lambda.val (NCon.dyn (nq := nq) (ncr := ncr) (nce := nce) i k).pos
  lcr : ∀ i : Fin (nColloc m), s.lcr (s.tf * tauAt env m i) = fun k => sol.lambda.val (NCon.cr (nx := nx) (nq := nq) (nce := nce) i k).pos
  lq : ∀ k, s.lq k = sol.lambda.val (NCon.int (N := nColloc m) (nx := nx) (ncr := ncr) (nce := nce) k).pos
  lce : ∀ k, s.lce k = sol.lambda.val (NCon.ce (N := nColloc m) (nx := nx) (nq := nq) (ncr := ncr) k).pos

/-- The functions that `nlpsol_to_ocpsol` makes, with the pieces of the multipliers of the dynamics. -/
theorem ocpsol_extremal (env : Mesh.Env ℝ) (hB : IsLagrange env) (hS : IsSearch env) {Kmin Kmax : ℕ} (h1 : 1 ≤ Kmin) (m : Mesh ℝ)
    (hm : Valid Kmin Kmax m) (hL : ∀ K, Kmin ≤ K → K ≤ Kmax + 1 → IsLGR env K) (sol : NLPSol ℝ)
    (hx : sol.x.size = nVars (nColloc m) nx nu nq) (hl : sol.lambda.size = nCons (nColloc m) nx nq ncr nce) (htf : 0 < sol.x.val 0) :
    ∃ (o : OCPSol ℝ nx nu nq ncr nce) (s : Extremal nx nu nq ncr nce) (L : Ival ℝ × ℝ → Fin nx → ℝ[X]),
      nlpsolToOcpsol nx nu nq ncr nce env m sol = some o ∧ Reads o s ∧ Contains env m sol s ∧ Pieces env m s L ∧
      ∀ p ∈ spans 1 m, p.2 = 1 → ∀ τ, p.1.tau0 ≤ τ → τ ≤ 1 → ∀ l, s.ldyn (s.tf * τ) l = (L p l).eval τ := by
  obtain ⟨o, e, v, P, g1, g2, g3, g4, g5, g6, g7, g8, g9, g10⟩ := ocpsol_pieces (nx := nx) (nu := nu) (nq := nq) (ncr := ncr) (nce := nce) env hB hS h1 m hm hL sol hx hl htf
  obtain ⟨b1, -, -, -, b5⟩ := begs nx nu nq (nColloc m)
  obtain ⟨c1, c2, c3, c4, c5⟩ := cbegs nx nq ncr nce (nColloc m)
  have hsz : sol.x.size = numX nx nu nq (nColloc m) ∧ sol.lambda.size = numG nx nq ncr nce (nColloc m) := by rw [b5, c5]; exact ⟨hx, hl⟩
  have hlenD : (cols nx (nColloc m) (dB nx nq ncr nce (nColloc m)) sol.lambda).length = nColloc m := by simp [cols]
  have hlenR : (cols ncr (nColloc m) (crB nx nq ncr nce (nColloc m)) sol.lambda).length = nColloc m := by simp [cols]
  have g1' := g1
  unfold nlpsolToOcpsol at g1'
  simp only at g1'
  rw [if_pos hsz] at g1'
  have ho := Option.some.inj g1'
  have hed : ∀ t, o.lambda_dyn t = eval env m ((t - 0) / (sol.x.val (tfB nx nu nq (nColloc m)) - 0))
    (cols nx (nColloc m) (dB nx nq ncr nce (nColloc m)) sol.lambda) 0 false := fun t => by rw [← ho]
  have her : ∀ t, o.lambda_cr t = eval env m ((t - 0) / (sol.x.val (tfB nx nu nq (nColloc m)) - 0))
    (cols ncr (nColloc m) (crB nx nq ncr nce (nColloc m)) sol.lambda) 0 false := fun t => by rw [← ho]
  choose ld hld using fun t : ℝ => eval_isSome env hS h1 m hm (cols nx (nColloc m) (dB nx nq ncr nce (nColloc m)) sol.lambda)
    ((t - 0) / (sol.x.val (tfB nx nu nq (nColloc m)) - 0)) false
  choose lr hlr using fun t : ℝ => eval_isSome env hS h1 m hm (cols ncr (nColloc m) (crB nx nq ncr nce (nColloc m)) sol.lambda)
    ((t - 0) / (sol.x.val (tfB nx nu nq (nColloc m)) - 0)) false
  have hdiv : ∀ t, (o.tf * t - 0) / (sol.x.val (tfB nx nu nq (nColloc m)) - 0) = t := by
    intro t
    rw [b1, g3, sub_zero, sub_zero, mul_div_cancel_left₀ _ htf.ne']
  have hldv : ∀ i : Fin (nColloc m), ld (o.tf * tauAt env m i) = fun k => sol.lambda.val (NCon.dyn (nq := nq) (ncr := ncr) (nce := nce) i k).pos := by
    intro i
    have h2 := hld (o.tf * tauAt env m i)
    rw [hdiv, eval_interpolates_open env hB hS Kmin Kmax h1 m hm hL _ hlenD i i.2 _ (tauAt_get env h1 m hm hL i (by have := i.2; omega)),
      cols_get _ _ _ _ _ i.2, c1] at h2
    rw [← Option.some.inj h2]
    funext k
    simp only [NCon.pos, zero_add]
  have hlrv : ∀ i : Fin (nColloc m), lr (o.tf * tauAt env m i) = fun k => sol.lambda.val (NCon.cr (nx := nx) (nq := nq) (nce := nce) i k).pos := by
    intro i
    have h2 := hlr (o.tf * tauAt env m i)
    rw [hdiv, eval_interpolates_open env hB hS Kmin Kmax h1 m hm hL _ hlenR i i.2 _ (tauAt_get env h1 m hm hL i (by have := i.2; omega)),
      cols_get _ _ _ _ _ i.2, c3] at h2
    rw [← Option.some.inj h2]
    funext k
    simp only [NCon.pos, Nat.add_assoc]
  have hdeg : ∀ p ∈ spans 1 m, 1 ≤ p.1.K ∧ IsLGR env p.1.K := fun p hp => by
    have := hm.degree _ (mem_spans_fst hp)
    exact ⟨h1.trans this.1, hL _ this.1 this.2⟩
  have hPc : ∀ p : Ival ℝ × ℝ, ∃ L : Fin nx → ℝ[X], p ∈ spans 1 m → (∀ l, (L l).natDegree < p.1.K) ∧
      ∃ k, (spans 1 m)[k]? = some p ∧ ∀ j, j < p.1.K → ∀ l, (L l).eval (toMesh p.1.tau0 p.2 (env.node p.1.K j)) =
        ld (o.tf * tauAt env m (points (m.take k) + j)) l := by
    intro p
    by_cases hp : p ∈ spans 1 m
    · obtain ⟨k, hk⟩ := List.getElem?_of_mem hp
      have hord := span_ordered hm (v := p.1) (b := p.2) hk
      choose L hL1 hL2 using fun l : Fin nx => exists_poly_open (hdeg p hp).2 (hdeg p hp).1 hord.1
        fun j : Fin p.1.K => ld (o.tf * tauAt env m (points (m.take k) + j)) l
      exact ⟨L, fun _ => ⟨fun l => by have := hL1 l; have := (hdeg p hp).1; omega, k, hk, fun j hj l => hL2 l ⟨j, hj⟩⟩⟩
    · exact ⟨fun _ => 0, fun h => absurd h hp⟩
  choose L hLp using hPc
  have hLv : ∀ p ∈ spans 1 m, ∀ k, (spans 1 m)[k]? = some p → ∀ j, j < p.1.K → ∀ l,
      (L p l).eval (toMesh p.1.tau0 p.2 (env.node p.1.K j)) = ld (o.tf * tauAt env m (points (m.take k) + j)) l := by
    intro p hp k hk j hj l
    obtain ⟨-, k', hk', hv⟩ := hLp p hp
    rw [hv j hj l, tauAt_local env m hm.ne_nil hk' hj, tauAt_local env m hm.ne_nil hk hj]
  refine ⟨o, ⟨o.tf, e, v, o.Q, ld, lr, o.lambda_q, o.lambda_ce⟩, L, g1, ⟨g2, rfl, rfl, g5, g6, fun t => (hed t).trans (hld t),
    fun t => (her t).trans (hlr t), rfl, rfl⟩, ⟨g3, g4, g9, g10, hldv, hlrv, fun k => ?_, fun k => ?_⟩, ⟨fun p hp => (hLp p hp).1, ?_⟩, ?_⟩
  · rw [← ho]; simp only [c2, NCon.pos]
  · rw [← ho]; simp only [c4, NCon.pos]
  · intro i p hp k1 k2 l
    obtain ⟨k, p', j, hk, hj, hij⟩ := tauAt_index env m hm.ne_nil i.2
    have hp' := List.mem_of_getElem? hk
    have hord := span_ordered hm (v := p'.1) (b := p'.2) hk
    have hτ := tauAt_local env m hm.ne_nil hk hj
    rw [← hij] at hτ
    have hb := (localNodes_bounds (p := p') (hdeg p' hp').2 hord.1).1 (tauAt env m i) (by
      rw [hτ]
      simp only [localNodes, List.mem_map, List.mem_range]
      exact ⟨j, hj, rfl⟩)
    obtain rfl := span_unique env hS m hm hp hp' k1 k2 hb.1 hb.2
    have := hLv p hp k hk j hj l
    rw [← hτ, ← hij] at this
    exact this
  · intro p hp hp1 τ k1 k2 l
    obtain ⟨k, hk⟩ := List.getElem?_of_mem hp
    have hlast := span_last m hm hk hp1
    have hord := span_ordered hm (v := p.1) (b := p.2) hk
    have hf : intervalFind env m τ = k := by
      obtain ⟨-, f2, f3⟩ := interval_find_correct env hS Kmin Kmax m hm τ
      rcases k2.lt_or_eq with h | h
      · exact (f3 (hord.2.2.trans k1) h).2 k p.1 p.2 hk k1 (by rw [hp1]; exact h)
      · rw [f2 h.ge]; omega
    have hev := eval_polynomial_last env hB Kmin Kmax m hm hL τ (cols nx (nColloc m) (dB nx nq ncr nce (nColloc m)) sol.lambda) 0 k p.1 p.2 hf hk hlast
      (hdeg p hp).1 (L p) (fun c => by have := (hLp p hp).1 c; omega) (by
        intro j hj
        have hlt : points (m.take k) + j < nColloc m := by
          have := points_take_add (spans_some (v := p.1) (b := p.2) hk).1
          rw [nColloc_eq]; omega
        change (cols nx (nColloc m) (dB nx nq ncr nce (nColloc m)) sol.lambda)[points (m.take k) + j]? = _
        rw [cols_get _ _ _ _ _ hlt, c1]
        congr 1
        funext c
        have h3 := hLv p hp k hk j hj c
        rw [hldv ⟨_, hlt⟩] at h3
        simp only [NCon.pos] at h3
        rw [zero_add, ← h3, toMesh])
    have h2 := hld (o.tf * τ)
    rw [hdiv, hev] at h2
    have := congrFun (Option.some.inj h2) l
    simp only [pow_zero, one_mul, Function.iterate_zero, id_eq] at this
    exact this.symm

/-- The pieces are determined by the multipliers. -/
theorem pieces_unique (env : Mesh.Env ℝ) {Kmin Kmax : ℕ} (m : Mesh ℝ) (hm : Valid Kmin Kmax m)
    (hL : ∀ K, Kmin ≤ K → K ≤ Kmax + 1 → IsLGR env K) {s : Extremal nx nu nq ncr nce} {L L' : Ival ℝ × ℝ → Fin nx → ℝ[X]}
    (h : Pieces env m s L) (h' : Pieces env m s L') (p : Ival ℝ × ℝ) (hp : p ∈ spans 1 m) (l : Fin nx) : L p l = L' p l := by
  obtain ⟨k, hk⟩ := List.getElem?_of_mem hp
  have hord := span_ordered hm (v := p.1) (b := p.2) hk
  have hd := hm.degree _ (mem_spans_fst hp)
  have hK := hL _ hd.1 hd.2
  have hinj : Function.Injective fun j : Fin p.1.K => toMesh p.1.tau0 p.2 (env.node p.1.K j) := by
    intro i j hij
    apply node_injective hK
    simp only [toMesh] at hij ⊢
    have h2 : (p.2 - p.1.tau0) / 2 ≠ 0 := by
      have : 0 < (p.2 - p.1.tau0) / 2 := by linarith [hord.1]
      exact this.ne'
    have := mul_left_cancel₀ h2 (add_left_cancel hij)
    linarith
  refine Polynomial.eq_of_natDegree_lt_card_of_eval_eq _ _ hinj (fun j => ?_) (by
    rw [Fintype.card_fin]; exact max_lt (h.degree p hp l) (h'.degree p hp l))
  have hlt : points (m.take k) + j < nColloc m := by
    have := points_take_add (spans_some (v := p.1) (b := p.2) hk).1
    have := j.2
    rw [nColloc_eq]; omega
  have hτ := tauAt_local env m hm.ne_nil hk j.2
  have hb := (localNodes_bounds (p := p) hK hord.1).1 (tauAt env m (points (m.take k) + j)) (by
    rw [hτ]
    simp only [localNodes, List.mem_map, List.mem_range]
    exact ⟨j, j.2, rfl⟩)
  have e1 := h.values ⟨_, hlt⟩ p hp hb.1 hb.2 l
  have e2 := h'.values ⟨_, hlt⟩ p hp hb.1 hb.2 l
  simp only at e1 e2
  rw [← hτ, e1, e2]

/-- Stationarity of the Lagrangian of the nonlinear program, with the multiplier `ζ` of the bound on the final time. -/
def Stationary (ocp : OCP ℝ nx nu nq ncr nce) (env : Mesh.Env ℝ) (m : Mesh ℝ) (ζ : ℝ) (sol : NLPSol ℝ) : Prop :=
  ∀ v : NVar (nColloc m) nx nu nq, pd (objective ocp) v (held (nColloc m) nx nu nq sol.x) +
    ∑ c : NCon (nColloc m) nx nq ncr nce, sol.lambda.val c.pos * pd (conFn ocp env m (wScaling env m) c) v (held (nColloc m) nx nu nq sol.x) =
      if v = .tf then ζ else 0

theorem stationary_iff_costates (env : Mesh.Env ℝ) (hB : IsLagrange env) (hS : IsSearch env) {Kmin Kmax : ℕ} (h1 : 1 ≤ Kmin) (m : Mesh ℝ)
    (hm : Valid Kmin Kmax m) (hL : ∀ K, Kmin ≤ K → K ≤ Kmax + 1 → IsLGR env K) (ocp : OCP ℝ nx nu nq ncr nce) (hd : IsDrOCP ocp) (sol : NLPSol ℝ)
    (htf : 0 < sol.x.val 0) (s : Extremal nx nu nq ncr nce) (L : Ival ℝ × ℝ → Fin nx → ℝ[X]) (hc : Contains env m sol s) (hp : Pieces env m s L)
    (hlast : ∀ p ∈ spans 1 m, p.2 = 1 → ∀ τ, p.1.tau0 ≤ τ → τ ≤ 1 → ∀ l, s.ldyn (s.tf * τ) l = (L p l).eval τ) (ζ : ℝ) :
    Stationary ocp env m ζ sol ↔ Costates ocp env m (wScaling env m) ζ s L := by
  obtain ⟨t0, tN, tb⟩ := tauAt_bounds env h1 m hm hL
  set z := held (nColloc m) nx nu nq sol.x with hz
  have hws : 0 < wScaling env m := wScaling_pos env m
  have hw : ∀ i : Fin (nColloc m), 0 < wAt env m i := wAt_pos env hm hL
  have hNpos : 0 < nColloc m := nColloc_pos hm.ne_nil fun v hv => h1.trans (hm.degree v hv).1
  have hztf : z .tf = s.tf := by rw [hc.tf]; rfl
  have htf' : 0 < s.tf := by rw [hc.tf]; exact htf
  have x0 : s.x 0 = fun k => z (.x 0 k) := by
    have := hc.x 0
    rw [show ((0 : Fin (nColloc m + 1)) : ℕ) = 0 from rfl, t0, mul_zero] at this
    exact this
  have xN : s.x s.tf = fun k => z (.x (Fin.last _) k) := by
    have := hc.x (Fin.last _)
    rw [Fin.val_last, tN, mul_one] at this
    exact this
  have hends : ends z = s.ep := by
    funext a
    cases a with
    | tf => exact hztf
    | x0 k => exact (congrFun x0 k).symm
    | xf k => exact (congrFun xN k).symm
    | q k => exact (hc.q k).symm
  have hspan : onMesh z .tf - onMesh z .t0 = s.tf := by simp only [onMesh, sub_zero, hztf]
  have hnode : ∀ i : Fin (nColloc m), nodePt (tauAt env m i) i (onMesh z) = s.at' (tauAt env m i) := by
    intro i
    funext a
    cases a with
    | t => simp only [nodePt, Extremal.at', pt, onMesh, hztf]; ring
    | x k => exact (congrFun (hc.x i.castSucc) k).symm
    | u k => exact (congrFun (hc.u i) k).symm
  -- the gradient
  have hgrad : ∀ v : NVar (nColloc m) nx nu nq, pd (objective ocp) v z + ∑ c : NCon (nColloc m) nx nq ncr nce, sol.lambda.val c.pos *
      pd (conFn ocp env m (wScaling env m) c) v z = pullE (fun a => pd (endCost ocp s.lce) a s.ep) v + wScaling env m *
        (pullM (fun w => ∑ i : Fin (nColloc m), wAt env m i * (dspan w * ham ocp (s.ldyn (s.tf * tauAt env m i)) s.lq 0 (s.at' (tauAt env m i)) +
          s.tf * pull (tauAt env m i) i (fun a => pd (s.H ocp (tauAt env m i)) a (s.at' (tauAt env m i))) w -
          ∑ k, s.ldyn (s.tf * tauAt env m i) k * slope env (spans 1 m) (coordAt (unit w) k) i)) v -
        ∑ k, s.lq k * if NVar.q k = v then 1 else 0) := by
    intro v
    rw [pd_lagrangian hd env m (wScaling env m) (fun i => s.ldyn (s.tf * tauAt env m i)) s.lq (fun i => s.lcr (s.tf * tauAt env m i)) s.lce
      (fun c => sol.lambda.val c.pos) (fun i k => by rw [hc.ldyn i]) (fun k => (hc.lq k).symm) (fun i k => by rw [hc.lcr i])
      (fun k => (hc.lce k).symm) z v, hends]
    congr 3
    congr 1
    funext w
    rw [pd_meshL hd env m _ _ _ _ (by rw [hspan]; exact htf'.ne') w, hspan]
    refine Finset.sum_congr rfl fun i _ => ?_
    rw [hnode i]
    rfl
  -- the values from either side
  have hR : ∀ l : Fin nx, ∃ R : ℝ → ℝ, ∀ p ∈ spans 1 m, ∀ x, p.1.tau0 ≤ x → x < p.2 → R x = (L p l).eval x := by
    intro l
    classical
    refine ⟨fun x => if h : ∃ p ∈ spans 1 m, p.1.tau0 ≤ x ∧ x < p.2 then (L h.choose l).eval x else 0, fun p hp x k1 k2 => ?_⟩
    have h : ∃ p ∈ spans 1 m, p.1.tau0 ≤ x ∧ x < p.2 := ⟨p, hp, k1, k2⟩
    obtain ⟨j1, j2, j3⟩ := h.choose_spec
    simp only
    rw [dif_pos h, span_unique env hS m hm hp j1 k1 k2 j2 j3]
  have hD : ∀ l : Fin nx, ∃ R : ℝ → ℝ, ∀ p ∈ spans 1 m, ∀ x, p.1.tau0 ≤ x → x < p.2 → R x = (L p l).derivative.eval x := by
    intro l
    classical
    refine ⟨fun x => if h : ∃ p ∈ spans 1 m, p.1.tau0 ≤ x ∧ x < p.2 then (L h.choose l).derivative.eval x else 0, fun p hp x k1 k2 => ?_⟩
    have h : ∃ p ∈ spans 1 m, p.1.tau0 ≤ x ∧ x < p.2 := ⟨p, hp, k1, k2⟩
    obtain ⟨j1, j2, j3⟩ := h.choose_spec
    simp only
    rw [dif_pos h, span_unique env hS m hm hp j1 k1 k2 j2 j3]
  have hLf : ∀ l : Fin nx, ∃ R : ℝ → ℝ, ∀ p ∈ spans 1 m, ∀ x, p.1.tau0 < x → x ≤ p.2 → R x = (L p l).eval x := by
    intro l
    classical
    refine ⟨fun x => if h : ∃ p ∈ spans 1 m, p.1.tau0 < x ∧ x ≤ p.2 then (L h.choose l).eval x else 0, fun p hp x k1 k2 => ?_⟩
    have h : ∃ p ∈ spans 1 m, p.1.tau0 < x ∧ x ≤ p.2 := ⟨p, hp, k1, k2⟩
    obtain ⟨j1, j2, j3⟩ := h.choose_spec
    simp only
    rw [dif_pos h, span_unique_left m hm hp j1 k1 k2 j2 j3]
  choose R hR using hR
  choose D hD using hD
  choose Lf hLf using hLf
  have hin : ∀ i : Fin (nColloc m), ∃ p ∈ spans 1 m, p.1.tau0 ≤ tauAt env m i ∧ tauAt env m i < p.2 := by
    intro i
    obtain ⟨p, hp, k1, -, k2⟩ := tauAt_span env hS h1 m hm _ (tb i).1 (tb i).2.le
    exact ⟨p, hp, k1, k2 (tb i).2⟩
  have hRl : ∀ (i : Fin (nColloc m)) l, R l (tauAt env m i) = s.ldyn (s.tf * tauAt env m i) l := by
    intro i l
    obtain ⟨p, hpm, k1, k2⟩ := hin i
    rw [hR l p hpm _ k1 k2, hp.values i p hpm k1 k2 l]
  -- the sums over the mesh
  have hcol : ∀ (j : Fin (nColloc m + 1)) (l : Fin nx), ∑ i : Fin (nColloc m), wAt env m i *
      ∑ k, s.ldyn (s.tf * tauAt env m i) k * slope env (spans 1 m) (coordAt (unit (Var.x j l : Var (nColloc m) nx nu)) k) i =
      (if 0 < (j : ℕ) then Lf l (tauAt env m j) else 0) -
        if (j : ℕ) < nColloc m then R l (tauAt env m j) + wAt env m j * D l (tauAt env m j) else 0 := by
    intro j l
    have hb := by_parts hB hm.increasing hm.below (fun v hv => ⟨h1.trans (hm.degree v hv).1, hL _ (hm.degree v hv).1 (hm.degree v hv).2⟩)
      (fun p => L p l) (fun p hpm => hp.degree p hpm l) (R l) (Lf l) (D l) (hR l) (hLf l) (hD l) j
      (by have := j.2; have := nColloc_eq m; omega)
    rw [← nColloc_eq, Finset.sum_range] at hb
    have ew : ∀ i, i < nColloc m → ((spans 1 m).flatMap (localWeights env)).getD i 0 = wAt env m i := by
      intro i hi
      rw [wAt, allWeights_eq env m hm.ne_nil, getD_append_left]
      rw [flatMap_length_localWeights]
      exact lt_of_lt_of_eq hi (nColloc_eq m)
    have et : ∀ i, ((spans 1 m).flatMap (localNodes env) ++ [1]).getD i 0 = tauAt env m i := by
      intro i
      rw [tauAt, allNodes_eq env m hm.ne_nil]
    simp only [et] at hb
    have e2 : (if (j : ℕ) < nColloc m then R l (tauAt env m j) + ((spans 1 m).flatMap (localWeights env)).getD j 0 * D l (tauAt env m j) else 0) =
        if (j : ℕ) < nColloc m then R l (tauAt env m j) + wAt env m j * D l (tauAt env m j) else 0 := by
      split_ifs with h
      · rw [ew j h]
      · rfl
    rw [e2] at hb
    rw [← hb]
    refine Finset.sum_congr rfl fun i _ => ?_
    rw [ew i i.2, hRl i l]
    congr 1
    have e3 : ∀ k : Fin nx, s.ldyn (s.tf * tauAt env m i) k * slope env (spans 1 m) (coordAt (unit (Var.x j l : Var (nColloc m) nx nu)) k) i =
        if k = l then s.ldyn (s.tf * tauAt env m i) k * slope env (spans 1 m) (fun a => if a = (j : ℕ) then 1 else 0) i else 0 := by
      intro k
      split_ifs with h
      · congr 2
        funext a
        unfold coordAt unit
        by_cases ha : a < nColloc m + 1
        · rw [dif_pos ha, h]
          simp only [Var.x.injEq, Fin.ext_iff, and_true]
        · rw [dif_neg ha, if_neg (by have := j.2; omega)]
      · have : coordAt (unit (Var.x j l : Var (nColloc m) nx nu)) k = fun _ => 0 := by
          funext a
          unfold coordAt unit
          split_ifs with h1 h2
          · exact absurd (Var.x.inj h2).2 h
          · rfl
          · rfl
        rw [this, slope_zero, mul_zero]
    rw [Finset.sum_congr rfl fun k _ => e3 k, Finset.sum_ite_eq']
    simp
  have hcol0 : ∀ w : Var (nColloc m) nx nu, (∀ j l, w ≠ .x j l) → ∀ (i : Fin (nColloc m)) k, slope env (spans 1 m) (coordAt (unit w) k) i = 0 := by
    intro w h i k
    have : coordAt (unit w) k = fun _ => 0 := by
      funext a
      unfold coordAt unit
      split_ifs with h1 h2
      · exact absurd h2.symm (h _ _)
      · rfl
      · rfl
    rw [this, slope_zero]
  -- the gradient by the variables
  have gtf : pd (objective ocp) .tf z + ∑ c : NCon (nColloc m) nx nq ncr nce, sol.lambda.val c.pos *
      pd (conFn ocp env m (wScaling env m) c) .tf z = wScaling env m * ∑ i : Fin (nColloc m), wAt env m i *
        (ham ocp (s.ldyn (s.tf * tauAt env m i)) s.lq 0 (s.at' (tauAt env m i)) +
          s.tf * tauAt env m i * pd (s.H ocp (tauAt env m i)) .t (s.at' (tauAt env m i))) + pd (endCost ocp s.lce) .tf s.ep := by
    rw [hgrad]
    simp only [pullE, pullM, pull, dspan, hcol0 _ (fun j l => by simp : ∀ j l, (Var.tf : Var (nColloc m) nx nu) ≠ .x j l), mul_zero,
      Finset.sum_const_zero, sub_zero, one_mul, reduceCtorEq, if_false]
    rw [add_comm]
    congr 3
    funext i
    ring
  have gq : ∀ k, pd (objective ocp) (.q k) z + ∑ c : NCon (nColloc m) nx nq ncr nce, sol.lambda.val c.pos *
      pd (conFn ocp env m (wScaling env m) c) (.q k) z = pd (endCost ocp s.lce) (.q k) s.ep - wScaling env m * s.lq k := by
    intro k
    rw [hgrad]
    simp only [pullE, pullM, NVar.q.injEq, mul_ite, mul_one, mul_zero, Finset.sum_ite_eq', Finset.mem_univ, if_true]
    ring
  have gu : ∀ (i : Fin (nColloc m)) l, pd (objective ocp) (.u i l) z + ∑ c : NCon (nColloc m) nx nq ncr nce, sol.lambda.val c.pos *
      pd (conFn ocp env m (wScaling env m) c) (.u i l) z = wScaling env m * (wAt env m i * (s.tf * pd (s.H ocp (tauAt env m i)) (.u l) (s.at' (tauAt env m i)))) := by
    intro i l
    rw [hgrad]
    simp only [pullE, pullM, pull, dspan, hcol0 _ (fun j l' => by simp : ∀ j l', (Var.u i l : Var (nColloc m) nx nu) ≠ .x j l'), mul_zero,
      Finset.sum_const_zero, sub_zero, zero_mul, zero_add, reduceCtorEq, if_false, mul_ite, Finset.sum_ite_eq, Finset.mem_univ, if_true]
  have gx : ∀ (j : Fin (nColloc m + 1)) l, pd (objective ocp) (.x j l) z + ∑ c : NCon (nColloc m) nx nq ncr nce, sol.lambda.val c.pos *
      pd (conFn ocp env m (wScaling env m) c) (.x j l) z =
      ((if j = 0 then pd (endCost ocp s.lce) (.x0 l) s.ep else 0) + if j = Fin.last _ then pd (endCost ocp s.lce) (.xf l) s.ep else 0) +
      wScaling env m * ((∑ i : Fin (nColloc m), wAt env m i * (s.tf * if j = i.castSucc then pd (s.H ocp (tauAt env m i)) (.x l) (s.at' (tauAt env m i)) else 0)) -
        ((if 0 < (j : ℕ) then Lf l (tauAt env m j) else 0) -
        if (j : ℕ) < nColloc m then R l (tauAt env m j) + wAt env m j * D l (tauAt env m j) else 0)) := by
    intro j l
    rw [hgrad, ← hcol]
    simp only [pullE, pullM, pull, dspan, zero_mul, zero_add, reduceCtorEq, if_false, mul_zero, Finset.sum_const_zero, sub_zero]
    rw [← Finset.sum_sub_distrib]
    congr 3
    funext i
    ring
  have gxN : ∀ l, pd (objective ocp) (.x (Fin.last _) l) z + ∑ c : NCon (nColloc m) nx nq ncr nce, sol.lambda.val c.pos *
      pd (conFn ocp env m (wScaling env m) c) (.x (Fin.last _) l) z = pd (endCost ocp s.lce) (.xf l) s.ep - wScaling env m * s.ldyn s.tf l := by
    intro l
    obtain ⟨p, hpm, k1, k2, -⟩ := tauAt_span env hS h1 m hm 1 zero_le_one le_rfl
    obtain ⟨k, hk⟩ := List.getElem?_of_mem hpm
    have hord := span_ordered hm (v := p.1) (b := p.2) hk
    have hp1 : p.2 = 1 := le_antisymm hord.2.1 k2
    have e1 : Lf l 1 = s.ldyn s.tf l := by
      rw [hLf l p hpm 1 (by rw [← hp1]; exact hord.1) k2, ← hlast p hpm hp1 1 k1 le_rfl l, mul_one]
    have e2 : ∀ i : Fin (nColloc m), (Fin.last (nColloc m) = i.castSucc) = False := fun i => by
      simp [Fin.ext_iff]; have := i.2; omega
    rw [gx, if_neg (by simp [Fin.ext_iff]; omega), if_pos rfl, Fin.val_last, tN, e1]
    simp only [e2, if_false, mul_zero, Finset.sum_const_zero, if_pos hNpos, lt_irrefl]
    ring
  have gxi : ∀ (i : Fin (nColloc m)) l, pd (objective ocp) (.x i.castSucc l) z + ∑ c : NCon (nColloc m) nx nq ncr nce, sol.lambda.val c.pos *
      pd (conFn ocp env m (wScaling env m) c) (.x i.castSucc l) z =
      (if (i : ℕ) = 0 then pd (endCost ocp s.lce) (.x0 l) s.ep else 0) +
      wScaling env m * (wAt env m i * (D l (tauAt env m i) + s.tf * pd (s.H ocp (tauAt env m i)) (.x l) (s.at' (tauAt env m i))) +
        R l (tauAt env m i) - if 0 < (i : ℕ) then Lf l (tauAt env m i) else 0) := by
    intro i l
    have e2 : (i.castSucc = Fin.last (nColloc m)) = False := by
      simp [Fin.ext_iff]; have := i.2; omega
    have e3 : ∀ i' : Fin (nColloc m), (i.castSucc = i'.castSucc) = (i = i') := fun i' => by simp
    have e4 : (i.castSucc = (0 : Fin (nColloc m + 1))) = ((i : ℕ) = 0) := by simp [Fin.ext_iff]
    rw [gx]
    simp only [e2, e3, e4, if_false, Fin.val_castSucc, i.2, if_true, mul_ite, mul_zero, Finset.sum_ite_eq, Finset.mem_univ, add_zero]
    ring
  constructor
  · intro h
    have hx : ∀ (i : Fin (nColloc m)) l, _ = (0 : ℝ) := fun i l => (gxi i l).symm.trans (by have := h (.x i.castSucc l); simpa using this)
    refine ⟨?_, ?_, ?_, ?_, ?_, ?_, ?_⟩
    · intro i p hpm k1 k2 l
      have hord := span_ordered hm (v := p.1) (b := p.2) (List.getElem?_of_mem hpm).choose_spec
      have hi : 0 < (i : ℕ) := by
        rcases Nat.eq_zero_or_pos (i : ℕ) with h0 | h0
        · rw [h0, t0] at k1; linarith [hord.2.2]
        · exact h0
      have h3 := hx i l
      rw [if_neg hi.ne', if_pos hi, hD l p hpm _ k1.le k2, hR l p hpm _ k1.le k2, hLf l p hpm _ k1 k2.le, zero_add, add_sub_cancel_right] at h3
      have := (mul_eq_zero.1 ((mul_eq_zero.1 h3).resolve_left hws.ne')).resolve_left (hw i).ne'
      linarith
    · intro i p hpm p' hpm' k1 k2 l
      have hord := span_ordered hm (v := p.1) (b := p.2) (List.getElem?_of_mem hpm).choose_spec
      have hord' := span_ordered hm (v := p'.1) (b := p'.2) (List.getElem?_of_mem hpm').choose_spec
      have hi : 0 < (i : ℕ) := by
        rcases Nat.eq_zero_or_pos (i : ℕ) with h0 | h0
        · rw [h0, t0] at k1; linarith [hord.2.2, hord.1]
        · exact h0
      have h3 := hx i l
      rw [if_neg hi.ne', if_pos hi, hD l p' hpm' _ k2.le (by rw [← k2]; exact hord'.1), hR l p' hpm' _ k2.le (by rw [← k2]; exact hord'.1),
        hLf l p hpm _ (by rw [← k1]; exact hord.1) k1.ge, zero_add] at h3
      have := (mul_eq_zero.1 h3).resolve_left hws.ne'
      linarith
    · intro p hpm k1 l
      have hord := span_ordered hm (v := p.1) (b := p.2) (List.getElem?_of_mem hpm).choose_spec
      have h3 := hx ⟨0, hNpos⟩ l
      have h4 := hRl ⟨0, hNpos⟩ l
      simp only [if_true, lt_irrefl, if_false, t0, mul_zero, sub_zero] at h3 h4
      rw [h4, hD l p hpm 0 k1.le (by rw [← k1]; exact hord.1)] at h3
      linarith
    · intro l
      have h3 := (gxN l).symm.trans (by have := h (.x (Fin.last _) l); simpa using this : _ = (0 : ℝ))
      linarith
    · intro k
      have h3 := (gq k).symm.trans (by have := h (.q k); simpa using this : _ = (0 : ℝ))
      linarith
    · intro i l
      have h3 := (gu i l).symm.trans (by have := h (.u i l); simpa using this : _ = (0 : ℝ))
      have := (mul_eq_zero.1 ((mul_eq_zero.1 h3).resolve_left hws.ne')).resolve_left (hw i).ne'
      exact (mul_eq_zero.1 this).resolve_left htf'.ne'
    · have := h .tf
      rw [if_pos rfl, gtf] at this
      exact this
  · intro h v
    cases v with
    | tf => rw [if_pos rfl, gtf]; exact h.time
    | q k => rw [gq, if_neg (by simp)]; linarith [h.integral k]
    | u i l => rw [gu, if_neg (by simp), h.input i l]; ring
    | x j l =>
      rw [if_neg (by simp)]
      induction j using Fin.lastCases with
      | last => rw [gxN]; linarith [h.final l]
      | cast i =>
        rw [gxi]
        obtain ⟨p, hpm, k1, k2⟩ := hin i
        have hord := span_ordered hm (v := p.1) (b := p.2) (List.getElem?_of_mem hpm).choose_spec
        rcases Nat.eq_zero_or_pos (i : ℕ) with h0 | h0
        · have h4 := hRl i l
          rw [h0, t0] at k1 k2
          have hp0 : p.1.tau0 = 0 := le_antisymm k1 hord.2.2
          have h5 := h.initial p hpm hp0 l
          rw [h4]
          simp only [h0, t0, mul_zero, if_true, lt_irrefl, if_false, sub_zero]
          rw [hD l p hpm 0 k1 k2, h5]
          ring
        · rw [if_neg h0.ne', if_pos h0, hD l p hpm _ k1 k2, hR l p hpm _ k1 k2]
          rcases k1.lt_or_eq with k3 | k3
          · rw [hLf l p hpm _ k3 k2.le, h.adjoint i p hpm k3 k2 l]; ring
          · have hpos : 0 < p.1.tau0 := by
              rcases hord.2.2.lt_or_eq with h6 | h6
              · exact h6
              · exfalso
                have hlt := List.pairwise_iff_getElem.1 (nodes_complete env Kmin Kmax h1 m hm hL).2.2.1 0 i
                  (by rw [(nodes_complete env Kmin Kmax h1 m hm hL).1]; omega) (by rw [(nodes_complete env Kmin Kmax h1 m hm hL).1]; have := i.2; omega) h0
                have g1 := tauAt_get env h1 m hm hL 0 (by omega)
                have g2 := tauAt_get env h1 m hm hL i (by have := i.2; omega)
                rw [List.getElem?_eq_getElem (by rw [(nodes_complete env Kmin Kmax h1 m hm hL).1]; omega)] at g1
                rw [List.getElem?_eq_getElem (by rw [(nodes_complete env Kmin Kmax h1 m hm hL).1]; have := i.2; omega)] at g2
                rw [Option.some.inj g1, Option.some.inj g2, t0, ← k3, ← h6] at hlt
                exact lt_irrefl _ hlt
            obtain ⟨p', hpm', k4⟩ := span_pred m hm hpm hpos
            have hord' := span_ordered hm (v := p'.1) (b := p'.2) (List.getElem?_of_mem hpm').choose_spec
            have h7 := h.jump i p' hpm' p hpm (k4.trans k3) k3 l
            rw [hLf l p' hpm' _ (by rw [← k3, ← k4]; exact hord'.1) (by rw [← k3, k4]), h7]
            ring

/-! ### Scaling -/

theorem ham_smul (ocp : OCP ℝ nx nu nq ncr nce) (c : ℝ) (p : Fin nx → ℝ) (μ : Fin nq → ℝ) (ν : Fin ncr → ℝ) (a : Arg nx nu → ℝ) :
    ham ocp (fun k => c * p k) (fun k => c * μ k) (fun k => c * ν k) a = c * ham ocp p μ ν a := by
  simp only [ham, mul_add, Finset.mul_sum, mul_assoc]

theorem pd_H_scale {ocp : OCP ℝ nx nu nq ncr nce} (hd : IsDrOCP ocp) (s : Extremal nx nu nq ncr nce) (c τ : ℝ) (a : Arg nx nu) (x : Arg nx nu → ℝ) :
    pd ((s.scale c).H ocp τ) a x = c * pd (s.H ocp τ) a x := by
  have e : (s.scale c).H ocp τ = fun x => c * s.H ocp τ x := by
    funext x
    simp only [Extremal.H, Extremal.scale]
    rw [← ham_smul]
    simp only [mul_div_assoc]
  have hdf : DifferentiableAt ℝ (s.H ocp τ) x := contDiff_differentiable (ham_contDiff hd _ _ _) x
  rw [e, pd_const_mul _ hdf]

/-- The multipliers satisfy the conditions with the scale `c` exactly if `c` times the multipliers satisfy those of the problem. -/
theorem costates_scale {ocp : OCP ℝ nx nu nq ncr nce} (hd : IsDrOCP ocp) (env : Mesh.Env ℝ) (m : Mesh ℝ) {c : ℝ} (hc : c ≠ 0) (ζ : ℝ)
    (s : Extremal nx nu nq ncr nce) (L : Ival ℝ × ℝ → Fin nx → ℝ[X]) :
    Costates ocp env m c ζ s L ↔ Costates ocp env m 1 ζ (s.scale c) fun p l => Polynomial.C c * L p l := by
  have e1 : (s.scale c).tf = s.tf := rfl
  have e2 : (s.scale c).ep = s.ep := rfl
  have e3 : ∀ τ, (s.scale c).at' τ = s.at' τ := fun _ => rfl
  have e4 : (s.scale c).lce = s.lce := rfl
  have e5 : ∀ t l, (s.scale c).ldyn t l = c * s.ldyn t l := fun _ _ => rfl
  have e6 : ∀ k, (s.scale c).lq k = c * s.lq k := fun _ => rfl
  have e7 : ∀ τ a, ham ocp ((s.scale c).ldyn (s.tf * τ)) (s.scale c).lq 0 a = c * ham ocp (s.ldyn (s.tf * τ)) s.lq 0 a := by
    intro τ a
    rw [← ham_smul]
    congr 1
    funext k
    simp
  have e8 : ∀ (P : ℝ[X]) x, (Polynomial.C c * P).eval x = c * P.eval x := fun P x => by rw [Polynomial.eval_mul, Polynomial.eval_C]
  have e9 : ∀ (P : ℝ[X]) x, (Polynomial.C c * P).derivative.eval x = c * P.derivative.eval x := fun P x => by
    rw [Polynomial.derivative_C_mul, e8]
  constructor
  · intro h
    refine ⟨fun i p hp k1 k2 l => ?_, fun i p hp p' hp' k1 k2 l => ?_, fun p hp k l => ?_, fun l => ?_, fun k => ?_, fun i l => ?_, ?_⟩ <;>
      simp only [e1, e2, e3, e4, e5, e6, e7, e8, e9, pd_H_scale hd, one_mul]
    · rw [h.adjoint i p hp k1 k2 l]; ring
    · have := h.jump i p hp p' hp' k1 k2 l
      rw [← mul_sub, ← this]; ring
    · rw [← h.initial p hp k l]; ring
    · exact h.final l
    · exact h.integral k
    · rw [h.input i l, mul_zero]
    · rw [← h.time, Finset.mul_sum]
      congr 2
      funext i
      ring
  · intro h
    refine ⟨fun i p hp k1 k2 l => ?_, fun i p hp p' hp' k1 k2 l => ?_, fun p hp k l => ?_, fun l => ?_, fun k => ?_, fun i l => ?_, ?_⟩
    · have := h.adjoint i p hp k1 k2 l
      simp only [e1, e3, e9, pd_H_scale hd] at this
      apply mul_left_cancel₀ hc
      rw [this]; ring
    · have := h.jump i p hp p' hp' k1 k2 l
      simp only [e1, e3, e8, e9, pd_H_scale hd] at this
      apply mul_left_cancel₀ hc
      rw [mul_sub, ← this]; ring
    · have := h.initial p hp k l
      simp only [e1, e2, e3, e4, e5, e9, pd_H_scale hd] at this
      rw [← this]; ring
    · have := h.final l
      simp only [e1, e2, e4, e5, one_mul] at this
      exact this
    · have := h.integral k
      simp only [e2, e4, e6, one_mul] at this
      exact this
    · have := h.input i l
      simp only [e3, pd_H_scale hd] at this
      exact (mul_eq_zero.1 this).resolve_left hc
    · have := h.time
      simp only [e1, e2, e3, e4, e7, pd_H_scale hd, one_mul] at this
      rw [← this, Finset.mul_sum]
      congr 2
      funext i
      ring

/-! ### The scale -/

theorem le_foldl_max (l : List ℝ) (a : ℝ) {x : ℝ} (hx : x ∈ l) : x ≤ l.foldl max a := by
  induction l generalizing a with
  | nil => simp at hx
  | cons b l ih =>
    rw [List.foldl_cons]
    rcases List.mem_cons.1 hx with rfl | h
    · exact (le_max_right _ _).trans (foldl_max_le _ _)
    · exact ih _ h

theorem foldl_max_lt (l : List ℝ) {a c : ℝ} (ha : a < c) (h : ∀ x ∈ l, x < c) : l.foldl max a < c := by
  induction l generalizing a with
  | nil => exact ha
  | cons b l ih =>
    rw [List.foldl_cons]
    exact ih (max_lt ha (h b (by simp))) fun x hx => h x (List.mem_cons_of_mem _ hx)

/-- With more than one collocation point the scale exceeds 1. -/
theorem wScaling_gt_one (env : Mesh.Env ℝ) {Kmin Kmax : ℕ} (h1 : 1 ≤ Kmin) (m : Mesh ℝ) (hm : Valid Kmin Kmax m)
    (hL : ∀ K, Kmin ≤ K → K ≤ Kmax + 1 → IsLGR env K) (h2 : 2 ≤ nColloc m) : 1 < wScaling env m := by
  obtain ⟨hnn, hsum⟩ := weights_nonneg_sum_one env Kmin Kmax h1 m hm hL
  have hlen : (allWeights env m).length = nColloc m + 1 := by
    rw [(nodes_complete env Kmin Kmax h1 m hm hL).2.2.2.2.2.2.2, (nodes_complete env Kmin Kmax h1 m hm hL).1]
  have hget : ∀ i (hi : i < (allWeights env m).length), wAt env m i = (allWeights env m)[i] := by
    intro i hi
    rw [wAt, List.getD_eq_getElem?_getD, List.getElem?_eq_getElem hi]
    rfl
  have hlt : ∀ x ∈ allWeights env m, x < 1 := by
    intro x hx
    obtain ⟨i, hi, rfl⟩ := List.getElem_of_mem hx
    -- another collocation point
    obtain ⟨j, hj, hji⟩ : ∃ j, j < nColloc m ∧ j ≠ i := by
      by_cases h : i = 0
      · exact ⟨1, by omega, by omega⟩
      · exact ⟨0, by omega, fun h' => h h'.symm⟩
    have hjl : j < (allWeights env m).length := by omega
    have hjpos : 0 < (allWeights env m)[j] := by
      rw [← hget j hjl]; exact wAt_pos env hm hL ⟨j, hj⟩
    have hs : (allWeights env m).sum = ∑ k : Fin (allWeights env m).length, (allWeights env m)[k] := by
      rw [← List.sum_ofFn]; simp
    rw [hsum] at hs
    have hle : (allWeights env m)[i] + (allWeights env m)[j] ≤ ∑ k : Fin (allWeights env m).length, (allWeights env m)[k] := by
      have hne : (⟨i, hi⟩ : Fin (allWeights env m).length) ≠ ⟨j, hjl⟩ := fun h => hji (Fin.mk.inj h).symm
      have := Finset.sum_le_sum_of_subset_of_nonneg (s := {⟨i, hi⟩, ⟨j, hjl⟩}) (t := Finset.univ)
        (f := fun k : Fin (allWeights env m).length => (allWeights env m)[k]) (Finset.subset_univ _) fun k _ _ => hnn _ (List.getElem_mem _)
      rw [Finset.sum_pair hne] at this
      exact this
    linarith
  have := foldl_max_lt (allWeights env m) (a := 1 / 1000000) (c := 1) (by norm_num) hlt
  unfold wScaling
  rw [lt_div_iff₀ (lt_of_lt_of_le (by norm_num) (foldl_max_le _ _))]
  linarith

/-! ## C109 -/

/-- **C109 (partial).** Take any solution of the nonlinear program with positive final time, and the derivatives that `OCPNLP` returns for
it after any history of calls. `nlpsol_to_ocpsol` makes of it trajectories and multipliers such that: the solution is stationary for the
Lagrangian (with multiplier `ζ` of the bound on the final time) exactly if the multipliers satisfy the first order conditions of the optimal
control problem with the scale `w_scaling_`; that is, exactly if `w_scaling_` times the multipliers of the dynamics, the integrals and the
running constraints, and the multipliers of the end constraints, satisfy the conditions of the problem. In the last interval (the only one, if
there is one) the pieces are the function `lambda_dyn`. Missing for the full claim: the returned multipliers themselves do not satisfy
the conditions of the problem, unless the scale is 1 (`nlp_costates_wrong`, `nlp_costates_violated`). -/
theorem nlp_costates_partial (env : Mesh.Env ℝ) (hB : IsLagrange env) (hS : IsSearch env) {Kmin Kmax : ℕ} (h1 : 1 ≤ Kmin) (m : Mesh ℝ)
    (hm : Valid Kmin Kmax m) (hL : ∀ K, Kmin ≤ K → K ≤ Kmax + 1 → IsLGR env K) (hq : 1 ≤ nq) (ocp : OCP ℝ nx nu nq ncr nce) (hd : IsDrOCP ocp)
    (h : List Call) (hh : ∀ c ∈ h, c.Ok (nVars (nColloc m) nx nu nq) (nCons (nColloc m) nx nq ncr nce)) (sol : NLPSol ℝ)
    (hx : sol.x.size = nVars (nColloc m) nx nu nq) (hl : sol.lambda.size = nCons (nColloc m) nx nq ncr nce) (htf : 0 < sol.x.val 0) (ζ : ℝ) :
    ∃ (st sf sg : Obj ℝ) (o : OCPSol ℝ nx nu nq ncr nce) (s : Extremal nx nu nq ncr nce),
      history env ocp m h = some st ∧ Obj.dfdx ocp m sol.x st = some sf ∧ Obj.dgdx env ocp m sol.x st = some sg ∧
      nlpsolToOcpsol nx nu nq ncr nce env m sol = some o ∧ Reads o s ∧ (∃ L, Pieces env m s L) ∧
      ∀ L, Pieces env m s L →
        (∀ p ∈ spans 1 m, p.2 = 1 → ∀ τ, p.1.tau0 ≤ τ → τ ≤ 1 → ∀ l, s.ldyn (s.tf * τ) l = (L p l).eval τ) ∧
        ((∀ v : NVar (nColloc m) nx nu nq, sf.df.val 0 v.pos + ∑ c : NCon (nColloc m) nx nq ncr nce, sol.lambda.val c.pos * sg.dg.val c.pos v.pos =
            if v = .tf then ζ else 0) ↔ Costates ocp env m (wScaling env m) ζ s L) ∧
        (Costates ocp env m (wScaling env m) ζ s L ↔
          Costates ocp env m 1 ζ (s.scale (wScaling env m)) fun p l => Polynomial.C (wScaling env m) * L p l) := by
  have hK : ∀ v ∈ m, 1 ≤ v.K := fun v hv => h1.trans (hm.degree v hv).1
  obtain ⟨st, sf, e1, e2, -, -, e3⟩ := nlp_df_exact env m hm.ne_nil hK hq ocp hd h hh sol.x hx
  obtain ⟨st', sg, e1', e4, -, -, e5⟩ := nlp_dg_exact env m hm.ne_nil hK hq ocp hd h hh sol.x hx
  obtain rfl : st = st' := Option.some.inj (e1.symm.trans e1')
  obtain ⟨o, s, L, g1, g2, g3, g4, g5⟩ := ocpsol_extremal (nx := nx) (nu := nu) (nq := nq) (ncr := ncr) (nce := nce) env hB hS h1 m hm hL sol hx hl htf
  refine ⟨st, sf, sg, o, s, e1, e2, e4, g1, g2, ⟨L, g4⟩, fun L' hL' => ?_⟩
  have hlast : ∀ p ∈ spans 1 m, p.2 = 1 → ∀ τ, p.1.tau0 ≤ τ → τ ≤ 1 → ∀ l, s.ldyn (s.tf * τ) l = (L' p l).eval τ := by
    intro p hp k τ k1 k2 l
    rw [g5 p hp k τ k1 k2 l, pieces_unique env m hm hL g4 hL' p hp l]
  refine ⟨hlast, ?_, costates_scale hd env m (wScaling_pos env m).ne' ζ s L'⟩
  rw [← stationary_iff_costates env hB hS h1 m hm hL ocp hd sol htf s L' g3 hL' hlast ζ]
  simp only [e3, e5]
  rfl

/-- **C109 is false of the code.** Let the mesh have more than one collocation point and the solution be stationary. If the end cost depends on the
final state or on the integrals, then the multipliers that `nlpsol_to_ocpsol` returns do not satisfy the conditions of the problem. -/
theorem nlp_costates_wrong (env : Mesh.Env ℝ) {Kmin Kmax : ℕ} (h1 : 1 ≤ Kmin) (m : Mesh ℝ)
    (hm : Valid Kmin Kmax m) (hL : ∀ K, Kmin ≤ K → K ≤ Kmax + 1 → IsLGR env K) (h2 : 2 ≤ nColloc m) (ocp : OCP ℝ nx nu nq ncr nce)
    (s : Extremal nx nu nq ncr nce) (L L' : Ival ℝ × ℝ → Fin nx → ℝ[X]) (ζ ζ' : ℝ) (hs : Costates ocp env m (wScaling env m) ζ s L)
    (hne : (∃ l, pd (endCost ocp s.lce) (.xf l) s.ep ≠ 0) ∨ ∃ k, pd (endCost ocp s.lce) (.q k) s.ep ≠ 0) : ¬Costates ocp env m 1 ζ' s L' := by
  intro h
  have hgt := wScaling_gt_one env h1 m hm hL h2
  have key : ∀ a b : ℝ, wScaling env m * a = b → 1 * a = b → b = 0 := by
    intro a b k1 k2
    rw [one_mul] at k2
    rw [k2] at k1
    have : (wScaling env m - 1) * b = 0 := by linarith
    exact (mul_eq_zero.1 this).resolve_left (by linarith)
  rcases hne with ⟨l, hl⟩ | ⟨k, hk⟩
  · exact hl (key _ _ (hs.final l) (h.final l))
  · exact hk (key _ _ (hs.integral k) (h.integral k))

/-- Solutions of the same problem on two meshes with the same end points and multipliers of the end constraints have different other multipliers, unless
the scales are equal: this is what a refined mesh gets as warm start. -/
theorem nlp_costates_two_meshes (env : Mesh.Env ℝ) (m m' : Mesh ℝ) (ocp : OCP ℝ nx nu nq ncr nce) (s s' : Extremal nx nu nq ncr nce)
    (L L' : Ival ℝ × ℝ → Fin nx → ℝ[X]) (ζ ζ' : ℝ) (hs : Costates ocp env m (wScaling env m) ζ s L)
    (hs' : Costates ocp env m' (wScaling env m') ζ' s' L') (he : s.ep = s'.ep) (hc : s.lce = s'.lce) :
    (∀ k, s'.lq k = wScaling env m / wScaling env m' * s.lq k) ∧ ∀ l, s'.ldyn s'.tf l = wScaling env m / wScaling env m' * s.ldyn s.tf l := by
  have hpos := wScaling_pos env m'
  constructor
  · intro k
    have a := hs.integral k
    have b := hs'.integral k
    rw [← he, ← hc, ← a] at b
    field_simp
    linarith
  · intro l
    have a := hs.final l
    have b := hs'.final l
    rw [← he, ← hc, ← a] at b
    field_simp
    linarith

end Verif.NLP
