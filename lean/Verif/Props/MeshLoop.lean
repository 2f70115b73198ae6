import Verif.Spec.MeshLoop
import Verif.Props.MeshRefine

/-! # The mesh refinement loop (C107) -/

namespace Verif.NLP

open Verif.Mesh Verif.MeshFn

variable {nx nu nq ncr nce : ℕ}

theorem eval_isSome {env : Mesh.Env ℝ} (hB : IsLagrange env) (hS : IsSearch env) {Kmin Kmax : ℕ} (h1 : 1 ≤ Kmin) {m : Mesh ℝ}
    (hm : Valid Kmin Kmax m) (hL : ∀ K, Kmin ≤ K → K ≤ Kmax + 1 → IsLGR env K) {d : ℕ} (r : List (Fin d → ℝ)) (ext : Bool)
    (hr : r.length = nVals m ext) (t : ℝ) : (eval env m t r 0 ext).isSome := by
  have hlt : intervalFind env m t < m.length := by
    have hml : 0 < m.length := List.length_pos_of_ne_nil hm.ne_nil
    have hf := interval_find_correct env hS Kmin Kmax m hm t
    rcases lt_or_ge t 0 with h | h
    · rw [hf.1 h]; exact hml
    · rcases lt_or_ge t 1 with h2 | h2
      · obtain ⟨v, b, hvb, -⟩ := (hf.2.2 h h2).1
        exact (List.getElem?_eq_some_iff.1 (spans_some hvb).1).1
      · rw [hf.2.1 h2]; omega
  have hs : (spans 1 m)[intervalFind env m t]? = some (m[intervalFind env m t], tauf m (intervalFind env m t)) := by
    rw [spans_getElem?, List.getElem?_eq_getElem hlt]; rfl
  obtain ⟨P, -, hP, -⟩ := eval_piece hB hS h1 hm hL r ext hr hs
  rw [hP t rfl]; rfl

theorem ocpsolOf_isSome {env : Mesh.Env ℝ} (hB : IsLagrange env) (hS : IsSearch env) {Kmin Kmax : ℕ} (h1 : 1 ≤ Kmin) {m : Mesh ℝ}
    (hm : Valid Kmin Kmax m) (hL : ∀ K, Kmin ≤ K → K ≤ Kmax + 1 → IsLGR env K) (z : NVar (nColloc m) nx nu nq → ℝ)
    (l : NCon (nColloc m) nx nq ncr nce → ℝ) (t : ℝ) :
    ((ocpsolOf env m z l).x t).isSome ∧ ((ocpsolOf env m z l).u t).isSome ∧ ((ocpsolOf env m z l).lambda_dyn t).isSome ∧
      ((ocpsolOf env m z l).lambda_cr t).isSome := by
  have e := nColloc_eq m
  refine ⟨eval_isSome hB hS h1 hm hL _ true ?_ _, eval_isSome hB hS h1 hm hL _ false ?_ _, eval_isSome hB hS h1 hm hL _ false ?_ _,
    eval_isSome hB hS h1 hm hL _ false ?_ _⟩ <;> simp [nVals, e]

/-- **C107, warm start.** Let a solution on a mesh `m` with nonzero final time be converted to a solution of the control problem and on to
another mesh `m'`. Both conversions succeed. The result describes a solution with the same final time, integrals and multipliers of end
and integral constraints, that agrees at the nodes of `m'`; and if `m'` is finer than `m` it describes the same solution, at all times. -/
theorem warm_start (env : Mesh.Env ℝ) (hB : IsLagrange env) (hS : IsSearch env) (Kmin Kmax : ℕ) (h1 : 1 ≤ Kmin) (m m' : Mesh ℝ)
    (hm : Valid Kmin Kmax m) (hm' : Valid Kmin Kmax m') (hL : ∀ K, Kmin ≤ K → K ≤ Kmax + 1 → IsLGR env K) (sol : NLPSol ℝ)
    (hsz : SizedFor nx nu nq ncr nce m sol) (htf : sol.x.val 0 ≠ 0) (jx jl : ℕ → ℝ) :
    ∃ (o : OCPSol ℝ nx nu nq ncr nce) (sol' : NLPSol ℝ) (o' : OCPSol ℝ nx nu nq ncr nce),
      nlpsolToOcpsol nx nu nq ncr nce env m sol = some o ∧ ocpsolToNlpsol env m' o jx jl = some sol' ∧
      SizedFor nx nu nq ncr nce m' sol' ∧ nlpsolToOcpsol nx nu nq ncr nce env m' sol' = some o' ∧
      o'.t0 = o.t0 ∧ o'.tf = o.tf ∧ o'.Q = o.Q ∧ o'.lambda_q = o.lambda_q ∧ o'.lambda_ce = o.lambda_ce ∧
      (∀ τ ∈ allNodes env m', o'.x (τ * o.tf) = o.x (τ * o.tf)) ∧
      (∀ τ ∈ allNodes env m', τ < 1 → o'.u (τ * o.tf) = o.u (τ * o.tf) ∧
        o'.lambda_dyn (τ * o.tf) = o.lambda_dyn (τ * o.tf) ∧ o'.lambda_cr (τ * o.tf) = o.lambda_cr (τ * o.tf)) ∧
      (Finer m m' → o' = o) ∧
      ∀ t, (o.x t).isSome ∧ (o.u t).isSome ∧ (o.lambda_dyn t).isSome ∧ (o.lambda_cr t).isSome := by
  obtain ⟨hx, hl⟩ := hsz
  have eo := nlpsol_ocpsolOf (nx := nx) (nu := nu) (nq := nq) (ncr := ncr) (nce := nce) env m sol hx hl
  obtain ⟨z, hz⟩ : ∃ z : NVar (nColloc m) nx nu nq → ℝ, (fun v => sol.x.val v.pos) = z := ⟨_, rfl⟩
  obtain ⟨l, hl'⟩ : ∃ l : NCon (nColloc m) nx nq ncr nce → ℝ, (fun v => sol.lambda.val v.pos) = l := ⟨_, rfl⟩
  rw [hz, hl'] at eo
  have hsome := ocpsolOf_isSome hB hS h1 hm hL z l
  have htf' : z .tf ≠ 0 := by rw [← hz]; exact htf
  obtain ⟨sol', e2, sx, sl, vx, vl⟩ := ocpsol_samples hB hS h1 hm' hL (ocpsolOf env m z l) htf' hsome jx jl
  have e3 := nlpsol_ocpsolOf (nx := nx) (nu := nu) (nq := nq) (ncr := ncr) (nce := nce) env m' sol' sx sl
  simp only [vx, vl] at e3
  obtain ⟨hnl, -, -, -, hlast, -⟩ := nodes_complete env Kmin Kmax h1 m' hm' hL
  obtain ⟨hnl0, -⟩ := nodes_complete env Kmin Kmax h1 m hm hL
  have node : ∀ i, i < nColloc m' + 1 → (allNodes env m')[i]? = some ((allNodes env m').getD i 0) := by
    intro i hi
    rw [List.getD_eq_getElem?_getD, List.getElem?_eq_getElem (by omega)]; rfl
  have arg : ∀ t : ℝ, (t * z .tf - 0) / (z .tf - 0) = t := fun t => by field_simp; ring
  -- every list of values is sampled from the old one
  have samp : ∀ {d : ℕ} (ext : Bool) (n n' : ℕ) (hn : n = nVals m ext) (hn' : n' = nVals m' ext) (r : Fin n → Fin d → ℝ) (r' : Fin n' → Fin d → ℝ),
      (∀ i k, r' i k = (eval env m ((allNodes env m').getD i 0) (List.ofFn r) 0 ext).getD 0 k) →
      SampledAt (allNodes env m') ext (fun t => eval env m t (List.ofFn r) 0 ext) (List.ofFn r') := by
    intro d ext n n' hn hn' r r' h
    constructor
    · rw [List.length_ofFn, hn', hnl, nColloc_eq]
      cases ext <;> simp [nVals]
    · intro k t hk ht
      rw [List.length_ofFn] at hk
      have hsm := eval_isSome hB hS h1 hm hL (List.ofFn r) ext (by simpa using hn) t
      obtain ⟨y, hy⟩ := Option.isSome_iff_exists.1 hsm
      have htk : (allNodes env m').getD k 0 = t := by rw [List.getD_eq_getElem?_getD, ht]; rfl
      rw [List.getElem?_ofFn, dif_pos hk]
      simp only [hy]
      congr 1; funext c
      rw [h, htk, hy]; rfl
  have c1 := nColloc_eq m
  have c2 := nColloc_eq m'
  have Sx := samp true (nColloc m + 1) (nColloc m' + 1) (by simp [nVals, c1]) (by simp [nVals, c2]) (fun i k => z (.x i k))
    (fun i k => sampX env m' (ocpsolOf env m z l) (.x i k)) (fun i k => by simp only [sampX, ocpsolOf, arg])
  have Su := samp false (nColloc m) (nColloc m') (by simp [nVals, c1]) (by simp [nVals, c2]) (fun i k => z (.u i k))
    (fun i k => sampX env m' (ocpsolOf env m z l) (.u i k)) (fun i k => by simp only [sampX, ocpsolOf, arg])
  have Sd := samp false (nColloc m) (nColloc m') (by simp [nVals, c1]) (by simp [nVals, c2]) (fun i k => l (.dyn i k))
    (fun i k => sampL env m' (ocpsolOf env m z l) (.dyn i k)) (fun i k => by simp only [sampL, ocpsolOf, arg])
  have Sc := samp false (nColloc m) (nColloc m') (by simp [nVals, c1]) (by simp [nVals, c2]) (fun i k => l (.cr i k))
    (fun i k => sampL env m' (ocpsolOf env m z l) (.cr i k)) (fun i k => by simp only [sampL, ocpsolOf, arg])
  have atOpen : ∀ {d : ℕ} (r : Fin (nColloc m) → Fin d → ℝ) (r' : Fin (nColloc m') → Fin d → ℝ),
      SampledAt (allNodes env m') false (fun t => eval env m t (List.ofFn r) 0 false) (List.ofFn r') → ∀ τ ∈ allNodes env m', τ < 1 →
      eval env m' τ (List.ofFn r') 0 false = eval env m τ (List.ofFn r) 0 false := by
    intro d r r' hs τ hτ h1τ
    obtain ⟨k, hk, rfl⟩ := List.getElem_of_mem hτ
    have hkN : k < nColloc m' := by
      by_contra hc
      have hk2 : k = (allNodes env m').length - 1 := by omega
      rw [List.getLast?_eq_getElem?, ← hk2, List.getElem?_eq_getElem hk] at hlast
      rw [Option.some.inj hlast] at h1τ
      exact lt_irrefl _ h1τ
    rw [eval_interpolates_open env hB hS Kmin Kmax h1 m' hm' hL _ (by simp) k hkN _ (List.getElem?_eq_getElem hk)]
    exact (hs.2 k _ (by simpa using hkN) (List.getElem?_eq_getElem hk)).symm
  refine ⟨_, sol', _, eo, e2, ⟨sx, sl⟩, e3, rfl, rfl, rfl, rfl, rfl, ?_, ?_, ?_, hsome⟩
  · intro τ hτ
    obtain ⟨k, hk, rfl⟩ := List.getElem_of_mem hτ
    simp only [ocpsolOf, sampX, arg]
    have := Sx.2 k _ (by simp; omega) (List.getElem?_eq_getElem hk)
    simp only [ocpsolOf, sampX, arg] at this
    rw [this, eval_interpolates env hB hS Kmin Kmax m' hm' hL _ (by simp; omega) k _ (List.getElem?_eq_getElem hk)]
  · intro τ hτ h1τ
    have o1 := atOpen _ _ Su τ hτ h1τ
    have o2 := atOpen _ _ Sd τ hτ h1τ
    have o3 := atOpen _ _ Sc τ hτ h1τ
    simp only [ocpsolOf, sampX, sampL, arg] at o1 o2 o3 ⊢
    exact ⟨o1, o2, o3⟩
  · intro hf
    have tr : ∀ {d : ℕ} (ext : Bool) (r r' : List (Fin d → ℝ)), r.length = nVals m ext →
        SampledAt (allNodes env m') ext (fun t => eval env m t r 0 ext) r' → ∀ t, eval env m' t r' 0 ext = eval env m t r 0 ext := by
      intro d ext r r' hr hs t
      refine transfer_exact env hB hS Kmin Kmax h1 m m' hm hm' hL hf r r' ext ?_ hs t
      rw [hr, hnl0, c1]; cases ext <;> simp [nVals]
    have t1 := tr true _ _ (by simp [nVals, c1]) Sx
    have t2 := tr false _ _ (by simp [nVals, c1]) Su
    have t3 := tr false _ _ (by simp [nVals, c1]) Sd
    have t4 := tr false _ _ (by simp [nVals, c1]) Sc
    simp only [ocpsolOf, sampX, sampL, arg] at t1 t2 t3 t4
    simp only [ocpsolOf, sampX, sampL, arg, t1, t2, t3, t4]

/-! ### The loop -/

theorem maxErr_lt {es : List ℝ} {t : ℝ} (ht : 0 < t) : t < maxErr es ↔ ∃ e ∈ es, t < e := by
  cases es with
  | nil => simp [maxErr, ht.le]
  | cons e es => rw [maxErr, lt_foldl_max]; simp

theorem measure_ok {env : Mesh.Env ℝ} {Kmin Kmax : ℕ} (h2 : Kmin ≤ Kmax) (f : ℝ → (Fin nx → ℝ) → (Fin nu → ℝ) → (Fin nx → ℝ))
    {m : Mesh ℝ} (hm : Valid Kmin Kmax m) (hd : ∀ v ∈ m, v.K ≤ Kmax) (o : OCPSol ℝ nx nu nq ncr nce) :
    (measure env Kmin Kmax f m o).2 = m ∧ (measure env Kmin Kmax f m o).1.length = m.length ∧
    ∀ (i : ℕ) (v : Ival ℝ) (b : ℝ), (spans 1 m)[i]? = some (v, b) → (measure env Kmin Kmax f m o).1[i]? =
      some (ivalError env f (v.K + 1) v.tau0 b o.t0 o.tf (fun t => (o.x t).getD 0) fun t => (o.u t).getD 0) := by
  refine ⟨(degrees_restored_iff Kmin Kmax h2 m hm.degree).2 hd, by simp [measure, dynError, increaseDegrees], ?_⟩
  intro i v b hi
  obtain ⟨hv, hb⟩ := spans_some hi
  have hlt := (List.getElem?_eq_some_iff.1 hv).1
  have hK := hd v (List.mem_of_getElem? hv)
  have hget : (increaseDegrees Kmax m)[i]? = some ⟨v.K + 1, v.tau0⟩ := by
    rw [increaseDegrees, List.getElem?_map, hv, Option.map_some, Nat.min_eq_left (by omega)]
  have htf : tauf (increaseDegrees Kmax m) i = b := by
    rw [← hb]
    unfold tauf increaseDegrees
    rw [List.getElem?_map]
    cases m[i + 1]? <;> rfl
  have hlt' : i < (increaseDegrees Kmax m).length := by simpa [increaseDegrees] using hlt
  simp only [measure, dynError, List.getElem?_map, List.getElem?_range hlt', Option.map_some, hget, htf]

/-- **C107, the loop.** Let transcription and solver return on every valid mesh. Then the loop returns from every valid mesh without extra
degrees, whatever the solutions are. Every pass is in order (`PassOK`: valid mesh, the solution of the solver for it, defined everywhere,
one error per interval, measured with one point more) and every pass follows from the one before (`NextOK`: an error above the target, nested breakpoints, more points, the warm
start agrees with the previous solution at the nodes of the new mesh, and at all times if no interval above the least degree was split).
The first pass is on the given mesh; there are at most `n`. If the loop was left by `break`, all errors on the final mesh are at most the
target; otherwise all `n` passes had an error above it, and the final mesh has at least `n` points more than the first one. -/
theorem refine_loop (env : Mesh.Env ℝ) (hB : IsLagrange env) (hS : IsSearch env) (hg : GrowthPos env) (Kmin Kmax : ℕ) (h1 : 2 ≤ Kmin)
    (h2 : Kmin ≤ Kmax) (hL : ∀ K, Kmin ≤ K → K ≤ Kmax + 1 → IsLGR env K)
    (solve : Mesh ℝ → Option (NLPSol ℝ) → Option (NLPSol ℝ)) (hsolve : Returns nx nu nq ncr nce Kmin Kmax solve)
    (f : ℝ → (Fin nx → ℝ) → (Fin nu → ℝ) → (Fin nx → ℝ)) (target : ℝ) (ht : 0 < target) (jx jl : ℕ → ℝ) (n : ℕ) (m : Mesh ℝ)
    (hm : Valid Kmin Kmax m) (hd : ∀ v ∈ m, v.K ≤ Kmax) (start : Option (NLPSol ℝ))
    (hst : ∀ s, start = some s → SizedFor nx nu nq ncr nce m s) :
    ∃ out : Outcome nx nu nq ncr nce, refineLoop env Kmin Kmax solve f target jx jl n m start = some out ∧
      (∀ p ∈ out.passes, PassOK env Kmin Kmax solve f p) ∧
      (∀ k p q, out.passes[k]? = some p → out.passes[k + 1]? = some q → NextOK env Kmin Kmax target p q) ∧
      (∀ p, out.passes.head? = some p → p.mesh = m ∧ p.start = start) ∧ out.passes.length ≤ n ∧
      Valid Kmin Kmax out.mesh ∧ (∀ v ∈ out.mesh, v.K ≤ Kmax) ∧ (m.map Ival.tau0).Sublist (out.mesh.map Ival.tau0) ∧
      (out.broke = true → ∃ p, out.passes.getLast? = some p ∧ p.mesh = out.mesh ∧ ∀ e ∈ p.errs, e ≤ target) ∧
      (out.broke = false → out.passes.length = n ∧ (∀ p ∈ out.passes, ∃ e ∈ p.errs, target < e) ∧
        (m.map Ival.K).sum + n ≤ (out.mesh.map Ival.K).sum) := by
  induction n generalizing m start with
  | zero =>
    refine ⟨⟨m, [], false⟩, rfl, by simp, by simp, by simp, by simp, hm, hd, List.Sublist.refl _, by simp, by simp⟩
  | succ n ih =>
    obtain ⟨sol, hs, hsz, htf⟩ := hsolve m start hm hst
    obtain ⟨o, -, -, eo, -, -, -, -, -, -, -, -, -, -, -, hsome⟩ :=
      warm_start env hB hS Kmin Kmax (by omega) m m hm hm hL sol hsz htf jx jl
    obtain ⟨hme, hlen, herr⟩ := measure_ok (env := env) h2 f hm hd o
    obtain ⟨errs, herrs⟩ : ∃ errs, (measure env Kmin Kmax f m o).1 = errs := ⟨_, rfl⟩
    rw [herrs] at hlen herr
    have hpass : PassOK env Kmin Kmax solve f (⟨m, start, o, errs⟩ : Pass nx nu nq ncr nce) := by
      refine ⟨hm, hd, hst, ⟨sol, hs, eo⟩, hlen, fun t => (o.x t).getD 0, fun t => (o.u t).getD 0, fun t => ?_, herr⟩
      obtain ⟨y, hy⟩ := Option.isSome_iff_exists.1 (hsome t).1
      obtain ⟨w, hw⟩ := Option.isSome_iff_exists.1 (hsome t).2.1
      simp [hy, hw]
    rw [refineLoop, hs]
    simp only [eo, hme, herrs]
    by_cases hbig : target < maxErr errs
    · rw [if_pos hbig]
      have hex := (maxErr_lt ht).1 hbig
      obtain ⟨m', hm'e⟩ := Option.isSome_iff_exists.1
        ((mesh_ops_return env Kmin Kmax (by omega) m).2.1 errs (1 / 10 * target) hlen.symm)
      have hm' : Valid Kmin Kmax m' := valid_step (by omega) h2 hm (o := .refineErrors errs (1 / 10 * target)) hm'e
      have hd' := refine_degrees (by omega) h2 hm hd hm'e
      have hpts : Mesh.points m < Mesh.points m' := refine_grows hg h1 hm (by linarith : 0 < 1 / 10 * target)
        (by obtain ⟨e, he, hlt⟩ := hex; exact ⟨e, he, by linarith⟩) hm'e
      have hbr := refine_errors_keeps_breakpoints env Kmin Kmax (by omega) m m' errs _ hm'e
      obtain ⟨o1, sol', o', eo1, e2, hsz', e3, w1, w2, w3, w4, w5, w6, w7, w8, -⟩ :=
        warm_start env hB hS Kmin Kmax (by omega) m m' hm hm' hL sol hsz htf jx jl
      obtain rfl : o1 = o := by rw [eo] at eo1; exact (Option.some.inj eo1).symm
      obtain ⟨out, r1, r2, r3, r4, r5, r6, r7, r8, r9, r10⟩ := ih m' hm' hd' (some sol') (fun s hs => by
        rw [← Option.some.inj hs]; exact hsz')
      simp only [hm'e, e2, r1]
      refine ⟨_, rfl, ?_, ?_, ?_, ?_, r6, r7, hbr.trans r8, ?_, ?_⟩
      · intro p hp
        rcases List.mem_cons.1 hp with rfl | hp
        · exact hpass
        · exact r2 p hp
      · intro k p q hp hq
        cases k with
        | succ k => exact r3 k p q (by simpa using hp) (by simpa using hq)
        | zero =>
          simp only [List.getElem?_cons_zero, Option.some.injEq] at hp
          rw [List.getElem?_cons_succ, ← List.head?_eq_getElem?] at hq
          obtain ⟨q1, q2⟩ := r4 q hq
          subst hp
          refine ⟨hex, by rw [q1]; exact hbr, by rw [q1]; exact hpts, by rw [q1]; exact hm'e, sol', o', q2, by rw [q1]; exact e3, w1, w2,
            w3, w4, w5, ?_, ?_, fun hns => w8 ((refine_errors_finer_iff env hS Kmin Kmax (by omega) m m' hm errs _ hm'e).2 hns)⟩
          · rw [q1]; exact w6
          · rw [q1]; exact w7
      · intro p hp
        simp only [List.head?_cons, Option.some.injEq] at hp
        subst hp
        exact ⟨rfl, rfl⟩
      · simp only [List.length_cons]; omega
      · intro hbk
        obtain ⟨p, hp, hp2⟩ := r9 hbk
        refine ⟨p, ?_, hp2⟩
        rw [List.getLast?_cons, hp]; rfl
      · intro hbk
        obtain ⟨l1, l2, l3⟩ := r10 hbk
        refine ⟨by simp [l1], ?_, ?_⟩
        · intro p hp
          rcases List.mem_cons.1 hp with rfl | hp
          · exact hex
          · exact l2 p hp
        · have : (m.map Ival.K).sum < (m'.map Ival.K).sum := hpts
          simp only
          omega
    · rw [if_neg hbig]
      refine ⟨_, rfl, by simpa using hpass, ?_, ?_, by simp, hm, hd, List.Sublist.refl _, ?_, by simp⟩
      · intro k p q hp hq
        simp at hq
      · intro p hp
        simp only [List.head?_cons, Option.some.injEq] at hp
        subst hp
        exact ⟨rfl, rfl⟩
      · intro _
        refine ⟨_, rfl, rfl, fun e he => ?_⟩
        by_contra hc
        exact hbig ((maxErr_lt ht).2 ⟨e, he, not_lt.1 (fun h => hc h.le) |>.lt_of_ne (fun h => hc h.ge)⟩)

/-- **C107, the first refinement is exact.** On a mesh of least degree, such as the default mesh that the examples start from, no interval
of higher degree can be split, so the second pass starts from exactly the solution of the first. -/
theorem refine_loop_second (env : Mesh.Env ℝ) (hB : IsLagrange env) (hS : IsSearch env) (hg : GrowthPos env) (Kmin Kmax : ℕ) (h1 : 2 ≤ Kmin)
    (h2 : Kmin ≤ Kmax) (hL : ∀ K, Kmin ≤ K → K ≤ Kmax + 1 → IsLGR env K)
    (solve : Mesh ℝ → Option (NLPSol ℝ) → Option (NLPSol ℝ)) (hsolve : Returns nx nu nq ncr nce Kmin Kmax solve)
    (f : ℝ → (Fin nx → ℝ) → (Fin nu → ℝ) → (Fin nx → ℝ)) (target : ℝ) (ht : 0 < target) (jx jl : ℕ → ℝ) (n : ℕ)
    (out : Outcome nx nu nq ncr nce) (hout : refineLoop env Kmin Kmax solve f target jx jl n (single Kmin) none = some out)
    (p q : Pass nx nu nq ncr nce) (hp : out.passes[0]? = some p) (hq : out.passes[1]? = some q) :
    ∃ s, q.start = some s ∧ nlpsolToOcpsol nx nu nq ncr nce env q.mesh s = some p.sol := by
  obtain ⟨out', e, -, r3, r4, -⟩ := refine_loop env hB hS hg Kmin Kmax h1 h2 hL solve hsolve f target ht jx jl n (single Kmin)
    (valid_single Kmin Kmax h2) (by simp [single, h2]) none (by simp)
  rw [hout] at e
  obtain rfl := Option.some.inj e
  obtain ⟨s, o, w1, w2, -, -, -, -, -, -, -, w⟩ := (r3 0 p q hp hq).warm
  refine ⟨s, w1, ?_⟩
  rw [w2, w fun x hx _ => Or.inl ?_]
  rw [(r4 p (by rw [List.head?_eq_getElem?]; exact hp)).1] at hx
  have := (List.of_mem_zip hx).1
  simp only [single, List.mem_singleton] at this
  rw [this]

/-- **C107, when the warm start is exact.** After `refine_errors` every state trajectory is transferred exactly if and only if no interval of
more than the least degree was split. -/
theorem refine_transfer_iff (env : Mesh.Env ℝ) (hB : IsLagrange env) (hS : IsSearch env) (Kmin Kmax : ℕ) (h1 : 1 ≤ Kmin) (h2 : Kmin ≤ Kmax)
    (hL : ∀ K, Kmin ≤ K → K ≤ Kmax + 1 → IsLGR env K) (m m' : Mesh ℝ) (hm : Valid Kmin Kmax m) (errs : List ℝ) (target : ℝ)
    (hr : refineErrors env Kmin Kmax m errs target = some m') (d : ℕ) (hd : 0 < d) :
    (∀ r r' : List (Fin d → ℝ), r.length = (allNodes env m).length →
      SampledAt (allNodes env m') true (fun t => eval env m t r 0 true) r' → ∀ t, eval env m' t r' 0 true = eval env m t r 0 true) ↔
    NoSplit Kmin Kmax env.growth target m errs := by
  have hm' : Valid Kmin Kmax m' := valid_step h1 h2 hm (o := .refineErrors errs target) hr
  rw [← refine_errors_finer_iff env hS Kmin Kmax h1 m m' hm errs target hr]
  refine transfer_exact_iff env hB hS Kmin Kmax h1 m m' hm hm' hL ?_ d hd
  have hl : m.length = errs.length := by
    by_contra h
    simp [refineErrors, h] at hr
  rw [refineErrors_eq env Kmin Kmax h1 m errs target hl] at hr
  obtain rfl := Option.some.inj hr
  intro p' hp'
  rw [spans_flatMap env Kmin Kmax target 1 m errs hl] at hp'
  obtain ⟨⟨⟨v, b⟩, e⟩, hx, hp⟩ := List.mem_flatMap.1 hp'
  have hxm := (List.of_mem_zip hx).1
  have := piece_inside ((spans_ordered hm.increasing hm.below).1 _ hxm).1 hp
  exact ⟨(v, b), hxm, this.1, this.2.1⟩

/-- **C107, a split that loses the trajectory.** On `Mesh<5, 10>` with one interval of degree 6 and an error of `6 ^ 10` targets, the
interval is split into parts of degree 6, 5, 5, 5, and some trajectory is changed by the transfer. -/
theorem refine_split_loses : ∃ m' : Mesh ℝ, refineErrors realEnv 5 10 [⟨6, 0⟩] [6 ^ 10] 1 = some m' ∧
    ∃ (r r' : List (Fin 1 → ℝ)) (t : ℝ), r.length = (allNodes realEnv [⟨6, 0⟩]).length ∧
      SampledAt (allNodes realEnv m') true (fun t => eval realEnv [⟨6, 0⟩] t r 0 true) r' ∧
      eval realEnv m' t r' 0 true ≠ eval realEnv [⟨6, 0⟩] t r 0 true := by
  have hv : Valid 5 10 ([⟨6, 0⟩] : Mesh ℝ) := ⟨by simp, by simp, by simp, by simp⟩
  obtain ⟨m', hm'⟩ := Option.isSome_iff_exists.1 ((mesh_ops_return realEnv 5 10 (by norm_num) [⟨6, 0⟩]).2.1 [6 ^ 10] 1 rfl)
  refine ⟨m', hm', ?_⟩
  by_contra hc
  push Not at hc
  have := (refine_transfer_iff realEnv realEnv_lagrange realEnv_search 5 10 (by norm_num) (by norm_num)
    (fun K hK _ => realEnv_lgr K (by omega)) _ m' hv _ 1 hm' 1 one_pos).1 fun r r' h4 h5 t => hc r r' t h4 h5
  have hgr : realEnv.growth 6 (6 ^ 10) 1 = 11 := by
    have h6 : Real.log 6 ≠ 0 := (Real.log_pos (by norm_num)).ne'
    simp only [realEnv, div_one, Real.log_pow]
    rw [Nat.floor_eq_iff (by positivity)]
    push_cast
    rw [mul_div_assoc, div_self h6]
    constructor <;> norm_num
  have h3 := this (⟨6, 0⟩, 6 ^ 10) (by simp) (by norm_num)
  simp only [hgr] at h3
  omega

/-- A solver that returns on every mesh, with final time one and all other numbers two. -/
noncomputable def twos (m : Mesh ℝ) (_ : Option (NLPSol ℝ)) : Option (NLPSol ℝ) :=
  some ⟨.optimal, 1, ⟨nVars (nColloc m) 1 1 0, fun r => if r = 0 then 1 else 2⟩, ⟨0, fun _ => 0⟩, ⟨0, fun _ => 0⟩,
    ⟨nCons (nColloc m) 1 0 1 1, fun _ => 2⟩, 0⟩

/-- The loop of the examples with that solver: `Mesh<5, 10>`, target `1e-6`, ten passes, dynamics `x' = u`. -/
example : ∃ out : Outcome 1 1 0 1 1, refineLoop realEnv 5 10 twos (fun _ _ u => u) (1 / 1000000) (fun _ => 0) (fun _ => 0) 10
    (single 5) none = some out ∧ out.passes.length ≤ 10 ∧ Valid 5 10 out.mesh := by
  obtain ⟨out, h, -, -, -, h4, h5, -⟩ := refine_loop realEnv realEnv_lagrange realEnv_search realEnv_growth 5 10 (by norm_num) (by norm_num)
    (fun K hK _ => realEnv_lgr K (by omega)) twos
    (fun m _ _ _ => ⟨_, rfl, ⟨rfl, rfl⟩, by simp⟩ : Returns 1 1 0 1 1 5 10 twos) (fun _ _ u => u) (1 / 1000000) (by norm_num) (fun _ => 0)
    (fun _ => 0) 10 (single 5) (valid_single 5 10 (by norm_num)) (by simp [single]) none (by simp)
  exact ⟨out, h, h4, h5⟩

end Verif.NLP
