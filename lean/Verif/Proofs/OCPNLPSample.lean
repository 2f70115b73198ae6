import Verif.Props.OCPNLPSol

/-! # What `ocpsol_to_nlpsol` computes from any record (C116) -/

set_option linter.unusedSectionVars false

namespace Verif.NLP

open Verif.Mesh Verif.Sparse Verif.MeshFn Verif.QP

variable {nx nu nq ncr nce : ℕ}

/-- If the functions of the record can be called at the nodes, `ocpsol_to_nlpsol` returns, and its vectors hold the final time, the integrals,
the values of the functions at the nodes, and the multipliers. -/
theorem ocpsolToNlpsol_samples (env : Mesh.Env ℝ) (Kmin Kmax : ℕ) (h1 : 1 ≤ Kmin) (m : Mesh ℝ) (hm : Valid Kmin Kmax m)
    (hL : ∀ K, Kmin ≤ K → K ≤ Kmax + 1 → IsLGR env K) (o : OCPSol ℝ nx nu nq ncr nce) (X : NVar (nColloc m) nx nu nq → ℝ)
    (L : NCon (nColloc m) nx nq ncr nce → ℝ) (htf : X .tf = o.tf) (hq : ∀ k, X (.q k) = o.Q k)
    (hlq : ∀ k, L (.int k) = o.lambda_q k) (hlce : ∀ k, L (.ce k) = o.lambda_ce k)
    (ox : ∀ (i : Fin (nColloc m + 1)) t, (allNodes env m)[(i : ℕ)]? = some t → o.x (0 + t * (o.tf - 0)) = some fun k => X (.x i k))
    (ou : ∀ (i : Fin (nColloc m)) t, (allNodes env m)[(i : ℕ)]? = some t → o.u (0 + t * (o.tf - 0)) = some fun k => X (.u i k))
    (od : ∀ (i : Fin (nColloc m)) t, (allNodes env m)[(i : ℕ)]? = some t → o.lambda_dyn (0 + t * (o.tf - 0)) = some fun k => L (.dyn i k))
    (oc : ∀ (i : Fin (nColloc m)) t, (allNodes env m)[(i : ℕ)]? = some t → o.lambda_cr (0 + t * (o.tf - 0)) = some fun k => L (.cr i k))
    (jx jl : ℕ → ℝ) : ∃ sol', ocpsolToNlpsol env m o jx jl = some sol' ∧
      sol'.x.size = nVars (nColloc m) nx nu nq ∧ (∀ v : NVar (nColloc m) nx nu nq, sol'.x.val v.pos = X v) ∧
      sol'.lambda.size = nCons (nColloc m) nx nq ncr nce ∧ (∀ c : NCon (nColloc m) nx nq ncr nce, sol'.lambda.val c.pos = L c) := by
  obtain ⟨b1, b2, b3, b4, b5⟩ := begs nx nu nq (nColloc m)
  obtain ⟨c1, c2, c3, c4, c5⟩ := cbegs nx nq ncr nce (nColloc m)
  obtain ⟨hnl, -, -, -, -, -, -, -⟩ := nodes_complete env Kmin Kmax h1 m hm hL
  -- the loop
  have loop : ∀ n c (s : Vec ℝ × Vec ℝ), c + n = nColloc m + 1 →
      s.1.size = nVars (nColloc m) nx nu nq → s.2.size = nCons (nColloc m) nx nq ncr nce →
      (∀ v : NVar (nColloc m) nx nu nq, doneV c v → s.1.val v.pos = X v) →
      (∀ v : NCon (nColloc m) nx nq ncr nce, doneC c v → s.2.val v.pos = L v) →
      ∃ s', iter (sampleStep (nColloc m) o) ((List.range' c n).zip ((allNodes env m).drop c)) s = some s' ∧
        s'.1.size = nVars (nColloc m) nx nu nq ∧ s'.2.size = nCons (nColloc m) nx nq ncr nce ∧
        (∀ v : NVar (nColloc m) nx nu nq, s'.1.val v.pos = X v) ∧
        (∀ v : NCon (nColloc m) nx nq ncr nce, s'.2.val v.pos = L v) := by
    intro n
    induction n with
    | zero =>
      intro c s hc z1 z2 d1 d2
      refine ⟨s, rfl, z1, z2, fun v => d1 v ?_, fun v => d2 v ?_⟩
      · cases v with
        | x i k => have := i.2; simp only [doneV]; omega
        | u i k => have := i.2; simp only [doneV]; omega
        | _ => trivial
      · cases v with
        | dyn i k => have := i.2; simp only [doneC]; omega
        | cr i k => have := i.2; simp only [doneC]; omega
        | _ => trivial
    | succ n ih =>
      intro c s hc z1 z2 d1 d2
      have hcl : c < (allNodes env m).length := by omega
      have hcm : c < nColloc m + 1 := by omega
      have ht : (allNodes env m)[c]? = some (allNodes env m)[c] := List.getElem?_eq_getElem hcl
      rw [List.range'_succ, List.drop_eq_getElem_cons hcl, List.zip_cons_cons, iter]
      have hxle : xB nx nu nq (nColloc m) + c * nx + nx ≤ s.1.size := by
        rw [z1, b3, nVars]
        have : c * nx + nx ≤ nx * (nColloc m + 1) := by
          calc c * nx + nx = nx * (c + 1) := by ring
            _ ≤ nx * (nColloc m + 1) := Nat.mul_le_mul_left _ (by omega)
        omega
      have e1 := setSeg_loc s.1 (xB nx nu nq (nColloc m) + c * nx) nx
        (ext fun k : Fin nx => X (.x ⟨c, hcm⟩ k)) hxle
      by_cases hcN : c < nColloc m
      · have hule : uB nx nu nq (nColloc m) + c * nu + nu ≤ s.1.size := by
          rw [z1, b4, nVars]
          have : c * nu + nu ≤ nu * nColloc m := by
            calc c * nu + nu = nu * (c + 1) := by ring
              _ ≤ nu * nColloc m := Nat.mul_le_mul_left _ (by omega)
          omega
        have hdle : dB nx nq ncr nce (nColloc m) + c * nx + nx ≤ s.2.size := by
          rw [z2, c1, nCons]
          have : c * nx + nx ≤ nx * nColloc m := by
            calc c * nx + nx = nx * (c + 1) := by ring
              _ ≤ nx * nColloc m := Nat.mul_le_mul_left _ (by omega)
          omega
        have hcle : crB nx nq ncr nce (nColloc m) + c * ncr + ncr ≤ s.2.size := by
          rw [z2, c3, nCons]
          have : c * ncr + ncr ≤ ncr * nColloc m := by
            calc c * ncr + ncr = ncr * (c + 1) := by ring
              _ ≤ ncr * nColloc m := Nat.mul_le_mul_left _ (by omega)
          omega
        have hstep : ∃ s1, sampleStep (nColloc m) o (c, (allNodes env m)[c]) s = some s1 ∧
            s1.1.size = nVars (nColloc m) nx nu nq ∧ s1.2.size = nCons (nColloc m) nx nq ncr nce ∧
            (∀ v : NVar (nColloc m) nx nu nq, doneV (c + 1) v → s1.1.val v.pos = X v) ∧
            (∀ v : NCon (nColloc m) nx nq ncr nce, doneC (c + 1) v → s1.2.val v.pos = L v) := by
          unfold sampleStep
          simp only [ox ⟨c, hcm⟩ _ ht, e1, if_pos hcN, ou ⟨c, hcN⟩ _ ht, od ⟨c, hcN⟩ _ ht, oc ⟨c, hcN⟩ _ ht]
          rw [setSeg_loc _ _ _ _ (by exact hule)]
          simp only
          rw [setSeg_loc _ _ _ _ (by exact hdle)]
          simp only
          rw [setSeg_loc _ _ _ _ (by exact hcle)]
          simp only
          refine ⟨_, rfl, z1, z2, fun v hv => ?_, fun v hv => ?_⟩
          · simp only [col_u, col_x c hcm]
            cases v with
            | tf => exact d1 .tf trivial
            | q k => exact d1 (.q k) trivial
            | x i k =>
              by_cases hi : c = i
              · simp only [if_pos hi, Option.map_none, Option.getD_none, Option.map_some, Option.getD_some]
                subst hi
                simp [ext, Fin.ofNat_eq_cast]
              · simp only [if_neg hi, Option.map_none, Option.getD_none]
                exact d1 (.x i k) (by simp only [doneV] at hv ⊢; omega)
            | u i k =>
              by_cases hi : c = i
              · simp only [if_pos hi, Option.map_some, Option.getD_some]
                subst hi
                simp [ext]
              · simp only [if_neg hi, Option.map_none, Option.getD_none]
                exact d1 (.u i k) (by simp only [doneV] at hv ⊢; omega)
          · simp only [col_cr c hcN, col_dyn c hcN]
            cases v with
            | int k => exact d2 (.int k) trivial
            | ce k => exact d2 (.ce k) trivial
            | dyn i k =>
              by_cases hi : c = i
              · simp only [if_pos hi, Option.map_none, Option.getD_none, Option.map_some, Option.getD_some]
                subst hi
                simp [ext]
              · simp only [if_neg hi, Option.map_none, Option.getD_none]
                exact d2 (.dyn i k) (by simp only [doneC] at hv ⊢; omega)
            | cr i k =>
              by_cases hi : c = i
              · simp only [if_pos hi, Option.map_some, Option.getD_some]
                subst hi
                simp [ext]
              · simp only [if_neg hi, Option.map_none, Option.getD_none]
                exact d2 (.cr i k) (by simp only [doneC] at hv ⊢; omega)
        obtain ⟨s1, es, y1, y2, f1, f2⟩ := hstep
        rw [es]
        exact ih (c + 1) s1 (by omega) y1 y2 f1 f2
      · have hstep : ∃ s1, sampleStep (nColloc m) o (c, (allNodes env m)[c]) s = some s1 ∧
            s1.1.size = nVars (nColloc m) nx nu nq ∧ s1.2.size = nCons (nColloc m) nx nq ncr nce ∧
            (∀ v : NVar (nColloc m) nx nu nq, doneV (c + 1) v → s1.1.val v.pos = X v) ∧
            (∀ v : NCon (nColloc m) nx nq ncr nce, doneC (c + 1) v → s1.2.val v.pos = L v) := by
          unfold sampleStep
          simp only [ox ⟨c, hcm⟩ _ ht, e1, if_neg hcN]
          refine ⟨_, rfl, z1, z2, fun v hv => ?_, fun v hv => d2 v ?_⟩
          · simp only [col_x c hcm]
            cases v with
            | tf => exact d1 .tf trivial
            | q k => exact d1 (.q k) trivial
            | x i k =>
              by_cases hi : c = i
              · simp only [if_pos hi, Option.map_some, Option.getD_some]
                subst hi
                simp [ext, Fin.ofNat_eq_cast]
              · simp only [if_neg hi, Option.map_none, Option.getD_none]
                exact d1 (.x i k) (by simp only [doneV] at hv ⊢; omega)
            | u i k => exact d1 (.u i k) (by have := i.2; simp only [doneV]; omega)
          · cases v with
            | dyn i k => have := i.2; simp only [doneC]; omega
            | cr i k => have := i.2; simp only [doneC]; omega
            | _ => trivial
        obtain ⟨s1, es, y1, y2, f1, f2⟩ := hstep
        rw [es]
        exact ih (c + 1) s1 (by omega) y1 y2 f1 f2
  obtain ⟨s', es, y1, y2, f1, f2⟩ := loop (nColloc m + 1) 0
    (⟨numX nx nu nq (nColloc m), segSet (qB nx nu nq (nColloc m)) (qL nq) (ext o.Q)
        (segSet (tfB nx nu nq (nColloc m)) 1 (fun _ => o.tf) jx)⟩,
      ⟨numG nx nq ncr nce (nColloc m), segSet (ceB nx nq ncr nce (nColloc m)) nce (ext o.lambda_ce)
        (segSet (qcB nx nq ncr nce (nColloc m)) (qL nq) (ext o.lambda_q) jl)⟩) (by omega) b5 c5
    (fun v hv => by
      simp only [segSet_loc, qL, loc_q, loc_tf]
      cases v with
      | tf => simp [htf]
      | q k => simp [ext, hq]
      | x i k => exact absurd hv (Nat.not_lt_zero _)
      | u i k => exact absurd hv (Nat.not_lt_zero _))
    (fun v hv => by
      simp only [segSet_loc, qL, loc_ce, loc_int]
      cases v with
      | int k => simp [ext, hlq]
      | ce k => simp [ext, hlce]
      | dyn i k => exact absurd hv (Nat.not_lt_zero _)
      | cr i k => exact absurd hv (Nat.not_lt_zero _))
  refine ⟨⟨.unknown, 0, s'.1, ⟨numX nx nu nq (nColloc m), fun _ => 0⟩, ⟨numX nx nu nq (nColloc m), fun _ => 0⟩, s'.2, 0⟩, ?_, y1, f1, y2, f2⟩
  unfold ocpsolToNlpsol
  simp only
  rw [hnl, List.range_eq_range']
  rw [List.drop_zero] at es
  rw [es]

end Verif.NLP
