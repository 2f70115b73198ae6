import Verif.Proofs.MeshFnDyn
import Verif.Proofs.MeshPoly

/-! # The slopes are derivatives of interpolating polynomials -/

set_option linter.unusedSectionVars false

namespace Verif.MeshFn

open Verif.Mesh Verif.Sparse Polynomial Matrix

theorem localNodes_length (env : Env ℝ) (p : Ival ℝ × ℝ) : (localNodes env p).length = p.1.K := by simp [localNodes]

theorem localNodes_getD (env : Env ℝ) (p : Ival ℝ × ℝ) {i : ℕ} (hi : i < p.1.K) :
    (localNodes env p).getD i 0 = toMesh p.1.tau0 p.2 (env.node p.1.K i) := by
  rw [List.getD_eq_getElem?_getD, List.getElem?_eq_getElem (by rw [localNodes_length]; exact hi)]
  simp [localNodes, toMesh]

/-- The first node of what follows an interval is its end. -/
theorem next_node {env : Env ℝ} {b : ℝ} {m : Mesh ℝ} (hL : ∀ v ∈ m, 1 ≤ v.K ∧ IsLGR env v.K) :
    ((spans b m).flatMap (localNodes env) ++ [b]).getD 0 0 = headOr b m := by
  cases m with
  | nil => simp [spans, headOr]
  | cons v m =>
    obtain ⟨hK, hv⟩ := hL v (by simp)
    obtain ⟨e, r, hs⟩ : ∃ e r, spans b (v :: m) = (v, e) :: r := by cases m <;> simp [spans]
    have hne : 0 < (localNodes env (v, e)).length := by rw [localNodes_length]; exact hK
    rw [hs, List.flatMap_cons, List.append_assoc, getD_append_left _ _ _ hne]
    rw [List.getD_eq_getElem?_getD, List.getElem?_eq_getElem hne]
    simp [localNodes, hv.first, headOr]

theorem slope_poly {env : Env ℝ} (hB : IsLagrange env) {b : ℝ} {m : Mesh ℝ} (hi : (m.map Ival.tau0).Pairwise (· < ·))
    (hb : ∀ v ∈ m, v.tau0 < b) (hL : ∀ v ∈ m, 1 ≤ v.K ∧ IsLGR env v.K) (s : ℝ → ℝ) (P : Ival ℝ × ℝ → ℝ[X])
    (hP : ∀ p ∈ spans b m, (P p).natDegree ≤ p.1.K) (hs : ∀ p ∈ spans b m, ∀ x, p.1.tau0 ≤ x → x ≤ p.2 → s x = (P p).eval x)
    (X : ℕ → ℝ) (hX : ∀ i, i ≤ points m → X i = s (((spans b m).flatMap (localNodes env) ++ [b]).getD i 0)) (i : ℕ) (h : i < points m) :
    ∃ p ∈ spans b m, p.1.tau0 ≤ ((spans b m).flatMap (localNodes env) ++ [b]).getD i 0 ∧
      ((spans b m).flatMap (localNodes env) ++ [b]).getD i 0 < p.2 ∧
      slope env (spans b m) X i = (P p).derivative.eval (((spans b m).flatMap (localNodes env) ++ [b]).getD i 0) := by
  induction m generalizing X i with
  | nil => simp [points] at h
  | cons v m ih =>
    have hsp : spans b (v :: m) = (v, headOr b m) :: spans b m := by cases m <;> simp [spans, headOr]
    obtain ⟨hK, hv⟩ := hL v (by simp)
    have hp : v.tau0 < headOr b m := by
      have := (spans_ordered hi hb).1 (v, headOr b m) (by rw [hsp]; simp)
      exact this.1
    have hpts : points (v :: m) = v.K + points m := by simp [points]
    have hlen := localNodes_length env (v, headOr b m)
    have hnode : ∀ k, k < v.K → ((spans b (v :: m)).flatMap (localNodes env) ++ [b]).getD k 0 =
        toMesh v.tau0 (headOr b m) (env.node v.K k) := by
      intro k hk
      rw [hsp, List.flatMap_cons, List.append_assoc, getD_append_left _ _ _ (by rw [hlen]; exact hk), localNodes_getD _ _ hk]
    have hnext : ∀ k, ((spans b (v :: m)).flatMap (localNodes env) ++ [b]).getD (v.K + k) 0 =
        ((spans b m).flatMap (localNodes env) ++ [b]).getD k 0 := by
      intro k
      rw [hsp, List.flatMap_cons, List.append_assoc, getD_append_right' _ _ _ (by rw [hlen]; simp), hlen]
      simp
    have hbound : ∀ k, k < v.K → v.tau0 ≤ toMesh v.tau0 (headOr b m) (env.node v.K k) ∧
        toMesh v.tau0 (headOr b m) (env.node v.K k) < headOr b m := by
      intro k hk
      apply (localNodes_bounds (p := (v, headOr b m)) hv hp).1
      simp only [localNodes, List.mem_map, List.mem_range]
      exact ⟨k, hk, rfl⟩
    by_cases hiK : i < v.K
    · refine ⟨(v, headOr b m), by rw [hsp]; simp, ?_, ?_, ?_⟩
      · rw [hnode i hiK]; exact (hbound i hiK).1
      · rw [hnode i hiK]; exact (hbound i hiK).2
      · rw [hnode i hiK]
        have hd := diffmat_poly hv hB hp (P (v, headOr b m)) (hP _ (by rw [hsp]; simp)) ⟨i, hiK⟩
        rw [← hd, hsp, slope, dif_pos hiK, vecMul, dotProduct]
        refine Finset.sum_congr rfl fun k _ => ?_
        rw [mul_comm]
        congr 1
        rw [hX k (by rw [hpts]; have := k.2; omega)]
        by_cases hk : (k : ℕ) < v.K
        · rw [hnode k hk, nodeExt, if_pos hk]
          exact hs _ (by rw [hsp]; simp) _ (hbound k hk).1 (hbound k hk).2.le
        · have hk' : (k : ℕ) = v.K + 0 := by have := k.2; omega
          rw [hk', hnext 0, next_node (fun w hw => hL w (List.mem_cons_of_mem _ hw)), nodeExt, if_neg (by omega)]
          have ht : toMesh v.tau0 (headOr b m) 1 = headOr b m := by unfold toMesh; ring
          rw [ht]
          exact hs _ (by rw [hsp]; simp) _ hp.le le_rfl
    · obtain ⟨k, rfl⟩ : ∃ k, i = v.K + k := ⟨i - v.K, by omega⟩
      have hi' : (m.map Ival.tau0).Pairwise (· < ·) := by
        rw [List.map_cons, List.pairwise_cons] at hi; exact hi.2
      obtain ⟨p, hp, h1, h2, h3⟩ := ih hi' (fun w hw => hb w (List.mem_cons_of_mem _ hw)) (fun w hw => hL w (List.mem_cons_of_mem _ hw))
        (fun p hp => hP p (by rw [hsp]; exact List.mem_cons_of_mem _ hp))
        (fun p hp => hs p (by rw [hsp]; exact List.mem_cons_of_mem _ hp)) (fun j => X (v.K + j))
        (fun j hj => by rw [hX _ (by rw [hpts]; omega), hnext]) k (by omega)
      refine ⟨p, by rw [hsp]; exact List.mem_cons_of_mem _ hp, ?_, ?_, ?_⟩
      · rw [hnext]; exact h1
      · rw [hnext]; exact h2
      · rw [hnext, ← h3, hsp, slope, dif_neg (by omega)]
        congr 1
        omega

end Verif.MeshFn
