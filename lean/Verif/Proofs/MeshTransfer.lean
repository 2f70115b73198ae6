import Verif.Props.OCPNLPSol

/-! # Trajectories on a mesh are piecewise polynomials, and resampling them on a finer mesh -/

namespace Verif.Mesh

open Polynomial Verif.NLP

theorem flatMap_getElem?_at {α β : Type*} (l : List α) (g : α → List β) (i : ℕ) (p : α) (j : ℕ) (hi : l[i]? = some p)
    (hj : j < (g p).length) : (l.flatMap g)[((l.take i).map fun a => (g a).length).sum + j]? = (g p)[j]? := by
  induction l generalizing i with
  | nil => simp at hi
  | cons a l ih =>
    cases i with
    | zero =>
      simp only [List.getElem?_cons_zero, Option.some.injEq] at hi
      subst hi
      simp only [List.take_zero, List.map_nil, List.sum_nil, Nat.zero_add, List.flatMap_cons]
      exact List.getElem?_append_left hj
    | succ i =>
      simp only [List.getElem?_cons_succ] at hi
      rw [List.take_succ_cons, List.map_cons, List.sum_cons, List.flatMap_cons,
        List.getElem?_append_right (by omega), ← ih i hi]
      congr 1
      omega

section

variable {F : Type*} [Field F] [LinearOrder F] [IsStrictOrderedRing F]

theorem points_take_spans (env : Env F) (m : Mesh F) (i : ℕ) :
    (((spans 1 m).take i).map fun a => (localNodes env a).length).sum = points (m.take i) := by
  unfold points
  conv_rhs => rw [← spans_fst 1 m]
  rw [← List.map_take, List.map_map]
  congr 1
  apply List.map_congr_left
  intro p _
  simp [localNodes]

theorem points_take_succ {m : Mesh F} {i : ℕ} {v : Ival F} (hv : m[i]? = some v) : points (m.take (i + 1)) = points (m.take i) + v.K := by
  rw [List.take_add_one, hv]; simp [points]

/-- The node with local index `j` in interval `i`. -/
theorem node_at {env : Env F} {Kmin Kmax : ℕ} (h1 : 1 ≤ Kmin) {m : Mesh F} (hm : Valid Kmin Kmax m)
    (hL : ∀ K, Kmin ≤ K → K ≤ Kmax + 1 → IsLGR env K) {i : ℕ} {v : Ival F} {b : F} (hi : (spans 1 m)[i]? = some (v, b))
    (j : ℕ) (hj : j ≤ v.K) : (allNodes env m)[points (m.take i) + j]? = some (toMesh v.tau0 b (nodeExt env v.K j)) := by
  have low : ∀ {i : ℕ} {v : Ival F} {b : F}, (spans 1 m)[i]? = some (v, b) → ∀ j, j < v.K →
      (allNodes env m)[points (m.take i) + j]? = some (toMesh v.tau0 b (nodeExt env v.K j)) := by
    intro i v b hi j hj
    have hlt : points (m.take i) + j < points m := by have := points_take_add (spans_some hi).1; omega
    rw [allNodes_eq env m hm.ne_nil, List.getElem?_append_left (by rw [flatMap_length_localNodes]; exact hlt),
      ← points_take_spans env m i, flatMap_getElem?_at _ _ i (v, b) j hi (by simpa [localNodes] using hj)]
    simp [localNodes, hj, toMesh, nodeExt]
  rcases Nat.lt_or_ge j v.K with h | h
  · exact low hi j h
  · obtain rfl : j = v.K := by omega
    obtain ⟨hv, hb⟩ := spans_some hi
    have hil := (List.getElem?_eq_some_iff.1 hv).1
    have hend : toMesh v.tau0 b (nodeExt env v.K v.K) = b := by rw [nodeExt, if_neg (lt_irrefl _), toMesh]; ring
    rw [hend]
    by_cases hlast : i + 1 = m.length
    · rw [points_take_last hv hlast, allNodes_eq env m hm.ne_nil, List.getElem?_append_right (by rw [flatMap_length_localNodes]),
        flatMap_length_localNodes, Nat.sub_self]
      have : b = 1 := by
        rw [← hb]; unfold tauf; rw [List.getElem?_eq_none (by omega)]
      simp [this]
    · have hnext : m[i + 1]? = some m[i + 1] := List.getElem?_eq_getElem (by omega)
      have hd' := hm.degree _ (List.mem_of_getElem? hnext)
      have hs : (spans 1 m)[i + 1]? = some (m[i + 1], tauf m (i + 1)) := by rw [spans_getElem?, hnext]; rfl
      have := low hs 0 (by omega)
      rw [points_take_succ hv, Nat.add_zero] at this
      rw [this, nodeExt, if_pos (by omega), (hL _ hd'.1 hd'.2).first, toMesh]
      have hbt : b = m[i + 1].tau0 := by rw [← hb]; unfold tauf; rw [hnext]
      rw [hbt]
      congr 1
      ring

theorem exists_poly_open {env : Env F} {K : ℕ} (hK : IsLGR env K) (h1 : 1 ≤ K) {a b : F} (hab : a < b) (y : Fin K → F) :
    ∃ P : F[X], P.natDegree ≤ K - 1 ∧ ∀ j : Fin K, P.eval (toMesh a b (env.node K j)) = y j := by
  have hinj : Function.Injective fun j : Fin K => toMesh a b (env.node K j) := by
    intro i j hij
    apply node_injective hK
    simp only [toMesh] at hij ⊢
    have h2 : (b - a) / 2 ≠ 0 := by
      have : 0 < (b - a) / 2 := by linarith
      exact this.ne'
    have := mul_left_cancel₀ h2 (add_left_cancel hij)
    linarith
  refine ⟨Lagrange.interpolate Finset.univ (fun j : Fin K => toMesh a b (env.node K j)) y, ?_, ?_⟩
  · have := Lagrange.degree_interpolate_lt (s := Finset.univ) y hinj.injOn
    rw [Finset.card_univ, Fintype.card_fin] at this
    by_cases h0 : Lagrange.interpolate Finset.univ (fun j : Fin K => toMesh a b (env.node K j)) y = 0
    · rw [h0]; simp
    · have := (Polynomial.natDegree_lt_iff_degree_lt h0).2 this
      omega
  · intro j
    exact Lagrange.eval_interpolate_at_node (s := Finset.univ) y hinj.injOn (Finset.mem_univ j)

/-- The end of an interval that is not the last is below 1, the end of the last is 1. -/
theorem span_end {Kmin Kmax : ℕ} {m : Mesh F} (hm : Valid Kmin Kmax m) {i : ℕ} {v : Ival F} {b : F}
    (hi : (spans 1 m)[i]? = some (v, b)) : b = 1 ↔ i + 1 = m.length := by
  obtain ⟨hv, hb⟩ := spans_some hi
  have hil := (List.getElem?_eq_some_iff.1 hv).1
  constructor
  · intro h
    by_contra hne
    have hnext : m[i + 1]? = some m[i + 1] := List.getElem?_eq_getElem (by omega)
    have := hm.below _ (List.mem_of_getElem? hnext)
    have hbt : b = m[i + 1].tau0 := by rw [← hb]; unfold tauf; rw [hnext]
    rw [← hbt, h] at this
    exact lt_irrefl _ this
  · intro h
    rw [← hb]; unfold tauf; rw [List.getElem?_eq_none (by omega)]

end

/-- The degree of the polynomial that `eval` uses in interval `i`. -/
def polyDeg (m : Mesh ℝ) (ext : Bool) (i K : ℕ) : ℕ := if ext = true ∨ i + 1 < m.length then K else K - 1

/-- The number of values that belong to a mesh. -/
def nVals (m : Mesh ℝ) (ext : Bool) : ℕ := if ext = true then points m + 1 else points m

/-- On each interval `eval` is a polynomial, up to and including the end of the interval. -/
theorem eval_piece {env : Env ℝ} (hB : IsLagrange env) (hS : IsSearch env) {Kmin Kmax : ℕ} (h1 : 1 ≤ Kmin) {m : Mesh ℝ}
    (hm : Valid Kmin Kmax m) (hL : ∀ K, Kmin ≤ K → K ≤ Kmax + 1 → IsLGR env K) {d : ℕ} (r : List (Fin d → ℝ)) (ext : Bool)
    (hr : r.length = nVals m ext) {i : ℕ} {v : Ival ℝ} {b : ℝ} (hi : (spans 1 m)[i]? = some (v, b)) :
    ∃ P : Fin d → ℝ[X], (∀ c, (P c).natDegree ≤ polyDeg m ext i v.K) ∧
      (∀ t, intervalFind env m t = i → eval env m t r 0 ext = some fun c => (P c).eval t) ∧
      ∀ t, v.tau0 ≤ t → t ≤ b → (ext = true ∨ t < 1) → eval env m t r 0 ext = some fun c => (P c).eval t := by
  obtain ⟨hv, hb⟩ := spans_some hi
  have hd := hm.degree v (List.mem_of_getElem? hv)
  have hK := hL v.K hd.1 hd.2
  have hord := span_ordered hm hi
  have hend := span_end hm hi
  have hpt := points_take_add hv
  have hil := (List.getElem?_eq_some_iff.1 hv).1
  by_cases hext : ext = true ∨ i + 1 < m.length
  · have hin : ∀ j : Fin (v.K + 1), points (m.take i) + j < r.length := by
      intro j
      have := j.2
      rw [hr, nVals]
      split_ifs with h
      · omega
      · have hl : i + 1 < m.length := by tauto
        have hnext : m[i + 1]? = some m[i + 1] := List.getElem?_eq_getElem hl
        have hd' := hm.degree _ (List.mem_of_getElem? hnext)
        have := points_take_add hnext
        rw [points_take_succ hv] at this
        omega
    choose P hP1 hP2 using fun c : Fin d => exists_poly hK hord.1 fun j => (r[points (m.take i) + j]'(hin j)) c
    have find : ∀ t, intervalFind env m t = i → eval env m t r 0 ext = some fun c => (P c).eval t := by
      intro t ht
      have := eval_polynomial env hB Kmin Kmax m hm hL t r 0 i v b ht hi ext hext P hP1 (fun j hj => by
        have h := fun c => hP2 c ⟨j, by omega⟩
        simp only [toMesh, nodeExt] at h
        rw [show ((m.take i).map Ival.K).sum = points (m.take i) from rfl, List.getElem?_eq_getElem (hin ⟨j, by omega⟩)]
        congr 1; funext c
        exact (h c).symm)
      simpa using this
    refine ⟨P, fun c => by rw [polyDeg, if_pos hext]; exact hP1 c, find, ?_⟩
    intro t hat htb hlt
    rcases lt_or_eq_of_le htb with h | rfl
    · exact find t (((interval_find_correct env hS Kmin Kmax m hm t).2.2 (hord.2.2.trans hat) (h.trans_le hord.2.1)).2 i v b hi hat h)
    · by_cases hlast : i + 1 = m.length
      · have hb1 := hend.2 hlast
        apply find
        rw [hb1, (interval_find_correct env hS Kmin Kmax m hm 1).2.1 le_rfl]
        omega
      · have hn := node_at h1 hm hL hi v.K le_rfl
        have hnt : toMesh v.tau0 t (nodeExt env v.K v.K) = t := by rw [nodeExt, if_neg (lt_irrefl _), toMesh]; ring
        rw [hnt] at hn
        have hval : eval env m t r 0 ext = r[points (m.take i) + v.K]? := by
          cases ext with
          | true =>
            refine eval_interpolates env hB hS Kmin Kmax m hm hL r ?_ _ t hn
            rw [hr, allNodes_eq env m hm.ne_nil, List.length_append, flatMap_length_localNodes]; rfl
          | false =>
            refine eval_interpolates_open env hB hS Kmin Kmax h1 m hm hL r ?_ _ ?_ t hn
            · rw [hr, nColloc_eq]; rfl
            · have := hin ⟨v.K, by omega⟩
              rw [hr] at this
              rw [nColloc_eq]; exact this
        rw [hval, List.getElem?_eq_getElem (hin ⟨v.K, by omega⟩)]
        congr 1; funext c
        have := hP2 c ⟨v.K, by omega⟩
        rw [hnt] at this
        exact this.symm
  · push Not at hext
    obtain ⟨he, hl⟩ := hext
    obtain rfl : ext = false := by simpa using he
    have hlast : i + 1 = m.length := by omega
    have hin : ∀ j : Fin v.K, points (m.take i) + j < r.length := by
      intro j; have := j.2; rw [hr, nVals]; simp; omega
    choose P hP1 hP2 using fun c : Fin d => exists_poly_open hK (by omega) hord.1 fun j => (r[points (m.take i) + j]'(hin j)) c
    have find : ∀ t, intervalFind env m t = i → eval env m t r 0 false = some fun c => (P c).eval t := by
      intro t ht
      have := eval_polynomial_last env hB Kmin Kmax m hm hL t r 0 i v b ht hi hlast (by omega) P hP1 (fun j hj => by
        have h := fun c => hP2 c ⟨j, hj⟩
        simp only [toMesh] at h
        rw [show ((m.take i).map Ival.K).sum = points (m.take i) from rfl, List.getElem?_eq_getElem (hin ⟨j, hj⟩)]
        congr 1; funext c
        exact (h c).symm)
      simpa using this
    refine ⟨P, fun c => by rw [polyDeg, if_neg (by simp; omega)]; exact hP1 c, find, ?_⟩
    intro t hat htb hlt
    have hlt : t < 1 := by simpa using hlt
    have hb1 := hend.2 hlast
    exact find t (((interval_find_correct env hS Kmin Kmax m hm t).2.2 (hord.2.2.trans hat) hlt).2 i v b hi hat (by rw [hb1]; exact hlt))

end Verif.Mesh
