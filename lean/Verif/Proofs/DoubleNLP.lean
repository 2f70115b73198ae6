import Verif.Spec.DoubleNLP
import Verif.Proofs.Collocation
import Verif.Proofs.Costate
import Verif.Props.DoubleIntFeas

/-! # A motion of the double integrator that every mesh of degrees from five on can hold -/

namespace Verif.DI

open Verif.Mesh Verif.MeshFn Verif.NLP Verif.QP Verif.QPSpec Polynomial

/-! ### Its speed and its acceleration keep their limits -/

theorem ease_acc_low {s : ℝ} (h0 : 0 ≤ s) (h1 : s ≤ 1) : 0 ≤ (-23 / 25) + (-23 / 10) * s + (559 / 25) * s ^ 2 + (-2929 / 75) * s ^ 3 + (209 / 10) * s ^ 4 + 1 := by
  rcases le_total s (1 / 16) with h | h2
  · have g1 : 0 ≤ s - (0) := by linarith
    have g2 : 0 ≤ (1 / 16) - s := by linarith
    have e : (-23 / 25) + (-23 / 10) * s + (559 / 25) * s ^ 2 + (-2929 / 75) * s ^ 3 + (209 / 10) * s ^ 4 + 1 = (131072 / 25) * ((s - (0)) ^ 0 * ((1 / 16) - s) ^ 4) + (288768 / 25) * ((s - (0)) ^ 1 * ((1 / 16) - s) ^ 3) + (222976 / 25) * ((s - (0)) ^ 2 * ((1 / 16) - s) ^ 2) + (264944 / 75) * ((s - (0)) ^ 3 * ((1 / 16) - s) ^ 1) + (141343 / 150) * ((s - (0)) ^ 4 * ((1 / 16) - s) ^ 0) := by ring
    rw [e]
    positivity
  rcases le_total s (1 / 8) with h | h3
  · have g1 : 0 ≤ s - (1 / 16) := by linarith
    have g2 : 0 ≤ (1 / 8) - s := by linarith
    have e : (-23 / 25) + (-23 / 10) * s + (559 / 25) * s ^ 2 + (-2929 / 75) * s ^ 3 + (209 / 10) * s ^ 4 + 1 = (141343 / 150) * ((s - (1 / 16)) ^ 0 * ((1 / 8) - s) ^ 4) + (300428 / 75) * ((s - (1 / 16)) ^ 1 * ((1 / 8) - s) ^ 3) + (51692 / 5) * ((s - (1 / 16)) ^ 2 * ((1 / 8) - s) ^ 2) + (891568 / 75) * ((s - (1 / 16)) ^ 3 * ((1 / 8) - s) ^ 1) + (347512 / 75) * ((s - (1 / 16)) ^ 4 * ((1 / 8) - s) ^ 0) := by ring
    rw [e]
    positivity
  rcases le_total s (1 / 4) with h | h4
  · have g1 : 0 ≤ s - (1 / 8) := by linarith
    have g2 : 0 ≤ (1 / 4) - s := by linarith
    have e : (-23 / 25) + (-23 / 10) * s + (559 / 25) * s ^ 2 + (-2929 / 75) * s ^ 3 + (209 / 10) * s ^ 4 + 1 = (43439 / 150) * ((s - (1 / 8)) ^ 0 * ((1 / 4) - s) ^ 4) + (149188 / 75) * ((s - (1 / 8)) ^ 1 * ((1 / 4) - s) ^ 3) + (121228 / 25) * ((s - (1 / 8)) ^ 2 * ((1 / 4) - s) ^ 2) + (69904 / 15) * ((s - (1 / 8)) ^ 3 * ((1 / 4) - s) ^ 1) + (114872 / 75) * ((s - (1 / 8)) ^ 4 * ((1 / 4) - s) ^ 0) := by ring
    rw [e]
    positivity
  rcases le_total s (1 / 2) with h | h5
  · have g1 : 0 ≤ s - (1 / 4) := by linarith
    have g2 : 0 ≤ (1 / 2) - s := by linarith
    have e : (-23 / 25) + (-23 / 10) * s + (559 / 25) * s ^ 2 + (-2929 / 75) * s ^ 3 + (209 / 10) * s ^ 4 + 1 = (14359 / 150) * ((s - (1 / 4)) ^ 0 * ((1 / 2) - s) ^ 4) + (42464 / 75) * ((s - (1 / 4)) ^ 1 * ((1 / 2) - s) ^ 3) + (28468 / 25) * ((s - (1 / 4)) ^ 2 * ((1 / 2) - s) ^ 2) + (66688 / 75) * ((s - (1 / 4)) ^ 3 * ((1 / 2) - s) ^ 1) + (18136 / 75) * ((s - (1 / 4)) ^ 4 * ((1 / 2) - s) ^ 0) := by ring
    rw [e]
    positivity
  have g1 : 0 ≤ s - (1 / 2) := by linarith
  have g2 : 0 ≤ (1) - s := by linarith
  have e : (-23 / 25) + (-23 / 10) * s + (559 / 25) * s ^ 2 + (-2929 / 75) * s ^ 3 + (209 / 10) * s ^ 4 + 1 = (2267 / 150) * ((s - (1 / 2)) ^ 0 * ((1) - s) ^ 4) + (5266 / 75) * ((s - (1 / 2)) ^ 1 * ((1) - s) ^ 3) + (2512 / 25) * ((s - (1 / 2)) ^ 2 * ((1) - s) ^ 2) + (844 / 15) * ((s - (1 / 2)) ^ 3 * ((1) - s) ^ 1) + (2384 / 75) * ((s - (1 / 2)) ^ 4 * ((1) - s) ^ 0) := by ring
  rw [e]
  positivity

theorem ease_acc_high {s : ℝ} (h0 : 0 ≤ s) (h1 : s ≤ 1) : 0 ≤ 1 - ((-23 / 25) + (-23 / 10) * s + (559 / 25) * s ^ 2 + (-2929 / 75) * s ^ 3 + (209 / 10) * s ^ 4) := by
  rcases le_total s (1 / 2) with h | h2
  · have g1 : 0 ≤ s - (0) := by linarith
    have g2 : 0 ≤ (1 / 2) - s := by linarith
    have e : 1 - ((-23 / 25) + (-23 / 10) * s + (559 / 25) * s ^ 2 + (-2929 / 75) * s ^ 3 + (209 / 10) * s ^ 4) = (768 / 25) * ((s - (0)) ^ 0 * ((1 / 2) - s) ^ 4) + (3532 / 25) * ((s - (0)) ^ 1 * ((1 / 2) - s) ^ 3) + (3752 / 25) * ((s - (0)) ^ 2 * ((1 / 2) - s) ^ 2) + (5798 / 75) * ((s - (0)) ^ 3 * ((1 / 2) - s) ^ 1) + (2533 / 150) * ((s - (0)) ^ 4 * ((1 / 2) - s) ^ 0) := by ring
    rw [e]
    positivity
  have g1 : 0 ≤ s - (1 / 2) := by linarith
  have g2 : 0 ≤ (1) - s := by linarith
  have e : 1 - ((-23 / 25) + (-23 / 10) * s + (559 / 25) * s ^ 2 + (-2929 / 75) * s ^ 3 + (209 / 10) * s ^ 4) = (2533 / 150) * ((s - (1 / 2)) ^ 0 * ((1) - s) ^ 4) + (4334 / 75) * ((s - (1 / 2)) ^ 1 * ((1) - s) ^ 3) + (2288 / 25) * ((s - (1 / 2)) ^ 2 * ((1) - s) ^ 2) + (1076 / 15) * ((s - (1 / 2)) ^ 3 * ((1) - s) ^ 1) + (16 / 75) * ((s - (1 / 2)) ^ 4 * ((1) - s) ^ 0) := by ring
  rw [e]
  positivity

theorem ease_vel_low {s : ℝ} (h0 : 0 ≤ s) (h1 : s ≤ 1) : 0 ≤ (1) + (-23 / 5) * s + (-23 / 4) * s ^ 2 + (559 / 15) * s ^ 3 + (-2929 / 60) * s ^ 4 + (209 / 10) * s ^ 5 + 1 / 2 := by
  rcases le_total s (1 / 2) with h | h2
  · have g1 : 0 ≤ s - (0) := by linarith
    have g2 : 0 ≤ (1 / 2) - s := by linarith
    have e : (1) + (-23 / 5) * s + (-23 / 4) * s ^ 2 + (559 / 15) * s ^ 3 + (-2929 / 60) * s ^ 4 + (209 / 10) * s ^ 5 + 1 / 2 = (48) * ((s - (0)) ^ 0 * ((1 / 2) - s) ^ 5) + (832 / 5) * ((s - (0)) ^ 1 * ((1 / 2) - s) ^ 4) + (698 / 5) * ((s - (0)) ^ 2 * ((1 / 2) - s) ^ 3) + (742 / 15) * ((s - (0)) ^ 3 * ((1 / 2) - s) ^ 2) + (81 / 10) * ((s - (0)) ^ 4 * ((1 / 2) - s) ^ 1) + (11 / 15) * ((s - (0)) ^ 5 * ((1 / 2) - s) ^ 0) := by ring
    rw [e]
    positivity
  rcases le_total s (3 / 4) with h | h3
  · have g1 : 0 ≤ s - (1 / 2) := by linarith
    have g2 : 0 ≤ (3 / 4) - s := by linarith
    have e : (1) + (-23 / 5) * s + (-23 / 4) * s ^ 2 + (559 / 15) * s ^ 3 + (-2929 / 60) * s ^ 4 + (209 / 10) * s ^ 5 + 1 / 2 = (352 / 15) * ((s - (1 / 2)) ^ 0 * ((3 / 4) - s) ^ 5) + (232 / 5) * ((s - (1 / 2)) ^ 1 * ((3 / 4) - s) ^ 4) + (2192 / 15) * ((s - (1 / 2)) ^ 2 * ((3 / 4) - s) ^ 3) + (1324 / 5) * ((s - (1 / 2)) ^ 3 * ((3 / 4) - s) ^ 2) + (866 / 5) * ((s - (1 / 2)) ^ 4 * ((3 / 4) - s) ^ 1) + (105 / 2) * ((s - (1 / 2)) ^ 5 * ((3 / 4) - s) ^ 0) := by ring
    rw [e]
    positivity
  have g1 : 0 ≤ s - (3 / 4) := by linarith
  have g2 : 0 ≤ (1) - s := by linarith
  have e : (1) + (-23 / 5) * s + (-23 / 4) * s ^ 2 + (559 / 15) * s ^ 3 + (-2929 / 60) * s ^ 4 + (209 / 10) * s ^ 5 + 1 / 2 = (105 / 2) * ((s - (3 / 4)) ^ 0 * ((1) - s) ^ 5) + (1759 / 5) * ((s - (3 / 4)) ^ 1 * ((1) - s) ^ 4) + (4896 / 5) * ((s - (3 / 4)) ^ 2 * ((1) - s) ^ 3) + (22288 / 15) * ((s - (3 / 4)) ^ 3 * ((1) - s) ^ 2) + (19456 / 15) * ((s - (3 / 4)) ^ 4 * ((1) - s) ^ 1) + (512) * ((s - (3 / 4)) ^ 5 * ((1) - s) ^ 0) := by ring
  rw [e]
  positivity

theorem ease_vel_high {s : ℝ} (h0 : 0 ≤ s) (h1 : s ≤ 1) : 0 ≤ 3 / 2 - ((1) + (-23 / 5) * s + (-23 / 4) * s ^ 2 + (559 / 15) * s ^ 3 + (-2929 / 60) * s ^ 4 + (209 / 10) * s ^ 5) := by
  have g1 : 0 ≤ s - (0) := by linarith
  have g2 : 0 ≤ (1) - s := by linarith
  have e : 3 / 2 - ((1) + (-23 / 5) * s + (-23 / 4) * s ^ 2 + (559 / 15) * s ^ 3 + (-2929 / 60) * s ^ 4 + (209 / 10) * s ^ 5) = (1 / 2) * ((s - (0)) ^ 0 * ((1) - s) ^ 5) + (71 / 10) * ((s - (0)) ^ 1 * ((1) - s) ^ 4) + (583 / 20) * ((s - (0)) ^ 2 * ((1) - s) ^ 3) + (151 / 12) * ((s - (0)) ^ 3 * ((1) - s) ^ 2) + (373 / 30) * ((s - (0)) ^ 4 * ((1) - s) ^ 1) + (3 / 2) * ((s - (0)) ^ 5 * ((1) - s) ^ 0) := by ring
  rw [e]
  positivity

/-! ### Slopes and quadrature -/

/-- The weighted sum of the slopes is the way covered. -/
theorem slope_quad {env : Mesh.Env ℝ} (hB : IsLagrange env) {Kmin Kmax : ℕ} (h1 : 1 ≤ Kmin) {m : Mesh ℝ} (hm : Valid Kmin Kmax m)
    (hL : ∀ K, Kmin ≤ K → K ≤ Kmax + 1 → IsLGR env K) (X : Fin (nColloc m + 1) → ℝ) :
    ∑ i : Fin (nColloc m), wAt env m i * slope env (spans 1 m) (fun j => if h : j < nColloc m + 1 then X ⟨j, h⟩ else 0) i =
      X (Fin.last _) - X 0 := by
  have hN : nColloc m = points m := nColloc_eq m
  have hpos : 0 < nColloc m := nColloc_pos hm.ne_nil fun v hv => h1.trans (hm.degree v hv).1
  have hX : (fun j => if h : j < nColloc m + 1 then X ⟨j, h⟩ else 0) = fun j => ∑ v : Fin (nColloc m + 1), (if j = (v : ℕ) then (1 : ℝ) else 0) * X v := by
    funext j
    split_ifs with h
    · rw [Finset.sum_eq_single (⟨j, h⟩ : Fin (nColloc m + 1))]
      · simp
      · intro v _ hv
        rw [if_neg (fun e => hv (Fin.ext e.symm)), zero_mul]
      · simp
    · refine (Finset.sum_eq_zero fun v _ => ?_).symm
      rw [if_neg (by have := v.2; omega), zero_mul]
  have hw : ∀ i : ℕ, i < points m → wAt env m i = ((spans 1 m).flatMap (localWeights env)).getD i 0 := by
    intro i hi
    have hlen : ((spans 1 m).flatMap (localWeights env)).length = points m := by
      rw [flatMap_length_localWeights]
    rw [wAt, allWeights_eq env m hm.ne_nil, List.getD_append _ _ _ _ (by omega)]
  have key := fun (j : Fin (nColloc m + 1)) => by_parts hB hm.increasing hm.below
    (fun v hv => ⟨h1.trans (hm.degree v hv).1, hL _ (hm.degree v hv).1 (hm.degree v hv).2⟩) (fun _ => C (1 : ℝ))
    (fun p hp => by rw [natDegree_C]; have := (hm.degree _ (mem_spans_fst hp)).1; omega) (fun _ => 1) (fun _ => 1) (fun _ => 0)
    (fun p hp x _ _ => by simp) (fun p hp x _ _ => by simp) (fun p hp x _ _ => by simp) (j : ℕ) (by have := j.2; omega)
  rw [hX]
  simp only [← OQP.slope_sum]
  simp only [Finset.mul_sum]
  rw [Finset.sum_comm]
  have hterm : ∀ v : Fin (nColloc m + 1), ∑ i : Fin (nColloc m), wAt env m i * (slope env (spans 1 m) (fun j => if j = (v : ℕ) then (1 : ℝ) else 0) i * X v) =
      ((if 0 < (v : ℕ) then 1 else 0) - if (v : ℕ) < points m then 1 else 0) * X v := by
    intro v
    have := key v
    simp only [one_mul, mul_zero, add_zero] at this
    rw [← this, Finset.sum_mul, ← Fin.sum_univ_eq_sum_range (fun i => ((spans 1 m).flatMap (localWeights env)).getD i 0 *
      slope env (spans 1 m) (fun k => if k = (v : ℕ) then 1 else 0) i * X v)]
    have e : ∀ (n : ℕ), n = nColloc m → ∀ f : ℕ → ℝ, ∑ i : Fin n, f i = ∑ i : Fin (nColloc m), f i := by
      rintro n rfl f
      rfl
    rw [e _ hN.symm (fun i => ((spans 1 m).flatMap (localWeights env)).getD i 0 * slope env (spans 1 m) (fun k => if k = (v : ℕ) then 1 else 0) i * X v)]
    refine Finset.sum_congr rfl fun i _ => ?_
    rw [hw i (hN ▸ i.2)]
    ring
  simp only [hterm]
  rw [Fin.sum_univ_castSucc]
  simp only [Fin.val_last, Fin.val_castSucc]
  rw [if_pos hpos, if_neg (by omega)]
  have h0 : ∀ i : Fin (nColloc m), ((if 0 < (i : ℕ) then (1 : ℝ) else 0) - if (i : ℕ) < points m then 1 else 0) * X i.castSucc =
      if i = ⟨0, hpos⟩ then -X i.castSucc else 0 := by
    intro i
    have hip : (i : ℕ) < points m := lt_of_lt_of_eq i.2 hN
    rw [if_pos hip]
    by_cases hi : i = ⟨0, hpos⟩
    · rw [if_pos hi, if_neg (by rw [hi]; simp)]
      ring
    · have : 0 < (i : ℕ) := by
        rcases Nat.eq_zero_or_pos (i : ℕ) with h | h
        · exact absurd (Fin.ext h) hi
        · exact h
      rw [if_neg hi, if_pos this]
      ring
  simp only [h0, Finset.sum_ite_eq', Finset.mem_univ, if_true]
  have : (⟨0, hpos⟩ : Fin (nColloc m)).castSucc = 0 := rfl
  rw [this]
  ring

/-- There are values with given slopes and a given start. -/
theorem slope_solve {env : Mesh.Env ℝ} (hB : IsLagrange env) {Kmin Kmax : ℕ} (h1 : 1 ≤ Kmin) {m : Mesh ℝ} (hm : Valid Kmin Kmax m)
    (hL : ∀ K, Kmin ≤ K → K ≤ Kmax + 1 → IsLGR env K) (r : Fin (nColloc m) → ℝ) (y : ℝ) :
    ∃ X : Fin (nColloc m + 1) → ℝ, X 0 = y ∧ ∀ i : Fin (nColloc m),
      slope env (spans 1 m) (fun j => if h : j < nColloc m + 1 then X ⟨j, h⟩ else 0) i = r i := by
  obtain ⟨Y, ⟨a, b⟩, -⟩ := colloc_solve hB (n := 1) (nColloc_eq m) hm.increasing hm.below
    (fun v hv => ⟨h1.trans (hm.degree v hv).1, hL _ (hm.degree v hv).1 (hm.degree v hv).2⟩) (fun _ => 1) (fun _ => one_pos) 0 (fun p _ => by simp)
    (fun _ => 0) (fun j y => by simp) (fun j _ => r j) (fun _ => y)
  refine ⟨fun i => Y i 0, congrFun a 0, fun i => ?_⟩
  have := b i 0
  rw [Matrix.zero_mulVec, Pi.zero_apply, zero_add] at this
  exact this

theorem quad_range : ∀ (xs ws : List ℝ) (f : ℝ → ℝ), xs.length = ws.length →
    quad xs ws f = ∑ i ∈ Finset.range xs.length, ws.getD i 0 * f (xs.getD i 0)
  | [], ws, f, _ => by simp [quad]
  | x :: xs, [], f, h => by simp at h
  | x :: xs, w :: ws, f, h => by
    have := quad_range xs ws f (by simpa using h)
    rw [List.length_cons, Finset.sum_range_succ']
    unfold quad at this ⊢
    rw [List.zip_cons_cons, List.map_cons, List.sum_cons, this]
    simp [add_comm]

/-- Quadrature of a polynomial. -/
theorem quad_poly {env : Mesh.Env ℝ} {Kmin Kmax : ℕ} {m : Mesh ℝ} (hm : Valid Kmin Kmax m) (hL : ∀ K, Kmin ≤ K → K ≤ Kmax + 1 → IsLGR env K)
    (P : ℝ[X]) (hP : P.natDegree ≤ 2 * Kmin - 1) : ∑ i : Fin (nColloc m), wAt env m i * P.derivative.eval (tauAt env m i) = P.eval 1 - P.eval 0 := by
  have h := mesh_quad hm hL (fun x => P.derivative.eval x) (fun _ => P)
    (fun p hp => hP.trans (by have := (hm.degree _ (mem_spans_fst hp)).1; omega)) (fun p hp x _ _ => rfl)
  have hlen : (allNodes env m).length = (allWeights env m).length := by
    rw [allNodes_eq env m hm.ne_nil, allWeights_eq env m hm.ne_nil, List.length_append, List.length_append, flatMap_length_localNodes,
      flatMap_length_localWeights]
    rfl
  have hN : (allNodes env m).length = nColloc m + 1 := by
    rw [allNodes_eq env m hm.ne_nil, List.length_append, flatMap_length_localNodes, nColloc_eq]
    rfl
  have hlast : (allWeights env m).getD (nColloc m) 0 = 0 := by
    rw [allWeights_eq env m hm.ne_nil, List.getD_append_right _ _ _ _ (by rw [flatMap_length_localWeights, nColloc_eq]), flatMap_length_localWeights, nColloc_eq]
    simp
  have ht := spans_telescope (fun x : ℝ => P.eval x) 1 m
  rw [if_neg hm.ne_nil] at ht
  rw [quad_range _ _ _ hlen, hN, Finset.sum_range_succ, hlast, zero_mul, add_zero, ht] at h
  rw [Fin.sum_univ_eq_sum_range (fun i => wAt env m i * P.derivative.eval (tauAt env m i))]
  refine h.trans ?_
  have hs := hm.starts
  cases m with
  | nil => exact absurd rfl hm.ne_nil
  | cons v m => simp only [List.map_cons, List.head?_cons, Option.some.injEq] at hs; simp [headOr, hs]

/-! ### The motion -/

/-- Its speed, over five seconds. -/
noncomputable def easeVel : ℝ[X] :=
  C (1) + C (-23 / 5) * X + C (-23 / 4) * X ^ 2 + C (559 / 15) * X ^ 3 + C (-2929 / 60) * X ^ 4 + C (209 / 10) * X ^ 5

/-- Its acceleration. -/
noncomputable def easeAcc (s : ℝ) : ℝ := (-23 / 25) + (-23 / 10) * s + (559 / 25) * s ^ 2 + (-2929 / 75) * s ^ 3 + (209 / 10) * s ^ 4

/-- An antiderivative of its speed. -/
noncomputable def easePos : ℝ[X] :=
  X + C (-23 / 10) * X ^ 2 + C (-23 / 12) * X ^ 3 + C (559 / 60) * X ^ 4 + C (-2929 / 300) * X ^ 5 + C (209 / 60) * X ^ 6

theorem easeVel_deg : easeVel.natDegree ≤ 5 := by
  unfold easeVel
  compute_degree

theorem easePos_deg : easePos.natDegree ≤ 6 := by
  unfold easePos
  compute_degree

theorem easePos_deriv : derivative easePos = easeVel := by
  unfold easePos easeVel
  simp only [derivative_add, derivative_mul, derivative_C, derivative_X, derivative_X_pow, zero_mul, zero_add, mul_one, C_1]
  refine Polynomial.funext fun x => ?_
  simp only [eval_add, eval_mul, eval_C, eval_X, eval_pow, eval_one, eval_natCast]
  push_cast
  ring

theorem easeVel_deriv (s : ℝ) : (derivative easeVel).eval s = 5 * easeAcc s := by
  unfold easeVel easeAcc
  simp only [derivative_add, derivative_mul, derivative_C, derivative_X, derivative_X_pow, zero_mul, zero_add, mul_one]
  simp only [eval_add, eval_mul, eval_C, eval_X, eval_pow, eval_natCast]
  push_cast
  ring

theorem ease_ends : easeVel.eval 0 = 1 ∧ easeVel.eval 1 = 0 ∧ easePos.eval 1 - easePos.eval 0 = -(9 / 50) := by
  refine ⟨?_, ?_, ?_⟩ <;> (simp [easeVel, easePos] <;> norm_num)

theorem ease_bounds {s : ℝ} (h0 : 0 ≤ s) (h1 : s ≤ 1) : -(1 / 2) ≤ easeVel.eval s ∧ easeVel.eval s ≤ 3 / 2 ∧ -1 ≤ easeAcc s ∧ easeAcc s ≤ 1 := by
  have a := ease_acc_low h0 h1
  have b := ease_acc_high h0 h1
  have c := ease_vel_low h0 h1
  have d := ease_vel_high h0 h1
  have e : easeVel.eval s = (1) + (-23 / 5) * s + (-23 / 4) * s ^ 2 + (559 / 15) * s ^ 3 + (-2929 / 60) * s ^ 4 + (209 / 10) * s ^ 5 := by
    simp only [easeVel, eval_add, eval_mul, eval_C, eval_X, eval_pow]
  rw [e]
  unfold easeAcc
  refine ⟨by linarith, by linarith, by linarith, by linarith⟩

/-- On every mesh with degrees of at least five the nonlinear program of the double integrator has a feasible point. -/
theorem ease_feasible {env : Mesh.Env ℝ} (hB : IsLagrange env) {Kmin Kmax : ℕ} (h5 : 5 ≤ Kmin) {m : Mesh ℝ} (hm : Valid Kmin Kmax m)
    (hL : ∀ K, Kmin ≤ K → K ≤ Kmax + 1 → IsLGR env K) : ∃ z, NLP.Feasible ocpDi env m z := by
  obtain ⟨t0, tN, t01⟩ := Flatten.tauAt_bounds env (by omega) m hm hL
  obtain ⟨v0, v1, p1⟩ := ease_ends
  obtain ⟨Y, y0, yd⟩ := slope_solve hB (by omega) hm hL (fun i => 5 * easeVel.eval (tauAt env m i)) 1
  have hY : Y (Fin.last _) = 1 / 10 := by
    have h := slope_quad hB (by omega) hm hL Y
    simp only [yd] at h
    have h' := quad_poly hm hL easePos (easePos_deg.trans (by omega))
    rw [easePos_deriv, p1] at h'
    have e : ∑ i : Fin (nColloc m), wAt env m i * (5 * easeVel.eval (tauAt env m i)) = 5 * ∑ i : Fin (nColloc m), wAt env m i * easeVel.eval (tauAt env m i) := by
      rw [Finset.mul_sum]
      exact Finset.sum_congr rfl fun i _ => by ring
    rw [e, h', y0] at h
    linarith
  have hV : ∀ i : Fin (nColloc m), slope env (spans 1 m) (fun l => if l < nColloc m + 1 then easeVel.eval (tauAt env m l) else 0) i = 5 * easeAcc (tauAt env m i) := by
    intro i
    have hi : (i : ℕ) < points m := lt_of_lt_of_eq i.2 (nColloc_eq m)
    obtain ⟨p, hp, k1, k2, h⟩ := slope_poly hB hm.increasing hm.below
      (fun v hv => ⟨(by have := (hm.degree v hv).1; omega), hL _ (hm.degree v hv).1 (hm.degree v hv).2⟩) (fun t => easeVel.eval t) (fun _ => easeVel)
      (fun p hp => easeVel_deg.trans (h5.trans (hm.degree _ (mem_spans_fst hp)).1)) (fun p hp x a b => rfl)
      (fun j => if j < nColloc m + 1 then easeVel.eval (tauAt env m j) else 0) (by
        intro j hj
        have hj' : j < nColloc m + 1 := by rw [nColloc_eq]; omega
        simp only [if_pos hj', tauAt, allNodes_eq env m hm.ne_nil]) i hi
    rw [h, easeVel_deriv, tauAt, allNodes_eq env m hm.ne_nil]
  let z : NVar (nColloc m) 2 1 1 → ℝ := fun
    | .tf => 5
    | .q _ => 5 * ∑ i : Fin (nColloc m), wAt env m i * (ocpDi (F := ℝ)).g.val (pt (5 * tauAt env m i) ![Y i.castSucc, easeVel.eval (tauAt env m i)]
        fun _ => easeAcc (tauAt env m i)) 0
    | .x i k => ![Y i, easeVel.eval (tauAt env m i)] k
    | .u i _ => easeAcc (tauAt env m i)
  have hz : ∀ i : Fin (nColloc m), (fun k => z (.x i.castSucc k)) = ![Y i.castSucc, easeVel.eval (tauAt env m i)] := fun i => rfl
  refine ⟨z, ?_, fun i k => ?_, fun k => ?_, fun i k => ?_, fun k => ?_⟩
  · change (0 : ℝ) ≤ 5
    norm_num
  · fin_cases k
    · exact yd i
    · have := hV i
      simpa [z, ocpDi, dyn, pt] using this
  · fin_cases k
    rfl
  · obtain ⟨a, b⟩ := t01 i
    obtain ⟨b1, b2, b3, b4⟩ := ease_bounds a b.le
    fin_cases k
    · exact ⟨by simpa [z, ocpDi, cr, pt, lower] using b1, by simpa [z, ocpDi, cr, pt, upper] using b2⟩
    · exact ⟨by simpa [z, ocpDi, cr, pt, lower] using b3, by simpa [z, ocpDi, cr, pt, upper] using b4⟩
  · fin_cases k <;> simp [z, ocpDi, ce, NLP.ends, lower, upper, t0, tN, y0, hY, v0, v1]

end Verif.DI
