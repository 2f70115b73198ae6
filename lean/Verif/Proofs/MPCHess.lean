import Verif.Spec.MPC
import Verif.Proofs.OCPQPCost

/-! # The Hessians of the cost functors -/

set_option linter.unusedSectionVars false

namespace Verif.MPC

open Verif.Mesh Verif.Sparse Verif.MeshFn Verif.NLP Verif.OQP

variable {F : Type*} [Field F] [LinearOrder F] {nx nu : ℕ}

theorem mem_pairs {n : ℕ} {p : ℕ × ℕ} : p ∈ pairs n ↔ p.1 < n ∧ p.2 < n := by
  obtain ⟨i, j⟩ := p
  simp only [pairs, List.mem_flatMap, List.mem_range, List.mem_map, Prod.mk.injEq]
  constructor
  · rintro ⟨a, ha, b, hb, rfl, rfl⟩
    exact ⟨ha, hb⟩
  · rintro ⟨h1, h2⟩
    exact ⟨i, h1, j, h2, rfl, rfl⟩

theorem writeLoop_spec {cond val : ℕ → ℕ → Option F} {c v : ℕ → ℕ → F} {off : ℕ} (l : List (ℕ × ℕ)) (A : Sp F)
    (hc : ∀ p ∈ l, cond p.1 p.2 = some (c p.1 p.2)) (hv : ∀ p ∈ l, val p.1 p.2 = some (v p.1 p.2))
    (hf : ∀ p ∈ l, off + p.1 < A.rows ∧ off + p.2 < A.cols) :
    ∃ B, writeLoop cond val off l A = some B ∧ B.rows = A.rows ∧ B.cols = A.cols ∧
      ∀ a b, B.ent a b = if off ≤ a ∧ off ≤ b ∧ (a - off, b - off) ∈ l ∧ c (a - off) (b - off) ≠ 0 then
        some (v (a - off) (b - off)) else A.ent a b := by
  induction l generalizing A with
  | nil => exact ⟨A, rfl, rfl, rfl, fun a b => by simp⟩
  | cons p l ih =>
    obtain ⟨i, j⟩ := p
    have h1 := hc (i, j) (by simp)
    have h2 := hv (i, j) (by simp)
    have h3 := hf (i, j) (by simp)
    simp only at h1 h2 h3
    have hc' := fun p hp => hc p (List.mem_cons_of_mem _ hp)
    have hv' := fun p hp => hv p (List.mem_cons_of_mem _ hp)
    have hf' := fun p hp => hf p (List.mem_cons_of_mem _ hp)
    simp only [writeLoop, h1]
    by_cases h0 : c i j = 0
    · obtain ⟨B, e, r, s, h⟩ := ih A hc' hv' hf'
      refine ⟨B, by rw [if_neg (by simpa using h0)]; exact e, r, s, fun a b => ?_⟩
      rw [h]
      refine if_congr ?_ rfl rfl
      constructor
      · rintro ⟨a1, a2, a3, a4⟩
        exact ⟨a1, a2, List.mem_cons_of_mem _ a3, a4⟩
      · rintro ⟨a1, a2, a3, a4⟩
        refine ⟨a1, a2, ?_, a4⟩
        rcases List.mem_cons.mp a3 with a3 | a3
        · rw [Prod.mk.injEq] at a3
          rw [a3.1, a3.2] at a4
          exact absurd h0 a4
        · exact a3
    · rw [if_pos h0]
      simp only [h2]
      have hu : A.update (off + i) (off + j) (fun _ => v i j) = some { A with
          ent := fun a b => if a = off + i ∧ b = off + j then some (v i j) else A.ent a b } := by
        unfold Sp.update
        rw [if_pos h3]
      rw [hu]
      obtain ⟨B, e, r, s, h⟩ := ih { A with ent := fun a b => if a = off + i ∧ b = off + j then some (v i j) else A.ent a b } hc' hv' hf'
      refine ⟨B, e, r, s, fun a b => ?_⟩
      rw [h]
      simp only
      by_cases h5 : off ≤ a ∧ off ≤ b ∧ (a - off, b - off) ∈ l ∧ c (a - off) (b - off) ≠ 0
      · rw [if_pos h5, if_pos ⟨h5.1, h5.2.1, List.mem_cons_of_mem _ h5.2.2.1, h5.2.2.2⟩]
      · rw [if_neg h5]
        by_cases h6 : a = off + i ∧ b = off + j
        · rw [if_pos h6, if_pos]
          · rw [h6.1, h6.2, Nat.add_sub_cancel_left, Nat.add_sub_cancel_left]
          · rw [h6.1, h6.2, Nat.add_sub_cancel_left, Nat.add_sub_cancel_left]
            exact ⟨by omega, by omega, by simp, h0⟩
        · rw [if_neg h6, if_neg]
          rintro ⟨a1, a2, a3, a4⟩
          rcases List.mem_cons.mp a3 with a3 | a3
          · rw [Prod.mk.injEq] at a3
            exact h6 ⟨by omega, by omega⟩
          · exact h5 ⟨a1, a2, a3, a4⟩

theorem writeLoop_none {cond val : ℕ → ℕ → Option F} {off : ℕ} (l : List (ℕ × ℕ)) (A : Sp F) (p : ℕ × ℕ) (hp : p ∈ l)
    (hc : cond p.1 p.2 = none) : writeLoop cond val off l A = none := by
  induction l generalizing A with
  | nil => simp at hp
  | cons q l ih =>
    obtain ⟨i, j⟩ := q
    simp only [writeLoop]
    rcases List.mem_cons.mp hp with h | h
    · rw [h] at hc
      simp only at hc
      rw [hc]
    · cases cond i j with
      | none => rfl
      | some c =>
        simp only
        split_ifs
        · cases val i j with
          | none => rfl
          | some v =>
            simp only
            cases A.update (off + i) (off + j) (fun _ => v) with
            | none => rfl
            | some B => exact ih B h
        · exact ih A h

/-- A matrix as a function of all indices. -/
def full {n : ℕ} (M : Fin n → Fin n → F) (i j : ℕ) : F := if h : i < n ∧ j < n then M ⟨i, h.1⟩ ⟨j, h.2⟩ else 0

theorem entryAt_full {n : ℕ} (M : Fin n → Fin n → F) {i j : ℕ} (h : i < n ∧ j < n) : entryAt M i j = some (full M i j) := by
  unfold entryAt full
  rw [dif_pos h, dif_pos h]

theorem full_fin {n : ℕ} (M : Fin n → Fin n → F) (i j : Fin n) : full M i j = M i j := by
  unfold full
  rw [dif_pos ⟨i.2, j.2⟩]

/-- `MPCObj::hessian` on any buffer of the right size: `Qtf` is written to the block of the first state. -/
theorem thetaHess_spec (Qtf : Fin nx → Fin nx → F) (buf : Sp F) (h : buf.rows = 1 + 2 * nx + 1 ∧ buf.cols = 1 + 2 * nx + 1) :
    ∃ H, thetaHess Qtf buf = some H ∧ H.rows = 1 + 2 * nx + 1 ∧ H.cols = 1 + 2 * nx + 1 ∧
      ∀ a b, H.val a b = if (1 ≤ a ∧ a < 1 + nx) ∧ 1 ≤ b ∧ b < 1 + nx then full Qtf (a - 1) (b - 1) else 0 := by
  obtain ⟨B, e, r, s, hB⟩ := writeLoop_spec (cond := entryAt Qtf) (val := entryAt Qtf) (c := full Qtf) (v := full Qtf) (off := 1) (pairs nx)
    (setZero buf) (fun p hp => entryAt_full _ (mem_pairs.mp hp)) (fun p hp => entryAt_full _ (mem_pairs.mp hp))
    (fun p hp => by have := mem_pairs.mp hp; simp only [setZero]; omega)
  refine ⟨B, e, r.trans h.1, s.trans h.2, fun a b => ?_⟩
  unfold Sp.val
  rw [hB]
  by_cases h1 : (1 ≤ a ∧ a < 1 + nx) ∧ 1 ≤ b ∧ b < 1 + nx
  · rw [if_pos h1]
    by_cases h2 : full Qtf (a - 1) (b - 1) = 0
    · rw [if_neg (fun h => h.2.2.2 h2), h2]
      exact setZero_val buf a b
    · rw [if_pos ⟨h1.1.1, h1.2.1, mem_pairs.mpr ⟨by simp only; omega, by simp only; omega⟩, h2⟩]
      rfl
  · rw [if_neg h1, if_neg]
    · exact setZero_val buf a b
    · rintro ⟨a1, a2, a3, -⟩
      have := mem_pairs.mp a3
      simp only at this
      exact h1 ⟨⟨a1, by omega⟩, a2, by omega⟩

/-- `MPCIntegrand::hessian` on any buffer of the right size, with no more inputs than states: an entry of `R` is written only where
`Q` is not zero. -/
theorem gHess_spec (Q : Fin nx → Fin nx → F) (R : Fin nu → Fin nu → F) (hn : nu ≤ nx) (buf : Sp F)
    (h : buf.rows = 1 + nx + nu ∧ buf.cols = 1 + nx + nu) :
    ∃ H, gHess Q R buf = some H ∧ H.rows = 1 + nx + nu ∧ H.cols = 1 + nx + nu ∧
      ∀ a b, H.val a b = if (1 ≤ a ∧ a < 1 + nx) ∧ 1 ≤ b ∧ b < 1 + nx then full Q (a - 1) (b - 1)
        else if (1 + nx ≤ a ∧ a < 1 + nx + nu) ∧ 1 + nx ≤ b ∧ b < 1 + nx + nu then
          if full Q (a - (1 + nx)) (b - (1 + nx)) ≠ 0 then full R (a - (1 + nx)) (b - (1 + nx)) else 0
        else 0 := by
  obtain ⟨B, e, r, s, hB⟩ := writeLoop_spec (cond := entryAt Q) (val := entryAt Q) (c := full Q) (v := full Q) (off := 1) (pairs nx)
    (setZero buf) (fun p hp => entryAt_full _ (mem_pairs.mp hp)) (fun p hp => entryAt_full _ (mem_pairs.mp hp))
    (fun p hp => by have := mem_pairs.mp hp; simp only [setZero]; omega)
  have r' : B.rows = 1 + nx + nu := r.trans h.1
  have s' : B.cols = 1 + nx + nu := s.trans h.2
  obtain ⟨C, e', r2, s2, hC⟩ := writeLoop_spec (cond := entryAt Q) (val := entryAt R) (c := full Q) (v := full R) (off := 1 + nx) (pairs nu) B
    (fun p hp => by have := mem_pairs.mp hp; exact entryAt_full _ ⟨by omega, by omega⟩) (fun p hp => entryAt_full _ (mem_pairs.mp hp))
    (fun p hp => by have := mem_pairs.mp hp; omega)
  refine ⟨C, by unfold gHess; rw [e]; exact e', r2.trans r', s2.trans s', fun a b => ?_⟩
  unfold Sp.val
  rw [hC, hB]
  by_cases h1 : (1 ≤ a ∧ a < 1 + nx) ∧ 1 ≤ b ∧ b < 1 + nx
  · rw [if_pos h1, if_neg (by intro h; omega)]
    by_cases h2 : full Q (a - 1) (b - 1) = 0
    · rw [if_neg (fun h => h.2.2.2 h2), h2]
      exact setZero_val buf a b
    · rw [if_pos ⟨h1.1.1, h1.2.1, mem_pairs.mpr ⟨by simp only; omega, by simp only; omega⟩, h2⟩]
      rfl
  · have h1' : ¬(1 ≤ a ∧ 1 ≤ b ∧ (a - 1, b - 1) ∈ pairs nx ∧ full Q (a - 1) (b - 1) ≠ 0) := by
      rintro ⟨a1, a2, a3, -⟩
      have := mem_pairs.mp a3
      simp only at this
      exact h1 ⟨⟨a1, by omega⟩, a2, by omega⟩
    rw [if_neg h1, if_neg h1']
    by_cases h3 : (1 + nx ≤ a ∧ a < 1 + nx + nu) ∧ 1 + nx ≤ b ∧ b < 1 + nx + nu
    · rw [if_pos h3]
      by_cases h2 : full Q (a - (1 + nx)) (b - (1 + nx)) = 0
      · rw [if_neg (fun h => h.2.2.2 h2), if_neg (by simpa using h2)]
        exact setZero_val buf a b
      · rw [if_pos h2, if_pos ⟨h3.1.1, h3.2.1, mem_pairs.mpr ⟨by simp only; omega, by simp only; omega⟩, h2⟩]
        rfl
    · rw [if_neg h3, if_neg]
      · exact setZero_val buf a b
      · rintro ⟨a1, a2, a3, -⟩
        have := mem_pairs.mp a3
        simp only at this
        exact h3 ⟨⟨a1, by omega⟩, a2, by omega⟩

/-- With more inputs than states `Q` is read out of range. -/
theorem gHess_undef (Q : Fin nx → Fin nx → F) (R : Fin nu → Fin nu → F) (hn : nx < nu) (buf : Sp F) : gHess Q R buf = none := by
  unfold gHess
  cases writeLoop (entryAt Q) (entryAt Q) 1 (pairs nx) (setZero buf) with
  | none => rfl
  | some A =>
    refine writeLoop_none _ _ (nx, nx) (mem_pairs.mpr ⟨hn, hn⟩) ?_
    unfold entryAt
    rw [dif_neg (by simp)]

end Verif.MPC
