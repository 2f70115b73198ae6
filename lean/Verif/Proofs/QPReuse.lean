import Verif.Model.QPReuse
import Verif.Proofs.QPRun

/-! # Reuse of the sparse solver object -/

set_option linter.unusedSectionVars false

namespace Verif.QP

open Matrix Verif.QPSpec

variable {F : Type*} [Field F] [LinearOrder F] [IsStrictOrderedRing F] {n m : ℕ}

open Classical in
/-- Writes whose value depends on the position only. -/
theorem foldl_set {ι α : Type*} [DecidableEq ι] (L : List α) (c : α → Prop) [DecidablePred c] (ka kb : α → ι)
    (V : ι → ι → F) (M : SpMat ι F) (i j : ι) :
    L.foldl (fun M e => if c e then M.modify (ka e) (kb e) (fun _ => V (ka e) (kb e)) else M) M i j =
      if ∃ e ∈ L, c e ∧ i = ka e ∧ j = kb e then some (V i j) else M i j := by
  induction L generalizing M with
  | nil => simp
  | cons e L ih =>
    rw [List.foldl_cons, ih]
    by_cases h1 : ∃ e ∈ L, c e ∧ i = ka e ∧ j = kb e
    · rw [if_pos h1, if_pos]
      obtain ⟨e', h2, h3⟩ := h1
      exact ⟨e', List.mem_cons_of_mem _ h2, h3⟩
    · rw [if_neg h1]
      by_cases hc : c e
      · rw [if_pos hc]
        unfold SpMat.modify
        by_cases h2 : i = ka e ∧ j = kb e
        · rw [if_pos h2, if_pos ⟨e, List.mem_cons_self, hc, h2⟩, h2.1, h2.2]
        · rw [if_neg h2, if_neg]
          rintro ⟨e', h3, h4, h5⟩
          rcases List.mem_cons.1 h3 with rfl | h3
          · exact h2 h5
          · exact h1 ⟨e', h3, h4, h5⟩
      · rw [if_neg hc, if_neg]
        rintro ⟨e', h3, h4, h5⟩
        rcases List.mem_cons.1 h3 with rfl | h3
        · exact hc h4
        · exact h1 ⟨e', h3, h4, h5⟩

open Classical in
/-- Updates at pairwise different positions. -/
theorem foldl_modify {ι α : Type*} [DecidableEq ι] (L : List α) (hL : L.Nodup) (k : α → ι) (hk : Function.Injective k)
    (f : F → F) (M : SpMat ι F) (i j : ι) :
    L.foldl (fun M e => M.modify (k e) (k e) f) M i j =
      if ∃ e ∈ L, i = k e ∧ j = k e then some (f ((M i j).getD 0)) else M i j := by
  induction L generalizing M with
  | nil => simp
  | cons e L ih =>
    rw [List.foldl_cons, ih hL.of_cons]
    have hne := (List.nodup_cons.1 hL).1
    by_cases h1 : ∃ e ∈ L, i = k e ∧ j = k e
    · rw [if_pos h1]
      obtain ⟨e', h2, h3, h4⟩ := h1
      rw [if_pos ⟨e', List.mem_cons_of_mem _ h2, h3, h4⟩]
      unfold SpMat.modify
      rw [if_neg]
      rintro ⟨h5, -⟩
      rw [h3] at h5
      rw [hk h5] at h2
      exact hne h2
    · rw [if_neg h1]
      unfold SpMat.modify
      by_cases h2 : i = k e ∧ j = k e
      · rw [if_pos h2, if_pos ⟨e, List.mem_cons_self, h2⟩, h2.1, h2.2]
      · rw [if_neg h2, if_neg]
        rintro ⟨e', h3, h5⟩
        rcases List.mem_cons.1 h3 with rfl | h3
        · exact h2 h5
        · exact h1 ⟨e', h3, h5⟩

/-- The stored positions of the system matrix for a pattern. -/
def kktPattern (t : Pattern n m) : Fin n ⊕ Fin m → Fin n ⊕ Fin m → Bool
  | .inl i, .inl j => decide (i = j ∨ ((i, j) ∈ t.P ∧ i ≤ j))
  | .inl j, .inr i => decide ((i, j) ∈ t.A)
  | .inr _, .inl _ => false
  | .inr i, .inr j => decide (i = j)

/-- Stored coefficients are zero and lie in the pattern. -/
def Clean (t : Pattern n m) (M : SpMat (Fin n ⊕ Fin m) F) : Prop :=
  ∀ a b, M a b = none ∨ (M a b = some 0 ∧ kktPattern t a b = true)

/-- The fill from a clean matrix: exactly the pattern, and the upper triangle of the system matrix. -/
theorem fillH_spec {sigma : F} {t : Pattern n m} {p : Pbm F n m} (hfit : t.Fits p) (s : Scaling F n m) (rho : Fin m → F)
    {M : SpMat (Fin n ⊕ Fin m) F} (hM : Clean t M) :
    (fillH sigma t p s rho M).pattern = kktPattern t ∧
    symUpper (fun a b => (fillH sigma t p s rho M a b).getD 0) = symUpper (kkt sigma p s rho) := by
  classical
  have hM0 : ∀ a b, (M a b).getD 0 = 0 := by
    intro a b
    rcases hM a b with h | ⟨h, -⟩ <;> rw [h] <;> rfl
  have hMs : ∀ a b, kktPattern t a b = false → M a b = none := by
    intro a b h
    rcases hM a b with h1 | ⟨-, h1⟩
    · exact h1
    · rw [h] at h1; cases h1
  set V1 : Fin n ⊕ Fin m → Fin n ⊕ Fin m → F := fun a b => match a, b with
    | .inl i, .inl j => s.c * s.sx i * s.sx j * p.P i j
    | _, _ => 0 with hV1
  set V3 : Fin n ⊕ Fin m → Fin n ⊕ Fin m → F := fun a b => match a, b with
    | .inl j, .inr i => s.sy i * s.sx j * p.A i j
    | _, _ => 0 with hV3
  set V4 : Fin n ⊕ Fin m → Fin n ⊕ Fin m → F := fun a _ => match a with
    | .inr i => -1 / rho i
    | _ => 0 with hV4
  set M1 := t.P.foldl (fun M e => if e.1 ≤ e.2 then
      M.modify (.inl e.1) (.inl e.2) (fun _ => s.c * s.sx e.1 * s.sx e.2 * p.P e.1 e.2) else M) M with hM1
  set M2 := (List.finRange n).foldl (fun M i => M.modify (.inl i) (.inl i) (fun a => a + sigma)) M1 with hM2
  set M3 := t.A.foldl (fun M e => M.modify (.inl e.2) (.inr e.1) (fun _ => s.sy e.1 * s.sx e.2 * p.A e.1 e.2)) M2 with hM3
  have hM4 : fillH sigma t p s rho M = (List.finRange m).foldl (fun M i => M.modify (.inr i) (.inr i) (fun _ => -1 / rho i)) M3 := rfl
  have e1 : ∀ a b, M1 a b = if ∃ e ∈ t.P, e.1 ≤ e.2 ∧ a = .inl e.1 ∧ b = .inl e.2 then some (V1 a b) else M a b :=
    fun a b => foldl_set t.P (fun e => e.1 ≤ e.2) (fun e => Sum.inl e.1) (fun e => Sum.inl e.2) V1 M a b
  have e2 : ∀ a b, M2 a b = if ∃ i ∈ List.finRange n, a = .inl i ∧ b = .inl i then some ((M1 a b).getD 0 + sigma) else M1 a b := by
    intro a b
    have := foldl_modify _ (List.nodup_finRange n) Sum.inl Sum.inl_injective (fun a => a + sigma) M1 a b
    convert this
  have e3 : ∀ a b, M3 a b = if ∃ e ∈ t.A, True ∧ a = .inl e.2 ∧ b = .inr e.1 then some (V3 a b) else M2 a b := by
    intro a b
    have := foldl_set t.A (fun _ => True) (fun e => Sum.inl e.2) (fun e => Sum.inr e.1) V3 M2 a b
    simp only [if_true] at this
    exact this
  have e4 : ∀ a b, fillH sigma t p s rho M a b =
      if ∃ i ∈ List.finRange m, True ∧ a = .inr i ∧ b = .inr i then some (V4 a b) else M3 a b := by
    intro a b
    rw [hM4]
    have := foldl_set (List.finRange m) (fun _ => True) (fun e => Sum.inr e) (fun e => Sum.inr e) V4 M3 a b
    simp only [if_true] at this
    convert this
  have f1 : ∀ i j, (M1 (.inl i) (.inl j)).getD 0 = if i ≤ j then s.c * s.sx i * s.sx j * p.P i j else 0 := by
    intro i j
    rw [e1]
    by_cases hm : (i, j) ∈ t.P ∧ i ≤ j
    · rw [if_pos ⟨(i, j), hm.1, hm.2, rfl, rfl⟩, if_pos hm.2]; rfl
    · rw [if_neg, hM0]
      · split
        · rename_i hle
          rw [hfit.1 i j (fun h => hm ⟨h, hle⟩), mul_zero]
        · rfl
      · rintro ⟨⟨i', j'⟩, h1, h2, h3, h4⟩
        cases h3; cases h4
        exact hm ⟨h1, h2⟩
  have g1 : ∀ i j, i ≠ j → ((M1 (.inl i) (.inl j)).isSome = true ↔ (i, j) ∈ t.P ∧ i ≤ j) := by
    intro i j hne
    rw [e1]
    by_cases hm : (i, j) ∈ t.P ∧ i ≤ j
    · rw [if_pos ⟨(i, j), hm.1, hm.2, rfl, rfl⟩]; simp [hm]
    · rw [if_neg, hMs]
      · simp [hm]
      · simp only [kktPattern, decide_eq_false_iff_not]
        tauto
      · rintro ⟨⟨i', j'⟩, h1, h2, h3, h4⟩
        cases h3; cases h4
        exact hm ⟨h1, h2⟩
  have f2 : ∀ i j, fillH sigma t p s rho M (.inl i) (.inl j) =
      if i = j then some ((M1 (.inl i) (.inl j)).getD 0 + sigma) else M1 (.inl i) (.inl j) := by
    intro i j
    rw [e4, if_neg (by simp), e3, if_neg (by simp), e2]
    by_cases hij : i = j
    · subst hij
      rw [if_pos ⟨i, List.mem_finRange i, rfl, rfl⟩, if_pos rfl]
    · rw [if_neg, if_neg hij]
      rintro ⟨k, -, h1, h2⟩
      cases h1; cases h2; exact hij rfl
  have f3 : ∀ j i, fillH sigma t p s rho M (.inl j) (.inr i) =
      if (i, j) ∈ t.A then some (s.sy i * s.sx j * p.A i j) else none := by
    intro j i
    rw [e4, if_neg (by simp), e3]
    by_cases hm : (i, j) ∈ t.A
    · rw [if_pos ⟨(i, j), hm, trivial, rfl, rfl⟩, if_pos hm]
    · rw [if_neg, if_neg hm, e2, if_neg (by simp), e1, if_neg (by simp), hMs]
      · simp [kktPattern, hm]
      · rintro ⟨⟨i', j'⟩, h1, -, h3, h4⟩
        cases h3; cases h4
        exact hm h1
  have f4 : ∀ i j, fillH sigma t p s rho M (.inr i) (.inl j) = none := by
    intro i j
    rw [e4, if_neg (by simp), e3, if_neg (by simp), e2, if_neg (by simp), e1, if_neg (by simp), hMs]
    rfl
  have f5 : ∀ i j, fillH sigma t p s rho M (.inr i) (.inr j) = if i = j then some (-1 / rho i) else none := by
    intro i j
    rw [e4]
    by_cases hij : i = j
    · subst hij
      rw [if_pos ⟨i, List.mem_finRange i, trivial, rfl, rfl⟩, if_pos rfl]
    · rw [if_neg, if_neg hij, e3, if_neg (by simp), e2, if_neg (by simp), e1, if_neg (by simp), hMs]
      · simp [kktPattern, hij]
      · rintro ⟨k, -, -, h1, h2⟩
        cases h1; cases h2; exact hij rfl
  constructor
  · funext a b
    unfold SpMat.pattern
    match a, b with
    | .inl i, .inl j =>
      rw [f2]
      by_cases hij : i = j
      · subst hij; simp [kktPattern]
      · rw [if_neg hij, Bool.eq_iff_iff, g1 i j hij]
        simp [kktPattern, hij]
    | .inl j, .inr i =>
      rw [f3]
      by_cases hm : (i, j) ∈ t.A <;> simp [kktPattern, hm]
    | .inr i, .inl j => rw [f4]; rfl
    | .inr i, .inr j =>
      rw [f5]
      by_cases hij : i = j <;> simp [kktPattern, hij]
  · have up : ∀ i j, i ≤ j → (fillH sigma t p s rho M (.inl i) (.inl j)).getD 0 = kkt sigma p s rho (.inl i) (.inl j) := by
      intro i j hij
      rw [f2]
      simp only [kkt]
      by_cases h : i = j
      · rw [if_pos h, if_pos h, Option.getD_some, f1, if_pos hij]; ring
      · rw [if_neg h, if_neg h, f1, if_pos hij]; ring
    have ur : ∀ j i, (fillH sigma t p s rho M (.inl j) (.inr i)).getD 0 = kkt sigma p s rho (.inl j) (.inr i) := by
      intro j i
      rw [f3]
      simp only [kkt]
      by_cases hm : (i, j) ∈ t.A
      · rw [if_pos hm, Option.getD_some]; ring
      · rw [if_neg hm, hfit.2 i j hm]; simp
    have lr : ∀ i j, (fillH sigma t p s rho M (.inr i) (.inr j)).getD 0 = kkt sigma p s rho (.inr i) (.inr j) := by
      intro i j
      rw [f5]
      simp only [kkt]
      by_cases hij : i = j
      · rw [if_pos hij, if_pos hij, Option.getD_some, inv_neg, neg_div, one_div]
      · rw [if_neg hij, if_neg hij]; rfl
    funext a b
    match a, b with
    | .inl i, .inl j =>
      simp only [symUpper]
      split
      · rename_i h; exact up i j h
      · rename_i h; exact up j i (not_le.1 h).le
    | .inl j, .inr i => exact ur j i
    | .inr i, .inl j => exact ur j i
    | .inr i, .inr j =>
      simp only [symUpper, lr]

/-- The invariant of an object used for problems with pattern `t` only. -/
structure Good (prm : Params F) (t : Pattern n m) (o : Solver F n m) : Prop where
  sc : prm.scaling = false → o.sc = Scaling.unit
  H : o.compressed = false → o.H = fun _ _ => none
  Hc : ∀ a b, kktPattern t a b = false → o.H a b = none
  an : ∀ a, o.analysed = some a → a = kktPattern t

theorem Good.clean {prm : Params F} {t : Pattern n m} {o : Solver F n m} (h : Good prm t o) :
    Clean t (if o.compressed then fun a b => (o.H a b).map fun _ => (0 : F) else o.H) := by
  intro a b
  cases hc : o.compressed with
  | false => left; rw [if_neg (by simp), h.H hc]
  | true =>
    rw [if_pos rfl]
    cases hab : o.H a b with
    | none => exact Or.inl rfl
    | some v =>
      right
      refine ⟨rfl, ?_⟩
      cases hk : kktPattern t a b with
      | true => rfl
      | false => rw [h.Hc a b hk] at hab; cases hab

theorem good_new (prm : Params F) (t : Pattern n m) : Good prm t (Solver.new : Solver F n m) :=
  ⟨fun _ => rfl, fun _ => rfl, fun _ _ _ => rfl, fun a h => by cases h⟩

theorem good_analyze {prm : Params F} {t : Pattern n m} {o : Solver F n m} (h : Good prm t o) : Good prm t o.analyze :=
  ⟨fun _ => rfl, fun _ => rfl, fun _ _ _ => rfl, h.an⟩

theorem good_copy {prm : Params F} {t : Pattern n m} {o : Solver F n m} (h : Good prm t o) : Good prm t o.copy :=
  ⟨h.sc, h.H, h.Hc, fun a h => by cases h⟩

/-- The factorisation reads the upper triangle only (`Eigen::Upper`, qp_solver.hpp:259). -/
def UpperOnly (env : Env F n) : Prop := ∀ k H H', symUpper H = symUpper H' → env.factor k H = env.factor k H'

theorem solve_good {env : Env F n} (hup : UpperOnly env) {prm : Params F} {t : Pattern n m} {o : Solver F n m}
    (h : Good prm t o) {p : Pbm F n m} (hfit : t.Fits p) (ws : Option ((Fin n → F) × (Fin m → F))) (fuel : ℕ) :
    (∀ r, o.solve env prm t p ws fuel = .ok r → Good prm t r.2 ∧ solveQP env prm p ws fuel = .ok r.1) ∧
    (∀ sol, solveQP env prm p ws fuel = .ok sol → ∃ o', o.solve env prm t p ws fuel = .ok (sol, o')) ∧
    (o.solve env prm t p ws fuel = .undef ↔ solveQP env prm p ws fuel = .undef) := by
  have hsc : (if prm.scaling then scale env.sqrt p else some o.sc) = chosenScaling env prm p := by
    unfold chosenScaling
    cases hb : prm.scaling with
    | true => rfl
    | false => rw [if_neg (by simp), if_neg (by simp), h.sc hb]
  rw [solveQP_eq]
  unfold Solver.solve
  rw [hsc]
  cases hs : chosenScaling env prm p with
  | none => simp
  | some s =>
    obtain ⟨hpat, hsym⟩ := fillH_spec (sigma := prm.sigma) hfit s (rhoVec prm p s) h.clean
    have hpat' : (o.filled prm t p s).pattern = kktPattern t := hpat
    have han : o.analysed.getD (o.filled prm t p s).pattern = (o.filled prm t p s).pattern := by
      cases ha : o.analysed with
      | none => rfl
      | some a => rw [h.an a ha, hpat']; rfl
    have hprep : prepareFrom env p (o.filled prm t p s) = prepare env prm p s := by
      unfold prepareFrom prepare
      rw [hup m (fun a b => (o.filled prm t p s a b).getD 0) _ hsym]
      cases env.factor m (kkt prm.sigma p s (rhoVec prm p s)) <;> rfl
    simp only
    rw [if_neg (not_not.2 han), hprep]
    unfold solveScaled
    cases loop env prm p s (step prm.alpha prm.sigma p s (rhoVec prm p s) (prepare env prm p s).1) fuel 0
        (prepare env prm p s).2 (start p s ws) with
    | ok v =>
      obtain ⟨iter, ret, it⟩ := v
      simp only
      cases hcon : conclude env prm p s iter ret it with
      | ok r =>
        refine ⟨?_, ?_, by simp⟩
        · intro r' hr'
          simp only [Out.ok.injEq] at hr'
          subst hr'
          refine ⟨⟨?_, ?_, ?_, ?_⟩, rfl⟩
          · intro hb
            unfold chosenScaling at hs
            rw [hb, if_neg (by simp)] at hs
            cases hs; rfl
          · intro hf; cases hf
          · intro a b hk
            have := congrFun (congrFun hpat' a) b
            rw [hk] at this
            exact Option.not_isSome_iff_eq_none.1 (by unfold SpMat.pattern at this; rw [this]; simp)
          · intro a ha
            simp only [Option.some.injEq] at ha
            rw [← ha, han, hpat']
        · intro sol hsol
          simp only [Out.ok.injEq] at hsol
          subst hsol
          exact ⟨_, rfl⟩
      | undef => simp
      | timeout => simp
    | undef => simp
    | timeout => simp

theorem run_good {env : Env F n} (hup : UpperOnly env) {prm : Params F} {t : Pattern n m} (ops : List (Op F n m))
    (hops : ∀ t' p ws fuel, Op.solve t' p ws fuel ∈ ops → t' = t ∧ t.Fits p) {o o' : Solver F n m} (h : Good prm t o)
    (hrun : o.run env prm ops = .ok o') : Good prm t o' := by
  induction ops generalizing o with
  | nil => cases hrun; exact h
  | cons op ops ih =>
    have hops' := fun t' p ws fuel hm => hops t' p ws fuel (List.mem_cons_of_mem op hm)
    cases op with
    | analyze => exact ih hops' (good_analyze h) hrun
    | copy => exact ih hops' (good_copy h) hrun
    | solve t' p ws fuel =>
      obtain ⟨rfl, hfit⟩ := hops t' p ws fuel List.mem_cons_self
      rw [Solver.run] at hrun
      cases hs : o.solve env prm t' p ws fuel with
      | ok r =>
        rw [hs] at hrun
        exact ih hops' ((solve_good hup h hfit ws fuel).1 r hs).1 hrun
      | undef => rw [hs] at hrun; cases hrun
      | timeout => rw [hs] at hrun; cases hrun

end Verif.QP
