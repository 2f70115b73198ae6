import Verif.Props.ASIFDoubleRun
import Verif.Proofs.ASIFDoubleLow

/-!
# The safety filter example with the default tolerances (C127)
-/

namespace Verif.ASIF

open Matrix Verif.QPSpec Verif.ASIFSpec
open Verif.QP (Ext Status)
open Verif.MPC (Solves)

/-- The derivative of the barrier rows by the correction, negated. -/
noncomputable def diSlope (r : ℕ) : ℝ := if r % 2 = 0 then (r / 2 : ℕ) / 100 else 1

/-- The lower bound of a barrier row. -/
noncomputable def diRow (g : Fin 2 → ℝ) (r : ℕ) : ℝ :=
  if r % 2 = 0 then g 0 + g 1 - 3 + ((r / 2 : ℕ) : ℝ) / 100 * (g 1 + 1) - 3 / 10 * (((r / 2 : ℕ) : ℝ) / 100) * (((r / 2 : ℕ) : ℝ) / 100 - 1 / 100)
  else 1 + g 1 - 3 / 2 - 3 / 5 * (((r / 2 : ℕ) : ℝ) / 100)

theorem di_split (r : ℕ) : ∃ (k : ℕ) (j : Fin 2), r = k * 2 + j ∧ r / 2 = k ∧ r % 2 = j :=
  ⟨r / 2, ⟨r % 2, Nat.mod_lt _ (by norm_num)⟩, (Nat.div_add_mod' r 2).symm, rfl, rfl⟩

theorem diBuilt_low (g : Fin 2 → ℝ) (r : ℕ) (hr : r < 100) : (diBuilt g).l.val r = .fin (diRow g r) := by
  obtain ⟨k, j, e, e1, e2⟩ := di_split r
  have h1 : (diBuilt g).l.val r = barL diEnv diDyn diBackup diSafe ⟨1 / 2, g, fun _ => (1 : ℝ), fun _ => 1, diPrm.ulim⟩ 1 diSteps r := if_pos hr
  rw [h1]
  unfold diRow
  rw [e1, e2, e, di_barL]
  fin_cases j
  · simp
  · simp

theorem di_du (a : ℝ) : (!![-1, a; 0, -1] : Matrix (Fin 2) (Fin 2) ℝ) * (!![0; 1] : Matrix (Fin 2) (Fin 1) ℝ) = !![a; -1] := by
  ext i j
  fin_cases i <;> fin_cases j <;> simp [Matrix.mul_apply, Fin.sum_univ_two]

theorem diBuilt_slope (g : Fin 2 → ℝ) (r : ℕ) (hr : r < 100) : (diBuilt g).A.val r 0 = -diSlope r ∧ (diBuilt g).A.val r 1 = 1 := by
  obtain ⟨k, j, e, e1, e2⟩ := di_split r
  have h1 : (diBuilt g).A.val r 0 = barA diEnv diDyn diBackup diSafe ⟨1 / 2, g, fun _ => (1 : ℝ), fun _ => 1, diPrm.ulim⟩ diSteps r 0 := (if_pos hr).trans (if_pos Nat.one_pos)
  refine ⟨?_, (if_pos hr).trans ((if_neg (by norm_num)).trans (if_pos rfl))⟩
  rw [h1]
  unfold diSlope
  rw [e1, e2]
  have e1' : r / (diSafe : Barrier (Fin 2 → ℝ) ℝ 2).nh = k := e1
  have e2' : r % (diSafe : Barrier (Fin 2 → ℝ) ℝ 2).nh = j := e2
  unfold barA
  simp only [e1', e2', after, diSteps, di_march, di_sens, Matrix.mul_one]
  have e4 : (diSafe : Barrier (Fin 2 → ℝ) ℝ 2).dx (0 + (List.replicate k (1 / 100 : ℝ)).sum)
      ![g 0 + k * (1 / 100) * g 1 - 3 / 10 * (k * (1 / 100)) * (k * (1 / 100) - 1 / 100), g 1 - 3 / 5 * (k * (1 / 100))] * !![1, (k : ℝ) * (1 / 100); 0, 1] =
      !![-1, -((k : ℝ) * (1 / 100)); 0, -1] := di_dx _
  rw [e4]
  refine (extM_fin (m := 2) (n := 1) _ j 0).trans ?_
  refine (congrFun (congrFun (di_du _) j) 0).trans ?_
  fin_cases j
  · simp; ring
  · simp

theorem diBuilt_tail (g : Fin 2 → ℝ) : ((diBuilt g).A.val 100 0 = 1 ∧ (diBuilt g).A.val 100 1 = 0 ∧ (diBuilt g).A.val 101 0 = 0 ∧ (diBuilt g).A.val 101 1 = 1) ∧
    ((diBuilt g).l.val 100 = .fin (-2) ∧ (diBuilt g).u.val 100 = .fin 0) ∧ (diBuilt g).l.val 101 = .fin 0 ∧ ∀ r < 102, r ≠ 100 → (diBuilt g).u.val r = .pos := by
  have ht : (extSub (.fin (-1) : Ext ℝ) ((1 : Matrix (Fin 1) (Fin 1) ℝ).mulVec ((diEnv : Env (Fin 2 → ℝ) (Fin 1 → ℝ) ℝ 2 1).uminus (fun _ => 1) 0) 0)) = .fin (-2) := by
    simp [extSub, diEnv]; norm_num
  have ht' : (extSub (.fin 1 : Ext ℝ) ((1 : Matrix (Fin 1) (Fin 1) ℝ).mulVec ((diEnv : Env (Fin 2 → ℝ) (Fin 1 → ℝ) ℝ 2 1).uminus (fun _ => 1) 0) 0)) = .fin 0 := by
    simp [extSub, diEnv]
  refine ⟨⟨?_, ?_, ?_, ?_⟩, ⟨?_, ?_⟩, ?_, fun r hr hn => ?_⟩
  · rfl
  · rfl
  · rfl
  · rfl
  · exact ht
  · exact ht'
  · rfl
  · change (if r < 100 then (.pos : Ext ℝ) else if r < 101 then _ else if r = 101 then .pos else .fin 0) = .pos
    split_ifs <;> first | rfl | omega

theorem norm_le_of {k : ℕ} {v : Fin k → ℝ} {r b : ℝ} (h : IsMaxNorm v r) (hb : 0 ≤ b) (hv : ∀ i, |v i| ≤ b) : r ≤ b := by
  rcases h.2.2 with h | ⟨i, h⟩
  · rw [h]; exact hb
  · rw [h]; exact hv i

/-- What the tolerances mean for the program of the example. -/
structure DiNear (g : Fin 2 → ℝ) (mu : ℝ) (sl rp rd yi ys : ℝ) (y : Fin 100 → ℝ) : Prop where
  sign : ∀ i, y i ≤ 0
  sign' : ys ≤ 0
  stat : |mu + yi - ∑ i : Fin 100, diSlope i * y i| ≤ rd
  stat' : |100 * sl + ∑ i : Fin 100, y i + ys| ≤ rd
  act : ∀ i : Fin 100, y i < 0 → sl ≤ diRow g i + diSlope i * mu + rp
  act' : ys < 0 → sl ≤ rp
  res : 0 ≤ rp
  low : -rp ≤ sl
  high : 0 < yi → -rp ≤ mu
  lim : -2 - rp ≤ mu
  lim' : mu ≤ rp
  size : rp ≤ (1 + |mu| + |sl| + rp) / 999
  size' : rd ≤ (1 + max |mu| (100 * |sl|) + rd) / 999

theorem di_near {ea er : ℝ} (hea' : ea ≤ 1 / 999) (her : 0 ≤ er) (her' : er ≤ 1 / 999) {g x : Fin 2 → ℝ} {y : Fin 102 → ℝ}
    (h : ApproxKKT ((diBuilt g).pbm 2 102) ea er x y) : ∃ rp rd, DiNear g (x 0) (x 1) rp rd (y 100) (y 101) fun i => y (i.castAdd 2) := by
  obtain ⟨z, rp, rd, hz, hcz, ⟨na, nz, nz', hna, hnz, hnz', e1⟩, hp, ⟨nP, nq, nT, hnP, hnq, hnT, e2⟩, hdu⟩ := h
  obtain ⟨⟨t1, t2, t3, t4⟩, ⟨t5, t6⟩, t7, t8⟩ := diBuilt_tail g
  have hrp : 0 ≤ rp := (abs_nonneg _).trans (hp 0)
  have hrd : 0 ≤ rd := (abs_nonneg _).trans (hdu 0)
  have hAx : ∀ i : Fin 102, (((diBuilt g).pbm 2 102).A *ᵥ x) i = (diBuilt g).A.val i 0 * x 0 + (diBuilt g).A.val i 1 * x 1 := fun i => by
    simp [Matrix.mulVec, dotProduct, Fin.sum_univ_two, DQP.pbm]
  have hPx : (((diBuilt g).pbm 2 102).P *ᵥ x) 0 = x 0 ∧ (((diBuilt g).pbm 2 102).P *ᵥ x) 1 = 100 * x 1 := by
    have p00 : (diBuilt g).P.val 0 0 = 1 := by simp [diBuilt, built, extM]
    have p01 : (diBuilt g).P.val 0 1 = 0 := by simp [diBuilt, built]
    have p10 : (diBuilt g).P.val 1 0 = 0 := by simp [diBuilt, built]
    have p11 : (diBuilt g).P.val 1 1 = 100 := by simp [diBuilt, built]
    simp [Matrix.mulVec, dotProduct, Fin.sum_univ_two, DQP.pbm, p00, p01, p10, p11]
  have hq0 : ∀ j, ((diBuilt g).pbm 2 102).q j = 0 := fun _ => rfl
  have hbar : ∀ i : Fin 100, (((diBuilt g).pbm 2 102).A *ᵥ x) (i.castAdd 2) = -diSlope i * x 0 + x 1 := fun i => by
    rw [hAx]
    have := diBuilt_slope g i i.2
    rw [show ((i.castAdd 2 : Fin 102) : ℕ) = i from rfl, this.1, this.2, one_mul]
  have h100 : (((diBuilt g).pbm 2 102).A *ᵥ x) 100 = x 0 := by
    rw [hAx, show ((100 : Fin 102) : ℕ) = 100 from rfl, t1, t2]; ring
  have h101 : (((diBuilt g).pbm 2 102).A *ᵥ x) 101 = x 1 := by
    rw [hAx, show ((101 : Fin 102) : ℕ) = 101 from rfl, t3, t4]; ring
  have hsum : ∀ f : Fin 102 → ℝ, ∑ i, f i = ∑ i : Fin 100, f (i.castAdd 2) + f 100 + f 101 := fun f => by
    rw [Fin.sum_univ_castSucc, Fin.sum_univ_castSucc]
    rfl
  have hT0 : (((diBuilt g).pbm 2 102).Aᵀ *ᵥ y) 0 = -(∑ i : Fin 100, diSlope i * y (i.castAdd 2)) + y 100 := by
    have : (((diBuilt g).pbm 2 102).Aᵀ *ᵥ y) 0 = ∑ i : Fin 102, (diBuilt g).A.val i 0 * y i := rfl
    rw [this, hsum, show ((100 : Fin 102) : ℕ) = 100 from rfl, show ((101 : Fin 102) : ℕ) = 101 from rfl, t1, t3, one_mul, zero_mul, add_zero, ← Finset.sum_neg_distrib]
    refine congrArg (· + _) (Finset.sum_congr rfl fun i _ => ?_)
    rw [show ((i.castAdd 2 : Fin 102) : ℕ) = i from rfl, (diBuilt_slope g i i.2).1, neg_mul]
  have hT1 : (((diBuilt g).pbm 2 102).Aᵀ *ᵥ y) 1 = ∑ i : Fin 100, y (i.castAdd 2) + y 101 := by
    have : (((diBuilt g).pbm 2 102).Aᵀ *ᵥ y) 1 = ∑ i : Fin 102, (diBuilt g).A.val i 1 * y i := rfl
    rw [this, hsum, show ((100 : Fin 102) : ℕ) = 100 from rfl, show ((101 : Fin 102) : ℕ) = 101 from rfl, t2, t4, one_mul, zero_mul, add_zero]
    refine congrArg (· + _) (Finset.sum_congr rfl fun i _ => ?_)
    rw [show ((i.castAdd 2 : Fin 102) : ℕ) = i from rfl, (diBuilt_slope g i i.2).2, one_mul]
  have hpos : ∀ i : Fin 102, (i : ℕ) ≠ 100 → y i ≤ 0 := fun i hi => by
    by_contra hh
    push Not at hh
    have := (hcz i).1 hh
    have h2 : ((diBuilt g).pbm 2 102).u i = .pos := t8 i i.2 hi
    rw [h2] at this
    cases this
  have hal : ∀ i : Fin 100, 0 ≤ diSlope i ∧ diSlope i ≤ 1 := fun i => by
    unfold diSlope
    split_ifs
    · have h1 : (i : ℕ) / 2 ≤ 100 := by omega
      have : (((i : ℕ) / 2 : ℕ) : ℝ) ≤ 100 := by exact_mod_cast h1
      constructor
      · positivity
      · linarith
    · exact ⟨zero_le_one, le_rfl⟩
  -- the sizes of the residuals
  have hAn : na ≤ |x 0| + |x 1| := by
    refine norm_le_of hna (by positivity) fun i => ?_
    by_cases h1 : (i : ℕ) < 100
    · have e : i = (⟨i, h1⟩ : Fin 100).castAdd 2 := rfl
      rw [e, hbar]
      have h2 := hal ⟨i, h1⟩
      calc |-diSlope ((⟨i, h1⟩ : Fin 100) : ℕ) * x 0 + x 1| ≤ |-diSlope ((⟨i, h1⟩ : Fin 100) : ℕ) * x 0| + |x 1| := abs_add_le _ _
        _ = diSlope ((⟨i, h1⟩ : Fin 100) : ℕ) * |x 0| + |x 1| := by rw [abs_mul, abs_neg, abs_of_nonneg h2.1]
        _ ≤ _ := by linarith [mul_le_mul_of_nonneg_right h2.2 (abs_nonneg (x 0))]
    · have : i = 100 ∨ i = 101 := by
        rcases Nat.lt_or_ge i 101 with h2 | h2
        · exact .inl (Fin.ext (by show (i : ℕ) = 100; omega))
        · exact .inr (Fin.ext (by show (i : ℕ) = 101; omega))
      rcases this with rfl | rfl
      · rw [h100]; linarith [abs_nonneg (x 1)]
      · rw [h101]; linarith [abs_nonneg (x 0)]
  have hzn : ∀ r, IsMaxNorm z r → r ≤ |x 0| + |x 1| + rp := fun r hr => by
    refine norm_le_of hr (by positivity) fun i => ?_
    have h1 := (hna.2.1 i).trans hAn
    have h2 := abs_le.1 (hp i)
    have h3 := abs_le.1 h1
    rw [abs_le]
    constructor <;> linarith
  have hPn : nP ≤ max |x 0| (100 * |x 1|) := by
    refine norm_le_of hnP (le_max_of_le_left (abs_nonneg _)) fun i => ?_
    fin_cases i
    · exact hPx.1 ▸ le_max_left _ _
    · have : |(((diBuilt g).pbm 2 102).P *ᵥ x) 1| = 100 * |x 1| := by rw [hPx.2, abs_mul]; norm_num
      exact this ▸ le_max_right _ _
  have hTn : nT ≤ max |x 0| (100 * |x 1|) + rd := by
    refine norm_le_of hnT (add_nonneg (le_max_of_le_left (abs_nonneg _)) hrd) fun i => ?_
    have h1 := abs_le.1 ((hnP.2.1 i).trans hPn)
    have h2 := abs_le.1 (hdu i)
    rw [hq0] at h2
    rw [abs_le]
    constructor <;> linarith
  have hqn : nq ≤ 0 := norm_le_of hnq le_rfl fun i => by rw [hq0, abs_zero]
  have mono : ∀ a : ℝ, 0 ≤ a → ea + er * a ≤ (1 + a) / 999 := fun a ha => by
    have := mul_le_mul_of_nonneg_right her' ha
    linarith
  refine ⟨rp, rd, fun i => hpos _ ?_, hpos 101 (by decide), ?_, ?_, fun i hi => ?_, fun hi => ?_, hrp, ?_, fun hi => ?_, ?_, ?_, ?_, ?_⟩
  · have := i.2
    show (i : ℕ) ≠ 100
    omega
  · have := hdu 0
    rw [hPx.1, hq0, hT0] at this
    have := abs_le.1 this
    exact abs_le.2 ⟨by linarith, by linarith⟩
  · have := hdu 1
    rw [hPx.2, hq0, hT1] at this
    have := abs_le.1 this
    exact abs_le.2 ⟨by linarith, by linarith⟩
  · have h1 := (hcz (i.castAdd 2)).2 hi
    have h2 : ((diBuilt g).pbm 2 102).l (i.castAdd 2) = .fin (diRow g i) := diBuilt_low g i i.2
    rw [h2] at h1
    have h3 := Ext.fin.inj h1
    have h4 := abs_le.1 (hp (i.castAdd 2))
    rw [hbar] at h4
    linarith
  · have h1 := (hcz 101).2 hi
    have h2 : ((diBuilt g).pbm 2 102).l 101 = .fin 0 := t7
    rw [h2] at h1
    have h3 := Ext.fin.inj h1
    have h4 := abs_le.1 (hp 101)
    rw [h101] at h4
    linarith
  · have h1 := (hz 101).1
    have h2 : ((diBuilt g).pbm 2 102).l 101 = .fin 0 := t7
    rw [h2] at h1
    have h3 : 0 ≤ z 101 := h1
    have h4 := abs_le.1 (hp 101)
    rw [h101] at h4
    linarith
  · have h1 := (hcz 100).1 hi
    have h2 : ((diBuilt g).pbm 2 102).u 100 = .fin 0 := t6
    rw [h2] at h1
    have h3 := Ext.fin.inj h1
    have h4 := abs_le.1 (hp 100)
    rw [h100] at h4
    linarith
  · have h1 := (hz 100).1
    have h2 : ((diBuilt g).pbm 2 102).l 100 = .fin (-2) := t5
    rw [h2] at h1
    have h3 : -2 ≤ z 100 := h1
    have h4 := abs_le.1 (hp 100)
    rw [h100] at h4
    linarith
  · have h1 := (hz 100).2
    have h2 : ((diBuilt g).pbm 2 102).u 100 = .fin 0 := t6
    rw [h2] at h1
    have h3 : z 100 ≤ 0 := h1
    have h4 := abs_le.1 (hp 100)
    rw [h100] at h4
    linarith
  · have h1 : max (max na nz) nz' ≤ |x 0| + |x 1| + rp := max_le (max_le (by linarith) (hzn _ hnz)) (hzn _ hnz')
    have h2 := mul_le_mul_of_nonneg_left h1 her
    have h3 := mono (|x 0| + |x 1| + rp) (by positivity)
    linarith
  · have h0 : 0 ≤ max |x 0| (100 * |x 1|) := le_max_of_le_left (abs_nonneg _)
    have h1 : max (max nP nq) nT ≤ max |x 0| (100 * |x 1|) + rd := max_le (max_le (by linarith) (by linarith)) hTn
    have h2 := mul_le_mul_of_nonneg_left h1 her
    have h3 := mono (max |x 0| (100 * |x 1|) + rd) (by linarith)
    linarith

/-- The tolerances of the solver are the default ones (qp_solver.hpp:45-47; the `float` nearest to 1/1000 is a little larger than that) or smaller, and the results are not polished. -/
structure DiTol (qenv : QP.Env ℝ 2) (qprm : QP.Params ℝ) : Prop where
  sqrt : QP.SqrtPos qenv
  rho : 0 < qprm.rho
  polish : qprm.polish = false
  abs : qprm.epsAbs ≤ 1 / 999
  rel : 0 ≤ qprm.epsRel
  rel' : qprm.epsRel ≤ 1 / 999

section Call

variable {qenv : QP.Env ℝ 2} {qprm : QP.Params ℝ} {fuel : ℕ} {s s' : Filter (Fin 2 → ℝ) (Fin 1 → ℝ) ℝ 2 1} {g : Fin 2 → ℝ} {u : Fin 1 → ℝ}

theorem di_call_near (ht : DiTol qenv qprm) (hs : Kept diDyn diPrm s)
    (hc : s.call diEnv (withQP (nu := 1) qenv qprm fuel) fuel ⟨g, fun _ => 1, diSafe, diBackup⟩ = some (s', u, .optimal)) :
    ∃ sl rp rd yi ys y, DiNear g (u 0 - 1) sl rp rd yi ys y := by
  rw [kept_program _ fuel hs _ rfl, Option.bind_eq_some_iff] at hc
  obtain ⟨qp, c1, c2⟩ := hc
  obtain rfl := di_toQP c1
  rw [Option.bind_eq_some_iff] at c2
  obtain ⟨sol, c3, c4⟩ := c2
  unfold withQP at c3
  dsimp only at c3
  split at c3
  · rename_i q hq
    obtain rfl := Option.some.inj c3
    rw [if_pos (by simp)] at c4
    obtain ⟨-, c5, c6⟩ := by simpa using c4
    have hcert : ApproxKKT ((diBuilt g).pbm 2 102) qprm.epsAbs qprm.epsRel q.primal q.dual := (QP.qp_optimal_certificate ht.sqrt ht.rho ht.polish hq c6).1
    have hu : u 0 - 1 = q.primal 0 := by
      rw [← c5]
      exact add_sub_cancel_left 1 (q.primal 0)
    obtain ⟨rp, rd, hN⟩ := di_near ht.abs ht.rel ht.rel' hcert
    rw [hu]
    exact ⟨_, _, _, _, _, _, hN⟩
  · cases c3
  · cases c3

/-- A barrier row with the input `w` instead of the desired one. -/
theorem diRow_even (g : Fin 2 → ℝ) (w : ℝ) (r : ℕ) (h : r % 2 = 0) : diRow g r + diSlope r * (w - 1) =
    g 0 + g 1 - 3 + ((r / 2 : ℕ) : ℝ) / 100 * (g 1 + w) - 3 / 10 * (((r / 2 : ℕ) : ℝ) / 100) * (((r / 2 : ℕ) : ℝ) / 100 - 1 / 100) := by
  rw [diRow, diSlope, if_pos h, if_pos h]
  ring

theorem diRow_odd (g : Fin 2 → ℝ) (w : ℝ) (r : ℕ) (h : ¬ r % 2 = 0) : diRow g r + diSlope r * (w - 1) = w + g 1 - 3 / 2 - 3 / 5 * (((r / 2 : ℕ) : ℝ) / 100) := by
  rw [diRow, diSlope, if_neg h, if_neg h]
  ring

/-- **C127, one call.** The filter of the example with the default tolerances of the solver or smaller ones, at a state `(x, v)` with `0 ≤ v` and `x + v ≤ 3.11`: either the input is at
least 19/20 or speed plus input is at least `diPush (x + v)`. -/
theorem di_call_push (ht : DiTol qenv qprm) (hs : Kept diDyn diPrm s)
    (hc : s.call diEnv (withQP (nu := 1) qenv qprm fuel) fuel ⟨g, fun _ => 1, diSafe, diBackup⟩ = some (s', u, .optimal)) (hv : 0 ≤ g 1)
    (hx : g 0 + g 1 ≤ 311 / 100) : min (diPush (g 0 + g 1) - g 1) (19 / 20) ≤ u 0 := by
  obtain ⟨sl, rp, rd, yi, ys, y, hN⟩ := di_call_near ht hs hc
  have hrow := fun k hk => diPush_rows (x := g 0) hv hx (min_le_left _ (19 / 20)) (min_le_right _ _) k hk
  have hal : ∀ i : Fin 100, 0 ≤ diSlope i := fun i => by
    unfold diSlope
    split_ifs
    · positivity
    · exact zero_le_one
  have := tol_push hal hN.sign hN.sign' hN.stat hN.stat' hN.act hN.act' hN.res hN.low hN.high hN.lim hN.lim' hN.size hN.size'
    (w := min (diPush (g 0 + g 1) - g 1) (19 / 20)) (fun i => ?_) (fun i => ?_) (min_le_right _ _)
  · linarith
  · obtain ⟨⟨h1, -⟩, h2, -⟩ := hrow (i / 2) (by omega)
    by_cases h : (i : ℕ) % 2 = 0
    · rw [diRow_even _ _ _ h]; exact h1
    · rw [diRow_odd _ _ _ h]; exact h2
  · obtain ⟨⟨-, h1⟩, -, h2⟩ := hrow (i / 2) (by omega)
    by_cases h : (i : ℕ) % 2 = 0
    · rw [diRow_even _ _ _ h, diSlope, if_pos h]; exact h1
    · rw [diRow_odd _ _ _ h, diSlope, if_neg h, one_mul]; exact h2

/-- The lower limit of the input is kept up to the tolerance. -/
theorem di_call_low (ht : DiTol qenv qprm) (hs : Kept diDyn diPrm s)
    (hc : s.call diEnv (withQP (nu := 1) qenv qprm fuel) fuel ⟨g, fun _ => 1, diSafe, diBackup⟩ = some (s', u, .optimal)) (hv : 0 ≤ g 1)
    (hx : g 0 ≤ 3) : -1 - (4 + 2 * g 1) / 1000 ≤ u 0 := by
  obtain ⟨sl, rp, rd, yi, ys, y, hN⟩ := di_call_near ht hs hc
  have a2 := abs_le.1 hN.stat'
  have b1 := hN.lim
  have b2 := hN.lim'
  have b3 := hN.low
  have b4 := hN.res
  have b5 := hN.size
  have b6 := hN.size'
  have hsl : sl ≤ 1 / 2 + 3 / 2 * g 1 + 2 * rp ∨ 100 * sl ≤ rd := by
    by_cases hex : ∃ i, y i < 0
    · obtain ⟨i, hi⟩ := hex
      left
      have := hN.act i hi
      by_cases h : (i : ℕ) % 2 = 0
      · rw [diRow_even _ _ _ h] at this
        obtain ⟨k, hk, hk50⟩ : ∃ k : ℕ, k = (i : ℕ) / 2 ∧ k < 50 := ⟨_, rfl, by omega⟩
        rw [← hk] at this
        have k0 : (0 : ℝ) ≤ (k : ℝ) / 100 := by positivity
        have k1 : (k : ℝ) / 100 ≤ 1 / 2 := by
          have : (k : ℝ) ≤ 50 := by exact_mod_cast hk50.le
          linarith
        have h3 : 0 ≤ 3 / 10 * ((k : ℝ) / 100) * ((k : ℝ) / 100 - 1 / 100) := by
          rcases Nat.eq_zero_or_pos k with rfl | hk
          · norm_num
          · have : (1 : ℝ) ≤ k := by exact_mod_cast hk
            exact mul_nonneg (by positivity) (by linarith)
        have h4 : (k : ℝ) / 100 * (g 1 + u 0) ≤ (k : ℝ) / 100 * (g 1 + 1 + rp) := mul_le_mul_of_nonneg_left (by linarith) k0
        have h5 : (k : ℝ) / 100 * (g 1 + 1 + rp) ≤ 1 / 2 * (g 1 + 1 + rp) := mul_le_mul_of_nonneg_right k1 (by linarith)
        linarith
      · rw [diRow_odd _ _ _ h] at this
        have k0 : (0 : ℝ) ≤ (((i : ℕ) / 2 : ℕ) : ℝ) / 100 := by positivity
        linarith
    · push Not at hex
      have e : ∑ i, y i = 0 := Finset.sum_eq_zero fun i _ => le_antisymm (hN.sign i) (hex i)
      rw [e] at a2
      rcases hN.sign'.lt_or_eq with h | h
      · left
        linarith [hN.act' h]
      · right
        linarith
  have hmabs : |u 0 - 1| ≤ 2 + rp := abs_le.2 ⟨by linarith, by linarith⟩
  have hsabs : |sl| ≤ 1 / 2 + 3 / 2 * g 1 + 2 * rp ∨ |sl| ≤ rd / 100 ∨ |sl| ≤ rp := by
    rcases hsl with h | h
    · exact .inl (abs_le.2 ⟨by linarith, h⟩)
    · rcases le_total 0 sl with h0 | h0
      · exact .inr (.inl (by rw [abs_of_nonneg h0]; linarith))
      · exact .inr (.inr (by rw [abs_of_nonpos h0]; linarith))
  rcases max_cases |u 0 - 1| (100 * |sl|) with ⟨e, -⟩ | ⟨e, -⟩ <;> rw [e] at b6 <;> rcases hsabs with h | h | h <;> linarith

theorem di_call_pushed (ht : DiTol qenv qprm) (hs : Kept diDyn diPrm s)
    (hc : s.call diEnv (withQP (nu := 1) qenv qprm fuel) fuel ⟨g, fun _ => 1, diSafe, diBackup⟩ = some (s', u, .optimal)) (hv : 0 ≤ g 1) (hx : g 0 ≤ 3) :
    Pushed (g 0) (g 1) (u 0) :=
  ⟨fun h => di_call_push ht hs hc hv h, di_call_low ht hs hc hv hx⟩

end Call

section Loop

variable {qenv : QP.Env ℝ 2} {qprm : QP.Params ℝ} {fuel : ℕ}

/-- A turn of the loop, taken apart. -/
theorem di_loop_cons {n : ℕ} {udes : Fin 1 → ℝ} {s : Filter (Fin 2 → ℝ) (Fin 1 → ℝ) ℝ 2 1} {g : Fin 2 → ℝ} {l : List ((Fin 2 → ℝ) × Status)} {solver : Solver ℝ}
    (hl : diLoop solver fuel udes (n + 1) (s, g) = some l) (ho : ∀ p ∈ l, p.2 = .optimal) : ∃ s' u l',
      s.call diEnv solver fuel ⟨g, udes, diSafe, diBackup⟩ = some (s', u, .optimal) ∧ diLoop solver fuel udes n (s', diStep u (1 / 20) g) = some l' ∧
      l = (diStep u (1 / 20) g, .optimal) :: l' ∧ ∀ p ∈ l', p.2 = .optimal := by
  rw [diLoop, Option.bind_eq_some_iff] at hl
  obtain ⟨⟨⟨s1, g1⟩, u, st⟩, e1, e2⟩ := hl
  rw [Option.map_eq_some_iff] at e2
  obtain ⟨l', e3, rfl⟩ := e2
  rw [diTurn, Option.map_eq_some_iff] at e1
  obtain ⟨⟨s2, u2, st2⟩, e4, e5⟩ := e1
  simp only [Prod.mk.injEq] at e5
  obtain ⟨⟨rfl, rfl⟩, rfl, rfl⟩ := e5
  obtain rfl : st2 = .optimal := ho _ List.mem_cons_self
  exact ⟨s2, u2, l', e4, e3, rfl, fun p hp => ho p (List.mem_cons_of_mem _ hp)⟩

/-- As long as the position is within its limit it stays above the lower bounds. -/
theorem di_loop_pushed (ht : DiTol qenv qprm) (m n : ℕ) (hmn : m ≤ n) (s : Filter (Fin 2 → ℝ) (Fin 1 → ℝ) ℝ 2 1) (hs : Kept diDyn diPrm s) (g : Fin 2 → ℝ) (hx : g 0 ≤ 3)
    (hB : Brisk (g 0) (g 1)) (X Q : ℤ) (hA : Above (X, Q) (g 0) (g 1)) (hlow : 3000000 < lowRun m X Q) (l : List ((Fin 2 → ℝ) × Status))
    (hl : diLoop (withQP (nu := 1) qenv qprm fuel) fuel (fun _ => 1) n (s, g) = some l) (ho : ∀ p ∈ l, p.2 = .optimal) : ∃ k < m, ∃ p, l[k]? = some p ∧ 3 < p.1 0 := by
  induction m generalizing n s g X Q l with
  | zero =>
    have h1 : (3000000 : ℝ) < X := by exact_mod_cast hlow
    have h2 := hA.1
    dsimp only at h2
    linarith
  | succ m ih =>
    obtain ⟨n, rfl⟩ : ∃ k, n = k + 1 := ⟨n - 1, by omega⟩
    obtain ⟨s', u, l', h1, h2, rfl, h3⟩ := di_loop_cons hl ho
    have hP := di_call_pushed ht hs h1 hB.1 hx
    have e0 : diStep u (1 / 20) g 0 = g 0 + 1 / 20 * g 1 + (1 / 20) ^ 2 / 2 * u 0 := by rw [di_step]; rfl
    have e1 : diStep u (1 / 20) g 1 = g 1 + 1 / 20 * u 0 := by rw [di_step]; rfl
    rcases le_or_gt (diStep u (1 / 20) g 0) 3 with h4 | h4
    · rw [lowRun_succ] at hlow
      obtain ⟨k, hk, p, h5, h6⟩ := ih n (by omega) s' (kept_call hs _ _ h1) _ h4 (by rw [e0, e1]; exact hB.next hP hx) _ _ (by rw [e0, e1]; exact hA.next hB hP hx) hlow l' h2 h3
      exact ⟨k + 1, by omega, p, by simpa using h5, h6⟩
    · exact ⟨0, by omega, _, rfl, h4⟩

/-- **C127, from every start.** From every state within the position limit that does not move backwards, the loop exceeds the position limit, at the latest after the number of turns in which
it would at 1/80000 a turn. -/
theorem di_loop_exceeds (ht : DiTol qenv qprm) (n : ℕ) (s : Filter (Fin 2 → ℝ) (Fin 1 → ℝ) ℝ 2 1) (hs : Kept diDyn diPrm s) (g : Fin 2 → ℝ) (hx : g 0 ≤ 3) (hv : 0 ≤ g 1)
    (hn : 80000 * (3 - g 0) < n) (l : List ((Fin 2 → ℝ) × Status)) (hl : diLoop (withQP (nu := 1) qenv qprm fuel) fuel (fun _ => 1) n (s, g) = some l)
    (ho : ∀ p ∈ l, p.2 = .optimal) : ∃ p ∈ l, diSafe.h 0 p.1 (0 : Fin 2) < 0 := by
  induction n generalizing s g l with
  | zero =>
    push_cast at hn
    linarith
  | succ n ih =>
    obtain ⟨s', u, l', h1, h2, rfl, h3⟩ := di_loop_cons hl ho
    have hP := (di_call_pushed ht hs h1 hv hx).advances hx hv
    have e0 : diStep u (1 / 20) g 0 = g 0 + 1 / 20 * g 1 + (1 / 20) ^ 2 / 2 * u 0 := by rw [di_step]; rfl
    have e1 : diStep u (1 / 20) g 1 = g 1 + 1 / 20 * u 0 := by rw [di_step]; rfl
    rw [← e0, ← e1] at hP
    push_cast at hn
    rcases le_or_gt (diStep u (1 / 20) g 0) 3 with h4 | h4
    · obtain ⟨p, h5, h6⟩ := ih s' (kept_call hs _ _ h1) _ h4 hP.2 (by linarith [hP.1]) l' h2 h3
      exact ⟨p, List.mem_cons_of_mem _ h5, h6⟩
    · refine ⟨_, List.mem_cons_self, ?_⟩
      change 3 - diStep u (1 / 20) g 0 < 0
      linarith

end Loop

theorem DiTol.of {qenv : (n : ℕ) → QP.Env ℝ n} {qprm : QP.Params ℝ} (hS : Solves qenv qprm) (hpol : qprm.polish = false) (hea : qprm.epsAbs ≤ 1 / 999)
    (her : qprm.epsRel ≤ 1 / 999) : DiTol (qenv 2) qprm := ⟨hS.sqrt 2, hS.rho, hpol, hea, hS.epsRel, her⟩

/-- **C127, the example.** With the modelled solver and the default tolerances or smaller ones the program of the example runs to its end with every status Optimal, and during the first 175
of its 200 turns the position exceeds its limit. -/
theorem di_run_default {qenv : (n : ℕ) → QP.Env ℝ n} {qprm : QP.Params ℝ} (hS : Solves qenv qprm) (hq : DiUsual qprm) (hpol : qprm.polish = false) (hea : qprm.epsAbs ≤ 1 / 999)
    (her : qprm.epsRel ≤ 1 / 999) :
    ∃ N l, (∀ fuel, N ≤ fuel → diLoop (withQP (nu := 1) (qenv 2) qprm fuel) fuel (fun _ => 1) 200 (Filter.new diDyn diPrm, ![-5, 1]) = some l) ∧ l.length = 200 ∧
      (∀ p ∈ l, p.2 = .optimal) ∧ ∃ k < 175, ∃ p, l[k]? = some p ∧ diSafe.h 0 p.1 (0 : Fin 2) < 0 := by
  obtain ⟨N, l, a1, a2, a3⟩ := di_run_optimal hS hq (fun _ => 1) 200 ![-5, 1]
  obtain ⟨k, hk, p, h1, h2⟩ := di_loop_pushed (DiTol.of hS hpol hea her) 175 200 (by norm_num) _ (kept_new _ _) ![-5, 1] (by norm_num) ⟨by simp, .inl (by norm_num)⟩ (-5000000) (-4000000)
    ⟨by norm_num, by norm_num, by norm_num⟩ lowRun_example l (a1 N le_rfl) a3
  refine ⟨N, l, a1, a2, a3, k, hk, p, h1, ?_⟩
  change 3 - p.1 0 < 0
  linarith

end Verif.ASIF
