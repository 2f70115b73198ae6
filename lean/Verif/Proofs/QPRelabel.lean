import Verif.Proofs.QPInf
import Verif.Proofs.QPSolve
import Verif.Props.QPPolish

/-! # Relabelled quadratic programs: variables and rows renumbered and turned round -/

set_option linter.unusedSectionVars false

namespace Verif.QP

open Matrix Verif.QPSpec

variable {F : Type*} [Field F] [LinearOrder F] [IsStrictOrderedRing F] {n m : ℕ}

/-- The sign of a quantity that is turned round or not. -/
def sg (b : Bool) : F := if b then -1 else 1

theorem sg_sq (b : Bool) : (sg b : F) * sg b = 1 := by cases b <;> simp [sg]
theorem abs_sg (b : Bool) : |(sg b : F)| = 1 := by cases b <;> simp [sg]

/-- A bound of a row that is turned round. -/
def Ext.flip : Ext F → Ext F
  | .neg => .pos
  | .fin a => .fin (-a)
  | .pos => .neg

/-- A way of writing the same program differently: the new variable `j` is the old variable `px j`, with the other
sign when `fx j`; the new row `k` is the old row `py k`, with the other sign when `fy k`. -/
structure Relabel (n m : ℕ) where
  px : Equiv.Perm (Fin n)
  fx : Fin n → Bool
  py : Equiv.Perm (Fin m)
  fy : Fin m → Bool

namespace Relabel

variable (g : Relabel n m)

/-- The point in the new variables. -/
def vx (x : Fin n → F) : Fin n → F := fun j => sg (g.fx j) * x (g.px j)
/-- The multipliers, or row values, in the new rows. -/
def vy (y : Fin m → F) : Fin m → F := fun k => sg (g.fy k) * y (g.py k)

/-- The program in the new variables and rows. -/
def pbm (p : Pbm F n m) : Pbm F n m where
  P := fun i j => sg (g.fx i) * sg (g.fx j) * p.P (g.px i) (g.px j)
  q := g.vx p.q
  A := fun k j => sg (g.fy k) * sg (g.fx j) * p.A (g.py k) (g.px j)
  l := fun k => if g.fy k then (p.u (g.py k)).flip else p.l (g.py k)
  u := fun k => if g.fy k then (p.l (g.py k)).flip else p.u (g.py k)

/-- The scale factors of the new program. -/
def scaling (s : Scaling F n m) : Scaling F n m := ⟨s.c, fun j => s.sx (g.px j), fun k => s.sy (g.py k)⟩

/-- The iterate in the new variables and rows. -/
def it (t : It F n m) : It F n m := ⟨g.vx t.x, g.vy t.y, g.vy t.z⟩

/-- The result in the new variables and rows. -/
def sol (r : Sol F n m) : Sol F n m :=
  { code := r.code, iter := r.iter, primal := g.vx r.primal, dual := g.vy r.dual, objective := r.objective }

/-- Both parts of a vector of the linear system. -/
def vec (v : Fin n ⊕ Fin m → F) : Fin n ⊕ Fin m → F
  | .inl j => sg (g.fx j) * v (.inl (g.px j))
  | .inr k => sg (g.fy k) * v (.inr (g.py k))

end Relabel

variable {g : Relabel n m}

theorem norm_perm {k : ℕ} {v w : Fin k → F} (σ : Equiv.Perm (Fin k)) (h : ∀ j, |w j| = |v (σ j)|) : norm w = norm v := by
  refine le_antisymm (norm_le (norm_nonneg v) fun j => by rw [h]; exact le_norm v _) (norm_le (norm_nonneg w) fun j => ?_)
  have := le_norm w (σ.symm j)
  rwa [h, Equiv.apply_symm_apply] at this

theorem norm_vx (x : Fin n → F) : norm (g.vx x) = norm x :=
  norm_perm g.px fun j => by rw [Relabel.vx, abs_mul, abs_sg, one_mul]

theorem norm_vy (y : Fin m → F) : norm (g.vy y) = norm y :=
  norm_perm g.py fun j => by rw [Relabel.vy, abs_mul, abs_sg, one_mul]

theorem dot_vx (a b : Fin n → F) : g.vx a ⬝ᵥ g.vx b = a ⬝ᵥ b := by
  simp only [dotProduct, Relabel.vx]
  rw [← Equiv.sum_comp g.px fun j => a j * b j]
  refine Finset.sum_congr rfl fun j _ => ?_
  linear_combination a (g.px j) * b (g.px j) * sg_sq (F := F) (g.fx j)

theorem relabel_P (p : Pbm F n m) (x : Fin n → F) : (g.pbm p).P *ᵥ g.vx x = g.vx (p.P *ᵥ x) := by
  funext i
  simp only [mulVec, dotProduct, Relabel.vx, Relabel.pbm]
  rw [← Equiv.sum_comp g.px fun j => p.P (g.px i) j * x j, Finset.mul_sum]
  refine Finset.sum_congr rfl fun j _ => ?_
  linear_combination sg (g.fx i) * p.P (g.px i) (g.px j) * x (g.px j) * sg_sq (F := F) (g.fx j)

theorem relabel_A (p : Pbm F n m) (x : Fin n → F) : (g.pbm p).A *ᵥ g.vx x = g.vy (p.A *ᵥ x) := by
  funext i
  simp only [mulVec, dotProduct, Relabel.vx, Relabel.vy, Relabel.pbm]
  rw [← Equiv.sum_comp g.px fun j => p.A (g.py i) j * x j, Finset.mul_sum]
  refine Finset.sum_congr rfl fun j _ => ?_
  linear_combination sg (g.fy i) * p.A (g.py i) (g.px j) * x (g.px j) * sg_sq (F := F) (g.fx j)

theorem relabel_AT (p : Pbm F n m) (y : Fin m → F) : (g.pbm p).Aᵀ *ᵥ g.vy y = g.vx (p.Aᵀ *ᵥ y) := by
  funext i
  simp only [mulVec, dotProduct, Relabel.vx, Relabel.vy, transpose_apply]
  simp only [Relabel.pbm]
  rw [← Equiv.sum_comp g.py fun j => p.A j (g.px i) * y j, Finset.mul_sum]
  refine Finset.sum_congr rfl fun j _ => ?_
  linear_combination sg (g.fx i) * p.A (g.py j) (g.px i) * y (g.py j) * sg_sq (F := F) (g.fy j)

theorem vx_add (a b : Fin n → F) : g.vx (a + b) = g.vx a + g.vx b := by
  funext j; simp only [Relabel.vx, Pi.add_apply]; ring
theorem vx_sub (a b : Fin n → F) : g.vx (a - b) = g.vx a - g.vx b := by
  funext j; simp only [Relabel.vx, Pi.sub_apply]; ring
theorem vy_sub (a b : Fin m → F) : g.vy (a - b) = g.vy a - g.vy b := by
  funext j; simp only [Relabel.vy, Pi.sub_apply]; ring

theorem relabel_psd {p : Pbm F n m} (hP : Lin.PSD p.P) : Lin.PSD (g.pbm p).P := by
  refine ⟨?_, fun v => ?_⟩
  · ext i j
    rw [transpose_apply]
    simp only [Relabel.pbm]
    rw [hP.1.apply]; ring
  · obtain ⟨w, rfl⟩ : ∃ w, v = g.vx w := ⟨fun j => sg (g.fx (g.px.symm j)) * v (g.px.symm j), by
      funext j
      simp only [Relabel.vx, Equiv.symm_apply_apply]
      rw [← mul_assoc, sg_sq, one_mul]⟩
    rw [relabel_P, dot_vx]
    exact hP.2 w

/-! ### Scaling -/

theorem relabel_costInc (p : Pbm F n m) (j : Fin n) : costInc (g.pbm p) j = costInc p (g.px j) := by
  unfold costInc
  rw [norm_perm (v := fun i => p.P i (g.px j)) g.px fun i => by simp only [Relabel.pbm, abs_mul, abs_sg, one_mul]]

theorem relabel_costScale (p : Pbm F n m) : costScale (g.pbm p) = costScale p := by
  unfold costScale
  have : ∑ j, costInc (g.pbm p) j = ∑ j, costInc p j := by
    rw [← Equiv.sum_comp g.px (costInc p)]
    exact Finset.sum_congr rfl fun j _ => relabel_costInc p j
  rw [this]
  simp only [Relabel.pbm, norm_vx]

theorem relabel_sxInc (p : Pbm F n m) (s : Scaling F n m) (j : Fin n) :
    sxInc (g.pbm p) (g.scaling s) j = sxInc p s (g.px j) := by
  unfold sxInc
  rw [norm_perm (v := fun i => s.c * s.sx i * s.sx (g.px j) * p.P i (g.px j)) g.px fun i => by
      simp only [Relabel.pbm, Relabel.scaling, abs_mul, abs_sg, one_mul],
    norm_perm (v := fun i => s.sy i * s.sx (g.px j) * p.A i (g.px j)) g.py fun i => by
      simp only [Relabel.pbm, Relabel.scaling, abs_mul, abs_sg, one_mul]]

theorem relabel_syInc (p : Pbm F n m) (s : Scaling F n m) (i : Fin m) :
    syInc (g.pbm p) (g.scaling s) i = syInc p s (g.py i) := by
  unfold syInc
  rw [norm_perm (v := fun j => s.sy (g.py i) * s.sx j * p.A (g.py i) j) g.px fun i => by
      simp only [Relabel.pbm, Relabel.scaling, abs_mul, abs_sg, one_mul]]

theorem relabel_scaleRound (sqrt : F → F) (p : Pbm F n m) (s : Scaling F n m) :
    scaleRound sqrt (g.pbm p) (g.scaling s) = g.scaling (scaleRound sqrt p s) := by
  unfold scaleRound
  simp only [relabel_sxInc, relabel_syInc]
  simp only [Relabel.scaling]

theorem relabel_scaleLoop (sqrt : F → F) (p : Pbm F n m) (r : ℕ) (s : Scaling F n m) :
    scaleLoop sqrt (g.pbm p) r (g.scaling s) = g.scaling (scaleLoop sqrt p r s) := by
  induction r generalizing s with
  | zero => exact relabel_scaleRound sqrt p s
  | succ r ih =>
    rw [scaleLoop, scaleLoop, relabel_scaleRound,
      norm_perm (v := fun j => sxInc p s j - 1) g.px fun j => by rw [relabel_sxInc],
      norm_perm (v := fun j => syInc p s j - 1) g.py fun j => by rw [relabel_syInc], ih]
    split <;> rfl

theorem relabel_scale (sqrt : F → F) (p : Pbm F n m) : scale sqrt (g.pbm p) = (scale sqrt p).map g.scaling := by
  unfold scale
  split
  · rfl
  · rw [relabel_costScale]
    exact congrArg some (relabel_scaleLoop sqrt p 10 ⟨costScale p, fun _ => 1, fun _ => 1⟩)

theorem relabel_scaling_pos {s : Scaling F n m} (hs : s.Pos) : (g.scaling s).Pos :=
  ⟨hs.1, fun j => hs.2.1 (g.px j), fun i => hs.2.2 (g.py i)⟩

/-! ### The iteration -/

theorem relabel_emptyRow (p : Pbm F n m) (k : Fin m) :
    emptyRow ((g.pbm p).l k) ((g.pbm p).u k) = emptyRow (p.l (g.py k)) (p.u (g.py k)) := by
  cases hf : g.fy k
  · simp only [Relabel.pbm, hf, Bool.false_eq_true, if_false]
  · simp only [Relabel.pbm, hf, if_true]
    cases p.l (g.py k) <;> cases p.u (g.py k) <;> simp only [Ext.flip, emptyRow]
    congr 1
    rw [show ∀ a b : F, -a - -b = b - a from fun a b => by ring]

theorem relabel_precheck (p : Pbm F n m) : precheck (g.pbm p) = precheck p := by
  unfold precheck
  have : ((List.finRange m).any fun i => emptyRow ((g.pbm p).l i) ((g.pbm p).u i)) =
      (List.finRange m).any fun i => emptyRow (p.l i) (p.u i) := by
    rw [Bool.eq_iff_iff, List.any_eq_true, List.any_eq_true]
    constructor
    · rintro ⟨k, -, hk⟩
      exact ⟨g.py k, List.mem_finRange _, by rwa [relabel_emptyRow] at hk⟩
    · rintro ⟨k, -, hk⟩
      exact ⟨g.py.symm k, List.mem_finRange _, by rwa [relabel_emptyRow, Equiv.apply_symm_apply]⟩
  rw [this]

theorem relabel_rho (prm : Params F) (p : Pbm F n m) (s : Scaling F n m) (k : Fin m) :
    rhoVec prm (g.pbm p) (g.scaling s) k = rhoVec prm p s (g.py k) := by
  unfold rhoVec
  cases hf : g.fy k
  · simp only [Relabel.pbm, Relabel.scaling, hf, Bool.false_eq_true, if_false]
  · simp only [Relabel.pbm, Relabel.scaling, hf, if_true]
    cases p.l (g.py k) <;> cases p.u (g.py k) <;> simp only [Ext.flip, rhoOf]
    rw [show ∀ a b : F, -a - -b = b - a from fun a b => by ring]

theorem unX_vx (s : Scaling F n m) (x : Fin n → F) : (g.scaling s).unX (g.vx x) = g.vx (s.unX x) := by
  funext j; simp only [Scaling.unX, Relabel.scaling, Relabel.vx]; ring
theorem unY_vy (s : Scaling F n m) (y : Fin m → F) : (g.scaling s).unY (g.vy y) = g.vy (s.unY y) := by
  funext j; simp only [Scaling.unY, Relabel.scaling, Relabel.vy]; ring
theorem unZ_vy (s : Scaling F n m) (y : Fin m → F) : (g.scaling s).unZ (g.vy y) = g.vy (s.unZ y) := by
  funext j; simp only [Scaling.unZ, Relabel.scaling, Relabel.vy]; ring

theorem relabel_kkt {sigma : F} {p : Pbm F n m} (hP : Lin.PSD p.P) (s : Scaling F n m) (rho : Fin m → F)
    (v : Fin n ⊕ Fin m → F) :
    symUpper (kkt sigma (g.pbm p) (g.scaling s) fun k => rho (g.py k)) *ᵥ g.vec v =
      g.vec (symUpper (kkt sigma p s rho) *ᵥ v) := by
  funext a
  cases a with
  | inl j =>
    rw [kkt_mulVec_inl (relabel_psd hP).1]
    show _ = sg (g.fx j) * (symUpper (kkt sigma p s rho) *ᵥ v) (.inl (g.px j))
    rw [kkt_mulVec_inl hP.1]
    have e1 : (g.scaling s).unX (fun i => g.vec v (.inl i)) = g.vx (s.unX fun i => v (.inl i)) := unX_vx (g := g) s fun i => v (.inl i)
    have e2 : (fun i => (g.scaling s).sy i * g.vec v (.inr i)) = g.vy fun i => s.sy i * v (.inr i) := by
      funext i; simp only [Relabel.scaling, Relabel.vec, Relabel.vy]; ring
    rw [e1, e2, relabel_P, relabel_AT]
    simp only [Relabel.vx, Relabel.vec, Relabel.scaling]
    ring
  | inr k =>
    rw [kkt_mulVec_inr]
    show _ = sg (g.fy k) * (symUpper (kkt sigma p s rho) *ᵥ v) (.inr (g.py k))
    rw [kkt_mulVec_inr]
    have e1 : (g.scaling s).unX (fun i => g.vec v (.inl i)) = g.vx (s.unX fun i => v (.inl i)) := unX_vx (g := g) s fun i => v (.inl i)
    rw [e1, relabel_A]
    simp only [Relabel.vy, Relabel.vec, Relabel.scaling]
    ring

theorem scale_flip (a : F) (e : Ext F) : e.flip.scale a = (e.scale a).flip := by
  cases e <;> simp [Ext.flip, Ext.scale]

theorem emptyRow_scale {a : F} (ha : 0 < a) {l u : Ext F} (h : emptyRow l u = false) :
    emptyRow (l.scale a) (u.scale a) = false := by
  cases l <;> cases u <;> simp_all [emptyRow, Ext.scale]

theorem clamp_flip {l u : Ext F} (h : emptyRow l u = false) (v : F) :
    minE (maxE (-v) u.flip) l.flip = -minE (maxE v l) u := by
  cases l with
  | neg => cases u with
    | neg => simp [emptyRow] at h
    | fin b =>
      simp only [Ext.flip, minE, maxE]
      rw [max_neg_neg]
    | pos => rfl
  | fin a => cases u with
    | neg => simp [emptyRow] at h
    | fin b =>
      simp only [emptyRow, decide_eq_false_iff_not, not_lt, sub_nonneg] at h
      simp only [Ext.flip, minE, maxE]
      have e : max a b = b := max_eq_right h
      rw [max_neg_neg, min_neg_neg, max_min_distrib_right, max_comm b a, e]
    | pos =>
      simp only [Ext.flip, minE, maxE]
      rw [min_neg_neg]
  | pos => simp [emptyRow] at h

/-- The linear systems of the two programs have corresponding solutions. -/
theorem relabel_slv {prm : Params F} {p : Pbm F n m} {s : Scaling F n m} (hP : Lin.PSD p.P) (hs : s.Pos)
    (hsig : 0 < prm.sigma) (hr : 0 < prm.rho) {slv slv' : (Fin n ⊕ Fin m → F) → Fin n ⊕ Fin m → F}
    (h : ∀ b, symUpper (kkt prm.sigma p s (rhoVec prm p s)) *ᵥ slv b = b)
    (h' : ∀ b, symUpper (kkt prm.sigma (g.pbm p) (g.scaling s) (rhoVec prm (g.pbm p) (g.scaling s))) *ᵥ slv' b = b)
    (b : Fin n ⊕ Fin m → F) : slv' (g.vec b) = g.vec (slv b) := by
  refine kkt_injective (rho := rhoVec prm (g.pbm p) (g.scaling s)) (relabel_psd (g := g) hP) (relabel_scaling_pos (g := g) hs) hsig
    (fun i => rhoOf_pos hr _ _) ?_
  rw [h']
  have e : rhoVec prm (g.pbm p) (g.scaling s) = fun k => rhoVec prm p s (g.py k) := funext fun k => relabel_rho prm p s k
  rw [e, relabel_kkt hP, h]

theorem relabel_bounds {p : Pbm F n m} {k : Fin m} {a v : F} (ha : 0 < a) (h : emptyRow (p.l (g.py k)) (p.u (g.py k)) = false) :
    minE (maxE (sg (g.fy k) * v) (((g.pbm p).l k).scale a)) (((g.pbm p).u k).scale a) =
      sg (g.fy k) * minE (maxE v ((p.l (g.py k)).scale a)) ((p.u (g.py k)).scale a) := by
  cases hf : g.fy k
  · simp [Relabel.pbm, hf, sg]
  · simp only [Relabel.pbm, hf, sg, if_true, scale_flip, neg_one_mul]
    exact clamp_flip (emptyRow_scale ha h) v

theorem relabel_step {prm : Params F} {p : Pbm F n m} {s : Scaling F n m} (hs : s.Pos)
    (hpre : ∀ k, emptyRow (p.l k) (p.u k) = false) {slv slv' : (Fin n ⊕ Fin m → F) → Fin n ⊕ Fin m → F}
    (hslv : ∀ b, slv' (g.vec b) = g.vec (slv b)) (t : It F n m) :
    step prm.alpha prm.sigma (g.pbm p) (g.scaling s) (rhoVec prm (g.pbm p) (g.scaling s)) slv' (g.it t) =
      g.it (step prm.alpha prm.sigma p s (rhoVec prm p s) slv t) := by
  have eb : (Sum.elim (fun j => prm.sigma * (g.it t).x j - (g.scaling s).c * (g.scaling s).sx j * (g.pbm p).q j)
      (fun i => (g.it t).z i - (rhoVec prm (g.pbm p) (g.scaling s) i)⁻¹ * (g.it t).y i) : Fin n ⊕ Fin m → F) =
      g.vec (Sum.elim (fun j => prm.sigma * t.x j - s.c * s.sx j * p.q j)
        (fun i => t.z i - (rhoVec prm p s i)⁻¹ * t.y i)) := by
    funext a
    cases a with
    | inl j => simp only [Sum.elim_inl, Relabel.vec, Relabel.it, Relabel.vx, Relabel.scaling, Relabel.pbm]; ring
    | inr k =>
      simp only [Sum.elim_inr, Relabel.vec, relabel_rho]
      simp only [Relabel.it, Relabel.vy]; ring
  unfold step
  rw [eb, hslv]
  set sol := slv (Sum.elim (fun j => prm.sigma * t.x j - s.c * s.sx j * p.q j)
        (fun i => t.z i - (rhoVec prm p s i)⁻¹ * t.y i)) with hsol
  have ez : ∀ k, minE (maxE (prm.alpha * ((rhoVec prm (g.pbm p) (g.scaling s) k)⁻¹ * g.vec sol (.inr k)) +
      (1 - prm.alpha) * ((rhoVec prm (g.pbm p) (g.scaling s) k)⁻¹ * (g.it t).y k) + (g.it t).z k)
      (((g.pbm p).l k).scale ((g.scaling s).sy k))) (((g.pbm p).u k).scale ((g.scaling s).sy k)) =
      sg (g.fy k) * minE (maxE (prm.alpha * ((rhoVec prm p s (g.py k))⁻¹ * sol (.inr (g.py k))) +
      (1 - prm.alpha) * ((rhoVec prm p s (g.py k))⁻¹ * t.y (g.py k)) + t.z (g.py k))
      ((p.l (g.py k)).scale (s.sy (g.py k)))) ((p.u (g.py k)).scale (s.sy (g.py k))) := by
    intro k
    rw [← relabel_bounds (hs.2.2 (g.py k)) (hpre (g.py k)), relabel_rho]
    simp only [Relabel.it, Relabel.vec, Relabel.vy, Relabel.scaling]
    congr 2
    ring
  simp only [ez]
  simp only [Relabel.it, It.mk.injEq]
  refine ⟨funext fun j => ?_, funext fun k => ?_, funext fun k => ?_⟩
  · simp only [Relabel.vec, Relabel.vx]; ring
  · rw [relabel_rho]
    simp only [Relabel.vec, Relabel.vy]; ring
  · simp only [Relabel.vy]

/-! ### The stopping tests -/

theorem relabel_optimalTest (prm : Params F) (p : Pbm F n m) (x : Fin n → F) (y z : Fin m → F) :
    optimalTest prm (g.pbm p) (g.vx x) (g.vy y) (g.vy z) = optimalTest prm p x y z := by
  have eq : (g.pbm p).q = g.vx p.q := rfl
  unfold optimalTest
  rw [relabel_A, relabel_P, relabel_AT, eq, ← vy_sub, ← vx_add, ← vx_add]
  simp only [norm_vx, norm_vy]

/-- The value of the sum of the primal test, whatever the order of the rows. -/
theorem dySum_eq (eps : F) (p : Pbm F n m) (dy : Fin m → F) (b : F) (L : List (Fin m)) (acc : F) :
    dySum eps p dy b L acc = if (∀ i ∈ L, (p.u i = .pos → dy i ≤ eps * b) ∧ (p.l i = .neg → -(eps * b) ≤ dy i))
      then some (acc + (L.map (supp1 p dy)).sum) else none := by
  split
  · rename_i h
    induction L generalizing acc with
    | nil => simp [dySum]
    | cons i L ih =>
      have hi := h i (by simp)
      have hL : ∀ k ∈ L, (p.u k = .pos → dy k ≤ eps * b) ∧ (p.l k = .neg → -(eps * b) ≤ dy k) :=
        fun k hk => h k (List.mem_cons_of_mem _ hk)
      rw [dySum, List.map_cons, List.sum_cons, supp1]
      have h2 : p.l i = .neg → ¬ dy i < -eps * b := fun e => by rw [neg_mul]; exact not_lt.2 (hi.2 e)
      have h1 : p.u i = .pos → ¬ eps * b < dy i := fun e => not_lt.2 (hi.1 e)
      cases hu : p.u i <;> cases hl : p.l i <;> simp only [hu, hl, forall_const, reduceCtorEq, IsEmpty.forall_iff] at h1 h2 <;>
        simp only [h1, h2, if_false] <;> rw [ih _ hL] <;> congr 1 <;> ring
  · rename_i h
    cases hd : dySum eps p dy b L acc with
    | none => rfl
    | some S => exact absurd (dySum_spec hd).2 h

theorem relabel_supp1 (p : Pbm F n m) (dy : Fin m → F) (k : Fin m) : supp1 (g.pbm p) (g.vy dy) k = supp1 p dy (g.py k) := by
  unfold supp1
  cases hf : g.fy k
  · simp [Relabel.pbm, Relabel.vy, hf, sg]
  · simp only [Relabel.pbm, Relabel.vy, hf, sg, if_true, neg_one_mul]
    have e1 : max 0 (-dy (g.py k)) = -min 0 (dy (g.py k)) := by rw [← max_neg_neg, neg_zero]
    have e2 : min 0 (-dy (g.py k)) = -max 0 (dy (g.py k)) := by rw [← min_neg_neg, neg_zero]
    cases p.l (g.py k) <;> cases p.u (g.py k) <;> simp only [Ext.flip, e1, e2] <;> ring

theorem relabel_primalInfTest (prm : Params F) (p : Pbm F n m) (dy : Fin m → F) :
    primalInfTest prm (g.pbm p) (g.vy dy) = primalInfTest prm p dy := by
  unfold primalInfTest
  rw [relabel_AT, norm_vx, norm_vy]
  have e : dySum prm.epsPrimalInf (g.pbm p) (g.vy dy) (norm dy) (List.finRange m) 0 =
      dySum prm.epsPrimalInf p dy (norm dy) (List.finRange m) 0 := by
    rw [dySum_eq, dySum_eq]
    have e1 : ((List.finRange m).map (supp1 (g.pbm p) (g.vy dy))).sum = ((List.finRange m).map (supp1 p dy)).sum := by
      rw [sum_finRange_eq, sum_finRange_eq, ← Equiv.sum_comp g.py (supp1 p dy)]
      exact Finset.sum_congr rfl fun k _ => relabel_supp1 p dy k
    rw [e1]
    congr 1
    have row : ∀ k, ((((g.pbm p).u k = .pos → g.vy dy k ≤ prm.epsPrimalInf * norm dy) ∧
        ((g.pbm p).l k = .neg → -(prm.epsPrimalInf * norm dy) ≤ g.vy dy k)) ↔
        ((p.u (g.py k) = .pos → dy (g.py k) ≤ prm.epsPrimalInf * norm dy) ∧
        (p.l (g.py k) = .neg → -(prm.epsPrimalInf * norm dy) ≤ dy (g.py k)))) := by
      intro k
      cases hf : g.fy k
      · simp [Relabel.pbm, Relabel.vy, hf, sg]
      · simp only [Relabel.pbm, Relabel.vy, hf, sg, if_true, neg_one_mul]
        have e1 : -dy (g.py k) ≤ prm.epsPrimalInf * norm dy ↔ -(prm.epsPrimalInf * norm dy) ≤ dy (g.py k) := neg_le
        have e2 : -(prm.epsPrimalInf * norm dy) ≤ -dy (g.py k) ↔ dy (g.py k) ≤ prm.epsPrimalInf * norm dy := neg_le_neg_iff
        cases p.l (g.py k) <;> cases p.u (g.py k) <;> simp [Ext.flip, e1, e2, and_comm]
    refine propext ⟨fun h i _ => ?_, fun h i _ => (row i).2 (h (g.py i) (List.mem_finRange _))⟩
    have := (row (g.py.symm i)).1 (h _ (List.mem_finRange _))
    rwa [Equiv.apply_symm_apply] at this
  rw [e]

/-- No row without a bound is turned round. -/
def KeepsFree (g : Relabel n m) (p : Pbm F n m) : Prop :=
  ∀ k, g.fy k = true → ¬ (p.l (g.py k) = .neg ∧ p.u (g.py k) = .pos)

theorem relabel_dualRow {p : Pbm F n m} (hg : KeepsFree g p) (hpre : ∀ k, emptyRow (p.l k) (p.u k) = false) (eps d a : F)
    (k : Fin m) : dualRow eps d (sg (g.fy k) * a) ((g.pbm p).l k) ((g.pbm p).u k) =
      dualRow eps d a (p.l (g.py k)) (p.u (g.py k)) := by
  cases hf : g.fy k
  · simp [Relabel.pbm, hf, sg]
  · have h1 := hg k hf
    have h2 := hpre (g.py k)
    simp only [Relabel.pbm, hf, sg, if_true, neg_one_mul]
    cases hl : p.l (g.py k) <;> cases hu : p.u (g.py k) <;> rw [hl, hu] at h1 h2 <;>
      simp only [Ext.flip, dualRow, emptyRow, reduceCtorEq, abs_neg] at h1 h2 ⊢
    · congr 1
      rw [neg_mul, neg_le_neg_iff]
    · exact absurd ⟨trivial, trivial⟩ h1
    · congr 1
      rw [neg_mul, neg_le]

theorem relabel_dualInfTest {p : Pbm F n m} (hg : KeepsFree g p) (hpre : ∀ k, emptyRow (p.l k) (p.u k) = false)
    (prm : Params F) (dx : Fin n → F) : dualInfTest prm (g.pbm p) (g.vx dx) = dualInfTest prm p dx := by
  have eq : (g.pbm p).q = g.vx p.q := rfl
  unfold dualInfTest
  rw [relabel_A, relabel_P, eq, norm_vx, norm_vx, dot_vx]
  congr 1
  rw [Bool.eq_iff_iff, List.all_eq_true, List.all_eq_true]
  constructor
  · intro h i _
    have := h (g.py.symm i) (List.mem_finRange _)
    rw [Relabel.vy, relabel_dualRow hg hpre, Equiv.apply_symm_apply] at this
    exact this
  · intro h i _
    rw [Relabel.vy, relabel_dualRow hg hpre]
    exact h _ (List.mem_finRange _)

theorem relabel_check {p : Pbm F n m} (hg : KeepsFree g p) (hpre : ∀ k, emptyRow (p.l k) (p.u k) = false) (env : Env F n)
    (prm : Params F) (s : Scaling F n m) (iter : ℕ) (old new : It F n m) :
    check env prm (g.pbm p) (g.scaling s) iter (g.it old) (g.it new) = check env prm p s iter old new := by
  unfold check checkStopping
  simp only [Relabel.it, ← vx_sub, ← vy_sub, unX_vx, unY_vy, unZ_vy, relabel_optimalTest, relabel_primalInfTest,
    relabel_dualInfTest hg hpre]

/-- An outcome in the new variables and rows. -/
def Out.map {α β : Type*} (f : α → β) : Out α → Out β
  | .ok a => .ok (f a)
  | .undef => .undef
  | .timeout => .timeout

theorem relabel_loop {p : Pbm F n m} {env : Env F n} {prm : Params F} {s : Scaling F n m} {next next' : It F n m → It F n m}
    (hc : ∀ iter old new, check env prm (g.pbm p) (g.scaling s) iter (g.it old) (g.it new) = check env prm p s iter old new)
    (hn : ∀ t, next' (g.it t) = g.it (next t)) (fuel iter : ℕ) (ret : Option Status) (t : It F n m) :
    loop env prm (g.pbm p) (g.scaling s) next' fuel iter ret (g.it t) =
      (loop env prm p s next fuel iter ret t).map fun r => (r.1, r.2.1, g.it r.2.2) := by
  induction fuel generalizing iter ret t with
  | zero => rfl
  | succ fuel ih =>
    rw [loop, loop]
    split
    · split
      · rfl
      · rw [hn, hc, ih]
    · rfl

end Verif.QP
