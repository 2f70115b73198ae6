import Verif.Spec.MeshFn
import Verif.Proofs.Sparse

/-! # Functions over a mesh: the loops -/

set_option linter.unusedSectionVars false

namespace Verif.MeshFn

open Verif.Mesh Verif.Sparse

variable {F : Type*} [Field F] [LinearOrder F]

/-- A buffer with the right sizes. -/
structure Ready (d M V : ℕ) (lam : Vec F) (o : MV F) : Prop where
  alloc : o.allocated = true
  lambda : o.lambda = lam
  size : o.F.size = M
  dF : 1 ≤ d → o.dF.rows = M ∧ o.dF.cols = V
  d2F : 2 ≤ d → o.d2F.rows = V ∧ o.d2F.cols = V
  lsize : 2 ≤ d → lam.size = M

theorem pointStep_spec {d M V : ℕ} {lam : Vec F} {o : MV F} (h : Ready d M V lam o) (fop : Vec F → Option (Vec F))
    (J H : List (Blk F)) (upd : (ℕ → F) → ℕ → F)
    (hf : fop o.F = some ⟨M, upd o.F.val⟩) (hJ : 1 ≤ d → ∀ b ∈ J, b.Fits M V) (hH : 2 ≤ d → ∀ b ∈ H, b.Fits V V) :
    ∃ o', pointStep d M fop J H o = some o' ∧ Ready d M V lam o' ∧ o'.F.val = upd o.F.val ∧
      (1 ≤ d → ∀ i j, o'.dF.val i j = o.dF.val i j + (J.map fun b => b.contrib i j).sum) ∧
      (2 ≤ d → ∀ i j, o'.d2F.val i j = o.d2F.val i j + (H.map fun b => b.contrib i j).sum) := by
  unfold pointStep
  rw [hf]
  by_cases h1 : 1 ≤ d
  · obtain ⟨B, hB, hsB, hvB⟩ := blockAdds_spec J o.dF (by rw [(h.dF h1).1, (h.dF h1).2]; exact hJ h1)
    by_cases h2 : 2 ≤ d
    · obtain ⟨C, hC, hsC, hvC⟩ := blockAdds_spec H o.d2F (by rw [(h.d2F h2).1, (h.d2F h2).2]; exact hH h2)
      have hl : o.lambda.size = M := by rw [h.lambda]; exact h.lsize h2
      refine ⟨{ o with F := ⟨M, upd o.F.val⟩, dF := B, d2F := C }, ?_, ⟨h.alloc, h.lambda, rfl, fun _ => ?_, fun _ => ?_, h.lsize⟩,
        rfl, fun _ => hvB, fun _ => hvC⟩
      · simp only [if_pos h1, if_pos h2, hB, if_pos hl, hC]
      · exact ⟨hsB.1.trans (h.dF h1).1, hsB.2.1.trans (h.dF h1).2⟩
      · exact ⟨hsC.1.trans (h.d2F h2).1, hsC.2.1.trans (h.d2F h2).2⟩
    · refine ⟨{ o with F := ⟨M, upd o.F.val⟩, dF := B }, ?_, ⟨h.alloc, h.lambda, rfl, fun _ => ?_, fun h => absurd h h2, h.lsize⟩,
        rfl, fun _ => hvB, fun h => absurd h h2⟩
      · simp only [if_pos h1, if_neg h2, hB]
      · exact ⟨hsB.1.trans (h.dF h1).1, hsB.2.1.trans (h.dF h1).2⟩
  · have h2 : ¬ 2 ≤ d := by omega
    refine ⟨{ o with F := ⟨M, upd o.F.val⟩ }, ?_, ⟨h.alloc, h.lambda, rfl, fun h => absurd h h1, fun h => absurd h h2, h.lsize⟩,
        rfl, fun h => absurd h h1, fun h => absurd h h2⟩
    simp only [if_neg h1, if_neg h2]

/-- What a pass of a loop does: `upd` on the values, `ψ` and `χ` added to the matrices. -/
def Does {α : Type*} (d M V : ℕ) (lam : Vec F) (step : α → MV F → Option (MV F)) (upd : α → (ℕ → F) → ℕ → F)
    (ψ χ : α → ℕ → ℕ → F) (a : α) : Prop :=
  ∀ o, Ready d M V lam o → ∃ o', step a o = some o' ∧ Ready d M V lam o' ∧ o'.F.val = upd a o.F.val ∧
    (1 ≤ d → ∀ i j, o'.dF.val i j = o.dF.val i j + ψ a i j) ∧
    (2 ≤ d → ∀ i j, o'.d2F.val i j = o.d2F.val i j + χ a i j)

theorem iter_spec {α : Type*} {d M V : ℕ} {lam : Vec F} {step : α → MV F → Option (MV F)} {upd : α → (ℕ → F) → ℕ → F}
    {ψ χ : α → ℕ → ℕ → F} (l : List α) (h : ∀ a ∈ l, Does d M V lam step upd ψ χ a) {o : MV F} (ho : Ready d M V lam o) :
    ∃ o', iter step l o = some o' ∧ Ready d M V lam o' ∧ o'.F.val = l.foldl (fun v a => upd a v) o.F.val ∧
      (1 ≤ d → ∀ i j, o'.dF.val i j = o.dF.val i j + (l.map fun a => ψ a i j).sum) ∧
      (2 ≤ d → ∀ i j, o'.d2F.val i j = o.d2F.val i j + (l.map fun a => χ a i j).sum) := by
  induction l generalizing o with
  | nil => exact ⟨o, rfl, ho, rfl, by simp, by simp⟩
  | cons a l ih =>
    obtain ⟨o1, e1, r1, f1, d1, dd1⟩ := h a (by simp) o ho
    obtain ⟨o2, e2, r2, f2, d2, dd2⟩ := ih (fun b hb => h b (List.mem_cons_of_mem _ hb)) r1
    refine ⟨o2, ?_, r2, ?_, fun h i j => ?_, fun h i j => ?_⟩
    · rw [iter, e1]; exact e2
    · rw [f2, f1]; rfl
    · rw [d2 h, d1 h, List.map_cons, List.sum_cons, add_assoc]
    · rw [dd2 h, dd1 h, List.map_cons, List.sum_cons, add_assoc]

theorem iter_append {α σ : Type*} (step : α → σ → Option σ) (l l' : List α) (o : σ) :
    iter step (l ++ l') o = (iter step l o).bind (iter step l') := by
  induction l generalizing o with
  | nil => rfl
  | cons a l ih =>
    simp only [List.cons_append, iter]
    cases step a o with
    | none => rfl
    | some o' => exact ih o'

/-- The start of every function: after allocation and `set_zero` the buffer is ready and zero. -/
theorem start_ready {d M V : ℕ} {o : MV ℝ} (h : Usable d M V o) :
    Ready d M V o.lambda ((o.alloc d M V).setZero d) ∧ (∀ r, ((o.alloc d M V).setZero d).F.val r = 0) ∧
      (1 ≤ d → ∀ i j, ((o.alloc d M V).setZero d).dF.val i j = 0) ∧
      (2 ≤ d → ∀ i j, ((o.alloc d M V).setZero d).d2F.val i j = 0) := by
  unfold MV.alloc
  by_cases ha : o.allocated = true
  · simp only [if_pos ha]
    refine ⟨⟨ha, rfl, h.size ha, fun h1 => ?_, fun h2 => ?_, h.lambda_size⟩, fun _ => rfl, fun h1 i j => ?_, fun h2 i j => ?_⟩
    · simp only [MV.setZero, if_pos h1, setZero]; exact h.dF_shape ha h1
    · simp only [MV.setZero, if_pos h2, setZero]; exact h.d2F_shape ha h2
    · simp only [MV.setZero, if_pos h1, setZero_val]
    · simp only [MV.setZero, if_pos h2, setZero_val]
  · simp only [if_neg ha]
    refine ⟨⟨rfl, rfl, rfl, fun h1 => ?_, fun h2 => ?_, h.lambda_size⟩, fun _ => rfl, fun h1 i j => ?_, fun h2 i j => ?_⟩
    · simp only [MV.setZero, if_pos h1, setZero]; exact ⟨rfl, rfl⟩
    · simp only [MV.setZero, if_pos h2, setZero]; exact ⟨rfl, rfl⟩
    · simp only [MV.setZero, if_pos h1, setZero_val]
    · simp only [MV.setZero, if_pos h2, setZero_val]

/-! ### Where a block sits -/

/-- The groups of variables. -/
inductive Grp (N : ℕ) where
  | t0
  | tf
  | x (i : Fin (N + 1))
  | u (i : Fin N)
deriving DecidableEq

variable {N nx nu : ℕ}

def Grp.start (nx nu : ℕ) : Grp N → ℕ
  | .t0 => 0
  | .tf => 1
  | .x i => 2 + nx * i
  | .u i => 2 + nx * (N + 1) + nu * i

def Grp.len (nx nu : ℕ) : Grp N → ℕ
  | .t0 => 1
  | .tf => 1
  | .x _ => nx
  | .u _ => nu

def Var.grp : Var N nx nu → Grp N
  | .t0 => .t0
  | .tf => .tf
  | .x i _ => .x i
  | .u i _ => .u i

def Var.off : Var N nx nu → ℕ
  | .t0 => 0
  | .tf => 0
  | .x _ k => k
  | .u _ k => k

theorem Var.pos_eq (v : Var N nx nu) : v.pos = v.grp.start nx nu + v.off := by
  cases v <;> rfl

theorem Var.off_lt (v : Var N nx nu) : v.off < v.grp.len nx nu := by
  cases v <;> simp [Var.off, Var.grp, Grp.len]

theorem Grp.end_le (g : Grp N) : g.start nx nu + g.len nx nu ≤ numVars N nx nu := by
  unfold numVars
  cases g with
  | t0 => simp only [start, len]; omega
  | tf => simp only [start, len]; omega
  | x i =>
    have : nx * (i : ℕ) + nx ≤ nx * (N + 1) := by
      rw [← Nat.mul_succ]; exact Nat.mul_le_mul_left _ (by omega)
    simp only [start, len]; omega
  | u i =>
    have : nu * (i : ℕ) + nu ≤ nu * N := by
      rw [← Nat.mul_succ]; exact Nat.mul_le_mul_left _ (by omega)
    simp only [start, len]; omega

theorem mul_block {n i i' b : ℕ} (hb : b < n) (h1 : n * i' ≤ n * i + b) (h2 : n * i + b < n * i' + n) : i = i' := by
  rcases lt_trichotomy i i' with h | h | h
  · have : n * (i + 1) ≤ n * i' := Nat.mul_le_mul_left _ h
    rw [Nat.mul_succ] at this; omega
  · exact h
  · have : n * (i' + 1) ≤ n * i := Nat.mul_le_mul_left _ h
    rw [Nat.mul_succ] at this; omega

theorem Var.in_grp (v : Var N nx nu) (g : Grp N) :
    (g.start nx nu ≤ v.pos ∧ v.pos < g.start nx nu + g.len nx nu) ↔ v.grp = g := by
  constructor
  · rintro ⟨h1, h2⟩
    have hx : ∀ i : Fin (N + 1), nx * (i : ℕ) + nx ≤ nx * (N + 1) := fun i => by
      rw [← Nat.mul_succ]; exact Nat.mul_le_mul_left _ (by omega)
    cases v with
    | t0 => cases g <;> simp only [Grp.start, Grp.len, Var.pos, Var.grp] at * <;> omega
    | tf => cases g <;> simp only [Grp.start, Grp.len, Var.pos, Var.grp] at * <;> omega
    | x i k =>
      have := hx i
      cases g with
      | x i' =>
        simp only [Grp.start, Grp.len, Var.pos, Var.grp] at *
        have : (i : ℕ) = i' := mul_block k.2 (by omega) (by omega)
        rw [Fin.ext this]
      | _ => simp only [Grp.start, Grp.len, Var.pos, Var.grp] at *; omega
    | u i k =>
      cases g with
      | x i' => have := hx i'; simp only [Grp.start, Grp.len, Var.pos, Var.grp] at *; omega
      | u i' =>
        simp only [Grp.start, Grp.len, Var.pos, Var.grp] at *
        have : (i : ℕ) = i' := mul_block k.2 (by omega) (by omega)
        rw [Fin.ext this]
      | _ => simp only [Grp.start, Grp.len, Var.pos, Var.grp] at *; omega
  · rintro rfl
    have := v.off_lt
    rw [v.pos_eq]; omega

/-- A Jacobian block: rows of one point, columns of one group. -/
theorem contrib_jac (b : Blk F) (n i i' j : ℕ) (hj : j < n) (g : Grp N) (v : Var N nx nu) (h0 : b.row0 = n * i)
    (h1 : b.col0 = g.start nx nu) (h2 : b.src.rows = n) (h3 : b.src.cols = g.len nx nu) (h4 : b.upperOnly = false) :
    b.contrib (n * i' + j) v.pos = if i' = i ∧ v.grp = g then b.scale * b.src.val j v.off else 0 := by
  have hv := v.in_grp g
  unfold Blk.contrib InBlock
  rw [h0, h1, h2, h3, h4]
  by_cases hi : i' = i
  · subst hi
    by_cases hg : v.grp = g
    · rw [if_pos ⟨⟨by omega, hv.2 hg⟩, by simp⟩, if_pos ⟨rfl, hg⟩]
      have := v.pos_eq
      rw [hg] at this
      congr 2 <;> omega
    · rw [if_neg (fun h => hg (hv.1 h.1.2)), if_neg (fun h => hg h.2)]
  · rw [if_neg (fun h => hi (mul_block hj h.1.1.1 h.1.1.2)), if_neg (fun h => hi h.1)]

/-- A Hessian block: rows of one group, columns of one group. -/
theorem contrib_hess (b : Blk F) (g g' : Grp N) (v w : Var N nx nu) (h0 : b.row0 = g.start nx nu)
    (h1 : b.col0 = g'.start nx nu) (h2 : b.src.rows = g.len nx nu) (h3 : b.src.cols = g'.len nx nu)
    (h4 : b.upperOnly = true) :
    b.contrib v.pos w.pos =
      if v.pos ≤ w.pos then (if v.grp = g ∧ w.grp = g' then b.scale * b.src.val v.off w.off else 0) else 0 := by
  have hv := v.in_grp g
  have hw := w.in_grp g'
  unfold Blk.contrib InBlock
  rw [h0, h1, h2, h3, h4]
  by_cases hle : v.pos ≤ w.pos
  · rw [if_pos hle]
    by_cases hg : v.grp = g ∧ w.grp = g'
    · rw [if_pos ⟨⟨hv.2 hg.1, hw.2 hg.2⟩, fun _ => hle⟩, if_pos hg]
      have e1 := v.pos_eq
      have e2 := w.pos_eq
      rw [hg.1] at e1
      rw [hg.2] at e2
      congr 2 <;> omega
    · rw [if_neg (fun h => hg ⟨hv.1 h.1.1, hw.1 h.1.2⟩), if_neg hg]
  · rw [if_neg hle, if_neg (fun h => hle (h.2 rfl))]

end Verif.MeshFn
