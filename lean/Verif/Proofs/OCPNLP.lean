import Verif.Spec.OCPNLP
import Verif.Proofs.Sparse
import Verif.Proofs.MeshFnDeriv
import Mathlib.Tactic.Ring

/-! # The nonlinear program: layout and blocks -/

set_option linter.unusedSectionVars false

namespace Verif.NLP

open Verif.Mesh Verif.Sparse Verif.MeshFn Verif.QP

variable {N nx nu nq ncr nce : ℕ}

/-! ### Layout -/

theorem begs (nx nu nq N : ℕ) : tfB nx nu nq N = 0 ∧ qB nx nu nq N = 1 ∧ xB nx nu nq N = 1 + nq ∧
    uB nx nu nq N = 1 + nq + nx * (N + 1) ∧ numX nx nu nq N = nVars N nx nu nq := by
  simp [tfB, qB, xB, uB, numX, beg, varLen, nVars]; omega

theorem cbegs (nx nq ncr nce N : ℕ) : dB nx nq ncr nce N = 0 ∧ qcB nx nq ncr nce N = nx * N ∧
    crB nx nq ncr nce N = nx * N + nq ∧ ceB nx nq ncr nce N = nx * N + nq + ncr * N ∧
    numG nx nq ncr nce N = nCons N nx nq ncr nce := by
  simp [dB, qcB, crB, ceB, numG, beg, conLen, nCons]; omega

theorem xf_start (nx nu nq N : ℕ) : xB nx nu nq N + xL nx N - nx = 1 + nq + nx * N := by
  rw [(begs nx nu nq N).2.2.1, xL, Nat.mul_succ]; omega

theorem row_le {n N : ℕ} (i : Fin N) (k : Fin n) : n * i + k < n * N := by
  have : n * (i : ℕ) + n ≤ n * N := by rw [← Nat.mul_succ]; exact Nat.mul_le_mul_left _ (by omega)
  omega

/-- The offset of `p` in the segment of length `l` from `s` on. -/
def loc (s l p : ℕ) : Option ℕ := if s ≤ p ∧ p < s + l then some (p - s) else none

theorem loc_some {s l p a : ℕ} (h : p = s + a) (ha : a < l) : loc s l p = some a := by
  unfold loc; rw [if_pos ⟨by omega, by omega⟩]; congr 1; omega

theorem loc_none {s l p : ℕ} (h : p < s ∨ s + l ≤ p) : loc s l p = none := by
  unfold loc; rw [if_neg (by omega)]

/-! Where the variables are in each segment. -/

theorem loc_tf (v : NVar N nx nu nq) : loc (tfB nx nu nq N) 1 v.pos = match v with | .tf => some 0 | _ => none := by
  rw [(begs nx nu nq N).1]
  cases v with
  | tf => exact loc_some rfl Nat.one_pos
  | _ => exact loc_none (by simp only [NVar.pos]; omega)

theorem loc_q (v : NVar N nx nu nq) : loc (qB nx nu nq N) nq v.pos = match v with | .q k => some k | _ => none := by
  rw [(begs nx nu nq N).2.1]
  cases v with
  | q k => exact loc_some rfl k.2
  | _ => exact loc_none (by simp only [NVar.pos]; omega)

theorem loc_x (v : NVar N nx nu nq) :
    loc (xB nx nu nq N) (xL nx N) v.pos = match v with | .x i k => some (nx * i + k) | _ => none := by
  rw [(begs nx nu nq N).2.2.1, xL]
  cases v with
  | x i k => exact loc_some (by simp only [NVar.pos]; omega) (row_le i k)
  | _ => exact loc_none (by simp only [NVar.pos]; omega)

theorem loc_u (v : NVar N nx nu nq) :
    loc (uB nx nu nq N) (uL nu N) v.pos = match v with | .u i k => some (nu * i + k) | _ => none := by
  rw [(begs nx nu nq N).2.2.2.1, uL]
  cases v with
  | u i k => exact loc_some (by simp only [NVar.pos]; omega) (row_le i k)
  | x i k => have := row_le i k; exact loc_none (by simp only [NVar.pos]; omega)
  | _ => exact loc_none (by simp only [NVar.pos]; omega)

theorem loc_x0 (v : NVar N nx nu nq) :
    loc (xB nx nu nq N) nx v.pos = match v with | .x i k => if i = 0 then some (k : ℕ) else none | _ => none := by
  rw [(begs nx nu nq N).2.2.1]
  cases v with
  | x i k =>
    by_cases h : i = 0
    · subst h; exact (loc_some (by simp [NVar.pos]) k.2).trans (by simp)
    · simp only [h, if_false]
      have : nx * 1 ≤ nx * (i : ℕ) := Nat.mul_le_mul_left _ (Nat.pos_of_ne_zero fun e => h (Fin.ext e))
      exact loc_none (by simp only [NVar.pos]; omega)
  | u i k =>
    have : nx * 1 ≤ nx * (N + 1) := Nat.mul_le_mul_left _ (by omega)
    exact loc_none (by simp only [NVar.pos]; omega)
  | _ => exact loc_none (by simp only [NVar.pos]; omega)

theorem loc_xf (v : NVar N nx nu nq) :
    loc (xB nx nu nq N + xL nx N - nx) nx v.pos =
      match v with | .x i k => if i = Fin.last N then some (k : ℕ) else none | _ => none := by
  rw [xf_start]
  cases v with
  | x i k =>
    by_cases h : i = Fin.last N
    · subst h; exact (loc_some (by simp [NVar.pos]) k.2).trans (by simp)
    · simp only [h, if_false]
      have h2 : (i : ℕ) + 1 ≤ N := by
        have := i.2
        rcases Nat.lt_or_ge (i : ℕ) N with h' | h'
        · exact h'
        · exact absurd (Fin.ext (by simp; omega)) h
      have : nx * ((i : ℕ) + 1) ≤ nx * N := Nat.mul_le_mul_left _ h2
      rw [Nat.mul_succ] at this
      exact loc_none (by simp only [NVar.pos]; omega)
  | u i k => exact loc_none (by simp only [NVar.pos, Nat.mul_succ]; omega)
  | _ => exact loc_none (by simp only [NVar.pos]; omega)

/-! Where the constraints are. -/

theorem loc_dyn (c : NCon N nx nq ncr nce) :
    loc (dB nx nq ncr nce N) (nx * N) c.pos = match c with | .dyn i k => some (nx * i + k) | _ => none := by
  rw [(cbegs nx nq ncr nce N).1]
  cases c with
  | dyn i k => exact loc_some (by simp only [NCon.pos]; omega) (row_le i k)
  | _ => exact loc_none (by simp only [NCon.pos]; omega)

theorem loc_int (c : NCon N nx nq ncr nce) :
    loc (qcB nx nq ncr nce N) nq c.pos = match c with | .int k => some (k : ℕ) | _ => none := by
  rw [(cbegs nx nq ncr nce N).2.1]
  cases c with
  | dyn i k => have := row_le i k; exact loc_none (by simp only [NCon.pos]; omega)
  | int k => exact loc_some rfl k.2
  | _ => exact loc_none (by simp only [NCon.pos]; omega)

theorem loc_cr (c : NCon N nx nq ncr nce) :
    loc (crB nx nq ncr nce N) (ncr * N) c.pos = match c with | .cr i k => some (ncr * i + k) | _ => none := by
  rw [(cbegs nx nq ncr nce N).2.2.1]
  cases c with
  | dyn i k => have := row_le i k; exact loc_none (by simp only [NCon.pos]; omega)
  | cr i k => exact loc_some (by simp only [NCon.pos]; omega) (row_le i k)
  | _ => exact loc_none (by simp only [NCon.pos]; omega)

theorem loc_ce (c : NCon N nx nq ncr nce) :
    loc (ceB nx nq ncr nce N) nce c.pos = match c with | .ce k => some (k : ℕ) | _ => none := by
  rw [(cbegs nx nq ncr nce N).2.2.2.1]
  cases c with
  | dyn i k => have := row_le i k; exact loc_none (by simp only [NCon.pos]; omega)
  | cr i k => have := row_le i k; exact loc_none (by simp only [NCon.pos]; omega)
  | ce k => exact loc_some rfl k.2
  | _ => exact loc_none (by simp only [NCon.pos]; omega)

/-! ### Blocks -/

section

variable {F : Type*} [Field F] [LinearOrder F]

theorem contrib_block (row0 col0 : ℕ) (A : Sp F) (r0 c0 r c : ℕ) (s : F) (up : Bool) (R C : ℕ) :
    Blk.contrib ⟨row0, col0, A.block r0 c0 r c, s, up⟩ R C =
      if up = true ∧ C < R then 0
      else ((loc row0 r R).bind fun a => (loc col0 c C).map fun b => s * A.val (r0 + a) (c0 + b)).getD 0 := by
  unfold Blk.contrib InBlock loc
  simp only [Sp.block_rows, Sp.block_cols]
  by_cases h : up = true ∧ C < R
  · rw [if_pos h, if_neg (fun h' => by have := h'.2 h.1; omega)]
  · rw [if_neg h]
    have h' : up = true → R ≤ C := fun e => Nat.le_of_not_lt fun hlt => h ⟨e, hlt⟩
    by_cases h1 : row0 ≤ R ∧ R < row0 + r
    · by_cases h2 : col0 ≤ C ∧ C < col0 + c
      · rw [if_pos ⟨⟨h1, h2⟩, h'⟩, if_pos h1, if_pos h2]
        simp only [Option.bind_some, Option.map_some, Option.getD_some, block_val]
        rw [if_pos ⟨by omega, by omega⟩]
      · rw [if_neg (fun h => h2 h.1.2), if_pos h1, if_neg h2]; rfl
    · rw [if_neg (fun h => h1 h.1.1), if_neg h1]; rfl
where
  Sp.block_rows (A : Sp F) (r0 c0 r c : ℕ) : (A.block r0 c0 r c).rows = r := rfl
  Sp.block_cols (A : Sp F) (r0 c0 r c : ℕ) : (A.block r0 c0 r c).cols = c := rfl

theorem contrib_cols (row0 col0 : ℕ) (A : Sp F) (c0 c : ℕ) (s : F) (R C : ℕ) :
    Blk.contrib ⟨row0, col0, A.middleCols c0 c, s, false⟩ R C =
      ((loc row0 A.rows R).bind fun a => (loc col0 c C).map fun b => s * A.val a (c0 + b)).getD 0 := by
  unfold Sp.middleCols
  rw [contrib_block]
  simp

/-- The chain rule for a function over the mesh. -/
def pullM (φ : Var N nx nu → F) : NVar N nx nu nq → F
  | .tf => φ .tf
  | .q _ => 0
  | .x i k => φ (.x i k)
  | .u i k => φ (.u i k)

/-- The chain rule for a function of the end points. -/
def pullE (φ : EArg nx nq → F) : NVar N nx nu nq → F
  | .tf => φ .tf
  | .q k => φ (.q k)
  | .x i k => (if i = 0 then φ (.x0 k) else 0) + if i = Fin.last N then φ (.xf k) else 0
  | .u _ _ => 0

theorem meshJac_sum (r0 : ℕ) (w : F) (J : Sp F) (R : ℕ) (v : NVar N nx nu nq) :
    ((meshJacBlocks nx nu nq N r0 w J).map fun b => b.contrib R v.pos).sum =
      ((loc r0 J.rows R).map fun a => w * pullM (fun v' => J.val a v'.pos) v).getD 0 := by
  simp only [meshJacBlocks, List.map_cons, List.map_nil, List.sum_cons, List.sum_nil, contrib_cols, loc_tf, loc_x, loc_u]
  cases loc r0 J.rows R with
  | none => simp
  | some a => cases v <;> simp [pullM, Var.pos, add_assoc, xL]

theorem endJac_sum (hN : 1 ≤ N) (r0 : ℕ) (J : Sp F) (R : ℕ) (v : NVar N nx nu nq) :
    ((endJacBlocks nx nu nq N r0 J).map fun b => b.contrib R v.pos).sum =
      ((loc r0 J.rows R).map fun a => pullE (fun v' => J.val a v'.pos) v).getD 0 := by
  simp only [endJacBlocks, List.map_cons, List.map_nil, List.sum_cons, List.sum_nil, contrib_cols, loc_tf, loc_x0, loc_xf, loc_q]
  cases loc r0 J.rows R with
  | none => simp
  | some a =>
    cases v with
    | x i k =>
      have h0l : ¬ (0 : Fin (N + 1)) = Fin.last N := fun e => by
        have := congrArg Fin.val e; simp at this; omega
      have hl0 : ¬ Fin.last N = (0 : Fin (N + 1)) := fun e => h0l e.symm
      by_cases h : i = 0
      · subst h; simp [pullE, EArg.pos, h0l]
      · by_cases h' : i = Fin.last N
        · subst h'; simp [pullE, EArg.pos, hl0]
        · simp [pullE, h, h']
    | _ => simp [pullE, EArg.pos]

theorem dfBlocks_eq (J : Sp F) : dfBlocks nx nu nq N J = endJacBlocks nx nu nq N 0 J := rfl

/-- A second derivative with respect to an integral and a state. -/
def mixed : NVar N nx nu nq → NVar N nx nu nq → Prop
  | .q _, .x _ _ => True
  | _, _ => False

instance (v w : NVar N nx nu nq) : Decidable (mixed v w) := by
  cases v <;> cases w <;> unfold mixed <;> infer_instance

theorem endHess_sum (hN : 1 ≤ N) (j : ℕ) (lam : F) (H : Sp F) (v w : NVar N nx nu nq) :
    (¬ mixed v w → ((endHessBlocks nx nu nq N j lam H).map fun b => b.contrib v.pos w.pos).sum =
      if v.pos ≤ w.pos then
        lam * pullE (fun a => pullE (fun b => H.val a.pos ((1 + 2 * nx + nq) * j + b.pos)) w) v
      else 0) ∧
    (mixed v w → ((endHessBlocks nx nu nq N j lam H).map fun b => b.contrib v.pos w.pos).sum = 0) := by
  simp only [endHessBlocks, List.map_cons, List.map_nil, List.sum_cons, List.sum_nil, contrib_block, loc_tf, loc_x0, loc_xf,
    loc_q, true_and]
  by_cases hle : v.pos ≤ w.pos
  · simp only [hle, if_true, not_lt.2 hle, if_false]
    have h0l : ¬ (0 : Fin (N + 1)) = Fin.last N := fun e => by
      have := congrArg Fin.val e; simp at this; omega
    have hl0 : ¬ Fin.last N = (0 : Fin (N + 1)) := fun e => h0l e.symm
    cases v with
    | tf =>
      cases w with
      | x i k =>
        refine ⟨fun _ => ?_, fun h => h.elim⟩
        by_cases h : i = 0
        · subst h; simp [pullE, EArg.pos, h0l, add_assoc]
        · by_cases h' : i = Fin.last N
          · subst h'; simp [pullE, EArg.pos, hl0, add_assoc]
          · simp [pullE, h, h']
      | _ => refine ⟨fun _ => ?_, fun h => h.elim⟩; simp [pullE, EArg.pos, add_assoc]
    | q k =>
      cases w with
      | tf => simp only [NVar.pos] at hle; omega
      | q k' => refine ⟨fun _ => ?_, fun h => h.elim⟩; simp [pullE, EArg.pos, add_assoc]
      | x i k' => refine ⟨fun h => (h trivial).elim, fun _ => ?_⟩; simp
      | u i k' => refine ⟨fun _ => ?_, fun h => h.elim⟩; simp [pullE]
    | x i k =>
      cases w with
      | tf => simp only [NVar.pos] at hle; omega
      | q k' => simp only [NVar.pos] at hle; omega
      | x i' k' =>
        refine ⟨fun _ => ?_, fun h => h.elim⟩
        by_cases h1 : i = 0
        · subst h1
          by_cases h2 : i' = 0
          · subst h2; simp [pullE, EArg.pos, h0l, add_assoc]
          · by_cases h3 : i' = Fin.last N
            · subst h3; simp [pullE, EArg.pos, h0l, hl0, add_assoc]
            · simp [pullE, h2, h3]
        · by_cases h2 : i = Fin.last N
          · subst h2
            by_cases h3 : i' = 0
            · subst h3
              exfalso
              have : nx * 1 ≤ nx * N := Nat.mul_le_mul_left _ hN
              have := k'.2
              simp only [NVar.pos, Fin.val_last, Fin.val_zero] at hle
              omega
            · by_cases h4 : i' = Fin.last N
              · subst h4; simp [pullE, EArg.pos, hl0, add_assoc]
              · simp [pullE, h3, h4]
          · simp [pullE, h1, h2]
      | u i' k' =>
        refine ⟨fun _ => ?_, fun h => h.elim⟩
        by_cases h : i = 0 <;> by_cases h' : i = Fin.last N <;> simp [pullE, h, h']
    | u i k => refine ⟨fun _ => ?_, fun h => h.elim⟩; simp [pullE]
  · simp only [if_neg hle, not_le.1 hle, if_true, add_zero]
    exact ⟨fun _ => trivial, fun _ => trivial⟩

theorem meshHess_sum (w : F) (L : List (Sp F)) (v v' : NVar N nx nu nq) :
    ((meshHessBlocks nx nu nq N w L).map fun b => b.contrib v.pos v'.pos).sum =
      if v.pos ≤ v'.pos then
        (L.map fun A => w * pullM (fun a => pullM (fun b => A.val a.pos b.pos) v') v).sum
      else 0 := by
  simp only [meshHessBlocks, List.map_append, List.sum_append, List.map_map, ← List.sum_map_add]
  simp only [Function.comp_def, contrib_block, loc_tf, loc_x, loc_u, true_and]
  by_cases hle : v.pos ≤ v'.pos
  · simp only [hle, if_true, not_lt.2 hle, if_false]
    congr 2
    funext A
    cases v with
    | tf => cases v' <;> simp [pullM, Var.pos, add_assoc, xL]
    | q k => simp [pullM]
    | x i k =>
      cases v' with
      | tf => simp only [NVar.pos] at hle; omega
      | _ => simp [pullM, Var.pos, add_assoc, xL]
    | u i k =>
      cases v' with
      | tf => simp only [NVar.pos] at hle; omega
      | x i' k' => have := row_le i' k'; simp only [NVar.pos] at hle; omega
      | _ => simp [pullM, Var.pos, add_assoc, xL]
  · simp only [if_neg hle, not_le.1 hle, if_true, add_zero]
    simp

/-! The blocks fit. -/

theorem meshJac_fits (r0 M : ℕ) (w : F) (J : Sp F) (hM : r0 + J.rows ≤ M) :
    ∀ b ∈ meshJacBlocks nx nu nq N r0 w J, b.Fits M (numX nx nu nq N) := by
  obtain ⟨e1, e2, e3, e4, e5⟩ := begs nx nu nq N
  intro b hb
  simp only [meshJacBlocks, List.mem_cons, List.not_mem_nil, or_false] at hb
  rcases hb with rfl | rfl | rfl <;> simp only [Blk.Fits, Sp.middleCols, Sp.block, e1, e3, e4, e5, nVars, xL, uL] <;>
    refine ⟨hM, by omega⟩

theorem endJac_fits (r0 M : ℕ) (J : Sp F) (hM : r0 + J.rows ≤ M) :
    ∀ b ∈ endJacBlocks nx nu nq N r0 J, b.Fits M (numX nx nu nq N) := by
  obtain ⟨e1, e2, e3, e4, e5⟩ := begs nx nu nq N
  have e6 := xf_start nx nu nq N
  intro b hb
  simp only [endJacBlocks, List.mem_cons, List.not_mem_nil, or_false] at hb
  rcases hb with rfl | rfl | rfl | rfl <;> simp only [Blk.Fits, Sp.middleCols, Sp.block, e6] <;>
    simp only [e1, e2, e3, e5, nVars, Nat.mul_succ] <;> refine ⟨hM, by omega⟩

theorem endHess_fits (j : ℕ) (lam : F) (H : Sp F) :
    ∀ b ∈ endHessBlocks nx nu nq N j lam H, b.Fits (numX nx nu nq N) (numX nx nu nq N) := by
  obtain ⟨e1, e2, e3, e4, e5⟩ := begs nx nu nq N
  have e6 := xf_start nx nu nq N
  intro b hb
  simp only [endHessBlocks, List.mem_cons, List.not_mem_nil, or_false] at hb
  rcases hb with rfl | rfl | rfl | rfl | rfl | rfl | rfl | rfl | rfl | rfl <;> simp only [Blk.Fits, Sp.block, e6] <;>
    simp only [e1, e2, e3, e5, nVars, Nat.mul_succ] <;> omega

theorem meshHess_fits (w : F) (L : List (Sp F)) :
    ∀ b ∈ meshHessBlocks nx nu nq N w L, b.Fits (numX nx nu nq N) (numX nx nu nq N) := by
  obtain ⟨e1, e2, e3, e4, e5⟩ := begs nx nu nq N
  intro b hb
  simp only [meshHessBlocks, List.mem_append, List.mem_map] at hb
  rcases hb with ((((⟨A, -, rfl⟩ | ⟨A, -, rfl⟩) | ⟨A, -, rfl⟩) | ⟨A, -, rfl⟩) | ⟨A, -, rfl⟩) | ⟨A, -, rfl⟩ <;>
    simp only [Blk.Fits, Sp.block, e1, e3, e4, e5, nVars, xL, uL] <;> omega

end

end Verif.NLP
