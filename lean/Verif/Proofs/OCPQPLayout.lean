import Verif.Spec.OCPQP
import Verif.Proofs.OCPNLP
import Verif.Props.MeshDyn

/-! # Where the variables and constraints of the quadratic program are -/

set_option linter.unusedSectionVars false

namespace Verif.OQP

open Verif.Mesh Verif.Sparse Verif.MeshFn Verif.NLP Verif.QP Verif.QPSpec

variable {N nx nu ncr nce : ℕ}

theorem QVar.pos_lt (v : QVar N nx nu) : v.pos < numV N nx nu := by
  cases v with
  | x i k => have := row_le i k; simp only [QVar.pos, numV]; omega
  | u i k => have := row_le i k; simp only [QVar.pos, numV]; omega

theorem QCon.pos_lt (c : QCon N nx ncr nce) : c.pos < numC N nx ncr nce := by
  cases c with
  | dyn i k => have := row_le i k; simp only [QCon.pos, numC]; omega
  | cr i k => have := row_le i k; simp only [QCon.pos, numC]; omega
  | ce k => simp only [QCon.pos, numC]; omega

theorem row_inj {n N : ℕ} {i j : Fin N} {k l : Fin n} (h : n * (i : ℕ) + k = n * j + l) : i = j ∧ k = l := by
  have h1 : (i : ℕ) = j := mul_block k.2 (by omega) (by omega)
  have h2 : i = j := Fin.ext h1
  subst h2
  exact ⟨rfl, Fin.ext (by omega)⟩

theorem QVar.pos_inj {v w : QVar N nx nu} (h : v.pos = w.pos) : v = w := by
  cases v with
  | x i k =>
    cases w with
    | x j l => obtain ⟨rfl, rfl⟩ := row_inj h; rfl
    | u j l => have := row_le i k; simp only [QVar.pos] at h; omega
  | u i k =>
    cases w with
    | x j l => have := row_le j l; simp only [QVar.pos] at h; omega
    | u j l => obtain ⟨rfl, rfl⟩ := row_inj (i := i) (j := j) (k := k) (l := l) (by simp only [QVar.pos] at h; omega); rfl

theorem QVar.pos_surj {c : ℕ} (h : c < numV N nx nu) : ∃ v : QVar N nx nu, v.pos = c := by
  unfold numV at h
  by_cases hc : c < nx * (N + 1)
  · obtain ⟨⟨i, k⟩, e⟩ := rowOf_surj hc
    exact ⟨.x i k, e⟩
  · obtain ⟨⟨i, k⟩, e⟩ := rowOf_surj (r := c - nx * (N + 1)) (n := nu) (N := N) (by omega)
    exact ⟨.u i k, by simp only [rowOf] at e; simp only [QVar.pos]; omega⟩

theorem QCon.pos_inj {v w : QCon N nx ncr nce} (h : v.pos = w.pos) : v = w := by
  cases v with
  | dyn i k =>
    have hv := row_le i k
    cases w with
    | dyn j l => obtain ⟨rfl, rfl⟩ := row_inj h; rfl
    | cr j l => simp only [QCon.pos] at h; omega
    | ce l => simp only [QCon.pos] at h; omega
  | cr i k =>
    have hv := row_le i k
    cases w with
    | dyn j l => have := row_le j l; simp only [QCon.pos] at h; omega
    | cr j l =>
      obtain ⟨rfl, rfl⟩ := row_inj (n := ncr) (i := i) (j := j) (k := k) (l := l) (by simp only [QCon.pos] at h; omega)
      rfl
    | ce l => simp only [QCon.pos] at h; omega
  | ce k =>
    cases w with
    | dyn j l => have := row_le j l; simp only [QCon.pos] at h; omega
    | cr j l => have := row_le j l; simp only [QCon.pos] at h; omega
    | ce l =>
      have : k = l := Fin.ext (by simp only [QCon.pos] at h; omega)
      rw [this]

theorem QCon.pos_surj {c : ℕ} (h : c < numC N nx ncr nce) : ∃ v : QCon N nx ncr nce, v.pos = c := by
  unfold numC at h
  by_cases hc : c < nx * N
  · obtain ⟨⟨i, k⟩, e⟩ := rowOf_surj hc
    exact ⟨.dyn i k, e⟩
  · by_cases hc' : c < nx * N + ncr * N
    · obtain ⟨⟨i, k⟩, e⟩ := rowOf_surj (r := c - nx * N) (n := ncr) (N := N) (by omega)
      exact ⟨.cr i k, by simp only [rowOf] at e; simp only [QCon.pos]; omega⟩
    · exact ⟨.ce ⟨c - (nx * N + ncr * N), by omega⟩, by simp only [QCon.pos]; omega⟩

/-- The variables in order. -/
theorem sum_vars {M : Type*} [AddCommMonoid M] (g : Fin (numV N nx nu) → M) :
    ∑ j, g j = ∑ v : QVar N nx nu, g ⟨v.pos, v.pos_lt⟩ := by
  have hb : Function.Bijective fun v : QVar N nx nu => (⟨v.pos, v.pos_lt⟩ : Fin (numV N nx nu)) :=
    ⟨fun v w h => QVar.pos_inj (Fin.mk.inj_iff.1 h), fun j => by
      obtain ⟨v, hv⟩ := QVar.pos_surj j.2; exact ⟨v, Fin.ext hv⟩⟩
  exact (hb.sum_comp g).symm

theorem nvar_eq : nvar nx nu N = numV N nx nu := rfl
theorem ncon_eq : ncon nx ncr nce N = numC N nx ncr nce := rfl

/-! ### Segments -/

theorem loc_row {n c b p : ℕ} (i : ℕ) (j : ℕ) (k : Fin n) (hp : p = b + (n * j + k)) (hc : c = b + i * n) :
    loc c n p = if i = j then some (k : ℕ) else none := by
  by_cases h : i = j
  · subst h
    rw [if_pos rfl]
    exact loc_some (by rw [hp, hc, Nat.mul_comm]; omega) k.2
  · rw [if_neg h]
    apply loc_none
    rw [hp, hc]
    have hk := k.2
    rcases Nat.lt_or_gt_of_ne h with h' | h'
    · right
      have : i * n + n ≤ n * j := by
        calc i * n + n = n * (i + 1) := by ring
          _ ≤ n * j := Nat.mul_le_mul_left _ h'
      omega
    · left
      have : n * j + n ≤ i * n := by
        calc n * j + n = n * (j + 1) := by ring
          _ ≤ n * i := Nat.mul_le_mul_left _ h'
          _ = i * n := Nat.mul_comm _ _
      omega

/-- The state block with index `i`. -/
theorem loc_xcol (i : ℕ) (hi : i < N + 1) (v : QVar N nx nu) : loc (xvarB + i * nx) nx v.pos = match v with
    | .x j k => if i = j then some (k : ℕ) else none
    | .u _ _ => none := by
  cases v with
  | x j k => exact loc_row i j k (by simp only [QVar.pos, xvarB]; omega) rfl
  | u j k =>
    apply loc_none
    have : i * nx + nx ≤ nx * (N + 1) := by
      calc i * nx + nx = nx * (i + 1) := by ring
        _ ≤ nx * (N + 1) := Nat.mul_le_mul_left _ hi
    simp only [QVar.pos, xvarB]; omega

/-- The input block with index `i`. -/
theorem loc_ucol (i : ℕ) (v : QVar N nx nu) : loc (uvarB nx N + i * nu) nu v.pos = match v with
    | .x _ _ => none
    | .u j k => if i = j then some (k : ℕ) else none := by
  cases v with
  | u j k => exact loc_row i j k (by simp only [QVar.pos, uvarB, xvarL]; omega) rfl
  | x j k => apply loc_none; have := row_le j k; simp only [QVar.pos, uvarB, xvarL]; omega

/-- Partial derivatives at a collocation point, as coefficients of the variables. -/
def pullN {M : Type*} [Zero M] (i : Fin N) (φ : Arg nx nu → M) : QVar N nx nu → M
  | .x j k => if j = i.castSucc then φ (.x k) else 0
  | .u j k => if j = i then φ (.u k) else 0

/-- Partial derivatives at the end points, as coefficients of the variables. -/
def pullQ {M : Type*} [AddZeroClass M] (φ : EArg nx 1 → M) : QVar N nx nu → M
  | .x j k => (if j = 0 then φ (.x0 k) else 0) + if j = Fin.last N then φ (.xf k) else 0
  | .u _ _ => 0

def QVar.equiv : QVar N nx nu ≃ (Fin (N + 1) × Fin nx) ⊕ (Fin N × Fin nu) where
  toFun
    | .x i k => .inl (i, k)
    | .u i k => .inr (i, k)
  invFun
    | .inl p => .x p.1 p.2
    | .inr p => .u p.1 p.2
  left_inv v := by cases v <;> rfl
  right_inv v := by rcases v with ⟨i, k⟩ | ⟨i, k⟩ <;> rfl

theorem QVar.sum_eq {M : Type*} [AddCommMonoid M] (g : QVar N nx nu → M) :
    ∑ v, g v = (∑ i, ∑ k, g (.x i k)) + ∑ i, ∑ k, g (.u i k) := by
  rw [← QVar.equiv.symm.sum_comp, Fintype.sum_sum_type, Fintype.sum_prod_type, Fintype.sum_prod_type]
  rfl

def argEquiv : Arg nx nu ≃ Unit ⊕ Fin nx ⊕ Fin nu where
  toFun
    | .t => .inl ()
    | .x k => .inr (.inl k)
    | .u k => .inr (.inr k)
  invFun
    | .inl _ => .t
    | .inr (.inl k) => .x k
    | .inr (.inr k) => .u k
  left_inv v := by cases v <;> rfl
  right_inv v := by rcases v with _ | _ | _ <;> rfl

theorem arg_sum_eq {M : Type*} [AddCommMonoid M] (g : Arg nx nu → M) :
    ∑ v, g v = g .t + (∑ k, g (.x k) + ∑ k, g (.u k)) := by
  rw [← argEquiv.symm.sum_comp, Fintype.sum_sum_type, Fintype.sum_sum_type]
  simp [argEquiv]

def eargEquiv {nq : ℕ} : EArg nx nq ≃ Unit ⊕ Fin nx ⊕ Fin nx ⊕ Fin nq where
  toFun
    | .tf => .inl ()
    | .x0 k => .inr (.inl k)
    | .xf k => .inr (.inr (.inl k))
    | .q k => .inr (.inr (.inr k))
  invFun
    | .inl _ => .tf
    | .inr (.inl k) => .x0 k
    | .inr (.inr (.inl k)) => .xf k
    | .inr (.inr (.inr k)) => .q k
  left_inv v := by cases v <;> rfl
  right_inv v := by rcases v with _ | _ | _ | _ <;> rfl

theorem earg_sum_eq {nq : ℕ} {M : Type*} [AddCommMonoid M] (g : EArg nx nq → M) :
    ∑ v, g v = g .tf + (∑ k, g (.x0 k) + (∑ k, g (.xf k) + ∑ k, g (.q k))) := by
  rw [← eargEquiv.symm.sum_comp, Fintype.sum_sum_type, Fintype.sum_sum_type, Fintype.sum_sum_type]
  simp [eargEquiv]

theorem sum_pullN (i : Fin N) (φ : Arg nx nu → ℝ) (z : QVar N nx nu → ℝ) :
    ∑ v, pullN i φ v * z v = ∑ a, φ a * dev z i a := by
  rw [QVar.sum_eq, arg_sum_eq]
  simp only [pullN, dev, mul_zero, zero_add, ite_mul, zero_mul]
  congr 1
  · rw [Finset.sum_comm]; simp
  · rw [Finset.sum_comm]; simp

theorem sum_pullQ (φ : EArg nx 1 → ℝ) (z : QVar N nx nu → ℝ) :
    ∑ v, pullQ φ v * z v = ∑ a, φ a * devEnd z a := by
  rw [QVar.sum_eq, earg_sum_eq]
  simp only [pullQ, devEnd, mul_zero, zero_add, add_mul, ite_mul, zero_mul, Finset.sum_const_zero, add_zero, Finset.sum_add_distrib]
  congr 1
  · rw [Finset.sum_comm]; simp
  · rw [Finset.sum_comm]; simp

/-- A derivative in a direction from the partial ones. -/
theorem fderiv_pd {ι : Type*} [Fintype ι] [DecidableEq ι] (f : (ι → ℝ) → ℝ) (p d : ι → ℝ) : fderiv ℝ f p d = ∑ a, pd f a p * d a := by
  unfold pd
  conv_lhs => rw [← Finset.univ_sum_single d, map_sum]
  refine Finset.sum_congr rfl fun a _ => ?_
  have : (Pi.single a (d a) : ι → ℝ) = d a • Pi.single a 1 := by
    rw [← Pi.single_smul]; simp
  rw [this, map_smul, smul_eq_mul, mul_comm]

end Verif.OQP
