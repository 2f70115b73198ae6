import Verif.Proofs.FlattenObj

/-! # What `FlatDyn::jacobian` and `FlatDyn::hessian` leave -/

set_option linter.unusedSectionVars false

namespace Verif.Flatten

open Verif.Sparse Verif.Lie Verif.MeshFn Verif.NLP

open scoped Matrix

variable {F : Type*} [Field F] {X U : Type*} {nx nu : ℕ}

theorem addCols_spec (n : ℕ) (w : ℕ → F) (l : List (ℕ × ℕ × F)) (J : Sp F) (hl : ∀ en ∈ l, en.2.1 / n < J.rows ∧ 1 + en.2.1 % n < J.cols) :
    ∃ J', addCols n w l J = some J' ∧ J'.rows = J.rows ∧ J'.cols = J.cols ∧
      ∀ i j, J'.val i j = J.val i j + (l.map fun en => if en.2.1 / n = i ∧ 1 + en.2.1 % n = j then w en.1 * en.2.2 else 0).sum := by
  induction l generalizing J with
  | nil => exact ⟨J, rfl, rfl, rfl, by simp⟩
  | cons en l ih =>
    obtain ⟨r, c, v⟩ := en
    have h0 := hl _ List.mem_cons_self
    dsimp only at h0
    obtain ⟨J', h1, h2, h3, h4⟩ := ih { J with ent := fun a b => if a = c / n ∧ b = 1 + c % n then some (J.val (c / n) (1 + c % n) + w r * v) else J.ent a b }
      fun en hen => hl en (List.mem_cons_of_mem _ hen)
    refine ⟨J', ?_, h2, h3, fun i j => ?_⟩
    · rw [addCols, Sp.update, if_pos h0]
      exact h1
    · rw [h4, List.map_cons, List.sum_cons, ← add_assoc]
      congr 1
      unfold Sp.val
      dsimp only
      by_cases hij : c / n = i ∧ 1 + c % n = j
      · obtain ⟨rfl, rfl⟩ := hij
        rw [if_pos ⟨rfl, rfl⟩, if_pos ⟨rfl, rfl⟩]
        rfl
      · rw [if_neg hij, if_neg fun h => hij ⟨h.1.symm, h.2.symm⟩, add_zero]

/-- A source of `n` rows and `n²` columns. -/
theorem addCols_block (w : ℕ → F) (S J : Sp F) (hr : S.rows = nx) (hc : S.cols = nx * nx) (hJ : J.rows = nx) (hJ' : J.cols = nVar nx nu) :
    ∃ J', addCols nx w S.entries J = some J' ∧ J'.rows = nx ∧ J'.cols = nVar nx nu ∧ ∀ (j : Fin nx) (a : Arg nx nu),
      J'.val j a.pos = J.val j a.pos + match a with
        | .x c => ∑ r : Fin nx, w r * S.val r (nx * j + c)
        | _ => 0 := by
  obtain ⟨J', h1, h2, h3, h4⟩ := addCols_spec nx w S.entries J (by
    rintro ⟨r, c, v⟩ hen
    obtain ⟨-, h, -⟩ := (mem_entries S r c v).1 hen
    rw [hc] at h
    have h0 : 0 < nx := by
      rcases Nat.eq_zero_or_pos nx with h0 | h0
      · rw [h0] at h; omega
      · exact h0
    have := Nat.mod_lt c h0
    refine ⟨by rw [hJ]; exact Nat.div_lt_of_lt_mul h, by rw [hJ']; dsimp only [nVar]; omega⟩)
  refine ⟨J', h1, h2.trans hJ, h3.trans hJ', fun j a => ?_⟩
  rw [h4]
  congr 1
  rw [sum_entries S (fun r c v => if c / nx = j ∧ 1 + c % nx = a.pos then w r * v else 0) (by intro r c; simp), hr, hc]
  have h0 : 0 < nx := lt_of_le_of_lt (Nat.zero_le _) j.2
  cases a with
  | t =>
    refine Finset.sum_eq_zero fun r _ => Finset.sum_eq_zero fun c _ => ?_
    rw [if_neg fun h => ?_]
    have := h.2
    simp only [Arg.pos] at this
    omega
  | u k =>
    refine Finset.sum_eq_zero fun r _ => Finset.sum_eq_zero fun c _ => ?_
    rw [if_neg fun h => ?_]
    have := h.2
    have h1 := Nat.mod_lt c h0
    simp only [Arg.pos] at this
    omega
  | x c =>
    rw [Finset.sum_range]
    refine Finset.sum_congr rfl fun r _ => ?_
    rw [Finset.sum_eq_single (nx * j + c)]
    · rw [if_pos]
      refine ⟨by rw [Nat.mul_add_div h0, Nat.div_eq_of_lt c.2, Nat.add_zero], ?_⟩
      rw [Nat.mul_add_mod, Nat.mod_eq_of_lt c.2]
      rfl
    · intro b _ hb
      rw [if_neg fun h => hb ?_]
      have e1 : b % nx = c := by
        have := h.2
        simp only [Arg.pos] at this
        omega
      rw [← h.1, ← e1, Nat.div_add_mod]
    · intro hb
      refine absurd (Finset.mem_range.2 ?_) hb
      have := c.2
      have := mul_succ_le (N := nx) j.2
      omega

/-- The members have the right sizes, and zeros where nothing is written. -/
structure DynObj.Ok (nx nu : ℕ) (o : DynObj F) : Prop where
  jop : JopOk nx nu o.jop
  hop : HopOk nx nu o.hop
  H_rows : o.H.rows = nVar nx nu
  H_cols : o.H.cols = nx * nVar nx nu
  hi_rows : o.hi.rows = nVar nx nu
  hi_cols : o.hi.cols = nx * nVar nx nu
  hiTmp_rows : o.hiTmp.rows = nVar nx nu
  hiTmp_cols : o.hiTmp.cols = nx * nVar nx nu

theorem DynObj.init_ok : (DynObj.init (F := F) nx nu).Ok nx nu where
  jop := ⟨rfl, rfl, fun _ _ _ => empty_val _ _ _ _ _⟩
  hop := ⟨rfl, rfl, fun _ _ _ _ => empty_val _ _ _ _ _⟩
  H_rows := rfl
  H_cols := rfl
  hi_rows := rfl
  hi_cols := rfl
  hiTmp_rows := rfl
  hiTmp_cols := rfl

variable (LX : LieOps X F nx) (LU : LieOps U F nu)

/-- The entries of the Jacobian of the flattened dynamics. -/
def dynJ (f : GFn X U F nx) (xl : Traj X F nx) (ul : Traj U F nu) (t : F) (e : Fin nx → F) (v : Fin nu → F) (j : Fin nx) (a : Arg nx nu) : F :=
  (∑ i, LX.drExpinv e j i * innerJ LX LU f xl ul t e v i a) + match a with
    | .x c => (∑ r, (innerVal LX LU f xl ul t e v r - xl.d t r) * LX.d2rExpinv e j r c) + ∑ r, xl.d t r * LX.gen c j r
    | _ => 0

theorem d2expinv_val (e : Fin nx → F) (r j c : Fin nx) : (d2expinv LX e).val r (nx * j + c) = LX.d2rExpinv e j r c := by
  have h0 : 0 < nx := lt_of_le_of_lt (Nat.zero_le _) j.2
  have e1 : (nx * (j : ℕ) + c) / nx = j := by rw [Nat.mul_add_div h0, Nat.div_eq_of_lt c.2, Nat.add_zero]
  have e2 : (nx * (j : ℕ) + c) % nx = c := by rw [Nat.mul_add_mod, Nat.mod_eq_of_lt c.2]
  have := mul_succ_le (N := nx) j.2
  have := c.2
  unfold d2expinv
  rw [dense_val, if_pos ⟨r.2, by omega⟩, dif_pos ⟨r.2, by rw [e1]; exact j.2, by rw [e2]; exact c.2⟩]
  simp only [e1, e2]

theorem dAd_val (r j c : Fin nx) : (dAd LX).val r (nx * j + c) = LX.gen c j r := by
  have h0 : 0 < nx := lt_of_le_of_lt (Nat.zero_le _) j.2
  have e1 : (nx * (j : ℕ) + c) / nx = j := by rw [Nat.mul_add_div h0, Nat.div_eq_of_lt c.2, Nat.add_zero]
  have e2 : (nx * (j : ℕ) + c) % nx = c := by rw [Nat.mul_add_mod, Nat.mod_eq_of_lt c.2]
  have := mul_succ_le (N := nx) j.2
  have := c.2
  unfold dAd
  rw [dense_val, if_pos ⟨r.2, by omega⟩, dif_pos ⟨r.2, by rw [e1]; exact j.2, by rw [e2]; exact c.2⟩]
  simp only [e1, e2]

theorem dynJac_spec {f : GFn X U F nx} (hf : f.Shape nx nu) (xl : Traj X F nx) (ul : Traj U F nu) (t : F) (e : Fin nx → F) (v : Fin nu → F) {o : DynObj F}
    (ho : o.Ok nx nu) : ∃ o', dynJac LX LU f xl ul t e v o = some o' ∧ o'.Ok nx nu ∧ o'.J.rows = nx ∧ o'.J.cols = nVar nx nu ∧
      ∀ (j : Fin nx) a, o'.J.val j (Arg.pos a) = dynJ LX LU f xl ul t e v j a := by
  obtain ⟨jop, h1, h2, h3⟩ := joplus_spec LX LU e v (xl.d t) (ul.d t) o.jop ho.jop
  obtain ⟨DJ, d1, d2, d3, d4⟩ := spMul_spec (ofMat (LX.drExpinv e)) (f.jac t (LX.rplus (xl.val t) e) (LU.rplus (ul.val t) v)) (hf.jac_rows _ _ _).symm
  rw [hf.jac_cols] at d3
  obtain ⟨J0, j1, j2, j3, j4⟩ := jac_product (argLayout nx nu) (nf := nx) DJ jop d2 d3 h2.1 h2.2.1
  obtain ⟨J1, k1, k2, k3, k4⟩ := addCols_block (nx := nx) (nu := nu) (ext fun k => f.val t (LX.rplus (xl.val t) e) (LU.rplus (ul.val t) v) k - xl.d t k) (d2expinv LX e) J0
    rfl rfl j2 j3
  obtain ⟨J2, l1, l2, l3, l4⟩ := addCols_block (nx := nx) (nu := nu) (ext (xl.d t)) (dAd LX) J1 rfl rfl k2 k3
  refine ⟨{ o with jop := jop, J := J2 }, ?_, ⟨h2, ho.hop, ho.H_rows, ho.H_cols, ho.hi_rows, ho.hi_cols, ho.hiTmp_rows, ho.hiTmp_cols⟩, l2, l3, fun j a => ?_⟩
  · unfold dynJac
    simp only [h1, d1, j1, k1, l1]
  · change J2.val j a.pos = _
    have e0 : J0.val j a.pos = ∑ i, LX.drExpinv e j i * innerJ LX LU f xl ul t e v i a := by
      refine (j4 j a).trans ?_
      have e1 : ∀ k : Arg nx nu, DJ.val j ((argLayout nx nu).pos k) = ∑ i : Fin nx, LX.drExpinv e j i * (f.jac t (LX.rplus (xl.val t) e)
          (LU.rplus (ul.val t) v)).val i k.pos := by
        intro k
        have := d4 j k.pos j.2 (by rw [hf.jac_cols]; exact (argLayout nx nu).lt k)
        refine this.trans ?_
        change ∑ i ∈ Finset.range nx, _ = _
        rw [Finset.sum_range]
        refine Finset.sum_congr rfl fun i _ => ?_
        rw [ofMat_val]
      have e2 : ∀ k a : Arg nx nu, jop.val ((argLayout nx nu).pos k) ((argLayout nx nu).pos a) = jopT LX LU e v (xl.d t) (ul.d t) k a := h3
      simp only [e1, e2, innerJ, Finset.sum_mul, Finset.mul_sum]
      rw [Finset.sum_comm]
      refine Finset.sum_congr rfl fun i _ => Finset.sum_congr rfl fun k _ => ?_
      ring
    rw [l4, k4, e0]
    cases a with
    | t => simp [dynJ]
    | u k => simp [dynJ]
    | x c =>
      dsimp only [dynJ]
      rw [add_assoc]
      refine congrArg₂ (fun x y : F => x + y) rfl (congrArg₂ (fun x y : F => x + y) ?_ ?_)
      · refine Finset.sum_congr rfl fun r _ => ?_
        rw [d2expinv_val]
        simp only [ext, Fin.is_lt, dif_pos]
        rfl
      · refine Finset.sum_congr rfl fun r _ => ?_
        rw [dAd_val]
        simp only [ext, Fin.is_lt, dif_pos]

/-! ### The series -/

/-- `ad(e)^n w`. -/
def itV (L : LieOps X F nx) (e w : Fin nx → F) : ℕ → Fin nx → F
  | 0 => w
  | n + 1 => L.ad e *ᵥ itV L e w n

/-- The first derivatives that the loop computes. -/
def itJ (L : LieOps X F nx) (e w : Fin nx → F) (J : Fin nx → Arg nx nu → F) : ℕ → Fin nx → Arg nx nu → F
  | 0, j, a => J j a
  | n + 1, j, a => (∑ k, L.ad e j k * itJ L e w J n k a) + match a with
      | .x c => -L.ad (itV L e w n) j c
      | _ => 0

/-- The second derivatives that the loop computes. -/
def itH (L : LieOps X F nx) (e w : Fin nx → F) (J : Fin nx → Arg nx nu → F) (H : Fin nx → Arg nx nu → Arg nx nu → F) :
    ℕ → Fin nx → Arg nx nu → Arg nx nu → F
  | 0, j, a, b => H j a b
  | n + 1, j, a, b => (∑ k, L.ad e j k * itH L e w J H n k a b) + ((match a with
      | .x r => ∑ m, L.gen r j m * itJ L e w J n m b
      | _ => 0) + match b with
      | .x c => -∑ m, itJ L e w J n m a * L.gen m j c
      | _ => 0)

theorem mapM_some' {α β : Type*} (g : α → β) (l : List α) : (l.mapM fun a => some (g a)) = some (l.map g) := by
  induction l with
  | nil => rfl
  | cons a l ih => rw [List.mapM_cons, ih]; rfl

theorem block_eq' {N k j b : ℕ} (hb : b < N) (h1 : k * N ≤ N * j + b) (h2 : N * j + b < k * N + N) : k = j := by
  rcases Nat.lt_trichotomy k j with h | h | h
  · have := mul_succ_le (N := N) h
    rw [mul_comm k] at h2
    omega
  · exact h
  · have := mul_succ_le (N := N) h
    rw [mul_comm k] at h1
    omega

theorem reordered_val (L : LieOps X F nx) (k i j : Fin nx) : (reordered L k).val i j = L.gen i k j :=
  ofMat_val (r := nx) (c := nx) (fun i j => L.gen i k j) i j

/-- The variables of the loop hold the derivatives `V`, `J`, `H` of one power, and the sum `S` so far. -/
structure HessSt.Is (nu : ℕ) (s : HessSt F nx) (V : Fin nx → F) (J : Fin nx → Arg nx nu → F) (H S : Fin nx → Arg nx nu → Arg nx nu → F) : Prop where
  H_rows : s.H.rows = nVar nx nu
  H_cols : s.H.cols = nx * nVar nx nu
  hi_rows : s.hi.rows = nVar nx nu
  hi_cols : s.hi.cols = nx * nVar nx nu
  hiTmp_rows : s.hiTmp.rows = nVar nx nu
  hiTmp_cols : s.hiTmp.cols = nx * nVar nx nu
  ji_rows : s.ji.rows = nx
  ji_cols : s.ji.cols = nVar nx nu
  vi : s.vi = V
  ji : ∀ (j : Fin nx) (a : Arg nx nu), s.ji.val j a.pos = J j a
  hi : ∀ (j : Fin nx) (a b : Arg nx nu), s.hi.val a.pos (nVar nx nu * j + b.pos) = H j a b
  H : ∀ (j : Fin nx) (a b : Arg nx nu), s.H.val a.pos (nVar nx nu * j + b.pos) = S j a b

theorem hiBlocks_spec (L : LieOps X F nx) (e : Fin nx → F) {s : HessSt F nx} {V : Fin nx → F} {J : Fin nx → Arg nx nu → F}
    {H S : Fin nx → Arg nx nu → Arg nx nu → F} (hs : s.Is nu V J H S) :
    ∃ bl hi', hiBlocks nu L (ofMat (L.ad e)) s.hi s.ji = some bl ∧ blockAdds bl (Sp.empty s.hiTmp.rows s.hiTmp.cols) = some hi' ∧
      hi'.rows = nVar nx nu ∧ hi'.cols = nx * nVar nx nu ∧ ∀ (j : Fin nx) (a b : Arg nx nu), hi'.val a.pos (nVar nx nu * j + b.pos) =
        (∑ k, L.ad e j k * H k a b) + ((match a with
          | .x r => ∑ m, L.gen r j m * J m b
          | _ => 0) + match b with
          | .x c => -∑ m, J m a * L.gen m j c
          | _ => 0) := by
  set N := nVar nx nu with hN
  have hNx : 1 + nx ≤ N := by rw [hN, nVar]; omega
  have hA : ∀ k : Fin nx, ∃ C, spMul (reordered L k) s.ji = some C ∧ C.rows = nx ∧ C.cols = N ∧ ∀ i j, i < nx → j < N → C.val i j =
      ∑ m ∈ Finset.range nx, (reordered L k).val i m * s.ji.val m j := by
    intro k
    obtain ⟨C, h1, h2, h3, h4⟩ := spMul_spec (reordered L k) s.ji hs.ji_rows.symm
    rw [hs.ji_cols] at h3 h4
    exact ⟨C, h1, h2, h3, h4⟩
  have hB : ∀ k : Fin nx, ∃ C, spMul (Sp.transpose s.ji) (reordered L k) = some C ∧ C.rows = N ∧ C.cols = nx ∧ ∀ i j, i < N → j < nx → C.val i j =
      ∑ m ∈ Finset.range nx, s.ji.val m i * (reordered L k).val m j := by
    intro k
    obtain ⟨C, h1, h2, h3, h4⟩ := spMul_spec (Sp.transpose s.ji) (reordered L k) hs.ji_rows
    have e1 : (Sp.transpose s.ji).rows = N := hs.ji_cols
    have e2 : (Sp.transpose s.ji).cols = nx := hs.ji_rows
    rw [e1] at h2 h4
    rw [e2] at h4
    exact ⟨C, h1, h2, h3, h4⟩
  choose A a1 a2 a3 a4 using hA
  choose B b1 b2 b3 b4 using hB
  have hbl : hiBlocks nu L (ofMat (L.ad e)) s.hi s.ji = some (((ofMat (L.ad e)).entries.map fun en =>
      (⟨0, en.1 * N, s.hi.middleCols (en.2.1 * N) N, en.2.2, false⟩ : Blk F)) ++
      ((List.finRange nx).map fun k : Fin nx => [(⟨1, k * N, A k, 1, false⟩ : Blk F), ⟨0, k * N + 1, B k, -1, false⟩]).flatten) := by
    unfold hiBlocks
    simp only [a1, b1]
    rw [mapM_some']
    rfl
  obtain ⟨hi', h1, h2, h3⟩ := blockAdds_spec (((ofMat (L.ad e)).entries.map fun en =>
      (⟨0, en.1 * N, s.hi.middleCols (en.2.1 * N) N, en.2.2, false⟩ : Blk F)) ++
      ((List.finRange nx).map fun k : Fin nx => [(⟨1, k * N, A k, 1, false⟩ : Blk F), ⟨0, k * N + 1, B k, -1, false⟩]).flatten)
      (Sp.empty s.hiTmp.rows s.hiTmp.cols) (by
    intro b hb
    change b.row0 + b.src.rows ≤ s.hiTmp.rows ∧ b.col0 + b.src.cols ≤ s.hiTmp.cols
    rw [hs.hiTmp_rows, hs.hiTmp_cols]
    rcases List.mem_append.1 hb with hb | hb
    · obtain ⟨⟨r, c, v⟩, hen, rfl⟩ := List.mem_map.1 hb
      have h := ((mem_entries _ r c v).1 hen).1
      change r < nx at h
      have := mul_succ_le (N := N) h
      rw [mul_comm] at this
      refine ⟨?_, ?_⟩
      · change 0 + s.hi.rows ≤ _
        rw [hs.hi_rows]; omega
      · change r * N + N ≤ nx * N
        rw [mul_comm nx]; exact this
    · obtain ⟨l, hl, hb⟩ := List.mem_flatten.1 hb
      obtain ⟨k, -, rfl⟩ := List.mem_map.1 hl
      have := mul_succ_le (N := N) k.2
      rw [mul_comm, mul_comm N nx] at this
      rcases List.mem_cons.1 hb with rfl | hb
      · dsimp only
        rw [a2, a3]
        exact ⟨hNx, this⟩
      · rw [List.mem_singleton.1 hb]
        dsimp only
        rw [b2, b3]
        change 0 + N ≤ N ∧ k * N + 1 + nx ≤ nx * N
        exact ⟨by omega, by omega⟩)
  refine ⟨_, hi', hbl, h1, h2.1.trans hs.hiTmp_rows, h2.2.1.trans hs.hiTmp_cols, fun j a b => ?_⟩
  have hbp : b.pos < N := (argLayout nx nu).lt b
  have hap : a.pos < N := (argLayout nx nu).lt a
  rw [h3, empty_val, zero_add, List.map_append, List.sum_append, List.map_map]
  refine congrArg₂ (fun x y : F => x + y) ?_ ?_
  · rw [show ((fun b_1 : Blk F => b_1.contrib a.pos (N * j + b.pos)) ∘ fun en : ℕ × ℕ × F => (⟨0, en.1 * N, s.hi.middleCols (en.2.1 * N) N, en.2.2, false⟩ : Blk F)) =
      fun en => (fun r c v => Blk.contrib (⟨0, r * N, s.hi.middleCols (c * N) N, v, false⟩ : Blk F) a.pos (N * j + b.pos)) en.1 en.2.1 en.2.2 from rfl]
    rw [sum_entries _ (fun r c v => Blk.contrib (⟨0, r * N, s.hi.middleCols (c * N) N, v, false⟩ : Blk F) a.pos (N * j + b.pos)) (by
      intro r c
      unfold Blk.contrib
      dsimp only
      rw [zero_mul, ite_self])]
    change ∑ r ∈ Finset.range nx, ∑ c ∈ Finset.range nx, _ = _
    rw [Finset.sum_eq_single (j : ℕ)]
    · rw [Finset.sum_range]
      refine Finset.sum_congr rfl fun k _ => ?_
      unfold Blk.contrib
      dsimp only
      rw [if_pos, ofMat_val]
      · have e1 : N * (j : ℕ) + b.pos - j * N = b.pos := by rw [mul_comm]; omega
        rw [e1]
        unfold Sp.middleCols
        rw [block_val, if_pos ⟨by rw [hs.hi_rows]; omega, hbp⟩, Nat.zero_add, mul_comm (k : ℕ) N]
        exact congrArg _ (hs.hi k a b)
      · refine ⟨⟨⟨Nat.zero_le _, ?_⟩, ?_, ?_⟩, by simp⟩
        · change a.pos < 0 + s.hi.rows
          rw [hs.hi_rows]; omega
        · rw [mul_comm]; omega
        · change _ < _ + N
          rw [mul_comm]; omega
    · intro r _ hr
      refine Finset.sum_eq_zero fun c _ => ?_
      unfold Blk.contrib
      dsimp only
      rw [if_neg]
      rintro ⟨⟨-, h5, h6⟩, -⟩
      exact hr (block_eq' hbp h5 h6)
    · intro hj
      exact absurd (Finset.mem_range.2 j.2) hj
  · have hsum : (((List.finRange nx).map fun k : Fin nx => [(⟨1, k * N, A k, 1, false⟩ : Blk F), ⟨0, k * N + 1, B k, -1, false⟩]).flatten.map
        fun b_1 => b_1.contrib a.pos (N * j + b.pos)).sum = ∑ k : Fin nx, (Blk.contrib (⟨1, k * N, A k, 1, false⟩ : Blk F) a.pos (N * j + b.pos) +
          Blk.contrib (⟨0, k * N + 1, B k, -1, false⟩ : Blk F) a.pos (N * j + b.pos)) := by
      rw [List.map_flatten, List.sum_flatten, List.map_map, List.map_map, Fin.sum_univ_def]
      congr 1
      refine List.map_congr_left fun k _ => ?_
      simp
    rw [hsum, Finset.sum_add_distrib]
    refine congrArg₂ (fun x y : F => x + y) ?_ ?_
    · rw [Finset.sum_eq_single j]
      · unfold Blk.contrib
        dsimp only
        have e1 : N * (j : ℕ) + b.pos - j * N = b.pos := by rw [mul_comm]; omega
        cases a with
        | t =>
          rw [if_neg]
          rintro ⟨⟨⟨h5, -⟩, -⟩, -⟩
          simp [Arg.pos] at h5
        | u k =>
          rw [if_neg]
          rintro ⟨⟨⟨-, h5⟩, -⟩, -⟩
          rw [a2] at h5
          simp only [Arg.pos] at h5
          omega
        | x r =>
          rw [if_pos, e1, one_mul]
          · have e2 : (Arg.x r : Arg nx nu).pos - 1 = r := by simp only [Arg.pos]; omega
            rw [e2, a4 j r b.pos r.2 hbp, Finset.sum_range]
            refine Finset.sum_congr rfl fun m _ => ?_
            rw [hs.ji, reordered_val]
          · have := r.2
            refine ⟨⟨⟨?_, ?_⟩, ?_, ?_⟩, by simp⟩
            · simp only [Arg.pos]; omega
            · rw [a2]; simp only [Arg.pos]; omega
            · rw [mul_comm]; omega
            · rw [a3, mul_comm]; omega
      · intro k _ hk
        unfold Blk.contrib
        dsimp only
        rw [if_neg]
        rintro ⟨⟨-, h5, h6⟩, -⟩
        rw [a3] at h6
        exact hk (Fin.ext (block_eq' hbp h5 h6))
      · intro hj
        exact absurd (Finset.mem_univ _) hj
    · rw [Finset.sum_eq_single j]
      · unfold Blk.contrib
        dsimp only
        cases b with
        | t =>
          rw [if_neg]
          rintro ⟨⟨-, h5, -⟩, -⟩
          simp only [Arg.pos] at h5
          rw [mul_comm] at h5
          omega
        | u k =>
          rw [if_neg]
          rintro ⟨⟨-, -, h5⟩, -⟩
          rw [b3] at h5
          simp only [Arg.pos] at h5
          rw [mul_comm] at h5
          omega
        | x c =>
          have := c.2
          rw [if_pos]
          · have e2 : N * (j : ℕ) + (Arg.x c : Arg nx nu).pos - (j * N + 1) = c := by rw [mul_comm]; simp only [Arg.pos]; omega
            rw [e2, b4 j (a.pos - 0) c (by omega) c.2, Finset.sum_range, neg_one_mul]
            refine congrArg (fun x : F => -x) (Finset.sum_congr rfl fun m _ => ?_)
            rw [Nat.sub_zero, hs.ji, reordered_val]
          · refine ⟨⟨⟨Nat.zero_le _, ?_⟩, ?_, ?_⟩, by simp⟩
            · rw [b2]; omega
            · rw [mul_comm]; simp only [Arg.pos]; omega
            · rw [b3, mul_comm]; simp only [Arg.pos]; omega
      · intro k _ hk
        unfold Blk.contrib
        dsimp only
        rw [if_neg]
        rintro ⟨⟨-, h5, h6⟩, -⟩
        rw [b3] at h6
        exact hk (Fin.ext (block_eq' hbp (by omega) (by omega)))
      · intro hj
        exact absurd (Finset.mem_univ _) hj

/-- One pass. -/
theorem hessStep_spec [DecidableEq F] (L : LieOps X F nx) (e : Fin nx → F) (iter : ℕ) (bn : F) {s : HessSt F nx} {V : Fin nx → F} {J : Fin nx → Arg nx nu → F}
    {H S : Fin nx → Arg nx nu → Arg nx nu → F} (hs : s.Is nu V J H S) :
    ∃ s', hessStep nu L e iter bn s = some s' ∧ s'.coef = s.coef * (-1 / (iter + 1 : ℕ)) ∧
      s'.Is nu (L.ad e *ᵥ V) (fun j a => (∑ k, L.ad e j k * J k a) + match a with
        | .x c => -L.ad V j c
        | _ => 0) (fun j a b => (∑ k, L.ad e j k * H k a b) + ((match a with
          | .x r => ∑ m, L.gen r j m * J m b
          | _ => 0) + match b with
          | .x c => -∑ m, J m a * L.gen m j c
          | _ => 0)) fun j a b => S j a b + bn * s.coef * H j a b := by
  have hH : ∃ H', (if bn ≠ 0 then blockAdd s.H 0 0 s.hi (bn * s.coef) else some s.H) = some H' ∧ H'.rows = nVar nx nu ∧ H'.cols = nx * nVar nx nu ∧
      ∀ (j : Fin nx) (a b : Arg nx nu), H'.val a.pos (nVar nx nu * j + b.pos) = S j a b + bn * s.coef * H j a b := by
    by_cases hb : bn ≠ 0
    · rw [if_pos hb]
      obtain ⟨H', h1, h2, h3⟩ := blockAdd_spec s.H 0 0 s.hi (bn * s.coef) false (by rw [hs.hi_rows, hs.H_rows]; omega) (by rw [hs.hi_cols, hs.H_cols]; omega)
      refine ⟨H', h1, h2.1.trans hs.H_rows, h2.2.1.trans hs.H_cols, fun j a b => ?_⟩
      rw [h3, hs.H, if_pos, Nat.sub_zero, Nat.sub_zero, hs.hi]
      have := mul_succ_le (N := nVar nx nu) j.2
      have h5 : b.pos < nVar nx nu := (argLayout nx nu).lt b
      have h6 : a.pos < nVar nx nu := (argLayout nx nu).lt a
      refine ⟨⟨⟨Nat.zero_le _, ?_⟩, Nat.zero_le _, ?_⟩, by simp⟩
      · rw [hs.hi_rows]; omega
      · rw [hs.hi_cols, mul_comm nx]; omega
    · rw [if_neg hb]
      refine ⟨s.H, rfl, hs.H_rows, hs.H_cols, fun j a b => ?_⟩
      rw [hs.H, not_not.1 hb, zero_mul, zero_mul, add_zero]
  obtain ⟨H', h1, h2, h3, h4⟩ := hH
  obtain ⟨bl, hi', k1, k2, k3, k4, k5⟩ := hiBlocks_spec L e hs
  obtain ⟨j1, l1, l2, l3, l4⟩ := spMul_spec (ofMat (L.ad e)) s.ji hs.ji_rows.symm
  obtain ⟨ji', m1, m2, m3⟩ := blockAdd_spec j1 0 1 (ofMat (L.ad s.vi)) (-1) false (by rw [l2]; exact (Nat.zero_add _).le) (by
    rw [l3, hs.ji_cols]; change 1 + nx ≤ nVar nx nu; unfold nVar; omega)
  refine ⟨⟨H', hi', ji', s.hi, s.ji, L.ad e *ᵥ s.vi, s.coef * (-1 / (iter + 1 : ℕ))⟩, ?_, rfl, ?_⟩
  · unfold hessStep
    simp only [h1, k1, k2, l1, m1]
  · refine ⟨h2, h3, k3, k4, hs.hi_rows, hs.hi_cols, m2.1.trans l2, (m2.2.1.trans l3).trans hs.ji_cols, by rw [hs.vi], fun j a => ?_, k5, h4⟩
    have hap : a.pos < nVar nx nu := (argLayout nx nu).lt a
    change ji'.val j a.pos = _
    rw [m3, l4 j a.pos j.2 (by rw [hs.ji_cols]; exact hap)]
    refine congrArg₂ (fun x y : F => x + y) ?_ ?_
    · change ∑ k ∈ Finset.range nx, _ = _
      rw [Finset.sum_range]
      refine Finset.sum_congr rfl fun k _ => ?_
      rw [ofMat_val, hs.ji]
    · cases a with
      | t =>
        rw [if_neg]
        rintro ⟨⟨-, h5, -⟩, -⟩
        simp [Arg.pos] at h5
      | u k =>
        rw [if_neg]
        rintro ⟨⟨-, -, h5⟩, -⟩
        change _ < 1 + nx at h5
        simp only [Arg.pos] at h5
        omega
      | x c =>
        have := c.2
        rw [if_pos]
        · have e1 : (Arg.x c : Arg nx nu).pos - 1 = c := by simp only [Arg.pos]; omega
          rw [e1, Nat.sub_zero, ofMat_val, hs.vi, neg_one_mul]
        · refine ⟨⟨⟨Nat.zero_le _, ?_⟩, ?_, ?_⟩, by simp⟩
          · change (j : ℕ) < 0 + nx
            have := j.2; omega
          · simp only [Arg.pos]; omega
          · change _ < 1 + nx
            simp only [Arg.pos]; omega

/-- The loop. -/
theorem hessLoop_spec [DecidableEq F] (L : LieOps X F nx) (e w : Fin nx → F) (J : Fin nx → Arg nx nu → F) (H : Fin nx → Arg nx nu → Arg nx nu → F)
    (l : List F) (n : ℕ) {S : Fin nx → Arg nx nu → Arg nx nu → F} {s : HessSt F nx}
    (hs : s.Is nu (itV L e w n) (itJ L e w J n) (itH L e w J H n) S) (hc : s.coef = (-1) ^ n / (n.factorial : F)) :
    ∃ s', hessLoop nu L e n l s = some s' ∧ s'.Is nu (itV L e w (n + l.length)) (itJ L e w J (n + l.length)) (itH L e w J H (n + l.length))
      fun j a b => S j a b + ∑ i ∈ Finset.range l.length, l.getD i 0 * ((-1) ^ (n + i) / ((n + i).factorial : F)) * itH L e w J H (n + i) j a b := by
  induction l generalizing n S s with
  | nil => exact ⟨s, rfl, by simpa using hs⟩
  | cons bn l ih =>
    obtain ⟨s1, h1, h2, h3⟩ := hessStep_spec L e n bn hs
    have hc1 : s1.coef = (-1) ^ (n + 1) / ((n + 1).factorial : F) := by
      rw [h2, hc, Nat.factorial_succ, pow_succ]
      push_cast
      rw [div_mul_div_comm, mul_comm (n.factorial : F)]
    obtain ⟨s', k1, k2⟩ := ih (n + 1) (s := s1) (S := fun j a b => S j a b + bn * s.coef * itH L e w J H n j a b) h3 hc1
    refine ⟨s', ?_, ?_⟩
    · rw [hessLoop, h1]
      exact k1
    · rw [List.length_cons, show n + (l.length + 1) = n + 1 + l.length by omega]
      have e1 : (fun j a b => S j a b + ∑ i ∈ Finset.range (l.length + 1), (bn :: l).getD i 0 * ((-1) ^ (n + i) / ((n + i).factorial : F)) *
            itH L e w J H (n + i) j a b) =
          fun j a b => S j a b + bn * s.coef * itH L e w J H n j a b + ∑ i ∈ Finset.range l.length, l.getD i 0 *
            ((-1) ^ (n + 1 + i) / ((n + 1 + i).factorial : F)) * itH L e w J H (n + 1 + i) j a b := by
        funext j a b
        rw [Finset.sum_range_succ', add_assoc (S j a b)]
        congr 1
        rw [add_comm]
        refine congrArg₂ (fun x y : F => x + y) ?_ (Finset.sum_congr rfl fun i _ => ?_)
        · rw [hc]; rfl
        · rw [show n + (i + 1) = n + 1 + i by omega]
          rfl
      rw [e1]
      exact k2

/-- The entries of the Hessian of the flattened dynamics. -/
def dynH (f : GFn X U F nx) (xl : Traj X F nx) (ul : Traj U F nu) (t : F) (e : Fin nx → F) (v : Fin nu → F) (j : Fin nx) (a b : Arg nx nu) : F :=
  ∑ n ∈ Finset.range 23, (kBn : List F).getD n 0 * ((-1) ^ n / (n.factorial : F)) *
    itH LX e (innerVal LX LU f xl ul t e v - xl.d t) (innerJ LX LU f xl ul t e v) (innerH LX LU f xl ul t e v) n j a b

theorem dynHess_spec [DecidableEq F] {f : GFn X U F nx} (hf : f.Shape nx nu) (xl : Traj X F nx) (ul : Traj U F nu) (t : F) (e : Fin nx → F) (v : Fin nu → F) {o : DynObj F}
    (ho : o.Ok nx nu) : ∃ o', dynHess LX LU f xl ul t e v o = some o' ∧ o'.Ok nx nu ∧
      ∀ (j : Fin nx) a b, o'.H.val (Arg.pos a) (nVar nx nu * j + Arg.pos b) = dynH LX LU f xl ul t e v j a b := by
  obtain ⟨jop, h1, h2, h3⟩ := joplus_spec LX LU e v (xl.d t) (ul.d t) o.jop ho.jop
  obtain ⟨hop, k1, k2, k3⟩ := hoplus_spec LX LU e v (xl.d t) (ul.d t) o.hop ho.hop
  obtain ⟨ji, j1, j2, j3, j4⟩ := jac_product (argLayout nx nu) (f.jac t (LX.rplus (xl.val t) e) (LU.rplus (ul.val t) v)) jop (hf.jac_rows _ _ _)
    (hf.jac_cols _ _ _) h2.1 h2.2.1
  obtain ⟨hi, i1, i2, i3, i4⟩ := hess_product (argLayout nx nu) o.hi (f.jac t (LX.rplus (xl.val t) e) (LU.rplus (ul.val t) v))
    (f.hess t (LX.rplus (xl.val t) e) (LU.rplus (ul.val t) v)) jop hop (hf.jac_rows _ _ _)
    (hf.jac_cols _ _ _) h2.1 h2.2.1 (hf.hess_rows _ _ _) (hf.hess_cols _ _ _) k2.1 k2.2.1 ho.hi_rows ho.hi_cols
  have e1 : ∀ k a : Arg nx nu, jop.val ((argLayout nx nu).pos k) ((argLayout nx nu).pos a) = jopT LX LU e v (xl.d t) (ul.d t) k a := h3
  have e2 : ∀ k a b : Arg nx nu, hop.val ((argLayout nx nu).pos a) (nVar nx nu * (argLayout nx nu).pos k + (argLayout nx nu).pos b) =
    hopT LX LU e v (xl.d t) (ul.d t) k a b := k3
  simp only [e1, e2] at j4 i4
  have hs : (⟨setZero o.H, hi, ji, o.hiTmp, o.jiTmp, f.val t (LX.rplus (xl.val t) e) (LU.rplus (ul.val t) v) - xl.d t, 1⟩ : HessSt F nx).Is nu
      (itV LX e (innerVal LX LU f xl ul t e v - xl.d t) 0) (itJ LX e (innerVal LX LU f xl ul t e v - xl.d t) (innerJ LX LU f xl ul t e v) 0)
      (itH LX e (innerVal LX LU f xl ul t e v - xl.d t) (innerJ LX LU f xl ul t e v) (innerH LX LU f xl ul t e v) 0) fun _ _ _ => 0 :=
    ⟨ho.H_rows, ho.H_cols, i2, i3, ho.hiTmp_rows, ho.hiTmp_cols, j2, j3, rfl, j4, i4, fun _ _ _ => setZero_val _ _ _⟩
  obtain ⟨s, l1, l2⟩ := hessLoop_spec LX e _ _ _ kBn 0 hs (by simp)
  refine ⟨⟨jop, hop, o.J, s.H, s.ji, s.hi, s.jiTmp, s.hiTmp⟩, ?_, ⟨h2, k2, l2.H_rows, l2.H_cols, l2.hi_rows, l2.hi_cols, l2.hiTmp_rows, l2.hiTmp_cols⟩,
    fun j a b => ?_⟩
  · unfold dynHess
    simp only [h1, k1, j1, i1, l1]
  · refine (l2.H j a b).trans ?_
    rw [zero_add, dynH]
    refine Finset.sum_congr rfl fun n _ => ?_
    rw [Nat.zero_add]

/-- The functions of a new object. -/
theorem flatDyn_spec [DecidableEq F] {f : GFn X U F nx} (hf : f.Shape nx nu) (xl : Traj X F nx) (ul : Traj U F nu) (p : Arg nx nu → F) :
    (((flatDyn LX LU f xl ul).jac p).rows = nx ∧ ((flatDyn LX LU f xl ul).jac p).cols = nVar nx nu ∧
      ((flatDyn LX LU f xl ul).hess p).rows = nVar nx nu ∧ ((flatDyn LX LU f xl ul).hess p).cols = nx * nVar nx nu) ∧
    (∀ (j : Fin nx) (a : Arg nx nu), ((flatDyn LX LU f xl ul).jac p).val j a.pos = dynJ LX LU f xl ul (p .t) (fun k => p (.x k)) (fun k => p (.u k)) j a) ∧
    ∀ (j : Fin nx) (a b : Arg nx nu), ((flatDyn LX LU f xl ul).hess p).val a.pos (nVar nx nu * j + b.pos) =
      dynH LX LU f xl ul (p .t) (fun k => p (.x k)) (fun k => p (.u k)) j a b := by
  obtain ⟨o, h1, h2, h3, h4, h5⟩ := dynJac_spec LX LU hf xl ul (p .t) (fun k => p (.x k)) (fun k => p (.u k)) (DynObj.init_ok (nx := nx) (nu := nu))
  obtain ⟨o', k1, k2, k3⟩ := dynHess_spec LX LU hf xl ul (p .t) (fun k => p (.x k)) (fun k => p (.u k)) (DynObj.init_ok (nx := nx) (nu := nu))
  have e1 : (flatDyn LX LU f xl ul).jac p = o.J := by simp only [flatDyn, h1]; rfl
  have e2 : (flatDyn LX LU f xl ul).hess p = o'.H := by simp only [flatDyn, k1]; rfl
  rw [e1, e2]
  exact ⟨⟨h3, h4, k2.H_rows, k2.H_cols⟩, h5, k3⟩

end Verif.Flatten
