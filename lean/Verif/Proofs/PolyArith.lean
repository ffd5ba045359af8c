import Verif.Model.Polynomial
import Verif.Proofs.TransformND
import Verif.Proofs.Trim

/-!
# Values of coefficient arrays in any product basis; cleaning, padding, arithmetic, conversion
-/

set_option linter.unusedSectionVars false
set_option linter.unusedVariables false
set_option linter.unusedSimpArgs false

open Finset

namespace YRoots

variable {n : ℕ} {K : Type*}

section CommRing
variable [CommRing K]

/-- `∑ coefficient × product of weights`. -/
def Tensor.evalG (M : Tensor n K) (w : Fin n → ℕ → K) : K := ∑ k ∈ M.idx, M.coef k * ∏ i, w i (k i)

theorem eval_eq_evalG (M : Tensor n K) (x : Fin n → K) : M.eval x = M.evalG fun i j => chebT j (x i) := rfl

theorem evalPow_eq_evalG (M : Tensor n K) (x : Fin n → K) : M.evalPow x = M.evalG fun i j => x i ^ j := rfl

theorem evalG_congr (M N : Tensor n K) (w : Fin n → ℕ → K) (hs : M.shape = N.shape)
    (hc : ∀ k ∈ M.idx, M.coef k = N.coef k) : M.evalG w = N.evalG w := by
  have hi : M.idx = N.idx := by unfold Tensor.idx; rw [hs]
  unfold Tensor.evalG
  rw [← hi]
  exact Finset.sum_congr rfl fun k hk => by rw [hc k hk]

theorem evalG_axis (M : Tensor n K) (d : Fin n) (w : Fin n → ℕ → K) :
    M.evalG w = ∑ j ∈ range (M.shape d), w d j *
      ∑ k ∈ restIdx M.shape d, M.rows d j k * ∏ i ∈ univ.erase d, w i (k i) := by
  unfold Tensor.evalG Tensor.idx
  rw [sum_piFinset_axis _ d]
  apply Finset.sum_congr rfl
  intro j hj
  rw [Finset.mul_sum]
  have hset : Fintype.piFinset (Function.update (fun i => range (M.shape i)) d {0}) = restIdx M.shape d := by
    unfold restIdx; rfl
  rw [hset]
  apply Finset.sum_congr rfl
  intro k hk
  rw [← Finset.mul_prod_erase univ _ (mem_univ d)]
  simp only [Function.update_self, Tensor.rows]
  have : ∏ i ∈ univ.erase d, w i (Function.update k d j i) = ∏ i ∈ univ.erase d, w i (k i) :=
    Finset.prod_congr rfl fun i hi => by rw [Function.update_of_ne (Finset.ne_of_mem_erase hi)]
  rw [this]; ring

end CommRing

/-! ### Conversion to the Chebyshev basis -/

section ToCheb

variable [Field K]

theorem transpose_evalG (M : Tensor n K) (σ : Equiv.Perm (Fin n)) (w : Fin n → ℕ → K) :
    (M.transpose σ).evalG w = M.evalG fun j => w (σ.symm j) := by
  unfold Tensor.evalG
  rw [transpose_idx_sum]
  apply Finset.sum_congr rfl
  intro k _
  congr 1
  · simp [Tensor.transpose]
  · rw [← Equiv.prod_comp σ (fun j => w (σ.symm j) (k j))]
    simp

/-- The invariant of `get_new_As`: coefficients of `x^m`, of the right parity. -/
structure PowCoeffs (m : ℕ) (As : ℕ → K) : Prop where
  parity : ∀ i, i % 2 ≠ m % 2 → As i = 0
  top : ∀ i, m < i → As i = 0
  sum : ∀ x : K, ∑ i ∈ range (m + 1), As i * chebT i x = x ^ m

variable [CharZero K]

theorem x_mul_chebT (x : K) (i : ℕ) : x * chebT (i + 1) x = (chebT (i + 2) x + chebT i x) / 2 := by
  rw [chebT_add_two]; ring

/-- `get_new_As` in closed form. -/
theorem getNewAs_eq {m : ℕ} {As : ℕ → K} (h : PowCoeffs m As) :
    getNewAs (m + 1) As = fun i => if i = 0 then As 1 / 2 else if i = 1 then As 0 + As 2 / 2 else
      (As (i - 1) + As (i + 1)) / 2 := by
  funext i
  have hz : ∀ j, j % 2 ≠ m % 2 → As j = 0 := h.parity
  have ht : ∀ j, m < j → As j = 0 := h.top
  unfold getNewAs
  rw [if_neg (by omega)]
  by_cases h0 : m = 0
  · subst h0
    simp only [zero_add, if_true]
    rcases i with _ | _ | i
    · simp [ht 1 (by omega)]
    · simp [ht 2 (by omega)]
    · simp [ht (i + 1) (by omega), ht (i + 3) (by omega), Function.update_of_ne]
  rw [if_neg (by omega)]
  by_cases h1 : m = 1
  · subst h1
    simp only [show (1 + 1) % 2 = 0 from rfl, if_true]
    rcases i with _ | _ | _ | i
    · simp [Function.update_of_ne]
    · simp [ht 2 (by omega), Function.update_of_ne]
    · simp [ht 3 (by omega), Function.update_of_ne]
    · simp [ht (i + 2) (by omega), ht (i + 4) (by omega), Function.update_of_ne]
  have a0 := hz 0
  have a1 := hz 1
  have a2 := hz 2
  have a3 := hz (i - 1)
  have a4 := hz (i + 1)
  have a5 := hz m
  have b3 := ht (i - 1)
  have b4 := ht (i + 1)
  simp only [if_neg (show ¬ m + 1 = 2 by omega), Nat.add_sub_cancel]
  have hm : 2 ≤ m := by omega
  split_ifs
  all_goals try (exfalso; omega)
  all_goals simp only [Function.update_apply]
  all_goals split_ifs
  all_goals try (exfalso; omega)
  all_goals try rfl
  all_goals subst_vars
  all_goals try simp only [Nat.add_sub_cancel]
  all_goals first
    | (rw [a1 (by omega)]; simp; done)
    | (rw [ht (m + 1 + 1) (by omega)]; simp; done)
    | (rw [a0 (by omega), a2 (by omega)]; simp; done)
    | (by_cases hpp : (i + 1) % 2 = m % 2
       · rw [b3 (by omega), b4 (by omega)]; simp
       · rw [a3 (by omega), a4 (by omega)]; simp)

theorem newAs_sum (As : ℕ → K) (x : K) (M : ℕ) :
    ∑ i ∈ range (M + 2), (if i = 0 then As 1 / 2 else if i = 1 then As 0 + As 2 / 2 else
      (As (i - 1) + As (i + 1)) / 2) * chebT i x =
    x * ∑ i ∈ range (M + 1), As i * chebT i x + As (M + 1) * chebT M x / 2 + As (M + 2) * chebT (M + 1) x / 2 := by
  induction M with
  | zero => simp [Finset.sum_range_succ]; ring
  | succ M ih =>
    rw [Finset.sum_range_succ, ih, Finset.sum_range_succ _ (M + 1)]
    have h := x_mul_chebT x M
    simp only [show ¬ M + 2 = 0 by omega, show ¬ M + 2 = 1 by omega, if_false, show M + 2 - 1 = M + 1 by omega,
      show M + 1 + 1 = M + 2 by ring, show M + 1 + 2 = M + 3 by ring, show M + 2 + 1 = M + 3 by ring]
    linear_combination (-As (M + 1)) * h

theorem PowCoeffs.zero : PowCoeffs 0 (getNewAs (K := K) 0 fun _ => 0) := by
  unfold getNewAs
  simp only [if_true]
  refine ⟨fun i hi => ?_, fun i hi => ?_, fun x => by simp⟩ <;> exact Function.update_of_ne (by omega) _ _

theorem PowCoeffs.succ {m : ℕ} {As : ℕ → K} (h : PowCoeffs m As) : PowCoeffs (m + 1) (getNewAs (m + 1) As) := by
  rw [getNewAs_eq h]
  refine ⟨fun i hi => ?_, fun i hi => ?_, fun x => ?_⟩
  · split_ifs with h0 h1
    · subst h0; rw [h.parity 1 (by omega)]; simp
    · subst h1; rw [h.parity 0 (by omega), h.parity 2 (by omega)]; simp
    · rw [h.parity (i - 1) (by omega), h.parity (i + 1) (by omega)]; simp
  · rw [if_neg (by omega), if_neg (by omega), h.top (i - 1) (by omega), h.top (i + 1) (by omega)]; simp
  · have := newAs_sum As x m
    rw [this, h.sum, h.top (m + 1) (by omega), h.top (m + 2) (by omega)]; ring

variable {V : Type*} [AddCommGroup V] [Module K V]

/-- State of the loop of `to_cheb1D` after `N` rows. -/
def toChebRun (coeffs : ℕ → V) (N : ℕ) : (ℕ → K) × (ℕ → V) :=
  (List.range N).foldl
    (fun (s : (ℕ → K) × (ℕ → V)) i =>
      let As := getNewAs i s.1
      (As, fun r => if r < i + 1 then s.2 r + As r • coeffs i else s.2 r))
    ((fun _ => 0), fun _ => 0)

theorem toChebRun_succ (coeffs : ℕ → V) (N : ℕ) : toChebRun (K := K) coeffs (N + 1) =
    (getNewAs N (toChebRun (K := K) coeffs N).1, fun r => if r < N + 1 then
      (toChebRun (K := K) coeffs N).2 r + getNewAs N (toChebRun (K := K) coeffs N).1 r • coeffs N
      else (toChebRun (K := K) coeffs N).2 r) := by
  unfold toChebRun
  rw [List.range_succ, List.foldl_append, List.foldl_cons, List.foldl_nil]

theorem toChebRun_coeffs (coeffs : ℕ → V) (N : ℕ) : PowCoeffs N (toChebRun (K := K) coeffs (N + 1)).1 := by
  induction N with
  | zero => rw [toChebRun_succ]; exact PowCoeffs.zero
  | succ N ih => rw [toChebRun_succ]; exact ih.succ

theorem toChebRun_sum (coeffs : ℕ → V) (N : ℕ) (x : K) :
    (∀ r, N ≤ r → (toChebRun (K := K) coeffs N).2 r = 0) ∧
    ∑ r ∈ range N, chebT r x • (toChebRun (K := K) coeffs N).2 r = ∑ i ∈ range N, x ^ i • coeffs i := by
  induction N with
  | zero => simp [toChebRun]
  | succ N ih =>
    have hc := toChebRun_coeffs (K := K) coeffs N
    rw [toChebRun_succ] at hc ⊢
    refine ⟨fun r hr => ?_, ?_⟩
    · dsimp only; rw [if_neg (by omega), ih.1 r (by omega)]
    · have h1 : ∀ r ∈ range (N + 1), chebT r x • (if r < N + 1 then
          (toChebRun (K := K) coeffs N).2 r + getNewAs N (toChebRun (K := K) coeffs N).1 r • coeffs N
          else (toChebRun (K := K) coeffs N).2 r) = chebT r x • (toChebRun (K := K) coeffs N).2 r +
            (getNewAs N (toChebRun (K := K) coeffs N).1 r * chebT r x) • coeffs N := by
        intro r hr
        rw [if_pos (mem_range.1 hr), smul_add, smul_smul, mul_comm]
      rw [Finset.sum_congr rfl h1, Finset.sum_add_distrib, Finset.sum_range_succ, ih.1 N le_rfl, smul_zero, add_zero,
        ih.2, ← Finset.sum_smul, hc.sum x, Finset.sum_range_succ]

theorem toCheb1D_sum (coeffs : ℕ → V) (N : ℕ) (x : K) :
    ∑ r ∈ range N, chebT r x • toCheb1D (K := K) coeffs N r = ∑ i ∈ range N, x ^ i • coeffs i :=
  (toChebRun_sum coeffs N x).2

theorem toChebND_shape (M : Tensor n K) (d : Fin n) : (toChebND M d).shape = M.shape := by
  funext i
  unfold toChebND Tensor.transpose Tensor.ofRows
  simp only
  by_cases h : (moveAxisOrder d).symm i = ⟨0, d.pos⟩
  · rw [h, Function.update_self, ← h]; simp
  · rw [Function.update_of_ne h]; simp

theorem toChebND_evalG (M : Tensor n K) (d : Fin n) (w : Fin n → ℕ → K) (x : K) :
    (toChebND M d).evalG (Function.update w d fun j => chebT j x) = M.evalG (Function.update w d fun j => x ^ j) := by
  unfold toChebND
  simp only
  set σ := moveAxisOrder d
  set z : Fin n := ⟨0, d.pos⟩
  have hσz : σ z = d := moveAxisOrder_zero d
  have hM : M.evalG (Function.update w d fun j => x ^ j) =
      (M.transpose σ).evalG (fun i => Function.update w d (fun j => x ^ j) (σ i)) := by
    rw [transpose_evalG]; simp
  rw [hM, transpose_evalG, evalG_axis _ z, evalG_axis _ z]
  simp only [Equiv.symm_symm, hσz, Function.update_self]
  have hsh : ((M.transpose σ).ofRows z (toCheb1D (K := K) ((M.transpose σ).rows z) ((M.transpose σ).shape z),
      (M.transpose σ).shape z)).shape = (M.transpose σ).shape := by
    unfold Tensor.ofRows; simp
  rw [hsh]
  set T := M.transpose σ
  let L : ((Fin n → ℕ) → K) →ₗ[K] K :=
    { toFun := fun v => ∑ k ∈ restIdx T.shape z, v k * ∏ i ∈ univ.erase z, Function.update w d (fun j => x ^ j) (σ i) (k i)
      map_add' := fun a b => by rw [← Finset.sum_add_distrib]; exact Finset.sum_congr rfl fun k _ => by simp; ring
      map_smul' := fun c a => by
        simp only [RingHom.id_apply, smul_eq_mul, Finset.mul_sum]
        exact Finset.sum_congr rfl fun k _ => by simp; ring }
  have hL := congrArg L (toCheb1D_sum (K := K) (T.rows z) (T.shape z) x)
  rw [map_sum, map_sum] at hL
  simp only [map_smul, smul_eq_mul] at hL
  rw [show (∑ j ∈ range (T.shape z), x ^ j * ∑ k ∈ restIdx T.shape z, T.rows z j k *
    ∏ i ∈ univ.erase z, Function.update w d (fun j => x ^ j) (σ i) (k i)) = ∑ j ∈ range (T.shape z), x ^ j * L (T.rows z j)
    from rfl, ← hL]
  apply Finset.sum_congr rfl
  intro j _
  congr 1
  apply Finset.sum_congr rfl
  intro k hk
  congr 1
  · unfold Tensor.rows Tensor.ofRows
    simp only [Function.update_self, Function.update_idem]
    rw [restIdx_zero hk]
  · apply Finset.prod_congr rfl
    intro i hi
    have : σ i ≠ d := fun h => Finset.ne_of_mem_erase hi (σ.injective (h.trans hσz.symm))
    rw [Function.update_of_ne this, Function.update_of_ne this]

theorem toCheb_shape (M : Tensor n K) : (toCheb M).shape = M.shape := by
  unfold toCheb
  have : ∀ (l : List (Fin n)) (M : Tensor n K), (l.foldl toChebND M).shape = M.shape := by
    intro l
    induction l with
    | nil => intro M; rfl
    | cons d l ih => intro M; rw [List.foldl_cons, ih, toChebND_shape]
  exact this _ M

theorem toCheb_eval (M : Tensor n K) (x : Fin n → K) : (toCheb M).eval x = M.evalPow x := by
  rw [eval_eq_evalG, evalPow_eq_evalG]
  have key : ∀ (l : List (Fin n)), l.Nodup → ∀ (M : Tensor n K) (w : Fin n → ℕ → K),
      (l.foldl toChebND M).evalG (fun i => if i ∈ l then fun j => chebT j (x i) else w i) =
        M.evalG (fun i => if i ∈ l then fun j => x i ^ j else w i) := by
    intro l
    induction l with
    | nil => intro _ M w; simp
    | cons d l ih =>
      intro hl M w
      rw [List.foldl_cons]
      have hd : d ∉ l := (List.nodup_cons.1 hl).1
      have e1 : (fun i => if i ∈ d :: l then fun j => chebT j (x i) else w i) =
          fun i => if i ∈ l then fun j => chebT j (x i) else Function.update w d (fun j => chebT j (x d)) i := by
        funext i
        by_cases hi : i = d
        · subst hi; simp [hd]
        · simp [hi]
      have e2 : (fun i => if i ∈ l then fun j => x i ^ j else Function.update w d (fun j => chebT j (x d)) i) =
          Function.update (fun i => if i ∈ l then fun j => x i ^ j else w i) d (fun j => chebT j (x d)) := by
        funext i
        by_cases hi : i = d
        · subst hi; simp [hd]
        · simp [hi]
      have e3 : Function.update (fun i => if i ∈ l then fun j => x i ^ j else w i) d (fun j => x d ^ j) =
          fun i => if i ∈ d :: l then fun j => x i ^ j else w i := by
        funext i
        by_cases hi : i = d
        · subst hi; simp
        · simp [hi]
      rw [e1, ih (List.nodup_cons.1 hl).2, e2, toChebND_evalG, e3]
  have h := key _ (List.nodup_finRange n) M (fun _ _ => 0)
  simp only [List.mem_finRange, if_true] at h
  exact h

end ToCheb

end YRoots
