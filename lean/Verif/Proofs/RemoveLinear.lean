import Verif.Model.RemoveLinear
import Verif.Props.BlockCopy
import Verif.Props.Parallelepiped
import Verif.Proofs.PolyClean

/-!
# Helper lemmas: elimination of linear polynomials
-/

namespace YRoots.Legacy

open Finset

variable {n : ℕ}

/-- All terms have total degree at most `d`. -/
def TotalDegreeLE (f : Tensor n ℝ) (d : ℕ) : Prop := ∀ k ∈ f.idx, d < ∑ i, k i → f.coef k = 0

/-- `T` is affine. -/
def AffineMap' {m : ℕ} (T : (Fin n → ℝ) → Fin m → ℝ) : Prop :=
  ∃ (A : Fin m → Fin n → ℝ) (v : Fin m → ℝ), ∀ x i, T x i = ∑ k, A i k * x k + v i

theorem projT_affine (L : ProjLib n ℝ) (M : Tensor (n + 1) ℝ) : AffineMap' (projT L M) :=
  ⟨fun i k => (boundingParallelepiped L M).2 i k / 2, fun i => (boundingParallelepiped L M).1 i + (∑ k, (boundingParallelepiped L M).2 i k) / n,
    fun _ _ => rfl⟩

/-- A polynomial of total degree at most `d`, composed with an affine map, has degree at most `d` in each variable. -/
theorem comp_polyAlong {m : ℕ} {f : Tensor m ℝ} {d : ℕ} (hf : TotalDegreeLE f d) {T : (Fin n → ℝ) → Fin m → ℝ} (hT : AffineMap' T) (i : Fin n) :
    PolyAlong i d fun x => f.eval (T x) := by
  obtain ⟨A, v, hT⟩ := hT
  intro x
  set u : Fin m → ℝ := fun l => ∑ k ∈ univ.erase i, A l k * x k + v l with hu
  have hTu : ∀ t l, T (Function.update x i t) l = A l i * t + u l := by
    intro t l
    rw [hT, hu, ← add_sum_erase univ _ (mem_univ i), Function.update_self]
    dsimp only
    rw [sum_congr rfl fun k hk => by rw [Function.update_of_ne (ne_of_mem_erase hk)]]
    ring
  refine ⟨∑ k ∈ f.idx, Polynomial.C (f.coef k) *
    ∏ l, (Polynomial.Chebyshev.T ℝ (k l)).comp (Polynomial.C (A l i) * Polynomial.X + Polynomial.C (u l)), ?_, fun t => ?_⟩
  · refine Polynomial.natDegree_sum_le_of_forall_le _ _ fun k hk => ?_
    by_cases hd : d < ∑ l, k l
    · rw [hf k hk hd]; simp
    · refine (Polynomial.natDegree_C_mul_le _ _).trans ((Polynomial.natDegree_prod_le _ _).trans ((sum_le_sum fun l _ => ?_).trans (not_lt.1 hd)))
      refine Polynomial.natDegree_comp_le.trans ?_
      calc _ ≤ (Polynomial.Chebyshev.T ℝ (k l)).natDegree * 1 := Nat.mul_le_mul_left _ Polynomial.natDegree_linear_le
        _ ≤ k l := by
          rw [mul_one, Polynomial.Chebyshev.natDegree_T]
          simp
  · simp only [Tensor.eval, Polynomial.eval_finset_sum, Polynomial.eval_mul, Polynomial.eval_C, Polynomial.eval_prod, Polynomial.eval_comp,
      Polynomial.eval_add, Polynomial.eval_X, hTu]
    rfl

/-- With the shared array large enough (or too small), what `proj_approximate_nd` returns is the composition. -/
theorem projApproximate_exact (env : RemoveEnv) {m : ℕ} (hn : 1 ≤ n) (f : Tensor m ℝ) {T : (Fin n → ℝ) → Fin m → ℝ} (hT : AffineMap' T) {d : ℕ}
    (hdeg : env.degree f = .ok d) (hd : 1 ≤ d) (hf : TotalDegreeLE f d) (hS : (env.arr n).size < d + 1 ∨ 2 * d ≤ (env.arr n).size) :
    ∃ q : Tensor n ℝ, projApproximate env f T = .ok q ∧ q.shape = (fun _ => d + 1) ∧ ∀ x, q.eval x = f.eval (T x) := by
  set F : MakerFn n := ⟨fun x => f.eval (T x), fun _ => -1, fun _ => 1, false⟩ with hF
  have hpt : ∀ y : Fin n → ℝ, transformPt y F.a F.b = y := fun y => by
    funext i
    simp only [transformPt, hF]
    ring
  have hgrid : ∀ j : Fin n → ℕ, gridPt (fun _ => d) F.a F.b j = fun i => chebPt d (j i) := fun j => hpt _
  have hsh : projApproximate env f T = .ok (sharedApprox (env.garbage n) F d (env.arr n)).1.1 := by
    unfold projApproximate sharedApprox
    rw [hdeg]
    simp only [hgrid]
    rfl
  have he := sharedApprox_eq hd (env.garbage n) F (env.arr n) (C73_copy_partial hn hd _ _ _ hS)
  refine ⟨_, hsh, by rw [he]; rfl, fun x => ?_⟩
  rw [he]
  have hN : ∀ i : Fin n, 1 ≤ (fun _ : Fin n => d) i := fun _ => hd
  have h1 := fullCoef_exact (fun _ : Fin n => d) hN (fun x => f.eval (T x)) univ (fun i _ => comp_polyAlong hf hT i) x (by simp)
  have hcoef : ∀ k, (interp F fun _ => d).coef k = fullCoef (fun _ => d) (fun j => f.eval (T fun i => chebPt d (j i))) k := fun k => by
    unfold interp intervalApproximate fullCoef
    simp only [bumpDegs_eq hN, hgrid]
    rfl
  rw [h1, Tensor.eval]
  exact sum_congr rfl fun k _ => by rw [hcoef]

theorem cleanCoeff_eval (M : Tensor n ℝ) (x : Fin n → ℝ) : (cleanCoeff M).eval x = M.eval x :=
  (cleanCoeff_cleaned M).evalG fun i k => chebT k (x i)

/-- `mapM` with results that all exist. -/
theorem mapM_ok {α β ε : Type*} (g : α → Except ε β) (R : α → β → Prop) (l : List α) (h : ∀ a ∈ l, ∃ b, g a = .ok b ∧ R a b) :
    ∃ bs, l.mapM g = .ok bs ∧ List.Forall₂ R l bs := by
  induction l with
  | nil => exact ⟨[], rfl, .nil⟩
  | cons a l ih =>
    obtain ⟨b, hb, hR⟩ := h a List.mem_cons_self
    obtain ⟨bs, hbs, hRs⟩ := ih fun a ha => h a (List.mem_cons_of_mem _ ha)
    refine ⟨b :: bs, ?_, .cons hR hRs⟩
    rw [List.mapM_cons, hb, hbs]
    rfl

theorem mapM_error {α β ε : Type*} (g : α → Except ε β) (e : ε) (a : α) (l : List α) (h : g a = .error e) : (a :: l).mapM g = .error e := by
  rw [List.mapM_cons, h]
  rfl

end YRoots.Legacy
