import Verif.Proofs.Solver
import Verif.Props.Quadratic
import Verif.Props.Solver

/-!
# Properties C01, C02: the subdivision solver never loses a root

Specification: common zeros of functions `F i` that are strictly within `errors i` of the given Chebyshev series on the
cube; `Box.Mem`.  The environment is: a valid singular value decomposition, a sorting function that returns a
permutation, set iteration in increasing order, and the model of `quadratic_check` with exact linear algebra where the
solver uses it.
-/

set_option linter.unusedSectionVars false

namespace YRoots

variable {n : ℕ} {K : Type*} [Field K] [LinearOrder K] [IsStrictOrderedRing K] [FloorSemiring K]

/-- What is assumed of the external functions.  The rank test and the linear solver are only used by the n-D quadratic
check, that is, in one variable (1×1 matrices) or if the all-dimensions check was requested. -/
structure Env.OK (env : Env n K) (la : LinAlg n K) (all_dim_quadratic_check : Bool) : Prop where
  svd : env.svd.Valid
  argsort : ∀ l, (env.argsort l).Perm (List.range l.length)
  setIter : ∀ s, (env.setIter s).Pairwise (· < ·) ∧ ∀ d, d ∈ env.setIter s ↔ d ∈ s
  quad : env.quadraticCheck = YRoots.quadraticCheck n la
  linAlg : ∀ S : Finset (Fin n), S.Nonempty → n = 1 ∨ all_dim_quadratic_check = true → la.ExactOn S

/-- Soundness of `quadratic_check` in all dimensions. -/
theorem quadSound_quadraticCheck (la : LinAlg n K)
    (hla : n ≠ 2 → n ≠ 3 → ∀ S : Finset (Fin n), S.Nonempty → la.ExactOn S) : QuadSound (quadraticCheck n la) := by
  intro M e hM h f hf x hx
  match n, la, hla, M, hM, h, f, hf, x, hx with
  | 0, la, hla, M, hM, h, f, hf, x, hx => exact C20_quadND_partial la (hla (by omega) (by omega)) M e h f hf x hx
  | 1, la, hla, M, hM, h, f, hf, x, hx => exact C20_quadND_partial la (hla (by omega) (by omega)) M e h f hf x hx
  | 2, _, _, M, hM, h, f, hf, x, hx => exact C18_quad2D_partial M hM e h f hf x hx
  | 3, _, _, M, hM, h, f, hf, x, hx => exact C19_quad3D_partial M hM e h f hf x hx
  | n + 4, la, hla, M, hM, h, f, hf, x, hx =>
    exact C20_quadND_partial la (hla (by omega) (by omega)) M e h f hf x hx

theorem Env.OK.setIter_eq {env : Env n K} {la : LinAlg n K} {all : Bool} (h : env.OK la all) :
    env.setIter = fun s => s.sort (· ≤ ·) := by
  funext s
  obtain ⟨h1, h2⟩ := h.setIter s
  apply List.Perm.eq_of_pairwise (le := (· ≤ ·))
  · intro a b _ _ h1 h2; exact le_antisymm h1 h2
  · exact h1.imp fun h => h.le
  · exact (Finset.pairwise_sort s (· ≤ ·)).imp fun h => h
  · rw [List.perm_ext_iff_of_nodup (h1.imp fun h => h.ne) (s.sort_nodup (· ≤ ·))]
    intro d; rw [h2, Finset.mem_sort]

/-- The no-lost-root statement for one setting of `exact`, conditional on the transformation error claim C09 for axes of
length up to `N`. -/
theorem solver_complete (env : Env n K) (la : LinAlg n K) (exact constant_check low all : Bool)
    (henv : env.OK la all) (N : ℕ) (hT : TransformOK K n exact N) (fuel : ℕ) (Ms : Fin n → Tensor n K)
    (errors : Fin n → K) (roots : List (Fin n → K)) (boxes : List (TrackedInterval n K))
    (hM : ∀ i j, 0 < (Ms i).shape j ∧ (Ms i).shape j ≤ N)
    (h : solveChebyshevSubdivision env fuel Ms errors exact constant_check low all = .ok (roots, boxes))
    (F : Fin n → (Fin n → K) → K) (hF : ∀ i x, InCube x → |F i x - (Ms i).eval x| < errors i)
    (y : Fin n → K) (hy : InCube y) (hroot : ∀ i, F i y = 0) :
    ∃ t ∈ boxes, t.getFinalInterval.Mem y := by
  unfold solveChebyshevSubdivision at h
  simp only at h
  split at h
  · cases h
  · rename_i b hb
    cases h
    have hq : (low = true ∧ n ≤ 3) ∨ all = true → QuadSound env.quadraticCheck := by
      intro h1
      rw [henv.quad]
      refine quadSound_quadraticCheck la fun h2 h3 S hS => henv.linAlg S hS ?_
      rcases h1 with h1 | h1
      · left
        have : n ≠ 0 := by rintro rfl; obtain ⟨i, -⟩ := hS; exact i.elim0
        omega
      · exact .inr h1
    have hA : StrictApprox F Ms errors (TrackedInterval.new (Box.unit n K)).interval := by
      intro i x hx
      rw [show (TrackedInterval.new (Box.unit n K)).interval = Box.unit n K from rfl, TrackedInterval.unit_map]
      exact hF i x hx
    have hmem : (TrackedInterval.new (Box.unit n K)).interval.Mem y := fun i => abs_le.1 (hy i)
    obtain ⟨r, hr, hry⟩ := solve_complete henv.svd (fun l => henv.argsort l) henv.setIter_eq (N := N) (F := F) fuel
      ⟨exact, constant_check, low, all, 25, 0, true⟩ hq hT Ms _ errors Good.new rfl (.inl rfl) hM hA hmem hroot hb
    refine ⟨r, hr, ?_⟩
    rw [(solve_struct env fuel _ Ms _ errors Good.new hb r hr).good.tracks.final.1]
    exact hry

/-- (A run meeting the hypotheses of C01 and C02 is in `Verif.Props.NoLostRootExample`.)

**C01**: with `exact=True`, every common zero in the closed cube of functions strictly within the errors lies in a
returned bounding box, for every run that returns.  `_partial` only in that axes have at most `10^16` entries. -/
theorem C01_no_lost_root_partial (env : Env n K) (la : LinAlg n K) (constant_check low all : Bool)
    (henv : env.OK la all) (fuel : ℕ) (Ms : Fin n → Tensor n K)
    (errors : Fin n → K) (roots : List (Fin n → K)) (boxes : List (TrackedInterval n K))
    (hM : ∀ i j, 0 < (Ms i).shape j ∧ (Ms i).shape j ≤ 10 ^ 16)
    (h : solveChebyshevSubdivision env fuel Ms errors true constant_check low all = .ok (roots, boxes))
    (F : Fin n → (Fin n → K) → K) (hF : ∀ i x, InCube x → |F i x - (Ms i).eval x| < errors i)
    (y : Fin n → K) (hy : InCube y) (hroot : ∀ i, F i y = 0) :
    ∃ t ∈ boxes, t.getFinalInterval.Mem y :=
  solver_complete env la true constant_check low all henv _ (transformOK_exact n) fuel Ms errors roots boxes hM h F hF y
    hy hroot

/-- **C02**: the same for the default transformation.  `_partial`: axes with at most 7 entries, because the
transformation error bound is false for long axes (`C09_transformError_default_false`). -/
theorem C02_no_lost_root_default_partial (env : Env n K) (la : LinAlg n K) (constant_check low all : Bool)
    (henv : env.OK la all) (fuel : ℕ) (Ms : Fin n → Tensor n K)
    (errors : Fin n → K) (roots : List (Fin n → K)) (boxes : List (TrackedInterval n K))
    (hM : ∀ i j, 0 < (Ms i).shape j ∧ (Ms i).shape j ≤ 7)
    (h : solveChebyshevSubdivision env fuel Ms errors false constant_check low all = .ok (roots, boxes))
    (F : Fin n → (Fin n → K) → K) (hF : ∀ i x, InCube x → |F i x - (Ms i).eval x| < errors i)
    (y : Fin n → K) (hy : InCube y) (hroot : ∀ i, F i y = 0) :
    ∃ t ∈ boxes, t.getFinalInterval.Mem y :=
  solver_complete env la false constant_check low all henv _ (transformOK_default n) fuel Ms errors roots boxes hM h F hF
    y hy hroot

end YRoots
