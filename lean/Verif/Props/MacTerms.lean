import Verif.Proofs.MacTerms

/-!
# C76: the columns of the Macaulay matrix
-/

namespace YRoots.Legacy

/-- **C76**.  `sorted_matrix_terms(degree, dim)` lists every exponent tuple of degree at most `degree` exactly once, by
decreasing degree, so that the constant is the last; the number of columns is the number of monomials, and from degree two on
`cut` is the number of those of the highest degree, which are the first `cut` ones. -/
theorem C76_terms (degree dim : ℕ) (hD : 1 ≤ degree) (hd : 1 ≤ dim) :
    (∀ m, m ∈ (sortedMatrixTerms degree dim).1 ↔ m.length = dim ∧ m.sum ≤ degree) ∧
    (sortedMatrixTerms degree dim).1.Nodup ∧
    (sortedMatrixTerms degree dim).1.length = (degree + dim).choose dim ∧
    (sortedMatrixTerms degree dim).1.Pairwise (fun a b => b.sum ≤ a.sum) ∧
    (sortedMatrixTerms degree dim).1.getLast? = some (List.replicate dim 0) ∧
    ((sortedMatrixTerms degree dim).2 = if degree = 1 then 0 else (degree + dim - 1).choose degree) ∧
    (2 ≤ degree → ∀ j (hj : j < (sortedMatrixTerms degree dim).1.length),
      (j < (sortedMatrixTerms degree dim).2 ↔ ((sortedMatrixTerms degree dim).1[j]).sum = degree)) := by
  have hmem := mem_terms hd hD
  have hpw := pairwise_terms hd hD
  have hnd : (sortedMatrixTerms degree dim).1.Nodup := hpw.imp fun h => h.1
  refine ⟨hmem, hnd, ?_, hpw.imp fun h => h.2, ?_, ?_, ?_⟩
  · have hc := C56_monomials degree dim hd
    rw [← numMonsFull, ← hc.2.2.2]
    refine List.Perm.length_eq ((List.perm_ext_iff_of_nodup hnd hc.2.2.1).2 fun m => ?_)
    rw [hmem, hc.2.1]
  · obtain ⟨l, hl, -⟩ := monCombos_one dim hd
    simp only [sortedMatrixTerms, hl]
    by_cases h1 : degree = 1
    · rw [if_pos h1]; simp
    · rw [if_neg h1]; simp
  · simp only [sortedMatrixTerms]
    by_cases h1 : degree = 1
    · rw [if_pos h1, if_pos h1]
    · rw [if_neg h1, if_neg h1]; exact length_highestRev hd _
  · intro h2 j hj
    have h1 : degree ≠ 1 := by omega
    have e : sortedMatrixTerms degree dim = (highestRev dim degree ++ otherMons dim (degree - 1) ++
        (monCombos (dim - 1) (List.replicate dim 0) 1 0).1.reverse, (highestRev dim degree).length) := by
      simp only [sortedMatrixTerms, if_neg h1]
    simp only [e] at hj ⊢
    constructor
    · intro h
      rw [List.getElem_append_left (by rw [List.length_append]; omega), List.getElem_append_left h]
      exact ((mem_highestRev hd _ _).1 (List.getElem_mem h)).2
    · intro h
      by_contra hlt
      have hin : ((highestRev dim degree ++ otherMons dim (degree - 1) ++
          (monCombos (dim - 1) (List.replicate dim 0) 1 0).1.reverse)[j]) ∈
          otherMons dim (degree - 1) ++ (monCombos (dim - 1) (List.replicate dim 0) 1 0).1.reverse := by
        simp only [List.append_assoc]
        rw [List.getElem_append_right (by omega)]
        exact List.getElem_mem _
      rw [List.mem_append, mem_otherMons hd, List.mem_reverse, (C56_monomials 1 dim hd).2.1] at hin
      omega

/-- Non-vacuity: degree three in two variables. -/
example : sortedMatrixTerms 3 2 =
    ([[3, 0], [2, 1], [1, 2], [0, 3], [2, 0], [1, 1], [0, 2], [1, 0], [0, 1], [0, 0]], 4) := by decide

/-- In the degenerate degree zero (all polynomials constant) the list is wrong: the constant is listed twice. -/
theorem C76_degree_zero : ¬ (sortedMatrixTerms 0 2).1.Nodup := by decide

end YRoots.Legacy
