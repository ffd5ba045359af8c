import Verif.Model.Approx
import Verif.Proofs.Solve
import Mathlib.Algebra.BigOperators.Ring.Finset
import Mathlib.Algebra.Order.BigOperators.Ring.Finset
import Mathlib.Data.Finset.Lattice.Fold

/-!
# Helper lemmas: the reported approximation error
-/

set_option linter.unusedSectionVars false
set_option linter.unusedVariables false
set_option linter.unusedSimpArgs false

namespace YRoots

open Finset

variable {n : ℕ} {K : Type*} [Field K] [LinearOrder K] [IsStrictOrderedRing K]

/-- The largest epsilon among the used dimensions (0 if there is none). -/
def usedEps (eps : Fin n → K) (idxs : Fin n → Bool) : K :=
  (List.finRange n).foldl (fun m i => if idxs i then max m (eps i) else m) 0

theorem errorTerm_eq (degs : Fin n → ℕ) (eps : Fin n → K) (rhos : Fin n → WithTop K) (idxs : Fin n → Bool) :
    errorTerm degs eps rhos idxs =
      (∏ i, if idxs i then tailFactor (rhos i) else ((degs i : K) + 1)) * usedEps eps idxs := by
  have gen : ∀ (l : List (Fin n)) (p : K × K),
      l.foldl (fun (p : K × K) i =>
        if idxs i then (p.1 * tailFactor (rhos i), max p.2 (eps i)) else (p.1 * (degs i + 1), p.2)) p =
      (p.1 * (l.map fun i => if idxs i then tailFactor (rhos i) else ((degs i : K) + 1)).prod,
       l.foldl (fun m i => if idxs i then max m (eps i) else m) p.2) := by
    intro l
    induction l with
    | nil => intro p; simp
    | cons i l ih =>
      intro p
      rw [List.foldl_cons, ih]
      by_cases h : idxs i <;> simp [h, mul_assoc]
  unfold errorTerm usedEps
  simp only [gen]
  rw [Fin.prod_univ_def, one_mul]

theorem getApproxError_eq (degs : Fin n → ℕ) (eps : Fin n → K) (rhos : Fin n → WithTop K) :
    getApproxError degs eps rhos =
      ∑ idxs ∈ univ.filter (fun idxs : Fin n → Bool => ∃ i, idxs i = true), errorTerm degs eps rhos idxs := by
  have gen : ∀ (l : List (Fin n → Bool)) (e : K),
      l.foldl (fun e idxs => if ∀ i, idxs i = false then e else e + errorTerm degs eps rhos idxs) e =
      e + (l.map fun idxs => if ∃ i, idxs i = true then errorTerm degs eps rhos idxs else 0).sum := by
    intro l
    induction l with
    | nil => intro e; simp
    | cons v l ih =>
      intro e
      rw [List.foldl_cons, ih, List.map_cons, List.sum_cons]
      by_cases h : ∀ i, v i = false
      · rw [if_pos h, if_neg (by push Not; intro i; simp [h i])]; ring
      · rw [if_neg h, if_pos (by push Not at h; simpa using h)]; ring
  unfold getApproxError
  rw [gen, zero_add, sum_filter, ← List.sum_toFinset _ (nodup_boolProduct n)]
  apply sum_congr _ (fun _ _ => rfl)
  ext v
  simp [mem_boolProduct]

theorem le_usedEps (eps : Fin n → K) (idxs : Fin n → Bool) :
    0 ≤ usedEps eps idxs ∧ ∀ i, idxs i = true → eps i ≤ usedEps eps idxs := by
  have gen : ∀ (l : List (Fin n)) (m : K),
      m ≤ l.foldl (fun m i => if idxs i then max m (eps i) else m) m ∧
      ∀ i ∈ l, idxs i = true → eps i ≤ l.foldl (fun m i => if idxs i then max m (eps i) else m) m := by
    intro l
    induction l with
    | nil => intro m; simp
    | cons i l ih =>
      intro m
      rw [List.foldl_cons]
      refine ⟨le_trans ?_ (ih _).1, ?_⟩
      · split
        · exact le_max_left _ _
        · exact le_rfl
      · intro j hj hu
        rcases List.mem_cons.1 hj with rfl | hj
        · rw [if_pos hu]
          exact (le_max_right _ _).trans (ih _).1
        · exact (ih _).2 j hj hu
  exact ⟨(gen _ 0).1, fun i hi => (gen _ 0).2 i (List.mem_finRange i) hi⟩

/-- The rate `1/rho`. -/
def decayRate : WithTop K → K
  | ⊤ => 0
  | (r : K) => 1 / r

theorem geom_tail (rho : WithTop K) (h : 1 < rho) (d B : ℕ) :
    ∑ k ∈ Ioc d B, decayRate rho ^ (k - d) ≤ tailFactor rho ∧ 0 ≤ decayRate rho ∧ 0 ≤ tailFactor rho := by
  cases rho with
  | top =>
    refine ⟨?_, le_rfl, le_rfl⟩
    apply (sum_eq_zero _).le
    intro k hk
    have := mem_Ioc.1 hk
    exact zero_pow (by omega)
  | coe r =>
    have hr : (1 : K) < r := by exact_mod_cast h
    have hr0 : (0 : K) < r := by linarith
    refine ⟨?_, by simp only [decayRate]; positivity, by simp only [tailFactor]; exact div_nonneg zero_le_one (by linarith)⟩
    have key : ∀ M : ℕ, ∑ m ∈ range M, (1 / r) ^ (m + 1) = (1 - (1 / r) ^ M) / (r - 1) := by
      intro M
      have h1 : r - 1 ≠ 0 := by linarith
      induction M with
      | zero => simp
      | succ M ih =>
        rw [sum_range_succ, ih, div_add' _ _ _ h1]
        congr 1
        rw [pow_succ]
        have : (1 / r) * r = 1 := by field_simp
        linear_combination (1 / r) ^ M * this
    have e : ∑ k ∈ Ioc d B, decayRate (r : WithTop K) ^ (k - d) = ∑ m ∈ range (B - d), (1 / r) ^ (m + 1) := by
      symm
      apply sum_bij (fun m _ => d + m + 1)
      · intro m hm
        have := mem_range.1 hm
        exact mem_Ioc.2 ⟨by omega, by omega⟩
      · intro m _ m' _ hh
        omega
      · intro k hk
        have := mem_Ioc.1 hk
        exact ⟨k - d - 1, mem_range.2 (by omega), by omega⟩
      · intro m _
        simp only [decayRate]
        congr 1
        omega
    rw [e, key]
    simp only [tailFactor]
    apply div_le_div_of_nonneg_right _ (by linarith)
    have : (0 : K) ≤ (1 / r) ^ (B - d) := by positivity
    linarith

/-- The pattern of directions in which an index exceeds the degrees. -/
def exceed (degs k : Fin n → ℕ) : Fin n → Bool := fun i => decide (degs i < k i)

theorem box_sum_le (degs : Fin n → ℕ) (rhos : Fin n → WithTop K) (hr : ∀ i, 1 < rhos i) (B : Fin n → ℕ)
    (idxs : Fin n → Bool) :
    ∑ k ∈ (Fintype.piFinset fun i => range (B i + 1)).filter (fun k => exceed degs k = idxs),
        ∏ i, (if idxs i then decayRate (rhos i) ^ (k i - degs i) else 1) ≤
      ∏ i, if idxs i then tailFactor (rhos i) else ((degs i : K) + 1) := by
  have hsub : (Fintype.piFinset fun i => range (B i + 1)).filter (fun k => exceed degs k = idxs) ⊆
      Fintype.piFinset fun i => if idxs i then Ioc (degs i) (B i) else range (degs i + 1) := by
    intro k hk
    obtain ⟨h1, h2⟩ := mem_filter.1 hk
    rw [Fintype.mem_piFinset] at h1 ⊢
    intro i
    have h3 := mem_range.1 (h1 i)
    have h4 := congrFun h2 i
    unfold exceed at h4
    by_cases h : idxs i = true
    · rw [if_pos h]
      rw [h] at h4
      have := of_decide_eq_true h4
      exact mem_Ioc.2 ⟨this, by omega⟩
    · rw [if_neg h]
      have h5 : ¬ degs i < k i := by
        intro hc
        rw [decide_eq_true hc] at h4
        exact h h4.symm
      exact mem_range.2 (by omega)
  have hnn : ∀ k : Fin n → ℕ, 0 ≤ ∏ i, (if idxs i then decayRate (rhos i) ^ (k i - degs i) else (1 : K)) := by
    intro k
    apply prod_nonneg
    intro i _
    split
    · exact pow_nonneg (geom_tail (rhos i) (hr i) 0 0).2.1 _
    · exact zero_le_one
  refine (sum_le_sum_of_subset_of_nonneg hsub fun k _ _ => hnn k).trans ?_
  rw [← prod_univ_sum (fun i => if idxs i then Ioc (degs i) (B i) else range (degs i + 1))
    (fun i k => if idxs i then decayRate (rhos i) ^ (k - degs i) else (1 : K))]
  apply prod_le_prod
  · intro i _
    apply sum_nonneg
    intro k _
    split
    · exact pow_nonneg (geom_tail (rhos i) (hr i) 0 0).2.1 _
    · exact zero_le_one
  · intro i _
    by_cases h : idxs i = true
    · simp only [h, if_true]
      exact (geom_tail (rhos i) (hr i) _ _).1
    · simp [h]

/-- The tail of a coefficient family with the measured decay. -/
theorem tail_le (degs : Fin n → ℕ) (eps : Fin n → K) (rhos : Fin n → WithTop K) (hr : ∀ i, 1 < rhos i)
    (c : (Fin n → ℕ) → K)
    (hc : ∀ k, ∀ hU : (univ.filter fun i => degs i < k i).Nonempty,
      |c k| ≤ (univ.filter fun i => degs i < k i).sup' hU eps *
        ∏ i ∈ univ.filter (fun i => degs i < k i), decayRate (rhos i) ^ (k i - degs i))
    (S : Finset (Fin n → ℕ)) (hS : ∀ k ∈ S, ∃ i, degs i < k i) :
    ∑ k ∈ S, |c k| ≤ getApproxError degs eps rhos := by
  set β : (Fin n → ℕ) → K := fun k => usedEps eps (exceed degs k) *
    ∏ i, (if exceed degs k i then decayRate (rhos i) ^ (k i - degs i) else 1) with hβ
  have hprod : ∀ k, 0 ≤ ∏ i, (if exceed degs k i then decayRate (rhos i) ^ (k i - degs i) else (1 : K)) := by
    intro k
    apply prod_nonneg
    intro i _
    split
    · exact pow_nonneg (geom_tail (rhos i) (hr i) 0 0).2.1 _
    · exact zero_le_one
  have hβ0 : ∀ k, 0 ≤ β k := fun k => mul_nonneg (le_usedEps _ _).1 (hprod k)
  have h1 : ∀ k ∈ S, |c k| ≤ β k := by
    intro k hk
    obtain ⟨i, hi⟩ := hS k hk
    have hU : (univ.filter fun i => degs i < k i).Nonempty := ⟨i, by simp [hi]⟩
    refine (hc k hU).trans ?_
    rw [prod_filter]
    have e : ∏ a, (if degs a < k a then decayRate (rhos a) ^ (k a - degs a) else 1) =
        ∏ i, (if exceed degs k i then decayRate (rhos i) ^ (k i - degs i) else (1 : K)) := by
      apply prod_congr rfl; intro i _; simp [exceed]
    rw [e]
    apply mul_le_mul_of_nonneg_right _ (hprod k)
    apply sup'_le
    intro j hj
    exact (le_usedEps eps (exceed degs k)).2 j (by simpa [exceed] using hj)
  set B : Fin n → ℕ := fun i => S.sup fun k => k i with hB
  have hsub : S ⊆ (Fintype.piFinset fun i => range (B i + 1)).filter (fun k => ∃ i, exceed degs k i = true) := by
    intro k hk
    rw [mem_filter, Fintype.mem_piFinset]
    refine ⟨fun i => mem_range.2 (Nat.lt_succ_of_le (le_sup (f := fun k => k i) hk)), ?_⟩
    obtain ⟨i, hi⟩ := hS k hk
    exact ⟨i, by simp [exceed, hi]⟩
  calc ∑ k ∈ S, |c k| ≤ ∑ k ∈ S, β k := sum_le_sum h1
    _ ≤ ∑ k ∈ (Fintype.piFinset fun i => range (B i + 1)).filter (fun k => ∃ i, exceed degs k i = true), β k :=
        sum_le_sum_of_subset_of_nonneg hsub fun k _ _ => hβ0 k
    _ = ∑ idxs ∈ univ.filter (fun idxs : Fin n → Bool => ∃ i, idxs i = true),
          ∑ k ∈ ((Fintype.piFinset fun i => range (B i + 1)).filter (fun k => ∃ i, exceed degs k i = true)).filter
            (fun k => exceed degs k = idxs), β k := by
        rw [sum_fiberwise_of_maps_to]
        intro k hk
        simpa using (mem_filter.1 hk).2
    _ ≤ ∑ idxs ∈ univ.filter (fun idxs : Fin n → Bool => ∃ i, idxs i = true), errorTerm degs eps rhos idxs := by
        apply sum_le_sum
        intro idxs hidx
        rw [errorTerm_eq]
        have hi := (mem_filter.1 hidx).2
        have e : ((Fintype.piFinset fun i => range (B i + 1)).filter (fun k => ∃ i, exceed degs k i = true)).filter
            (fun k => exceed degs k = idxs) =
            (Fintype.piFinset fun i => range (B i + 1)).filter (fun k => exceed degs k = idxs) := by
          rw [filter_filter]
          apply filter_congr
          intro k _
          constructor
          · exact fun h => h.2
          · intro h
            exact ⟨by rw [h]; exact hi, h⟩
        rw [e]
        have e2 : ∑ k ∈ (Fintype.piFinset fun i => range (B i + 1)).filter (fun k => exceed degs k = idxs), β k =
            ∑ k ∈ (Fintype.piFinset fun i => range (B i + 1)).filter (fun k => exceed degs k = idxs),
              (∏ i, (if idxs i then decayRate (rhos i) ^ (k i - degs i) else 1)) * usedEps eps idxs := by
          apply sum_congr rfl
          intro k hk
          rw [hβ]
          simp only [(mem_filter.1 hk).2]
          rw [mul_comm]
        rw [e2, ← sum_mul]
        exact mul_le_mul_of_nonneg_right (box_sum_le degs rhos hr B idxs) (le_usedEps _ _).1
    _ = getApproxError degs eps rhos := (getApproxError_eq degs eps rhos).symm

theorem getApproxError_nonneg (degs : Fin n → ℕ) (eps : Fin n → K) (rhos : Fin n → WithTop K) (hr : ∀ i, 1 < rhos i) :
    0 ≤ getApproxError degs eps rhos := by
  rw [getApproxError_eq]
  apply sum_nonneg
  intro idxs _
  rw [errorTerm_eq]
  apply mul_nonneg _ (le_usedEps _ _).1
  apply prod_nonneg
  intro i _
  split
  · exact (geom_tail (rhos i) (hr i) 0 0).2.2
  · positivity

end YRoots
