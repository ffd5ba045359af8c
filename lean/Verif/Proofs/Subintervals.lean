import Verif.Model.IntervalChecks
import Verif.Proofs.Solve
import Mathlib.Algebra.BigOperators.Ring.Finset
import Mathlib.Tactic.Linarith

/-!
# Helper lemmas: subdivision of the legacy solver
-/

set_option linter.unusedSectionVars false
set_option linter.unusedVariables false
set_option linter.unusedSimpArgs false

namespace YRoots.Legacy

open Finset

variable {n : ℕ} {K : Type*} [Field K] [LinearOrder K] [IsStrictOrderedRing K]

theorem middle_bounds : (-1 : K) < middleVal ∧ (middleVal : K) < 1 := by
  unfold middleVal
  constructor <;> norm_num

/-- Every point of the cube lies in one of the subintervals. -/
theorem subinterval_cover {t : Fin n → K} (ht : InCube t) :
    (subinterval fun i => decide (middleVal ≤ t i)).Mem t := by
  intro i
  have h := abs_le.1 (ht i)
  simp only [subinterval, decide_eq_true_eq]
  split_ifs with h1
  · exact ⟨h1, h.2⟩
  · exact ⟨h.1, (not_le.1 h1).le⟩

theorem subinterval_lt (spot : Fin n → Bool) (i : Fin n) : (subinterval (K := K) spot).lo i < (subinterval spot).hi i := by
  have := middle_bounds (K := K)
  simp only [subinterval]
  split_ifs
  · exact this.2
  · exact this.1

theorem subinterval_within (spot : Fin n → Bool) : (subinterval (K := K) spot).Within (Box.unit n K) := by
  have := middle_bounds (K := K)
  intro i
  simp only [subinterval, Box.unit]
  split_ifs
  · exact ⟨this.1.le, le_rfl⟩
  · exact ⟨le_rfl, this.2.le⟩

theorem area_transform (a b : Fin n → K) (B : Box n K) : area (transformBox a b B) = ∏ i, ((B.hi i - B.lo i) * ((b i - a i) / 2)) := by
  unfold area transformBox
  exact prod_congr rfl fun i _ => by ring

theorem area_transform' (a b : Fin n → K) (B : Box n K) : area (transformBox a b B) = area B * ∏ i, ((b i - a i) / 2) := by
  rw [area_transform, prod_mul_distrib]; rfl

theorem sum_boolProduct (f : (Fin n → Bool) → K) : ((boolProduct n).map f).sum = ∑ s, f s := by
  rw [← List.sum_toFinset _ (nodup_boolProduct n)]
  refine sum_congr ?_ fun _ _ => rfl
  ext s; simp [mem_boolProduct]

/-- The subintervals tile the box. -/
theorem sum_subintervals (a b : Fin n → K) :
    ((boolProduct n).map fun s => area (transformBox a b (subinterval s))).sum = area ⟨a, b⟩ := by
  rw [sum_boolProduct]
  have h : ∀ i, b i - a i = ∑ c : Bool, ((if c then (1 : K) else middleVal) - (if c then middleVal else -1)) * ((b i - a i) / 2) := by
    intro i
    rw [Fintype.sum_bool]
    simp only [if_true, Bool.false_eq_true, if_false]
    ring
  unfold area
  simp only []
  conv_rhs => arg 2; ext i; rw [h i]
  rw [prod_univ_sum, Fintype.piFinset_univ]
  refine sum_congr rfl fun s _ => prod_congr rfl fun i _ => ?_
  simp only [transformBox, subinterval]
  ring

theorem sum_filter_split {α : Type*} (l : List α) (p : α → Bool) (f : α → K) :
    ((l.filter p).map f).sum + ((l.filter fun a => !p a).map f).sum = (l.map f).sum := by
  induction l with
  | nil => simp
  | cons a l ih =>
    by_cases h : p a
    · simp [List.filter_cons, h, ← ih, add_assoc]
    · simp [List.filter_cons, h, ← ih]; ring

/-- The thrown out subintervals and the remaining ones make up the box. -/
theorem runChecks_area (la : LinAlg n K) (a b : Fin n → K) (approx : List (Tensor n K × K)) :
    ((runChecks la a b approx).2.map area).sum +
      (((boolProduct n).filter (runChecks la a b approx).1).map fun s => area (transformBox a b (subinterval s))).sum
      = area ⟨a, b⟩ := by
  unfold runChecks
  have key : ∀ (l : List (Tensor n K × K)) (st : ((Fin n → Bool) → Bool) × List (Box n K)),
      (st.2.map area).sum + (((boolProduct n).filter st.1).map fun s => area (transformBox a b (subinterval s))).sum
        = area ⟨a, b⟩ →
      ((l.foldl (checkStep la a b) st).2.map area).sum
        + (((boolProduct n).filter (l.foldl (checkStep la a b) st).1).map
            fun s => area (transformBox a b (subinterval s))).sum = area ⟨a, b⟩ := by
    intro l
    induction l with
    | nil => intro st h; exact h
    | cons p l ih =>
      intro st h
      rw [List.foldl_cons]
      apply ih
      rw [← h]
      simp only [checkStep, List.map_append, List.sum_append, List.map_map]
      have := sum_filter_split ((boolProduct n).filter st.1) (fun spot => quadraticCheck n la p.1 p.2 (subinterval spot))
        fun s => area (transformBox a b (subinterval s))
      rw [List.filter_filter, List.filter_filter] at this
      rw [← this, add_assoc]
      congr 2
      · have e : (fun spot => st.1 spot && quadraticCheck n la p.1 p.2 (subinterval spot))
            = fun spot => quadraticCheck n la p.1 p.2 (subinterval spot) && st.1 spot :=
          funext fun s => Bool.and_comm _ _
        rw [e]; rfl
      · have e : (fun spot => st.1 spot && !(st.1 spot && quadraticCheck n la p.1 p.2 (subinterval spot)))
            = fun spot => !quadraticCheck n la p.1 p.2 (subinterval spot) && st.1 spot := by
          funext s
          cases st.1 s <;> simp
        rw [e]
  apply key
  simp only [List.map_nil, List.sum_nil, zero_add, List.filter_true]
  exact sum_subintervals a b

theorem track_area (D : Data n K) (name : String) (l : List (Box n K)) :
    (l.foldl (fun D B => D.track name B) D).current_area = D.current_area + (l.map area).sum := by
  induction l generalizing D with
  | nil => simp
  | cons B l ih => rw [List.foldl_cons, ih]; simp [Data.track, add_assoc]

/-- Area accounting of the subdivision. -/
theorem subdivide_area (la : LinAlg n K) (D : Data n K) (a b : Fin n → K) (approx : List (Tensor n K × K)) (checks : Bool)
    (bo : Option (Box n K)) :
    ((subdivide la D a b approx checks bo).1.map area).sum + (subdivide la D a b approx checks bo).2.current_area
      = D.current_area + area ⟨a, b⟩ := by
  have hplain : ((((boolProduct n).filter (if checks then runChecks la a b approx else (fun _ => true, [])).1).map
      fun spot => transformBox a b (subinterval spot)).map area).sum +
      ((if checks then runChecks la a b approx else (fun _ => true, [])).2.foldl
        (fun D B => D.track "quadratic_check" B) D).current_area = D.current_area + area ⟨a, b⟩ := by
    rw [track_area, List.map_map]
    cases checks with
    | true =>
      have := runChecks_area la a b approx
      simp only [if_true]
      rw [← this]
      simp only [Function.comp_def]
      ring
    | false =>
      simp only [Bool.false_eq_true, if_false, List.filter_true, List.map_nil, List.sum_nil]
      have := sum_subintervals a b
      rw [← this]
      simp only [Function.comp_def]
      ring
  unfold subdivide
  generalize (if checks then runChecks la a b approx else (fun _ => true, [])) = st at hplain ⊢
  cases bo with
  | none => exact hplain
  | some B =>
    simp only []
    by_cases h : area B < (((boolProduct n).filter st.1).length : K) ∧ area B < 3
    · rw [if_pos h]; simp [Data.trackBounded]; ring
    · rw [if_neg h]; exact hplain

end YRoots.Legacy
