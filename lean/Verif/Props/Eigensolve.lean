import Verif.Model.Eigensolve
import Mathlib.Analysis.Complex.Polynomial.Basic
import Mathlib.Algebra.Polynomial.Roots

/-!
# C82: the common roots of several polynomials in one variable
-/

namespace YRoots.Legacy

open Polynomial

/-! ### Specification -/

/-- `solve` returns the roots of a polynomial. -/
def SolvesExactly (solve : ℂ[X] → List ℂ) : Prop := ∀ p z, p ≠ 0 → (z ∈ solve p ↔ p.eval z = 0)

/-- `uniq` drops repeated values. -/
def IsUnique (uniq : List ℂ → List ℂ) : Prop := ∀ l, (uniq l).Nodup ∧ ∀ z, z ∈ uniq l ↔ z ∈ l

/-! ### Helper lemmas -/

section
variable {uniq : List ℂ → List ℂ} (hu : IsUnique uniq) {solve : ℂ[X] → List ℂ} (hs : SolvesExactly solve)
include hu hs

theorem mem_commonStep (zeros : List ℂ) (p : ℂ[X]) (hp : p ≠ 0) (z : ℂ) :
    z ∈ commonStep uniq solve zeros p ↔ p.eval z = 0 ∧ ∃ x ∈ zeros, ‖x - z‖ < 1e-10 := by
  rw [commonStep, List.mem_filter, (hu _).2, hs p z hp, decide_eq_true_iff]

theorem commonLoop_common (polys : List ℂ[X]) (h0 : ∀ p ∈ polys, p ≠ 0) (zeros : List ℂ) (z : ℂ) (hz : z ∈ zeros) (h : ∀ p ∈ polys, p.eval z = 0) :
    z ∈ commonLoop uniq solve polys zeros := by
  induction polys generalizing zeros with
  | nil => exact hz
  | cons p polys ih =>
    rw [commonLoop, if_neg (List.ne_nil_of_mem hz)]
    refine ih (fun q hq => h0 q (List.mem_cons_of_mem _ hq)) _ ?_ fun q hq => h q (List.mem_cons_of_mem _ hq)
    rw [mem_commonStep hu hs _ _ (h0 p List.mem_cons_self)]
    exact ⟨h p List.mem_cons_self, z, hz, by rw [sub_self, norm_zero]; norm_num⟩

/-- A value that is returned is the end of a chain of roots. -/
theorem commonLoop_chain (polys : List ℂ[X]) (h0 : ∀ p ∈ polys, p ≠ 0) (zeros : List ℂ) (z : ℂ) (h : z ∈ commonLoop uniq solve polys zeros) :
    (∃ x ∈ zeros, ‖x - z‖ ≤ polys.length * 1e-10) ∧ (∀ p ∈ polys, ∃ y, p.eval y = 0 ∧ ‖y - z‖ ≤ (polys.length - 1 : ℕ) * 1e-10) ∧
      (∀ p, polys.getLast? = some p → p.eval z = 0) := by
  induction polys generalizing zeros with
  | nil => exact ⟨⟨z, h, by simp⟩, by simp, by simp⟩
  | cons p polys ih =>
    rw [commonLoop] at h
    split_ifs at h with h1
    · rw [h1] at h; simp at h
    have hp0 := h0 p List.mem_cons_self
    have hps0 : ∀ q ∈ polys, q ≠ 0 := fun q hq => h0 q (List.mem_cons_of_mem _ hq)
    obtain ⟨⟨x, hx, hxz⟩, hall, hlast⟩ := ih hps0 _ h
    rw [mem_commonStep hu hs _ _ hp0] at hx
    obtain ⟨hpx, w, hw, hwx⟩ := hx
    refine ⟨⟨w, hw, ?_⟩, ?_, ?_⟩
    · calc ‖w - z‖ = ‖(w - x) + (x - z)‖ := by ring_nf
        _ ≤ ‖w - x‖ + ‖x - z‖ := norm_add_le _ _
        _ ≤ _ := by rw [List.length_cons]; push_cast; linarith
    · intro q hq
      rcases List.mem_cons.1 hq with rfl | hq
      · exact ⟨x, hpx, by simpa using hxz⟩
      · obtain ⟨y, hy, hyz⟩ := hall q hq
        refine ⟨y, hy, hyz.trans ?_⟩
        have : (polys.length - 1 : ℕ) ≤ ((p :: polys).length - 1 : ℕ) := by simp
        have h2 : ((polys.length - 1 : ℕ) : ℝ) ≤ (((p :: polys).length - 1 : ℕ) : ℝ) := by exact_mod_cast this
        nlinarith
    · intro q hq
      cases polys with
      | nil =>
        simp only [List.getLast?_singleton, Option.some.injEq] at hq
        subst hq
        rw [commonLoop, mem_commonStep hu hs _ _ hp0] at h
        exact h.1
      | cons r rs => exact hlast q (by simpa using hq)

end

/-! ### The properties -/

/-- **C82**.  With exact roots, every common root of the polynomials is returned. -/
theorem C82_common {uniq : List ℂ → List ℂ} (hu : IsUnique uniq) {solve : ℂ[X] → List ℂ} (hs : SolvesExactly solve) (polys : List ℂ[X])
    (h0 : ∀ p ∈ polys, p ≠ 0) (roots : List ℂ) (h : eigensolve1 uniq solve polys = some roots) (z : ℂ) (hz : ∀ p ∈ polys, p.eval z = 0) : z ∈ roots := by
  match polys, h with
  | [p], h =>
    cases h
    exact (hs p z (h0 p List.mem_cons_self)).2 (hz p List.mem_cons_self)
  | p :: q :: ps, h =>
    cases h
    refine commonLoop_common hu hs _ (fun r hr => h0 r (List.mem_cons_of_mem _ hr)) _ z ?_ fun r hr => hz r (List.mem_cons_of_mem _ hr)
    exact ((hu _).2 z).2 ((hs p z (h0 p List.mem_cons_self)).2 (hz p List.mem_cons_self))

/-- **C82**, partial: a value that is returned is a root of the last polynomial, and has a root of each of the others at a distance of at most the
number of the remaining polynomials times the tolerance.  It need not be a root of the others, see `C82_false`. -/
theorem C82_near_partial {uniq : List ℂ → List ℂ} (hu : IsUnique uniq) {solve : ℂ[X] → List ℂ} (hs : SolvesExactly solve) (polys : List ℂ[X])
    (h0 : ∀ p ∈ polys, p ≠ 0) (roots : List ℂ) (h : eigensolve1 uniq solve polys = some roots) (z : ℂ) (hz : z ∈ roots) :
    (∀ p, polys.getLast? = some p → p.eval z = 0) ∧ ∀ p ∈ polys, ∃ y, p.eval y = 0 ∧ ‖y - z‖ ≤ (polys.length - 1 : ℕ) * 1e-10 := by
  match polys, h with
  | [p], h =>
    cases h
    have h1 := (hs p z (h0 p List.mem_cons_self)).1 hz
    refine ⟨fun q hq => ?_, fun q hq => ?_⟩
    · simp only [List.getLast?_singleton, Option.some.injEq] at hq
      rwa [← hq]
    · rw [List.mem_singleton.1 hq]
      exact ⟨z, h1, by simp⟩
  | p :: q :: ps, h =>
    cases h
    have h0' : ∀ r ∈ q :: ps, r ≠ 0 := fun r hr => h0 r (List.mem_cons_of_mem _ hr)
    obtain ⟨⟨x, hx, hxz⟩, hall, hlast⟩ := commonLoop_chain hu hs _ h0' _ z hz
    refine ⟨fun r hr => hlast r (by simpa using hr), fun r hr => ?_⟩
    rcases List.mem_cons.1 hr with rfl | hr
    · exact ⟨x, (hs _ x (h0 _ List.mem_cons_self)).1 (((hu _).2 x).1 hx), by simpa using hxz⟩
    · obtain ⟨y, hy, hyz⟩ := hall r hr
      refine ⟨y, hy, hyz.trans ?_⟩
      have : (((q :: ps).length - 1 : ℕ) : ℝ) ≤ (((p :: q :: ps).length - 1 : ℕ) : ℝ) := by
        exact_mod_cast (show (q :: ps).length - 1 ≤ (p :: q :: ps).length - 1 by simp)
      nlinarith

/-- **C82**: if different roots of the polynomials are separated by the accumulated tolerance, exactly the common roots are returned. -/
theorem C82_separated {uniq : List ℂ → List ℂ} (hu : IsUnique uniq) {solve : ℂ[X] → List ℂ} (hs : SolvesExactly solve) (polys : List ℂ[X])
    (h0 : ∀ p ∈ polys, p ≠ 0)
    (hsep : ∀ p ∈ polys, ∀ q ∈ polys, ∀ y z, p.eval y = 0 → q.eval z = 0 → ‖y - z‖ ≤ (polys.length - 1 : ℕ) * 1e-10 → y = z)
    (roots : List ℂ) (h : eigensolve1 uniq solve polys = some roots) (z : ℂ) : z ∈ roots ↔ ∀ p ∈ polys, p.eval z = 0 := by
  refine ⟨fun hz p hp => ?_, C82_common hu hs polys h0 roots h z⟩
  obtain ⟨hlast, hall⟩ := C82_near_partial hu hs polys h0 roots h z hz
  obtain ⟨y, hy, hyz⟩ := hall p hp
  obtain ⟨q, hq⟩ : ∃ q, polys.getLast? = some q := ⟨_, List.getLast?_eq_getLast_of_ne_nil (List.ne_nil_of_mem hp)⟩
  rw [← hsep p hp q (List.mem_of_getLast? hq) y z hy (hlast q hq) hyz]
  exact hy

/-! ### Non-vacuity, and the witness of the disagreement -/

noncomputable def exactRoots (p : ℂ[X]) : List ℂ := p.roots.toList

theorem exactRoots_ok : SolvesExactly exactRoots := by
  intro p z hp
  rw [exactRoots, Multiset.mem_toList, mem_roots hp, IsRoot.def]

noncomputable def uniqueVals (l : List ℂ) : List ℂ := l.dedup

theorem uniqueVals_ok : IsUnique uniqueVals := fun l => ⟨List.nodup_dedup l, fun _ => List.mem_dedup⟩

/-- The value returned for `x` and `x - 10⁻¹¹` is not a common root. -/
theorem C82_false : ∃ polys : List ℂ[X], (∀ p ∈ polys, p ≠ 0) ∧ ∃ roots, eigensolve1 uniqueVals exactRoots polys = some roots ∧
    ∃ z ∈ roots, ∃ p ∈ polys, p.eval z ≠ 0 := by
  refine ⟨[X, X - C 1e-11], ?_, _, rfl, 1e-11, ?_, X, List.mem_cons_self, by norm_num⟩
  · intro p hp
    simp only [List.mem_cons, List.not_mem_nil, or_false] at hp
    rcases hp with rfl | rfl
    · exact X_ne_zero
    · exact X_sub_C_ne_zero _
  · rw [commonLoop, if_neg, commonLoop, mem_commonStep uniqueVals_ok exactRoots_ok _ _ (X_sub_C_ne_zero _)]
    · refine ⟨by simp, 0, by simp [uniqueVals, exactRoots], ?_⟩
      rw [show (0 : ℂ) - 1e-11 = ((-1e-11 : ℝ) : ℂ) by push_cast; ring, Complex.norm_real]
      norm_num
    · simp [uniqueVals, exactRoots]

/-- Non-vacuity of `C82_separated`: `x` and `x (x - 1)` have the common root `0` only. -/
example : ∃ roots, eigensolve1 uniqueVals exactRoots [X, X * (X - C 1)] = some roots ∧ ∀ z, z ∈ roots ↔ z = 0 := by
  refine ⟨_, rfl, fun z => ?_⟩
  rw [C82_separated uniqueVals_ok exactRoots_ok [X, X * (X - C 1)] ?_ ?_ _ rfl z]
  · simp +contextual
  · intro p hp
    simp only [List.mem_cons, List.not_mem_nil, or_false] at hp
    rcases hp with rfl | rfl
    · exact X_ne_zero
    · exact mul_ne_zero X_ne_zero (X_sub_C_ne_zero _)
  · have key : ∀ p ∈ ([X, X * (X - C 1)] : List ℂ[X]), ∀ y, p.eval y = 0 → y = 0 ∨ y = 1 := by
      intro p hp y hy
      simp only [List.mem_cons, List.not_mem_nil, or_false] at hp
      rcases hp with rfl | rfl
      · left; simpa using hy
      · simpa [sub_eq_zero] using hy
    intro p hp q hq y z hy hz h
    rcases key p hp y hy with rfl | rfl <;> rcases key q hq z hz with rfl | rfl
    · rfl
    · norm_num at h
    · norm_num at h
    · rfl

end YRoots.Legacy
