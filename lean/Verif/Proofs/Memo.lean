import Verif.Model.Memo
import Mathlib.Data.List.Nodup

/-!
# Helper lemmas: memoisation
-/

set_option linter.unusedSectionVars false

namespace YRoots.Legacy

variable {α κ β : Type*} [DecidableEq κ]

theorem cacheGet_mem {key : κ} {v : β} : ∀ {c : List (κ × β)}, cacheGet key c = some v → (key, v) ∈ c
  | [], h => by simp [cacheGet] at h
  | p :: rest, h => by
    unfold cacheGet at h
    by_cases hp : p.1 = key
    · rw [if_pos hp] at h
      have : p = (key, v) := Prod.ext hp (Option.some.inj h)
      simp [this]
    · rw [if_neg hp] at h
      exact List.mem_cons_of_mem _ (cacheGet_mem h)

theorem cacheGet_none {key : κ} : ∀ {c : List (κ × β)}, cacheGet key c = none → ∀ p ∈ c, p.1 ≠ key
  | [], _ => by simp
  | q :: rest, h => by
    unfold cacheGet at h
    by_cases hp : q.1 = key
    · rw [if_pos hp] at h; simp at h
    · rw [if_neg hp] at h
      intro p hp2
      rcases List.mem_cons.1 hp2 with rfl | h2
      · exact hp
      · exact cacheGet_none h p h2

/-- Values and evaluations of a run. -/
theorem memoRun_spec (f : α → β) (key : α → κ) (hf : ∀ a b, key a = key b → f a = f b) :
    ∀ (calls : List α) (c : List (κ × β)), (∀ p ∈ c, ∀ a, key a = p.1 → f a = p.2) →
    (memoRun f key c calls).1 = calls.map f ∧
    ((memoRun f key c calls).2.map key).Nodup ∧
    (∀ a ∈ (memoRun f key c calls).2, a ∈ calls ∧ ∀ p ∈ c, p.1 ≠ key a)
  | [], c, _ => by simp [memoRun]
  | a :: rest, c, hc => by
    unfold memoRun memoCall
    cases h : cacheGet (key a) c with
    | some v =>
      obtain ⟨h1, h2, h3⟩ := memoRun_spec f key hf rest c hc
      refine ⟨?_, ?_, ?_⟩
      · simp only [List.map_cons, h1]
        rw [hc _ (cacheGet_mem h) a rfl]
      · simpa using h2
      · simp only [Bool.false_eq_true, if_false]
        exact fun b hb => ⟨List.mem_cons_of_mem _ (h3 b hb).1, (h3 b hb).2⟩
    | none =>
      have hc' : ∀ p ∈ (key a, f a) :: c, ∀ b, key b = p.1 → f b = p.2 := by
        intro p hp b hb
        rcases List.mem_cons.1 hp with rfl | hp
        · exact hf b a hb
        · exact hc p hp b hb
      obtain ⟨h1, h2, h3⟩ := memoRun_spec f key hf rest _ hc'
      refine ⟨?_, ?_, ?_⟩
      · simp only [List.map_cons, h1]
      · simp only [if_true, List.map_cons, List.nodup_cons]
        refine ⟨fun hm => ?_, h2⟩
        obtain ⟨b, hb, hbe⟩ := List.mem_map.1 hm
        exact (h3 b hb).2 (key a, f a) (by simp) hbe.symm
      · simp only [if_true]
        intro b hb
        rcases List.mem_cons.1 hb with rfl | hb
        · exact ⟨by simp, cacheGet_none h⟩
        · exact ⟨List.mem_cons_of_mem _ (h3 b hb).1, fun p hp => (h3 b hb).2 p (List.mem_cons_of_mem _ hp)⟩

end YRoots.Legacy
