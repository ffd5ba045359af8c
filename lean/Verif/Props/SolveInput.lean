import Verif.Model.SolveInput
import Mathlib.Data.List.OfFn
import Mathlib.Data.Rat.Defs
import Mathlib.Algebra.Order.Ring.Unbundled.Rat

/-!
# C60: `solve` converts and validates its input

Valid input is read as it is meant, and what passes the validation has callables and ordered bounds.  The number of bounds is
not compared with the number of functions.
-/

namespace YRoots

variable {F K : Type*} [LinearOrder K]

/-! ### Specification -/

/-- The meaning of a bound for `dim` functions: the same number everywhere, or one number per dimension. -/
def BoundArg.Means (dim : ℕ) (v : Fin dim → K) : BoundArg K → Prop
  | .scalar x => ∀ i, v i = x
  | .list l => l = List.ofFn v
  | .array l => l = List.ofFn v
  | .tuple l => l = List.ofFn v

/-- The bound is given by a list or an array, whose length is taken as it is. -/
def BoundArg.Sized : BoundArg K → Bool
  | .list _ => true
  | .array _ => true
  | _ => false

/-- The callables of the argument `funcs`. -/
def FuncsArg.Means (fs : List F) : FuncsArg F → Prop
  | .many l => l = fs.map some
  | .one f => f.toList = fs ∧ fs.length = 1

/-! ### Helper lemmas -/

theorem checkCallable_some (fs : List F) : ∀ i, checkCallable i (fs.map some) = .ok fs := by
  induction fs with
  | nil => intro i; rfl
  | cons f fs ih => intro i; simp [checkCallable, ih]

theorem checkCallable_ok : ∀ (l : List (Option F)) (i : ℕ) (fs : List F), checkCallable i l = .ok fs → l = fs.map some
  | [], i, fs, h => by simp [checkCallable] at h; simp [← h]
  | none :: l, i, fs, h => by simp [checkCallable] at h
  | some f :: l, i, fs, h => by
    unfold checkCallable at h
    split at h
    · cases h
    · rename_i r hr
      cases h
      rw [checkCallable_ok l _ r hr]; rfl

theorem FuncsArg.toList_of_means {fs : List F} {funcs : FuncsArg F} (h : funcs.Means fs) : funcs.toList = fs.map some := by
  cases funcs with
  | many l => exact h
  | one f =>
    obtain ⟨h1, h2⟩ := h
    subst h1
    cases f with
    | none => simp at h2
    | some f => rfl

theorem BoundArg.toArray_of_means {dim : ℕ} {v : Fin dim → K} {a : BoundArg K} (h : a.Means dim v) :
    a.toArray dim = .ok (List.ofFn v) := by
  have hs : ∀ x, (∀ i, v i = x) → List.replicate dim x = List.ofFn v := fun x hx => by
    refine List.ext_getElem (by simp) fun i h1 h2 => by simp [hx]
  cases a with
  | scalar x => rw [BoundArg.toArray, hs x h]
  | list l => rw [BoundArg.toArray, show l = _ from h]
  | array l => rw [BoundArg.toArray, show l = _ from h]
  | tuple l =>
    have hl : l = List.ofFn v := h
    unfold BoundArg.toArray
    split
    · cases ‹BoundArg.tuple l = _›
    · cases ‹BoundArg.tuple l = _›
    · cases ‹BoundArg.tuple l = _›
    · rename_i x heq
      cases heq
      have hd : dim = 1 := by simpa using (congrArg List.length hl).symm
      subst hd
      simp only [List.replicate_one, hl]
    · rename_i heq
      cases heq
      rw [if_pos (by rw [hl, List.length_ofFn]), hl]

theorem BoundArg.length_of_unsized {dim : ℕ} {a : BoundArg K} {l : List K} (hs : a.Sized = false) (h : a.toArray dim = .ok l) :
    l.length = dim := by
  unfold BoundArg.toArray at h
  split at h
  · cases hs
  · cases hs
  · cases h; simp
  · cases h; simp
  · split_ifs at h with hd
    cases h; exact hd

theorem checkCallable_error : ∀ (l : List (Option F)) (k i : ℕ), checkCallable k l = .error (.notCallable (k + i)) ↔
    l[i]? = some none ∧ ∀ j < i, l[j]? ≠ some none
  | [], k, i => by simp [checkCallable]
  | none :: l, k, i => by
    cases i with
    | zero => simp [checkCallable]
    | succ i =>
      simp only [checkCallable, Except.error.injEq, InputError.notCallable.injEq]
      constructor
      · intro h
        omega
      · rintro ⟨-, h⟩
        exact absurd rfl (h 0 (by omega))
  | some f :: l, k, i => by
    have hne : checkCallable (k + 1) l ≠ .error (.notCallable k) := by
      have hge : ∀ (l : List (Option F)) (k : ℕ) (e : InputError), checkCallable k l = .error e → ∃ j, k ≤ j ∧ e = .notCallable j := by
        intro l
        induction l with
        | nil => intro k e h; cases h
        | cons o l ih =>
          intro k e h
          cases o with
          | none => cases h; exact ⟨k, le_rfl, rfl⟩
          | some g =>
            unfold checkCallable at h
            split at h
            · rename_i e' he
              cases h
              obtain ⟨j, hj, rfl⟩ := ih _ _ he
              exact ⟨j, by omega, rfl⟩
            · cases h
      intro h
      obtain ⟨j, hj, he⟩ := hge l (k + 1) _ h
      cases he
      omega
    cases i with
    | zero =>
      simp only [Nat.add_zero, List.getElem?_cons_zero]
      unfold checkCallable
      constructor
      · intro h
        split at h
        · rename_i e he
          cases h
          exact absurd he hne
        · cases h
      · rintro ⟨h, -⟩
        cases h
    | succ i =>
      have ih := checkCallable_error l (k + 1) i
      rw [show k + 1 + i = k + (i + 1) by omega] at ih
      have h1 : checkCallable k (some f :: l) = .error (.notCallable (k + (i + 1))) ↔
          checkCallable (k + 1) l = .error (.notCallable (k + (i + 1))) := by
        rw [checkCallable]
        cases checkCallable (k + 1) l <;> simp
      rw [h1, ih, List.getElem?_cons_succ]
      refine and_congr_right fun _ => ⟨fun h j hj => ?_, fun h j hj => ?_⟩
      · cases j with
        | zero => simp
        | succ j => simpa using h j (by omega)
      · simpa using h (j + 1) (by omega)

/-! ### The properties -/

/-- C60: callables `fs` and bounds `a`, `b` for each of them, with `a ≤ b`, are accepted and read as they are meant. -/
theorem C60_accepts (fs : List F) (a b : Fin fs.length → K) (funcs : FuncsArg F) (argA argB : BoundArg K)
    (hf : funcs.Means fs) (ha : argA.Means fs.length a) (hb : argB.Means fs.length b) (hab : ∀ i, a i ≤ b i) :
    solveInput funcs argA argB = .ok (fs, List.ofFn a, List.ofFn b) := by
  unfold solveInput
  rw [FuncsArg.toList_of_means hf, checkCallable_some]
  simp only [BoundArg.toArray_of_means ha, BoundArg.toArray_of_means hb]
  rw [if_neg (by simp), if_neg]
  rw [List.any_eq_true]
  rintro ⟨p, hp, h⟩
  obtain ⟨i, hi, rfl⟩ := List.getElem_of_mem hp
  simp at h
  exact absurd (hab ⟨i, by simpa using hi⟩) (not_le.2 h)

/-- C60, the part of the validation that is right: what is accepted consists of callables and as many lower as upper bounds,
in order; and entries that are not callable, or bounds in the wrong order, are rejected. -/
theorem C60_validates_partial (funcs : FuncsArg F) (argA argB : BoundArg K) (fs : List F) (a b : List K)
    (h : solveInput funcs argA argB = .ok (fs, a, b)) :
    funcs.Means fs ∧ a.length = b.length ∧ (∀ i (ha : i < a.length) (hb : i < b.length), a[i] ≤ b[i]) ∧
      (argA.Sized = false ∨ argB.Sized = false → a.length = fs.length) := by
  unfold solveInput at h
  split at h
  · cases h
  · rename_i fs' hfs
    split at h
    · cases h
    · split at h
      · cases h
      · rename_i a' _ b' _
        split_ifs at h with h1 h2
        cases h
        have hl : a.length = b.length := not_not.1 h1
        refine ⟨?_, hl, fun i ha hb => ?_, ?_⟩
        · have := checkCallable_ok _ _ _ hfs
          cases funcs with
          | many l => exact this
          | one f =>
            have e : [f] = fs.map some := this
            match fs, e with
            | [g], e => simp at e; subst e; exact ⟨rfl, rfl⟩
        · by_contra hc
          refine h2 (List.any_eq_true.2 ⟨(a[i], b[i]), ?_, by simpa using not_le.1 hc⟩)
          rw [List.mem_iff_getElem]
          exact ⟨i, by simp [ha, hb], by simp⟩
        · rintro (hs | hs)
          · exact BoundArg.length_of_unsized hs ‹argA.toArray _ = _›
          · rw [hl]; exact BoundArg.length_of_unsized hs ‹argB.toArray _ = _›

/-- C60: the exception for a function that is not callable names the first such function. -/
theorem C60_reports (l : List (Option F)) (argA argB : BoundArg K) (i : ℕ) :
    solveInput (.many l) argA argB = .error (.notCallable i) ↔ l[i]? = some none ∧ ∀ j < i, l[j]? ≠ some none := by
  have h0 := checkCallable_error l 0 i
  rw [Nat.zero_add] at h0
  rw [← h0]
  unfold solveInput
  simp only [FuncsArg.toList]
  have harr : ∀ (a : BoundArg K) (d : ℕ), a.toArray d ≠ .error (.notCallable i) := fun a d h => by
    unfold BoundArg.toArray at h
    split at h
    · cases h
    · cases h
    · cases h
    · cases h
    · split_ifs at h
      cases h
  cases h : checkCallable 0 l with
  | error e => simp
  | ok fs =>
    simp only [reduceCtorEq, iff_false]
    intro h1
    split at h1
    · rename_i e he
      cases h1
      exact harr argA _ he
    · split at h1
      · rename_i e he
        cases h1
        exact harr argB _ he
      · split_ifs at h1 <;> cases h1

/-- The second of three functions is not callable. -/
example : solveInput (.many [some "f", none, none]) (.scalar (0 : ℚ)) (.scalar 1) = .error (.notCallable 1) :=
  (C60_reports _ _ _ 1).2 ⟨rfl, fun j hj => by
    have : j = 0 := by omega
    subst this
    simp⟩

/-- C60 is false as a whole: two functions with three bounds are accepted. -/
theorem C60_dimension_false : ∃ (funcs : FuncsArg (ℚ → ℚ)) (a b : BoundArg ℚ) (fs : List (ℚ → ℚ)) (a' b' : List ℚ),
    solveInput funcs a b = .ok (fs, a', b') ∧ a'.length ≠ fs.length :=
  ⟨.many [some id, some id], .list [0, 0, 0], .list [1, 1, 1], [id, id], [0, 0, 0], [1, 1, 1],
    by simp [solveInput, FuncsArg.toList, checkCallable, BoundArg.toArray], by simp⟩

/-- Two functions, lower bounds `0` everywhere and upper bounds `(1, 2)`. -/
example : solveInput (.many [some "f", some "g"]) (.scalar (0 : ℚ)) (.tuple [1, 2]) = .ok (["f", "g"], [0, 0], [1, 2]) :=
  C60_accepts ["f", "g"] (fun _ => 0) (fun i => if i = 0 then 1 else 2) _ _ _ rfl (fun _ => rfl) rfl
    (fun i => by split_ifs <;> decide)

/-- A tuple of functions is rejected. -/
example : solveInput (.one (none : Option String)) (.scalar (0 : ℚ)) (.scalar 1) = .error (.notCallable 0) := rfl

end YRoots
