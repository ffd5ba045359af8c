import Verif.Proofs.HeapRec
import Mathlib.Algebra.Order.Ring.Rat
import Mathlib.Data.Rat.Floor

/-!
# Property C44: input tensors are not modified

`Heap.solveChebyshevSubdivisionH` is the solver on a heap of lists, arrays and objects (`Verif.Model.HeapSolver`).  The
caller's list of tensors is at address `m`, its error vector at `e`.  The heap before the call is arbitrary, so that the
theorems cover every history, and the caller's data may be shared (one tensor several times in the list, for instance).
The heap after the call is the one returned, also when an exception is raised.
-/

set_option linter.unusedSectionVars false

namespace YRoots

open Heap

variable {n : ℕ} {K : Type*} [Field K] [LinearOrder K] [FloorSemiring K] [IsStrictOrderedRing K]

/-- **C44.**  After `solveChebyshevSubdivision(Ms, errors, ...)`, with any options, any oracles and any outcome, the
caller's list holds the same tensors, these have the same contents, the error vector has the same contents, and all other
lists, arrays and objects that existed before the call are unchanged as well. -/
theorem C44_caller_unchanged (env : Env n K) (fuel : ℕ) (h : Heap n K) (m e : ℕ) (hm : m < h.next)
    (hms : ∀ i, h.mlist m i < h.next) (he : e < h.next) (exact constant_check low_dim all_dim : Bool) :
    let h' := (solveChebyshevSubdivisionH env fuel h m e exact constant_check low_dim all_dim).1
    h'.mlist m = h.mlist m ∧ (∀ i, h'.tensor (h.mlist m i) = h.tensor (h.mlist m i)) ∧ h'.vec e = h.vec e ∧
      ∀ a < h.next, h'.mlist a = h.mlist a ∧ h'.tensor a = h.tensor a ∧ h'.vec a = h.vec a ∧ h'.box a = h.box a ∧
        h'.trs a = h.trs a ∧ h'.pts a = h.pts a ∧ h'.obj a = h.obj a := by
  intro h'
  have x := (solveChebyshevSubdivisionH_spec env fuel h ⟨hm, hms, rfl⟩ ⟨he, rfl⟩ exact constant_check low_dim all_dim).1
  exact ⟨x.mlist m hm, fun i => x.tensor _ (hms i), x.vec e he, fun a ha => ⟨x.mlist a ha, x.tensor a ha, x.vec a ha,
    x.box a ha, x.trs a ha, x.pts a ha, x.obj a ha⟩⟩

/-- **C44, the recursion.**  The same for one call of `solvePolyRecursive(Ms, trackedInterval, errors, ...)`, where the
interval object is an argument as well: it may be one of the returned boxes but is not changed. -/
theorem C44_recursive_unchanged (env : Env n K) (fuel : ℕ) (opts : Opts) (h : Heap n K) (m o e : ℕ) (hm : m < h.next)
    (hms : ∀ i, h.mlist m i < h.next) (he : e < h.next) (ho : Valid h o) :
    let h' := (solveH env fuel opts h m o e).1
    h'.mlist m = h.mlist m ∧ (∀ i, h'.tensor (h.mlist m i) = h.tensor (h.mlist m i)) ∧ h'.vec e = h.vec e ∧
      h'.view o = h.view o ∧
      ∀ a < h.next, h'.mlist a = h.mlist a ∧ h'.tensor a = h.tensor a ∧ h'.vec a = h.vec a ∧ h'.box a = h.box a ∧
        h'.trs a = h.trs a ∧ h'.pts a = h.pts a ∧ h'.obj a = h.obj a := by
  intro h'
  have x := (solveH_spec env fuel opts h m o e (h.tensors m) (h.view o) (h.vec e) ⟨hm, hms, rfl⟩ ⟨ho, rfl⟩ ⟨he, rfl⟩).1
  exact ⟨x.mlist m hm, fun i => x.tensor _ (hms i), x.vec e he, x.view ho, fun a ha => ⟨x.mlist a ha, x.tensor a ha,
    x.vec a ha, x.box a ha, x.trs a ha, x.pts a ha, x.obj a ha⟩⟩

/-- The program with references is the one the other properties speak about: it raises the same exceptions and returns
the same roots and the same bounding intervals (up to the scratch flag `reRun`) as the value model on the contents of the
caller's list and vector. -/
theorem C44_same_outcome (env : Env n K) (fuel : ℕ) (h : Heap n K) (m e : ℕ) (hm : m < h.next)
    (hms : ∀ i, h.mlist m i < h.next) (he : e < h.next) (exact constant_check low_dim all_dim : Bool) :
    let r := solveChebyshevSubdivisionH env fuel h m e exact constant_check low_dim all_dim
    let v := solveChebyshevSubdivision env fuel (fun i => h.tensor (h.mlist m i)) (h.vec e) exact constant_check low_dim
      all_dim
    (∀ x, r.2 = .error x ↔ v = .error x) ∧
      ∀ roots refs, r.2 = .ok (roots, refs) → ∃ boxes, v = .ok (roots, boxes) ∧
        List.Forall₂ (fun o t => ({ r.1.view o with reRun := false } : TrackedInterval n K) = { t with reRun := false })
          refs boxes := by
  intro r v
  have x := (solveChebyshevSubdivisionH_spec env fuel h ⟨hm, hms, rfl⟩ ⟨he, rfl⟩ exact constant_check low_dim all_dim).2
  have x : ExcRel (fun p p' => p.1 = p'.1 ∧ List.Forall₂ (fun o t => RRel r.1 o t ∧ h.next ≤ o) p.2 p'.2) r.2 v := x
  cases h1 : r.2 with
  | error y =>
    cases h2 : v with
    | error y' =>
      rw [h1, h2] at x
      have x : y = y' := x
      subst x
      exact ⟨fun z => by simp, fun _ _ h => by simp at h⟩
    | ok b' => rw [h1, h2] at x; exact x.elim
  | ok b =>
    cases h2 : v with
    | error y' => rw [h1, h2] at x; exact x.elim
    | ok b' =>
      rw [h1, h2] at x
      obtain ⟨x1, x2⟩ := x
      refine ⟨fun z => by simp, fun roots refs hb => ?_⟩
      simp only [Except.ok.injEq] at hb
      subst hb
      exact ⟨b'.2, by dsimp only at x1; rw [x1], x2.imp fun _ _ s => s.1.eq⟩

/-! ### Examples -/

/-- A heap with one tensor (`T_1`), a list holding it and an error vector. -/
def exampleHeap : Heap 1 ℚ where
  next := 3
  box := fun _ => Box.unit 1 ℚ
  trs := fun _ => []
  pts := fun _ => []
  vec := fun a => if a = 2 then fun _ => 1 / 10 else fun _ => 0
  tensor := fun _ => ⟨fun _ => 2, fun k => if k 0 = 1 then 1 else 0⟩
  mlist := fun _ _ => 0
  obj := fun _ => ⟨0, 0, 0, false, false, false, 0, false, 0, 0, 0, false⟩

example (env : Env 1 ℚ) :
    let h' := (solveChebyshevSubdivisionH env 100 exampleHeap 1 2).1
    h'.mlist 1 = exampleHeap.mlist 1 ∧ h'.tensor 0 = exampleHeap.tensor 0 ∧ h'.vec 2 0 = 1 / 10 := by
  obtain ⟨h1, h2, h3, _⟩ := C44_caller_unchanged env 100 exampleHeap 1 2 (by decide) (fun _ => Nat.zero_lt_succ 2) (by decide)
    false true true false
  exact ⟨h1, h2 0, by rw [h3]; rfl⟩

/-- The copies matter: `trimMs` itself rebinds the elements of the list it is given. -/
example : (trimMsH exampleHeap 1 2 (1 / 10 ^ 3) 0).mlist 1 ≠ exampleHeap.mlist 1 := by
  have h1 : (trimMsH exampleHeap 1 2 (1 / 10 ^ 3) 0).mlist 1 0 = 3 := by
    simp [trimMsH, setVec, setMlist, allocTensor, exampleHeap, List.finRange_succ]
  intro h
  rw [h] at h1
  simp [exampleHeap] at h1

end YRoots
