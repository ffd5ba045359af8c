import Verif.Model.PySet
import Verif.Props.NoLostRoot
import Verif.Props.Subdivide

/-!
# C22, C23, C01 in at most eight dimensions with CPython's sets

With CPython's hash table a set of integers below eight is enumerated in ascending order, whatever the order of
insertion; so in at most eight dimensions the condition of C22/C23 holds.  From nine dimensions on it fails.
-/

set_option linter.unusedSectionVars false

namespace YRoots

namespace PySet

/-- Every key below eight sits in the slot of its own number, and there are at least eight slots. -/
structure Direct (t : Table) : Prop where
  len : 8 ≤ t.length
  slot : ∀ i y : ℕ, t[i]? = some (some y) → y = i
  small : ∀ i y : ℕ, t[i]? = some (some y) → y < 8

theorem enter_direct {t : Table} (h : Direct t) {x : ℕ} (hx : x < 8) :
    enter t x = t.set x (some x) := by
  have hxt : x < t.length := by have := h.len; omega
  have hm : x % t.length = x := Nat.mod_eq_of_lt hxt
  have hfree : t[x]? = some none ∨ t[x]? = some (some x) := by
    rw [List.getElem?_eq_getElem hxt]
    cases hv : t[x] with
    | none => exact .inl rfl
    | some y =>
      right
      have := h.slot x y (by rw [List.getElem?_eq_getElem hxt, hv])
      rw [this]
  have hr : ∀ p, probeRun t x p x = some x := by
    intro p
    cases p <;> simp only [probeRun, if_pos hfree]
  unfold enter
  rw [hm, show 2 * t.length + 64 = (2 * t.length + 63) + 1 from rfl, probe, hr]

theorem set_direct {t : Table} (h : Direct t) {x : ℕ} (hx : x < 8) : Direct (t.set x (some x)) := by
  refine ⟨by rw [List.length_set]; exact h.len, ?_, ?_⟩ <;>
  · intro i y hy
    rw [List.getElem?_set] at hy
    split_ifs at hy with h1 h2
    · simp only [Option.some.injEq] at hy; omega
    · first
        | exact h.slot i y hy
        | exact h.small i y hy

theorem mem_iter {t : Table} {y : ℕ} : y ∈ iter t ↔ ∃ i : ℕ, t[i]? = some (some y) := by
  unfold iter
  rw [List.mem_filterMap]
  constructor
  · rintro ⟨a, ha, rfl⟩
    exact List.mem_iff_getElem?.1 ha
  · rintro ⟨i, hi⟩
    exact ⟨some y, List.mem_iff_getElem?.2 ⟨i, hi⟩, rfl⟩

theorem mem_set {t : Table} (h : Direct t) {x y : ℕ} (hx : x < 8) :
    y ∈ iter (t.set x (some x)) ↔ y ∈ iter t ∨ y = x := by
  have hxt : x < t.length := by have := h.len; omega
  rw [mem_iter, mem_iter]
  constructor
  · rintro ⟨i, hi⟩
    rw [List.getElem?_set] at hi
    split_ifs at hi with h1
    · simp only [Option.some.injEq] at hi; exact .inr hi.symm
    · exact .inl ⟨i, hi⟩
  · rintro (⟨i, hi⟩ | rfl)
    · refine ⟨i, ?_⟩
      rw [List.getElem?_set]
      split_ifs with h1
      · rw [h.slot i y hi, h1]
      · exact hi
    · exact ⟨y, by rw [List.getElem?_set, if_pos rfl, if_pos hxt]⟩

theorem newSize_ge (m : ℕ) (fuel s : ℕ) : s ≤ newSize m fuel s := by
  induction fuel generalizing s with
  | zero => exact le_rfl
  | succ f ih =>
    unfold newSize
    split_ifs
    · have := ih (2 * s); omega
    · exact le_rfl

theorem foldl_enter {t : Table} (h : Direct t) (l : List ℕ) (hl : ∀ x ∈ l, x < 8) :
    Direct (l.foldl enter t) ∧ ∀ y, y ∈ iter (l.foldl enter t) ↔ y ∈ iter t ∨ y ∈ l := by
  induction l generalizing t with
  | nil => exact ⟨h, by simp⟩
  | cons x l ih =>
    have hx := hl x List.mem_cons_self
    obtain ⟨h1, h2⟩ := ih (set_direct h hx) fun y hy => hl y (List.mem_cons_of_mem _ hy)
    rw [List.foldl_cons, enter_direct h hx]
    refine ⟨h1, fun y => ?_⟩
    rw [h2, mem_set h hx, List.mem_cons]
    tauto

theorem empty_direct {m : ℕ} (hm : 8 ≤ m) : Direct (List.replicate m none) := by
  refine ⟨by simpa using hm, ?_, ?_⟩ <;>
  · intro i y hy
    rw [List.getElem?_replicate] at hy
    split_ifs at hy
    simp at hy

theorem iter_empty (m : ℕ) : iter (List.replicate m none) = [] := by
  unfold iter
  rw [List.filterMap_eq_nil_iff]
  intro a ha
  rw [List.eq_of_mem_replicate ha]; rfl

theorem iter_lt {t : Table} (h : Direct t) : ∀ x ∈ iter t, x < 8 := by
  intro x hx
  obtain ⟨i, hi⟩ := mem_iter.1 hx
  exact h.small i x hi

theorem add_direct {t : Table} (h : Direct t) {x : ℕ} (hx : x < 8) :
    Direct (add t x) ∧ ∀ y, y ∈ iter (add t x) ↔ y ∈ iter t ∨ y = x := by
  have h1 : Direct (enter t x) := by rw [enter_direct h hx]; exact set_direct h hx
  have h2 : ∀ y, y ∈ iter (enter t x) ↔ y ∈ iter t ∨ y = x := by
    rw [enter_direct h hx]; exact fun y => mem_set h hx
  unfold add
  simp only
  split_ifs
  · exact ⟨h1, h2⟩
  · exact ⟨h1, h2⟩
  all_goals
    unfold resize
    obtain ⟨h3, h4⟩ := foldl_enter (empty_direct (newSize_ge _ _ 8)) ((enter t x).filterMap id) (iter_lt h1)
    refine ⟨h3, fun y => ?_⟩
    rw [h4, iter_empty, ← h2]
    simp [iter]

theorem ofList_direct (l : List ℕ) (hl : ∀ x ∈ l, x < 8) :
    Direct (ofList l) ∧ ∀ y, y ∈ iter (ofList l) ↔ y ∈ l := by
  have gen : ∀ (l : List ℕ) (t : Table), Direct t → (∀ x ∈ l, x < 8) →
      Direct (l.foldl add t) ∧ ∀ y, y ∈ iter (l.foldl add t) ↔ y ∈ iter t ∨ y ∈ l := by
    intro l
    induction l with
    | nil => intro t h _; exact ⟨h, by simp⟩
    | cons x l ih =>
      intro t h hl
      obtain ⟨h1, h2⟩ := add_direct h (hl x List.mem_cons_self)
      obtain ⟨h3, h4⟩ := ih _ h1 fun y hy => hl y (List.mem_cons_of_mem _ hy)
      refine ⟨h3, fun y => ?_⟩
      rw [List.foldl_cons, h4, h2, List.mem_cons]
      tauto
  obtain ⟨h1, h2⟩ := gen l _ (empty_direct le_rfl) hl
  refine ⟨h1, fun y => ?_⟩
  have := h2 y
  rwa [iter_empty, List.mem_nil_iff, false_or] at this

theorem iter_pairwise {t : Table} (h : Direct t) : (iter t).Pairwise (· < ·) := by
  unfold iter
  rw [List.pairwise_filterMap, List.pairwise_iff_getElem]
  intro i j hi hj hij b hb b' hb'
  have h1 := h.slot i b (by rw [List.getElem?_eq_getElem hi]; exact congrArg some hb)
  have h2 := h.slot j b' (by rw [List.getElem?_eq_getElem hj]; exact congrArg some hb')
  omega

end PySet

/-- **C23**, sets of small numbers: whatever numbers below eight are put into a set, in any order and with repetitions,
iteration lists each of them once, in ascending order. -/
theorem C23_cpython_ascending (l : List ℕ) (hl : ∀ x ∈ l, x < 8) :
    (PySet.iter (PySet.ofList l)).Pairwise (· < ·) ∧ ∀ y, y ∈ PySet.iter (PySet.ofList l) ↔ y ∈ l :=
  ⟨PySet.iter_pairwise (PySet.ofList_direct l hl).1, (PySet.ofList_direct l hl).2⟩

/-- Five keys make the table grow to 32 slots. -/
example : PySet.iter (PySet.ofList [7, 3, 5, 3, 0, 6, 1, 2, 4]) = [0, 1, 2, 3, 4, 5, 6, 7] ∧
    (PySet.ofList [7, 3, 5, 3, 0, 6]).length = 32 := by decide +kernel

/-- From nine dimensions on the order depends on the history: 8 and 0 collide in slot 0.  This is the order used in
`C23_alignment_false`. -/
theorem C23_cpython_nine_false : PySet.iter (PySet.ofList [8, 0, 8, 0]) = [8, 0] ∧
    PySet.iter (PySet.ofList [0, 8, 0, 8]) = [0, 8] := by decide +kernel

/-- The set is enumerated as CPython does after its elements were inserted in some order. -/
def CPythonIter {n : ℕ} (setIter : Finset (Fin n) → List (Fin n)) : Prop :=
  ∀ s, ∃ ins : List (Fin n), ins.toFinset = s ∧
    (setIter s).map (fun d : Fin n => (d : ℕ)) = PySet.iter (PySet.ofList (ins.map fun d : Fin n => (d : ℕ)))

theorem CPythonIter.ascending {n : ℕ} (hn : n ≤ 8) {setIter : Finset (Fin n) → List (Fin n)} (h : CPythonIter setIter)
    (s : Finset (Fin n)) : (setIter s).Pairwise (· < ·) ∧ ∀ d, d ∈ setIter s ↔ d ∈ s := by
  obtain ⟨ins, hs, hi⟩ := h s
  obtain ⟨h1, h2⟩ := C23_cpython_ascending (ins.map fun d : Fin n => (d : ℕ)) (by
    intro x hx
    obtain ⟨d, -, rfl⟩ := List.mem_map.1 hx
    have := d.2
    omega)
  rw [← hi] at h1 h2
  constructor
  · rw [List.pairwise_map] at h1
    exact h1.imp fun h => h
  · intro d
    have h3 := h2 d
    rw [List.mem_map, List.mem_map] at h3
    constructor
    · intro hd
      obtain ⟨e, he, hed⟩ := h3.1 ⟨d, hd, rfl⟩
      rw [← hs, List.mem_toFinset, ← Fin.ext hed]
      exact he
    · intro hd
      rw [← hs, List.mem_toFinset] at hd
      obtain ⟨e, he, hed⟩ := h3.2 ⟨d, hd, rfl⟩
      rw [← Fin.ext hed]
      exact he

/-- **C23 in at most eight dimensions, on CPython.**  Whatever the insertion history of the set of dimensions, the
children are a good subdivision: the pairing of polynomials with intervals does not depend on it.  (Still relative to the
single-axis error claim C09, `TransformOK`, as in C22.) -/
theorem C23_cpython_partial {K : Type*} [Field K] [LinearOrder K] [IsStrictOrderedRing K] {n N : ℕ} {exact : Bool}
    (hT : TransformOK K n exact N) (h8 : n ≤ 8)
    {argsort : List ℕ → List ℕ} (ha : ∀ l, (argsort l).Perm (List.range l.length)) (hn : 0 < n)
    (setIter : Finset (Fin n) → List (Fin n)) (hset : CPythonIter setIter)
    (Ms : Fin n → Tensor n K) (hM : Fits N Ms) (errors : Fin n → K) (ti : TrackedInterval n K)
    (hti : ti.interval.Ordered) (hmid : ∀ d, |ti.nextTransformPoints d| ≤ 1) (level : ℕ)
    (hne : n = 1 ∨ ∀ i, getSubdivisionDims argsort Ms ti level i ≠ []) :
    ∃ cs, getSubdivisionIntervals argsort setIter Ms errors ti exact level = .ok cs ∧
      GoodSubdivision Ms errors ti cs := by
  refine C23_alignment_partial hT ha hn setIter (fun s => ?_) Ms hM errors ti hti hmid level hne
    ((hset.ascending h8 _).1.imp fun h => h.le)
  obtain ⟨h1, h2⟩ := hset.ascending h8 s
  rw [List.perm_ext_iff_of_nodup (h1.imp fun h => h.ne) (Finset.nodup_toList _)]
  intro a
  rw [h2, Finset.mem_toList]

/-- Non-vacuity: in every dimension some enumeration is CPython's, here with insertion in ascending order. -/
theorem exists_cpythonIter {n : ℕ} (h8 : n ≤ 8) :
    CPythonIter (fun s : Finset (Fin n) => s.sort (· ≤ ·)) := by
  intro s
  refine ⟨s.sort (· ≤ ·), by simp, ?_⟩
  obtain ⟨h1, h2⟩ := C23_cpython_ascending ((s.sort (· ≤ ·)).map fun d : Fin n => (d : ℕ)) (by
    intro x hx
    obtain ⟨d, -, rfl⟩ := List.mem_map.1 hx
    have := d.2
    omega)
  have hp : ((s.sort (· ≤ ·)).map fun d : Fin n => (d : ℕ)).Pairwise (· < ·) := by
    rw [List.pairwise_map]
    have h3 := s.pairwise_sort (· ≤ ·)
    have h4 : (s.sort (· ≤ ·)).Nodup := s.sort_nodup (· ≤ ·)
    exact (h3.and h4).imp fun {a b} h => lt_of_le_of_ne h.1 fun e => h.2 (Fin.ext e)
  apply List.Perm.eq_of_pairwise (le := (· < ·))
  · intro a b _ _ h1 h2; exact absurd h1 (by omega)
  · exact hp
  · exact h1
  · rw [List.perm_ext_iff_of_nodup (hp.imp fun h => h.ne) (h1.imp fun h => h.ne)]
    exact fun a => (h2 a).symm

variable {n : ℕ} {K : Type*} [Field K] [LinearOrder K] [IsStrictOrderedRing K] [FloorSemiring K]

/-- What C01-C03 assume of set iteration is true of CPython in at most eight dimensions. -/
theorem Env.OK.of_cpython (h8 : n ≤ 8) {env : Env n K} {la : LinAlg n K} {all : Bool} (svd : env.svd.Valid)
    (argsort : ∀ l, (env.argsort l).Perm (List.range l.length)) (setIter : CPythonIter env.setIter)
    (quad : env.quadraticCheck = YRoots.quadraticCheck n la)
    (linAlg : ∀ S : Finset (Fin n), S.Nonempty → n = 1 ∨ all = true → la.ExactOn S) : env.OK la all :=
  ⟨svd, argsort, setIter.ascending h8, quad, linAlg⟩

end YRoots
