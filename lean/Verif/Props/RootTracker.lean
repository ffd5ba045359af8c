import Verif.Proofs.RootTracker
import Mathlib.Algebra.Order.Field.Rat
import Mathlib.Tactic.NormNum

/-!
# Property C58: book-keeping of roots (`RootTracker.py`)

Specification: `Inside x I` says that the point is strictly inside the box; `Passed ops x` that some call of `add_roots`
received the point; `boxesOf ops` are the boxes of the calls.
-/

set_option linter.unusedSectionVars false
set_option linter.unusedVariables false

namespace YRoots.Legacy

variable {n : ℕ} {K : Type*} [LinearOrder K]

/-- Spec: strictly inside. -/
def Inside (x : Fin n → K) (I : (Fin n → K) × (Fin n → K)) : Prop := ∀ i, I.1 i < x i ∧ x i < I.2 i

/-- Spec: `add_roots` was called with these data. -/
def Passed (ops : List (TOp n K)) (x : Fin n → K) (I : (Fin n → K) × (Fin n → K)) (m : String) : Prop :=
  ∃ zs, .add zs I.1 I.2 m ∈ ops ∧ x ∈ zs

/-- Spec: the box was searched. -/
def BoxOf (ops : List (TOp n K)) (I : (Fin n → K) × (Fin n → K)) : Prop :=
  (∃ zs m, .add zs I.1 I.2 m ∈ ops) ∨ ∃ p m, .potential p I.1 I.2 m ∈ ops

/-- The boxes of the calls. -/
def boxesOf : List (TOp n K) → List ((Fin n → K) × (Fin n → K))
  | [] => []
  | .add _ a b _ :: ops => (a, b) :: boxesOf ops
  | .potential _ a b _ :: ops => (a, b) :: boxesOf ops
  | .keep :: ops => boxesOf ops
  | .polish :: ops => boxesOf ops

theorem mem_boxesOf {ops : List (TOp n K)} {I} (h : I ∈ boxesOf ops) : BoxOf ops I := by
  induction ops with
  | nil => simp [boxesOf] at h
  | cons o ops ih =>
    have up : BoxOf ops I → BoxOf (o :: ops) I := by
      rintro (⟨zs, m, h⟩ | ⟨p, m, h⟩)
      · exact .inl ⟨zs, m, List.mem_cons_of_mem _ h⟩
      · exact .inr ⟨p, m, List.mem_cons_of_mem _ h⟩
    cases o with
    | add zs a b m =>
      rcases List.mem_cons.1 h with rfl | h
      · exact .inl ⟨zs, m, by simp⟩
      · exact up (ih h)
    | potential p a b m =>
      rcases List.mem_cons.1 h with rfl | h
      · exact .inr ⟨p, m, by simp⟩
      · exact up (ih h)
    | keep => exact up (ih h)
    | polish => exact up (ih h)

theorem boxesOf_append (l r : List (TOp n K)) : boxesOf (l ++ r) = boxesOf l ++ boxesOf r := by
  induction l with
  | nil => rfl
  | cons o l ih => cases o <;> simp [boxesOf, ih]

/-- **C58** (no loss, partial).  After any sequence of calls without `get_polish_intervals`, every zero that was passed to
`add_roots` is stored in `roots` or in `possible_duplicates`, or lies strictly inside a box that was searched; after a final
`keep_possible_duplicates` it is in `roots` or strictly inside a searched box.

Missing: that a zero is not dropped unless it is found again, see `C58_no_loss_false`. -/
theorem C58_no_loss_partial (ops : List (TOp n K)) (hp : .polish ∉ ops) (x : Fin n → K) (I m) (hx : Passed ops x I m) :
    (x ∈ (Tracker.run {} ops).roots ∨ (∃ d ∈ (Tracker.run {} ops).possibleDuplicates, d.zero = x) ∨
      ∃ J, BoxOf ops J ∧ Inside x J) ∧
    (x ∈ (Tracker.run {} (ops ++ [.keep])).roots ∨ ∃ J, BoxOf ops J ∧ Inside x J) := by
  have key : ∀ (l r : List (TOp n K)) (s : Tracker n K), l ++ r = ops → (∀ J ∈ s.intervals, J ∈ boxesOf ops) →
      (∀ d ∈ s.possibleDuplicates, (d.a, d.b) ∈ boxesOf ops) →
      (∀ y I m, Passed l y I m → Tracker.Acc (boxesOf ops) s y) →
      ∀ y I m, Passed ops y I m → Tracker.Acc (boxesOf ops) (Tracker.run s r) y := by
    intro l r
    induction r generalizing l with
    | nil =>
      intro s hl _ _ h
      rw [List.append_nil] at hl
      subst hl
      exact h
    | cons o r ih =>
      intro s hl h1 h1' h2
      have hl' : (l ++ [o]) ++ r = ops := by simpa using hl
      have split : ∀ y I m, Passed (l ++ [o]) y I m → Passed l y I m ∨ ∃ zs, o = .add zs I.1 I.2 m ∧ y ∈ zs := by
        rintro y I m ⟨zs, h, hy⟩
        rcases List.mem_append.1 h with h | h
        · exact .inl ⟨zs, h, hy⟩
        · exact .inr ⟨zs, (List.mem_singleton.1 h).symm, hy⟩
      have old : ∀ s', (∀ y, Tracker.Acc (boxesOf ops) s y → Tracker.Acc (boxesOf ops) s' y) →
          (∀ zs a b m, o ≠ .add zs a b m) → ∀ y I m, Passed (l ++ [o]) y I m → Tracker.Acc (boxesOf ops) s' y := by
        intro s' h hne y I m hy
        rcases split y I m hy with hy | ⟨zs, h', _⟩
        · exact h y (h2 y I m hy)
        · exact absurd h' (hne _ _ _ _)
      cases o with
      | add zs a b m =>
        have hab : (a, b) ∈ boxesOf ops := by rw [← hl, boxesOf_append]; simp [boxesOf]
        obtain ⟨k1, k2, k3⟩ := Tracker.addRoots_acc (m := m) hab zs s h1
        refine ih _ _ hl' k1 (fun d hd => ?_) fun y I m' hy => ?_
        · have hd1 := (List.mem_filter.1 hd).1
          have gen : ∀ (zs : List (Fin n → K)) (t : Tracker n K), (∀ d ∈ t.possibleDuplicates, (d.a, d.b) ∈ boxesOf ops) →
              ∀ d ∈ (zs.foldl (Tracker.addOne a b m) t).possibleDuplicates, (d.a, d.b) ∈ boxesOf ops := by
            intro zs
            induction zs with
            | nil => intro t h; exact h
            | cons z zs ih =>
              intro t h
              refine ih _ ?_
              unfold Tracker.addOne
              split_ifs
              · exact h
              · exact h
              · intro d hd
                rcases List.mem_append.1 hd with hd | hd
                · exact h d hd
                · rw [List.mem_singleton] at hd; subst hd; exact hab
          exact gen zs s h1' d hd1
        · rcases split y I m' hy with hy | ⟨zs', h', hy'⟩
          · exact k2 y (h2 y I m' hy)
          · cases h'; exact k3 y hy'
      | potential p a b m =>
        have hab : (a, b) ∈ boxesOf ops := by rw [← hl, boxesOf_append]; simp [boxesOf]
        refine ih _ (s.addPotential p a b m) hl' (fun J hJ => ?_) h1' (old _ (fun y hy => hy) (by simp))
        rcases List.mem_append.1 hJ with hJ | hJ
        · exact h1 J hJ
        · rw [List.eq_of_mem_replicate hJ]; exact hab
      | keep =>
        refine ih _ s.keepDuplicates hl' (fun J hJ => ?_) (by simp [Tracker.keepDuplicates]) (old _ (fun y hy => ?_) (by simp))
        · rw [Tracker.keep_intervals] at hJ
          rcases List.mem_append.1 hJ with hJ | hJ
          · exact h1 J hJ
          · obtain ⟨d, hd, rfl⟩ := List.mem_map.1 hJ
            exact h1' d hd
        · unfold Tracker.Acc
          rw [Tracker.keep_roots]
          rcases hy with hy | ⟨d, hd, rfl⟩ | hy
          · exact .inl (List.mem_append_left _ hy)
          · exact .inl (List.mem_append_right _ (List.mem_map.2 ⟨d, hd, rfl⟩))
          · exact .inr (.inr hy)
      | polish => exact absurd (by rw [← hl]; simp) hp
  have h := key [] ops {} rfl (by simp) (by simp) (fun y I m hy => by obtain ⟨zs, h, _⟩ := hy; simp at h) x I m hx
  have box : (∃ J ∈ boxesOf ops, rootInBox x J.1 J.2 = true) → ∃ J, BoxOf ops J ∧ Inside x J :=
    fun ⟨J, h1, h2⟩ => ⟨J, mem_boxesOf h1, rootInBox_iff.1 h2⟩
  constructor
  · rcases h with h | h | h
    · exact .inl h
    · exact .inr (.inl h)
    · exact .inr (.inr (box h))
  · have e : Tracker.run {} (ops ++ [.keep]) = (Tracker.run {} ops).keepDuplicates := by
      unfold Tracker.run; rw [List.foldl_append]; rfl
    rw [e, Tracker.keep_roots]
    rcases h with h | ⟨d, hd, rfl⟩ | h
    · exact .inl (List.mem_append_left _ h)
    · exact .inl (List.mem_append_right _ (List.mem_map.2 ⟨d, hd, rfl⟩))
    · exact .inr (box h)

/-- **C58** (no loss) is false of the code: a zero outside its own box is dropped when another box with the zero inside is
searched, even if nothing is found there. -/
theorem C58_no_loss_false : ¬ ∀ (ops : List (TOp 1 ℚ)) (x : Fin 1 → ℚ) I m, .polish ∉ ops → Passed ops x I m →
    x ∈ (Tracker.run {} (ops ++ [.keep])).roots := by
  intro h
  have := h [.add [fun _ => 0] (fun _ => -1) (fun _ => 0) "Macaulay", .add [] (fun _ => -1 / 2) (fun _ => 1 / 2) "Macaulay"]
    (fun _ => 0) (fun _ => -1, fun _ => 0) "Macaulay" (by simp) ⟨[fun _ => 0], by simp, by simp⟩
  revert this
  decide +kernel

/-- **C58** (provenance).  As long as no potential root is added and no polishing starts, `roots`, `intervals` and `methods`
have the same length, and each root was passed to `add_roots` with the interval and the method at the same position. -/
theorem C58_aligned (ops : List (TOp n K)) (hp : .polish ∉ ops) (hq : ∀ p a b m, .potential p a b m ∉ ops) :
    (Tracker.run {} ops).intervals.length = (Tracker.run {} ops).roots.length ∧
    (Tracker.run {} ops).methods.length = (Tracker.run {} ops).roots.length ∧
    ∀ i (h : i < (Tracker.run {} ops).roots.length) (h1 : i < (Tracker.run {} ops).intervals.length)
      (h2 : i < (Tracker.run {} ops).methods.length),
      Passed ops (Tracker.run {} ops).roots[i] (Tracker.run {} ops).intervals[i] (Tracker.run {} ops).methods[i] := by
  have key : ∀ (r : List (TOp n K)) (s : Tracker n K), (∀ o ∈ r, o ∈ ops) → Tracker.Prov (Passed ops) s →
      Tracker.Prov (Passed ops) (Tracker.run s r) := by
    intro r
    induction r with
    | nil => intro s _ h; exact h
    | cons o r ih =>
      intro s hr hs
      refine ih _ (fun o ho => hr o (by simp [ho])) ?_
      have ho := hr o (by simp)
      cases o with
      | add zs a b m => exact Tracker.addRoots_prov zs s hs fun z hz => ⟨zs, ho, hz⟩
      | potential p a b m => exact absurd ho (hq p a b m)
      | keep => exact Tracker.keep_prov s hs
      | polish => exact absurd ho hp
  obtain ⟨h1, h2, h3, _⟩ := key ops {} (fun _ h => h) ⟨rfl, rfl, by simp, by simp⟩
  exact ⟨h1, h2, h3⟩

/-- **C58** (provenance) is false when potential roots are added: in two dimensions one potential root adds two intervals and
two methods, so that a root found later is paired with the wrong interval. -/
theorem C58_aligned_false : ¬ ∀ (ops : List (TOp 2 ℚ)), .polish ∉ ops →
    (Tracker.run {} ops).intervals.length = (Tracker.run {} ops).roots.length + (Tracker.run {} ops).potentialRoots.length := by
  intro h
  have := h [.potential (fun _ => 0) (fun _ => -1) (fun _ => 1) "Too Deep."] (by simp)
  revert this
  decide

/-- **C58** (polishing, partial).  `get_polish_intervals` returns every recorded interval exactly once, among them the intervals of
all roots, and starts afresh: whatever is in `roots` afterwards was passed to `add_roots` later, with the interval and the
method at the same position, or was waiting in `possible_duplicates`.

Missing: that nothing found before the call survives it, see `C58_polish_false`. -/
theorem C58_polish_partial (ops1 ops2 : List (TOp n K)) (hq : ∀ p a b m, .potential p a b m ∉ ops2) :
    (Tracker.run {} ops1).getPolish.1.Nodup ∧
    (∀ J, J ∈ (Tracker.run {} ops1).getPolish.1 ↔ J ∈ (Tracker.run {} ops1).intervals) ∧
    (.polish ∉ ops1 → (∀ p a b m, .potential p a b m ∉ ops1) → ∀ x ∈ (Tracker.run {} ops1).roots,
      ∃ J ∈ (Tracker.run {} ops1).getPolish.1, ∃ m, Passed ops1 x J m) ∧
    let s := Tracker.run {} (ops1 ++ .polish :: ops2)
    s.intervals.length = s.roots.length ∧ s.methods.length = s.roots.length ∧
    ∀ i (h : i < s.roots.length) (h1 : i < s.intervals.length) (h2 : i < s.methods.length),
      Passed ops2 s.roots[i] s.intervals[i] s.methods[i] ∨
        ⟨s.roots[i], s.intervals[i].1, s.intervals[i].2, s.methods[i]⟩ ∈ (Tracker.run {} ops1).possibleDuplicates := by
  refine ⟨List.nodup_dedup _, fun J => List.mem_dedup, fun hp hq1 x hx => ?_, ?_⟩
  · obtain ⟨h1, h2, h3⟩ := C58_aligned ops1 hp hq1
    obtain ⟨i, hi, rfl⟩ := List.getElem_of_mem hx
    exact ⟨_, List.mem_dedup.2 (List.getElem_mem (by omega)), _, h3 i hi (by omega) (by omega)⟩
  · set s1 := Tracker.run {} ops1 with hs1
    let R : (Fin n → K) → (Fin n → K) × (Fin n → K) → String → Prop := fun x I m =>
      Passed ops2 x I m ∨ (⟨x, I.1, I.2, m⟩ : Dup n K) ∈ s1.possibleDuplicates
    have key : ∀ (r : List (TOp n K)) (s : Tracker n K), (∀ o ∈ r, o ∈ ops2) → Tracker.Prov R s → Tracker.Prov R (Tracker.run s r) := by
      intro r
      induction r with
      | nil => intro s _ h; exact h
      | cons o r ih =>
        intro s hr hs
        refine ih _ (fun o ho => hr o (by simp [ho])) ?_
        have ho := hr o (by simp)
        cases o with
        | add zs a b m => exact Tracker.addRoots_prov zs s hs fun z hz => .inl ⟨zs, ho, hz⟩
        | potential p a b m => exact absurd ho (hq p a b m)
        | keep => exact Tracker.keep_prov s hs
        | polish => exact ⟨rfl, rfl, by simp [Tracker.step, Tracker.getPolish], hs.2.2.2⟩
    have e : Tracker.run {} (ops1 ++ .polish :: ops2) = Tracker.run (s1.getPolish.2) ops2 := by
      unfold Tracker.run
      rw [List.foldl_append]
      rfl
    rw [e]
    obtain ⟨h1, h2, h3, -⟩ := key ops2 s1.getPolish.2 (fun _ h => h)
      ⟨rfl, rfl, by simp [Tracker.getPolish], fun d hd => .inr hd⟩
    exact ⟨h1, h2, h3⟩

/-- **C58** (polishing) is false of the code: `possible_duplicates` is not deleted, so that a zero of the first search is reported
after the second one although the second one did not find it. -/
theorem C58_polish_false : ¬ ∀ (ops1 ops2 : List (TOp 1 ℚ)) (x : Fin 1 → ℚ), x ∈ (Tracker.run {} (ops1 ++ .polish :: ops2)).roots →
    ∃ I m, Passed ops2 x I m := by
  intro h
  obtain ⟨I, m, zs, hz, -⟩ := h [.add [fun _ => 0] (fun _ => -1) (fun _ => 0) "Macaulay"] [.keep] (fun _ => 0) (by decide +kernel)
  simp at hz

/-- Instance: a root of the first search is polished, then found again. -/
example : let ops1 : List (TOp 1 ℚ) := [.add [fun _ => 1 / 2, fun _ => 1 / 4] (fun _ => 0) (fun _ => 1) "Macaulay"]
    let ops2 : List (TOp 1 ℚ) := [.add [fun _ => 1 / 3] (fun _ => 0) (fun _ => 1) "Macaulay"]
    (Tracker.run {} ops1).getPolish.1 = [(fun _ => 0, fun _ => 1)] ∧ (Tracker.run {} (ops1 ++ .polish :: ops2)).roots = [fun _ => 1 / 3] := by
  decide +kernel

/-- The state of the tracker after the calls of `add_roots`. -/
def addAll (calls : List (List (Fin n → K) × ((Fin n → K) × (Fin n → K)) × String)) : List (TOp n K) :=
  calls.map fun c => .add c.1 c.2.1.1 c.2.1.2 c.2.2

/-- **C58** (once, partial).  If `add_roots` is called for boxes without common interior points, each time with distinct
zeros, then a zero that is strictly inside the box it was found in is reported exactly once, however often it is also found from
neighbouring boxes.

Missing: zeros on the common boundary of two boxes, see `C58_once_false`. -/
theorem C58_once_partial (calls : List (List (Fin n → K) × ((Fin n → K) × (Fin n → K)) × String))
    (hd : calls.Pairwise fun c c' => ∀ x, ¬ (Inside x c.2.1 ∧ Inside x c'.2.1)) (hz : ∀ c ∈ calls, c.1.Nodup)
    (c) (hc : c ∈ calls) (x : Fin n → K) (hx : x ∈ c.1) (hI : Inside x c.2.1) :
    (Tracker.run {} (addAll calls ++ [.keep])).roots.count x = 1 := by
  have run_app : ∀ (l r : List (TOp n K)) (s : Tracker n K), Tracker.run s (l ++ r) = Tracker.run (Tracker.run s l) r := by
    intro l r s; unfold Tracker.run; rw [List.foldl_append]
  have notin : ∀ c' : List (Fin n → K) × ((Fin n → K) × (Fin n → K)) × String, ¬ Inside x c'.2.1 →
      rootInBox x c'.2.1.1 c'.2.1.2 = false := fun c' h => by
    rw [← Bool.not_eq_true, rootInBox_iff]; exact h
  obtain ⟨pre, post, rfl⟩ := List.append_of_mem hc
  rw [List.pairwise_append, List.pairwise_cons] at hd
  obtain ⟨-, ⟨hpost, -⟩, hpre⟩ := hd
  have before : ∀ (pre : List (List (Fin n → K) × ((Fin n → K) × (Fin n → K)) × String)) (s : Tracker n K),
      (∀ c' ∈ pre, ¬ Inside x c'.2.1) → (Tracker.run s (addAll pre)).roots.count x = s.roots.count x := by
    intro pre
    induction pre with
    | nil => intro s _; rfl
    | cons c' pre ih =>
      intro s h
      show (Tracker.run (s.addRoots c'.1 c'.2.1.1 c'.2.1.2 c'.2.2) (addAll pre)).roots.count x = _
      rw [ih _ fun c'' h' => h c'' (by simp [h']), Tracker.addRoots_count_out _ _ (notin c' (h c' (by simp)))]
  have after : ∀ (post : List (List (Fin n → K) × ((Fin n → K) × (Fin n → K)) × String)) (s : Tracker n K),
      (∃ I ∈ s.intervals, rootInBox x I.1 I.2 = true) → (∀ d ∈ s.possibleDuplicates, d.zero ≠ x) →
      ∀ d ∈ (Tracker.run s (addAll post)).possibleDuplicates, d.zero ≠ x := by
    intro post
    induction post with
    | nil => intro s _ h; exact h
    | cons c' post ih =>
      intro s h1 h2
      obtain ⟨k1, k2⟩ := Tracker.addRoots_keepInv (a := c'.2.1.1) (b := c'.2.1.2) (m := c'.2.2) c'.1 s h1 h2
      exact ih _ k1 k2
  have e : Tracker.run {} (addAll (pre ++ c :: post) ++ [.keep]) =
      (Tracker.run ((Tracker.run {} (addAll pre)).addRoots c.1 c.2.1.1 c.2.1.2 c.2.2) (addAll post)).keepDuplicates := by
    rw [run_app, show addAll (pre ++ c :: post) = addAll pre ++ addAll (c :: post) by simp [addAll], run_app]
    rfl
  obtain ⟨k1, k2, k3⟩ := Tracker.addRoots_count_in (m := c.2.2) c.1 (Tracker.run {} (addAll pre)) (rootInBox_iff.2 hI)
  rw [e, Tracker.keep_roots, List.count_append, before post _ fun c' h' hi => hpost c' h' x ⟨hI, hi⟩, k1,
    before pre _ fun c' h' hi => hpre c' h' c (by simp) x ⟨hi, hI⟩, List.count_eq_one_of_mem (hz c (by simp)) hx]
  have h0 : List.count x (((Tracker.run ((Tracker.run {} (addAll pre)).addRoots c.1 c.2.1.1 c.2.1.2 c.2.2)
      (addAll post)).possibleDuplicates).map (·.zero)) = 0 := by
    rw [List.count_eq_zero]
    intro h
    obtain ⟨d, hd, he⟩ := List.mem_map.1 h
    exact after post _ (k2 hx) k3 d hd he
  rw [h0]
  simp

/-- **C58** (once) is false on the common boundary: the zero 0 found from [-1,0] and from [0,1] is reported twice. -/
theorem C58_once_false : ¬ ∀ (calls : List (List (Fin 1 → ℚ) × ((Fin 1 → ℚ) × (Fin 1 → ℚ)) × String)),
    (calls.Pairwise fun c c' => ∀ x, ¬ (Inside x c.2.1 ∧ Inside x c'.2.1)) → (∀ c ∈ calls, c.1.Nodup) →
    (Tracker.run {} (addAll calls ++ [.keep])).roots.Nodup := by
  intro h
  have := h [([fun _ => 0], (fun _ => -1, fun _ => 0), "Macaulay"), ([fun _ => 0], (fun _ => 0, fun _ => 1), "Macaulay")]
    (by
      simp only [List.pairwise_cons, List.mem_singleton, forall_eq, List.not_mem_nil, List.Pairwise.nil, and_true]
      refine ⟨?_, by simp⟩
      rintro x ⟨h1, h2⟩
      have a := (h1 0).2
      have b := (h2 0).1
      exact absurd (a.trans b) (lt_irrefl _)) (by simp)
  revert this
  decide +kernel

/-- Non-vacuity: the zero 1/2 of [0,1] is also found from [-1,0], before and after. -/
example : (Tracker.run {} (addAll [([fun _ => 1 / 2, fun _ => -1 / 2], (fun _ => -1, fun _ => 0), "m"),
    ([fun _ => 1 / 2], (fun _ => 0, fun _ => 1), "m"), ([fun _ => 1 / 2], (fun _ => 1, fun _ => 2), "m")] ++ [.keep]) :
      Tracker 1 ℚ).roots = [fun _ => -1 / 2, fun _ => 1 / 2] := by decide +kernel

example : (Tracker.run {} (addAll [([fun _ => 1 / 2, fun _ => -1 / 2], (fun _ => -1, fun _ => 0), "m"),
    ([fun _ => 1 / 2], (fun _ => 0, fun _ => 1), "m")] ++ [.keep]) : Tracker 1 ℚ).roots.count (fun _ => 1 / 2) = 1 := by
  refine C58_once_partial _ ?_ ?_ ([fun _ => 1 / 2], (fun _ => 0, fun _ => 1), "m") (by simp) _ (by simp) ?_
  · refine List.pairwise_pair.2 fun x h => ?_
    exact lt_asymm (h.1 0).2 (h.2 0).1
  · decide +kernel
  · unfold Inside
    decide +kernel

end YRoots.Legacy
