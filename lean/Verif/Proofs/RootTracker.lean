import Verif.Model.RootTracker
import Mathlib.Data.List.Count
import Mathlib.Data.List.Nodup

/-!
# Helper lemmas: book-keeping of roots
-/

set_option linter.unusedSectionVars false
set_option linter.unusedVariables false
set_option linter.unusedSimpArgs false

namespace YRoots.Legacy

variable {n : ℕ} {K : Type*} [LinearOrder K]

theorem rootInBox_iff {x a b : Fin n → K} : rootInBox x a b = true ↔ ∀ i, a i < x i ∧ x i < b i := by
  unfold rootInBox
  simp [forall_and]

namespace Tracker

/-! ### what one call does -/

/-- Every zero is stored, or kept as a possible duplicate, or lies in a box of the list. -/
def Acc (boxes : List ((Fin n → K) × (Fin n → K))) (s : Tracker n K) (x : Fin n → K) : Prop :=
  x ∈ s.roots ∨ (∃ d ∈ s.possibleDuplicates, d.zero = x) ∨ ∃ I ∈ boxes, rootInBox x I.1 I.2 = true

theorem addOne_acc {boxes} {a b : Fin n → K} {m : String} {s : Tracker n K} {z x : Fin n → K} (h : Acc boxes s x) :
    Acc boxes (addOne a b m s z) x := by
  unfold addOne
  split_ifs
  · rcases h with h | h | h
    · exact .inl (List.mem_append_left _ h)
    · exact .inr (.inl h)
    · exact .inr (.inr h)
  · exact h
  · rcases h with h | ⟨d, h, e⟩ | h
    · exact .inl h
    · exact .inr (.inl ⟨d, List.mem_append_left _ h, e⟩)
    · exact .inr (.inr h)

theorem addOne_new {boxes} {a b : Fin n → K} {m : String} {s : Tracker n K} {z : Fin n → K}
    (hs : ∀ I ∈ s.intervals, I ∈ boxes) : Acc boxes (addOne a b m s z) z := by
  unfold addOne
  split_ifs with h1 h2
  · exact .inl (by simp [addRoot])
  · obtain ⟨I, hI, hz⟩ := List.any_eq_true.1 h2
    exact .inr (.inr ⟨I, hs I hI, hz⟩)
  · exact .inr (.inl ⟨⟨z, a, b, m⟩, by simp, rfl⟩)

theorem addOne_intervals {boxes : List ((Fin n → K) × (Fin n → K))} {a b : Fin n → K} {m : String} {s : Tracker n K} {z : Fin n → K}
    (hab : (a, b) ∈ boxes) (hs : ∀ I ∈ s.intervals, I ∈ boxes) : ∀ I ∈ (addOne a b m s z).intervals, I ∈ boxes := by
  unfold addOne
  split_ifs
  · intro I hI
    rcases List.mem_append.1 hI with h | h
    · exact hs I h
    · rw [List.mem_singleton] at h; rw [h]; exact hab
  · exact hs
  · exact hs

theorem fold_acc {boxes} {a b : Fin n → K} {m : String} (hab : (a, b) ∈ boxes) : ∀ (zs : List (Fin n → K)) (s : Tracker n K),
    (∀ I ∈ s.intervals, I ∈ boxes) →
    (∀ I ∈ (zs.foldl (addOne a b m) s).intervals, I ∈ boxes) ∧
    (∀ x, Acc boxes s x → Acc boxes (zs.foldl (addOne a b m) s) x) ∧
    ∀ z ∈ zs, Acc boxes (zs.foldl (addOne a b m) s) z
  | [], s, hs => ⟨hs, fun _ h => h, by simp⟩
  | z :: zs, s, hs => by
    obtain ⟨h1, h2, h3⟩ := fold_acc hab zs (addOne a b m s z) (addOne_intervals hab hs)
    refine ⟨h1, fun x hx => h2 x (addOne_acc hx), fun y hy => ?_⟩
    rcases List.mem_cons.1 hy with rfl | hy
    · exact h2 _ (addOne_new hs)
    · exact h3 y hy

theorem addRoots_acc {boxes} {a b : Fin n → K} {m : String} (hab : (a, b) ∈ boxes) (zs : List (Fin n → K)) (s : Tracker n K)
    (hs : ∀ I ∈ s.intervals, I ∈ boxes) :
    (∀ I ∈ (s.addRoots zs a b m).intervals, I ∈ boxes) ∧ (∀ x, Acc boxes s x → Acc boxes (s.addRoots zs a b m) x) ∧
    ∀ z ∈ zs, Acc boxes (s.addRoots zs a b m) z := by
  obtain ⟨h1, h2, h3⟩ := fold_acc (m := m) hab zs s hs
  have purge : ∀ x, Acc boxes (zs.foldl (addOne a b m) s) x → Acc boxes (s.addRoots zs a b m) x := by
    intro x hx
    rcases hx with h | ⟨d, h, e⟩ | h
    · exact .inl h
    · by_cases hb : rootInBox d.zero a b = true
      · exact .inr (.inr ⟨(a, b), hab, e ▸ hb⟩)
      · refine .inr (.inl ⟨d, ?_, e⟩)
        show d ∈ List.filter _ _
        rw [List.mem_filter]
        exact ⟨h, by simpa using hb⟩
    · exact .inr (.inr h)
  exact ⟨h1, fun x hx => purge x (h2 x hx), fun z hz => purge z (h3 z hz)⟩

theorem keep_fold (ds : List (Dup n K)) : ∀ s : Tracker n K,
    (ds.foldl (fun s d => s.addRoot d.zero d.a d.b d.method) s).roots = s.roots ++ ds.map (·.zero) ∧
    (ds.foldl (fun s d => s.addRoot d.zero d.a d.b d.method) s).intervals = s.intervals ++ ds.map (fun d => (d.a, d.b)) ∧
    (ds.foldl (fun s d => s.addRoot d.zero d.a d.b d.method) s).methods = s.methods ++ ds.map (·.method) := by
  induction ds with
  | nil => intro s; simp
  | cons d ds ih =>
    intro s
    obtain ⟨h1, h2, h3⟩ := ih (s.addRoot d.zero d.a d.b d.method)
    refine ⟨?_, ?_, ?_⟩
    · simp only [List.foldl_cons]; rw [h1]; simp [addRoot]
    · simp only [List.foldl_cons]; rw [h2]; simp [addRoot]
    · simp only [List.foldl_cons]; rw [h3]; simp [addRoot]

theorem keep_roots (s : Tracker n K) : s.keepDuplicates.roots = s.roots ++ s.possibleDuplicates.map (·.zero) :=
  (keep_fold s.possibleDuplicates s).1

theorem keep_intervals (s : Tracker n K) :
    s.keepDuplicates.intervals = s.intervals ++ s.possibleDuplicates.map (fun d => (d.a, d.b)) :=
  (keep_fold s.possibleDuplicates s).2.1

theorem keep_methods (s : Tracker n K) : s.keepDuplicates.methods = s.methods ++ s.possibleDuplicates.map (·.method) :=
  (keep_fold s.possibleDuplicates s).2.2

/-! ### provenance -/

/-- The lists are aligned and every entry satisfies `R`. -/
def Prov (R : (Fin n → K) → (Fin n → K) × (Fin n → K) → String → Prop) (s : Tracker n K) : Prop :=
  s.intervals.length = s.roots.length ∧ s.methods.length = s.roots.length ∧
  (∀ i (h : i < s.roots.length) (h1 : i < s.intervals.length) (h2 : i < s.methods.length),
    R s.roots[i] s.intervals[i] s.methods[i]) ∧
  ∀ d ∈ s.possibleDuplicates, R d.zero (d.a, d.b) d.method

theorem append_prov {R : (Fin n → K) → (Fin n → K) × (Fin n → K) → String → Prop} {r : List (Fin n → K)} {I : List ((Fin n → K) × (Fin n → K))} {ms : List String} {x a b m}
    (h1 : I.length = r.length) (h2 : ms.length = r.length)
    (h3 : ∀ i (h : i < r.length) (h1 : i < I.length) (h2 : i < ms.length), R r[i] I[i] ms[i]) (h : R x (a, b) m) :
    ∀ i (h : i < (r ++ [x]).length) (h1 : i < (I ++ [(a, b)]).length) (h2 : i < (ms ++ [m]).length),
      R (r ++ [x])[i] (I ++ [(a, b)])[i] (ms ++ [m])[i] := by
  intro i k1 k2 k3
  by_cases hi : i < r.length
  · rw [List.getElem_append_left hi, List.getElem_append_left (by omega), List.getElem_append_left (by omega)]
    exact h3 i _ _ _
  · have : i = r.length := by simp at k1; omega
    subst this
    rw [List.getElem_append_right (by omega), List.getElem_append_right (by omega), List.getElem_append_right (by omega)]
    simpa using h

theorem addRoot_prov {R} {s : Tracker n K} (hs : Prov R s) {x a b : Fin n → K} {m : String} (h : R x (a, b) m) :
    Prov R (s.addRoot x a b m) := by
  obtain ⟨h1, h2, h3, h4⟩ := hs
  refine ⟨by simp [addRoot, h1], by simp [addRoot, h2], ?_, h4⟩
  exact append_prov h1 h2 h3 h

theorem addOne_prov {R} {a b : Fin n → K} {m : String} {s : Tracker n K} (hs : Prov R s) {z : Fin n → K}
    (h : R z (a, b) m) : Prov R (addOne a b m s z) := by
  unfold addOne
  split_ifs
  · exact addRoot_prov hs h
  · exact hs
  · obtain ⟨h1, h2, h3, h4⟩ := hs
    refine ⟨h1, h2, h3, fun d hd => ?_⟩
    rcases List.mem_append.1 hd with hd | hd
    · exact h4 d hd
    · rw [List.mem_singleton] at hd; subst hd; exact h

theorem addRoots_prov {R} {a b : Fin n → K} {m : String} (zs : List (Fin n → K)) (s : Tracker n K) (hs : Prov R s)
    (h : ∀ z ∈ zs, R z (a, b) m) : Prov R (s.addRoots zs a b m) := by
  have : Prov R (zs.foldl (addOne a b m) s) := by
    induction zs generalizing s with
    | nil => exact hs
    | cons z zs ih => exact ih _ (addOne_prov hs (h z (by simp))) fun y hy => h y (by simp [hy])
  obtain ⟨h1, h2, h3, h4⟩ := this
  refine ⟨h1, h2, h3, fun d hd => h4 d ?_⟩
  exact (List.mem_filter.1 hd).1

theorem keep_prov {R} (s : Tracker n K) (hs : Prov R s) : Prov R s.keepDuplicates := by
  have : ∀ (ds : List (Dup n K)) (s : Tracker n K), Prov R s → (∀ d ∈ ds, R d.zero (d.a, d.b) d.method) →
      Prov R (ds.foldl (fun s d => s.addRoot d.zero d.a d.b d.method) s) := by
    intro ds
    induction ds with
    | nil => intro s hs _; exact hs
    | cons d ds ih => intro s hs h; exact ih _ (addRoot_prov hs (h d (by simp))) fun y hy => h y (by simp [hy])
  obtain ⟨h1, h2, h3, _⟩ := this s.possibleDuplicates s hs hs.2.2.2
  exact ⟨h1, h2, h3, by simp [keepDuplicates]⟩

/-! ### counting one point -/

theorem addOne_count_out {a b : Fin n → K} {m : String} {s : Tracker n K} {z x : Fin n → K}
    (hx : rootInBox x a b = false) : (addOne a b m s z).roots.count x = s.roots.count x := by
  unfold addOne
  split_ifs with h
  · have : z ≠ x := fun e => by rw [e, hx] at h; simp at h
    simp [addRoot, List.count_append, List.count_singleton, this]
  · rfl
  · rfl

theorem addOne_intervals_mono {a b : Fin n → K} {m : String} {s : Tracker n K} {z : Fin n → K} {I}
    (h : I ∈ s.intervals) : I ∈ (addOne a b m s z).intervals := by
  unfold addOne
  split_ifs
  · exact List.mem_append_left _ h
  · exact h
  · exact h

theorem addOne_dups {a b : Fin n → K} {m : String} {s : Tracker n K} {z x : Fin n → K}
    (hI : ∃ I ∈ s.intervals, rootInBox x I.1 I.2 = true) (hd : ∀ d ∈ s.possibleDuplicates, d.zero ≠ x) :
    ∀ d ∈ (addOne a b m s z).possibleDuplicates, d.zero ≠ x := by
  unfold addOne
  split_ifs with h1 h2
  · exact hd
  · exact hd
  · intro d h
    rcases List.mem_append.1 h with h | h
    · exact hd d h
    · rw [List.mem_singleton] at h
      subst h
      rintro rfl
      apply h2
      rw [List.any_eq_true]
      exact hI

theorem addRoots_count_out {a b : Fin n → K} {m : String} (zs : List (Fin n → K)) (s : Tracker n K) {x : Fin n → K}
    (hx : rootInBox x a b = false) : (s.addRoots zs a b m).roots.count x = s.roots.count x := by
  show (zs.foldl (addOne a b m) s).roots.count x = _
  induction zs generalizing s with
  | nil => rfl
  | cons z zs ih => rw [List.foldl_cons, ih, addOne_count_out hx]

theorem addRoots_keepInv {a b : Fin n → K} {m : String} (zs : List (Fin n → K)) (s : Tracker n K) {x : Fin n → K}
    (hI : ∃ I ∈ s.intervals, rootInBox x I.1 I.2 = true) (hd : ∀ d ∈ s.possibleDuplicates, d.zero ≠ x) :
    (∃ I ∈ (s.addRoots zs a b m).intervals, rootInBox x I.1 I.2 = true) ∧
    ∀ d ∈ (s.addRoots zs a b m).possibleDuplicates, d.zero ≠ x := by
  have : (∃ I ∈ (zs.foldl (addOne a b m) s).intervals, rootInBox x I.1 I.2 = true) ∧
      ∀ d ∈ (zs.foldl (addOne a b m) s).possibleDuplicates, d.zero ≠ x := by
    induction zs generalizing s with
    | nil => exact ⟨hI, hd⟩
    | cons z zs ih =>
      refine ih _ ?_ (addOne_dups hI hd)
      obtain ⟨I, h1, h2⟩ := hI
      exact ⟨I, addOne_intervals_mono h1, h2⟩
  exact ⟨this.1, fun d hd => this.2 d (List.mem_filter.1 hd).1⟩

theorem addRoots_count_in {a b : Fin n → K} {m : String} (zs : List (Fin n → K)) (s : Tracker n K) {x : Fin n → K}
    (hx : rootInBox x a b = true) :
    (s.addRoots zs a b m).roots.count x = s.roots.count x + zs.count x ∧
    (x ∈ zs → ∃ I ∈ (s.addRoots zs a b m).intervals, rootInBox x I.1 I.2 = true) ∧
    ∀ d ∈ (s.addRoots zs a b m).possibleDuplicates, d.zero ≠ x := by
  refine ⟨?_, ?_, ?_⟩
  · show (zs.foldl (addOne a b m) s).roots.count x = _
    induction zs generalizing s with
    | nil => simp
    | cons z zs ih =>
      rw [List.foldl_cons, ih, List.count_cons]
      by_cases hz : z = x
      · subst hz
        unfold addOne
        rw [if_pos hx]
        simp [addRoot, List.count_append]
        omega
      · have : (addOne a b m s z).roots.count x = s.roots.count x := by
          unfold addOne
          split_ifs
          · simp [addRoot, List.count_append, List.count_singleton, hz]
          · rfl
          · rfl
        simp [this, hz]
  · intro hm
    refine ⟨(a, b), ?_, hx⟩
    show (a, b) ∈ (zs.foldl (addOne a b m) s).intervals
    have mono : ∀ (ys : List (Fin n → K)) (t : Tracker n K) I, I ∈ t.intervals → I ∈ (ys.foldl (addOne a b m) t).intervals := by
      intro ys
      induction ys with
      | nil => intro t I h; exact h
      | cons y ys ih => intro t I h; exact ih _ _ (addOne_intervals_mono h)
    induction zs generalizing s with
    | nil => simp at hm
    | cons z zs ih =>
      rcases List.mem_cons.1 hm with rfl | hm
      · refine mono zs _ _ ?_
        unfold addOne
        rw [if_pos hx]
        simp [addRoot]
      · exact ih _ hm
  · intro d hd he
    have := (List.mem_filter.1 hd).2
    rw [he, hx] at this
    simp at this

end Tracker

end YRoots.Legacy
