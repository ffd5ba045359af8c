import Verif.Model.SubdivideTop
import Verif.Props.SolveNDRoots

/-!
# Property C85: the legacy solver with polishing (`subdivision.py`)

Specification: `NearRoot` says where a point that is returned comes from.
-/

set_option linter.unusedSectionVars false
set_option linter.unusedVariables false

namespace YRoots.Legacy

open Finset

variable {n : ℕ} {K : Type*} [Field K] [LinearOrder K] [IsStrictOrderedRing K]

/-! ### Invariants of the tracker -/

theorem runs_tracker {lib : NDLib (n + 1) K} {T : NDTols K} {targetDeg : ℕ} {trust : Bool} {k lev : ℕ}
    {fs : List ((Fin (n + 1) → K) → K)} {deg : ℕ} {L : List (Box (n + 1) K)} {st st' : NDState (n + 1) K}
    (h : Runs lib T targetDeg trust k lev fs deg L st st') {P : Tracker (n + 1) K → Prop} {Q : Box (n + 1) K → Prop}
    (hQ : ∀ B C, C.Ordered → C.Within B → Q B → Q C)
    (hdeep : ∀ og s, og.Ordered → Q og → P s → P (s.addPotential (fun i => (og.lo i + og.hi i) / 2) og.lo og.hi "Too Deep."))
    (hrec : ∀ og zs m s, og.Ordered → Q og → P s → P (s.addRoots (zerosInInterval zs og) (buffered og).lo (buffered og).hi m))
    (ho : ∀ B ∈ L, B.Ordered) (hL : ∀ B ∈ L, if deg = 2 then Q B else Q (buffered B)) (hst : P st.tracker) : P st'.tracker := by
  have hin : ∀ {deg : ℕ} {B : Box (n + 1) K}, B.Ordered → (if deg = 2 then Q B else Q (buffered B)) → Q B := by
    intro deg B hB h
    split_ifs at h
    · exact h
    · exact hQ _ _ hB (within_buffered hB) h
  have hsub : ∀ {deg : ℕ} {B C : Box (n + 1) K}, C.Ordered → C.Within B → (if deg = 2 then Q B else Q (buffered B)) →
      if deg = 2 then Q C else Q (buffered C) := by
    intro deg B C hC hCB h
    split_ifs at h ⊢
    · exact hQ _ _ hC hCB h
    · exact hQ _ _ (buffered_ordered hC) (buffered_mono hC hCB) h
  induction h with
  | nil => exact hst
  | @deep lev fs deg og rest st st' _ ih =>
    have hog := ho og (by simp)
    exact ih (fun B hB => ho B (by simp [hB])) (fun B hB => hL B (by simp [hB])) (hdeep og _ hog (hin hog (hL og (by simp))) hst)
  | @bad k lev fs deg og rest st st' u fs2 l L D st2 hp _ hg _ _ ih1 ih2 =>
    have hs := getSub_spec (ho og (by simp)) hg
    exact ih2 (fun B hB => ho B (by simp [hB])) (fun B hB => hL B (by simp [hB]))
      (ih1 (fun B hB => (hs.1 B hB).1) (fun B hB => hsub (hs.1 B hB).1 (hs.1 B hB).2 (hL og (by simp)))
        (by simpa only [(evalTols_data lib T lev deg fs og u st).2] using hst))
  | @split k lev fs deg og rest st st' u l L D st2 _ hg _ _ ih1 ih2 =>
    have hs := getSub_spec (ho og (by simp)) hg
    exact ih2 (fun B hB => ho B (by simp [hB])) (fun B hB => hL B (by simp [hB]))
      (ih1 (fun B hB => (hs.1 B hB).1) (fun B hB => hsub (hs.1 B hB).1 (hs.1 B hB).2 (hL og (by simp)))
        (by simpa only [(evalTols_data lib T lev deg fs og u st).2] using hst))
  | @retry k lev fs deg og rest st st' u st2 hdeg _ _ ih1 ih2 =>
    refine ih2 (fun B hB => ho B (by simp [hB])) (fun B hB => hL B (by simp [hB]))
      (ih1 (fun B hB => by rw [List.mem_singleton.1 hB]; exact buffered_ordered (ho og (by simp))) (fun B hB => ?_)
        (by simpa only [(evalTols_data lib T lev deg fs og u st).2] using hst))
    rw [List.mem_singleton.1 hB, if_pos rfl]
    have := hL og (by simp)
    rwa [if_neg hdeg] at this
  | @base k lev fs og rest st st' u l zero tol _ _ _ _ _ _ ih =>
    have hog := ho og (by simp)
    refine ih (fun B hB => ho B (by simp [hB])) (fun B hB => hL B (by simp [hB])) (hrec og _ _ _ hog (hin hog (hL og (by simp))) ?_)
    rw [(evalTols_data lib T lev 2 fs og u st).2]; exact hst
  | @macaulay k lev fs deg og rest st st' u l zeros _ _ _ _ _ _ _ ih =>
    have hog := ho og (by simp)
    refine ih (fun B hB => ho B (by simp [hB])) (fun B hB => hL B (by simp [hB])) (hrec og _ _ _ hog (hin hog (hL og (by simp))) ?_)
    rw [(evalTols_data lib T lev deg fs og u st).2]; exact hst

/-- The boxes of the tracker lie in `X`. -/
def Tracker.Boxed (X : Box n K) (s : Tracker n K) : Prop :=
  (∀ J ∈ s.intervals, (⟨J.1, J.2⟩ : Box n K).Ordered ∧ (⟨J.1, J.2⟩ : Box n K).Within X) ∧
  ∀ d ∈ s.possibleDuplicates, (⟨d.a, d.b⟩ : Box n K).Ordered ∧ (⟨d.a, d.b⟩ : Box n K).Within X

theorem Tracker.Boxed.addRoots {X : Box n K} {s : Tracker n K} (hs : s.Boxed X) (zs : List (Fin n → K)) {a b : Fin n → K}
    (hab : (⟨a, b⟩ : Box n K).Ordered) (hX : (⟨a, b⟩ : Box n K).Within X) (m : String) : (s.addRoots zs a b m).Boxed X := by
  unfold Tracker.addRoots
  have key : ∀ (l : List (Fin n → K)) (s : Tracker n K), s.Boxed X → (l.foldl (Tracker.addOne a b m) s).Boxed X := by
    intro l
    induction l with
    | nil => intro s hs; exact hs
    | cons z l ih =>
      intro s hs
      refine ih _ ?_
      unfold Tracker.addOne
      by_cases h1 : rootInBox z a b
      · rw [if_pos h1]
        refine ⟨fun J hJ => ?_, hs.2⟩
        rcases List.mem_append.1 hJ with h | h
        · exact hs.1 J h
        · rw [List.mem_singleton.1 h]; exact ⟨hab, hX⟩
      · rw [if_neg h1]
        by_cases h2 : (s.intervals.any fun I => rootInBox z I.1 I.2) = true
        · rw [if_pos h2]; exact hs
        · rw [if_neg h2]
          refine ⟨hs.1, fun d hd => ?_⟩
          rcases List.mem_append.1 hd with h | h
          · exact hs.2 d h
          · rw [List.mem_singleton.1 h]; exact ⟨hab, hX⟩
  have := key zs s hs
  exact ⟨this.1, fun d hd => this.2 d (List.mem_filter.1 hd).1⟩

theorem Tracker.keep_eq (s : Tracker n K) : s.keepDuplicates.intervals = s.intervals ++ s.possibleDuplicates.map (fun d => (d.a, d.b)) ∧
    s.keepDuplicates.potentialRoots = s.potentialRoots ∧ s.keepDuplicates.possibleDuplicates = [] := by
  have key : ∀ (l : List (Dup n K)) (s : Tracker n K),
      (l.foldl (fun s d => s.addRoot d.zero d.a d.b d.method) s).intervals = s.intervals ++ l.map (fun d => (d.a, d.b)) ∧
      (l.foldl (fun s d => s.addRoot d.zero d.a d.b d.method) s).potentialRoots = s.potentialRoots := by
    intro l
    induction l with
    | nil => intro s; simp
    | cons d l ih =>
      intro s
      obtain ⟨h1, h2⟩ := ih (s.addRoot d.zero d.a d.b d.method)
      exact ⟨by rw [List.foldl_cons, h1]; simp [Tracker.addRoot], by rw [List.foldl_cons, h2]; rfl⟩
  exact ⟨(key _ _).1, (key _ _).2, rfl⟩

theorem Tracker.Boxed.keep {X : Box n K} {s : Tracker n K} (hs : s.Boxed X) : s.keepDuplicates.Boxed X := by
  obtain ⟨h1, h2, h3⟩ := s.keep_eq
  refine ⟨fun J hJ => ?_, fun d hd => by rw [h3] at hd; simp at hd⟩
  rw [h1, List.mem_append] at hJ
  rcases hJ with hJ | hJ
  · exact hs.1 J hJ
  · obtain ⟨d, hd, rfl⟩ := List.mem_map.1 hJ
    exact hs.2 d hd

theorem Tracker.AllRoots.keep {P : (Fin n → K) → Prop} {s : Tracker n K} (hs : s.AllRoots P) : s.keepDuplicates.AllRoots P := by
  refine ⟨fun x hx => ?_, fun d hd => by rw [s.keep_eq.2.2] at hd; simp at hd⟩
  rw [Tracker.keep_roots, List.mem_append] at hx
  rcases hx with hx | hx
  · exact hs.1 x hx
  · obtain ⟨d, hd, rfl⟩ := List.mem_map.1 hx
    exact hs.2 d hd

/-! ### Location -/

/-- The invariant for the positions: roots and potential roots in `W`, boxes in `X`. -/
def Placed (W X : Box n K) (s : Tracker n K) : Prop :=
  s.AllRoots (fun x => ∀ i, W.lo i - 1 / 10 ^ 9 ≤ x i ∧ x i ≤ W.hi i + 1 / 10 ^ 9) ∧ (∀ p ∈ s.potentialRoots, W.Mem p) ∧ s.Boxed X

theorem Placed.mono {W X W' X' : Box n K} {s : Tracker n K} (h : Placed W X s) (hW : W.Within W') (hX : X.Within X') : Placed W' X' s := by
  refine ⟨⟨fun x hx i => ?_, fun d hd i => ?_⟩, fun p hp => within_mem hW (h.2.1 p hp),
    fun J hJ => ⟨(h.2.2.1 J hJ).1, within_trans (h.2.2.1 J hJ).2 hX⟩, fun J hJ => ⟨(h.2.2.2 J hJ).1, within_trans (h.2.2.2 J hJ).2 hX⟩⟩
  · have := h.1.1 x hx i
    have := hW i
    constructor <;> linarith
  · have := h.1.2 d hd i
    have := hW i
    constructor <;> linarith

theorem Placed.keep {W X : Box n K} {s : Tracker n K} (h : Placed W X s) : Placed W X s.keepDuplicates :=
  ⟨h.1.keep, by rw [s.keep_eq.2.1]; exact h.2.1, h.2.2.keep⟩

theorem solveND_placed {lib : NDLib (n + 1) K} {T : NDTols K} {targetDeg : ℕ} {trust : Bool} {left level : ℕ}
    {fs : List ((Fin (n + 1) → K) → K)} {B V : Box (n + 1) K} (hB : B.Ordered) (hBV : B.Within V) {deg : ℕ} {gd : List (Option ℕ)}
    (hgd : gd.length = fs.length) {u : Bool} {st st' : NDState (n + 1) K}
    (h : solveND lib T targetDeg trust left level fs B deg gd u st = .ok st')
    (hst : Placed (buffered V) (buffered (buffered V)) st.tracker) : Placed (buffered V) (buffered (buffered V)) st'.tracker := by
  have hV : V.Ordered := fun i => by have := hB i; have := hBV i; linarith
  have hr := solveND_runs lib T targetDeg trust left level fs B deg gd u st st' trivial hgd h [] st' .nil
  refine runs_tracker hr (Q := fun C => C.Within (buffered V)) (fun B C _ h1 h2 => within_trans h1 h2) ?_ ?_
    (fun C hC => by rw [List.mem_singleton.1 hC]; exact hB) (fun C hC => ?_) hst
  · intro og s hog hQ hs
    refine ⟨hs.1, fun p hp => ?_, fun J hJ => ?_, hs.2.2.2⟩
    · rcases List.mem_append.1 hp with h | h
      · exact hs.2.1 p h
      · rw [List.mem_singleton.1 h]
        intro i
        have := hog i
        have := hQ i
        constructor <;> linarith
    · rcases List.mem_append.1 hJ with h | h
      · exact hs.2.2.1 J h
      · rw [List.eq_of_mem_replicate h]
        exact ⟨hog, within_trans hQ (within_buffered (buffered_ordered hV))⟩
  · intro og zs m s hog hQ hs
    have hz : ∀ x ∈ zerosInInterval zs og, ∀ i, (buffered V).lo i - 1 / 10 ^ 9 ≤ x i ∧ x i ≤ (buffered V).hi i + 1 / 10 ^ 9 := by
      intro x hx i
      have := (mem_zerosInInterval.1 hx).2 i
      have := hQ i
      constructor <;> linarith
    have := Tracker.addRoots_all hs.1 hz (buffered og).lo (buffered og).hi m
    exact ⟨this.1, by rw [this.2]; exact hs.2.1, hs.2.2.addRoots _ (buffered_ordered hog) (buffered_mono hog hQ) m⟩
  · rw [List.mem_singleton.1 hC]
    split_ifs
    · exact within_trans hBV (within_buffered hV)
    · exact buffered_mono hB hBV

theorem solveKeep_placed {lib : NDLib (n + 1) K} {T : NDTols K} {targetDeg : ℕ} {trust : Bool}
    {fs : List ((Fin (n + 1) → K) → K)} {B V : Box (n + 1) K} (hB : B.Ordered) (hBV : B.Within V) {deg : ℕ}
    {st st' : NDState (n + 1) K} (h : solveKeep lib T targetDeg trust fs deg B st = .ok st')
    (hst : Placed (buffered V) (buffered (buffered V)) st.tracker) : Placed (buffered V) (buffered (buffered V)) st'.tracker := by
  unfold solveKeep at h
  rcases hs : solveND lib T targetDeg trust 52 0 fs B deg (List.replicate fs.length none) false st with e | s
  · rw [hs] at h; simp at h
  · rw [hs] at h
    simp only [Except.ok.injEq] at h
    subst h
    exact (solveND_placed hB hBV (by simp) hs hst).keep

theorem descend_induct {recur : Box n K → NDState n K → Except NDError (NDState n K)} {P : NDState n K → Prop} {L : List (Box n K)}
    (hr : ∀ B ∈ L, ∀ st st', recur B st = .ok st' → P st → P st') {st st' : NDState n K} (h : descend recur L st = .ok st') (hst : P st) :
    P st' := by
  induction L generalizing st with
  | nil =>
    simp only [descend, Except.ok.injEq] at h
    exact h ▸ hst
  | cons B L ih =>
    simp only [descend] at h
    cases hB : recur B st with
    | error e => rw [hB] at h; simp at h
    | ok s =>
      rw [hB] at h
      exact ih (fun C hC => hr C (by simp [hC])) h (hr B (by simp) st s hB hst)

theorem polishRound_placed {lib : NDLib (n + 1) K} {T : NDTols K} {targetDeg : ℕ} {fs : List ((Fin (n + 1) → K) → K)} {deg : ℕ}
    {V : Box (n + 1) K} (hV : V.Ordered) {st st' : NDState (n + 1) K} (h : polishRound lib T targetDeg fs deg st = .ok st')
    (hd : st.tracker.possibleDuplicates = []) (hst : Placed (buffered V) (buffered (buffered V)) st.tracker) :
    Placed (buffered (buffered (buffered V))) (buffered (buffered (buffered (buffered V)))) st'.tracker := by
  unfold polishRound at h
  have h1 := buffered_ordered hV
  have h2 := buffered_ordered h1
  have h3 := buffered_ordered h2
  refine descend_induct (P := fun s => Placed (buffered (buffered (buffered V))) (buffered (buffered (buffered (buffered V)))) s.tracker) ?_ h ?_
  · intro B hB s s' hs hp
    obtain ⟨J, hJ, rfl⟩ := List.mem_map.1 hB
    have := hst.2.2.1 J (List.mem_dedup.1 hJ)
    exact solveKeep_placed this.1 this.2 hs hp
  · refine ⟨⟨by simp [Tracker.getPolish], fun d hd' => by simp [Tracker.getPolish, hd] at hd'⟩, fun p hp => ?_, by simp [Tracker.getPolish],
      fun d hd' => by simp [Tracker.getPolish, hd] at hd'⟩
    exact within_mem (within_trans (within_buffered h1) (within_buffered h2)) (hst.2.1 p hp)

theorem solveKeep_dups {lib : NDLib (n + 1) K} {T : NDTols K} {targetDeg : ℕ} {trust : Bool}
    {fs : List ((Fin (n + 1) → K) → K)} {B : Box (n + 1) K} {deg : ℕ} {st st' : NDState (n + 1) K}
    (h : solveKeep lib T targetDeg trust fs deg B st = .ok st') : st'.tracker.possibleDuplicates = [] := by
  unfold solveKeep at h
  rcases hs : solveND lib T targetDeg trust 52 0 fs B deg (List.replicate fs.length none) false st with e | s
  · rw [hs] at h; simp at h
  · rw [hs] at h
    simp only [Except.ok.injEq] at h
    subst h
    rfl

theorem polishRound_dups {lib : NDLib (n + 1) K} {T : NDTols K} {targetDeg : ℕ} {fs : List ((Fin (n + 1) → K) → K)} {deg : ℕ}
    {st st' : NDState (n + 1) K} (h : polishRound lib T targetDeg fs deg st = .ok st') (hd : st.tracker.possibleDuplicates = []) :
    st'.tracker.possibleDuplicates = [] := by
  unfold polishRound at h
  exact descend_induct (P := fun s => s.tracker.possibleDuplicates = []) (fun B _ s s' hs _ => solveKeep_dups hs) h hd

theorem buffered_iterate (B : Box n K) (k : ℕ) : ∀ i,
    (buffered^[k] B).lo i = (B.lo i + B.hi i) / 2 - (1 + 1 / 10 ^ 9) ^ k * ((B.hi i - B.lo i) / 2) ∧
    (buffered^[k] B).hi i = (B.lo i + B.hi i) / 2 + (1 + 1 / 10 ^ 9) ^ k * ((B.hi i - B.lo i) / 2) := by
  induction k with
  | zero => intro i; constructor <;> simp <;> ring
  | succ k ih =>
    intro i
    rw [Function.iterate_succ_apply']
    simp only [buffered, (ih i).1, (ih i).2]
    constructor <;> ring

theorem iterate_ordered {B : Box n K} (h : B.Ordered) : ∀ k, (buffered^[k] B).Ordered
  | 0 => h
  | k + 1 => by rw [Function.iterate_succ_apply']; exact buffered_ordered (iterate_ordered h k)

theorem polishLoop_placed {lib : NDLib (n + 1) K} {targetDeg : ℕ} {fs : List ((Fin (n + 1) → K) → K)} {deg : ℕ} {V : Box (n + 1) K}
    (hV : V.Ordered) (l : List (NDTols K)) {st st' : NDState (n + 1) K} (h : polishLoop lib targetDeg fs deg l st = .ok st')
    (hd : st.tracker.possibleDuplicates = []) (hst : Placed (buffered V) (buffered (buffered V)) st.tracker) :
    Placed (buffered^[2 * l.length + 1] V) (buffered^[2 * l.length + 2] V) st'.tracker ∧ st'.tracker.possibleDuplicates = [] := by
  induction l generalizing V st with
  | nil =>
    simp only [polishLoop, Except.ok.injEq] at h
    subst h
    exact ⟨hst, hd⟩
  | cons T l ih =>
    simp only [polishLoop] at h
    rcases hs : polishRound lib T targetDeg fs deg st with e | s
    · rw [hs] at h; simp at h
    · rw [hs] at h
      have := ih (V := buffered (buffered V)) (buffered_ordered (buffered_ordered hV)) h (polishRound_dups hs hd) (polishRound_placed hV hs hd hst)
      rw [List.length_cons, show 2 * (l.length + 1) + 1 = (2 * l.length + 1) + 2 by ring, show 2 * (l.length + 1) + 2 = (2 * l.length + 2) + 2 by ring,
        Function.iterate_add_apply _ (2 * l.length + 1) 2, Function.iterate_add_apply _ (2 * l.length + 2) 2]
      exact this

/-- **C85** (location).  Whatever is returned after `R` rounds lies in the box, extended by the factor `(1 + 1e-9)^(2 R - 1)`, up to `1e-9` for roots;
no possible duplicate is left behind. -/
theorem C85_location (lib : NDLib (n + 1) K) (A : TopArgs K) (fs : List ((Fin (n + 1) → K) → K)) (a b : Fin (n + 1) → K)
    (hab : ∀ i, a i ≤ b i) (st : NDState (n + 1) K) (h : subdivideTop lib A fs a b = .ok st) :
    (∀ x ∈ st.tracker.roots, ∀ i,
      |x i - (a i + b i) / 2| ≤ (1 + 1 / 10 ^ 9) ^ (2 * A.more.length + 1) * ((b i - a i) / 2) + 1 / 10 ^ 9) ∧
    (∀ x ∈ st.tracker.potentialRoots, ∀ i, |x i - (a i + b i) / 2| ≤ (1 + 1 / 10 ^ 9) ^ (2 * A.more.length + 1) * ((b i - a i) / 2)) ∧
    st.tracker.possibleDuplicates = [] := by
  unfold subdivideTop at h
  simp only [] at h
  rcases hs : solveKeep lib (clampTols A.first) A.targetDeg A.trust fs (A.deg.getD (defaultDeg fs.length)) ⟨a, b⟩ (topState A) with e | s
  · rw [hs] at h; simp at h
  · rw [hs] at h
    simp only [] at h
    have h0 : (⟨a, b⟩ : Box (n + 1) K).Ordered := hab
    have h1 : Placed (buffered ⟨a, b⟩) (buffered (buffered ⟨a, b⟩)) s.tracker :=
      solveKeep_placed h0 (fun i => ⟨le_rfl, le_rfl⟩) hs ⟨⟨by simp [topState, startRound], by simp [topState, startRound]⟩,
        by simp [topState, startRound], by simp [topState, startRound], by simp [topState, startRound]⟩
    obtain ⟨h2, h3⟩ := polishLoop_placed h0 (A.more.map clampTols) h (solveKeep_dups hs) h1
    rw [List.length_map] at h2
    have hb := fun i => buffered_iterate (⟨a, b⟩ : Box (n + 1) K) (2 * A.more.length + 1) i
    simp only [] at hb
    refine ⟨fun x hx i => ?_, fun x hx i => ?_, h3⟩
    · have := h2.1.1 x hx i
      rw [(hb i).1, (hb i).2] at this
      rw [abs_le]
      constructor <;> linarith
    · have := h2.2.1 x hx i
      rw [(hb i).1, (hb i).2] at this
      rw [abs_le]
      constructor <;> linarith

/-! ### What is returned -/

/-- Spec: `x` is a common zero of arrays `cs` that are, on a box, within the tolerance of the functions; it lies in the box up to `1e-9`. -/
def NearRoot (lib : NDLib n K) (T : NDTols K) (τ : K) (fs : List ((Fin n → K) → K)) (x : Fin n → K) : Prop :=
  ∃ B z cs, B.Ordered ∧ toBox B.lo B.hi z = x ∧ (∀ i, B.lo i - 1 / 10 ^ 9 ≤ x i ∧ x i ≤ B.hi i + 1 / 10 ^ 9) ∧
    (∃ gs, gs.Perm fs ∧ List.Forall₂ (CloseOn lib T τ B) gs cs) ∧ ∀ c ∈ cs, c.eval z = 0

theorem record_all {P : (Fin n → K) → Prop} {st : NDState n K} (hst : st.tracker.AllRoots P) {name : String} {zeros : List (Fin n → K × K)}
    {tol : K} {og B : Box n K} (hz : ∀ w ∈ zeros, (∀ i, og.lo i - 1 / 10 ^ 9 ≤ toBox B.lo B.hi (fun i => (w i).1) i ∧
      toBox B.lo B.hi (fun i => (w i).1) i ≤ og.hi i + 1 / 10 ^ 9) → P (toBox B.lo B.hi fun i => (w i).1)) :
    (record st name zeros tol og B).tracker.AllRoots P := by
  refine (Tracker.addRoots_all hst (fun x hx => ?_) _ _ _).1
  obtain ⟨h, hb⟩ := mem_zerosInInterval.1 hx
  obtain ⟨y, hy, rfl⟩ := List.mem_map.1 h
  simp only [goodZerosND, List.mem_map, List.mem_filter] at hy
  obtain ⟨w, ⟨hw, -⟩, rfl⟩ := hy
  rw [transformPoint_eq] at hb ⊢
  exact hz w hw hb

theorem runs_near {lib : NDLib (n + 1) K} (hS : lib.solve.Exact) {T : NDTols K} {trust : Bool} {k lev : ℕ}
    {fs : List ((Fin (n + 1) → K) → K)} {deg : ℕ} {L : List (Box (n + 1) K)} {st st' : NDState (n + 1) K}
    (h : Runs lib T 1 trust k lev fs deg L st st') (ho : ∀ B ∈ L, B.Ordered) {fs0 : List ((Fin (n + 1) → K) → K)}
    (hperm : fs.Perm fs0) (hf : ∀ f ∈ fs0, Faithful lib f) {τ : K} (hT : T.targetTol ≤ τ)
    (hn : ∀ d, d = deg ∨ d = 2 → ∀ f ∈ fs0, ∀ B, ((d * 2) ^ (n + 1) - d ^ (n + 1) : K) * lib.noise f B ≤ τ) (hst : st.targetTol ≤ τ)
    (hroots : st.tracker.AllRoots (NearRoot lib T τ fs0)) :
    st'.targetTol ≤ τ ∧ st'.tracker.AllRoots (NearRoot lib T τ fs0) := by
  have hev : ∀ {d : ℕ} {gs : List ((Fin (n + 1) → K) → K)} (level : ℕ) (B : Box (n + 1) K) (u : Bool) {s : NDState (n + 1) K}, gs.Perm fs0 →
      (∀ f ∈ fs0, ∀ B, ((d * 2) ^ (n + 1) - d ^ (n + 1) : K) * lib.noise f B ≤ τ) → s.targetTol ≤ τ →
      (evalTols lib T level d gs B u s).targetTol ≤ τ := fun level B u _ hp hd hs =>
    evalTols_target hT (fun f hf' => hd f (hp.mem_iff.1 hf')) level B u hs
  have hin : ∀ {og : Box (n + 1) K}, og.Ordered → ∀ {x : Fin (n + 1) → K}, (∀ i, og.lo i - 1 / 10 ^ 9 ≤ x i ∧ x i ≤ og.hi i + 1 / 10 ^ 9) →
      ∀ i, (buffered og).lo i - 1 / 10 ^ 9 ≤ x i ∧ x i ≤ (buffered og).hi i + 1 / 10 ^ 9 := by
    intro og hog x h i
    have h1 := h i
    have h2 := within_buffered hog i
    constructor <;> linarith
  induction h with
  | nil => exact ⟨hst, hroots⟩
  | @deep lev fs deg og rest st st' _ ih => exact ih (fun B hB => ho B (by simp [hB])) hperm hn hst hroots
  | @bad k lev fs deg og rest st st' u fs2 l L D st2 hp _ hg _ _ ih1 ih2 =>
    have hs := getSub_spec (ho og (by simp)) hg
    have h1 := ih1 (fun B hB => (hs.1 B hB).1) (hp.trans hperm) hn (hev lev og u hperm (hn deg (.inl rfl)) hst)
      (by simpa only [(evalTols_data lib T lev deg fs og u st).2] using hroots)
    exact ih2 (fun B hB => ho B (by simp [hB])) hperm hn h1.1 h1.2
  | @split k lev fs deg og rest st st' u l L D st2 _ hg _ _ ih1 ih2 =>
    have hs := getSub_spec (ho og (by simp)) hg
    have h1 := ih1 (fun B hB => (hs.1 B hB).1) hperm hn (hev lev og u hperm (hn deg (.inl rfl)) hst)
      (by simpa only [(evalTols_data lib T lev deg fs og u st).2] using hroots)
    exact ih2 (fun B hB => ho B (by simp [hB])) hperm hn h1.1 h1.2
  | @retry k lev fs deg og rest st st' u st2 hdeg _ _ ih1 ih2 =>
    have h1 := ih1 (fun B hB => by rw [List.mem_singleton.1 hB]; exact buffered_ordered (ho og (by simp))) hperm
      (fun d hd => hn d (.inr (hd.elim id id))) (hev lev og u hperm (hn deg (.inl rfl)) hst)
      (by simpa only [(evalTols_data lib T lev deg fs og u st).2] using hroots)
    exact ih2 (fun B hB => ho B (by simp [hB])) hperm hn h1.1 h1.2
  | @base k lev fs og rest st st' u l zero tol hl hgood herr h2 hsol _ ih =>
    have hogB := buffered_ordered (ho og (by simp))
    have ht := hev lev og u hperm (hn 2 (.inl rfl)) hst
    refine ih (fun B hB => ho B (by simp [hB])) hperm hn ht (record_all ?_ fun w hw hb => ?_)
    · rw [(evalTols_data lib T lev 2 fs og u st).2]; exact hroots
    · obtain ⟨hc, hc2⟩ := trimmed_close hogB (fun f hf' => hf f (hperm.mem_iff.1 hf')) hl ht hgood herr
      refine ⟨_, _, _, hogB, rfl, hin (ho og (by simp)) hb, ⟨fs, hperm, hc⟩, ?_⟩
      obtain ⟨z, hz, rfl⟩ := List.mem_map.1 hw
      rw [Option.mem_toList] at hz
      rw [hz] at hsol
      exact linear_zero hS (fun c hc => by obtain ⟨q, hq, rfl⟩ := List.mem_map.1 hc; exact (hc2 q hq).1)
        (fun c hc => by obtain ⟨q, hq, rfl⟩ := List.mem_map.1 hc; exact (hc2 q hq).2)
        (fun c hc => by obtain ⟨q, hq, rfl⟩ := List.mem_map.1 hc; exact h2 q hq) hsol
  | @macaulay k lev fs deg og rest st st' u l zeros hl hgood herr hle hne hmac _ ih =>
    have ht := hev lev og u hperm (hn deg (.inl rfl)) hst
    obtain ⟨-, hc2⟩ := trimmed_close (buffered_ordered (ho og (by simp))) (fun f hf' => hf f (hperm.mem_iff.1 hf')) hl ht hgood herr
    obtain ⟨q, hq, hqn⟩ := hne
    have h1 := (hc2 q hq).1 0
    have h2 := hle q hq
    omega

theorem solveKeep_near {lib : NDLib (n + 1) K} (hS : lib.solve.Exact) {T : NDTols K} {trust : Bool}
    {fs : List ((Fin (n + 1) → K) → K)} (hf : ∀ f ∈ fs, Faithful lib f) {B : Box (n + 1) K} (hB : B.Ordered) {deg : ℕ}
    {τ : K} (hT : T.targetTol ≤ τ)
    (hn : ∀ d, d = deg ∨ d = 2 → ∀ f ∈ fs, ∀ B, ((d * 2) ^ (n + 1) - d ^ (n + 1) : K) * lib.noise f B ≤ τ)
    {st st' : NDState (n + 1) K} (h : solveKeep lib T 1 trust fs deg B st = .ok st')
    (hst : st.targetTol ≤ τ ∧ st.tracker.AllRoots (NearRoot lib T τ fs)) : st'.targetTol ≤ τ ∧ st'.tracker.AllRoots (NearRoot lib T τ fs) := by
  unfold solveKeep at h
  rcases hs : solveND lib T 1 trust 52 0 fs B deg (List.replicate fs.length none) false st with e | s
  · rw [hs] at h; simp at h
  · rw [hs] at h
    simp only [Except.ok.injEq] at h
    subst h
    have hr := solveND_runs lib T 1 trust 52 0 fs B deg _ false st s trivial (by simp) hs [] s .nil
    have := runs_near hS hr (fun C hC => by rw [List.mem_singleton.1 hC]; exact hB) (.refl fs) hf hT hn hst.1 hst.2
    exact ⟨this.1, this.2.keep⟩

theorem polishRound_near {lib : NDLib (n + 1) K} (hS : lib.solve.Exact) {T : NDTols K}
    {fs : List ((Fin (n + 1) → K) → K)} (hf : ∀ f ∈ fs, Faithful lib f) {deg : ℕ} {τ : K} (hT : T.targetTol ≤ τ)
    (hn : ∀ d, d = deg ∨ d = 2 → ∀ f ∈ fs, ∀ B, ((d * 2) ^ (n + 1) - d ^ (n + 1) : K) * lib.noise f B ≤ τ) {X : Box (n + 1) K}
    {st st' : NDState (n + 1) K} (h : polishRound lib T 1 fs deg st = .ok st') (hd : st.tracker.possibleDuplicates = [])
    (hb : st.tracker.Boxed X) : st'.tracker.AllRoots (NearRoot lib T τ fs) := by
  unfold polishRound at h
  refine (descend_induct (P := fun s => s.targetTol ≤ τ ∧ s.tracker.AllRoots (NearRoot lib T τ fs)) ?_ h
    ⟨hT, by simp [Tracker.getPolish], fun d hd' => by simp [Tracker.getPolish, hd] at hd'⟩).2
  intro B hB s s' hs hp
  obtain ⟨J, hJ, rfl⟩ := List.mem_map.1 hB
  exact solveKeep_near hS hf (hb.1 J (List.mem_dedup.1 hJ)).1 hT hn hs hp

/-- **C85** (residual, partial).  With `target_deg = 1` (the default) every root that is returned was found in the last round, with the tolerances of
that round: on some box, arrays are within `τ + rel_approx_tol * norm` of the functions, and the root is a common zero of them (`τ` bounds the
target tolerance and the noise that may replace it).  If the root is in that box, this is a bound for the residual.

Missing: for approximations with a coefficient of highest total degree it is false (`C84_residual_false`); a root may be up to `1e-9` outside of the
box, where nothing is known. -/
theorem C85_residual_partial (lib : NDLib (n + 1) K) (hS : lib.solve.Exact) (A : TopArgs K) (hA : A.targetDeg = 1)
    (fs : List ((Fin (n + 1) → K) → K)) (hf : ∀ f ∈ fs, Faithful lib f) (a b : Fin (n + 1) → K) (hab : ∀ i, a i ≤ b i)
    (τ : K) (hT : (A.more.getLastD A.first).targetTol ≤ τ)
    (hn : ∀ d, d = A.deg.getD (defaultDeg fs.length) ∨ d = 2 → ∀ f ∈ fs, ∀ B, ((d * 2) ^ (n + 1) - d ^ (n + 1) : K) * lib.noise f B ≤ τ)
    (st : NDState (n + 1) K) (h : subdivideTop lib A fs a b = .ok st) :
    ∀ x ∈ st.tracker.roots, ∃ B z, B.Ordered ∧ toBox B.lo B.hi z = x ∧ (∀ i, B.lo i - 1 / 10 ^ 9 ≤ x i ∧ x i ≤ B.hi i + 1 / 10 ^ 9) ∧
      ∀ f ∈ fs, ∃ (d : ℕ) (tol : K) (g : Option ℕ) (M : Tensor (n + 1) K) (norm err : K) (c : Tensor (n + 1) K), lib.approx f B d tol g = (some M, norm, err) ∧ c.eval z = 0 ∧
        (∀ t, InCube t → |f (toBox B.lo B.hi t) - c.eval t| ≤ τ + (A.more.getLastD A.first).relTol * norm) ∧
        (InCube z → |f x| ≤ τ + (A.more.getLastD A.first).relTol * norm) := by
  have key : st.tracker.AllRoots (NearRoot lib (clampTols (A.more.getLastD A.first)) τ fs) := by
    unfold subdivideTop at h
    simp only [hA] at h
    rcases hs : solveKeep lib (clampTols A.first) 1 A.trust fs (A.deg.getD (defaultDeg fs.length)) ⟨a, b⟩ (topState A) with e | s
    · rw [hs] at h; simp at h
    · rw [hs] at h
      simp only [] at h
      have h0 : (⟨a, b⟩ : Box (n + 1) K).Ordered := hab
      rcases List.eq_nil_or_concat A.more with hm | ⟨l, T, hm⟩
      · rw [hm] at h hT ⊢
        simp only [List.map_nil, polishLoop, Except.ok.injEq] at h
        subst h
        exact (solveKeep_near hS hf h0 (T := clampTols A.first) hT hn hs ⟨hT, by simp [topState, startRound], by simp [topState, startRound]⟩).2
      · have h1 : Placed (buffered ⟨a, b⟩) (buffered (buffered ⟨a, b⟩)) s.tracker :=
          solveKeep_placed h0 (fun i => ⟨le_rfl, le_rfl⟩) hs ⟨⟨by simp [topState, startRound], by simp [topState, startRound]⟩,
            by simp [topState, startRound], by simp [topState, startRound], by simp [topState, startRound]⟩
        rw [List.concat_eq_append] at hm
        rw [hm, List.map_append] at h
        rw [hm, List.getLastD_concat] at hT ⊢
        have happ : ∀ (l : List (NDTols K)) (s : NDState (n + 1) K),
            polishLoop lib 1 fs (A.deg.getD (defaultDeg fs.length)) (l ++ [clampTols T]) s = .ok st →
            ∃ s', polishLoop lib 1 fs (A.deg.getD (defaultDeg fs.length)) l s = .ok s' ∧
              polishRound lib (clampTols T) 1 fs (A.deg.getD (defaultDeg fs.length)) s' = .ok st := by
          intro l
          induction l with
          | nil =>
            intro s h
            refine ⟨s, rfl, ?_⟩
            simp only [List.nil_append, polishLoop] at h
            rcases hr : polishRound lib (clampTols T) 1 fs (A.deg.getD (defaultDeg fs.length)) s with e | s'
            · rw [hr] at h; simp at h
            · rw [hr] at h; exact h
          | cons T' l ih =>
            intro s h
            simp only [List.cons_append, polishLoop] at h ⊢
            rcases hr : polishRound lib T' 1 fs (A.deg.getD (defaultDeg fs.length)) s with e | s'
            · rw [hr] at h; simp at h
            · rw [hr] at h
              exact ih s' h
        obtain ⟨s', h2, h3⟩ := happ (l.map clampTols) s h
        obtain ⟨h4, h5⟩ := polishLoop_placed h0 _ h2 (solveKeep_dups hs) h1
        exact polishRound_near hS hf (T := clampTols T) hT hn h3 h5 h4.2.2
  intro x hx
  obtain ⟨B, z, cs, hB, hzx, hin, ⟨gs, hperm, hcl⟩, hz⟩ := key.1 x hx
  refine ⟨B, z, hB, hzx, hin, fun f hf' => ?_⟩
  obtain ⟨i, hi, rfl⟩ := List.getElem_of_mem (hperm.mem_iff.2 hf')
  have hlen := hcl.length_eq
  obtain ⟨d, tol, g, M, norm, err, ha, hb⟩ := hcl.get hi (hlen ▸ hi)
  rw [List.get_eq_getElem, List.get_eq_getElem] at hb
  refine ⟨d, tol, g, M, norm, err, _, ha, hz _ (List.getElem_mem _), hb, fun hzc => ?_⟩
  have := hb z hzc
  rw [hz _ (List.getElem_mem _), sub_zero, hzx] at this
  exact this

/-! ### What polishing leaves as it is -/

/-- The potential roots and the tracked intervals of `st` are still there. -/
def Kept (st st' : NDState n K) : Prop :=
  st.tracker.potentialRoots <+: st'.tracker.potentialRoots ∧ st'.data.polishing = st.data.polishing ∧
    (st.data.polishing = true → st'.data.results = st.data.results)

theorem Kept.trans {s1 s2 s3 : NDState n K} (h : Kept s1 s2) (h' : Kept s2 s3) : Kept s1 s3 :=
  ⟨h.1.trans h'.1, h'.2.1.trans h.2.1, fun hp => (h'.2.2 (h.2.1.trans hp)).trans (h.2.2 hp)⟩

theorem solveKeep_kept {lib : NDLib (n + 1) K} {T : NDTols K} {targetDeg : ℕ} {trust : Bool}
    {fs : List ((Fin (n + 1) → K) → K)} {B : Box (n + 1) K} (hB : B.Ordered) {deg : ℕ}
    {st st' : NDState (n + 1) K} (h : solveKeep lib T targetDeg trust fs deg B st = .ok st') : Kept st st' := by
  unfold solveKeep at h
  rcases hs : solveND lib T targetDeg trust 52 0 fs B deg (List.replicate fs.length none) false st with e | s
  · rw [hs] at h; simp at h
  · rw [hs] at h
    simp only [Except.ok.injEq] at h
    subst h
    have hr := solveND_runs lib T targetDeg trust 52 0 fs B deg _ false st s trivial (by simp) hs [] s .nil
    have ho : ∀ C ∈ [B], C.Ordered := fun C hC => by rw [List.mem_singleton.1 hC]; exact hB
    refine ⟨?_, (runs_grows hr ho).polishing, (runs_grows hr ho).frozen⟩
    have := runs_tracker hr (P := fun t => st.tracker.potentialRoots <+: t.potentialRoots) (Q := fun _ => True) (fun _ _ _ _ _ => trivial)
      (fun og s _ _ h => h.trans (List.prefix_append _ _)) (fun og zs m s _ _ h => ?_) ho (fun C _ => by split_ifs <;> trivial) (List.prefix_refl _)
    · rw [(Tracker.keep_eq _).2.1]; exact this
    · rw [(Tracker.addRoots_all (P := fun _ => True) (s := s) ⟨fun _ _ => trivial, fun _ _ => trivial⟩ (fun _ _ => trivial) _ _ _).2]; exact h

theorem polishRound_kept {lib : NDLib (n + 1) K} {T : NDTols K} {targetDeg : ℕ} {fs : List ((Fin (n + 1) → K) → K)} {deg : ℕ} {X : Box (n + 1) K}
    {st st' : NDState (n + 1) K} (h : polishRound lib T targetDeg fs deg st = .ok st') (hb : st.tracker.Boxed X) :
    Kept { st with data := { st.data with polishing := true } } st' := by
  unfold polishRound at h
  refine descend_induct (P := Kept { st with data := { st.data with polishing := true } }) ?_ h ⟨List.prefix_refl _, rfl, fun _ => rfl⟩
  intro B hB s s' hs hp
  obtain ⟨J, hJ, rfl⟩ := List.mem_map.1 hB
  have := solveKeep_kept (hb.1 J (List.mem_dedup.1 hJ)).1 hs
  exact hp.trans this

theorem polishLoop_kept {lib : NDLib (n + 1) K} {targetDeg : ℕ} {fs : List ((Fin (n + 1) → K) → K)} {deg : ℕ} {V : Box (n + 1) K}
    (hV : V.Ordered) (l : List (NDTols K)) {st st' : NDState (n + 1) K} (h : polishLoop lib targetDeg fs deg l st = .ok st')
    (hd : st.tracker.possibleDuplicates = []) (hst : Placed (buffered V) (buffered (buffered V)) st.tracker) :
    st.tracker.potentialRoots <+: st'.tracker.potentialRoots ∧ st'.data.results = st.data.results := by
  induction l generalizing V st with
  | nil =>
    simp only [polishLoop, Except.ok.injEq] at h
    subst h
    exact ⟨List.prefix_refl _, rfl⟩
  | cons T l ih =>
    simp only [polishLoop] at h
    rcases hs : polishRound lib T targetDeg fs deg st with e | s
    · rw [hs] at h; simp at h
    · rw [hs] at h
      have h1 := polishRound_kept hs hst.2.2
      have h2 := ih (V := buffered (buffered V)) (buffered_ordered (buffered_ordered hV)) h (polishRound_dups hs hd) (polishRound_placed hV hs hd hst)
      exact ⟨h1.1.trans h2.1, h2.2.trans (h1.2.2 rfl)⟩

theorem subdivideTop_kept {lib : NDLib (n + 1) K} {A : TopArgs K} {fs : List ((Fin (n + 1) → K) → K)} {a b : Fin (n + 1) → K}
    (hab : ∀ i, a i ≤ b i) {st : NDState (n + 1) K} (h : subdivideTop lib A fs a b = .ok st) :
    ∃ s, solveKeep lib (clampTols A.first) A.targetDeg A.trust fs (A.deg.getD (defaultDeg fs.length)) ⟨a, b⟩ (topState A) = .ok s ∧
      s.tracker.potentialRoots <+: st.tracker.potentialRoots ∧ st.data.results = s.data.results := by
  unfold subdivideTop at h
  simp only [] at h
  rcases hs : solveKeep lib (clampTols A.first) A.targetDeg A.trust fs (A.deg.getD (defaultDeg fs.length)) ⟨a, b⟩ (topState A) with e | s
  · rw [hs] at h; simp at h
  · rw [hs] at h
    have h0 : (⟨a, b⟩ : Box (n + 1) K).Ordered := hab
    exact ⟨s, rfl, polishLoop_kept h0 _ h (solveKeep_dups hs) (solveKeep_placed h0 (fun i => ⟨le_rfl, le_rfl⟩) hs
      ⟨⟨by simp [topState, startRound], by simp [topState, startRound]⟩, by simp [topState, startRound], by simp [topState, startRound],
        by simp [topState, startRound]⟩)⟩

/-- **C85** (potential roots).  Polishing only adds potential roots: those of the first round are returned, in front, whatever the other rounds find.
The tracked intervals are those of the first round. -/
theorem C85_potential (lib : NDLib (n + 1) K) (A : TopArgs K) (fs : List ((Fin (n + 1) → K) → K)) (a b : Fin (n + 1) → K)
    (hab : ∀ i, a i ≤ b i) (st st1 : NDState (n + 1) K) (h1 : subdivideTop lib { A with more := [] } fs a b = .ok st1)
    (h : subdivideTop lib A fs a b = .ok st) :
    st1.tracker.potentialRoots <+: st.tracker.potentialRoots ∧ st.data.results = st1.data.results := by
  obtain ⟨s, hs, hk⟩ := subdivideTop_kept hab h
  unfold subdivideTop at h1
  simp only [] at h1
  have ht : (topState { A with more := [] } : NDState (n + 1) K) = topState A := rfl
  rw [ht, hs] at h1
  simp only [List.map_nil, polishLoop, Except.ok.injEq] at h1
  exact h1 ▸ hk

/-- **C85** (cover, partial).  Every common zero in the box lies in an interval that the first round tracked as "Base Case", "Macaulay" or "Too Deep";
the polishing rounds do not change these results.

Missing: as for `C83_cover_partial`. -/
theorem C85_cover_partial (lib : NDLib (n + 1) K) (hS : lib.solve.Exact) (hla : ∀ T : Finset (Fin (n + 1)), T.Nonempty → lib.rank.ExactOn T)
    (hn : n + 1 ≤ 3) (A : TopArgs K) (fs : List ((Fin (n + 1) → K) → K)) (hacc : ∀ f ∈ fs, AccurateInside lib f) (a b : Fin (n + 1) → K)
    (st : NDState (n + 1) K) (h : subdivideTop lib A fs a b = .ok st)
    (x : Fin (n + 1) → K) (hx : ∀ f ∈ fs, f x = 0) (hab : ∀ i, a i ≤ x i ∧ x i ≤ b i) :
    ∃ r ∈ st.data.results, r.1 ∈ leafNames ∧ ∀ i, r.2.lo i ≤ x i ∧ x i ≤ r.2.hi i := by
  obtain ⟨s, hs, hk⟩ := subdivideTop_kept (fun i => (hab i).1.trans (hab i).2) h
  unfold solveKeep at hs
  rcases hr : solveND lib (clampTols A.first) A.targetDeg A.trust 52 0 fs ⟨a, b⟩ (A.deg.getD (defaultDeg fs.length))
    (List.replicate fs.length none) false (topState A) with e | s0
  · rw [hr] at hs; simp at hs
  · rw [hr] at hs
    simp only [Except.ok.injEq] at hs
    subst hs
    obtain ⟨r, h1, h2⟩ := C83_cover_partial lib hS hla hn _ _ _ _ _ fs a b _ _ (by simp) _ _ _ (by simp [topState, startRound]) hacc hr x hx hab
    exact ⟨r, hk.2 ▸ h1, h2⟩

end YRoots.Legacy
