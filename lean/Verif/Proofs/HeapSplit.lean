import Verif.Proofs.HeapZoom
import Mathlib.Algebra.Order.Field.Basic

/-!
# Reference model of the solver: subdivision
-/

set_option linter.unusedSectionVars false
set_option linter.unusedVariables false
set_option linter.unusedSimpArgs false

namespace YRoots

namespace Heap

variable {n : ℕ} {K : Type*}

/-! ### Objects keep their references -/

/-- All objects refer to the same cells as before. -/
def Refs (h h' : Heap n K) : Prop := ∀ p, ∃ b : Bool, h'.obj p = { h.obj p with empty := b }

theorem Refs.trans {h h' h'' : Heap n K} (a : Refs h h') (b : Refs h' h'') : Refs h h'' := by
  intro p
  obtain ⟨x, hx⟩ := a p
  obtain ⟨y, hy⟩ := b p
  exact ⟨y, by rw [hy, hx]⟩

theorem Refs.of_eq {h h' : Heap n K} (e : h'.obj = h.obj) : Refs h h' := fun p => ⟨(h.obj p).empty, by rw [e]⟩

theorem Refs.selfSep {h h' : Heap n K} (r : Refs h h') {o : ℕ} (s : SelfSep h o) : SelfSep h' o := by
  obtain ⟨b, hb⟩ := r o
  refine ⟨?_, ?_, ?_⟩ <;> rw [hb]
  exacts [s.top, s.preI, s.preT]

theorem Refs.apart {h h' : Heap n K} (r : Refs h h') {o p : ℕ} (a : Apart h o p) : Apart h' o p := by
  obtain ⟨b, hb⟩ := r o
  obtain ⟨c, hc⟩ := r p
  refine ⟨a.self, ?_, ?_, ?_, ?_, ?_, ?_⟩ <;> rw [hb, hc]
  exacts [a.top, a.interval, a.preI, a.transforms, a.preT, a.dup]

theorem Refs.valid {h h' : Heap n K} (r : Refs h h') (hn : h'.next = h.next) {o : ℕ} (v : Valid h o) : Valid h' o := by
  obtain ⟨b, hb⟩ := r o
  refine ⟨?_, ?_, ?_, ?_, ?_, ?_, ?_, ?_⟩ <;> rw [hn] <;> first | exact v.self | rw [hb]
  exacts [v.top, v.interval, v.transforms, v.dup, v.nxt, v.preI, v.preT]

theorem Refs.fresh {h0 h h' : Heap n K} (r : Refs h h') {o : ℕ} (f : Fresh h0 h o) : Fresh h0 h' o := by
  obtain ⟨b, hb⟩ := r o
  refine ⟨f.self, ?_, ?_, ?_⟩ <;> rw [hb]
  exacts [f.interval, f.transforms, f.dup]

/-- The array `a` is none of those of the object. -/
structure BoxApart (h : Heap n K) (o a : ℕ) : Prop where
  top : (h.obj o).topInterval ≠ a
  interval : (h.obj o).interval ≠ a
  preI : (h.obj o).preFinalInterval ≠ a

theorem Refs.boxApart {h h' : Heap n K} (r : Refs h h') {o a : ℕ} (s : BoxApart h o a) : BoxApart h' o a := by
  obtain ⟨b, hb⟩ := r o
  refine ⟨?_, ?_, ?_⟩ <;> rw [hb]
  exacts [s.top, s.interval, s.preI]

theorem BoxApart.view {h : Heap n K} {o a : ℕ} (s : BoxApart h o a) (v : Box n K) : (h.setBox a v).view o = h.view o := by
  simp [Heap.view, setBox, Function.update_of_ne s.top, Function.update_of_ne s.interval, Function.update_of_ne s.preI]

theorem setVec_view_self (h : Heap n K) (o : ℕ) (v : Fin n → K) :
    (h.setVec (h.obj o).nextTransformPoints v).view o = { h.view o with nextTransformPoints := v } := by
  simp [Heap.view, setVec]

theorem setVec_view_ne (h : Heap n K) {o a : ℕ} (hne : (h.obj o).nextTransformPoints ≠ a) (v : Fin n → K) :
    (h.setVec a v).view o = h.view o := by
  simp [Heap.view, setVec, Function.update_of_ne hne]

variable [Field K] [LinearOrder K]

theorem addTransform_refs (h : Heap n K) (o sub : ℕ) (hne : sub ≠ (h.obj o).interval) : Refs h (h.addTransform o sub) := by
  obtain ⟨f1, f2, f3, f4, f5, f6, f7, f8, f9⟩ := addTransform_frame h o sub hne
  intro p
  by_cases hp : p = o
  · subst hp; exact f7
  · exact ⟨(h.obj p).empty, by rw [f6 p hp]⟩

theorem Ext.addTransform {h0 h : Heap n K} (e : Ext h0 h) {o sub : ℕ} (f : Fresh h0 h o) (hs : h0.next ≤ sub)
    (hne : sub ≠ (h.obj o).interval) : Ext h0 (h.addTransform o sub) := by
  obtain ⟨f1, f2, f3, f4, f5, f6, f7, f8, f9⟩ := addTransform_frame h o sub hne
  have g1 := f.self
  have g2 := f.interval
  have g3 := f.transforms
  constructor
  · rw [f1]; exact e.next_le
  · intro a ha; rw [f8 a (by omega) (by omega)]; exact e.box a ha
  · intro a ha; rw [f9 a (by omega)]; exact e.trs a ha
  · intro a ha; rw [f2]; exact e.pts a ha
  · intro a ha; rw [f3]; exact e.vec a ha
  · intro a ha; rw [f4]; exact e.tensor a ha
  · intro a ha; rw [f5]; exact e.mlist a ha
  · intro a ha; rw [f6 a (by omega)]; exact e.obj a ha

/-! ### The halves of an interval -/

theorem copyTI_boxApart (h : Heap n K) (o : ℕ) {a : ℕ} (ha : a < h.next) (hne : (h.obj o).topInterval ≠ a) :
    BoxApart (h.copyTI o).1 (h.copyTI o).2 a := by
  refine ⟨?_, ?_, ?_⟩ <;> rw [copyTI_obj] <;> split_ifs <;> dsimp only <;> first | exact hne | omega

/-- Two copies of one object, one after the other. -/
theorem copyTI_twice (h : Heap n K) {o : ℕ} (v : Valid h o) :
    Apart ((h.copyTI o).1.copyTI o).1 (h.copyTI o).2 ((h.copyTI o).1.copyTI o).2 ∧
    Apart ((h.copyTI o).1.copyTI o).1 ((h.copyTI o).1.copyTI o).2 (h.copyTI o).2 ∧
    (((h.copyTI o).1.copyTI o).1.obj (h.copyTI o).2).nextTransformPoints ≠
      (((h.copyTI o).1.copyTI o).1.obj ((h.copyTI o).1.copyTI o).2).nextTransformPoints := by
  have e1 := (Ext.refl h).copyTI o
  have e2 := (Ext.refl (h.copyTI o).1).copyTI o
  have v1 := copyTI_valid' h v
  have ho : (h.copyTI o).1.obj o = h.obj o := e1.obj o v.self
  have h1 : ((h.copyTI o).1.copyTI o).1.obj (h.copyTI o).2 = (h.copyTI o).1.obj (h.copyTI o).2 := e2.obj _ v1.self
  have t := v.top
  have f1 := copyTI_fresh h o
  have a0 := v1.self
  have a1 := v1.interval
  have a2 := v1.transforms
  have a3 := v1.dup
  have a4 := v1.nxt
  have a5 := v1.preI
  have a6 := v1.preT
  have g0 := f1.interval
  have tt : ((h.copyTI o).1.obj (h.copyTI o).2).topInterval = (h.obj o).topInterval := by
    rw [copyTI_obj]; split_ifs <;> rfl
  refine ⟨⟨?_, ?_, ?_, ?_, ?_, ?_, ?_⟩, ⟨?_, ?_, ?_, ?_, ?_, ?_, ?_⟩, ?_⟩
  · rw [copyTI_snd (h.copyTI o).1]; omega
  all_goals first
    | (rw [h1, copyTI_obj (h.copyTI o).1, ho]; split_ifs <;> dsimp only <;> omega)
    | (rw [copyTI_snd (h.copyTI o).1]; omega)

variable [FloorSemiring K] [IsStrictOrderedRing K]

theorem clampSub_unit_row {B : Box n K} {i : Fin n} (h1 : B.lo i = -1) (h2 : B.hi i = 1) :
    (TrackedInterval.clampSub B).lo i = -1 ∧ (TrackedInterval.clampSub B).hi i = 1 := by
  have h : (-1 : K) ≤ 1 := by linarith [zero_lt_one (α := K)]
  simp [TrackedInterval.clampSub, h1, h2, h]

theorem splitIntervalH_spec (mid : Fin n → K) (d : Fin n) (h : Heap n K) {o : ℕ} {t : TrackedInterval n K}
    (r : ObjRel h o t) :
    Ext h (splitIntervalH mid d h o).1 ∧
      List.Forall₂ (fun c u => ObjRel (splitIntervalH mid d h o).1 c u ∧ h.next ≤ c) (splitIntervalH mid d h o).2
        [splitInterval mid d false t, splitInterval mid d true t] := by
  unfold splitIntervalH
  obtain ⟨H1, hH1⟩ : ∃ H1, H1 = (h.allocBox ⟨fun _ => -1, fun _ => 1⟩).1 := ⟨_, rfl⟩
  have hs : (h.allocBox ⟨fun _ => -1, fun _ => 1⟩).2 = h.next := rfl
  simp only
  rw [← hH1, hs]
  obtain ⟨N, hN⟩ : ∃ N, N = h.next := ⟨_, rfl⟩
  rw [← hN]
  have E1 : Ext h H1 := by rw [hH1]; exact (Ext.refl h).allocBox _
  have n1 : N < H1.next := by rw [hH1, hN]; exact Nat.lt_succ_self _
  have b1 : H1.box N = ⟨fun _ => -1, fun _ => 1⟩ := by rw [hH1, hN]; simp [allocBox]
  have r1 := r.ext E1
  have ho1 : H1.obj o = h.obj o := E1.obj o r.valid.self
  have htop : (H1.obj o).topInterval ≠ N := by rw [ho1, hN]; exact r.valid.top.ne
  have C1 := copyTI_rel H1 r1
  have E2 : Ext H1 (H1.copyTI o).1 := (Ext.refl H1).copyTI o
  have r2 := r1.ext E2
  have ho2 : (H1.copyTI o).1.obj o = H1.obj o := E2.obj o r1.valid.self
  have C2 := copyTI_rel (H1.copyTI o).1 r2
  have E3 : Ext (H1.copyTI o).1 ((H1.copyTI o).1.copyTI o).1 := (Ext.refl _).copyTI o
  obtain ⟨A12, A21, NX⟩ := copyTI_twice H1 r1.valid
  have F1 := copyTI_fresh H1 o
  have F2 := copyTI_fresh (H1.copyTI o).1 o
  have S1 := copyTI_selfSep H1 r1.valid
  have S2 := copyTI_selfSep (H1.copyTI o).1 r2.valid
  have B1 := copyTI_boxApart H1 o n1 htop
  have B2 := copyTI_boxApart (H1.copyTI o).1 o (n1.trans_le E2.next_le) (by rw [ho2]; exact htop)
  have X1 : (H1.copyTI o).1.next ≤ ((H1.copyTI o).1.obj (H1.copyTI o).2).nextTransformPoints ∨
    H1.next ≤ ((H1.copyTI o).1.obj (H1.copyTI o).2).nextTransformPoints := by
    right; rw [copyTI_obj]; split_ifs <;> dsimp only <;> omega
  have X1 : H1.next ≤ ((H1.copyTI o).1.obj (H1.copyTI o).2).nextTransformPoints := by
    rcases X1 with x | x
    · exact E2.next_le.trans x
    · exact x
  have X2 : (H1.copyTI o).1.next ≤ (((H1.copyTI o).1.copyTI o).1.obj ((H1.copyTI o).1.copyTI o).2).nextTransformPoints := by
    rw [copyTI_obj (H1.copyTI o).1]; split_ifs <;> dsimp only <;> omega
  generalize (H1.copyTI o).2 = c1 at C1 E2 r2 ho2 C2 E3 A12 A21 NX F1 F2 S1 S2 B1 B2 X1 X2 ⊢
  generalize (H1.copyTI o).1 = H2 at C1 E2 r2 ho2 C2 E3 A12 A21 NX F1 F2 S1 S2 B1 B2 X1 X2 ⊢
  generalize (H2.copyTI o).2 = c2 at C1 E2 r2 ho2 C2 E3 A12 A21 NX F1 F2 S1 S2 B1 B2 X1 X2 ⊢
  generalize (H2.copyTI o).1 = H3 at C1 E2 r2 ho2 C2 E3 A12 A21 NX F1 F2 S1 S2 B1 B2 X1 X2 ⊢
  -- everything at `H3`
  have o1 : H3.obj c1 = H2.obj c1 := E3.obj c1 C1.valid.self
  have R1 : ObjRel H3 c1 t.copy := C1.ext E3
  have SS1 : SelfSep H3 c1 := by refine ⟨?_, ?_, ?_⟩ <;> rw [o1]; exacts [S1.top, S1.preI, S1.preT]
  have BB1 : BoxApart H3 c1 N := by refine ⟨?_, ?_, ?_⟩ <;> rw [o1]; exacts [B1.top, B1.interval, B1.preI]
  have FF1 : Fresh h H3 c1 := by
    have := E1.next_le
    refine ⟨this.trans F1.self, ?_, ?_, ?_⟩ <;> rw [o1]
    exacts [this.trans F1.interval, this.trans F1.transforms, this.trans F1.dup]
  have FF2 : Fresh h H3 c2 := by
    have := E1.next_le.trans E2.next_le
    exact ⟨this.trans F2.self, this.trans F2.interval, this.trans F2.transforms, this.trans F2.dup⟩
  have b3 : H3.box N = ⟨fun _ => -1, fun _ => 1⟩ := by
    rw [E3.box N (n1.trans_le E2.next_le), E2.box N n1, b1]
  have Eh3 : Ext h H3 := (E1.trans E2).trans E3
  have hNle : h.next ≤ N := hN.ge
  -- `H4`
  obtain ⟨u1, hu1⟩ : ∃ u1 : Box n K, u1 = ⟨fun _ => -1, Function.update (fun _ => 1) d (mid d)⟩ := ⟨_, rfl⟩
  obtain ⟨u2, hu2⟩ : ∃ u2 : Box n K, u2 = ⟨Function.update (fun _ => -1) d (mid d), fun _ => 1⟩ := ⟨_, rfl⟩
  have hb : (⟨Function.update (H3.box N).lo d (-1), Function.update (H3.box N).hi d (mid d)⟩ : Box n K) = u1 := by
    rw [b3, hu1]
    congr 1
    funext i
    by_cases hi : i = d
    · subst hi; simp
    · simp [hi]
  rw [hb]
  obtain ⟨H4, hH4⟩ : ∃ H4, H4 = H3.setBox N u1 := ⟨_, rfl⟩
  rw [← hH4]
  have Rf4 : Refs H3 H4 := Refs.of_eq (by rw [hH4]; rfl)
  have nx4 : H4.next = H3.next := by rw [hH4]; rfl
  have box4 : H4.box N = u1 := by rw [hH4]; exact setBox_box _ _ _
  have Eh4 : Ext h H4 := by rw [hH4]; exact Eh3.setBox hNle _
  have V41 : H4.view c1 = t.copy := by rw [hH4, BB1.view, R1.eq]
  have V42 : H4.view c2 = t.copy := by rw [hH4, B2.view, C2.eq]
  -- `H5`
  have ne5 : N ≠ (H4.obj c1).interval := (Rf4.boxApart BB1).interval.symm
  have V51 : (H4.addTransform c1 N).view c1 = t.copy.addTransform u1 := by
    rw [addTransform_view H4 (Rf4.selfSep SS1) ne5 (Rf4.boxApart BB1).top (Rf4.boxApart BB1).preI, V41, box4]
  have V52 : (H4.addTransform c1 N).view c2 = t.copy := by
    rw [addTransform_other H4 ne5 (Rf4.apart A12) (Rf4.boxApart B2).top (Rf4.boxApart B2).interval
      (Rf4.boxApart B2).preI, V42]
  have Rf5 : Refs H3 (H4.addTransform c1 N) := Rf4.trans (addTransform_refs H4 c1 N ne5)
  have nx5 : (H4.addTransform c1 N).next = H3.next := by rw [addTransform_next H4 c1 N ne5, nx4]
  have Eh5 : Ext h (H4.addTransform c1 N) := Eh4.addTransform (Rf4.fresh FF1) hNle ne5
  have box5 : (⟨Function.update ((H4.addTransform c1 N).box N).lo d (mid d),
      Function.update ((H4.addTransform c1 N).box N).hi d 1⟩ : Box n K) = u2 := by
    have hrow : ∀ i, i ≠ d → ((H4.addTransform c1 N).box N).lo i = -1 ∧ ((H4.addTransform c1 N).box N).hi i = 1 := by
      intro i hi
      have k1 : u1.lo i = -1 := by rw [hu1]
      have k2 : u1.hi i = 1 := by rw [hu1]; simp [hi]
      rcases addTransform_sub H4 c1 N ne5 with x | x <;> rw [x, box4]
      · exact ⟨k1, k2⟩
      · exact clampSub_unit_row k1 k2
    rw [hu2]
    congr 1
    · funext i
      by_cases hi : i = d
      · subst hi; simp
      · simp only [Function.update_of_ne hi]; exact (hrow i hi).1
    · funext i
      by_cases hi : i = d
      · subst hi; simp
      · simp only [Function.update_of_ne hi]; exact (hrow i hi).2
  generalize H4.addTransform c1 N = H5 at V51 V52 Rf5 nx5 Eh5 box5 ⊢
  rw [box5]
  -- `H6`
  obtain ⟨H6, hH6⟩ : ∃ H6, H6 = H5.setBox N u2 := ⟨_, rfl⟩
  rw [← hH6]
  have Rf6 : Refs H3 H6 := Rf5.trans (Refs.of_eq (by rw [hH6]; rfl))
  have nx6 : H6.next = H3.next := by rw [hH6]; exact nx5
  have box6 : H6.box N = u2 := by rw [hH6]; exact setBox_box _ _ _
  have Eh6 : Ext h H6 := by rw [hH6]; exact Eh5.setBox hNle _
  have V61 : H6.view c1 = t.copy.addTransform u1 := by rw [hH6, (Rf5.boxApart BB1).view, V51]
  have V62 : H6.view c2 = t.copy := by rw [hH6, (Rf5.boxApart B2).view, V52]
  -- `H7`
  have ne7 : N ≠ (H6.obj c2).interval := (Rf6.boxApart B2).interval.symm
  have V72 : (H6.addTransform c2 N).view c2 = t.copy.addTransform u2 := by
    rw [addTransform_view H6 (Rf6.selfSep S2) ne7 (Rf6.boxApart B2).top (Rf6.boxApart B2).preI, V62, box6]
  have V71 : (H6.addTransform c2 N).view c1 = t.copy.addTransform u1 := by
    rw [addTransform_other H6 ne7 (Rf6.apart A21) (Rf6.boxApart BB1).top (Rf6.boxApart BB1).interval
      (Rf6.boxApart BB1).preI, V61]
  have Rf7 : Refs H3 (H6.addTransform c2 N) := Rf6.trans (addTransform_refs H6 c2 N ne7)
  have nx7 : (H6.addTransform c2 N).next = H3.next := by rw [addTransform_next H6 c2 N ne7, nx6]
  have Eh7 : Ext h (H6.addTransform c2 N) := Eh6.addTransform (Rf6.fresh FF2) hNle ne7
  generalize H6.addTransform c2 N = H7 at V71 V72 Rf7 nx7 Eh7 ⊢
  have xn1 : (H7.obj c1).nextTransformPoints = (H3.obj c1).nextTransformPoints := by
    obtain ⟨b, hb⟩ := Rf7 c1; rw [hb]
  have xn2 : (H7.obj c2).nextTransformPoints = (H3.obj c2).nextTransformPoints := by
    obtain ⟨b, hb⟩ := Rf7 c2; rw [hb]
  -- `H8`
  obtain ⟨H8, hH8⟩ : ∃ H8, H8 = H7.setVec (H7.obj c1).nextTransformPoints
    (Function.update (H7.vec (H7.obj c1).nextTransformPoints) d 0) := ⟨_, rfl⟩
  rw [← hH8]
  have hvec : H7.vec (H7.obj c1).nextTransformPoints = (t.copy.addTransform u1).nextTransformPoints := by
    rw [← V71]; rfl
  have V81 : H8.view c1 = splitInterval mid d false t := by
    rw [hH8, setVec_view_self, V71, hvec, hu1]
    rfl
  have V82 : H8.view c2 = t.copy.addTransform u2 := by
    rw [hH8, setVec_view_ne _ (by rw [xn1, xn2]; exact NX.symm), V72]
  have ob8 : H8.obj = H7.obj := by rw [hH8]; rfl
  have Rf8 : Refs H3 H8 := Rf7.trans (Refs.of_eq ob8)
  have nx8 : H8.next = H3.next := by rw [hH8]; exact nx7
  have y1 : h.next ≤ (H7.obj c1).nextTransformPoints := by rw [xn1, o1]; exact E1.next_le.trans X1
  have y2 : h.next ≤ (H8.obj c2).nextTransformPoints := by
    rw [ob8, xn2]; exact (E1.next_le.trans E2.next_le).trans X2
  have Eh8 : Ext h H8 := by rw [hH8]; exact Eh7.setVec y1 _
  -- the end
  obtain ⟨H9, hH9⟩ : ∃ H9, H9 = H8.setVec (H8.obj c2).nextTransformPoints
    (Function.update (H8.vec (H8.obj c2).nextTransformPoints) d 0) := ⟨_, rfl⟩
  rw [← hH9]
  have hvec2 : H8.vec (H8.obj c2).nextTransformPoints = (t.copy.addTransform u2).nextTransformPoints := by
    rw [← V82]; rfl
  have V92 : H9.view c2 = splitInterval mid d true t := by
    rw [hH9, setVec_view_self, V82, hvec2, hu2]
    rfl
  have V91 : H9.view c1 = splitInterval mid d false t := by
    rw [hH9, setVec_view_ne _ (by rw [ob8, xn1, xn2]; exact NX), V81]
  have Rf9 : Refs H3 H9 := Rf8.trans (Refs.of_eq (by rw [hH9]; rfl))
  have nx9 : H9.next = H3.next := by rw [hH9]; exact nx8
  have Eh9 : Ext h H9 := by rw [hH9]; exact Eh8.setVec y2 _
  refine ⟨Eh9, .cons ⟨⟨Rf9.valid nx9 R1.valid, V91⟩, hN ▸ FF1.self⟩ (.cons ⟨⟨Rf9.valid nx9 C2.valid, V92⟩, hN ▸ FF2.self⟩ .nil)⟩

/-! ### The halves of a polynomial -/

/-- A polynomial and its error. -/
structure PolyRel (h : Heap n K) (p : ℕ × K) (p' : Tensor n K × K) : Prop where
  lt : p.1 < h.next
  tensor : h.tensor p.1 = p'.1
  err : p.2 = p'.2

theorem PolyRel.ext {h h' : Heap n K} {p : ℕ × K} {p' : Tensor n K × K} (r : PolyRel h p p') (e : Ext h h') :
    PolyRel h' p p' := ⟨r.lt.trans_le e.next_le, by rw [e.tensor _ r.lt, r.tensor], r.err⟩

theorem splitPolyH_spec (mid : Fin n → K) (exact : Bool) (d : Fin n) (h : Heap n K) {p : ℕ × K} {p' : Tensor n K × K}
    (r : PolyRel h p p') :
    Ext h (splitPolyH mid exact d h p).1 ∧ List.Forall₂ (PolyRel (splitPolyH mid exact d h p).1)
      (splitPolyH mid exact d h p).2 [splitPoly mid exact d false p', splitPoly mid exact d true p'] := by
  unfold splitPolyH
  obtain ⟨e1, l1, t1⟩ := transformNDH_spec h r.lt d ((mid d + 1) / 2) ((mid d - 1) / 2) exact
  simp only
  obtain ⟨p1, hp1⟩ : ∃ p1, p1 = transformNDH h p.1 d ((mid d + 1) / 2) ((mid d - 1) / 2) exact := ⟨_, rfl⟩
  rw [← hp1] at e1 l1 t1 ⊢
  have r1 := r.ext e1
  obtain ⟨e2, l2, t2⟩ := transformNDH_spec p1.1 r1.lt d (-((mid d - 1) / 2)) ((mid d + 1) / 2) exact
  obtain ⟨p2, hp2⟩ : ∃ p2, p2 = transformNDH p1.1 p.1 d (-((mid d - 1) / 2)) ((mid d + 1) / 2) exact := ⟨_, rfl⟩
  rw [← hp2] at e2 l2 t2 ⊢
  have r2 := r1.ext e2
  refine ⟨e1.trans e2, .cons ⟨l1.trans_le e2.next_le, ?_, ?_⟩ (.cons ⟨l2, ?_, ?_⟩ .nil)⟩
  · rw [e2.tensor _ l1, t1, r.tensor]
    simp [splitPoly]
  · rw [r2.tensor, r.err]; rfl
  · rw [t2, r1.tensor]
    simp [splitPoly]
  · rw [r2.tensor, r.err]; rfl

theorem mapM_rel {A B B' : Type*} (R : B → B' → Prop) (f : A → Except Exc B) (g : A → Except Exc B') (l : List A)
    (h : ∀ a, ExcRel R (f a) (g a)) : ExcRel (List.Forall₂ R) (l.mapM f) (l.mapM g) := by
  induction l with
  | nil => simp [ExcRel, pure, Except.pure]
  | cons a l ih =>
    rw [List.mapM_cons, List.mapM_cons]
    have ha := h a
    cases h1 : f a with
    | error x =>
      cases h2 : g a with
      | error y => rw [h1, h2] at ha; exact ha
      | ok b => rw [h1, h2] at ha; exact ha.elim
    | ok b =>
      cases h2 : g a with
      | error y => rw [h1, h2] at ha; exact ha.elim
      | ok b' =>
        rw [h1, h2] at ha
        cases h3 : l.mapM f with
        | error x =>
          cases h4 : l.mapM g with
          | error y => rw [h3, h4] at ih; exact ih
          | ok b => rw [h3, h4] at ih; exact ih.elim
        | ok bs =>
          cases h4 : l.mapM g with
          | error y => rw [h3, h4] at ih; exact ih.elim
          | ok bs' => rw [h3, h4] at ih; exact List.Forall₂.cons ha ih

theorem pick_rel {A A' : Type*} (R : A → A' → Prop) {l : List A} {l' : List A'} (hl : List.Forall₂ R l l')
    (idx : List ℕ) : ExcRel (List.Forall₂ R) (pick l idx) (pick l' idx) := by
  unfold pick
  apply mapM_rel
  intro i
  have hlen := hl.length_eq
  by_cases hi : i < l.length
  · have hi' : i < l'.length := hlen ▸ hi
    have hr : R l[i] l'[i] := hl.get hi hi'
    rw [List.getElem?_eq_getElem hi, List.getElem?_eq_getElem hi']
    exact hr
  · have hi' : ¬ i < l'.length := hlen ▸ hi
    rw [List.getElem?_eq_none (by omega), List.getElem?_eq_none (by omega)]
    rfl

theorem polyChildrenH_spec (mid : Fin n → K) (exact : Bool) (h : Heap n K) {a : ℕ} {M : Tensor n K} (ha : a < h.next)
    (hM : h.tensor a = M) (error : K) (order : List (Fin n)) :
    Ext h (polyChildrenH mid exact h a error order).1 ∧
      ExcRel (List.Forall₂ (PolyRel (polyChildrenH mid exact h a error order).1))
        (polyChildrenH mid exact h a error order).2 (polyChildren mid exact M error order) := by
  obtain ⟨e, f⟩ := splitAllH_spec (splitPolyH mid exact) (splitPoly mid exact) h PolyRel
    (fun _ _ _ _ e r => r.ext e) (fun d h' _ a a' r => splitPolyH_spec mid exact d h' r) order (Ext.refl h)
    (l := [(a, error)]) (l' := [(M, error)]) (.cons ⟨ha, hM, rfl⟩ .nil)
  unfold polyChildrenH polyChildren
  refine ⟨e, ?_⟩
  simp only
  split_ifs with c1 c2
  · exact f
  · rfl
  · exact pick_rel _ f _

/-! ### All children -/

/-- A child. -/
structure ChildRel (h : Heap n K) (c : ChildRef) (c' : Child n K) : Prop where
  Ms : MsRel h c.Ms c'.Ms
  errors : VecRel h c.errors c'.errors
  ti : ObjRel h c.ti c'.ti

theorem ChildRel.ext {h h' : Heap n K} {c : ChildRef} {c' : Child n K} (r : ChildRel h c c') (e : Ext h h') :
    ChildRel h' c c' := ⟨r.Ms.mext e.mext, r.errors.mext e.mext, r.ti.ext e⟩

theorem childPolyH_rel {h : Heap n K} {allP : List (List (ℕ × K))} {allP' : List (List (Tensor n K × K))}
    (hp : List.Forall₂ (List.Forall₂ (PolyRel h)) allP allP') (i : Fin n) (j : ℕ) (hi : i.1 < allP.length)
    (hj : j < (allP[i.1]).length) : PolyRel h (childPolyH allP i j) (childPoly allP' i j) := by
  have hi' : i.1 < allP'.length := hp.length_eq ▸ hi
  have h1 := hp.get hi hi'
  simp only [List.get_eq_getElem] at h1
  have hj' : j < (allP'[i.1]).length := h1.length_eq ▸ hj
  have h2 := h1.get hj hj'
  unfold childPolyH childPoly
  simp only [List.getD_eq_getElem?_getD, List.getElem?_eq_getElem hi, List.getElem?_eq_getElem hi', Option.getD_some,
    List.getElem?_eq_getElem hj, List.getElem?_eq_getElem hj']
  exact h2

theorem forall₂_zipIdx {A A' : Type*} {R : A → A' → Prop} {l : List A} {l' : List A'} (hl : List.Forall₂ R l l') (k : ℕ) :
    List.Forall₂ (fun p p' => R p.1 p'.1 ∧ p.2 = p'.2 ∧ p.2 < k + l.length) (l.zipIdx k) (l'.zipIdx k) := by
  induction hl generalizing k with
  | nil => exact .nil
  | cons h1 h2 ih =>
    rw [List.zipIdx_cons, List.zipIdx_cons]
    refine .cons ⟨h1, rfl, by simp⟩ ((ih (k + 1)).imp ?_)
    rintro a b ⟨x, y, z⟩
    refine ⟨x, y, ?_⟩
    simp only [List.length_cons]
    omega

theorem forall₂_take {A A' : Type*} {R : A → A' → Prop} {l : List A} {l' : List A'} (hl : List.Forall₂ R l l') (k : ℕ) :
    List.Forall₂ R (l.take k) (l'.take k) := by
  induction hl generalizing k with
  | nil => simp
  | cons h1 h2 ih =>
    cases k with
    | zero => simp
    | succ k => simpa using ⟨h1, ih k⟩

theorem zipChildrenH_spec (h : Heap n K) {allP : List (List (ℕ × K))} {allP' : List (List (Tensor n K × K))}
    (hp : List.Forall₂ (List.Forall₂ (PolyRel h)) allP allP') (hn : allP.length = n) {tis : List ℕ}
    {tis' : List (TrackedInterval n K)} {Q : ℕ → Prop}
    (ht : List.Forall₂ (fun c u => ObjRel h c u ∧ Q c) tis tis') :
    Ext h (zipChildrenH h allP tis).1 ∧
      ExcRel (List.Forall₂ (fun c c' => ChildRel (zipChildrenH h allP tis).1 c c' ∧ Q c.ti)) (zipChildrenH h allP tis).2
        (zipChildren allP' tis') := by
  unfold zipChildrenH zipChildren
  cases hp with
  | nil => exact ⟨Ext.refl h, rfl⟩
  | @cons p0 p0' ps ps' hp0 hps =>
    have hp : List.Forall₂ (List.Forall₂ (PolyRel h)) (p0 :: ps) (p0' :: ps') := .cons hp0 hps
    have hlen : p0.length = p0'.length := hp0.length_eq
    have hiff : (∀ p ∈ p0 :: ps, p0.length ≤ p.length) ↔ (∀ p ∈ p0' :: ps', p0'.length ≤ p.length) := by
      rw [hlen]
      have : ∀ l l', List.Forall₂ (List.Forall₂ (PolyRel h)) l l' → ∀ k : ℕ,
          ((∀ p ∈ l, k ≤ p.length) ↔ ∀ p ∈ l', k ≤ p.length) := by
        intro l l' hl k
        induction hl with
        | nil => simp
        | cons h1 h2 ih => simp [ih, h1.length_eq]
      exact this _ _ hp _
    by_cases hc : ∀ p ∈ p0 :: ps, p0.length ≤ p.length
    · simp only [if_pos hc, if_pos (hiff.1 hc)]
      have hz := forall₂_zipIdx (forall₂_take ht p0.length) 0
      have hz' : List.Forall₂ (fun (p : ℕ × ℕ) (p' : TrackedInterval n K × ℕ) => (ObjRel h p.1 p'.1 ∧ Q p.1) ∧
          p.2 = p'.2 ∧ p.2 < p0.length) ((tis.take p0.length).zipIdx) ((tis'.take p0'.length).zipIdx) := by
        rw [← hlen]
        refine hz.imp ?_
        rintro a b ⟨x, y, z⟩
        refine ⟨x, y, ?_⟩
        have : (tis.take p0.length).length ≤ p0.length := by simp
        omega
      obtain ⟨e, f⟩ := flatMapH_spec (fun h q =>
          let m := h.allocMlist fun i => (childPolyH (p0 :: ps) i q.2).1
          let e := m.1.allocVec fun i => (childPolyH (p0 :: ps) i q.2).2
          (e.1, [ChildRef.mk m.2 e.2 q.1]))
        (fun q => [(⟨fun i => (childPoly (p0' :: ps') i q.2).1, fun i => (childPoly (p0' :: ps') i q.2).2, q.1⟩ : Child n K)])
        h (fun h (p : ℕ × ℕ) (p' : TrackedInterval n K × ℕ) => (ObjRel h p.1 p'.1 ∧ Q p.1) ∧ p.2 = p'.2 ∧ p.2 < p0.length)
        (fun h c c' => ChildRel h c c' ∧ Q c.ti)
        (fun a a' h h' e r => ⟨⟨r.1.1.ext e, r.1.2⟩, r.2⟩) (fun b b' h h' e r => ⟨r.1.ext e, r.2⟩) (by
           rintro h1 x ⟨a, j⟩ ⟨a', j'⟩ ⟨⟨r1, q1⟩, hj, hlt⟩
           dsimp only at r1 q1 hj hlt ⊢
           subst hj
           have hE : Ext h1 ((h1.allocMlist fun i => (childPolyH (p0 :: ps) i j).1).1.allocVec
               fun i => (childPolyH (p0 :: ps) i j).2).1 := ((Ext.refl h1).allocMlist _).allocVec _
           have hr : ∀ i : Fin n, PolyRel h1 (childPolyH (p0 :: ps) i j) (childPoly (p0' :: ps') i j) := by
             intro i
             have hi : i.1 < (p0 :: ps).length := by rw [hn]; exact i.2
             exact (childPolyH_rel hp i j hi (lt_of_lt_of_le hlt (hc _ (List.getElem_mem hi)))).ext x
           refine ⟨hE, .cons ⟨⟨⟨?_, fun i => ?_, ?_⟩, ⟨?_, ?_⟩, r1.ext hE⟩, q1⟩ .nil⟩
           · simp [allocMlist, allocVec]
           · simp only [allocMlist, allocVec, Function.update_self]
             exact (hr i).lt.trans_le (Nat.le_add_right _ 2)
           · funext i
             simp only [tensors, allocMlist, allocVec, Function.update_self]
             exact (hr i).tensor
           · simp [allocMlist, allocVec]
           · funext i
             simp only [allocMlist, allocVec, Function.update_self]
             exact (hr i).err) (Ext.refl h) hz'
      refine ⟨e, ?_⟩
      have hmap : ∀ l : List (TrackedInterval n K × ℕ), (l.flatMap fun q =>
          [(⟨fun i => (childPoly (p0' :: ps') i q.2).1, fun i => (childPoly (p0' :: ps') i q.2).2, q.1⟩ : Child n K)])
          = l.map fun q =>
            (⟨fun i => (childPoly (p0' :: ps') i q.2).1, fun i => (childPoly (p0' :: ps') i q.2).2, q.1⟩ : Child n K) := by
        intro l
        induction l with
        | nil => rfl
        | cons a l ih => rw [List.flatMap_cons, List.map_cons, ih]; rfl
      rw [hmap] at f
      exact f
    · simp only [if_neg hc, if_neg (fun h => hc (hiff.2 h))]
      exact ⟨Ext.refl h, rfl⟩

theorem mapMH_length {A B : Type*} (f : Heap n K → A → Heap n K × Except Exc B) (l : List A) (h h' : Heap n K) (bs : List B)
    (hb : mapMH f l h = (h', .ok bs)) : bs.length = l.length := by
  induction l generalizing h bs with
  | nil => simp [mapMH] at hb; simp [← hb.2]
  | cons a l ih =>
    unfold mapMH at hb
    rcases hf : f h a with ⟨h1, r⟩
    rw [hf] at hb
    cases r with
    | error x => simp at hb
    | ok b =>
      simp only at hb
      rcases hm : mapMH f l h1 with ⟨h2, r2⟩
      rw [hm] at hb
      cases r2 with
      | error x => simp at hb
      | ok bs' =>
        simp only [Prod.mk.injEq, Except.ok.injEq] at hb
        rw [← hb.2]
        simp [ih h1 bs' (by rw [hm, hb.1])]

theorem getSubdivisionIntervalsH_spec (argsort : List ℕ → List ℕ) (setIter : Finset (Fin n) → List (Fin n))
    (h : Heap n K) {m e o : ℕ} {Ms : Fin n → Tensor n K} {errs : Fin n → K} {t : TrackedInterval n K}
    (hm : MsRel h m Ms) (he : VecRel h e errs) (r : ObjRel h o t) (exact : Bool) (level : ℕ) :
    Ext h (getSubdivisionIntervalsH argsort setIter h m e o exact level).1 ∧
      ExcRel (List.Forall₂ (fun c c' => ChildRel (getSubdivisionIntervalsH argsort setIter h m e o exact level).1 c c' ∧
          (h.next ≤ c.ti ∨ c.ti = o)))
        (getSubdivisionIntervalsH argsort setIter h m e o exact level).2
        (getSubdivisionIntervals argsort setIter Ms errs t exact level) := by
  unfold getSubdivisionIntervalsH getSubdivisionIntervals
  rw [hm.eq, r.eq]
  simp only
  obtain ⟨orders, hord⟩ : ∃ x, x = getSubdivisionDims argsort Ms t level := ⟨_, rfl⟩
  rw [← hord]
  by_cases hc : ∃ i, (Finset.univ.biUnion fun i => (orders i).toFinset).card ≠ (orders i).length
  · simp only [if_pos hc]
    exact ⟨Ext.refl h, rfl⟩
  · simp only [if_neg hc]
    obtain ⟨e1, f1⟩ := mapMH_spec (fun h i => polyChildrenH (h.vec (h.obj o).nextTransformPoints) exact h (h.mlist m i)
        (h.vec e i) (orders i))
      (fun i => polyChildren t.nextTransformPoints exact (Ms i) (errs i) (orders i)) h (fun _ a a' => a = a')
      (fun h => List.Forall₂ (PolyRel h)) (fun _ _ _ _ _ _ r => r) (fun _ _ _ _ _ e r => r.imp fun _ _ s => s.ext e)
      (by
        rintro h1 x i _ rfl
        have hm1 := hm.mext x.mext
        have he1 := he.mext x.mext
        have r1 := r.ext x
        have hv : h1.vec (h1.obj o).nextTransformPoints = t.nextTransformPoints := by rw [← r1.eq]; rfl
        have := polyChildrenH_spec t.nextTransformPoints exact h1 (hm1.elem_lt i) (congrFun hm1.eq i) (errs i) (orders i)
        rw [hv, he1.eq]
        exact this)
      (Ext.refl h) (l := List.finRange n) (l' := List.finRange n) (by
        rw [List.forall₂_eq_eq_eq])
    rcases hz : mapMH (fun h i => polyChildrenH (h.vec (h.obj o).nextTransformPoints) exact h (h.mlist m i) (h.vec e i)
        (orders i)) (List.finRange n) h with ⟨h1, z⟩
    rw [hz] at e1 f1
    cases z with
    | error x =>
      cases hz' : (List.finRange n).mapM fun i =>
          polyChildren t.nextTransformPoints exact (Ms i) (errs i) (orders i) with
      | error y => rw [hz'] at f1; exact ⟨e1, f1⟩
      | ok z' => rw [hz'] at f1; exact f1.elim
    | ok allP =>
      have hlen := mapMH_length _ _ _ _ _ hz
      rw [List.length_finRange] at hlen
      cases hz' : (List.finRange n).mapM fun i =>
          polyChildren t.nextTransformPoints exact (Ms i) (errs i) (orders i) with
      | error y => rw [hz'] at f1; exact f1.elim
      | ok allP' =>
        rw [hz'] at f1
        have f1 : List.Forall₂ (List.Forall₂ (PolyRel h1)) allP allP' := f1
        have e1 : Ext h h1 := e1
        have r1 := r.ext e1
        have hv : h1.vec (h1.obj o).nextTransformPoints = t.nextTransformPoints := by rw [← r1.eq]; rfl
        simp only [hv]
        obtain ⟨e2, f2⟩ := splitAllH_spec (splitIntervalH t.nextTransformPoints) (splitInterval t.nextTransformPoints)
          h1 (fun h2 c u => ObjRel h2 c u ∧ (h.next ≤ c ∨ c = o)) (fun _ _ _ _ e r => ⟨r.1.ext e, r.2⟩)
          (fun d h2 x a a' ra => by
            obtain ⟨s1, s2⟩ := splitIntervalH_spec t.nextTransformPoints d h2 ra.1
            refine ⟨s1, s2.imp ?_⟩
            rintro c u ⟨w1, w2⟩
            exact ⟨w1, Or.inl ((e1.next_le.trans x.next_le).trans w2)⟩)
          (setIter (Finset.univ.biUnion fun i => (orders i).toFinset)) (Ext.refl h1) (l := [o]) (l' := [t])
          (.cons ⟨r1, Or.inr rfl⟩ .nil)
        obtain ⟨e3, f3⟩ := zipChildrenH_spec _ (f1.imp fun _ _ s => s.imp fun _ _ s => s.ext e2) hlen f2
        exact ⟨(e1.trans e2).trans e3, f3⟩

end Heap

end YRoots
