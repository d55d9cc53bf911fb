import Verif.Lemmas.Separation
import Verif.Lemmas.GeneralPosition
import Verif.Spec.Order

/-!
# Slabs: pieces that are separated by a coordinate
-/

set_option linter.unusedSectionVars false

namespace HG

open Spec Strategy

section
variable {K : Type} [CommRing K] [LinearOrder K] [IsStrictOrderedRing K]

theorem onSeg_axis {a : Bool} {s : Segment K} {p : Point K} (h : OnSeg s p) :
    min (axis a s.start) (axis a s.stop) ≤ axis a p ∧
      axis a p ≤ max (axis a s.start) (axis a s.stop) := by
  obtain ⟨-, h1, h2, h3, h4⟩ := h
  unfold axis
  split
  · exact ⟨h1, h2⟩
  · exact ⟨h3, h4⟩

/-- A point of a segment with the same coordinate as one end and a different coordinate than the
other is that end. -/
theorem onSeg_eq_of_axis {a : Bool} {s : Segment K} {p : Point K} (h : OnSeg s p)
    (hne : axis a s.start ≠ axis a s.stop) :
    (axis a p = axis a s.start → p = s.start) ∧ (axis a p = axis a s.stop → p = s.stop) := by
  obtain ⟨hc, -⟩ := h
  unfold Collinear area2 at hc
  obtain ⟨⟨x1, y1⟩, ⟨x2, y2⟩⟩ := s
  obtain ⟨x, y⟩ := p
  cases a <;> simp only [axis, Bool.false_eq_true, if_true, if_false] at *
  · constructor
    · intro h
      rcases mul_eq_zero.1 (show (y2 - y1) * (x - x1) = 0 by
        linear_combination -hc + (x2 - x1) * h) with h' | h'
      · exact absurd (sub_eq_zero.1 h').symm hne
      · rw [h, sub_eq_zero.1 h']
    · intro h
      rcases mul_eq_zero.1 (show (y2 - y1) * (x - x2) = 0 by
        linear_combination -hc + (x2 - x1) * h) with h' | h'
      · exact absurd (sub_eq_zero.1 h').symm hne
      · rw [h, sub_eq_zero.1 h']
  · constructor
    · intro h
      rcases mul_eq_zero.1 (show (x2 - x1) * (y - y1) = 0 by
        linear_combination hc + (y2 - y1) * h) with h' | h'
      · exact absurd (sub_eq_zero.1 h').symm hne
      · rw [h, sub_eq_zero.1 h']
    · intro h
      rcases mul_eq_zero.1 (show (x2 - x1) * (y - y2) = 0 by
        linear_combination hc + (y2 - y1) * h) with h' | h'
      · exact absurd (sub_eq_zero.1 h').symm hne
      · rw [h, sub_eq_zero.1 h']

theorem SegBefore.meet {a : Bool} {s t : Segment K} (h : SegBefore a s t) {p : Point K}
    (hs : OnSeg s p) (ht : OnSeg t p) :
    IsEnd s p ∧ ∀ q, OnSeg s q → OnSeg t q → q = p := by
  obtain ⟨⟨h1, h2, h3, h4⟩, hst⟩ := h
  have key : ∀ q, OnSeg s q → OnSeg t q →
      axis a q = max (axis a s.start) (axis a s.stop) := by
    intro q hq hq'
    refine le_antisymm (onSeg_axis hq).2 ?_
    refine le_trans ?_ (onSeg_axis hq').1
    exact max_le (le_min h1 h2) (le_min h3 h4)
  have hne : axis a s.start ≠ axis a s.stop := by
    intro he
    have := key p hs ht
    rw [← he, max_self] at this
    have h5 := (onSeg_axis (a := a) ht).1
    rw [this] at h5
    exact absurd h5 (not_le.2 (lt_min (hst he).1 (hst he).2))
  rcases hne.lt_or_gt with hlt | hlt
  · rw [max_eq_right hlt.le] at key
    have e : ∀ q, OnSeg s q → OnSeg t q → q = s.stop := fun q hq hq' =>
      (onSeg_eq_of_axis hq hne).2 (key q hq hq')
    exact ⟨Or.inr (e p hs ht), fun q hq hq' => by rw [e q hq hq', e p hs ht]⟩
  · rw [max_eq_left hlt.le] at key
    have e : ∀ q, OnSeg s q → OnSeg t q → q = s.start := fun q hq hq' =>
      (onSeg_eq_of_axis hq hne).1 (key q hq hq')
    exact ⟨Or.inl (e p hs ht), fun q hq hq' => by rw [e q hq hq', e p hs ht]⟩

theorem NoCross.symm {s t : Segment K} (h : NoCross s t) : NoCross t s :=
  ⟨fun p h1 h2 => (h.1 p h2 h1).symm, fun p q h1 h2 h3 h4 => h.2 p q h2 h1 h4 h3⟩

theorem SegBefore.noCross {a : Bool} {s t : Segment K} (h : SegBefore a s t) : NoCross s t :=
  ⟨fun _ h1 h2 => Or.inl (h.meet h1 h2).1, fun p q h1 h2 h3 h4 => (h.meet h3 h4).2 p h1 h2⟩

/-! ## The test for a segment on the extreme line -/

end

section
variable {K : Type} [LinearOrder K] [Zero K] [Add K] [Sub K] [Predicates K]

/-- The lower coordinate of a segment along the axis. -/
def lowKey (a : Bool) (s : Segment K) : K := min (axis a s.start) (axis a s.stop)

theorem pyMaxBy_spec {α : Type} (key : α → K) (b : α) (l : List α) :
    pyMaxBy key b l ∈ b :: l ∧ ∀ c ∈ b :: l, key c ≤ key (pyMaxBy key b l) := by
  induction l generalizing b with
  | nil => simp [pyMaxBy]
  | cons c l ih =>
    unfold pyMaxBy
    split
    · rename_i hlt
      obtain ⟨h1, h2⟩ := ih c
      refine ⟨List.mem_cons_of_mem _ h1, fun d hd => ?_⟩
      rcases List.mem_cons.1 hd with rfl | hd
      · exact hlt.le.trans (h2 c (by simp))
      · exact h2 d hd
    · rename_i hlt
      obtain ⟨h1, h2⟩ := ih b
      refine ⟨?_, fun d hd => ?_⟩
      · rcases List.mem_cons.1 h1 with h | h
        · rw [h]; simp
        · exact List.mem_cons_of_mem _ (List.mem_cons_of_mem _ h)
      · rcases List.mem_cons.1 hd with rfl | hd
        · exact h2 d (by simp)
        · rcases List.mem_cons.1 hd with rfl | hd
          · exact (not_lt.1 hlt).trans (h2 b (by simp))
          · exact h2 d (List.mem_cons_of_mem _ hd)

/-- When the test finds no segment on the extreme line, every segment across the axis lies strictly
before another segment. -/
theorem extreme_false {a : Bool} {S : List (Segment K)} (h : hasExtremeSegment a S = .ok false)
    {s : Segment K} (hs : s ∈ S) (he : axis a s.start = axis a s.stop) :
    ∃ u ∈ S, axis a s.start < axis a u.start ∧ axis a s.start < axis a u.stop := by
  cases S with
  | nil => simp at hs
  | cons b l =>
    unfold hasExtremeSegment touchPredicate at h
    cases a
    · simp only [Bool.false_eq_true, if_false, hasHorizontalLowermostSegment, exc_pure_ok,
        Bool.or_eq_false_iff, List.any_eq_false, Bool.and_eq_true, decide_eq_true_eq, not_and] at h
      obtain ⟨h1, h2⟩ := pyMaxBy_spec segMinY b l
      refine ⟨_, h1, ?_⟩
      have e : segMinY s = axis false s.start := by
        unfold segMinY
        have : s.start.y = s.stop.y := he
        rw [this, min_self]; exact this.symm
      have hle := h2 s hs
      rcases hle.lt_or_eq with hlt | heq
      · rw [e] at hlt
        exact lt_min_iff.1 hlt
      · exact absurd (show isSegmentHorizontal s = true by
          unfold isSegmentHorizontal; exact decide_eq_true he) (h.2 s hs heq)
    · simp only [if_true, hasVerticalLeftmostSegment, exc_pure_ok,
        Bool.or_eq_false_iff, List.any_eq_false, Bool.and_eq_true, decide_eq_true_eq, not_and] at h
      obtain ⟨h1, h2⟩ := pyMaxBy_spec segMaxX b l
      refine ⟨_, h1, ?_⟩
      have e : segMaxX s = axis true s.start := by
        unfold segMaxX
        have : s.start.x = s.stop.x := he
        rw [this, min_self]; exact this.symm
      have hle := h2 s hs
      rcases hle.lt_or_eq with hlt | heq
      · rw [e] at hlt
        exact lt_min_iff.1 hlt
      · exact absurd (show isSegmentVertical s = true by
          unfold isSegmentVertical; exact decide_eq_true he) (h.2 s hs heq)

/-! ## Sorted coordinates -/

theorem sortCoords_lt (l : List K) (hn : l.Nodup) : (sortCoords l).Pairwise (· < ·) := by
  have h1 := pySort_sorted (fun a b : K => decide (a ≤ b))
    (fun a b => by simpa using le_total a b)
    (fun a b c => by simpa using le_trans) l
  have h2 : (sortCoords l).Nodup := (sortCoords_perm l).nodup_iff.2 hn
  refine (List.Pairwise.and h1 h2).imp ?_
  rintro a b ⟨h, hne⟩
  exact lt_of_le_of_ne (by simpa using h) hne

theorem take_drop_lt {R : List K} (hR : R.Pairwise (· < ·)) {n j : Nat} {b c : K}
    (hb : b ∈ R.take n) (hc : c ∈ R.drop j) :
    (n - 1 ≤ j → b ≤ c) ∧ (n ≤ j → b < c) := by
  obtain ⟨i, hi, rfl⟩ := List.mem_iff_getElem.1 hb
  obtain ⟨k, hk, rfl⟩ := List.mem_iff_getElem.1 hc
  rw [List.getElem_take, List.getElem_drop]
  rw [List.length_take] at hi
  rw [List.length_drop] at hk
  rw [List.pairwise_iff_getElem] at hR
  constructor
  · intro hle
    rcases Nat.lt_or_ge i (j + k) with h | h
    · exact (hR i (j + k) (by omega) (by omega) h).le
    · have : i = j + k := by omega
      subst this
      exact le_refl _
  · intro hle
    exact hR i (j + k) (by omega) (by omega) (by omega)

/-- The segment lies before all the given coordinates, strictly if it is across the axis. -/
def SegLe (a : Bool) (s : Segment K) (R : List K) : Prop :=
  ∀ c ∈ R, axis a s.start ≤ c ∧ axis a s.stop ≤ c ∧
    (axis a s.start = axis a s.stop → axis a s.start < c)

/-- A value between two of the coordinates. -/
def Within (R : List K) (v : K) : Prop := ∃ b ∈ R, ∃ c ∈ R, b ≤ v ∧ v ≤ c

theorem Within.of_mem {R : List K} {v : K} (h : v ∈ R) : Within R v :=
  ⟨v, h, v, h, le_refl _, le_refl _⟩

theorem Within.mono {R R' : List K} {v : K} (h : Within R v) (hs : ∀ a ∈ R, a ∈ R') :
    Within R' v := by
  obtain ⟨b, hb, c, hc, h⟩ := h
  exact ⟨b, hs b hb, c, hs c hc, h⟩

theorem SegLe.before {a : Bool} {s t : Segment K} {R : List K} (h : SegLe a s R)
    (h1 : Within R (axis a t.start)) (h2 : Within R (axis a t.stop)) : SegBefore a s t := by
  obtain ⟨b, hb, -, -, h1, -⟩ := h1
  obtain ⟨c, hc, -, -, h2, -⟩ := h2
  have k1 := h b hb
  have k2 := h c hc
  exact ⟨⟨k1.1.trans h1, k2.1.trans h2, k1.2.1.trans h1, k2.2.1.trans h2⟩,
    fun he => ⟨(k1.2.2 he).trans_le h1, (k2.2.2 he).trans_le h2⟩⟩

theorem SegLe.mono {a : Bool} {s : Segment K} {R R' : List K} (h : SegLe a s R)
    (hs : ∀ c ∈ R', c ∈ R) : SegLe a s R' := fun c hc => h c (hs c hc)

/-- One step: the segments `S` take the first `n` coordinates and the next piece starts at the last
of them only if no segment across the axis is there. -/
theorem segLe_step {a : Bool} {R : List K} (hR : R.Pairwise (· < ·)) {n j : Nat}
    {S T : List (Segment K)}
    (hS : ∀ s ∈ S, Within (R.take n) (axis a s.start) ∧ Within (R.take n) (axis a s.stop))
    (hj : n ≤ j ∨ (n - 1 ≤ j ∧ hasExtremeSegment a T = .ok false ∧ (∀ s ∈ S, s ∈ T) ∧
      ∀ u ∈ T, ∀ c ∈ R.drop j, axis a u.start ≤ c)) :
    ∀ s ∈ S, SegLe a s (R.drop j) := by
  intro s hs c hc
  obtain ⟨⟨-, -, b, hb, -, h1⟩, ⟨-, -, b', hb', -, h2⟩⟩ := hS s hs
  have k1 := take_drop_lt hR hb hc
  have k2 := take_drop_lt hR hb' hc
  rcases hj with hj | ⟨hj, hex, hsub, hall⟩
  · exact ⟨h1.trans (k1.2 hj).le, h2.trans (k2.2 hj).le, fun _ => h1.trans_lt (k1.2 hj)⟩
  · refine ⟨h1.trans (k1.1 hj), h2.trans (k2.1 hj), fun he => ?_⟩
    obtain ⟨u, hu, hlt, -⟩ := extreme_false hex (hsub s hs) he
    exact hlt.trans_le (hall u hu c hc)

end
end HG
