import Verif.Delaunay.Plane
import Verif.Lemmas.Compress
import Mathlib.Data.Nat.ModEq

/-!
# Simple closed polygons and the removal of straight vertices
-/

set_option linter.unusedSectionVars false

namespace HG

open Spec

variable {K : Type} [CommRing K] [LinearOrder K] [IsStrictOrderedRing K]

theorem cyc_lt {l : List (Point K)} {i : Nat} (h : i < l.length) : cyc l i = l.getD i ⟨0, 0⟩ := by
  unfold cyc; rw [Nat.mod_eq_of_lt h]

theorem cyc_add (l : List (Point K)) (i : Nat) : cyc l (i + l.length) = cyc l i := by
  unfold cyc; rw [Nat.add_mod_right]

theorem cyc_len (l : List (Point K)) : cyc l l.length = cyc l 0 := by
  rw [← cyc_add l 0, Nat.zero_add]

theorem cyc_inj {l : List (Point K)} (hn : l.Nodup) {i j : Nat} (hi : i < l.length) (hj : j < l.length)
    (h : cyc l i = cyc l j) : i = j := by
  rw [cyc_lt hi, cyc_lt hj] at h
  by_contra hne
  exact getD_ne hn hi hj hne h

/-- A property that survives the removal of a vertex collinear with its neighbours survives
`compressContour`. -/
theorem compress_ind {Q : List (Point K) → Prop}
    (hQ : ∀ l d, 3 ≤ l.length → d < l.length →
      cross (cyc l (d + (l.length - 1))) (cyc l d) (cyc l (d + 1)) = 0 → Q l → Q (l.eraseIdx d))
    {l : List (Point K)} (h : Q l) : Q (compressContour l) := by
  have prev : ∀ (l : List (Point K)) (d : Nat), 0 < d → d < l.length →
      cyc l (d + (l.length - 1)) = l.getD (d - 1) ⟨0, 0⟩ := by
    intro l d h0 h1
    rw [show d + (l.length - 1) = (d - 1) + l.length by omega, cyc_add, cyc_lt (by omega)]
  have prev0 : ∀ (l : List (Point K)), 0 < l.length →
      cyc l (0 + (l.length - 1)) = l.getD (l.length - 1) ⟨0, 0⟩ := by
    intro l h1
    rw [Nat.zero_add, cyc_lt (by omega)]
  have inner1 : ∀ (k : Nat), 0 < k → ∀ (fuel : Nat) (l : List (Point K)), Q l →
      Q (compressInner1 k fuel l) := by
    intro k hk fuel
    induction fuel with
    | zero => intro l h; exact h
    | succ fuel ih =>
      intro l h
      unfold compressInner1
      split
      · rename_i hc
        obtain ⟨hl, ho⟩ := hc
        rw [orient_col_iff] at ho
        apply ih
        rcases Nat.lt_or_ge 1 k with h1 | h1
        · rw [show -(k : Int) + 1 = -((k - 1 : Nat) : Int) by omega] at ho ⊢
          rw [pyDelAt_neg _ _ (by omega) (by omega)]
          refine hQ l _ (by omega) (by omega) ?_ h
          rw [pyAt_neg _ _ (by omega) (by omega), pyAt_neg _ _ (by omega) (by omega)] at ho
          rw [prev _ _ (by omega) (by omega), cyc_lt (by omega),
            show l.length - (k - 1) - 1 = l.length - k by omega]
          rcases Nat.lt_or_ge 2 k with h2 | h2
          · rw [show -(k : Int) + 2 = -((k - 2 : Nat) : Int) by omega, pyAt_neg _ _ (by omega) (by omega)] at ho
            rw [cyc_lt (by omega), show l.length - (k - 1) + 1 = l.length - (k - 2) by omega,
              ← cross_rot]
            exact ho
          · rw [show -(k : Int) + 2 = ((0 : Nat) : Int) by omega, pyAt_nonneg] at ho
            rw [show l.length - (k - 1) + 1 = l.length by omega, cyc_len, cyc_lt (by omega), ← cross_rot]
            exact ho
        · have : k = 1 := by omega
          subst this
          rw [show -((1 : Nat) : Int) + 1 = ((0 : Nat) : Int) by omega,
            show -((1 : Nat) : Int) + 2 = ((1 : Nat) : Int) by omega,
            pyAt_neg _ _ (by omega) (by omega), pyAt_nonneg, pyAt_nonneg] at ho
          rw [show -((1 : Nat) : Int) + 1 = ((0 : Nat) : Int) by omega, pyDelAt_nonneg _ _ (by omega)]
          refine hQ l 0 (by omega) (by omega) ?_ h
          rw [prev0 _ (by omega), cyc_lt (by omega), cyc_lt (by omega), ← cross_rot]
          exact ho
      · exact h
  have pass1 : ∀ (k : Nat) (l : List (Point K)), Q l → Q (compressPass1 k l) := by
    intro k
    induction k with
    | zero => intro l h; exact h
    | succ k ih => intro l h; exact ih _ (inner1 _ (by omega) _ _ h)
  have inner2 : ∀ (i : Nat) (fuel : Nat) (l : List (Point K)), Q l → Q (compressInner2 i fuel l) := by
    intro i fuel
    induction fuel with
    | zero => intro l h; exact h
    | succ fuel ih =>
      intro l h
      unfold compressInner2
      split
      · rename_i hc
        obtain ⟨hl, ho⟩ := hc
        rw [orient_col_iff] at ho
        apply ih
        rw [pyAt_nonneg] at ho
        rcases Nat.eq_zero_or_pos i with h0 | h0
        · subst h0
          rw [show ((0 : Nat) : Int) - 1 = -((1 : Nat) : Int) by omega,
            show ((0 : Nat) : Int) - 2 = -((2 : Nat) : Int) by omega,
            pyAt_neg _ _ (by omega) (by omega), pyAt_neg _ _ (by omega) (by omega)] at ho
          rw [show ((0 : Nat) : Int) - 1 = -((1 : Nat) : Int) by omega, pyDelAt_neg _ _ (by omega) (by omega)]
          refine hQ l _ (by omega) (by omega) ?_ h
          rw [prev _ _ (by omega) (by omega), cyc_lt (by omega),
            show l.length - 1 + 1 = l.length by omega, cyc_len, cyc_lt (by omega),
            show l.length - 1 - 1 = l.length - 2 by omega]
          rw [cross_swap12] at ho; linarith
        · rw [show (i : Int) - 1 = ((i - 1 : Nat) : Int) by omega, pyAt_nonneg] at ho
          rw [show (i : Int) - 1 = ((i - 1 : Nat) : Int) by omega, pyDelAt_nonneg _ _ (by omega)]
          refine hQ l _ (by omega) (by omega) ?_ h
          rw [cyc_lt (i := i - 1) (by omega), show i - 1 + 1 = i by omega, cyc_lt (i := i) (by omega)]
          rcases Nat.lt_or_ge 1 i with h1 | h1
          · rw [show (i : Int) - 2 = ((i - 2 : Nat) : Int) by omega, pyAt_nonneg] at ho
            rw [prev _ _ (by omega) (by omega), show i - 1 - 1 = i - 2 by omega]
            rw [cross_swap12] at ho; linarith
          · have : i = 1 := by omega
            subst this
            rw [show ((1 : Nat) : Int) - 2 = -((1 : Nat) : Int) by omega, pyAt_neg _ _ (by omega) (by omega)] at ho
            rw [show 1 - 1 = 0 from rfl] at ho ⊢
            rw [prev0 _ (by omega)]
            rw [cross_swap12] at ho; linarith
      · exact h
  have pass2 : ∀ (fuel i : Nat) (l : List (Point K)), Q l → Q (compressPass2 fuel i l) := by
    intro fuel
    induction fuel with
    | zero => intro i l h; exact h
    | succ fuel ih =>
      intro i l h
      unfold compressPass2
      split
      · exact ih _ _ (inner2 _ _ _ h)
      · exact h
  exact pass2 _ _ _ (pass1 _ _ h)

/-- Edges after the removal of a vertex. -/
theorem edge_erase {l : List (Point K)} {d : Nat} (h3 : 3 ≤ l.length) (hd : d < l.length) {i : Nat}
    (hi : i < (l.eraseIdx d).length) :
    (∃ j, j < l.length ∧ j ≠ d ∧ j + 1 ≠ d ∧ (d = 0 → j + 1 ≠ l.length) ∧
      edge (l.eraseIdx d) i = edge l j) ∨
    (edge (l.eraseIdx d) i = ⟨cyc l (d + (l.length - 1)), cyc l (d + 1)⟩ ∧
      i = if d = 0 then l.length - 2 else d - 1) := by
  have hl : (l.eraseIdx d).length = l.length - 1 := List.length_eraseIdx_of_lt hd
  rw [hl] at hi
  have g : ∀ k, k < l.length - 1 → cyc (l.eraseIdx d) k = cyc l (if k < d then k else k + 1) := by
    intro k hk
    rw [cyc_lt (by omega), getD_eraseIdx, cyc_lt (by split_ifs <;> omega)]
    split_ifs <;> rfl
  have gl : cyc (l.eraseIdx d) (l.length - 1) = cyc l (if d = 0 then 1 else 0) := by
    rw [← hl, cyc_len, g 0 (by omega)]
    congr 1
    split_ifs <;> omega
  rcases Nat.lt_or_ge (i + 1) (l.length - 1) with h1 | h1
  · rcases Nat.lt_trichotomy (i + 1) d with h2 | h2 | h2
    · left
      refine ⟨i, by omega, by omega, by omega, by omega, ?_⟩
      unfold edge
      rw [g i (by omega), g (i + 1) (by omega), if_pos (by omega), if_pos h2]
    · right
      refine ⟨?_, by rw [if_neg (by omega)]; omega⟩
      unfold edge
      rw [g i (by omega), g (i + 1) (by omega), if_pos (by omega), if_neg (by omega),
        show d + (l.length - 1) = i + l.length by omega, cyc_add, h2]
    · left
      refine ⟨i + 1, by omega, by omega, by omega, by omega, ?_⟩
      unfold edge
      rw [g i (by omega), g (i + 1) (by omega), if_neg (by omega), if_neg (by omega)]
  · have hi' : i = l.length - 2 := by omega
    subst hi'
    have e : l.length - 2 + 1 = l.length - 1 := by omega
    rcases Nat.eq_zero_or_pos d with h0 | h0
    · right
      subst h0
      refine ⟨?_, by simp⟩
      unfold edge
      rw [g _ (by omega), e, gl, if_pos rfl, if_neg (by omega), Nat.zero_add, Nat.zero_add]
    · rcases Nat.lt_or_ge d (l.length - 1) with h2 | h2
      · left
        refine ⟨l.length - 1, by omega, by omega, by omega, by omega, ?_⟩
        unfold edge
        rw [g _ (by omega), e, gl, if_neg (by omega), if_neg (by omega),
          show l.length - 1 + 1 = l.length by omega, cyc_len]
      · right
        refine ⟨?_, by rw [if_neg (by omega)]; omega⟩
        have hd' : d = l.length - 1 := by omega
        unfold edge
        rw [g _ (by omega), e, gl, if_pos (by omega), if_neg (by omega),
          show d + (l.length - 1) = (l.length - 2) + l.length by omega, cyc_add,
          show d + 1 = l.length by omega, cyc_len]

/-- Simple closed polygons, in a symmetric form. -/
structure SC (l : List (Point K)) : Prop where
  nodup : l.Nodup
  three : 3 ≤ l.length
  meet : ∀ i < l.length, ∀ j < l.length, i ≠ j → ∀ p, OnSeg (edge l i) p → OnSeg (edge l j) p →
    (p = (edge l i).stop ∧ p = (edge l j).start) ∨ (p = (edge l i).start ∧ p = (edge l j).stop)
  nocross : ∀ i < l.length, ∀ j < l.length, i ≠ j → ¬ ProperCross (edge l i) (edge l j)

theorem SC.simple {l : List (Point K)} (h : SC l) : SimpleContour l := by
  refine ⟨h.three, ?_⟩
  intro i j hij hj p h1 h2
  rcases h.meet i (by omega) j hj (by omega) p h1 h2 with ⟨e1, e2⟩ | ⟨e1, e2⟩
  · left
    have : cyc l (i + 1) = cyc l j := by
      have e1' : p = cyc l (i + 1) := e1
      rw [← e1', e2]; rfl
    exact ⟨(cyc_inj h.nodup (by omega) hj this).symm, e2⟩
  · right
    have e1' : p = cyc l i := e1
    have e2' : p = cyc l (j + 1) := e2
    rcases Nat.lt_or_ge (j + 1) l.length with h3 | h3
    · have := cyc_inj h.nodup (by omega) h3 (e1'.symm.trans e2')
      omega
    · have h4 : j + 1 = l.length := by omega
      rw [h4, cyc_len] at e2'
      have := cyc_inj h.nodup (by omega) (by omega) (e1'.symm.trans e2')
      exact ⟨this, h4, e2'⟩

theorem SC.noProperCross {l : List (Point K)} (h : SC l) : NoProperCross l :=
  fun i j hij hj => h.nocross i (by omega) j hj (by omega)

theorem edge_mod (l : List (Point K)) (i : Nat) : edge l (i % l.length) = edge l i := by
  unfold edge cyc
  rw [Nat.mod_mod, Nat.mod_add_mod]

namespace SC
variable {l : List (Point K)}

theorem idx (h : SC l) (i : Nat) : i % l.length < l.length := Nat.mod_lt _ (by have := h.three; omega)

theorem meet' (h : SC l) {i j : Nat} (hne : cyc l i ≠ cyc l j) {p : Point K} (h1 : OnSeg (edge l i) p)
    (h2 : OnSeg (edge l j) p) : (p = (edge l i).stop ∧ p = (edge l j).start) ∨
      (p = (edge l i).start ∧ p = (edge l j).stop) := by
  have := h.meet _ (h.idx i) _ (h.idx j) (by
    intro hh; apply hne; unfold cyc; rw [hh]) p
  rw [edge_mod, edge_mod] at this
  exact this h1 h2

theorem nocross' (h : SC l) {i j : Nat} (hne : cyc l i ≠ cyc l j) :
    ¬ ProperCross (edge l i) (edge l j) := by
  have := h.nocross _ (h.idx i) _ (h.idx j) (by
    intro hh; apply hne; unfold cyc; rw [hh])
  rwa [edge_mod, edge_mod] at this

theorem ne (h : SC l) {i j : Nat} (hne : i % l.length ≠ j % l.length) : cyc l i ≠ cyc l j := by
  intro hh
  apply hne
  refine cyc_inj h.nodup (h.idx i) (h.idx j) ?_
  unfold cyc at hh ⊢
  rw [Nat.mod_mod, Nat.mod_mod, hh]

theorem prev_ne (h : SC l) (d : Nat) : cyc l (d + (l.length - 1)) ≠ cyc l d := by
  apply h.ne
  have h3 := h.three
  intro hh
  have := (Nat.ModEq.add_right 1 (show d + (l.length - 1) ≡ d [MOD l.length] from hh))
  rw [show d + (l.length - 1) + 1 = d + l.length by omega] at this
  have e : d + l.length ≡ d [MOD l.length] := by unfold Nat.ModEq; rw [Nat.add_mod_right]
  have := Nat.ModEq.add_left_cancel' d (this.symm.trans e : d + 1 ≡ d + 0 [MOD l.length])
  have := Nat.le_of_dvd (by omega) ((Nat.modEq_zero_iff_dvd).1 this)
  omega

theorem next_ne (h : SC l) (d : Nat) : cyc l d ≠ cyc l (d + 1) := by
  apply h.ne
  have h3 := h.three
  intro hh
  have := Nat.ModEq.add_left_cancel' d (show d + 0 ≡ d + 1 [MOD l.length] from hh)
  have := Nat.le_of_dvd (by omega) ((Nat.modEq_zero_iff_dvd).1 this.symm)
  omega

theorem prev_next_ne (h : SC l) (d : Nat) : cyc l (d + (l.length - 1)) ≠ cyc l (d + 1) := by
  apply h.ne
  have h3 := h.three
  intro hh
  have := Nat.ModEq.add_left_cancel' d (show d + (l.length - 1) ≡ d + 1 [MOD l.length] from hh)
  have h4 : 1 + (l.length - 2) ≡ 1 + 0 [MOD l.length] := by
    rw [show 1 + (l.length - 2) = l.length - 1 by omega]; exact this
  have := Nat.le_of_dvd (by omega) ((Nat.modEq_zero_iff_dvd).1 (Nat.ModEq.add_left_cancel' 1 h4))
  omega

theorem edge_prev (h : SC l) (d : Nat) :
    edge l (d + (l.length - 1)) = ⟨cyc l (d + (l.length - 1)), cyc l d⟩ := by
  have h3 := h.three
  unfold edge
  rw [show d + (l.length - 1) + 1 = d + l.length by omega, cyc_add]

/-- A vertex collinear with its neighbours lies between them. -/
theorem straight (h : SC l) {d : Nat}
    (h0 : cross (cyc l (d + (l.length - 1))) (cyc l d) (cyc l (d + 1)) = 0) :
    Inside (cyc l (d + (l.length - 1))) (cyc l (d + 1)) (cyc l d) := by
  have m := fun p => h.meet' (h.prev_ne d) (p := p)
  rw [h.edge_prev d] at m
  have n1 := h.prev_ne d
  have n2 := h.next_ne d
  have n3 := h.prev_next_ne d
  unfold edge at m
  dsimp only at m
  generalize cyc l (d + (l.length - 1)) = a at *
  generalize cyc l d = b at *
  generalize cyc l (d + 1) = c at *
  have ca : cross a b a = 0 := by simp
  have cb : cross a b b = 0 := by simp
  have za : rdot a b a = 0 := by unfold rdot; simp
  have N := rdot_self_pos (Ne.symm n1)
  rw [line_inside n1 ca h0 cb, za, sub_zero]
  have mc := m c
  have ma := m a
  rw [line_onSeg n1 ca cb h0, line_onSeg n1 cb h0 h0, za] at mc
  rw [line_onSeg n1 ca cb ca, line_onSeg n1 cb h0 ca, za] at ma
  refine mul_pos N (sub_pos.2 ?_)
  by_contra hle
  rcases (not_lt.1 hle).lt_or_eq with h1 | h1
  · rcases lt_or_ge (rdot a b c) 0 with h2 | h2
    · rcases ma (by simp) (by simp only [zero_sub, sub_zero]; nlinarith) with h | h
      · exact n1 h.1
      · exact n3 h.2
    · rcases mc (by rw [sub_zero]; exact mul_nonneg h2 (by linarith)) (by simp) with h | h
      · exact n2 h.2.symm
      · exact n3 h.1.symm
  · exact n2 (line_eq n1 cb h0 h1.symm)

/-- A simple polygon with a straight vertex has at least four vertices. -/
theorem four (h : SC l) {d : Nat}
    (h0 : cross (cyc l (d + (l.length - 1))) (cyc l d) (cyc l (d + 1)) = 0) : 4 ≤ l.length := by
  have hi := h.straight h0
  have h3 := h.three
  by_contra hlt
  have h3 : l.length = 3 := by omega
  have e2 : cyc l (d + 1 + 1) = cyc l (d + (l.length - 1)) := by rw [h3]
  have m := h.meet' (i := d + 1) (j := d) (Ne.symm (h.next_ne d)) (p := cyc l d)
  unfold edge at m
  rw [e2] at m
  rcases m (onSeg_swap (inside_onSeg hi)) ⟨by unfold Collinear area2; dsimp only; ring, by simp⟩ with h' | h'
  · exact h.prev_ne d h'.1.symm
  · exact h.next_ne d h'.1

end SC

/-- A point of a segment that contains a given point lies on one side of it. -/
theorem onSeg_split {a b c p : Point K} (h : Inside a c b) (hp : OnSeg ⟨a, c⟩ p) :
    OnSeg ⟨a, b⟩ p ∨ OnSeg ⟨b, c⟩ p := by
  have hac := (inside_ne h).2.2
  have ca : cross a c a = 0 := by simp
  have cc : cross a c c = 0 := by simp
  have hp0 : cross a c p = 0 := by rw [cross_area2]; exact hp.1
  have za : rdot a c a = 0 := by unfold rdot; simp
  rw [line_onSeg hac ca h.1 hp0, line_onSeg hac h.1 cc hp0]
  rw [line_onSeg hac ca cc hp0] at hp
  have hb := (line_inside hac ca cc h.1).1 h
  rw [za] at hp hb ⊢
  have N := rdot_self_pos (Ne.symm hac)
  generalize rdot a c c = z at *
  generalize rdot a c b = y at *
  generalize rdot a c p = x at *
  rw [sub_zero] at hp hb ⊢
  have hx : 0 ≤ x ∧ x ≤ z := by
    constructor
    · by_contra hh
      have := mul_neg_of_neg_of_pos (not_le.1 hh) (show 0 < z - x by linarith); linarith
    · by_contra hh
      have := mul_neg_of_pos_of_neg (show 0 < x by linarith) (show z - x < 0 by linarith); linarith
  rcases le_total x y with h1 | h1
  · left; exact mul_nonneg hx.1 (by linarith)
  · right; exact mul_nonneg (by linarith) (by linarith)

/-- A proper crossing with a segment crosses one of its parts or passes through the common
point. -/
theorem properCross_split {a b c u v : Point K} (h : Inside a c b) (hp : ProperCross ⟨a, c⟩ ⟨u, v⟩) :
    ProperCross ⟨a, b⟩ ⟨u, v⟩ ∨ ProperCross ⟨b, c⟩ ⟨u, v⟩ ∨ OnSeg ⟨u, v⟩ b := by
  obtain ⟨s, t, hs, ht, e1, e2⟩ := onSeg_interior (inside_onSeg h) (inside_ne h).1 (inside_ne h).2.1
  obtain ⟨h1, h2⟩ := hp
  dsimp only at h1 h2
  have k := area2_combination (a := u) (b := v) e1 e2
  have st : 0 < s + t := by linarith
  have pu : ∀ w : Point K, (s + t) * area2 a b w = t * area2 a c w := by
    intro w
    unfold area2
    linear_combination (w.y - a.y) * e1 - (w.x - a.x) * e2
  have pv : ∀ w : Point K, (s + t) * area2 b c w = s * area2 a c w := by
    intro w
    unfold area2
    linear_combination (c.y - w.y) * e1 - (c.x - w.x) * e2
  have q1 : area2 a b u * area2 a b v < 0 := by
    have e : (s + t) * (s + t) * (area2 a b u * area2 a b v) = t * t * (area2 a c u * area2 a c v) := by
      linear_combination (s + t) * area2 a b v * pu u + t * area2 a c u * pu v
    by_contra hh
    have g1 := mul_nonneg (mul_pos st st).le (not_lt.1 hh)
    have g2 := mul_neg_of_pos_of_neg (mul_pos ht ht) h1
    linarith
  have q2 : area2 b c u * area2 b c v < 0 := by
    have e : (s + t) * (s + t) * (area2 b c u * area2 b c v) = s * s * (area2 a c u * area2 a c v) := by
      linear_combination (s + t) * area2 b c v * pv u + s * area2 a c u * pv v
    by_contra hh
    have g1 := mul_nonneg (mul_pos st st).le (not_lt.1 hh)
    have g2 := mul_neg_of_pos_of_neg (mul_pos hs hs) h1
    linarith
  rcases lt_trichotomy (area2 u v b) 0 with hb | hb | hb
  · rcases lt_or_ge 0 (area2 u v a) with ha | ha
    · exact .inl ⟨q1, mul_neg_of_pos_of_neg ha hb⟩
    · right; left
      refine ⟨q2, mul_neg_of_neg_of_pos hb ?_⟩
      by_contra hh
      have := mul_nonneg_of_nonpos_of_nonpos ha (not_lt.1 hh)
      linarith
  · right; right
    -- `b` lies on the line through `u` and `v`, which are on different sides of `a c`
    have huv : u ≠ v := by
      rintro rfl
      have := mul_self_nonneg (area2 a c u)
      linarith
    refine inside_onSeg ⟨by rw [cross_area2]; exact hb, ?_⟩
    have hac := (inside_ne h).2.2
    have e : area2 a b v * rdot b u u = rdot b u v * area2 a b u := by
      unfold area2 at hb ⊢
      unfold rdot
      linear_combination ((b.x - a.x) * (u.x - b.x) + (b.y - a.y) * (u.y - b.y)) * hb
    have bu : u ≠ b := by
      rintro rfl
      have : area2 a u u = 0 := by unfold area2; ring
      rw [this] at q1; simp at q1
    have g2 := rdot_self_pos bu
    show rdot b u v < 0
    by_contra hh
    have g1 := mul_nonneg (not_lt.1 hh) (mul_self_nonneg (area2 a b u))
    have g3 := mul_neg_of_neg_of_pos q1 g2
    have e' : rdot b u v * (area2 a b u * area2 a b u) = area2 a b u * area2 a b v * rdot b u u := by
      linear_combination -(area2 a b u) * e
    linarith
  · rcases lt_or_ge (area2 u v a) 0 with ha | ha
    · exact .inl ⟨q1, mul_neg_of_neg_of_pos ha hb⟩
    · right; left
      refine ⟨q2, mul_neg_of_pos_of_neg hb ?_⟩
      by_contra hh
      have := mul_nonneg ha (not_lt.1 hh)
      linarith

theorem ProperCross.symm {s t : Segment K} (h : ProperCross s t) : ProperCross t s := ⟨h.2, h.1⟩

namespace SC
variable {l : List (Point K)} {d : Nat}

theorem new_old (h : SC l) 
    (h0 : cross (cyc l (d + (l.length - 1))) (cyc l d) (cyc l (d + 1)) = 0) {j : Nat}
    (n1 : cyc l (d + (l.length - 1)) ≠ cyc l j) (n2 : cyc l j ≠ cyc l d) (n3 : cyc l (j + 1) ≠ cyc l d)
    {p : Point K} (hp : OnSeg ⟨cyc l (d + (l.length - 1)), cyc l (d + 1)⟩ p) (hq : OnSeg (edge l j) p) :
    (p = cyc l (d + 1) ∧ p = (edge l j).start) ∨
      (p = cyc l (d + (l.length - 1)) ∧ p = (edge l j).stop) := by
  rcases onSeg_split (h.straight h0) hp with h1 | h1
  · have m := h.meet' n1 (p := p)
    rw [h.edge_prev d] at m
    rcases m h1 hq with ⟨e1, e2⟩ | ⟨e1, e2⟩
    · exact absurd (e2.symm.trans e1) n2
    · exact .inr ⟨e1, e2⟩
  · rcases h.meet' (Ne.symm n2) h1 hq with ⟨e1, e2⟩ | ⟨e1, e2⟩
    · exact .inl ⟨e1, e2⟩
    · exact absurd (e2.symm.trans e1) n3

theorem new_old' (h : SC l) 
    (h0 : cross (cyc l (d + (l.length - 1))) (cyc l d) (cyc l (d + 1)) = 0) {j : Nat}
    (n1 : cyc l (d + (l.length - 1)) ≠ cyc l j) (n2 : cyc l j ≠ cyc l d) (n3 : cyc l (j + 1) ≠ cyc l d) :
    ¬ ProperCross ⟨cyc l (d + (l.length - 1)), cyc l (d + 1)⟩ (edge l j) := by
  intro hp
  rcases properCross_split (h.straight h0) hp with h1 | h1 | h1
  · have m := h.nocross' n1
    rw [h.edge_prev d] at m
    exact m h1
  · exact h.nocross' (Ne.symm n2) h1
  · rcases h.meet' (Ne.symm n2) (p := cyc l d)
      ⟨by unfold edge Collinear area2; dsimp only; ring, by simp [edge]⟩ h1 with ⟨e1, e2⟩ | ⟨e1, e2⟩
    · exact h.next_ne d e1
    · exact n3 e2.symm

theorem erase (h : SC l) (hd : d < l.length)
    (h0 : cross (cyc l (d + (l.length - 1))) (cyc l d) (cyc l (d + 1)) = 0) : SC (l.eraseIdx d) := by
  have h3 := h.three
  have h4 := h.four h0
  have hl : (l.eraseIdx d).length = l.length - 1 := List.length_eraseIdx_of_lt hd
  have hn : (l.eraseIdx d).Nodup := h.nodup.sublist (List.eraseIdx_sublist _ _)
  have bne : ∀ {j}, j < l.length → j ≠ d → j + 1 ≠ d → (d = 0 → j + 1 ≠ l.length) →
      cyc l j ≠ cyc l d ∧ cyc l (j + 1) ≠ cyc l d := by
    intro j hj j1 j2 j3
    refine ⟨fun hh => j1 (cyc_inj h.nodup hj hd hh), fun hh => ?_⟩
    rcases Nat.lt_or_ge (j + 1) l.length with h5 | h5
    · exact j2 (cyc_inj h.nodup h5 hd hh)
    · have h6 : j + 1 = l.length := by omega
      rw [h6, cyc_len] at hh
      have := cyc_inj h.nodup (by omega) hd hh
      exact j3 this.symm h6
  have st : ∀ {i j}, edge (l.eraseIdx d) i = edge l j → cyc (l.eraseIdx d) i = cyc l j :=
    fun hh => congrArg Segment.start hh
  refine ⟨hn, by omega, ?_, ?_⟩
  · intro i hi i' hi' hne p hp hp'
    have cne : cyc (l.eraseIdx d) i ≠ cyc (l.eraseIdx d) i' := fun hh => hne (cyc_inj hn hi hi' hh)
    rcases edge_erase h3 hd hi with ⟨j, hj, j1, j2, j3, e⟩ | ⟨e, ei⟩ <;>
      rcases edge_erase h3 hd hi' with ⟨j', hj', j1', j2', j3', e'⟩ | ⟨e', ei'⟩
    · rw [st e, st e'] at cne
      rw [e] at hp ⊢
      rw [e'] at hp' ⊢
      exact h.meet' cne hp hp'
    · have cs : cyc (l.eraseIdx d) i' = cyc l (d + (l.length - 1)) := congrArg Segment.start e'
      rw [st e, cs] at cne
      rw [e] at hp ⊢
      rw [e'] at hp' ⊢
      obtain ⟨b1, b2⟩ := bne hj j1 j2 j3
      rcases h.new_old h0 (Ne.symm cne) b1 b2 hp' hp with ⟨q1, q2⟩ | ⟨q1, q2⟩
      · exact .inr ⟨q2, q1⟩
      · exact .inl ⟨q2, q1⟩
    · have cs : cyc (l.eraseIdx d) i = cyc l (d + (l.length - 1)) := congrArg Segment.start e
      rw [st e', cs] at cne
      rw [e] at hp ⊢
      rw [e'] at hp' ⊢
      obtain ⟨b1, b2⟩ := bne hj' j1' j2' j3'
      exact h.new_old h0 cne b1 b2 hp hp'
    · omega
  · intro i hi i' hi' hne hp
    have cne : cyc (l.eraseIdx d) i ≠ cyc (l.eraseIdx d) i' := fun hh => hne (cyc_inj hn hi hi' hh)
    rcases edge_erase h3 hd hi with ⟨j, hj, j1, j2, j3, e⟩ | ⟨e, ei⟩ <;>
      rcases edge_erase h3 hd hi' with ⟨j', hj', j1', j2', j3', e'⟩ | ⟨e', ei'⟩
    · rw [st e, st e'] at cne
      rw [e, e'] at hp
      exact h.nocross' cne hp
    · have cs : cyc (l.eraseIdx d) i' = cyc l (d + (l.length - 1)) := congrArg Segment.start e'
      rw [st e, cs] at cne
      rw [e, e'] at hp
      obtain ⟨b1, b2⟩ := bne hj j1 j2 j3
      exact h.new_old' h0 (Ne.symm cne) b1 b2 hp.symm
    · have cs : cyc (l.eraseIdx d) i = cyc l (d + (l.length - 1)) := congrArg Segment.start e
      rw [st e', cs] at cne
      rw [e, e'] at hp
      obtain ⟨b1, b2⟩ := bne hj' j1' j2' j3'
      exact h.new_old' h0 cne b1 b2 hp
    · omega

/-- Removing redundant vertices keeps a polygon simple. -/
theorem compress (h : SC l) : SC (compressContour l) :=
  compress_ind (Q := SC) (fun _ _ _ hd h0 hs => hs.erase hd h0) h

end SC

end HG
