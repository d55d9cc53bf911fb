import Verif.Lemmas.GeneralPosition
import Verif.Spec.Sample

/-!
# Points in general position (C34, C35)
-/

set_option linter.unusedSectionVars false

namespace HG

namespace Spec

/-- No three different index pairs on a line. -/
def NoThreeOnLine (l : List (ℤ × ℤ)) : Prop :=
  ∀ a ∈ l, ∀ b ∈ l, ∀ c ∈ l, a ≠ b → a ≠ c → b ≠ c →
    (b.1 - a.1) * (c.2 - a.2) ≠ (b.2 - a.2) * (c.1 - a.1)

/-- At most two index pairs in every row, column and diagonal. -/
def Sparse (l : List (ℤ × ℤ)) : Prop :=
  ∀ v, (l.filter fun q => q.1 = v).length ≤ 2 ∧ (l.filter fun q => q.2 = v).length ≤ 2 ∧
    (l.filter fun q => q.1 + q.2 = v).length ≤ 2 ∧ (l.filter fun q => q.1 - q.2 = v).length ≤ 2

/-- A point sequence read off a grid of increasing coordinates at index pairs. -/
structure OnGrid {K : Type} [LinearOrder K] [Zero K] (xs ys : List K) (idx : List (ℤ × ℤ))
    (pts : List (Point K)) : Prop where
  xs_lt : xs.Pairwise (· < ·)
  ys_lt : ys.Pairwise (· < ·)
  range : ∀ q ∈ idx, 0 ≤ q.1 ∧ q.1 < xs.length ∧ 0 ≤ q.2 ∧ q.2 < ys.length
  points : pts = idx.map fun q => ⟨xs.getD q.1.toNat 0, ys.getD q.2.toNat 0⟩

end Spec

open Strategy Spec

theorem indexPair_noThree (swap : Bool) (p : ℕ) (hp : p.Prime) (s : ℤ) (hs : ¬ (p : ℤ) ∣ s) :
    NoThreeOnLine ((intRange p).map (indexPair swap p s)) := by
  have hp' : Prime (p : ℤ) := Nat.prime_iff_prime_int.1 hp
  intro a ha b hb c hc hab hac hbc h
  obtain ⟨i, hi, rfl⟩ := List.mem_map.1 ha
  obtain ⟨j, hj, rfl⟩ := List.mem_map.1 hb
  obtain ⟨k, hk, rfl⟩ := List.mem_map.1 hc
  obtain ⟨i0, i1⟩ := mem_intRange.1 hi
  obtain ⟨j0, j1⟩ := mem_intRange.1 hj
  obtain ⟨k0, k1⟩ := mem_intRange.1 hk
  have hij : ¬ (p : ℤ) ∣ i - j := not_dvd_sub i0 i1 j0 j1 (fun e => hab (by rw [e]))
  have hik : ¬ (p : ℤ) ∣ i - k := not_dvd_sub i0 i1 k0 k1 (fun e => hac (by rw [e]))
  have hjk : ¬ (p : ℤ) ∣ j - k := not_dvd_sub j0 j1 k0 k1 (fun e => hbc (by rw [e]))
  obtain ⟨u, hu⟩ := parabola_dvd p s i
  obtain ⟨v, hv⟩ := parabola_dvd p s j
  obtain ⟨w, hw⟩ := parabola_dvd p s k
  have key : (j - i) * (parabola p s k - parabola p s i) =
      (parabola p s j - parabola p s i) * (k - i) := by
    cases swap
    · simpa [indexPair] using h
    · simp only [indexPair, if_true] at h
      linear_combination -h
  have hd : (p : ℤ) ∣ s * ((i - j) * (i - k) * (j - k)) := by
    refine ⟨-((j - i) * (w - u) - (v - u) * (k - i)), ?_⟩
    linear_combination -key - (j - i) * (hw - hu) + (hv - hu) * (k - i)
  rcases hp'.dvd_or_dvd hd with h | h
  · exact hs h
  · rcases hp'.dvd_or_dvd h with h | h
    · exact (hp'.dvd_or_dvd h).elim hij hik
    · exact hjk h

theorem indexPair_injective (swap : Bool) (p s : ℤ) : Function.Injective (indexPair swap p s) := by
  intro i j h
  cases swap
  · have := congrArg Prod.fst h
    simpa [indexPair] using this
  · have := congrArg Prod.snd h
    simpa [indexPair] using this

theorem filter_count (l : List ℤ) (f : ℤ → ℤ × ℤ) (g : ℤ × ℤ → ℤ) (v : ℤ) :
    ((l.map f).filter fun q => g q = v).length = (l.map fun i => g (f i)).count v := by
  rw [List.count, List.countP_map, ← List.countP_eq_length_filter, List.countP_map]
  rfl

theorem indexPair_sparse (swap : Bool) (p : ℕ) (hp : p.Prime) (s : ℤ) (hs : ¬ (p : ℤ) ∣ s) :
    Sparse ((intRange p).map (indexPair swap p s)) := by
  have h := parabola_sparse p hp s hs
  simp only [indexPairSparse, indicesSparse, List.zipWith_map_right, List.zipWith_self,
    Bool.and_eq_true, List.all_eq_true, decide_eq_true_eq] at h
  obtain ⟨⟨⟨h1, h2⟩, h3⟩, h4⟩ := h
  have tot : ∀ l : List ℤ, (∀ a ∈ l, l.count a ≤ 2) → ∀ a, l.count a ≤ 2 := by
    intro l h a
    by_cases ha : a ∈ l
    · exact h a ha
    · rw [List.count_eq_zero_of_not_mem ha]; omega
  intro v
  rw [filter_count _ _ Prod.fst, filter_count _ _ Prod.snd,
    filter_count _ _ (fun q => q.1 + q.2), filter_count _ _ (fun q => q.1 - q.2)]
  cases swap
  · simp only [indexPair, Bool.false_eq_true, if_false, List.map_id']
    exact ⟨tot _ h1 v, tot _ h2 v, tot _ h3 v, tot _ h4 v⟩
  · simp only [indexPair, if_true, List.map_id']
    refine ⟨tot _ h2 v, tot _ h1 v, ?_, ?_⟩
    · have := tot _ h3 v
      simpa [add_comm] using this
    · have := tot _ h4 (-v)
      rw [← List.count_map_of_injective _ _ neg_injective, List.map_map] at this
      simpa [Function.comp_def] using this

section
variable {K : Type} [LinearOrder K] [Zero K] [Add K] [Sub K] [Predicates K]

theorem scale_not_dvd {p t s : ℤ} (h1 : t * p + 1 ≤ s) (h2 : s ≤ (t + 1) * p - 1) : ¬ p ∣ s := by
  rintro ⟨c, rfl⟩
  have hp : 0 < p := by nlinarith
  have a : t < c := by
    by_contra hc
    have : c ≤ t := not_lt.1 hc
    nlinarith
  have b : c < t + 1 := by
    by_contra hc
    have : t + 1 ≤ c := not_lt.1 hc
    nlinarith
  omega

/-- The grid read by a draw of points in general position. -/
theorem generalPosition_val {x : Strategy K} {y : Option (Strategy K)} {lo : Int}
    {hi : Option Int} (hlo : 3 ≤ lo) {pts : List (Point K)}
    (h : (toGeneralPositionStrategy x y lo hi).val pts) :
    ∃ (p : ℕ) (s : ℤ) (swap : Bool) (xs ys : List K), p.Prime ∧ 5 ≤ p ∧ lo ≤ p ∧
      (∀ m, hi = some m → ∃ q : ℕ, q.Prime ∧ toNextPrime lo = .ok (q : ℤ) ∧
        (p : ℤ) ≤ max m q) ∧
      ¬ (p : ℤ) ∣ s ∧ xs.Pairwise (· < ·) ∧ ys.Pairwise (· < ·) ∧ (∀ a ∈ xs, x.val a) ∧
      (∀ b ∈ ys, (yOr x y).val b) ∧ p ≤ xs.length ∧ p ≤ ys.length ∧
      pts = ((intRange p).map (indexPair swap p s)).map (pointAt xs ys) := by
  obtain ⟨q, hq, hqp, hql, hq5, -, -⟩ := toNextPrime_spec lo hlo
  simp only [toGeneralPositionStrategy, val_bind, val_ofExcept, hq, val_prod,
    val_uniqueLists] at h
  obtain ⟨_, h1, ⟨xs, ys⟩, ⟨⟨hx1, hx2, hx3, hx4⟩, ⟨hy1, hy2, hy3, hy4⟩⟩, h⟩ := h
  cases h1
  simp only at hx1 hx2 hx3 hx4 hy1 hy2 hy3 hy4 h
  have lx : (sortCoords xs).length = xs.length := (sortCoords_perm xs).length_eq
  have ly : (sortCoords ys).length = ys.length := (sortCoords_perm ys).length_eq
  obtain ⟨p, hp, hpp, hple, hp5, hpm⟩ := toPriorPrime_spec
    ((min (sortCoords xs).length (sortCoords ys).length : ℕ) : ℤ) (by rw [lx, ly]; omega)
  have hqp' : q ≤ p := hpm q hqp (by rw [lx, ly]; omega)
  simp only [coordinatePairToPoints, val_bind, val_ofExcept, Nat.cast_min] at h hp hple
  obtain ⟨g, hg, h⟩ := h
  rw [hp] at hg
  cases hg
  have fin : ∀ swap, ((((integersFrom 0).bind fun s =>
      integers (s * (p : ℤ) + 1) ((s + 1) * p - 1)) : Strategy Int).mapE
      (indicesToPoints swap p (sortCoords xs) (sortCoords ys))).val pts →
      ∃ s : ℤ, ¬ (p : ℤ) ∣ s ∧
        pts = ((intRange p).map (indexPair swap p s)).map
          (pointAt (sortCoords xs) (sortCoords ys)) := by
    intro swap h
    simp only [val_mapE, val_bind', val_integers] at h
    obtain ⟨s, ⟨t, _, ht1, ht2⟩, h⟩ := h
    have hs := scale_not_dvd ht1 ht2
    rw [indicesToPoints_ok swap p hpp s hs _ _ (by omega) (by omega)] at h
    exact ⟨s, hs, (Except.ok.inj h).symm⟩
  have upper : ∀ m, hi = some m → ∃ q : ℕ, q.Prime ∧ toNextPrime lo = .ok (q : ℤ) ∧
        (p : ℤ) ≤ max m q := by
    rintro m rfl
    refine ⟨q, hqp, hq, ?_⟩
    simp only [maxOpt, leOpt_some] at hx4
    refine le_trans ?_ hx4
    omega
  have main : ∃ swap s, ¬ (p : ℤ) ∣ s ∧
        pts = ((intRange p).map (indexPair swap p s)).map
          (pointAt (sortCoords xs) (sortCoords ys)) := by
    rcases h with h | h
    · exact ⟨false, fin false h⟩
    · exact ⟨true, fin true h⟩
  obtain ⟨swap, s, hs, e⟩ := main
  refine ⟨p, s, swap, _, _, hpp, by omega, by omega, upper, hs, sortCoords_sorted xs hx2,
    sortCoords_sorted ys hy2, ?_, ?_, by omega, by omega, e⟩
  · intro a ha
    exact hx1 a ((sortCoords_perm xs).mem_iff.1 ha)
  · intro a ha
    exact hy1 a ((sortCoords_perm ys).mem_iff.1 ha)

/-- C34: points drawn in general position are read off a grid of increasing drawn coordinates, at
index pairs no three of which are on a line and at most two of which share a row, a column or a
diagonal. -/
theorem C34_general_position (x : Strategy K) (y : Option (Strategy K)) (lo : Int)
    (hi : Option Int) (hlo : 3 ≤ lo) (pts : List (Point K))
    (h : (toGeneralPositionStrategy x y lo hi).val pts) :
    ∃ xs ys idx, OnGrid xs ys idx pts ∧ idx.Nodup ∧ (∀ a ∈ xs, x.val a) ∧
      (∀ b ∈ ys, (y.getD x).val b) ∧ NoThreeOnLine idx ∧ Sparse idx := by
  obtain ⟨p, s, swap, xs, ys, hp, -, -, -, hs, hx, hy, vx, vy, lx, ly, rfl⟩ :=
    generalPosition_val hlo h
  refine ⟨xs, ys, (intRange p).map (indexPair swap p s), ⟨hx, hy, ?_, rfl⟩,
    (intRange_nodup _).map (indexPair_injective _ _ _), vx, vy,
    indexPair_noThree swap p hp s hs, indexPair_sparse swap p hp s hs⟩
  intro q hq
  obtain ⟨i, hi, rfl⟩ := List.mem_map.1 hq
  obtain ⟨h0, h1⟩ := mem_intRange.1 hi
  obtain ⟨h2, h3⟩ := parabola_range p s i (by exact_mod_cast hp.pos)
  cases swap
  · simp only [indexPair, Bool.false_eq_true, if_false]; omega
  · simp only [indexPair, if_true]; omega

/-- C34: the sparsity assertion never fails and nothing else goes wrong: a draw can only fail when
a coordinate strategy does, or has fewer different values than the grid needs. -/
theorem C34_no_failure (x : Strategy K) (y : Option (Strategy K)) (lo : Int)
    (hi : Option Int) (hlo : 3 ≤ lo) (e : Exc)
    (h : (toGeneralPositionStrategy x y lo hi).err e) :
    x.err e ∨ (y.getD x).err e ∨
      (e = .unsatisfiable ∧ ∃ q : ℕ, IsLeast {r : ℕ | r.Prime ∧ max lo 5 ≤ (r : ℤ)} q ∧
        ((¬ ∃ l : List K, (∀ a ∈ l, x.val a) ∧ l.Nodup ∧ q ≤ l.length) ∨
          ¬ ∃ l : List K, (∀ a ∈ l, (y.getD x).val a) ∧ l.Nodup ∧ q ≤ l.length)) := by
  obtain ⟨q, hq, hqp, hql, hq5, -, hqm⟩ := toNextPrime_spec lo hlo
  have hleast : IsLeast {r : ℕ | r.Prime ∧ max lo 5 ≤ (r : ℤ)} q := by
    refine ⟨⟨hqp, max_le hql (by exact_mod_cast hq5)⟩, fun r hr => hqm r hr.1 ?_ ?_⟩
    · exact le_trans (le_max_left _ _) hr.2
    · have := le_trans (le_max_right lo 5) hr.2
      exact_mod_cast this
  have hb : leOpt (q : ℤ) (maxOpt q hi) := by
    cases hi with
    | none => trivial
    | some m => exact le_max_right _ _
  simp only [toGeneralPositionStrategy, err_bind, err_ofExcept, val_ofExcept, hq, err_prod,
    val_prod, val_uniqueLists, err_uniqueLists] at h
  rcases h with h | ⟨_, h1, h⟩
  · cases h
  · cases h1
    rcases h with ((h | ⟨h, _⟩ | ⟨h, rfl⟩) | ⟨_, h | ⟨h, _⟩ | ⟨h, rfl⟩⟩) |
      ⟨⟨xs, ys⟩, ⟨⟨hx1, hx2, hx3, hx4⟩, ⟨hy1, hy2, hy3, hy4⟩⟩, h⟩
    · exact Or.inl h
    · exact absurd hb h
    · exact Or.inr (Or.inr ⟨rfl, q, hleast, Or.inl (by simpa using h)⟩)
    · exact Or.inr (Or.inl h)
    · exact absurd hb h
    · exact Or.inr (Or.inr ⟨rfl, q, hleast, Or.inr (by simpa [yOr] using h)⟩)
    · exfalso
      simp only at hx1 hx2 hx3 hx4 hy1 hy2 hy3 hy4 h
      have lx : (sortCoords xs).length = xs.length := (sortCoords_perm xs).length_eq
      have ly : (sortCoords ys).length = ys.length := (sortCoords_perm ys).length_eq
      obtain ⟨p, hp, hpp, hple, hp5, hpm⟩ := toPriorPrime_spec
        ((min (sortCoords xs).length (sortCoords ys).length : ℕ) : ℤ) (by rw [lx, ly]; omega)
      simp only [coordinatePairToPoints, err_bind, err_ofExcept, val_ofExcept, Nat.cast_min]
        at h hp hple
      rw [hp] at h
      rcases h with h | ⟨g, hg, h⟩
      · cases h
      · cases hg
        have fin : ∀ swap, ¬ ((((integersFrom 0).bind fun s =>
            integers (s * (p : ℤ) + 1) ((s + 1) * p - 1)) : Strategy Int).mapE
            (indicesToPoints swap p (sortCoords xs) (sortCoords ys))).err e := by
          intro swap h
          simp only [err_mapE, err_bind', val_bind', val_integers, err_integers,
            err_integersFrom, false_or] at h
          rcases h with ⟨t, _, h, _⟩ | ⟨s, ⟨t, _, ht1, ht2⟩, h⟩
          · nlinarith
          · have hs := scale_not_dvd ht1 ht2
            rw [indicesToPoints_ok swap p hpp s hs _ _ (by omega) (by omega)] at h
            cases h
        rcases h with h | h
        · exact fin false h
        · exact fin true h

theorem getD_injOn {l : List K} (h : l.Pairwise (· < ·)) {i j : ℕ} (hi : i < l.length)
    (hj : j < l.length) (e : l.getD i 0 = l.getD j 0) : i = j := by
  rw [List.getD_eq_getElem _ _ hi, List.getD_eq_getElem _ _ hj] at e
  by_contra hne
  rcases lt_or_gt_of_ne hne with hlt | hlt
  · exact absurd e (ne_of_lt (List.pairwise_iff_getElem.1 h i j hi hj hlt))
  · exact absurd e.symm (ne_of_lt (List.pairwise_iff_getElem.1 h j i hj hi hlt))

theorem onGrid_nodup {xs ys : List K} {idx : List (ℤ × ℤ)} {pts : List (Point K)}
    (h : OnGrid xs ys idx pts) (hn : idx.Nodup) : pts.Nodup := by
  rw [h.points]
  refine List.Nodup.map_on ?_ hn
  intro a ha b hb e
  obtain ⟨a1, a2, a3, a4⟩ := h.range a ha
  obtain ⟨b1, b2, b3, b4⟩ := h.range b hb
  have e1 := congrArg Point.x e
  have e2 := congrArg Point.y e
  simp only at e1 e2
  have := getD_injOn h.xs_lt (by omega) (by omega) e1
  have := getD_injOn h.ys_lt (by omega) (by omega) e2
  apply Prod.ext <;> omega

/-- C35: the points drawn for at least `lo` vertices are different, have drawn coordinates and
their number is a prime that is at least `lo`. -/
theorem C35_distinct (x : Strategy K) (y : Option (Strategy K)) (lo : Int)
    (hi : Option Int) (hlo : 3 ≤ lo) (pts : List (Point K))
    (h : (toGeneralPositionStrategy x y lo hi).val pts) :
    pts.Nodup ∧ pts.length.Prime ∧ lo ≤ pts.length ∧
      ∀ q ∈ pts, x.val q.x ∧ (y.getD x).val q.y := by
  obtain ⟨xs, ys, idx, hg, hn, hx, hy, -, -⟩ := C34_general_position x y lo hi hlo pts h
  obtain ⟨p, s, swap, xs', ys', hp, hp5, hpl, -, -, -, -, -, -, -, -, e⟩ :=
    generalPosition_val hlo h
  have hlen : pts.length = p := by
    rw [e]
    simp [intRange_length]
  refine ⟨onGrid_nodup hg hn, hlen ▸ hp, by rw [hlen]; exact hpl, ?_⟩
  intro q hq
  rw [hg.points] at hq
  obtain ⟨i, hi, rfl⟩ := List.mem_map.1 hq
  obtain ⟨a1, a2, a3, a4⟩ := hg.range i hi
  simp only
  rw [List.getD_eq_getElem _ _ (by omega), List.getD_eq_getElem _ _ (by omega)]
  exact ⟨hx _ (List.getElem_mem _), hy _ (List.getElem_mem _)⟩

/-- Non-vacuity: seven points. -/
example : (toGeneralPositionStrategy (sampledFrom (Sample.coords 7)) none 6 none).val
    [⟨0, 0⟩, ⟨1, 1⟩, ⟨2, 4⟩, ⟨3, 2⟩, ⟨4, 2⟩, ⟨5, 4⟩, ⟨6, 1⟩] :=
  Sample.generalPosition7 6 none rfl trivial

end
end HG
