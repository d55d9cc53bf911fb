import Verif.Props.NonEmpty

/-!
# Points inside of the hull

With the greatest scale the `i`-th drawn point is in row `-i²` modulo a prime `p`.  Whatever the
coordinates are, the points `2, …, (p - 1) / 2` are strictly inside of the convex hull: to the left
there are the lowest point `0` and one of the highest points, `1`, and to the right there is the
other point of the same row, `p - i`.
-/

set_option linter.unusedSectionVars false

namespace HG

open Strategy Spec

section
variable {K : Type} [CommRing K] [LinearOrder K] [IsStrictOrderedRing K]

/-- Points strictly inside of a triangle of the points are not on the hull. -/
theorem inside_notMem_max {pts : List (Point K)} (hn : pts.Nodup) (h2 : 2 ≤ pts.length)
    {a b c v : Point K} (ha : a ∈ pts) (hb : b ∈ pts) (hc : c ∈ pts)
    (h1 : 0 < area2 a b v) (h3 : 0 < area2 b c v) (h4 : 0 < area2 c a v) :
    v ∉ toMaxConvexHull pts := by
  intro hv
  have habc : 0 < area2 a b c := by
    have : area2 a b c = area2 a b v + area2 b c v + area2 c a v := by unfold area2; ring
    rw [this]
    exact add_pos (add_pos h1 h3) h4
  obtain ⟨l2, -, g3, -⟩ := C43_max_hull pts hn h2
  have nd := C43_max_hull_nodup pts hn h2 ⟨a, ha, b, hb, c, hc, habc.ne'⟩
  obtain ⟨i, hi, hiv⟩ := List.getElem_of_mem hv
  have hcyc : cyc (toMaxConvexHull pts) i = v := by
    unfold cyc
    rw [Nat.mod_eq_of_lt hi, List.getD_eq_getElem _ _ hi, hiv]
  have hne : cyc (toMaxConvexHull pts) (i + 1) ≠ v := by
    intro he
    rw [← hcyc] at he
    unfold cyc at he
    rw [Nat.mod_eq_of_lt hi, List.getD_eq_getElem _ _ (Nat.mod_lt _ (by omega)),
      List.getD_eq_getElem _ _ hi] at he
    have := nd.getElem_inj_iff.1 he
    rcases Nat.lt_or_ge (i + 1) (toMaxConvexHull pts).length with h | h
    · rw [Nat.mod_eq_of_lt h] at this; omega
    · rw [show i + 1 = (toMaxConvexHull pts).length by omega, Nat.mod_self] at this; omega
  have g := g3 i hi
  rw [hcyc] at g
  generalize cyc (toMaxConvexHull pts) (i + 1) = w at hne g
  have ga := g a ha
  have gb := g b hb
  have gc := g c hc
  have id1 : area2 b c v * area2 v w a + area2 c a v * area2 v w b + area2 a b v * area2 v w c = 0 := by
    unfold area2; ring
  have t1 := mul_nonneg h3.le ga
  have t2 := mul_nonneg h4.le gb
  have t3 := mul_nonneg h1.le gc
  have z1 : area2 v w a = 0 := (mul_eq_zero.1 (by linarith)).resolve_left h3.ne'
  have z2 : area2 v w b = 0 := (mul_eq_zero.1 (by linarith)).resolve_left h4.ne'
  have e1 : (w.x - v.x) * area2 a b v = 0 := by
    have : (w.x - v.x) * area2 a b v =
        (a.x - v.x) * area2 v w b - (b.x - v.x) * area2 v w a := by unfold area2; ring
    rw [this, z1, z2]; ring
  have e2 : (w.y - v.y) * area2 a b v = 0 := by
    have : (w.y - v.y) * area2 a b v =
        (a.y - v.y) * area2 v w b - (b.y - v.y) * area2 v w a := by unfold area2; ring
    rw [this, z1, z2]; ring
  apply hne
  have f1 := sub_eq_zero.1 ((mul_eq_zero.1 e1).resolve_right h1.ne')
  have f2 := sub_eq_zero.1 ((mul_eq_zero.1 e2).resolve_right h1.ne')
  cases v; cases w; simp_all

/-! ## Rows -/

theorem parabola_neg_one {p : ℕ} (h2 : 2 ≤ p) : parabola p (p - 1) 1 = p - 1 := by
  unfold parabola
  rw [mul_one, mul_one]
  exact Int.emod_eq_of_lt (by omega) (by omega)

theorem parabola_partner (p s i : ℤ) : parabola p s (p - i) = parabola p s i := by
  unfold parabola
  refine Int.emod_eq_emod_iff_emod_sub_eq_zero.2 (Int.emod_eq_zero_of_dvd ⟨s * (p - 2 * i), ?_⟩)
  ring

theorem parabola_between {p : ℕ} (hp : p.Prime) {i : ℤ} (h2 : 2 ≤ i) (hi : i + 1 < p) :
    0 < parabola p (p - 1) i ∧ parabola p (p - 1) i < p - 1 := by
  have hp' : Prime (p : ℤ) := Nat.prime_iff_prime_int.1 hp
  have r := parabola_range (p : ℤ) (p - 1) i (by omega)
  have hd := parabola_dvd (p : ℤ) (p - 1) i
  have nd : ∀ j : ℤ, 0 < j → j < p → ¬ (p : ℤ) ∣ j := fun j h0 h1 h =>
    absurd (Int.le_of_dvd h0 h) (by omega)
  have n0 : parabola p (p - 1) i ≠ 0 := by
    intro h
    rw [h, sub_zero] at hd
    rcases hp'.dvd_or_dvd hd with h | h
    · exact nd _ (by omega) (by omega) h
    · rcases hp'.dvd_or_dvd h with h | h <;> exact nd _ (by omega) (by omega) h
  have n1 : parabola p (p - 1) i ≠ p - 1 := by
    intro h
    rw [h] at hd
    have : ((p : ℤ) - 1) * (i * i) - (p - 1) = (p - 1) * ((i - 1) * (i + 1)) := by ring
    rw [this] at hd
    rcases hp'.dvd_or_dvd hd with h | h
    · exact nd _ (by omega) (by omega) h
    · rcases hp'.dvd_or_dvd h with h | h <;> exact nd _ (by omega) (by omega) h
  omega

theorem getD_lt_of {l : List K} (hl : l.Pairwise (· < ·)) {i j : ℕ} (hij : i < j) (hj : j < l.length) :
    l.getD i 0 < l.getD j 0 := by
  rw [List.getD_eq_getElem _ _ (by omega), List.getD_eq_getElem _ _ hj]
  exact List.pairwise_iff_getElem.1 hl i j (by omega) hj hij

/-- Any prime number of points within the bounds can be drawn such that almost half of them are inside of
the hull. -/
theorem generalPosition_inner {x : Strategy K} {y : Option (Strategy K)} {lo : Int}
    {hi : Option Int} (hlo : 3 ≤ lo) {p : ℕ} (hp : p.Prime) (h5 : 5 ≤ p) (hpl : lo ≤ p)
    (hph : ∀ m, hi = some m → p ≤ m)
    (hx : Rich x p) (hy : Rich (y.getD x) p) : ∃ pts : List (Point K),
      (toGeneralPositionStrategy x y lo hi).val pts ∧ pts.length = p ∧
      2 * (toMaxConvexHull pts).length ≤ p + 3 := by
  obtain ⟨q, hq, hqp, hq1, hq5, -, hq2⟩ := toNextPrime_spec lo hlo
  have hqp' := hq2 p hp hpl h5
  obtain ⟨xs, x1, x2, x3⟩ := hx.exactly
  obtain ⟨ys, y1, y2, y3⟩ := hy.exactly
  have hup : leOpt (p : Int) (maxOpt q hi) := by
    cases hi with
    | none => trivial
    | some m => exact (hph m rfl).trans (le_max_left _ _)
  have lx : (sortCoords xs).length = p := by rw [(sortCoords_perm xs).length_eq, x3]
  have ly : (sortCoords ys).length = p := by rw [(sortCoords_perm ys).length_eq, y3]
  obtain ⟨r, hr, hrp, hr1, -, hr3⟩ := toPriorPrime_spec (p : Int) (by omega)
  have hrq : r = p := le_antisymm (by omega) (hr3 p hp le_rfl)
  subst hrq
  set P := ((intRange r).map (indexPair false r (r - 1))).map (pointAt (sortCoords xs) (sortCoords ys))
    with hP
  have hval : (toGeneralPositionStrategy x y lo hi).val P := by
    refine ⟨q, by rw [val_ofExcept]; exact hq, (xs, ys),
      ⟨⟨x1, x2, by rw [x3]; exact_mod_cast hqp', by rw [x3]; exact hup⟩,
        ⟨y1, y2, by rw [y3]; exact_mod_cast hqp', by rw [y3]; exact hup⟩⟩, ?_⟩
    refine ⟨r, by rw [val_ofExcept, lx, ly, min_self]; exact hr, .inl ?_⟩
    rw [val_mapE]
    refine ⟨r - 1, ⟨0, le_refl _, by omega, by omega⟩, ?_⟩
    refine indicesToPoints_ok false r hrp (r - 1) ?_ _ _ (le_of_eq lx.symm) (le_of_eq ly.symm)
    intro hd
    have := Int.le_of_dvd (by omega) hd
    omega
  have hlen : P.length = r := by simp [hP, intRange_length]
  refine ⟨P, hval, hlen, ?_⟩
  have sc := generalPosition_scattered hlo hval
  have nc := spread_notAllCol hlo hval
  obtain ⟨-, g2, -⟩ := C43_max_hull P sc.nodup (by omega)
  have nd := C43_max_hull_nodup P sc.nodup (by omega) (exists_turn nc)
  have sx := sortCoords_sorted xs x2
  have sy := sortCoords_sorted ys y2
  set f : ℤ → Point K := fun i => pointAt (sortCoords xs) (sortCoords ys) (indexPair false r (r - 1) i)
    with hf
  have mem : ∀ i : ℤ, 0 ≤ i → i < r → f i ∈ P := fun i h0 h1 =>
    List.mem_map_of_mem (List.mem_map_of_mem (mem_intRange.2 ⟨h0, h1⟩))
  have fx : ∀ i, (f i).x = (sortCoords xs).getD i.toNat 0 := fun i => by
    simp [hf, pointAt, indexPair]
  have fy : ∀ i, (f i).y = (sortCoords ys).getD (parabola r (r - 1) i).toNat 0 := fun i => by
    simp [hf, pointAt, indexPair]
  have ltx : ∀ i j : ℤ, 0 ≤ i → i < j → j < r → (f i).x < (f j).x := fun i j h0 h1 h2 => by
    rw [fx, fx]; exact getD_lt_of sx (by omega) (by omega)
  have lty : ∀ i j : ℤ, parabola r (r - 1) i < parabola r (r - 1) j → (f i).y < (f j).y :=
    fun i j h => by
      have a := parabola_range (r : ℤ) (r - 1) i (by omega)
      have b := parabola_range (r : ℤ) (r - 1) j (by omega)
      rw [fy, fy]; exact getD_lt_of sy (by omega) (by omega)
  have r0 : parabola r (r - 1) 0 = 0 := by simp [parabola]
  have r1 := parabola_neg_one (p := r) (by omega)
  have inner : ∀ i : ℤ, 2 ≤ i → 2 * i < r → f i ∉ toMaxConvexHull P := by
    intro i hi2 hir
    have hb := parabola_between hrp hi2 (by omega)
    have hpart : (f (r - i)).y = (f i).y := by rw [fy, fy, parabola_partner]
    have d1 := ltx 0 1 le_rfl one_pos (by omega)
    have d2 := ltx 1 i (by omega) (by omega) (by omega)
    have d3 := ltx i (r - i) (by omega) (by omega) (by omega)
    have d4 := lty 0 i (by rw [r0]; exact hb.1)
    have d5 := lty i 1 (by rw [r1]; exact hb.2)
    refine inside_notMem_max sc.nodup (by omega) (mem 0 le_rfl (by omega))
      (mem (r - i) (by omega) (by omega)) (mem 1 (by omega) (by omega)) ?_ ?_ ?_
    · unfold area2
      rw [hpart]
      have := mul_pos (sub_pos.2 d3) (sub_pos.2 d4)
      linarith
    · unfold area2
      rw [hpart]
      have := mul_pos (sub_pos.2 d3) (sub_pos.2 d5)
      linarith
    · unfold area2
      have k1 := mul_pos (sub_pos.2 d1) (sub_pos.2 d5)
      have k2 := mul_pos (sub_pos.2 d2) (sub_pos.2 (d4.trans d5))
      linarith
  have hsub : ((toMaxConvexHull P) ++ (List.range ((r - 3) / 2)).map fun j : ℕ => f (j + 2)).Subperm P := by
    refine List.Nodup.subperm ?_ ?_
    · rw [List.nodup_append]
      refine ⟨nd, List.Nodup.map_on ?_ List.nodup_range, ?_⟩
      · intro a ha b hb he
        rw [List.mem_range] at ha hb
        by_contra hne
        rcases lt_or_gt_of_ne hne with h | h
        · have := ltx (a + 2) (b + 2) (by omega) (by omega) (by omega)
          rw [he] at this
          exact lt_irrefl _ this
        · have := ltx (b + 2) (a + 2) (by omega) (by omega) (by omega)
          rw [he] at this
          exact lt_irrefl _ this
      · intro a ha b hb hab
        obtain ⟨j, hj, rfl⟩ := List.mem_map.1 hb
        rw [List.mem_range] at hj
        subst hab
        exact inner (j + 2) (by omega) (by omega) ha
    · intro v hv
      rcases List.mem_append.1 hv with hv | hv
      · exact g2 v hv
      · obtain ⟨j, hj, rfl⟩ := List.mem_map.1 hv
        rw [List.mem_range] at hj
        exact mem (j + 2) (by omega) (by omega)
  have := hsub.length_le
  rw [List.length_append, List.length_map, List.length_range, hlen] at this
  have odd : r % 2 = 1 := by
    rcases hrp.eq_two_or_odd with h | h
    · omega
    · exact h
  omega

end

end HG
