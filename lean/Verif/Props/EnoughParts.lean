import Verif.Props.Enough
import Verif.Lemmas.Lower

/-!
# Contours and polygons need as many coordinates (C71)
-/

set_option linter.unusedSectionVars false

namespace HG

open Strategy Spec

section
variable {K : Type} [LinearOrder K] [Zero K] [Add K] [_root_.Sub K] [Predicates K]

/-- The strategy has at least `n` different values. -/
def Spec.ManyValues (x : Strategy K) (n : ℤ) : Prop :=
  ∃ l : List K, l.Nodup ∧ n ≤ l.length ∧ ∀ a ∈ l, x.val a

theorem multicontourLoop_length {env : Env K} (l : List (Int × Bool)) {pts : List (Point K)}
    {prior : Option Bool} {cs : List (Contour K)}
    (h : multicontourLoop env pts prior l = .ok cs) : cs.length ≤ l.length := by
  induction l generalizing pts prior cs with
  | nil =>
    simp only [multicontourLoop, exc_pure_ok] at h
    subst h; simp
  | cons a l ih =>
    obtain ⟨size, key⟩ := a
    simp only [multicontourLoop, exc_bind_ok] at h
    obtain ⟨vs, -, h⟩ := h
    split at h
    · simp only [exc_bind_ok, exc_pure_ok] at h
      obtain ⟨b, -, r, hr, rfl⟩ := h
      simpa using ih hr
    · exact (ih h).trans (by simp)

/-- The contours of a multicontour are built from a prime number of points. -/
theorem multicontour_enough {env : Env K} {x : Strategy K} {y : Option (Strategy K)} {lo : Int}
    {hi : Option Int} {clo : Int} {chi : Option Int} (h2 : 2 ≤ lo) (h3 : 3 ≤ clo)
    {cs : List (Contour K)} (h : (toMulticontourStrategy env x y lo hi clo chi).val cs) :
    Enough x y (cs.length * clo.toNat) := by
  obtain ⟨h, -⟩ := h
  simp only [val_bind', val_mapE, val_prod, toSizeStrategy, val_integers] at h
  obtain ⟨pts, hp, ⟨sizes, ch⟩, ⟨⟨n, ⟨n1, n2⟩, hsz⟩, -⟩, h⟩ := h
  dsimp only at h hsz n2
  have n3 : n ≤ (pts.length : ℤ) / clo := n2.trans (minOpt_le hi)
  have n4 : n * clo ≤ pts.length := (Int.le_ediv_iff_mul_le (by omega)).1 n3
  have hl := ((toSizes_spec (by omega) n4).2 sizes hsz).1
  have hlen := multicontourLoop_length _ h
  simp only [List.length_zip, List.length_map, List.length_range, min_self] at hlen
  refine generalPosition_enough (by nlinarith) hp ?_
  have : (cs.length : ℤ) * clo ≤ pts.length := by nlinarith
  have e : (clo.toNat : ℤ) = clo := by omega
  zify
  rw [e]
  exact this

/-- C71 for `multicontours`: `k` contours with at least `n` vertices each need a prime number of
different coordinates in both axes that is at least `k * n`. -/
theorem C71_multicontours (env : Env K) (x : Strategy K) (y : Option (Strategy K)) (lo : Int)
    (hi : Option Int) (clo : Int) (chi : Option Int) (s : Made (List (Contour K)))
    (hs : multicontours env x y lo hi clo chi = .ok s) (l : List (Contour K)) (h : s.2.val l) :
    Enough x y (l.length * max clo.toNat 3) := by
  simp only [multicontours, exc_bind_ok, exc_pure_ok, validate_ok] at hs
  obtain ⟨w, -, w', -, rfl⟩ := hs
  have := multicontour_enough (le_max_right _ _) (le_max_right _ _) h
  rwa [show (max clo 3).toNat = max clo.toNat 3 by omega] at this

theorem coordsToPolygons_many {env : Env K} {a : Bool} {x other : Strategy K} {z : PolygonSizes}
    {mp lo : Int} {hi : Option Int} (hmp : 0 < mp) (hlo : 1 ≤ lo) {tot : Int} {tot' : Option Int}
    {l : List (Polygon K)}
    (h : ((uniqueLists x tot tot').bind (coordsToPolygons env a other z mp lo hi)).val l) :
    ManyValues x (l.length * mp) := by
  obtain ⟨cs, ⟨c1, c2, -⟩, h⟩ := h
  simp only [coordsToPolygons, val_bind, val_integers] at h
  obtain ⟨n, ⟨n1, n2⟩, h⟩ := h
  have n3 : n ≤ (cs.length : ℤ) / mp := n2.trans (minOpt_le hi)
  have n4 : n * mp ≤ cs.length := (Int.le_ediv_iff_mul_le hmp).1 n3
  have hl := (slabLoop_sizes _ _ h).1
  have e : (l.length : ℤ) = n := by omega
  exact ⟨cs, c2, by rw [e]; exact n4, c1⟩

/-- C71 for `multipolygons`: let `q` be the least prime number that is at least five and at least
the number of vertices of a polygon with least border and least holes.  `k` polygons need `k * q`
different coordinates in one of the axes; without required holes it is also possible that they have
no holes, and both axes have a prime number of different coordinates that is at least `k` times the
least size of borders. -/
theorem C71_multipolygons (env : Env K) (x : Strategy K) (y : Option (Strategy K)) (lo : Int)
    (hi : Option Int) (blo : Int) (bhi : Option Int) (nlo : Int) (h0 : 0 ≤ nlo) (nhi : Option Int)
    (hlo : Int) (hhi : Option Int) (s : Made (List (Polygon K)))
    (hs : multipolygons env x y lo hi blo bhi nlo nhi hlo hhi = .ok s) (l : List (Polygon K))
    (h : s.2.val l) (q : ℕ)
    (hq : IsLeast {r : ℕ | r.Prime ∧ max (max blo 3 + nlo * max hlo 3) 5 ≤ (r : ℤ)} q) :
    ManyValues x (l.length * q) ∨ ManyValues (y.getD x) (l.length * q) ∨
    nlo = 0 ∧ (∀ p ∈ l, p.holes = []) ∧ Enough x y (l.length * max blo.toNat 3) := by
  simp only [multipolygons, exc_bind_ok, exc_pure_ok, validate_ok] at hs
  obtain ⟨_, -, _, -, _, -, _, -, t, ht, rfl⟩ := hs
  simp only [toMultipolygonStrategy, exc_bind_ok] at ht
  obtain ⟨mp, hmp, ht⟩ := ht
  have h3 : 3 ≤ max blo 3 + nlo * max hlo 3 := by
    have h1 : 3 ≤ max blo 3 := le_max_right _ _
    have h2 : 3 ≤ max hlo 3 := le_max_right _ _
    nlinarith
  have emp : mp = q := by
    obtain ⟨r, hr, hrp, hrl, hr5, -, hrm⟩ := toNextPrime_spec _ h3
    rw [hr] at hmp
    cases hmp
    have a1 : q ≤ r := hq.2 ⟨hrp, max_le hrl (by exact_mod_cast hr5)⟩
    have a2 : r ≤ q := hrm q hq.1.1 ((le_max_left _ _).trans hq.1.2)
      (by exact_mod_cast (le_max_right _ _).trans hq.1.2)
    omega
  have hpos : 0 < mp := by rw [emp]; exact_mod_cast hq.1.1.pos
  have slabs : ∀ {tot : Int} {tot' : Option Int},
      ((uniqueLists x tot tot').bind (coordsToPolygons env true (yOr x y)
          ⟨max blo 3, bhi, nlo, nhi, max hlo 3, hhi⟩ mp (max lo 2) hi) |||
        (uniqueLists (yOr x y) tot tot').bind (coordsToPolygons env false x
          ⟨max blo 3, bhi, nlo, nhi, max hlo 3, hhi⟩ mp (max lo 2) hi)).val l →
      ManyValues x (l.length * q) ∨ ManyValues (y.getD x) (l.length * q) := by
    intro tot tot' hl
    rw [← emp]
    have h1 : 1 ≤ max lo 2 := le_trans (by norm_num) (le_max_right _ _)
    rcases hl with hl | hl
    · exact .inl (coordsToPolygons_many hpos h1 hl)
    · right
      have := coordsToPolygons_many hpos h1 hl
      cases y <;> exact this
  split at ht
  · rename_i hn
    simp only [exc_pure_ok] at ht
    subst ht
    rcases h with h | h
    · obtain ⟨cs, hcs, rfl⟩ := h
      right; right
      refine ⟨hn, by simp, ?_⟩
      have := multicontour_enough (le_max_right _ _) (le_max_right _ _) hcs
      rw [show (max blo 3).toNat = max blo.toNat 3 by omega] at this
      rw [List.length_map]
      cases y <;> exact this
    · exact (slabs h).imp_right .inl
  · simp only [exc_pure_ok] at ht
    subst ht
    exact (slabs h).imp_right .inl

end

section
open Sample

/-- Non-vacuity for C71: two triangles, which need seven coordinates. -/
example : Enough (K := ℤ) (sampledFrom (coords 7)) none 6 := by
  obtain ⟨s, hs, h⟩ := sample_multicontours
  exact C71_multicontours env _ _ _ _ _ _ s hs _ h

/-- The hypotheses of C71 are met by two triangles as a multipolygon. -/
example : IsLeast {r : ℕ | r.Prime ∧ max (max (3 : ℤ) 3 + 0 * max 3 3) 5 ≤ (r : ℤ)} 5 ∧
    ∃ s, multipolygons env (sampledFrom (coords 7)) none = .ok s ∧
      s.2.val [⟨⟨[⟨0, 0⟩, ⟨1, 1⟩, ⟨2, 4⟩]⟩, []⟩, ⟨⟨[⟨3, 2⟩, ⟨4, 2⟩, ⟨5, 4⟩]⟩, []⟩] := by
  refine ⟨⟨⟨by norm_num, by norm_num⟩, fun r hr => by have := hr.2; simp at this; omega⟩, ?_⟩
  obtain ⟨s, hs, h⟩ := sample_multicontours
  obtain ⟨w, -, hs⟩ := exc_bind_ok.1 hs
  obtain ⟨w', -, hs⟩ := exc_bind_ok.1 hs
  cases hs
  exact ⟨_, rfl, Or.inl ⟨_, h, rfl⟩⟩

/-- Thirteen coordinates are not enough for two polygons with holes. -/
example (l : List (Polygon ℤ)) (h2 : l.length = 2) (s : Made (List (Polygon ℤ)))
    (hs : multipolygons env (sampledFrom (coords 13)) none (minHolesSize := 1) = .ok s) :
    ¬ s.2.val l := by
  intro h
  have few : ¬ ManyValues (K := ℤ) (sampledFrom (coords 13)) 14 := by
    rintro ⟨v, h1, h2, h3⟩
    have hle := (List.subperm_of_subset h1 fun a ha => h3 a ha).length_le
    rw [show (coords 13).length = 13 by decide +kernel] at hle
    omega
  have hq : IsLeast {r : ℕ | r.Prime ∧ max (max (3 : ℤ) 3 + 1 * max 3 3) 5 ≤ (r : ℤ)} 7 := by
    refine ⟨⟨by norm_num, by norm_num⟩, fun r hr => ?_⟩
    have h6 := hr.2
    norm_num at h6
    rcases Nat.lt_or_ge r 7 with h7 | h7
    · have : r = 6 := by omega
      subst this
      exact absurd hr.1 (by norm_num)
    · exact h7
  rcases C71_multipolygons env _ _ _ _ _ _ _ (by norm_num) _ _ _ s hs l h 7 hq with h | h | h
  · rw [h2] at h
    exact few h
  · rw [h2] at h
    exact few h
  · exact absurd h.1 (by norm_num)

end
end HG
