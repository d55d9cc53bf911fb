import Verif.Lemmas.OneTurn
import Verif.Props.Star
import Verif.Props.Simplicity
import Verif.Props.SubSequence
import Verif.Delaunay.SimpleCyc

/-!
# Star contours are convex (C66)
-/

set_option linter.unusedSectionVars false

namespace HG

open Strategy Spec

section
variable {K : Type} [CommRing K] [LinearOrder K] [IsStrictOrderedRing K]

/-- `atan2` orders vectors by their polar angle in `(-π, π]`: those below the first axis or on its
positive part come before the others, and of two in the same half the first one is that from which
the other one is counterclockwise. -/
def Spec.PolarOk (atan2 : K → K → ℚ) : Prop :=
  ∀ x y x' y' : K, (x ≠ 0 ∨ y ≠ 0) → (x' ≠ 0 ∨ y' ≠ 0) →
    (let upper := fun x y : K => 0 < y ∨ y = 0 ∧ x < 0
     ¬ upper x y ∧ upper x' y' ∨ (upper x y ↔ upper x' y') ∧ 0 < x * y' - y * x') →
    atan2 y x < atan2 y' x'

theorem polar_before {atan2 : K → K → ℚ} (h : PolarOk atan2) {a b : K × K} (ha : a ≠ 0)
    (hb : b ≠ 0) (hlt : atan2 a.2 a.1 < atan2 b.2 b.1) : Before a b := by
  have ha' : a.1 ≠ 0 ∨ a.2 ≠ 0 := by
    by_contra hc
    push Not at hc
    exact ha (Prod.ext hc.1 hc.2)
  have hb' : b.1 ≠ 0 ∨ b.2 ≠ 0 := by
    by_contra hc
    push Not at hc
    exact hb (Prod.ext hc.1 hc.2)
  have hno := fun h' => lt_asymm hlt (h b.1 b.2 a.1 a.2 hb' ha' h')
  have e : ∀ c : K × K, (0 < c.2 ∨ c.2 = 0 ∧ c.1 < 0) ↔ Up (-1) c := by
    intro c
    simp only [Up, neg_mul, one_mul, neg_pos]
  simp only [e] at hno
  constructor
  · rintro ⟨h1, h2⟩
    exact hno (.inl ⟨h2, h1⟩)
  · intro h1
    by_contra h2
    refine hno (.inr ⟨h1.symm, ?_⟩)
    simp only [vcr] at h2
    linarith

/-- A contour whose vertices are sorted around some point and which turns left around another one
is convex. -/
theorem sorted_convex {atan2 : K → K → ℚ} (hpol : PolarOk atan2) {l : List (Point K)} {o g : Point K}
    (h3 : 3 ≤ l.length) (hnd : l.Nodup)
    (hsort : (∀ i j, i < j → j < l.length → atan2 ((cyc l i).y - o.y) ((cyc l i).x - o.x) <
        atan2 ((cyc l j).y - o.y) ((cyc l j).x - o.x)) ∨
      ∀ i j, i < j → j < l.length → atan2 ((cyc l j).y - o.y) ((cyc l j).x - o.x) <
        atan2 ((cyc l i).y - o.y) ((cyc l i).x - o.x))
    (hturn : ∀ i, 0 < area2 (cyc l i) (cyc l (i + 1)) (cyc l (i + 2)))
    (hleft : ∀ i, 0 < area2 (cyc l i) (cyc l (i + 1)) g) : StrictlyConvex l := by
  set n := l.length with hn
  -- vectors from `o`
  set t : ℕ → K × K := fun i => ((cyc l i).x - o.x, (cyc l i).y - o.y) with ht
  have htn : ∀ i, t (i + n) = t i := fun i => by simp only [ht, hn, cyc_add_length]
  obtain ⟨u, hu, hgo⟩ : ∃ u : K × K, u ≠ 0 ∧
      (g = o ∨ g.x - o.x = u.1 ∧ g.y - o.y = u.2) := by
    by_cases h : g = o
    · exact ⟨(1, 0), fun h => one_ne_zero (congrArg Prod.fst h), .inl h⟩
    · refine ⟨(g.x - o.x, g.y - o.y), fun h' => h ?_, .inr ⟨rfl, rfl⟩⟩
      have h1 := congrArg Prod.fst h'
      have h2 := congrArg Prod.snd h'
      simp only [Prod.fst_zero, Prod.snd_zero, sub_eq_zero] at h1 h2
      cases g; cases o; simp_all
  have hN : 0 < u.1 * u.1 + u.2 * u.2 := by
    by_contra hc
    have h1 := mul_self_nonneg u.1
    have h2 := mul_self_nonneg u.2
    exact hu (Prod.ext (mul_self_eq_zero.1 (by linarith)) (mul_self_eq_zero.1 (by linarith)))
  -- vectors from `g` in the coordinate system given by `u`
  set q : ℕ → K × K := fun i => (u.1 * ((cyc l i).x - g.x) + u.2 * ((cyc l i).y - g.y),
    vcr u ((cyc l i).x - g.x, (cyc l i).y - g.y)) with hq
  have hqt : ∀ i, (q i).2 = vcr u (t i) := by
    intro i
    rcases hgo with rfl | ⟨h1, h2⟩
    · rfl
    · simp only [hq, ht, vcr]
      rw [← h1, ← h2]; ring
  have hqx : ∀ i j, vcr (q i) (q j) = (u.1 * u.1 + u.2 * u.2) * area2 (cyc l i) (cyc l j) g := by
    intro i j; simp only [hq, vcr, area2]; ring
  have hqd : ∀ i j k, varea (q i) (q j) (q k) =
      (u.1 * u.1 + u.2 * u.2) * area2 (cyc l i) (cyc l j) (cyc l k) := by
    intro i j k; simp only [hq, varea, vcr, area2]; ring
  -- at most one vertex is `o`
  have huniq : ∀ i j, i < n → j < n → t i = 0 → t j = 0 → i = j := by
    intro i j hi hj h1 h2
    refine cyc_inj hnd hi hj ?_
    have a1 := congrArg Prod.fst h1; have a2 := congrArg Prod.snd h1
    have b1 := congrArg Prod.fst h2; have b2 := congrArg Prod.snd h2
    simp only [ht, Prod.fst_zero, Prod.snd_zero, sub_eq_zero] at a1 a2 b1 b2
    have : ∀ p q : Point K, p.x = q.x → p.y = q.y → p = q := fun p q h1 h2 => by
      cases p; cases q; simp_all
    exact this _ _ (a1.trans b1.symm) (a2.trans b2.symm)
  have hafter : ∀ i, t i = 0 → ¬ 0 < vcr u (t (i + 1)) := by
    intro i h
    have a1 := congrArg Prod.fst h; have a2 := congrArg Prod.snd h
    simp only [ht, Prod.fst_zero, Prod.snd_zero, sub_eq_zero] at a1 a2
    have hl := hleft i
    rcases hgo with rfl | ⟨h1, h2⟩
    · simp only [area2, a1, a2] at hl
      ring_nf at hl
      exact absurd hl (lt_irrefl _)
    · have : area2 (cyc l i) (cyc l (i + 1)) g = - vcr u (t (i + 1)) := by
        simp only [area2, vcr, ht, a1, a2, ← h1, ← h2]; ring
      rw [this] at hl
      intro h'; linarith
  have hA : ∀ i j k m, i < j → j < k → k < m → m < n → t i ≠ 0 → t j ≠ 0 → t k ≠ 0 → t m ≠ 0 →
      ¬ (0 < vcr u (t i) ∧ ¬ 0 < vcr u (t j) ∧ 0 < vcr u (t k) ∧ ¬ 0 < vcr u (t m)) ∧
      ¬ (¬ 0 < vcr u (t i) ∧ 0 < vcr u (t j) ∧ ¬ 0 < vcr u (t k) ∧ 0 < vcr u (t m)) := by
    intro i j k m hij hjk hkm hm zi zj zk zm
    rcases hsort with hs | hs
    · exact before_alt hu zi zj zk zm (polar_before hpol zi zj (hs i j hij (by omega)))
        (polar_before hpol zj zk (hs j k hjk (by omega))) (polar_before hpol zk zm (hs k m hkm hm))
    · have := before_alt hu zm zk zj zi (polar_before hpol zm zk (hs k m hkm hm))
        (polar_before hpol zk zj (hs j k hjk (by omega)))
        (polar_before hpol zj zi (hs i j hij (by omega)))
      exact ⟨fun ⟨a, b, c, d⟩ => this.2 ⟨d, c, b, a⟩, fun ⟨a, b, c, d⟩ => this.1 ⟨d, c, b, a⟩⟩
  have hz : ∀ i j, i < n → j < n → t i = 0 → j ≠ i → t j ≠ 0 := fun i j hi hj h hne h' =>
    hne (huniq j i hj hi h' h)
  have hpos : ∀ i, 0 < vcr u (t i) → t i ≠ 0 := fun i h h' => by
    rw [h'] at h; simp [vcr] at h
  have hB : ∀ i j k m, i < j → j < k → k < m → m < n →
      ¬ (0 < vcr u (t i) ∧ ¬ 0 < vcr u (t j) ∧ 0 < vcr u (t k) ∧ ¬ 0 < vcr u (t m)) ∧
      ¬ (¬ 0 < vcr u (t i) ∧ 0 < vcr u (t j) ∧ ¬ 0 < vcr u (t k) ∧ 0 < vcr u (t m)) := by
    intro i j k m hij hjk hkm hm
    constructor
    · rintro ⟨h1, h2, h3, h4⟩
      by_cases zj : t j = 0
      · have h2' := hafter j zj
        have : j + 1 ≠ k := fun h => h2' (h ▸ h3)
        exact (hA i (j + 1) k m (by omega) (by omega) hkm hm (hpos i h1)
          (hz j (j + 1) (by omega) (by omega) zj (by omega)) (hpos k h3)
          (hz j m (by omega) hm zj (by omega))).1 ⟨h1, h2', h3, h4⟩
      by_cases zm : t m = 0
      · have h4' := hafter m zm
        by_cases hmn : m + 1 < n
        · exact (hA i j k (m + 1) hij hjk (by omega) hmn (hpos i h1) zj (hpos k h3)
            (hz m (m + 1) hm hmn zm (by omega))).1 ⟨h1, h2, h3, h4'⟩
        · have e : t (m + 1) = t 0 := by
            rw [show m + 1 = 0 + n by omega, htn]
          rw [e] at h4'
          have : i ≠ 0 := fun h => h4' (h ▸ h1)
          exact (hA 0 i j k (by omega) hij hjk (by omega)
            (hz m 0 hm (by omega) zm (by omega)) (hpos i h1) zj (hpos k h3)).2 ⟨h4', h1, h2, h3⟩
      exact (hA i j k m hij hjk hkm hm (hpos i h1) zj (hpos k h3) zm).1 ⟨h1, h2, h3, h4⟩
    · rintro ⟨h1, h2, h3, h4⟩
      by_cases zi : t i = 0
      · have h1' := hafter i zi
        have : i + 1 ≠ j := fun h => h1' (h ▸ h2)
        exact (hA (i + 1) j k m (by omega) hjk hkm hm
          (hz i (i + 1) (by omega) (by omega) zi (by omega)) (hpos j h2)
          (hz i k (by omega) (by omega) zi (by omega)) (hpos m h4)).2 ⟨h1', h2, h3, h4⟩
      by_cases zk : t k = 0
      · have h3' := hafter k zk
        have : k + 1 ≠ m := fun h => h3' (h ▸ h4)
        exact (hA i j (k + 1) m hij (by omega) (by omega) hm zi (hpos j h2)
          (hz k (k + 1) (by omega) (by omega) zk (by omega)) (hpos m h4)).2 ⟨h1, h2, h3', h4⟩
      exact (hA i j k m hij hjk hkm hm zi (hpos j h2) zk (hpos m h4)).2 ⟨h1, h2, h3, h4⟩
  refine ⟨hnd, fun i j k hij hjk hk => ?_⟩
  have := turning_convex (q := q) (n := n) (by omega)
    (fun i => by simp only [hq, hn, cyc_add_length])
    (fun i => by rw [hqx]; exact mul_pos hN (hleft i))
    (fun i => by rw [hqd]; exact mul_pos hN (hturn i))
    (fun i j k m h1 h2 h3 h4 => by simp only [hqt]; exact hB i j k m h1 h2 h3 h4) hij hjk hk
  rw [hqd] at this
  have := pos_of_mul_pos_right this hN.le
  rwa [cyc_lt (by omega), cyc_lt (by omega), cyc_lt hk] at this

theorem cyc_rev {l : List (Point K)} {i j : ℕ} (h : (i + j + 1) % l.length = 0)
    (h0 : 0 < l.length) : cyc l.reverse i = cyc l j := by
  rw [← cyc_mod, ← cyc_mod l j, List.length_reverse]
  have hi := Nat.mod_lt i h0
  have hj := Nat.mod_lt j h0
  have e : i % l.length + j % l.length + 1 = l.length := by
    have h1 : (i % l.length + j % l.length + 1) % l.length = 0 := by
      rw [← h]; simp [Nat.add_mod]
    exact Nat.eq_of_dvd_of_lt_two_mul (by omega) (Nat.dvd_of_mod_eq_zero h1) (by omega)
  rw [cyc_lt (by simpa using hi), cyc_lt hj, List.getD_eq_getElem _ _ (by simpa using hi),
    List.getD_eq_getElem _ _ hj, List.getElem_reverse]
  congr 1
  omega

/-- C66: a star contour whose centroid is on no line through two consecutive vertices is strictly
convex, read in one of the two directions. -/
theorem C66_star_convex (env : Env K) (hpol : PolarOk env.atan2) (x : Strategy K)
    (y : Option (Strategy K)) (lo : Int) (hi : Option Int) (s : Made (Contour K))
    (hs : starContours env x y lo hi = .ok s) (c : Contour K) (h : s.2.val c)
    (hc : ∀ i < c.vertices.length, ¬ Collinear (cyc c.vertices i) (cyc c.vertices (i + 1))
      (env.regionCentroid c.vertices)) :
    StrictlyConvex c.vertices ∨ StrictlyConvex c.vertices.reverse := by
  have hin := (C16_star env x y lo hi s hs c h).1
  have hdir := C46_star_one_direction env x y lo hi s hs c h hc
  simp only [starContours, exc_bind_ok, exc_pure_ok, validate_ok] at hs
  obtain ⟨w, -, rfl⟩ := hs
  obtain ⟨vs, hv, rfl⟩ := h
  obtain ⟨hnd, h3, -, -, ⟨o, hsort⟩, -⟩ := star_val (le_max_right _ _) hv
  simp only at hin hdir hc ⊢
  set g := env.regionCentroid vs
  have hmod : ∀ i, i % vs.length < vs.length := fun i => Nat.mod_lt _ (by omega)
  have hm1 : ∀ i c, cyc vs (i % vs.length + c) = cyc vs (i + c) := fun i c => by
    rw [← cyc_mod vs (i % vs.length + c), Nat.mod_add_mod, cyc_mod]
  have hpair : vs.Pairwise fun p q => env.atan2 (p.y - o.y) (p.x - o.x) <
      env.atan2 (q.y - o.y) (q.x - o.x) := by
    have : IsTrans (Point K) fun p q => env.atan2 (p.y - o.y) (p.x - o.x) <
      env.atan2 (q.y - o.y) (q.x - o.x) := ⟨fun _ _ _ => lt_trans⟩
    exact List.isChain_iff_pairwise.1 hsort
  have hget : ∀ i j, i < j → j < vs.length →
      env.atan2 ((cyc vs i).y - o.y) ((cyc vs i).x - o.x) <
        env.atan2 ((cyc vs j).y - o.y) ((cyc vs j).x - o.x) := by
    intro i j hij hj
    rw [cyc_lt (by omega), cyc_lt hj, List.getD_eq_getElem _ _ (by omega),
      List.getD_eq_getElem _ _ hj]
    exact List.pairwise_iff_getElem.1 hpair i j (by omega) hj hij
  rcases hdir with hdir | hdir
  · left
    refine sorted_convex hpol (o := o) (g := g) h3 hnd (.inl hget) (fun i => ?_) (fun i => ?_)
    · have := hdir (i % vs.length) (hmod i)
      simpa only [hm1, cyc_mod] using this
    · have h1 := hdir (i % vs.length) (hmod i)
      have h2 := (hin (i % vs.length) (hmod i)).1
      have h3 := hc (i % vs.length) (hmod i)
      simp only [hm1, cyc_mod] at h1 h2 h3
      rcases h2 with h2 | h2
      · exact lt_of_le_of_ne h2.2.1 fun h => h3 h.symm
      · exact absurd h1 (not_lt.2 h2.1.le)
  · right
    have h0 : 0 < vs.length := by omega
    have hr' : ∀ i, ∃ j, cyc vs.reverse i = cyc vs (j + 2) ∧
        cyc vs.reverse (i + 1) = cyc vs (j + 1) ∧ cyc vs.reverse (i + 2) = cyc vs j := by
      intro i
      have hi := hmod i
      have hq := Nat.mod_add_div i vs.length
      have e : vs.length * (i / vs.length + 2) = vs.length * (i / vs.length) + 2 * vs.length := by
        ring
      have e' : ∀ k, k = vs.length * (i / vs.length + 2) → k % vs.length = 0 := fun k hk => by
        rw [hk, Nat.mul_mod_right]
      exact ⟨2 * vs.length - 3 - i % vs.length, cyc_rev (e' _ (by omega)) h0,
        cyc_rev (e' _ (by omega)) h0, cyc_rev (e' _ (by omega)) h0⟩
    refine sorted_convex hpol (o := o) (g := g) (by simpa using h3) (List.nodup_reverse.2 hnd)
      (.inr ?_) (fun i => ?_) (fun i => ?_)
    · intro i j hij hj
      rw [List.length_reverse] at hj
      have e : ∀ k, k < vs.length → cyc vs.reverse k = cyc vs (vs.length - 1 - k) := fun k hk =>
        cyc_rev (by rw [show k + (vs.length - 1 - k) + 1 = vs.length by omega, Nat.mod_self]) h0
      rw [e i (by omega), e j hj]
      exact hget _ _ (by omega) (by omega)
    · obtain ⟨j, e1, e2, e3⟩ := hr' i
      rw [e1, e2, e3]
      have := hdir (j % vs.length) (hmod j)
      simp only [hm1, cyc_mod] at this
      have e : area2 (cyc vs (j + 2)) (cyc vs (j + 1)) (cyc vs j) =
        - area2 (cyc vs j) (cyc vs (j + 1)) (cyc vs (j + 2)) := by unfold area2; ring
      rw [e]; linarith
    · obtain ⟨j, e1, e2, e3⟩ := hr' i
      rw [e1, e2]
      have h1 := hdir (j % vs.length) (hmod j)
      have h2 := (hin (j % vs.length) (hmod j)).1
      have h3 := hc ((j + 1) % vs.length) (hmod _)
      simp only [hm1, cyc_mod] at h1 h2 h3
      have e : area2 (cyc vs (j + 2)) (cyc vs (j + 1)) g =
        - area2 (cyc vs (j + 1)) (cyc vs (j + 2)) g := by unfold area2; ring
      rw [e]
      rcases h2 with h2 | h2
      · exact absurd h1 (not_lt.2 h2.1.le)
      · have := lt_of_le_of_ne h2.2.2 h3
        linarith

end

namespace Sample

/-- The angle function of the sample environment orders by the polar angle. -/
theorem sample_polarOk : PolarOk env.atan2 := by
  intro x y x' y' h h' hlt
  change pseudoAngle y x < pseudoAngle y' x'
  have pos : ∀ a b : ℤ, (a ≠ 0 ∨ b ≠ 0) → (0 : ℚ) < (|a| + |b| : ℤ) := by
    intro a b h
    have h1 := abs_nonneg a
    have h2 := abs_nonneg b
    have : 0 < |a| + |b| := by
      rcases h with h | h
      · have := abs_pos.2 h; omega
      · have := abs_pos.2 h; omega
    exact_mod_cast this
  -- the values on the four parts of the plane
  have low : ∀ a b : ℤ, b < 0 → pseudoAngle b a < 0 := by
    intro a b hb
    unfold pseudoAngle
    rw [if_neg (not_le.2 hb), sub_neg, div_lt_one (pos a b (.inr hb.ne))]
    have := abs_pos.2 hb.ne
    have := le_abs_self a
    exact_mod_cast (by omega : a < |a| + |b|)
  have right : ∀ a b : ℤ, b = 0 → 0 < a → pseudoAngle b a = 0 := by
    rintro a b rfl ha
    unfold pseudoAngle
    have : (a : ℚ) ≠ 0 := by exact_mod_cast ha.ne'
    simp [abs_of_pos ha, this]
  have high : ∀ a b : ℤ, 0 < b → 0 < pseudoAngle b a ∧ pseudoAngle b a < 2 := by
    intro a b hb
    have hp := pos a b (.inr hb.ne')
    have := abs_pos.2 hb.ne'
    have := le_abs_self a
    have := neg_abs_le a
    have h1 : (a : ℚ) / (|a| + |b| : ℤ) < 1 := by
      rw [div_lt_one hp]
      exact_mod_cast (by omega : a < |a| + |b|)
    have h2 : -1 < (a : ℚ) / (|a| + |b| : ℤ) := by
      rw [lt_div_iff₀ hp]
      exact_mod_cast (by omega : -1 * (|a| + |b|) < a)
    unfold pseudoAngle
    rw [if_pos hb.le]
    constructor <;> linarith
  have left : ∀ a b : ℤ, b = 0 → a < 0 → pseudoAngle b a = 2 := by
    rintro a b rfl ha
    unfold pseudoAngle
    have : (a : ℚ) ≠ 0 := by exact_mod_cast ha.ne
    simp only [le_refl, if_true, abs_of_neg ha, abs_zero, add_zero, Int.cast_neg]
    rw [div_neg, div_self this]; norm_num
  have ab : ∀ a a' : ℤ, a * |a'| ≤ a' * |a| ∨ 0 < a ∧ a' < 0 := by
    intro a a'
    rcases le_or_gt a 0 with ha | ha <;> rcases le_or_gt 0 a' with ha' | ha'
    · left; nlinarith [abs_nonneg a, abs_nonneg a', mul_nonneg ha' (abs_nonneg a),
        mul_nonneg (neg_nonneg.2 ha) (abs_nonneg a')]
    · left; rw [abs_of_nonpos ha, abs_of_neg ha']; exact le_of_eq (by ring)
    · left; rw [abs_of_pos ha, abs_of_nonneg ha']; exact le_of_eq (by ring)
    · right; exact ⟨ha, ha'⟩
  have ox : y = 0 → x ≠ 0 := fun hy => h.resolve_right (by simp [hy])
  have ox' : y' = 0 → x' ≠ 0 := fun hy => h'.resolve_right (by simp [hy])
  simp only at hlt
  rcases lt_trichotomy y 0 with hy | hy | hy <;> rcases lt_trichotomy y' 0 with hy' | hy' | hy'
  · have hcr : 0 < x * y' - y * x' := by
      rcases hlt with hlt | hlt
      · exfalso; omega
      · exact hlt.2
    unfold pseudoAngle
    rw [if_neg (not_le.2 hy), if_neg (not_le.2 hy')]
    have : (x : ℚ) / (|x| + |y| : ℤ) < (x' : ℚ) / (|x'| + |y'| : ℤ) := by
      rw [div_lt_div_iff₀ (pos _ _ (.inr hy.ne)) (pos _ _ (.inr hy'.ne)), abs_of_neg hy,
        abs_of_neg hy']
      rcases ab x x' with hab | ⟨ha, ha'⟩
      · exact_mod_cast (by nlinarith : x * (|x'| + -y') < x' * (|x| + -y))
      · exfalso; nlinarith
    linarith
  · have hl := low x y hy
    rcases lt_or_gt_of_ne (ox' hy') with hx' | hx'
    · rw [left x' y' hy' hx']; linarith
    · rw [right x' y' hy' hx']; linarith
  · have := low x y hy
    have := (high x' y' hy').1
    linarith
  · exfalso
    rcases lt_or_gt_of_ne (ox hy) with hx | hx
    · rcases hlt with hlt | hlt
      · omega
      · have := hlt.1.1 (.inr ⟨hy, hx⟩); omega
    · rcases hlt with hlt | hlt
      · omega
      · rw [hy] at hlt; nlinarith [hlt.2]
  · have hcr : ¬ 0 < x * y' - y * x' := by simp [hy, hy']
    rcases hlt with hlt | hlt
    · have hx : 0 < x := by have := ox hy; omega
      have hx' : x' < 0 := by omega
      rw [right x y hy hx, left x' y' hy' hx']; norm_num
    · exact absurd hlt.2 hcr
  · have hh := high x' y' hy'
    rcases lt_or_gt_of_ne (ox hy) with hx | hx
    · exfalso
      rcases hlt with hlt | hlt
      · omega
      · rw [hy] at hlt; nlinarith [hlt.2]
    · rw [right x y hy hx]; exact hh.1
  · exfalso
    rcases hlt with hlt | hlt
    · omega
    · have := hlt.1.1 (.inl hy); omega
  · have hh := high x y hy
    have hx' : x' < 0 := by
      rcases hlt with hlt | hlt
      · omega
      · have := hlt.1.1 (.inl hy); omega
    rw [left x' y' hy' hx']; exact hh.2
  · have hcr : 0 < x * y' - y * x' := by
      rcases hlt with hlt | hlt
      · exfalso; omega
      · exact hlt.2
    unfold pseudoAngle
    rw [if_pos hy.le, if_pos hy'.le]
    have : (x' : ℚ) / (|x'| + |y'| : ℤ) < (x : ℚ) / (|x| + |y| : ℤ) := by
      rw [div_lt_div_iff₀ (pos _ _ (.inr hy'.ne')) (pos _ _ (.inr hy.ne')), abs_of_pos hy,
        abs_of_pos hy']
      rcases ab x' x with hab | ⟨ha, ha'⟩
      · exact_mod_cast (by nlinarith : x' * (|x| + y) < x * (|x'| + y'))
      · exfalso; nlinarith
    linarith

/-- A star contour of the sample strategy which is convex by C66. -/
example : ∃ s, starContours env (sampledFrom (coords 7)) none = .ok s ∧
    s.2.val ⟨[⟨0, 0⟩, ⟨6, 1⟩, ⟨5, 4⟩, ⟨2, 4⟩]⟩ ∧
    (StrictlyConvex [⟨0, 0⟩, ⟨6, 1⟩, ⟨5, 4⟩, (⟨2, 4⟩ : Point ℤ)] ∨
      StrictlyConvex [⟨0, 0⟩, ⟨6, 1⟩, ⟨5, 4⟩, (⟨2, 4⟩ : Point ℤ)].reverse) :=
  ⟨_, rfl, ⟨_, sample_star, rfl⟩, C66_star_convex env sample_polarOk (sampledFrom (coords 7)) none 3
    none _ rfl _ ⟨_, sample_star, rfl⟩ (by unfold Collinear; decide +kernel)⟩

end Sample
end HG
