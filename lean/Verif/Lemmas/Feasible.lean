import Verif.Props.Convex
import Verif.Props.Separation
import Mathlib.Algebra.Order.BigOperators.Group.List

/-!
# Draws that cannot fail for lack of room
-/

set_option linter.unusedSectionVars false

namespace HG

open Strategy Spec

section
variable {K : Type} [CommRing K] [LinearOrder K] [IsStrictOrderedRing K]

/-! ## Specification -/

/-- The strategy does not fail and has at least `n` different values. -/
structure Spec.Rich (x : Strategy K) (n : Int) : Prop where
  ok : ∀ e, ¬ x.err e
  many : ∃ l : List K, (∀ a ∈ l, x.val a) ∧ l.Nodup ∧ n ≤ l.length

/-- Different points with a property, no three of which have the same abscissa or the same
ordinate. -/
structure Spec.Scattered (G : Point K → Prop) (pts : List (Point K)) : Prop where
  nodup : pts.Nodup
  sub : ∀ q ∈ pts, G q
  column : ∀ a ∈ pts, ∀ b ∈ pts, ∀ c ∈ pts, a ≠ b → a ≠ c → b ≠ c → ¬ (a.x = b.x ∧ a.x = c.x)
  row : ∀ a ∈ pts, ∀ b ∈ pts, ∀ c ∈ pts, a ≠ b → a ≠ c → b ≠ c → ¬ (a.y = b.y ∧ a.y = c.y)

/-- The construction of a contour fails with the exception, although it got at least as many
scattered points as vertices are requested. -/
def Spec.ContourFails (env : Env K) (G : Point K → Prop) (e : Exc) : Prop :=
  ∃ (pts : List (Point K)) (n : Int), Scattered G pts ∧ 3 ≤ n ∧ n ≤ pts.length ∧
    toVertexSequence env.fuel env.coinChange env.edgeOrder pts n = .error e

/-- The construction of a polygon with at most `most` holes fails with the exception, although
it got scattered points that are not all on one line, the border may be as long as the convex hull
and the points inside of the hull suffice for the holes. -/
def Spec.PolygonFails (env : Env K) (G : Point K → Prop) (most : Option Int) (e : Exc) : Prop :=
  ∃ (pts : List (Point K)) (border : Int) (holes : List Int) (ch : Nat → Bool), Scattered G pts ∧
    (∃ a ∈ pts, ∃ b ∈ pts, ∃ c ∈ pts, ¬ Collinear a b c) ∧
    3 ≤ border ∧ (env.convexHull pts).length ≤ border ∧ border ≤ pts.length ∧
    (∀ m, most = some m → holes.length ≤ max m 0) ∧
    (∀ h ∈ holes, 3 ≤ h) ∧ holes.sum ≤ pts.length - (toMaxConvexHull pts).length ∧
    toPolygon env pts border holes ch = .error e

theorem Spec.Scattered.mono {G G' : Point K → Prop} {pts l : List (Point K)} (h : Scattered G pts)
    (hG : ∀ q, G q → G' q) (hl : l.Nodup) (hs : ∀ q ∈ l, q ∈ pts) : Scattered G' l :=
  ⟨hl, fun q hq => hG q (h.sub q (hs q hq)),
    fun a ha b hb c hc => h.column a (hs a ha) b (hs b hb) c (hs c hc),
    fun a ha b hb c hc => h.row a (hs a ha) b (hs b hb) c (hs c hc)⟩

theorem Spec.ContourFails.mono {env : Env K} {G G' : Point K → Prop} {e : Exc}
    (h : ContourFails env G e) (hG : ∀ q, G q → G' q) : ContourFails env G' e := by
  obtain ⟨pts, n, h1, h2⟩ := h
  exact ⟨pts, n, h1.mono hG h1.nodup fun _ h => h, h2⟩

theorem Spec.PolygonFails.mono {env : Env K} {G G' : Point K → Prop} {most : Option Int} {e : Exc}
    (h : PolygonFails env G most e) (hG : ∀ q, G q → G' q) : PolygonFails env G' most e := by
  obtain ⟨pts, b, hs, ch, h1, h2⟩ := h
  exact ⟨pts, b, hs, ch, h1.mono hG h1.nodup fun _ h => h, h2⟩

/-- Points drawn in general position are scattered. -/
theorem generalPosition_scattered {x : Strategy K} {y : Option (Strategy K)} {lo : Int}
    {hi : Option Int} (hlo : 3 ≤ lo) {pts : List (Point K)}
    (h : (toGeneralPositionStrategy x y lo hi).val pts) : Scattered (Drawn x y) pts := by
  obtain ⟨xs, ys, idx, hg, hn, -, -, h3, -⟩ := C34_general_position x y lo hi hlo pts h
  have key : ∀ a ∈ pts, ∀ b ∈ pts, ∀ c ∈ pts, a ≠ b → a ≠ c → b ≠ c →
      ¬ ((a.x = b.x ∧ a.x = c.x) ∨ (a.y = b.y ∧ a.y = c.y)) := by
    intro a ha b hb c hc hab hac hbc key
    rw [hg.points] at ha hb hc
    obtain ⟨i, hi, rfl⟩ := List.mem_map.1 ha
    obtain ⟨j, hj, rfl⟩ := List.mem_map.1 hb
    obtain ⟨k, hk, rfl⟩ := List.mem_map.1 hc
    have hij : i ≠ j := fun e => hab (by rw [e])
    have hik : i ≠ k := fun e => hac (by rw [e])
    have hjk : j ≠ k := fun e => hbc (by rw [e])
    obtain ⟨i1, i2, i3, i4⟩ := hg.range i hi
    obtain ⟨j1, j2, j3, j4⟩ := hg.range j hj
    obtain ⟨k1, k2, k3, k4⟩ := hg.range k hk
    apply h3 i hi j hj k hk hij hik hjk
    dsimp only at key
    rcases key with ⟨e1, e2⟩ | ⟨e1, e2⟩
    · have := getD_injOn hg.xs_lt (by omega) (by omega) e1
      have := getD_injOn hg.xs_lt (by omega) (by omega) e2
      rw [show j.1 = i.1 by omega, show k.1 = i.1 by omega]; ring
    · have := getD_injOn hg.ys_lt (by omega) (by omega) e1
      have := getD_injOn hg.ys_lt (by omega) (by omega) e2
      rw [show j.2 = i.2 by omega, show k.2 = i.2 by omega]; ring
  exact ⟨onGrid_nodup hg hn, generalPosition_drawn hlo h,
    fun a ha b hb c hc h1 h2 h3 h4 => key a ha b hb c hc h1 h2 h3 (.inl h4),
    fun a ha b hb c hc h1 h2 h3 h4 => key a ha b hb c hc h1 h2 h3 (.inr h4)⟩

/-- Points drawn in general position are not all on one line. -/
theorem generalPosition_spread {x : Strategy K} {y : Option (Strategy K)} {lo : Int}
    {hi : Option Int} (hlo : 3 ≤ lo) {pts : List (Point K)}
    (h : (toGeneralPositionStrategy x y lo hi).val pts) :
    ∃ a ∈ pts, ∃ b ∈ pts, ∃ c ∈ pts, ¬ Collinear a b c := by
  obtain ⟨p, s, swap, xs, ys, hp, hp5, -, -, hs, hx, hy, -, -, lx, ly, rfl⟩ :=
    generalPosition_val hlo h
  have hp0 : (p : ℤ) ≠ 0 := by omega
  have f0 : parabola p s 0 = 0 := by simp [parabola]
  have f1 : parabola p s 1 = parabola p s (p - 1) := by
    unfold parabola
    refine Int.emod_eq_emod_iff_emod_sub_eq_zero.2 (Int.emod_eq_zero_of_dvd ⟨s * (2 - p), ?_⟩)
    ring
  have f2 : parabola p s 1 ≠ 0 := by
    intro h0
    apply hs
    have := Int.dvd_of_emod_eq_zero h0
    simpa using this
  have b1 : 0 ≤ parabola p s 1 := Int.emod_nonneg _ hp0
  have b2 : parabola p s 1 < p := Int.emod_lt_of_pos _ (by omega)
  have mem : ∀ i : ℤ, 0 ≤ i → i < p → pointAt xs ys (indexPair swap p s i) ∈
      ((intRange p).map (indexPair swap p s)).map (pointAt xs ys) := fun i h0 h1 =>
    List.mem_map_of_mem (List.mem_map_of_mem (mem_intRange.2 ⟨h0, h1⟩))
  refine ⟨_, mem 1 (by omega) (by omega), _, mem (p - 1) (by omega) (by omega),
    _, mem 0 (by omega) (by omega), ?_⟩
  have inj : ∀ {l : List K} (_ : l.Pairwise (· < ·)) (_ : p ≤ l.length) {i j : ℤ}, 0 ≤ i → i < p →
      0 ≤ j → j < p → i ≠ j → l.getD i.toNat 0 - l.getD j.toNat 0 ≠ 0 := by
    intro l hl hpl i j hi0 hi1 hj0 hj1 hij he
    have := getD_injOn hl (by omega) (by omega) (sub_eq_zero.1 he)
    omega
  unfold Collinear area2
  cases swap
  · simp only [indexPair, Bool.false_eq_true, if_false, pointAt, ← f1, f0]
    rw [sub_self, zero_mul, sub_zero]
    exact mul_ne_zero (inj hx lx (by omega) (by omega) (by omega) (by omega) (by omega))
      (inj hy ly (by omega) (by omega) (by omega) (by omega) (Ne.symm f2))
  · simp only [indexPair, if_true, pointAt, ← f1, f0]
    rw [sub_self, zero_mul, zero_sub, neg_eq_zero]
    exact mul_ne_zero (inj hy ly (by omega) (by omega) (by omega) (by omega) (by omega))
      (inj hx lx (by omega) (by omega) (by omega) (by omega) (Ne.symm f2))

theorem Spec.Rich.mono {x : Strategy K} {n m : Int} (h : Rich x n) (hm : m ≤ n) : Rich x m := by
  obtain ⟨h1, l, h2, h3, h4⟩ := h
  exact ⟨h1, l, h2, h3, hm.trans h4⟩

theorem rich_sampledFrom {l : List K} (hn : l.Nodup) (hne : l ≠ []) :
    Rich (sampledFrom l) l.length :=
  ⟨fun e he => hne he.1, l, fun _ h => h, hn, le_refl _⟩

theorem Spec.Rich.nonempty {x : Strategy K} {n : Int} (h : Rich x n) (hn : 1 ≤ n) :
    ∃ a, x.val a := by
  obtain ⟨-, l, h1, -, h2⟩ := h
  cases l with
  | nil => simp at h2; omega
  | cons a l => exact ⟨a, h1 a (by simp)⟩

/-! ## General position -/

theorem generalPosition_err {x : Strategy K} {y : Option (Strategy K)} {lo : Int}
    {hi : Option Int} (hlo : 3 ≤ lo) {p : ℕ} (hp : p.Prime) (h5 : 5 ≤ p) (hpl : lo ≤ p)
    (hx : Rich x p) (hy : Rich (y.getD x) p) (e : Exc) :
    ¬ (toGeneralPositionStrategy x y lo hi).err e := by
  intro h
  rcases C34_no_failure x y lo hi hlo e h with h | h | ⟨-, q, hq, h⟩
  · exact hx.ok e h
  · exact hy.ok e h
  · have hqp : q ≤ p := hq.2 ⟨hp, max_le hpl (by exact_mod_cast h5)⟩
    rcases h with h | h
    · obtain ⟨l, h1, h2, h3⟩ := hx.many
      exact h ⟨l, h1, h2, by omega⟩
    · obtain ⟨l, h1, h2, h3⟩ := hy.many
      exact h ⟨l, h1, h2, by omega⟩

/-! ## Distribution of sizes -/

theorem sum_modify_succ (l : List Int) (i : Nat) (hi : i < l.length) :
    (l.modify i (· + 1)).sum = l.sum + 1 := by
  induction l generalizing i with
  | nil => simp at hi
  | cons a l ih =>
    cases i with
    | zero => simp; ring
    | succ i =>
      simp only [List.modify_succ_cons, List.sum_cons, ih i (by simpa using hi)]
      ring

theorem mem_modify_succ {l : List Int} {i : Nat} {m : Int} (hl : ∀ a ∈ l, m ≤ a) :
    ∀ a ∈ l.modify i (· + 1), m ≤ a := by
  induction l generalizing i with
  | nil => simp
  | cons a l ih =>
    cases i with
    | zero =>
      intro b hb
      simp only [List.modify_zero_cons, List.mem_cons] at hb
      rcases hb with rfl | hb
      · have := hl a (by simp); omega
      · exact hl b (by simp [hb])
    | succ i =>
      intro b hb
      rw [List.modify_succ_cons] at hb
      rcases List.mem_cons.1 hb with rfl | hb
      · exact hl _ (by simp)
      · exact ih (fun c hc => hl c (by simp [hc])) b hb

theorem distribute_spec (n i : Nat) (l : List Int) (hi : i < l.length) (m : Int)
    (hl : ∀ a ∈ l, m ≤ a) : ∃ r, distribute n i l = .ok r ∧ r.length = l.length ∧
      r.sum = l.sum + n ∧ ∀ a ∈ r, m ≤ a := by
  induction n generalizing i l with
  | zero => exact ⟨l, rfl, rfl, by simp, hl⟩
  | succ n ih =>
    have hne : l ≠ [] := by rintro rfl; simp at hi
    obtain ⟨r, h1, h2, h3, h4⟩ := ih ((i + 1) % l.length) (l.modify i (· + 1))
      (by rw [List.length_modify]; exact Nat.mod_lt _ (by omega)) (mem_modify_succ hl)
    refine ⟨r, ?_, by simpa using h2, ?_, h4⟩
    · rw [distribute, if_neg hne]; exact h1
    · rw [h3, sum_modify_succ l i hi]; push_cast; ring

theorem mem_rangeIncl {lo hi v : Int} : v ∈ rangeIncl lo hi ↔ lo ≤ v ∧ v ≤ hi := by
  simp only [rangeIncl, List.mem_map, List.mem_range]
  constructor
  · rintro ⟨i, hi, rfl⟩; omega
  · rintro ⟨h1, h2⟩; exact ⟨(v - lo).toNat, by omega, by omega⟩

theorem rangeIncl_ne_nil {lo hi : Int} (h : lo ≤ hi) : rangeIncl lo hi ≠ [] := by
  intro he
  have := (mem_rangeIncl (lo := lo) (hi := hi) (v := lo)).2 ⟨le_refl _, h⟩
  rw [he] at this
  simp at this

/-- Drawing one value from every range. -/
theorem sequence_ranges {lo : Int} {ms l : List Int}
    (h : (Strategy.sequence (ms.map fun m => sampledFrom (rangeIncl lo m))).val l) :
    l.length = ms.length ∧ (∀ a ∈ l, lo ≤ a) ∧ l.sum ≤ ms.sum := by
  rw [val_sequence, List.forall₂_map_left_iff] at h
  induction h with
  | nil => simp
  | cons hab _ ih =>
    obtain ⟨h1, h2⟩ := mem_rangeIncl.1 hab
    obtain ⟨k1, k2, k3⟩ := ih
    refine ⟨by simp [k1], ?_, by simp only [List.sum_cons]; omega⟩
    intro a ha
    rcases List.mem_cons.1 ha with rfl | ha
    · exact h1
    · exact k2 a ha

theorem sequence_ranges_err {lo : Int} {ms : List Int} (hm : ∀ a ∈ ms, lo ≤ a) (e : Exc) :
    ¬ (Strategy.sequence (ms.map fun m => sampledFrom (rangeIncl lo m))).err e := by
  intro h
  obtain ⟨s, hs, h⟩ := err_sequence _ _ h
  obtain ⟨m, hm', rfl⟩ := List.mem_map.1 hs
  exact rangeIncl_ne_nil (hm m hm') h.1

theorem toSizes_spec {lo limit size : Int} (h1 : 1 ≤ size) (hl : size * lo ≤ limit) :
    (∀ e, ¬ (toSizes lo limit size).err e) ∧
    ∀ l, (toSizes lo limit size).val l → (l.length : Int) = size ∧ (∀ a ∈ l, lo ≤ a) ∧
      l.sum ≤ limit := by
  obtain ⟨r, hr, r1, r2, r3⟩ := distribute_spec (limit - size * lo).toNat 0
    (List.replicate size.toNat lo) (by simp; omega) lo
    (fun a ha => by rw [(List.mem_replicate.1 ha).2])
  have hsum : r.sum = limit := by
    rw [r2, List.sum_replicate, nsmul_eq_mul]
    have e1 : ((size.toNat : Nat) : Int) = size := by omega
    have e2 : (((limit - size * lo).toNat : Nat) : Int) = limit - size * lo := by omega
    rw [e1, e2]
    ring
  constructor
  · intro e h
    simp only [toSizes, err_bind, err_ofExcept, val_ofExcept, hr, err_bind', err_permutations,
      and_false, exists_false, or_false, reduceCtorEq, false_or] at h
    obtain ⟨_, h', h⟩ := h
    cases h'
    exact sequence_ranges_err r3 e h
  · intro l h
    simp only [toSizes, val_bind, val_ofExcept, hr, val_bind', val_permutations] at h
    obtain ⟨_, h', l', h, hp⟩ := h
    cases h'
    obtain ⟨k1, k2, k3⟩ := sequence_ranges h
    refine ⟨?_, fun a ha => k2 a (hp.mem_iff.1 ha), ?_⟩
    · rw [hp.length_eq, k1, r1]; simp; omega
    · rw [hp.sum_eq, ← hsum]; exact k3

theorem touchPredicate_no_error {b : Bool} {vs : List (Point K)} (h : 3 ≤ vs.length) (e : Exc) :
    touchPredicate b (contourEdges vs) ≠ .error e := by
  have hne : contourEdges vs ≠ [] := by
    intro hc
    have := contourEdges_length vs
    rw [hc] at this
    simp at this
    omega
  cases hl : contourEdges vs with
  | nil => exact absurd hl hne
  | cons s l =>
    unfold touchPredicate
    cases b <;> simp [hasVerticalLeftmostSegment, hasHorizontalLowermostSegment, exc_pure_error]

/-- Every contour of a multicontour gets all its points. -/
theorem multicontourLoop_err {env : Env K} (l : List (Int × Bool)) {pts : List (Point K)}
    {prior : Option Bool} {G : Point K → Prop} (hn : Scattered G pts) (h3 : ∀ a ∈ l, 3 ≤ a.1)
    (hs : (l.map Prod.fst).sum ≤ pts.length) {e : Exc}
    (h : multicontourLoop env pts prior l = .error e) : ContourFails env G e := by
  induction l generalizing pts prior with
  | nil => simp [multicontourLoop, exc_pure_error] at h
  | cons a l ih =>
    obtain ⟨size, key⟩ := a
    have hsize : 3 ≤ size := h3 (size, key) (by simp)
    have h3' : ∀ a ∈ l, 3 ≤ a.1 := fun a ha => h3 a (by simp [ha])
    have hrest : 0 ≤ (l.map Prod.fst).sum := List.sum_nonneg (by
      intro a ha
      obtain ⟨b, hb, rfl⟩ := List.mem_map.1 ha
      have := h3' b hb
      omega)
    simp only [List.map_cons, List.sum_cons] at hs
    rw [multicontourLoop] at h
    generalize hq : (if prior ≠ some key then sortByKey key pts else pts) = q at h
    have hperm : q.Perm pts := by
      rw [← hq]
      split
      · exact sortByKey_perm key pts
      · exact List.Perm.refl _
    have hqn : Scattered G q :=
      hn.mono (fun _ h => h) (hperm.nodup_iff.2 hn.nodup) fun p hp => hperm.mem_iff.1 hp
    have hsub : ∀ l : List (Point K), l.Sublist q → Scattered G l := fun l hl =>
      hqn.mono (fun _ h => h) (hqn.nodup.sublist hl) fun p hp => hl.subset hp
    have hql := hperm.length_eq
    simp only [exc_bind_error] at h
    rcases h with h | ⟨vs, hvs, h⟩
    · exact ⟨q.take size.toNat, size, hsub _ (List.take_sublist _ _), hsize, by
        rw [List.length_take]; omega, h⟩
    · split at h
      · rename_i hv
        simp only [exc_bind_error, exc_pure_error, and_false, exists_false, or_false] at h
        rcases h with h | ⟨b, -, h⟩
        · exact absurd h (touchPredicate_no_error hv e)
        · refine ih (hsub _ (List.drop_sublist _ _)) h3' ?_ h
          have := b2i_cases b
          rw [List.length_drop]
          omega
      · exact ih hqn h3' (by omega) h

theorem multicontour_err {env : Env K} {x : Strategy K} {y : Option (Strategy K)} {lo : Int}
    {hi : Option Int} {clo : Int} {chi : Option Int} (h1 : 1 ≤ lo)
    (hb : ∀ m, hi = some m → lo ≤ m) (h3 : 3 ≤ clo) {p : ℕ} (hp : p.Prime) (h5 : 5 ≤ p)
    (hpl : lo * clo ≤ p) (hx : Rich x p) (hy : Rich (y.getD x) p) {e : Exc}
    (h : (toMulticontourStrategy env x y lo hi clo chi).err e) : ContourFails env (Drawn x y) e := by
  have hlc : 3 ≤ lo * clo := by nlinarith
  simp only [toMulticontourStrategy, err_filter, err_bind', err_mapE, err_prod, choosers,
    err_anything, and_false, or_false] at h
  rcases h with h | ⟨pts, hpts, h⟩
  · exact absurd h (generalPosition_err hlc hp h5 hpl hx hy e)
  · obtain ⟨hn, -, hlen, -⟩ := C35_distinct x y _ _ hlc pts hpts
    have hdiv : lo ≤ minOpt ((pts.length : Int) / clo) hi := by
      have : lo ≤ (pts.length : Int) / clo := (Int.le_ediv_iff_mul_le (by omega)).2 hlen
      cases hi with
      | none => exact this
      | some m => exact le_min this (hb m rfl)
    have hup : ∀ n, n ≤ minOpt ((pts.length : Int) / clo) hi → n * clo ≤ pts.length := by
      intro n hn
      have : n ≤ (pts.length : Int) / clo := by
        cases hi with
        | none => exact hn
        | some m => exact hn.trans (min_le_left _ _)
      exact (Int.le_ediv_iff_mul_le (by omega)).1 this
    rcases h with h | ⟨⟨sizes, ch⟩, ⟨hv, -⟩, h⟩
    · simp only [toSizeStrategy, err_bind', err_integers, val_integers] at h
      rcases h with ⟨h, -⟩ | ⟨n, ⟨hn1, hn2⟩, h⟩
      · omega
      · exact absurd h ((toSizes_spec (by omega) (hup n hn2)).1 e)
    · simp only [toSizeStrategy, val_bind', val_integers] at hv
      obtain ⟨n, ⟨hn1, hn2⟩, hv⟩ := hv
      obtain ⟨-, k2, k3⟩ := (toSizes_spec (by omega) (hup n hn2)).2 sizes hv
      unfold toMulticontour at h
      refine multicontourLoop_err _ (generalPosition_scattered hlc hpts) ?_ ?_ h
      · intro a ha
        exact h3.trans (k2 _ (List.of_mem_zip ha).1)
      · rw [List.map_fst_zip (by simp)]
        exact k3

/-! ## Hull vertices belong to the maximal hull -/

/-- A vertex of the convex hull is not strictly inside. -/
theorem hull_mem_max {h pts : List (Point K)} (hh : HullOk h pts) (hn : pts.Nodup)
    (h2 : 2 ≤ pts.length) (h3 : 3 ≤ h.length) (v : Point K) (hv : v ∈ h) :
    v ∈ toMaxConvexHull pts := by
  by_contra hnot
  obtain ⟨g2, g1, g3, g4⟩ := C43_max_hull pts hn h2
  set M := toMaxConvexHull pts with hM
  obtain ⟨i, hi, rfl⟩ := List.mem_iff_getElem.1 hv
  have hcycm : ∀ k, cyc h k ∈ h := fun k => cyc_mem (by omega) k
  set n := h.length with hnl
  -- the vertex and its neighbours
  set v := h[i] with hvdef
  have hvi : cyc h i = v := by
    unfold cyc; rw [Nat.mod_eq_of_lt hi, List.getD_eq_getElem _ _ hi]
  set a := cyc h (i + n - 1) with ha
  set b := cyc h (i + 1) with hb
  have hav : cyc h (i + n - 1 + 1) = v := by
    rw [← hvi]; unfold cyc; rw [show i + n - 1 + 1 = i + n by omega, Nat.add_mod_right]
  have mod1 : ∀ k, cyc h (k % n) = cyc h k := fun k => by unfold cyc; rw [Nat.mod_mod]
  have modadd : ∀ k, cyc h (k % n + 1) = cyc h (k + 1) := fun k => by
    unfold cyc; rw [Nat.mod_add_mod]
  have hl1 : ∀ q ∈ pts, 0 ≤ area2 a v q := by
    intro q hq
    have := hh.left ((i + n - 1) % n) (Nat.mod_lt _ (by omega)) q hq
    rwa [mod1, modadd, hav] at this
  have hl2 : ∀ q ∈ pts, 0 ≤ area2 v b q := by
    intro q hq
    have := hh.left i hi q hq
    rwa [hvi] at this
  have hconv : 0 < area2 a v b := by
    have hc := hh.convex.2
    rcases Nat.eq_zero_or_pos i with h0 | h0
    · -- last, first, second
      have := hc 0 1 (n - 1) (by omega) (by omega) (by omega)
      have e1 : h.getD 0 ⟨0, 0⟩ = v := by rw [← hvi, h0]; unfold cyc; simp
      have e2 : h.getD 1 ⟨0, 0⟩ = b := by
        rw [hb, h0]; unfold cyc; rw [Nat.mod_eq_of_lt (by omega)]
      have e3 : h.getD (n - 1) ⟨0, 0⟩ = a := by
        rw [ha, h0]; unfold cyc; rw [Nat.mod_eq_of_lt (by omega)]; congr 1; omega
      rw [e1, e2, e3] at this
      unfold LeftTurn area2 at this
      unfold area2
      linarith
    · rcases Nat.lt_or_ge (i + 1) n with h1 | h1
      · have := hc (i - 1) i (i + 1) (by omega) (by omega) (by omega)
        have e1 : h.getD i ⟨0, 0⟩ = v := by rw [← hvi]; unfold cyc; rw [Nat.mod_eq_of_lt hi]
        have e2 : h.getD (i + 1) ⟨0, 0⟩ = b := by
          rw [hb]; unfold cyc; rw [Nat.mod_eq_of_lt (by omega)]
        have e3 : h.getD (i - 1) ⟨0, 0⟩ = a := by
          rw [ha]; unfold cyc
          rw [show i + n - 1 = (i - 1) + n by omega, Nat.add_mod_right, Nat.mod_eq_of_lt (by omega)]
        rw [e1, e2, e3] at this
        exact this
      · have hin : i = n - 1 := by omega
        have := hc 0 (i - 1) i (by omega) (by omega) (by omega)
        have e1 : h.getD i ⟨0, 0⟩ = v := by rw [← hvi]; unfold cyc; rw [Nat.mod_eq_of_lt hi]
        have e2 : h.getD 0 ⟨0, 0⟩ = b := by
          rw [hb]; unfold cyc; rw [show i + 1 = h.length by omega, Nat.mod_self]
        have e3 : h.getD (i - 1) ⟨0, 0⟩ = a := by
          rw [ha]; unfold cyc
          rw [show i + n - 1 = (i - 1) + n by omega, Nat.add_mod_right, Nat.mod_eq_of_lt (by omega)]
        rw [e1, e2, e3] at this
        unfold LeftTurn area2 at this
        unfold area2
        linarith
  -- a functional with its only maximum at the vertex
  let A : K := (v.y - a.y) + (b.y - v.y)
  let B : K := -((v.x - a.x) + (b.x - v.x))
  have hf : ∀ q : Point K, lin A B q - lin A B v = -(area2 a v q + area2 v b q) := by
    intro q; simp only [lin, A, B, area2]; ring
  have hvp : v ∈ pts := hh.sub v hv
  have hle : ∀ q ∈ pts, lin A B q ≤ lin A B v := by
    intro q hq
    have := hf q; have := hl1 q hq; have := hl2 q hq; linarith
  have hstrict : ∀ q ∈ pts, q ≠ v → lin A B q < lin A B v := by
    intro q hq hqv
    refine lt_of_le_of_ne (hle q hq) fun heq => hqv ?_
    have e := hf q
    have h1 := hl1 q hq
    have h2 := hl2 q hq
    have z1 : area2 a v q = 0 := by linarith
    have z2 : area2 v b q = 0 := by linarith
    unfold area2 at z1 z2 hconv
    have hx : ((v.x - a.x) * (b.y - v.y) - (v.y - a.y) * (b.x - v.x)) * (q.x - v.x) = 0 := by
      linear_combination (b.x - v.x) * z1 - (v.x - a.x) * z2
    have hy : ((v.x - a.x) * (b.y - v.y) - (v.y - a.y) * (b.x - v.x)) * (q.y - v.y) = 0 := by
      linear_combination (b.y - v.y) * z1 - (v.y - a.y) * z2
    have hne : ((v.x - a.x) * (b.y - v.y) - (v.y - a.y) * (b.x - v.x)) ≠ 0 := by
      have : ((v.x - a.x) * (b.y - v.y) - (v.y - a.y) * (b.x - v.x)) =
        (v.x - a.x) * (b.y - a.y) - (v.y - a.y) * (b.x - a.x) := by ring
      rw [this]; exact hconv.ne'
    have e1 := (mul_eq_zero.1 hx).resolve_left hne
    have e2 := (mul_eq_zero.1 hy).resolve_left hne
    cases q; cases hvv : v
    rw [hvv] at e1 e2
    simp only [sub_eq_zero] at e1 e2
    simp [e1, e2]
  -- the vertex of the maximal hull that is greatest in that direction
  have hMne : M ≠ [] := by rintro he; rw [he] at g2; simp at g2
  obtain ⟨m0, hm0, hmax0⟩ : ∃ v ∈ M, ∀ w ∈ M, lin A B w ≤ lin A B v := by
    obtain ⟨v, hv⟩ : ∃ v, v ∈ List.argmax (lin A B) M := by
      cases h : List.argmax (lin A B) M with
      | none => exact absurd (List.argmax_eq_none.1 h) hMne
      | some v => exact ⟨v, rfl⟩
    exact ⟨v, List.argmax_mem hv, fun w hw => List.le_of_mem_argmax hw hv⟩
  let M' := M.filter fun w => decide (lin A B w = lin A B m0)
  obtain ⟨m, hm', hmax'⟩ : ∃ v ∈ M', ∀ w ∈ M', lin (-B) A w ≤ lin (-B) A v := by
    have hne : M' ≠ [] := by
      intro he
      have : m0 ∈ M' := List.mem_filter.2 ⟨hm0, by simp⟩
      rw [he] at this
      simp at this
    obtain ⟨v, hv⟩ : ∃ v, v ∈ List.argmax (lin (-B) A) M' := by
      cases h : List.argmax (lin (-B) A) M' with
      | none => exact absurd (List.argmax_eq_none.1 h) hne
      | some v => exact ⟨v, rfl⟩
    exact ⟨v, List.argmax_mem hv, fun w hw => List.le_of_mem_argmax hw hv⟩
  obtain ⟨hm, hmf⟩ := List.mem_filter.1 hm'
  have hmf : lin A B m = lin A B m0 := by simpa using hmf
  obtain ⟨j, hj, rfl⟩ := List.mem_iff_getElem.1 hm
  set N := M.length with hN
  have hmj : cyc M j = M[j] := by
    unfold cyc; rw [Nat.mod_eq_of_lt hj, List.getD_eq_getElem _ _ hj]
  set w := cyc M j with hw
  set c := cyc M (j + N - 1) with hcdef
  set d := cyc M (j + 1) with hd
  have hcw : cyc M (j + N - 1 + 1) = w := by
    rw [hw]; unfold cyc; rw [show j + N - 1 + 1 = j + N by omega, Nat.add_mod_right]
  have mod1' : ∀ k, cyc M (k % N) = cyc M k := fun k => by unfold cyc; rw [Nat.mod_mod]
  have modadd' : ∀ k, cyc M (k % N + 1) = cyc M (k + 1) := fun k => by
    unfold cyc; rw [Nat.mod_add_mod]
  have hcM : c ∈ M := cyc_mem (by omega) _
  have hdM : d ∈ M := cyc_mem (by omega) _
  rw [← hmj] at hmf hmax'
  have s1 : 0 < area2 c w v := by
    have := g4 ((j + N - 1) % N) (Nat.mod_lt _ (by omega)) v hvp hnot
    rwa [mod1', modadd', hcw] at this
  have s2 : 0 < area2 w d v := g4 j hj v hvp hnot
  have s3 : 0 ≤ area2 c w d := by
    have := g3 ((j + N - 1) % N) (Nat.mod_lt _ (by omega)) d (g1 d hdM)
    rwa [mod1', modadd', hcw] at this
  have f1 : lin A B c ≤ lin A B w := by rw [hmf]; exact hmax0 c hcM
  have f2 : lin A B d ≤ lin A B w := by rw [hmf]; exact hmax0 d hdM
  have f3 : lin A B w < lin A B v := by
    refine hstrict w (g1 _ (cyc_mem (by omega) _)) fun he => hnot ?_
    rw [← he]; exact cyc_mem (by omega) _
  -- three vectors in the plane
  have id1 : (lin A B w - lin A B c) * area2 w d v + (lin A B w - lin A B d) * area2 c w v +
      (lin A B v - lin A B w) * area2 c w d = 0 := by
    simp only [lin, area2]; ring
  have t1 : 0 ≤ (lin A B w - lin A B c) * area2 w d v := mul_nonneg (by linarith) s2.le
  have t2 : 0 ≤ (lin A B w - lin A B d) * area2 c w v := mul_nonneg (by linarith) s1.le
  have t3 : 0 ≤ (lin A B v - lin A B w) * area2 c w d := mul_nonneg (by linarith) s3
  have z1 : (lin A B w - lin A B c) * area2 w d v = 0 := by linarith
  have z : lin A B w - lin A B c = 0 := (mul_eq_zero.1 z1).resolve_right s2.ne'
  have hcM' : c ∈ M' := List.mem_filter.2 ⟨hcM, by
    simp only [decide_eq_true_eq]; rw [← hmf]; linarith⟩
  have g := hmax' c hcM'
  have id2 : (lin A B v - lin A B w) * (lin (-B) A w - lin (-B) A c) =
      (lin A B w - lin A B c) * (lin (-B) A v - lin (-B) A w) -
        (A * A + B * B) * area2 c w v := by
    simp only [lin, area2]; ring
  rw [z, zero_mul, zero_sub] at id2
  have hAB : 0 < A * A + B * B := by
    rcases eq_or_ne A 0 with hA | hA
    · rcases eq_or_ne B 0 with hB | hB
      · exfalso
        have : lin A B w = lin A B v := by simp [lin, hA, hB]
        linarith
      · have := mul_self_pos.2 hB; have := mul_self_nonneg A; linarith
    · have := mul_self_pos.2 hA; have := mul_self_nonneg B; linarith
  have k1 : 0 ≤ (lin A B v - lin A B w) * (lin (-B) A w - lin (-B) A c) :=
    mul_nonneg (by linarith) (by linarith)
  have k2 := mul_pos hAB s1
  linarith

theorem hull_length_le {h pts : List (Point K)} (hh : HullOk h pts) (hn : pts.Nodup)
    (h2 : 2 ≤ pts.length) : h.length ≤ (toMaxConvexHull pts).length := by
  rcases Nat.lt_or_ge h.length 3 with h3 | h3
  · have := (C43_max_hull pts hn h2).1; omega
  · have hnd : h.Nodup := hh.convex.1
    exact (hnd.subperm fun v hv => hull_mem_max hh hn h2 h3 v hv).length_le

/-! ## Polygons -/

theorem holeSizes_spec {z : PolygonSizes} {pts : List (Point K)} (h0 : 0 ≤ z.minHoleCount)
    (h3 : 3 ≤ z.minHoleSize) (hb : ∀ m, z.maxHoleCount = some m → z.minHoleCount ≤ m)
    (hin : z.minHoleSize * z.minHoleCount ≤ pts.length - (toMaxConvexHull pts).length) :
    (∀ e, ¬ (toHoleSizes z pts).err e) ∧
    ∀ l, (toHoleSizes z pts).val l → z.minHoleCount ≤ l.length ∧ (∀ a ∈ l, z.minHoleSize ≤ a) ∧
      l.sum ≤ pts.length - (toMaxConvexHull pts).length ∧
      ∀ m, z.maxHoleCount = some m → l.length ≤ max m 0 := by
  unfold toHoleSizes
  dsimp only
  generalize (pts.length : Int) - ((toMaxConvexHull pts).length : Int) = I at hin
  have hI : 0 ≤ I := le_trans (by positivity) hin
  split
  · rename_i hge
    have hup : ∀ n, n ≤ minOpt (I / z.minHoleSize) z.maxHoleCount → n * z.minHoleSize ≤ I := by
      intro n hn
      have : n ≤ I / z.minHoleSize := by
        cases hm : z.maxHoleCount with
        | none => rw [hm] at hn; exact hn
        | some m => rw [hm] at hn; exact hn.trans (min_le_left _ _)
      exact (Int.le_ediv_iff_mul_le (by omega)).1 this
    have key : ∀ n, z.minHoleCount ≤ n → n ≤ minOpt (I / z.minHoleSize) z.maxHoleCount →
        (∀ e, ¬ (toHoleSizesAux z.minHoleSize I n).err e) ∧
        ∀ l, (toHoleSizesAux z.minHoleSize I n).val l → z.minHoleCount ≤ l.length ∧
          (∀ a ∈ l, z.minHoleSize ≤ a) ∧ l.sum ≤ I ∧
          ∀ m, z.maxHoleCount = some m → l.length ≤ max m 0 := by
      intro n hn hn'
      have hmost : ∀ m, z.maxHoleCount = some m → n ≤ m := by
        intro m hm
        rw [hm] at hn'
        exact hn'.trans (min_le_right _ _)
      unfold toHoleSizesAux
      split
      · rename_i h0'
        simp only [err_just, not_false_eq_true, implies_true, val_just, forall_eq, true_and,
          List.length_nil, List.not_mem_nil, IsEmpty.forall_iff, List.sum_nil]
        exact ⟨by simp; omega, hI, by simp⟩
      · rename_i h0'
        have hu := hup n hn'
        obtain ⟨r, hr, r1, r2, r3⟩ := distribute_spec (I - n * z.minHoleSize).toNat 0
          (List.replicate n.toNat z.minHoleSize) (by simp; omega) z.minHoleSize
          (fun a ha => by rw [(List.mem_replicate.1 ha).2])
        have hsum : r.sum = I := by
          rw [r2, List.sum_replicate, nsmul_eq_mul]
          have e1 : ((n.toNat : Nat) : Int) = n := by omega
          have e2 : (((I - n * z.minHoleSize).toNat : Nat) : Int) = I - n * z.minHoleSize := by
            omega
          rw [e1, e2]
          ring
        have hperm : ∀ rs : List (List Int), rs.Perm (r.map fun m => rangeIncl z.minHoleSize m) →
            ∃ ms : List Int, ms.Perm r ∧ rs = ms.map fun m => rangeIncl z.minHoleSize m := by
          intro rs hrs
          obtain ⟨ms, h1, h2⟩ := List.perm_comp_forall₂
            (r := fun a (b : Int) => a = rangeIncl z.minHoleSize b) hrs
            (by rw [List.forall₂_map_left_iff]; exact List.forall₂_same.2 fun _ _ => rfl)
          exact ⟨ms, h2, List.forall₂_eq_eq_eq ▸ (by
            rw [List.forall₂_map_right_iff]; exact h1)⟩
        constructor
        · intro e h
          simp only [err_bind, err_ofExcept, val_ofExcept, hr, err_permutations,
            val_permutations, false_or, reduceCtorEq] at h
          obtain ⟨_, h', rs, hrs, h⟩ := h
          cases h'
          obtain ⟨ms, hms, rfl⟩ := hperm rs hrs
          rw [List.map_map] at h
          exact sequence_ranges_err (fun a ha => r3 a (hms.mem_iff.1 ha)) e h
        · intro l h
          simp only [val_bind, val_ofExcept, hr, val_permutations] at h
          obtain ⟨_, h', rs, hrs, h⟩ := h
          cases h'
          obtain ⟨ms, hms, rfl⟩ := hperm rs hrs
          rw [List.map_map] at h
          obtain ⟨k1, k2, k3⟩ := sequence_ranges h
          refine ⟨?_, k2, ?_, fun m hm => ?_⟩
          · rw [k1, hms.length_eq, r1]; simp; omega
          · rw [← hsum, ← hms.sum_eq]; exact k3
          · have := hmost m hm
            rw [k1, hms.length_eq, r1]; simp; omega
    have hlow : z.minHoleCount ≤ minOpt (I / z.minHoleSize) z.maxHoleCount := by
      have : z.minHoleCount ≤ I / z.minHoleSize :=
        (Int.le_ediv_iff_mul_le (by omega)).2 (by rw [mul_comm]; exact hin)
      cases hm : z.maxHoleCount with
      | none => exact this
      | some m => exact le_min this (hb m hm)
    constructor
    · intro e h
      simp only [err_bind', err_integers, val_integers] at h
      rcases h with ⟨h, -⟩ | ⟨n, ⟨hn1, hn2⟩, h⟩
      · omega
      · exact (key n hn1 hn2).1 e h
    · intro l h
      simp only [val_bind', val_integers] at h
      obtain ⟨n, ⟨hn1, hn2⟩, h⟩ := h
      exact (key n hn1 hn2).2 l h
  · rename_i hlt
    have hc0 : z.minHoleCount = 0 := by
      by_contra hne
      have : 1 ≤ z.minHoleCount := by omega
      nlinarith
    simp only [err_just, not_false_eq_true, implies_true, val_just, forall_eq, true_and]
    exact ⟨by simp [hc0], by simp, by simpa using hI, by simp⟩

/-- What the size arguments of polygons satisfy after validation. -/
structure PolyBoundsOk (z : PolygonSizes) : Prop where
  size : 3 ≤ z.minSize
  sizeLe : ∀ m, z.maxSize = some m → z.minSize ≤ m
  count : 0 ≤ z.minHoleCount
  countLe : ∀ m, z.maxHoleCount = some m → z.minHoleCount ≤ m
  hole : 3 ≤ z.minHoleSize

theorem polygonStrategy_err {env : Env K} (henv : ∀ pts, HullOk (env.convexHull pts) pts)
    {x : Strategy K} {y : Option (Strategy K)} {z : PolygonSizes} (hz : PolyBoundsOk z) {p : ℕ}
    (hp : p.Prime) (h5 : 5 ≤ p) (hpl : z.minSize + z.minHoleSize * z.minHoleCount ≤ p)
    (hx : Rich x p) (hy : Rich (y.getD x) p) {e : Exc}
    (h : (toPolygonStrategy env x y z).err e) : PolygonFails env (Drawn x y) z.maxHoleCount e := by
  obtain ⟨z1, z2, z3, z4, z5⟩ := hz
  have hmul : 0 ≤ z.minHoleSize * z.minHoleCount := by positivity
  have h3 : 3 ≤ z.minSize + z.minHoleSize * z.minHoleCount := by omega
  simp only [toPolygonStrategy, err_filter, err_bind', val_filter] at h
  rcases h with h | ⟨pts, ⟨hpts, hval⟩, h⟩
  · exact absurd h (generalPosition_err h3 hp h5 hpl hx hy e)
  · obtain ⟨hn, hpr, hlen, -⟩ := C35_distinct x y _ _ h3 pts hpts
    have hl2 := hpr.two_le
    simp only [hasValidInnerPointCount, Bool.and_eq_true, decide_eq_true_eq] at hval
    obtain ⟨hv1, hv2⟩ := hval
    have hhull := hull_length_le (henv pts) hn hl2
    obtain ⟨hs1, hs2⟩ := holeSizes_spec (pts := pts) z3 z5 z4 hv2
    have hr : ∀ m, z.maxSize = some m → max z.minSize (env.convexHull pts).length ≤ m := by
      intro m hm
      rw [hm] at hv1
      exact max_le (z2 m hm) (by simpa using hv1)
    have hr' : max z.minSize ((env.convexHull pts).length : Int) ≤
        minOpt (pts.length - z.minHoleSize * z.minHoleCount) z.maxSize := by
      have : max z.minSize ((env.convexHull pts).length : Int) ≤
          pts.length - z.minHoleSize * z.minHoleCount := max_le (by omega) (by omega)
      cases hm : z.maxSize with
      | none => exact this
      | some m => exact le_min this (hr m hm)
    simp only [pointsToPolygonStrategy, err_mapE, err_prod, err_integers, val_prod, val_integers,
      choosers, err_anything, and_false, or_false] at h
    rcases h with (⟨h, -⟩ | ⟨-, h⟩) | ⟨⟨b, hs, ch⟩, ⟨⟨hb1, hb2⟩, hh, -⟩, h⟩
    · omega
    · exact absurd h (hs1 e)
    · obtain ⟨k1, k2, k3, k4⟩ := hs2 hs hh
      dsimp only at hb1 hb2 h
      have hb3 : b ≤ pts.length - z.minHoleSize * z.minHoleCount := by
        cases hm : z.maxSize with
        | none => rw [hm] at hb2; exact hb2
        | some m => rw [hm] at hb2; exact hb2.trans (min_le_left _ _)
      exact ⟨pts, b, hs, ch, generalPosition_scattered h3 hpts, generalPosition_spread h3 hpts,
        by have := le_max_left z.minSize ((env.convexHull pts).length : Int); omega,
        (le_max_right _ _).trans hb1, by omega, k4, fun a ha => z5.trans (k2 a ha), k3, h⟩

end
end HG
