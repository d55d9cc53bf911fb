import Verif.Props.Rows

/-!
# Polygons in a row are generated together

C63 for `multipolygons`, over any arithmetic: polygons drawn from successive blocks of coordinates
of one axis, where all blocks but the last one have a prime number of coordinates and no block is
much longer than the average of those after it, form a value of `multipolygons`.
-/

namespace HG

open Strategy Spec

section

variable {K : Type} [LinearOrder K] [Zero K] [Add K] [_root_.Sub K] [Predicates K]

/-- All blocks but the last one have a prime number of coordinates, at least `least` and `5`; with
one coordinate more such a block would still be no longer than the average of itself and the blocks
after it. -/
def Spec.BlocksOk (least : Int) : List (List K) → Prop
  | [] => True
  | A :: r => (r ≠ [] → A.length.Prime ∧ 5 ≤ A.length ∧ least ≤ A.length ∧
      (A.length + 1) * (r.length + 1) ≤ A.length + r.flatten.length) ∧ BlocksOk least r

omit [Add K] [_root_.Sub K] [Predicates K] in
theorem touch_ok {b : Bool} {vs : List (Point K)} (h : 3 ≤ vs.length) :
    ∃ r, touchPredicate b (contourEdges vs) = .ok r := by
  have hne : contourEdges vs ≠ [] := by
    intro hc
    simp only [contourEdges, List.map_eq_nil_iff, List.range_eq_nil] at hc
    omega
  cases hl : contourEdges vs with
  | nil => exact absurd hl hne
  | cons s l =>
    unfold touchPredicate
    cases b
    · simp only [hasHorizontalLowermostSegment]
      exact ⟨_, rfl⟩
    · simp only [hasVerticalLeftmostSegment]
      exact ⟨_, rfl⟩

omit [Add K] [_root_.Sub K] in
theorem slab_border3 {env : Env K} {a : Bool} {coords : List K} {other : Strategy K}
    {z : PolygonSizes} (hz : 3 ≤ z.minSize) {g : Polygon K}
    (h : (slabPolygon env a coords other z).val g) : 3 ≤ g.border.vertices.length := by
  have key : ∀ {x : Strategy K} {y}, (toPolygonStrategy env x y z).val g →
      3 ≤ g.border.vertices.length := by
    rintro x y ⟨-, h⟩
    simp only [polygonHasValidSizes, Bool.and_eq_true, hasValidSize_iff] at h
    have := h.1.1
    omega
  unfold slabPolygon at h
  split at h <;> exact key h

omit [Add K] [_root_.Sub K] in
/-- The slab loop over blocks. -/
theorem slabLoop_row {env : Env K} {along : Bool} {other : Strategy K} {z : PolygonSizes}
    (hz : 3 ≤ z.minSize) {q : Int} (l : List (List K × Polygon K)) (pre : List K)
    (b : List K × Polygon K)
    (hl : ∀ c ∈ b :: l, (slabPolygon env along c.1 other z).val c.2)
    (hb : BlocksOk q ((b :: l).map Prod.fst)) :
    (slabLoop env along (pre ++ (b :: l).flatMap Prod.fst) other z q l.length pre.length).val
      ((b :: l).map Prod.snd) := by
  induction l generalizing pre b with
  | nil =>
    refine ⟨b.2, ?_, rfl⟩
    simpa using hl b (by simp)
  | cons c l ih =>
    obtain ⟨h1, h2⟩ := hb
    obtain ⟨hp, h5, hq, hroom⟩ := h1 (by simp)
    have g1 := hl b (by simp)
    obtain ⟨r, hr⟩ := touch_ok (b := along) (slab_border3 hz g1)
    have hb := b2i_cases (!r)
    set cnt : Int := b.1.length + b2i (!r) with hcnt
    obtain ⟨s, hs, hsp, hs1, -, hs3⟩ := toPriorPrime_spec cnt (by omega)
    have hsA : s = b.1.length := by
      have k1 := hs3 _ hp (by omega)
      have k2 : (s : Int) ≤ b.1.length + 1 := by omega
      have : s ≠ b.1.length + 1 := by
        intro e
        have o1 := hsp.eq_two_or_odd
        have o2 := hp.eq_two_or_odd
        omega
      omega
    have e : (pre ++ (b :: c :: l).flatMap Prod.fst) =
        (pre ++ b.1) ++ (c :: l).flatMap Prod.fst := by simp
    have := ih (pre ++ b.1) c (fun d hd => hl d (List.mem_cons_of_mem _ hd)) h2
    rw [← e] at this
    rw [List.length_cons, slabLoop]
    simp only [val_bind, val_integers, val_ofExcept, val_pure]
    refine ⟨cnt, ⟨by omega, ?_⟩, s, hs, b.2, ?_, r, hr, (c :: l).map Prod.snd, ?_, rfl⟩
    · refine (Int.le_ediv_iff_mul_le (by omega)).2 ?_
      have e2 : (((pre ++ (b :: c :: l).flatMap Prod.fst).length : ℕ) : Int) - pre.length =
          b.1.length + (((c :: l).map Prod.fst).flatten.length : ℕ) := by
        rw [List.length_append, List.flatMap_cons, List.length_append, List.flatMap_def]
        push_cast
        ring
      rw [e2]
      have e3 : ((b.1.length : Int) + 1) * (l.length + 2) ≤
          b.1.length + (((c :: l).map Prod.fst).flatten.length : ℕ) := by
        have := hroom
        simp only [List.length_cons, List.length_map] at this
        have : ((b.1.length + 1) * (l.length + 1 + 1) : ℕ) ≤
          b.1.length + ((c :: l).map Prod.fst).flatten.length := this
        zify at this
        linarith
      refine le_trans (mul_le_mul_of_nonneg_right ?_ (by omega)) e3
      omega
    · unfold slice
      rw [hsA, Int.toNat_natCast, List.drop_left' rfl, List.flatMap_cons]
      rw [show ((pre.length : Int) + (b.1.length : ℕ) - pre.length).toNat = b.1.length by omega,
        List.take_left' rfl]
      exact g1
    · rw [show (pre.length : Int) + cnt - b2i (!r) = ((pre ++ b.1).length : ℕ) by
        rw [List.length_append]; push_cast; omega]
      exact this

/-- C63 for `multipolygons`: polygons in a row over successive blocks of coordinates of the first
axis (first alternative) or of the second axis (second alternative). -/
theorem C63_multipolygons (env : Env K) (x : Strategy K) (y : Option (Strategy K)) (lo : Int)
    (hi : Option Int) (blo : Int) (bhi : Option Int) (nlo : Int) (h0 : 0 ≤ nlo) (nhi : Option Int)
    (hlo : Int) (hhi : Option Int) (l : List (List K × Polygon K))
    (hlen : SizeIn (max lo 2) hi l.length) (hsort : (l.flatMap Prod.fst).Pairwise (· < ·))
    (least : ℕ) (hp : least.Prime) (h5 : 5 ≤ least) (hsum : max blo 3 + nlo * max hlo 3 ≤ least)
    (hblocks : BlocksOk least (l.map Prod.fst))
    (htotal : ∀ m b n k, hi = some m → bhi = some b → nhi = some n → hhi = some k →
      (l.flatMap Prod.fst).length ≤ m * (b + k * n))
    (hl : ((∀ c ∈ l.flatMap Prod.fst, x.val c) ∧ ∀ b ∈ l, ∃ t, polygons env (sampledFrom b.1)
        (some (y.getD x)) blo bhi nlo nhi hlo hhi = .ok t ∧ t.2.val b.2) ∨
      ((∀ c ∈ l.flatMap Prod.fst, (y.getD x).val c) ∧ ∀ b ∈ l, ∃ t, polygons env x
        (some (sampledFrom b.1)) blo bhi nlo nhi hlo hhi = .ok t ∧ t.2.val b.2))
    (s : Made (List (Polygon K)))
    (hs : multipolygons env x y lo hi blo bhi nlo nhi hlo hhi = .ok s) :
    s.2.val (l.map Prod.snd) := by
  simp only [multipolygons, exc_bind_ok, exc_pure_ok, validate_ok] at hs
  obtain ⟨w, ⟨b1, -⟩, w', ⟨b2, -⟩, w'', ⟨b3, -⟩, w3, ⟨b4, -⟩, t, ht, rfl⟩ := hs
  set z : PolygonSizes := ⟨max blo 3, bhi, nlo, nhi, max hlo 3, hhi⟩ with hz
  have n2 : (2 : Int) ≤ l.length := (le_max_right _ _).trans hlen.1
  obtain ⟨b, c, l, rfl⟩ : ∃ b c r, l = b :: c :: r := by
    match l, n2 with
    | b :: c :: r, _ => exact ⟨b, c, r, rfl⟩
  have hsum3 : (3 : Int) ≤ max blo 3 + nlo * max hlo 3 := by
    have e1 : (3 : Int) ≤ max blo 3 := le_max_right _ _
    have e3 : (0 : Int) ≤ max hlo 3 := le_trans (by norm_num) (le_max_right _ _)
    have := mul_nonneg h0 e3
    omega
  obtain ⟨q, hq, -, -, hq5, -, hqmin⟩ := toNextPrime_spec (z.minSize + z.minHoleCount * z.minHoleSize)
    hsum3
  have hqp : q ≤ least := hqmin least hp hsum h5
  have hblocks' : BlocksOk (q : Int) ((b :: c :: l).map Prod.fst) := by
    clear_value z
    revert hblocks
    generalize (b :: c :: l).map Prod.fst = m
    intro h
    induction m with
    | nil => trivial
    | cons A m ih =>
      exact ⟨fun hr => ⟨(h.1 hr).1, (h.1 hr).2.1, by have := (h.1 hr).2.2.1; omega, (h.1 hr).2.2.2⟩,
        ih h.2⟩
  set cs := (b :: c :: l).flatMap Prod.fst with hcs
  have hn : cs.Nodup := hsort.imp fun h => h.ne
  have htot : (((b :: c :: l).length : ℕ) : Int) * q ≤ cs.length := by
    have := (hblocks'.1 (by simp)).2.2
    have h3 : (((b.1.length + 1) * (((c :: l).map Prod.fst).length + 1) : ℕ) : Int) ≤ cs.length := by
      have h3 := this.2
      rw [hcs, List.flatMap_cons, List.length_append, List.flatMap_def]
      exact_mod_cast h3
    refine le_trans ?_ h3
    simp only [List.length_cons, List.length_map]
    push_cast
    have h4 := this.1
    nlinarith
  have hmax : ∀ m, multipolygonMaxTotal hi z (max lo 2 * q) = some m → (cs.length : Int) ≤ m := by
    intro m hm
    unfold multipolygonMaxTotal PolygonSizes.maxPointCount at hm
    split at hm
    · rename_i _ _ a c' e1 e2
      split at e2
      · rename_i e3 e4 e5
        cases e2
        cases hm
        exact le_max_of_le_left (htotal _ _ _ _ rfl e3 e4 e5)
      · cases e2
    · cases hm
  have key : ∀ (along : Bool) (this other : Strategy K), (∀ c ∈ cs, this.val c) →
      (∀ d ∈ b :: c :: l, (slabPolygon env along d.1 other z).val d.2) →
      ((uniqueLists this (max lo 2 * q) (multipolygonMaxTotal hi z (max lo 2 * q))).bind
        (coordsToPolygons env along other z q (max lo 2) hi)).val ((b :: c :: l).map Prod.snd) := by
    intro along this other h1 h2
    refine ⟨cs, ⟨h1, hn, ?_, ?_⟩, ((b :: c :: l).length : ℕ), ⟨hlen.1, ?_⟩, ?_⟩
    · exact le_trans (mul_le_mul_of_nonneg_right hlen.1 (by omega)) htot
    · cases h : multipolygonMaxTotal hi z (max lo 2 * q) with
      | none => trivial
      | some m => exact hmax m h
    · refine minOpt_ge ((Int.le_ediv_iff_mul_le (by omega)).2 htot) hlen.2
    · have := slabLoop_row (along := along) (le_max_right _ _) (c :: l) [] b h2 hblocks'
      rw [sortCoords_of_lt hsort]
      have e : ((((b :: c :: l).length : ℕ) : Int) - 1).toNat = (c :: l).length := by
        rw [List.length_cons]; omega
      dsimp only
      rw [e]
      exact this
  have hy : yOr x y = y.getD x := by cases y <;> rfl
  have hslabs : ((uniqueLists x (max lo 2 * q) (multipolygonMaxTotal hi z (max lo 2 * q))).bind
        (coordsToPolygons env true (yOr x y) z q (max lo 2) hi) |||
      (uniqueLists (yOr x y) (max lo 2 * q) (multipolygonMaxTotal hi z (max lo 2 * q))).bind
        (coordsToPolygons env false x z q (max lo 2) hi)).val ((b :: c :: l).map Prod.snd) := by
    rw [hy]
    rcases hl with ⟨h1, h2⟩ | ⟨h1, h2⟩
    · refine .inl (key true x _ h1 fun d hd => ?_)
      obtain ⟨t, ht, hv⟩ := h2 d hd
      simp only [polygons, exc_bind_ok, exc_pure_ok] at ht
      obtain ⟨_, -, _, -, _, -, rfl⟩ := ht
      dsimp only at hv
      rw [max_eq_left h0] at hv
      exact hv
    · refine .inr (key false _ x h1 fun d hd => ?_)
      obtain ⟨t, ht, hv⟩ := h2 d hd
      simp only [polygons, exc_bind_ok, exc_pure_ok] at ht
      obtain ⟨_, -, _, -, _, -, rfl⟩ := ht
      dsimp only at hv
      rw [max_eq_left h0] at hv
      exact hv
  simp only [toMultipolygonStrategy, exc_bind_ok] at ht
  obtain ⟨q', hq', ht⟩ := ht
  rw [hq] at hq'
  cases hq'
  split at ht
  · simp only [exc_pure_ok] at ht
    subst ht
    exact .inr hslabs
  · simp only [exc_pure_ok] at ht
    subst ht
    exact hslabs

end

end HG
