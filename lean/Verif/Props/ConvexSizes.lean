import Verif.Lemmas.ConvexCount
import Verif.Props.ManyCoords

/-!
# C65: sizes of convex contours

With enough coordinates the sizes of convex contours are all sizes within the bounds, except those
excluded by C56.
-/

set_option linter.unusedSectionVars false

namespace HG

open Strategy Spec

section
variable {K : Type} [CommRing K] [LinearOrder K] [IsStrictOrderedRing K]

/-! ## Coordinates with different gaps -/

/-- No difference of two of the values occurs twice. -/
def Sidon (l : List K) : Prop :=
  ∀ a ∈ l, ∀ b ∈ l, ∀ c ∈ l, ∀ d ∈ l, a - b = c - d → a ≠ b → a = c

open Classical in
/-- The value in the middle, if there is one. -/
noncomputable def halfway (b c : K) : K := if h : ∃ v, v + v = b + c then h.choose else 0

theorem halfway_eq {v b c : K} (h : v + v = b + c) : v = halfway b c := by
  have hex : ∃ v, v + v = b + c := ⟨v, h⟩
  rw [halfway, dif_pos hex]
  have := hex.choose_spec
  linarith

/-- The values that would repeat a difference. -/
noncomputable def repeating (l : List K) : List K :=
  (((l ×ˢ l) ×ˢ l).map fun q => q.1.1 + q.1.2 - q.2) ++ (l ×ˢ l).map fun q => halfway q.1 q.2

theorem repeating_length (l : List K) : (repeating l).length = l.length ^ 3 + l.length ^ 2 := by
  simp only [repeating, List.length_append, List.length_map, List.length_product]
  ring

theorem mem_repeating {l : List K} {v b c d : K} (hb : b ∈ l) (hc : c ∈ l) (hd : d ∈ l)
    (h : v = b + c - d) : v ∈ repeating l := by
  refine List.mem_append.2 (.inl (List.mem_map.2 ⟨((b, c), d), ?_, h.symm⟩))
  simp only [List.mem_product]
  exact ⟨⟨hb, hc⟩, hd⟩

theorem mem_repeating' {l : List K} {v b c : K} (hb : b ∈ l) (hc : c ∈ l)
    (h : v + v = b + c) : v ∈ repeating l := by
  refine List.mem_append.2 (.inr (List.mem_map.2 ⟨(b, c), ?_, (halfway_eq h).symm⟩))
  simp only [List.mem_product]
  exact ⟨hb, hc⟩

theorem Sidon.cons {l : List K} {v : K} (h : Sidon l) (hv : v ∉ repeating l) : Sidon (v :: l) := by
  intro a ha b hb c hc d hd e hne
  rcases List.mem_cons.1 ha with rfl | ha' <;> rcases List.mem_cons.1 hb with rfl | hb' <;>
    rcases List.mem_cons.1 hc with rfl | hc' <;> rcases List.mem_cons.1 hd with rfl | hd'
  · rfl
  · rfl
  · exact absurd rfl hne
  · exact absurd rfl hne
  · rfl
  · rfl
  · exact absurd (mem_repeating' hb' hc' (by linear_combination e)) hv
  · exact absurd (mem_repeating hb' hc' hd' (by linear_combination e)) hv
  · exact absurd (by linear_combination e) hne
  · exact absurd (mem_repeating' ha' hd' (by linear_combination -e)) hv
  · linear_combination e
  · exact absurd (mem_repeating ha' hd' hc' (by linear_combination -e)) hv
  · exact absurd (by linear_combination e) hne
  · exact absurd (mem_repeating ha' hd' hb' (by linear_combination -e)) hv
  · exact absurd (mem_repeating hc' hb' ha' (by linear_combination e)) hv
  · exact h a ha' b hb' c hc' d hd' e hne

theorem sidon_exists {l : List K} (hl : l.Nodup) (n : ℕ) (h : 2 * n ^ 3 ≤ l.length) :
    ∃ ys : List K, (∀ c ∈ ys, c ∈ l) ∧ ys.Nodup ∧ ys.length = n ∧ Sidon ys := by
  have key : ∀ k ≤ n, ∃ ys : List K, (∀ c ∈ ys, c ∈ l) ∧ ys.Nodup ∧ ys.length = k ∧ Sidon ys := by
    intro k
    induction k with
    | zero => exact fun _ => ⟨[], by simp, by simp, rfl, by intro a ha; simp at ha⟩
    | succ k ih =>
      intro hk
      obtain ⟨ys, h1, h2, h3, h4⟩ := ih (by omega)
      obtain ⟨c, hc, hc'⟩ := exists_notMem (F := repeating ys) hl (by
        rw [repeating_length, h3]
        have a1 : (k + 1) ^ 3 ≤ n ^ 3 := Nat.pow_le_pow_left hk 3
        nlinarith [Nat.zero_le k, Nat.zero_le (k ^ 2), Nat.zero_le (k ^ 3)])
      refine ⟨c :: ys, ?_, ?_, by simp [h3], h4.cons hc'⟩
      · intro a ha
        rcases List.mem_cons.1 ha with rfl | ha
        · exact hc
        · exact h1 a ha
      · refine List.nodup_cons.2 ⟨fun hin => hc' ?_, h2⟩
        exact mem_repeating hin hin hin (by ring)
  exact key n le_rfl

theorem mem_gaps {a d : K} {S : List K} (h : d ∈ gaps a S) :
    ∃ u ∈ S, ∃ w ∈ a :: S, d = u - w := by
  induction S generalizing a with
  | nil => simp [gaps] at h
  | cons c S ih =>
    rcases List.mem_cons.1 h with rfl | h
    · exact ⟨c, by simp, a, by simp, rfl⟩
    · obtain ⟨u, hu, w, hw, e⟩ := ih h
      exact ⟨u, by simp [hu], w, List.mem_cons_of_mem _ hw, e⟩

theorem gaps_nodup {a : K} {S : List K} (h : (a :: S).Pairwise (· < ·)) (hs : Sidon (a :: S)) :
    (gaps a S).Nodup := by
  induction S generalizing a with
  | nil => simp [gaps]
  | cons c S ih =>
    rw [List.pairwise_cons] at h
    refine List.nodup_cons.2 ⟨fun hin => ?_, ih h.2 fun a' ha b hb c' hc d hd =>
      hs a' (by simp [ha]) b (by simp [hb]) c' (by simp [hc]) d (by simp [hd])⟩
    obtain ⟨u, hu, w, hw, e⟩ := mem_gaps hin
    have hac := h.1 c (by simp)
    have hcu := (List.pairwise_cons.1 h.2).1 u hu
    have := hs c (by simp) a (by simp) u (by simp [hu]) w (List.mem_cons_of_mem _ hw) e hac.ne'
    exact absurd this hcu.ne

/-! ## The drawn ordinates -/

theorem parabola_halves {q : ℕ} (hp : (2 * q + 1).Prime) (h2 : 2 ≤ q) :
    ∃ L : List ℤ, L.length = q ∧ L.Nodup ∧ (∀ i ∈ L, 1 ≤ i ∧ i < (2 * q + 1 : ℕ)) ∧
      ((intRange (2 * q + 1 : ℕ)).map (parabola (2 * q + 1 : ℕ) 1)).Perm (0 :: (L ++ L)) := by
  set p : ℤ := ((2 * q + 1 : ℕ) : ℤ) with hpdef
  have hpv : p = 2 * q + 1 := by rw [hpdef]; push_cast; ring
  have hpi : Prime p := Nat.prime_iff_prime_int.1 hp
  let f : ℕ → ℤ := fun i => parabola p 1 i
  have hf : ∀ i : ℕ, p ∣ (i : ℤ) * i - f i := fun i => by
    have := parabola_dvd p 1 i
    rwa [one_mul] at this
  have hr : ∀ i : ℕ, 0 ≤ f i ∧ f i < p := fun i => parabola_range p 1 i (by omega)
  refine ⟨(List.range q).map fun i => f (i + 1), by simp, ?_, ?_, ?_⟩
  · refine List.Nodup.map_on ?_ List.nodup_range
    intro i hi j hj e
    rw [List.mem_range] at hi hj
    have d1 := hf (i + 1)
    have d2 := hf (j + 1)
    have d3 := dvd_sub d1 d2
    rw [e] at d3
    have d4 : p ∣ ((i : ℤ) - j) * (i + j + 2) := by
      have e' : ((i : ℤ) - j) * (i + j + 2) = ((i + 1 : ℕ) : ℤ) * ((i + 1 : ℕ) : ℤ) - f (j + 1) -
          (((j + 1 : ℕ) : ℤ) * ((j + 1 : ℕ) : ℤ) - f (j + 1)) := by
        push_cast
        ring
      rw [e']
      exact d3
    rcases hpi.dvd_or_dvd d4 with h | h
    · have := Int.eq_zero_of_abs_lt_dvd h (by rw [abs_lt]; omega)
      omega
    · have := Int.le_of_dvd (by omega) h
      omega
  · intro v hv
    obtain ⟨i, hi, rfl⟩ := List.mem_map.1 hv
    rw [List.mem_range] at hi
    have h1 := hr (i + 1)
    refine ⟨?_, h1.2⟩
    rcases h1.1.eq_or_lt with h0 | h0
    · exfalso
      have d1 := hf (i + 1)
      rw [← h0, sub_zero] at d1
      have := (hpi.dvd_or_dvd d1).elim id id
      have := Int.le_of_dvd (by omega) this
      push_cast at this
      omega
    · omega
  · have e1 : (intRange p).map (parabola p 1) = (List.range (q + 1 + q)).map f := by
      rw [intRange, List.map_map, show p.toNat = q + 1 + q by omega]
      rfl
    rw [e1, List.range_add, List.map_append, List.map_map, List.range_succ_eq_map, List.map_cons,
      List.map_map, List.cons_append]
    have e2 : f 0 = 0 := by simp [f, parabola]
    rw [e2]
    refine List.Perm.cons _ ?_
    refine List.Perm.append_left _ ?_
    have e3 : (List.range q).map (f ∘ fun x => q + 1 + x) =
        ((List.range q).map fun i => f (i + 1)).reverse := by
      apply List.ext_getElem
      · simp
      · intro i h1 h2
        simp only [List.length_map, List.length_range] at h1
        simp only [List.getElem_map, List.getElem_range, List.getElem_reverse, List.length_map,
          List.length_range, Function.comp_apply]
        have a1 := hf (q + 1 + i)
        have a2 := hf (q - 1 - i + 1)
        have r1 := hr (q + 1 + i)
        have r2 := hr (q - 1 - i + 1)
        have a3 := dvd_sub a1 a2
        have a4 : p ∣ f (q - 1 - i + 1) - f (q + 1 + i) := by
          have : ((q - 1 - i + 1 : ℕ) : ℤ) = q - i := by omega
          rw [this] at a3
          have h3 : p ∣ p * (1 + 2 * i) := dvd_mul_right _ _
          have := dvd_sub a3 h3
          have e' : f (q - 1 - i + 1) - f (q + 1 + i) =
              ((q + 1 + i : ℕ) : ℤ) * ((q + 1 + i : ℕ) : ℤ) - f (q + 1 + i) -
                (((q : ℤ) - i) * (q - i) - f (q - 1 - i + 1)) - p * (1 + 2 * i) := by
            rw [hpv]
            push_cast
            ring
          rw [e']
          exact this
        have := Int.eq_zero_of_abs_lt_dvd a4 (by rw [abs_lt]; omega)
        linarith
    rw [e3]
    exact List.reverse_perm _

theorem doubled_perm (S : List K) : (S.flatMap fun c => [c, c]).Perm (S ++ S) := by
  induction S with
  | nil => exact List.Perm.refl _
  | cons c S ih =>
    rw [List.flatMap_cons]
    refine List.Perm.trans (List.Perm.append_left _ ih) ?_
    simp only [List.cons_append, List.nil_append]
    exact List.Perm.cons _ List.perm_middle.symm

theorem doubled_sorted {S : List K} (h : S.Pairwise (· < ·)) :
    (S.flatMap fun c => [c, c]).Pairwise (· ≤ ·) := by
  induction S with
  | nil => simp
  | cons c S ih =>
    rw [List.pairwise_cons] at h
    have : ∀ d ∈ S.flatMap (fun c => [c, c]), c ≤ d := by
      intro d hd
      obtain ⟨e, he, hd⟩ := List.mem_flatMap.1 hd
      have : d = e := by simpa using hd
      rw [this]
      exact (h.1 e he).le
    simp only [List.flatMap_cons, List.cons_append, List.nil_append, List.pairwise_cons,
      List.mem_cons]
    refine ⟨?_, this, ih h.2⟩
    rintro d (rfl | hd)
    · exact le_rfl
    · exact this d hd

theorem pySort_unique {l l' : List K} (h : l.Perm l') (hs : l'.Pairwise (· ≤ ·)) :
    pySort (fun a b : K => decide (a ≤ b)) l = l' := by
  refine ((pySort_perm _ l).trans h).eq_of_pairwise (le := (· ≤ ·))
    (fun a b _ _ h1 h2 => le_antisymm h1 h2) ?_ hs
  refine (pySort_sorted _ ?_ ?_ _).imp ?_
  · intro v w; simp only [decide_eq_true_eq]; exact le_total _ _
  · intro v w u; simp only [decide_eq_true_eq]; exact le_trans
  · intro v w h; simpa using h

/-- The ordinates of points in general position: the least one occurs once, the others twice. -/
theorem ordinates_sorted {q : ℕ} (hp : (2 * q + 1).Prime) (h2 : 2 ≤ q) {xs ys : List K}
    (hy : ys.Pairwise (· < ·)) (hl : ys.length = 2 * q + 1) :
    ∃ (v0 : K) (S : List K), S.length = q ∧ (∀ c ∈ v0 :: S, c ∈ ys) ∧
      (v0 :: S).Pairwise (· < ·) ∧
      pySort (fun a b : K => decide (a ≤ b)) ((((intRange (2 * q + 1 : ℕ)).map
        (indexPair false (2 * q + 1 : ℕ) 1)).map (pointAt xs ys)).map Point.y) =
          v0 :: S.flatMap fun c => [c, c] := by
  obtain ⟨L, l1, l2, l3, l4⟩ := parabola_halves hp h2
  let g : ℤ → K := fun i => ys.getD i.toNat 0
  have gmem : ∀ i : ℤ, 0 ≤ i → i < (2 * q + 1 : ℕ) → g i ∈ ys := by
    intro i h0 h1
    simp only [g]
    rw [List.getD_eq_getElem _ _ (by omega)]
    exact List.getElem_mem _
  have hn : (L.map g).Nodup := by
    refine List.Nodup.map_on ?_ l2
    intro i hi j hj e
    have a := l3 i hi
    have b := l3 j hj
    have := getD_injOn hy (by omega) (by omega) e
    omega
  obtain ⟨S, s1, s2⟩ := sorted_strict (L.map g) hn
  have smem : ∀ c ∈ S, ∃ i ∈ L, c = g i := by
    intro c hc
    obtain ⟨i, hi, e⟩ := List.mem_map.1 (s1.mem_iff.1 hc)
    exact ⟨i, hi, e.symm⟩
  have hlt : ∀ c ∈ S, g 0 < c := by
    intro c hc
    obtain ⟨i, hi, rfl⟩ := smem c hc
    have := l3 i hi
    exact getD_strictMono hy (by omega) (by simp; omega)
  refine ⟨g 0, S, by rw [s1.length_eq, List.length_map, l1], ?_, List.pairwise_cons.2 ⟨hlt, s2⟩, ?_⟩
  · intro c hc
    rcases List.mem_cons.1 hc with rfl | hc
    · exact gmem 0 le_rfl (by omega)
    · obtain ⟨i, hi, rfl⟩ := smem c hc
      have := l3 i hi
      exact gmem i (by omega) this.2
  · refine pySort_unique ?_ ?_
    · have e : (((intRange (2 * q + 1 : ℕ)).map (indexPair false (2 * q + 1 : ℕ) 1)).map
          (pointAt xs ys)).map Point.y =
          ((intRange (2 * q + 1 : ℕ)).map (parabola (2 * q + 1 : ℕ) 1)).map g := by
        simp [List.map_map, Function.comp_def, pointAt, indexPair, g]
      rw [e]
      refine (l4.map g).trans ?_
      rw [List.map_cons, List.map_append]
      refine List.Perm.cons _ ?_
      exact ((doubled_perm S).trans (s1.append s1)).symm
    · refine List.pairwise_cons.2 ⟨?_, doubled_sorted s2⟩
      intro d hd
      obtain ⟨e, he, hd⟩ := List.mem_flatMap.1 hd
      have : d = e := by simpa using hd
      rw [this]
      exact (hlt e he).le

theorem abscissas_sorted {p : ℕ} {xs ys : List K} (hx : xs.Pairwise (· < ·))
    (hl : xs.length = p) :
    pySort (fun a b : K => decide (a ≤ b)) ((((intRange (p : ℕ)).map
      (indexPair false p 1)).map (pointAt xs ys)).map Point.x) = xs := by
  have e : (((intRange (p : ℕ)).map (indexPair false p 1)).map (pointAt xs ys)).map Point.x = xs := by
    apply List.ext_getElem
    · simp [intRange_length, hl]
    · intro i h1 h2
      simp [pointAt, indexPair, intRange, h2]
  rw [e]
  exact pySort_unique (List.Perm.refl _) (hx.imp fun h => h.le)

theorem Spec.Many.mono {x : Strategy K} {n m : ℕ} (h : Many x n) (hm : m ≤ n) : Many x m := by
  obtain ⟨l, h1, h2, h3⟩ := h
  exact ⟨l, h1, h2, hm.trans h3⟩

/-- Convex vertex sequences made of `p` points have all sizes from `(p + 3) / 2` to `p`. -/
theorem convexStrategy_size {env : Env K} (hhull : ∀ pts, HullOk (env.convexHull pts) pts)
    (hsec : SectorOk env.atan2) (hslope : SlopeOk env.atan2) {x : Strategy K}
    {y : Option (Strategy K)} {lo : Int} (h3 : 3 ≤ lo) {hi : Option Int} {n p : ℕ} (hp : p.Prime)
    (h5 : 5 ≤ p) (hpn : p + 3 ≤ 2 * n) (hnp : n ≤ p) (hn : SizeIn lo hi n)
    (hph : (∀ m, hi = some m → (p : Int) ≤ m) ∨ ∀ r : ℕ, r.Prime → 5 ≤ r → lo ≤ r → p ≤ r)
    (hx : Many x p) (hy : Many (y.getD x) (2 * p ^ 3)) :
    ∃ vs, (toConvexStrategy env x y lo hi).val vs ∧ vs.length = n := by
  obtain ⟨q, rfl⟩ : ∃ q, p = 2 * q + 1 := by
    rcases hp.eq_two_or_odd' with h | h
    · omega
    · exact h
  obtain ⟨lx, x1, x2, x3⟩ := hx
  obtain ⟨ly, y1, y2, y3⟩ := hy
  obtain ⟨ys, z1, z2, z3, z4⟩ := sidon_exists y2 (2 * q + 1) y3
  set xs := lx.take (2 * q + 1) with hxs
  have x4 : xs.length = 2 * q + 1 := by rw [hxs, List.length_take]; omega
  have x5 : xs.Nodup := x2.sublist (List.take_sublist _ _)
  set X := sortCoords xs with hX
  set Y := sortCoords ys with hY
  have lX : X.length = 2 * q + 1 := by rw [hX, (sortCoords_perm xs).length_eq, x4]
  have lY : Y.length = 2 * q + 1 := by rw [hY, (sortCoords_perm ys).length_eq, z3]
  have sX : X.Pairwise (· < ·) := sortCoords_sorted xs x5
  have sY : Y.Pairwise (· < ·) := sortCoords_sorted ys z2
  obtain ⟨r0, hr0, hr0p, hr0l, hr05, -, hr0m⟩ := toNextPrime_spec lo h3
  have hlow : r0 ≤ 2 * q + 1 := hr0m _ hp (by have := hn.1; omega) h5
  have hup : leOpt ((2 * q + 1 : ℕ) : Int) (maxOpt r0 hi) := by
    cases hi with
    | none => trivial
    | some m =>
      rcases hph with h | h
      · exact (h m rfl).trans (le_max_left _ _)
      · have := h r0 hr0p hr05 hr0l
        exact le_trans (by omega) (le_max_right _ _)
  set pts := ((intRange (2 * q + 1 : ℕ)).map (indexPair false (2 * q + 1 : ℕ) 1)).map
    (pointAt X Y) with hpts
  obtain ⟨r1, hr1, hr1p, hr1l, -, hr1m⟩ := toPriorPrime_spec ((2 * q + 1 : ℕ) : Int) (by omega)
  obtain rfl : r1 = 2 * q + 1 := le_antisymm (by omega) (hr1m _ hp le_rfl)
  have hgp : (toGeneralPositionStrategy x y lo hi).val pts := by
    refine ⟨r0, by rw [val_ofExcept]; exact hr0, (xs, ys),
      ⟨⟨fun a ha => x1 a (List.mem_of_mem_take ha), x5, by rw [x4]; omega, by rw [x4]; exact hup⟩,
        ⟨fun a ha => y1 a (z1 a ha), z2, by rw [z3]; omega, by rw [z3]; exact hup⟩⟩, ?_⟩
    refine ⟨((2 * q + 1 : ℕ) : Int), by rw [val_ofExcept, lX, lY, min_self]; exact hr1, .inl ?_⟩
    rw [val_mapE]
    refine ⟨1, ⟨0, le_refl _, by omega, by push_cast; omega⟩, ?_⟩
    refine indicesToPoints_ok false _ hp 1 ?_ _ _ (le_of_eq lX.symm) (le_of_eq lY.symm)
    intro hd
    have := Int.le_of_dvd one_pos hd
    omega
  obtain ⟨v0, S, s1, s2, s3, s4⟩ := ordinates_sorted (xs := X) hp (by omega) sY lY
  have hX' := abscissas_sorted (ys := Y) sX lX
  obtain ⟨x0, l, b, hXe⟩ : ∃ x0 l b, X = x0 :: (l ++ [b]) := by
    match X, lX with
    | x0 :: x1 :: X, _ =>
      exact ⟨x0, (x1 :: X).dropLast, (x1 :: X).getLast (by simp),
        by rw [List.dropLast_append_getLast]⟩
    | [x0], h => simp at h; omega
  obtain ⟨r, hr, vs, hvs, hlen⟩ := convex_count_exact hhull hsec hslope (pts := pts)
    (by rw [hX', hXe]) (by rw [← hXe]; exact sX) s4 s3
    (gaps_nodup s3 fun a ha b hb c hc d hd => z4 a ((sortCoords_perm ys).mem_iff.1 (s2 a ha))
      b ((sortCoords_perm ys).mem_iff.1 (s2 b hb)) c ((sortCoords_perm ys).mem_iff.1 (s2 c hc))
      d ((sortCoords_perm ys).mem_iff.1 (s2 d hd)))
    (by rw [hXe] at lX; simp at lX; omega) (j := n - q - 2) (by omega)
  have hlen' : vs.length = n := by omega
  refine ⟨vs, ?_, hlen'⟩
  have hbig : (((prod (toGeneralPositionStrategy x y lo hi) convexRandoms).mapE
      fun p => toConvexVertexSequence env p.1 p.2).filter
      fun vs => hasValidSize lo hi vs.length).val vs := by
    refine ⟨?_, by rw [hasValidSize_iff, hlen']; exact hn⟩
    rw [val_mapE]
    exact ⟨(pts, r), ⟨hgp, hr⟩, hvs⟩
  unfold toConvexStrategy
  dsimp only
  generalize (((prod (toGeneralPositionStrategy x y lo hi) convexRandoms).mapE
      fun p => toConvexVertexSequence env p.1 p.2).filter
      fun vs => hasValidSize lo hi vs.length) = big at hbig
  have : ∀ t u : Strategy (List (Point K)), (if lo = 3 then t ||| (if lo ≤ 4 then u ||| big else big)
      else (if lo ≤ 4 then u ||| big else big)).val vs := by
    intro t u
    split
    · split
      · exact .inr (.inr hbig)
      · exact .inr hbig
    · split
      · exact .inr hbig
      · exact hbig
  cases hi with
  | none => exact this _ _
  | some m =>
    dsimp only
    rw [if_neg (by have := hn.2 m rfl; omega)]
    exact this _ _

/-! ## The sizes -/

/-- A size of convex contours: a size of triangles or rectangles, or one with a prime from it up to
the upper bound, or one that is not above the first prime from the lower bound. -/
def Spec.ConvexSize (lo : Int) (hi : Option Int) (n : ℕ) : Prop :=
  3 ≤ n ∧ SizeIn lo hi n ∧ (n ≤ 4 ∨
    (∃ q : ℕ, q.Prime ∧ n ≤ q ∧ ∀ m, hi = some m → (q : Int) ≤ m) ∨
    ∀ r : ℕ, r.Prime → 5 ≤ r → lo ≤ r → n ≤ r)

theorem exists_lt {x : Strategy K} (h : Many x 2) : ∃ a b, x.val a ∧ x.val b ∧ a < b := by
  obtain ⟨l, h1, h2, h3⟩ := h
  match l, h3 with
  | a :: b :: l, _ =>
    have hne : a ≠ b := by
      rintro rfl
      simp at h2
    rcases lt_or_gt_of_ne hne with h | h
    · exact ⟨a, b, h1 a (by simp), h1 b (by simp), h⟩
    · exact ⟨b, a, h1 b (by simp), h1 a (by simp), h⟩

/-- Vertex sequences of all sizes above four. -/
theorem convexStrategy_sizes {env : Env K} (hhull : ∀ pts, HullOk (env.convexHull pts) pts)
    (hsec : SectorOk env.atan2) (hslope : SlopeOk env.atan2) {x : Strategy K}
    {y : Option (Strategy K)} {lo : Int} {hi : Option Int} {n : ℕ} (h4 : 4 < n)
    (hn : ConvexSize lo hi n) (hx : Many x (2 * n)) (hy : Many (y.getD x) (16 * n ^ 3)) :
    ∃ vs, (toConvexStrategy env x y (max lo 3) hi).val vs ∧ vs.length = n := by
  obtain ⟨h3, hsize, hn⟩ := hn
  obtain ⟨p, -, hp, hnp, hp5, -, hmin⟩ := toNextPrime_spec (n : Int) (by omega)
  obtain ⟨b, hb, hb1, hb2⟩ := Nat.exists_prime_lt_and_le_two_mul (n - 1) (by omega)
  have hpb : p ≤ b := hmin b hb (by omega) (by omega)
  have hodd : p % 2 = 1 := hp.eq_two_or_odd.resolve_left (by omega)
  refine convexStrategy_size hhull hsec hslope (le_max_right _ _) hp hp5 (by omega) (by omega)
    ⟨by have := hsize.1; omega, hsize.2⟩ ?_ (hx.mono (by omega)) (hy.mono ?_)
  · rcases hn with h | ⟨q, hq, hnq, hqm⟩ | h
    · omega
    · have : p ≤ q := hmin q hq (by omega) (by omega)
      exact .inl fun m hm => by have := hqm m hm; omega
    · refine .inr fun r hr hr5 hlr => hmin r hr ?_ hr5
      have := h r hr hr5 (by omega)
      omega
  · have : p ^ 3 ≤ (2 * n) ^ 3 := Nat.pow_le_pow_left (by omega) 3
    calc 2 * p ^ 3 ≤ 2 * (2 * n) ^ 3 := by omega
      _ = 16 * n ^ 3 := by ring

/-- C65 for `convex_contours`: which sizes occur. -/
theorem C65_convex_contours (env : Env K) (hhull : ∀ pts, HullOk (env.convexHull pts) pts)
    (hsec : SectorOk env.atan2) (hslope : SlopeOk env.atan2) (x : Strategy K)
    (y : Option (Strategy K)) (lo : Int) (hi : Option Int) (n : ℕ) (hx : Many x (2 * n))
    (hy : Many (y.getD x) (16 * n ^ 3)) (s : Made (Contour K))
    (hs : convexContours env x y lo hi = .ok s) :
    (∃ c, s.2.val c ∧ c.vertices.length = n) ↔ ConvexSize lo hi n := by
  constructor
  · rintro ⟨c, hc, rfl⟩
    have hsize := (C10_contour_sizes env x y lo hi c).2.1 s hs hc
    refine ⟨by have := hsize.1; omega, ⟨by have := hsize.1; omega, hsize.2⟩, ?_⟩
    simp only [convexContours, exc_bind_ok, exc_pure_ok] at hs
    obtain ⟨w, -, rfl⟩ := hs
    obtain ⟨vs, hv, rfl⟩ := hc
    rcases convex_count hhull hv with h | ⟨pts, hp, hle⟩
    · exact .inl h
    · right
      by_contra hno
      push Not at hno
      obtain ⟨h1, r, hr, hr5, hlr, hrn⟩ := hno
      cases hi with
      | none =>
        obtain ⟨q, hq1, hq2⟩ := Nat.exists_infinite_primes vs.length
        obtain ⟨m, hm, -⟩ := h1 q hq2 hq1
        simp at hm
      | some m =>
        have hm := hsize.2 m rfl
        simp only at hm hrn
        obtain ⟨g1, g2⟩ := generalPosition_size (le_max_right _ _) hr hr5 (by omega)
          (by omega) hp
        obtain ⟨m', hm', hlt⟩ := h1 _ g1 hle
        cases hm'
        omega
  · intro h
    rcases Nat.lt_or_ge 4 n with h4 | h4
    · obtain ⟨vs, hv, hl⟩ := convexStrategy_sizes hhull hsec hslope h4 h hx hy
      simp only [convexContours, exc_bind_ok, exc_pure_ok] at hs
      obtain ⟨w, -, rfl⟩ := hs
      exact ⟨⟨vs⟩, ⟨vs, hv, rfl⟩, hl⟩
    · obtain ⟨h3, hsize, -⟩ := h
      obtain ⟨a, b, ha, hb, hab⟩ := exists_lt (hx.mono (by omega))
      obtain ⟨c, d, hc, hd, hcd⟩ := exists_lt (hy.mono (show 2 ≤ 16 * n ^ 3 by
        have := Nat.pos_of_ne_zero (pow_ne_zero 3 (show n ≠ 0 by omega)); omega))
      rcases h3.eq_or_lt with rfl | h3
      · exact ⟨_, (C53_triangles env x y lo hi (by have := hsize.1; omega) ⟨a, c⟩ ⟨b, c⟩ ⟨a, d⟩
          (drawn_iff.2 ⟨ha, hc⟩) (drawn_iff.2 ⟨hb, hc⟩) (drawn_iff.2 ⟨ha, hd⟩) (by
            simp only [LeftTurn, area2, sub_self, zero_mul, sub_zero]
            exact mul_pos (sub_pos.2 hab) (sub_pos.2 hcd))).1 s hs, rfl⟩
      · obtain rfl : n = 4 := by omega
        exact ⟨_, (C53_rectangles env x y lo hi (by have := hsize.1; omega)
          (fun m hm => by have := hsize.2 m hm; omega) a b c d ha hb hab hc hd hcd).1 s hs, rfl⟩

/-- C65 for `contours`: all these sizes occur, too. -/
theorem C65_contours (env : Env K) (hhull : ∀ pts, HullOk (env.convexHull pts) pts)
    (hsec : SectorOk env.atan2) (hslope : SlopeOk env.atan2) (x : Strategy K)
    (y : Option (Strategy K)) (lo : Int) (hi : Option Int) (n : ℕ) (hx : Many x (2 * n))
    (hy : Many (y.getD x) (16 * n ^ 3)) (s : Made (Contour K))
    (hs : contours env x y lo hi = .ok s) (hn : ConvexSize lo hi n) :
    ∃ c, s.2.val c ∧ c.vertices.length = n := by
  have hs' := hs
  simp only [contours, exc_bind_ok, exc_pure_ok] at hs'
  obtain ⟨w, hw, -⟩ := hs'
  obtain ⟨t, ht⟩ : ∃ t, convexContours env x y lo hi = .ok t := by
    simp only [convexContours, hw]
    exact ⟨_, rfl⟩
  obtain ⟨c, hc, hl⟩ := (C65_convex_contours env hhull hsec hslope x y lo hi n hx hy t ht).2 hn
  exact ⟨c, (C53_contours env x y lo hi s t hs c hc).1 ht, hl⟩

/-- C65 for `contours` over coordinates where drawn points are on a line only if they share a
coordinate: no other sizes occur. -/
theorem C65_contours_exactly (env : Env K) (hcoin : Coins env.coinChange)
    (hhull : ∀ pts, HullOk (env.convexHull pts) pts)
    (hsec : SectorOk env.atan2) (hslope : SlopeOk env.atan2) (x : Strategy K)
    (y : Option (Strategy K)) (hgen : GenericCoords x y) (lo : Int) (hi : Option Int) (n : ℕ)
    (hx : Many x (2 * n)) (hy : Many (y.getD x) (16 * n ^ 3)) (s : Made (Contour K))
    (hs : contours env x y lo hi = .ok s) :
    (∃ c, s.2.val c ∧ c.vertices.length = n) ↔ ConvexSize lo hi n := by
  refine ⟨?_, C65_contours env hhull hsec hslope x y lo hi n hx hy s hs⟩
  rintro ⟨c, hc, rfl⟩
  have hsize := (C10_contour_sizes env x y lo hi c).1 s hs hc
  refine ⟨by have := hsize.1; omega, ⟨by have := hsize.1; omega, hsize.2⟩, ?_⟩
  by_contra hno
  push Not at hno
  obtain ⟨h4, h1, r, hr, hr5, hlr, hrn⟩ := hno
  cases hi with
  | none =>
    obtain ⟨q, hq1, hq2⟩ := Nat.exists_infinite_primes c.vertices.length
    obtain ⟨m, hm, -⟩ := h1 q hq2 hq1
    simp at hm
  | some m =>
    have hm := hsize.2 m rfl
    refine (C56_sizes env hcoin hhull x y hgen lo m c.vertices.length r h4 ?_ hr hr5 hlr (by omega)
      s c hc).1 hs rfl
    intro q hq hnq hqm
    obtain ⟨m', hm', hlt⟩ := h1 q hq hnq
    cases hm'
    omega

end

namespace Sample

/-- The angle function of the sample environment respects slopes. -/
theorem sample_slopeOk : SlopeOk env.atan2 := by
  intro x y x' y' hx hx' h
  change pseudoAngle y x < pseudoAngle y' x'
  unfold pseudoAngle
  have p1 : (0 : ℚ) < (|x| + |y| : ℤ) := by
    have := abs_nonneg y; have := abs_pos.2 hx.ne'
    exact_mod_cast (by omega : (0 : ℤ) < |x| + |y|)
  have p2 : (0 : ℚ) < (|x'| + |y'| : ℤ) := by
    have := abs_nonneg y'; have := abs_pos.2 hx'.ne'
    exact_mod_cast (by omega : (0 : ℤ) < |x'| + |y'|)
  have q1 : (0 : ℚ) < (x : ℚ) / (|x| + |y| : ℤ) := div_pos (by exact_mod_cast hx) p1
  have q2 : (0 : ℚ) < (x' : ℚ) / (|x'| + |y'| : ℤ) := div_pos (by exact_mod_cast hx') p2
  have r1 : (x : ℚ) / (|x| + |y| : ℤ) ≤ 1 := by
    rw [div_le_one p1]
    have := abs_nonneg y; have := le_abs_self x
    exact_mod_cast (by omega : x ≤ |x| + |y|)
  have r2 : (x' : ℚ) / (|x'| + |y'| : ℤ) ≤ 1 := by
    rw [div_le_one p2]
    have := abs_nonneg y'; have := le_abs_self x'
    exact_mod_cast (by omega : x' ≤ |x'| + |y'|)
  rcases le_or_gt 0 y with hy | hy <;> rcases le_or_gt 0 y' with hy' | hy'
  · rw [if_pos hy, if_pos hy']
    have : (x' : ℚ) / (|x'| + |y'| : ℤ) < (x : ℚ) / (|x| + |y| : ℤ) := by
      rw [div_lt_div_iff₀ p2 p1, abs_of_pos hx, abs_of_pos hx', abs_of_nonneg hy,
        abs_of_nonneg hy']
      exact_mod_cast (by linarith : x' * (x + y) < x * (x' + y'))
    linarith
  · exfalso
    have h1 := mul_nonneg hy hx'.le
    have h2 := mul_neg_of_neg_of_pos hy' hx
    linarith
  · rw [if_neg (not_le.2 hy), if_pos hy']
    rcases r1.lt_or_eq with r1 | r1
    · linarith
    · exfalso
      rw [div_eq_one_iff_eq p1.ne'] at r1
      have h1 := abs_pos.2 hy.ne
      have : x = |x| + |y| := by exact_mod_cast r1
      rw [abs_of_pos hx] at this
      omega
  · rw [if_neg (not_le.2 hy), if_neg (not_le.2 hy')]
    have : (x : ℚ) / (|x| + |y| : ℤ) < (x' : ℚ) / (|x'| + |y'| : ℤ) := by
      rw [div_lt_div_iff₀ p1 p2, abs_of_pos hx, abs_of_pos hx', abs_of_neg hy, abs_of_neg hy']
      exact_mod_cast (by linarith : x * (x' + -y') < x' * (x + -y))
    linarith

/-- Convex contours of any size with integer coordinates, for example octagons. -/
example (n : ℕ) (hn : 3 ≤ n) : ∃ s c, convexContours env allInts none n (some n) = .ok s ∧
    s.2.val c ∧ c.vertices.length = n := by
  obtain ⟨s, hs⟩ : ∃ s, convexContours env allInts none n (some n) = .ok s := by
    have h0 : ¬ (n : ℤ) < 0 := by omega
    have h3 : ¬ (n : ℤ) < 3 := by omega
    simp only [convexContours, validateSizes, gt_iff_lt, lt_irrefl, h0, h3, if_false]
    exact ⟨_, rfl⟩
  obtain ⟨c, h⟩ := (C65_convex_contours env sample_hullOk sample_sectorOk sample_slopeOk allInts none
    n (some n) n (allInts_many _) (allInts_many _) s hs).2 ⟨hn, ⟨le_rfl, by simp⟩, by
      refine .inr (.inr fun r _ _ h => by exact_mod_cast h)⟩
  exact ⟨s, c, hs, h⟩

/-- Coordinates of the kind of `C65_contours_exactly`, of any number. -/
example (n m : ℕ) (hn : 1 ≤ n) (hm : 1 ≤ m) : ∃ x y : Strategy ℤ, GenericCoords x (some y) ∧
    Many x n ∧ Many y m := by
  obtain ⟨xs, ys, -, -, -, h1, h2, h3⟩ := (allInts_many n).generic (y := none) hn hm
    (allInts_many _)
  obtain ⟨l, l1, l2, l3⟩ := h1.many
  obtain ⟨k, k1, k2, k3⟩ := h2.many
  exact ⟨_, _, h3, ⟨l, l1, l2, by exact_mod_cast l3⟩, ⟨k, k1, k2, by exact_mod_cast k3⟩⟩

end Sample
end HG
