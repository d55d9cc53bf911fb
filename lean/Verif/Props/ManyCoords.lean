import Verif.Props.ConcaveNonEmpty
import Verif.Props.MixHoles
import Verif.Props.Loosen
import Verif.Props.Validation

/-!
# C64: with many coordinates everything admissible occurs, whatever the coordinates are

The other theorems that show the existence of a value ask for generic coordinates.
Among sufficiently many ordinates there are generic ones, and more coordinates lose no values.
-/

set_option linter.unusedSectionVars false

namespace HG

open Strategy Spec

section
variable {K : Type} [CommRing K] [LinearOrder K] [IsStrictOrderedRing K]

/-- The strategy has at least `n` different values. -/
def Spec.Many (x : Strategy K) (n : ℕ) : Prop :=
  ∃ l : List K, (∀ a ∈ l, x.val a) ∧ l.Nodup ∧ n ≤ l.length

/-! ## Choice of generic coordinates -/

/-- No three different abscissas form a line with three different ordinates. -/
def Slanted (xs ys : List K) : Prop :=
  ∀ u ∈ xs, ∀ v ∈ xs, ∀ w ∈ xs, u ≠ v → u ≠ w → v ≠ w → ∀ a ∈ ys, ∀ b ∈ ys, ∀ c ∈ ys,
    a ≠ b → a ≠ c → b ≠ c → (v - u) * (c - a) ≠ (w - u) * (b - a)

theorem Slanted.generic {xs ys : List K} (h : Slanted xs ys) :
    GenericCoords (sampledFrom xs) (some (sampledFrom ys)) := by
  rintro ⟨u, a⟩ ⟨v, b⟩ ⟨w, c⟩ ⟨hu, ha⟩ ⟨hv, hb⟩ ⟨hw, hc⟩ h1 h2 h3 hcol
  simp only [ne_eq, Point.mk.injEq] at h1 h2 h3
  dsimp only at *
  have e : (v - u) * (c - a) = (w - u) * (b - a) := by
    simp only [Collinear, area2] at hcol
    linear_combination hcol
  by_cases huv : u = v
  · subst huv
    have hab : ¬ a = b := fun h => h1 ⟨rfl, h⟩
    have : (w - u) * (b - a) = 0 := by rw [← e]; ring
    rcases mul_eq_zero.1 this with h | h
    · exact .inl ⟨rfl, (sub_eq_zero.1 h).symm⟩
    · exact absurd (sub_eq_zero.1 h).symm hab
  by_cases huw : u = w
  · subst huw
    have hac : ¬ a = c := fun h => h2 ⟨rfl, h⟩
    have : (v - u) * (c - a) = 0 := by rw [e]; ring
    rcases mul_eq_zero.1 this with h | h
    · exact absurd (sub_eq_zero.1 h).symm huv
    · exact absurd (sub_eq_zero.1 h).symm hac
  by_cases hvw : v = w
  · subst hvw
    have hbc : ¬ b = c := fun h => h3 ⟨rfl, h⟩
    have : (v - u) * (c - b) = 0 := by linear_combination e
    rcases mul_eq_zero.1 this with h | h
    · exact absurd (sub_eq_zero.1 h).symm huv
    · exact absurd (sub_eq_zero.1 h).symm hbc
  by_cases hab : a = b
  · subst hab
    have : (v - u) * (c - a) = 0 := by rw [e]; ring
    rcases mul_eq_zero.1 this with h | h
    · exact absurd (sub_eq_zero.1 h).symm huv
    · exact .inr ⟨rfl, (sub_eq_zero.1 h).symm⟩
  by_cases hac : a = c
  · subst hac
    have : (w - u) * (b - a) = 0 := by rw [← e]; ring
    rcases mul_eq_zero.1 this with h | h
    · exact absurd (sub_eq_zero.1 h).symm huw
    · exact .inr ⟨(sub_eq_zero.1 h).symm, rfl⟩
  by_cases hbc : b = c
  · subst hbc
    have : (v - w) * (b - a) = 0 := by linear_combination e
    rcases mul_eq_zero.1 this with h | h
    · exact absurd (sub_eq_zero.1 h) hvw
    · exact absurd (sub_eq_zero.1 h).symm hab
  exact absurd e (h u hu v hv w hw huv huw hvw a ha b hb c hc hab hac hbc)

open Classical in
/-- The ordinate at abscissa `w` of the line through `(u, a)` and `(v, b)`, if there is one. -/
noncomputable def lineAt (u v w a b : K) : K :=
  if h : ∃ c, (v - u) * (c - a) = (w - u) * (b - a) then h.choose else 0

theorem lineAt_eq {u v w a b c : K} (huv : u ≠ v) (h : (v - u) * (c - a) = (w - u) * (b - a)) :
    c = lineAt u v w a b := by
  have hex : ∃ c, (v - u) * (c - a) = (w - u) * (b - a) := ⟨c, h⟩
  have e : (v - u) * (hex.choose - a) = (w - u) * (b - a) := hex.choose_spec
  have : (v - u) * (c - hex.choose) = 0 := by linear_combination h - e
  rw [lineAt, dif_pos hex]
  rcases mul_eq_zero.1 this with h' | h'
  · exact absurd (sub_eq_zero.1 h').symm huv
  · exact sub_eq_zero.1 h'

/-- The ordinates on lines through points of the grid. -/
noncomputable def onLines (xs ys : List K) : List K :=
  (((xs ×ˢ xs) ×ˢ xs) ×ˢ (ys ×ˢ ys)).map fun q =>
    lineAt q.1.1.1 q.1.1.2 q.1.2 q.2.1 q.2.2

theorem onLines_length (xs ys : List K) :
    (onLines xs ys).length = xs.length ^ 3 * ys.length ^ 2 := by
  simp only [onLines, List.length_map, List.length_product]
  ring

theorem onLines_mem {xs ys : List K} {u v w a b c : K} (hu : u ∈ xs) (hv : v ∈ xs) (hw : w ∈ xs)
    (ha : a ∈ ys) (hb : b ∈ ys) (huv : u ≠ v) (h : (v - u) * (c - a) = (w - u) * (b - a)) :
    c ∈ onLines xs ys := by
  refine List.mem_map.2 ⟨(((u, v), w), (a, b)), ?_, (lineAt_eq huv h).symm⟩
  simp only [List.mem_product]
  exact ⟨⟨⟨hu, hv⟩, hw⟩, ha, hb⟩

theorem Slanted.cons {xs ys : List K} {c : K} (h : Slanted xs ys) (hc : c ∉ onLines xs ys) :
    Slanted xs (c :: ys) := by
  intro u hu v hv w hw huv huw hvw a ha b hb d hd hab had hbd e
  rcases List.mem_cons.1 ha with rfl | ha'
  · rcases List.mem_cons.1 hb with rfl | hb'
    · exact hab rfl
    rcases List.mem_cons.1 hd with rfl | hd'
    · exact had rfl
    exact hc (onLines_mem hw hv hu hd' hb' (Ne.symm hvw) (by linear_combination -e))
  rcases List.mem_cons.1 hb with rfl | hb'
  · rcases List.mem_cons.1 hd with rfl | hd'
    · exact hbd rfl
    exact hc (onLines_mem hu hw hv ha' hd' huw (by linear_combination -e))
  rcases List.mem_cons.1 hd with rfl | hd'
  · exact hc (onLines_mem hu hv hw ha' hb' huv e)
  exact h u hu v hv w hw huv huw hvw a ha' b hb' d hd' hab had hbd e

theorem exists_notMem {l F : List K} (hl : l.Nodup) (h : F.length < l.length) :
    ∃ c ∈ l, c ∉ F := by
  by_contra hcon
  push Not at hcon
  exact absurd (List.subperm_of_subset hl hcon).length_le (by omega)

theorem slanted_exists (xs : List K) {l : List K} (hl : l.Nodup) (n : ℕ)
    (h : xs.length ^ 3 * n ^ 2 + n ≤ l.length) :
    ∃ ys : List K, (∀ c ∈ ys, c ∈ l) ∧ ys.Nodup ∧ ys.length = n ∧ Slanted xs ys := by
  induction n with
  | zero => exact ⟨[], by simp, List.nodup_nil, rfl, by simp [Slanted]⟩
  | succ n ih =>
    have hmul : xs.length ^ 3 * n ^ 2 ≤ xs.length ^ 3 * (n + 1) ^ 2 :=
      Nat.mul_le_mul_left _ (Nat.pow_le_pow_left (Nat.le_succ n) 2)
    obtain ⟨ys, h1, h2, h3, h4⟩ := ih (by omega)
    obtain ⟨c, hc, hF⟩ := exists_notMem (F := onLines xs ys ++ ys) hl (by
      rw [List.length_append, onLines_length, h3]; omega)
    rw [List.mem_append, not_or] at hF
    refine ⟨c :: ys, ?_, List.nodup_cons.2 ⟨hF.2, h2⟩, by simp [h3], h4.cons hF.1⟩
    intro d hd
    rcases List.mem_cons.1 hd with rfl | hd
    exacts [hc, h1 d hd]

/-- Among many coordinates there are generic ones. -/
theorem Spec.Many.generic {x : Strategy K} {y : Option (Strategy K)} {n m : ℕ} (hn : 1 ≤ n)
    (hm : 1 ≤ m) (hx : Many x n) (hy : Many (y.getD x) (n ^ 3 * m ^ 2 + m)) :
    ∃ xs ys : List K, MoreCoords (sampledFrom xs) (some (sampledFrom ys)) x y ∧
      xs.length = n ∧ ys.length = m ∧
      Rich (sampledFrom xs) n ∧ Rich (sampledFrom ys) m ∧
      GenericCoords (sampledFrom xs) (some (sampledFrom ys)) := by
  obtain ⟨l, l1, l2, l3⟩ := hx
  obtain ⟨k, k1, k2, k3⟩ := hy
  have ln : (l.take n).length = n := by rw [List.length_take]; omega
  obtain ⟨ys, y1, y2, y3, y4⟩ := slanted_exists (l.take n) k2 m (by rw [ln]; exact k3)
  have r1 := rich_sampledFrom (l := l.take n) (l2.sublist (List.take_sublist _ _)) (by
    intro h; rw [h] at ln; simp at ln; omega)
  have r2 := rich_sampledFrom y2 (by rintro rfl; simp at y3; omega)
  rw [ln] at r1
  rw [y3] at r2
  exact ⟨l.take n, ys, ⟨fun a ha => l1 a (List.mem_of_mem_take ha), fun b hb => k1 b (y1 b hb)⟩, ln,
    y3, r1, r2, y4.generic⟩

theorem enoughSteps_sampled (env : Env K) {xs ys : List K}
    (h : (xs.length * ys.length + 2) * (xs.length * ys.length + 2) ≤ env.fuel) :
    EnoughSteps env (Drawn (sampledFrom xs) (some (sampledFrom ys))) := by
  intro pts hn hd
  have hsub : ∀ q ∈ pts.map (fun q => (q.x, q.y)), q ∈ xs ×ˢ ys := by
    intro q hq
    obtain ⟨p, hp, rfl⟩ := List.mem_map.1 hq
    exact List.mem_product.2 (hd p hp)
  have hinj : (pts.map (fun q => (q.x, q.y))).Nodup := by
    refine hn.map ?_
    rintro ⟨a, b⟩ ⟨c, d⟩ h
    simp only [Prod.mk.injEq] at h
    rw [h.1, h.2]
  have hl := (List.subperm_of_subset hinj hsub).length_le
  rw [List.length_map, List.length_product] at hl
  exact le_trans (Nat.mul_le_mul (by omega) (by omega)) h

theorem Validates.same {α β : Type} {r : Except Exc (Made α)} {r' : Except Exc (Made β)} {bad : Prop}
    {w w' : List SizeWarning} (h : Validates r bad w) (h' : Validates r' bad w') {s : Made α}
    (hs : r = .ok s) : ∃ s', r' = .ok s' := by
  cases hr : r' with
  | ok s' => exact ⟨s', rfl⟩
  | error e =>
    have := (h.1 e).2 ((h'.1 e).1 hr)
    rw [hs] at this
    cases this

/-! ## Theorems -/

/-- C64 for `concave_contours`: C54 for arbitrary coordinates of which there are enough. -/
theorem C64_concave_contours (env : Env K) (hcoin : Coins env.coinChange) (hf : 49 ≤ env.fuel)
    (x : Strategy K) (y : Option (Strategy K)) (lo : Int) (hi : Option Int)
    (h1 : lo ≤ 4) (h2 : ∀ m, hi = some m → 5 ≤ m) (hx : Many x 5)
    (hy : Many (y.getD x) (5 ^ 3 * 5 ^ 2 + 5))
    (s : Made (Contour K)) (hs : concaveContours env x y lo hi = .ok s) : ∃ c, s.2.val c := by
  obtain ⟨xs, ys, hmore, -, -, r1, r2, hgen⟩ := hx.generic (by norm_num) (by norm_num) hy
  obtain ⟨s', hs'⟩ := (C31_single env x y lo hi).2.2.2.2.2.same
    (C31_single env (sampledFrom xs) (some (sampledFrom ys)) lo hi).2.2.2.2.2 hs
  obtain ⟨c, hc⟩ := C54_concave_contours env hcoin hf _ _ hgen lo hi h1 h2 r1 r2 s' hs'
  exact ⟨c, (C55_contours env hmore lo (hi := hi) (hi' := hi) .rfl').2.2.1 s' s hs' hs c hc⟩

/-- C64 for `polygons`: every number of holes within the bounds. -/
theorem C64_polygons (env : Env K) (hcoin : Coins env.coinChange)
    (hset : ∀ l, (env.setOrder l).Perm l) (hcheck : SoundCheck env.segmentsCrossOrOverlap)
    (henv : ∀ pts, HullOk (env.convexHull pts) pts)
    (x : Strategy K) (y : Option (Strategy K)) (lo : Int)
    (hi : Option Int) (nlo : Int) (nhi : Option Int) (hlo : Int) (hhi : Option Int)
    (h1 : lo ≤ 3) (h2 : hlo ≤ 3) (k : ℕ) (hk1 : nlo ≤ k) (hk2 : ∀ m, nhi = some m → k ≤ m)
    (p : ℕ) (hp : p.Prime) (hp5 : 5 ≤ p) (hpk : 6 * k + 3 ≤ p)
    (hb : ∀ m, hi = some m → p + 3 ≤ 2 * m)
    (hm : ∀ a b c, hi = some a → nhi = some b → hhi = some c → p ≤ a + c * b)
    (hf : (p + 2) * (p + 2) ≤ env.fuel) (hx : Many x p)
    (hy : Many (y.getD x) (p ^ 3 * p ^ 2 + p))
    (s : Made (Polygon K)) (hs : polygons env x y lo hi nlo nhi hlo hhi = .ok s) :
    ∃ v, s.2.val v ∧ v.holes.length = k := by
  obtain ⟨xs, ys, hmore, -, -, r1, r2, hgen⟩ := hx.generic (by omega) (by omega) hy
  obtain ⟨s', hs'⟩ := (C31_polygons env x y lo hi nlo nhi hlo hhi).same
    (C31_polygons env (sampledFrom xs) (some (sampledFrom ys)) lo hi nlo nhi hlo hhi) hs
  obtain ⟨v, hv, hl⟩ := C62_polygons env hcoin hset hcheck henv _ _ hgen lo hi nlo nhi hlo hhi h1 h2 k
    hk1 hk2 p hp hp5 hpk hb hm hf r1 r2 s' hs'
  exact ⟨v, C55_polygons env hmore lo nlo hlo .rfl' .rfl' .rfl' s' s hs'
    hs v hv, hl⟩

/-- C64 for `multicontours`: every number of contours within the bounds. -/
theorem C64_multicontours (env : Env K) (hcoin : Coins env.coinChange) (x : Strategy K)
    (y : Option (Strategy K))
    (lo : Int) (hi : Option Int) (clo : Int) (chi : Option Int) (hclo : clo ≤ 3) (n : ℕ)
    (hn : SizeIn (max lo 2) hi n)
    (hr : ∀ m c, hi = some m → chi = some c → PrimeRoom (n * 3) (some (m * c))) (p : ℕ)
    (hp : p.Prime) (hp1 : 5 ≤ p ∧ n * 3 ≤ p) (hf : (p * p + 2) * (p * p + 2) ≤ env.fuel)
    (hx : Many x p) (hy : Many (y.getD x) (p ^ 3 * p ^ 2 + p))
    (s : Made (List (Contour K))) (hs : multicontours env x y lo hi clo chi = .ok s) :
    ∃ v, s.2.val v ∧ v.length = n := by
  obtain ⟨xs, ys, hmore, l1, l2, r1, r2, hgen⟩ := hx.generic (by omega) (by omega) hy
  obtain ⟨s', hs'⟩ := (C31_multicontours env x y lo hi clo chi).same
    (C31_multicontours env (sampledFrom xs) (some (sampledFrom ys)) lo hi clo chi) hs
  obtain ⟨v, hv, hl⟩ := C61_multicontour_counts env hcoin _ _ hgen
    (enoughSteps_sampled env (by rw [l1, l2]; exact hf)) lo hi clo chi hclo n hn hr p hp hp1 r1 r2 s' hs'
  exact ⟨v, C55_multicontours env hmore lo clo .rfl' .rfl' s' s hs' hs v hv, hl⟩

/-- C64 for `multipolygons`: all numbers of holes within the bounds. -/
theorem C64_multipolygons (env : Env K) (hcoin : Coins env.coinChange)
    (hset : ∀ l, (env.setOrder l).Perm l) (hcheck : SoundCheck env.segmentsCrossOrOverlap)
    (henv : ∀ pts, HullOk (env.convexHull pts) pts)
    (x : Strategy K) (y : Option (Strategy K)) (lo : Int)
    (hi : Option Int) (blo : Int)
    (bhi : Option Int) (nlo : Int) (nhi : Option Int) (hlo : Int) (hhi : Option Int)
    (h1 : blo ≤ 3) (h2 : hlo ≤ 3) (h0 : 0 ≤ nlo) (ks : List ℕ)
    (hks : SizeIn (max lo 2) hi ks.length) (hk : ∀ k ∈ ks, SizeIn nlo nhi k)
    (p : ℕ) (hp : p.Prime) (hp5 : 5 ≤ p) (hpk : ∀ k ∈ ks, 6 * k + 3 ≤ p)
    (hb : ∀ m, bhi = some m → p + 3 ≤ 2 * m)
    (hm : ∀ a b c, bhi = some a → nhi = some b → hhi = some c → p ≤ a + c * b)
    (hf : (p + 2) * (p + 2) ≤ env.fuel) (hx : Many x (ks.length * p))
    (hy : Many (y.getD x) ((ks.length * p) ^ 3 * p ^ 2 + p))
    (s : Made (List (Polygon K)))
    (hs : multipolygons env x y lo hi blo bhi nlo nhi hlo hhi = .ok s) :
    ∃ v, s.2.val v ∧ v.map (fun g => g.holes.length) = ks := by
  have hl : 1 ≤ ks.length := by
    have := (le_max_right lo 2).trans hks.1
    omega
  obtain ⟨xs, ys, hmore, -, -, r1, r2, hgen⟩ := hx.generic (Nat.mul_pos hl (by omega)) (by omega) hy
  obtain ⟨s', hs'⟩ := (C31_multipolygons_nonneg env x y lo hi blo bhi nlo nhi hlo hhi h0).same
    (C31_multipolygons_nonneg env (sampledFrom xs) (some (sampledFrom ys)) lo hi blo bhi nlo nhi hlo hhi
      h0) hs
  obtain ⟨v, hv, hl⟩ := C62_multipolygons env hcoin hset hcheck henv _ _ hgen lo hi blo bhi nlo nhi hlo
    hhi h1 h2 h0 ks hks hk p hp hp5 hpk hb hm hf r1 r2 s' hs'
  exact ⟨v, C55_multipolygons env hmore lo blo nlo hlo .rfl' .rfl' .rfl'
    .rfl' s' s hs' hs v hv, hl⟩

/-- C64 for `mixes`: all combinations of counts and numbers of holes within the bounds. -/
theorem C64_mixes (env : Env K) (hcoin : Coins env.coinChange)
    (hset : ∀ l, (env.setOrder l).Perm l) (hcheck : SoundCheck env.segmentsCrossOrOverlap)
    (henv : ∀ pts, HullOk (env.convexHull pts) pts)
    (x : Strategy K) (y : Option (Strategy K)) (a : MixArgs)
    (h1 : a.minPolygonBorderSize ≤ 3) (h2 : a.minPolygonHoleSize ≤ 3)
    (np ns : ℕ) (ks : List ℕ) (hp : SizeIn a.minPointsSize a.maxPointsSize np)
    (hseg : SizeIn a.minSegmentsSize a.maxSegmentsSize ns)
    (hpol : SizeIn a.minPolygonsSize a.maxPolygonsSize ks.length)
    (hk : ∀ k ∈ ks, SizeIn a.minPolygonHolesSize a.maxPolygonHolesSize k)
    (htwo : (0 < np ∧ 0 < ns) ∨ (0 < np ∧ ks ≠ []) ∨ (0 < ns ∧ ks ≠ []))
    (p : ℕ) (hpp : p.Prime) (hp5 : 5 ≤ p) (hpk : ∀ k ∈ ks, 6 * k + 3 ≤ p)
    (hb : ∀ m, a.maxPolygonBorderSize = some m → p + 3 ≤ 2 * m)
    (hm : ∀ b n h, a.maxPolygonBorderSize = some b → a.maxPolygonHolesSize = some n →
      a.maxPolygonHoleSize = some h → p ≤ b + h * n)
    (hf : (p + 2) * (p + 2) ≤ env.fuel)
    (hx : Many x (np + 2 * ns + ks.length * p))
    (hy : Many (y.getD x) ((np + 2 * ns + ks.length * p) ^ 3 * (ns + p) ^ 2 + (ns + p)))
    (s : Made (Mix K)) (hs : mixes env x y a = .ok s) :
    ∃ v, s.2.val v ∧ (mixPoints v).length = np ∧ (mixSegments v).length = ns ∧
      (mixPolygons v).map (fun g => g.holes.length) = ks := by
  obtain ⟨xs, ys, hmore, -, -, r1, r2, hgen⟩ := hx.generic (by omega) (by omega) hy
  obtain ⟨s', hs'⟩ := (C31_mixes env x y a).same
    (C31_mixes env (sampledFrom xs) (some (sampledFrom ys)) a) hs
  obtain ⟨v, hv, hl⟩ := C62_mixes env hcoin hset hcheck henv _ _ hgen a h1 h2 np ns ks hp hseg hpol hk
    htwo p hpp hp5 hpk hb hm hf r1 (fun _ => r2.mono (by push_cast; omega))
    (r2.mono (by push_cast; omega)) s' hs'
  exact ⟨v, C55_mixes env hmore ⟨rfl, rfl, rfl, rfl, rfl, rfl, rfl, .rfl', .rfl', .rfl',
    .rfl', .rfl'⟩ s' s hs' hs v hv, hl⟩

end

namespace Sample

/-- All integers. -/
def allInts : Strategy ℤ := ⟨fun _ => True, fun _ => False⟩

theorem allInts_many (n : ℕ) : Many allInts n :=
  ⟨(List.range n).map fun i : ℕ => (i : ℤ), fun _ _ => trivial,
    List.nodup_range.map fun _ _ h => Int.ofNat_inj.1 h, by simp⟩

/-- Integers are not generic coordinates, so that the other theorems do not apply. -/
example : ¬ GenericCoords allInts none := fun h => by
  have := h ⟨0, 0⟩ ⟨1, 1⟩ ⟨2, 2⟩ ⟨trivial, trivial⟩ ⟨trivial, trivial⟩ ⟨trivial, trivial⟩ (by decide)
    (by decide) (by decide) (by simp [Collinear, area2])
  simp at this

example : ∃ s c, concaveContours env' allInts none = .ok s ∧ s.2.val c := by
  obtain ⟨c, h⟩ := C64_concave_contours env' coins_ok (by simp [env', Env.withFuel]) allInts none 4 none
    le_rfl (by simp) (allInts_many _) (allInts_many _) _ rfl
  exact ⟨_, c, rfl, h⟩

/-- Polygons with three holes and integer coordinates. -/
example : ∃ s v, polygons (env.withFuel 10000) allInts none = .ok s ∧ s.2.val v ∧
    v.holes.length = 3 := by
  obtain ⟨s, hs⟩ : ∃ s, polygons (env.withFuel 10000) allInts none = .ok s := ⟨_, rfl⟩
  obtain ⟨v, h⟩ := C64_polygons (env.withFuel 10000) coins_ok (fun l => List.Perm.refl l) sample_sound
    sample_hullOk allInts none 3 none 0 none 3 none le_rfl le_rfl 3 (by norm_num) (by simp) 23
    (by norm_num) (by norm_num) (by norm_num) (by simp) (by simp) (by simp [Env.withFuel])
    (allInts_many _) (allInts_many _) s hs
  exact ⟨s, v, hs, h⟩

/-- Seven contours with integer coordinates. -/
example : ∃ s v, multicontours (env.withFuel 1000000) allInts none = .ok s ∧ s.2.val v ∧
    v.length = 7 := by
  obtain ⟨s, hs⟩ : ∃ s, multicontours (env.withFuel 1000000) allInts none = .ok s := ⟨_, rfl⟩
  obtain ⟨v, h⟩ := C64_multicontours (env.withFuel 1000000) coins_ok allInts none 2 none 3 none le_rfl 7
    (by simp [SizeIn]) (by simp) 23 (by norm_num) (by norm_num) (by simp [Env.withFuel])
    (allInts_many _) (allInts_many _) s hs
  exact ⟨s, v, hs, h⟩

/-- Two polygons with one hole and one polygon without holes. -/
example : ∃ s v, multipolygons (env.withFuel 1000) allInts none = .ok s ∧ s.2.val v ∧
    v.map (fun g => g.holes.length) = [1, 0, 1] := by
  obtain ⟨s, hs⟩ : ∃ s, multipolygons (env.withFuel 1000) allInts none = .ok s := ⟨_, rfl⟩
  obtain ⟨v, h⟩ := C64_multipolygons (env.withFuel 1000) coins_ok (fun l => List.Perm.refl l) sample_sound
    sample_hullOk allInts none 2 none 3 none 0 none 3 none le_rfl le_rfl le_rfl [1, 0, 1]
    (by simp [SizeIn]) (by simp [SizeIn]) 11 (by norm_num) (by norm_num) (by simp) (by simp) (by simp)
    (by simp [Env.withFuel]) (allInts_many _) (allInts_many _) s hs
  exact ⟨s, v, hs, h⟩

/-- Four points, three segments and two polygons, one of which has a hole. -/
example : ∃ s v, mixes (env.withFuel 1000) allInts none = .ok s ∧ s.2.val v ∧
    (mixPoints v).length = 4 ∧ (mixSegments v).length = 3 ∧
    (mixPolygons v).map (fun g => g.holes.length) = [1, 0] := by
  obtain ⟨s, hs⟩ : ∃ s, mixes (env.withFuel 1000) allInts none = .ok s := ⟨_, rfl⟩
  obtain ⟨v, h⟩ := C64_mixes (env.withFuel 1000) coins_ok (fun l => List.Perm.refl l) sample_sound
    sample_hullOk allInts none {} le_rfl le_rfl 4 3 [1, 0] (by simp [SizeIn]) (by simp [SizeIn])
    (by simp [SizeIn]) (by simp [SizeIn]) (by simp) 11 (by norm_num) (by norm_num) (by simp) (by simp)
    (by simp) (by simp [Env.withFuel]) (allInts_many _) (allInts_many _) s hs
  exact ⟨s, v, hs, h⟩

end Sample
end HG
