import Verif.Props.Corner
import Verif.Props.AxisEdge
import Verif.Props.OneAxisDistinct

/-!
# C74: two vertices of a polygon are topmost, or two are rightmost

Of the points in general position two share the greatest coordinate in one of the axes.  Both are
extreme points of the convex hull, and the border of a polygon has all of these as vertices.
-/

set_option linter.unusedSectionVars false

namespace HG

open Strategy Spec

section
variable {K : Type} [LinearOrder K] [Zero K] [Add K] [_root_.Sub K] [Predicates K]

/-- Two different points of the first list share an ordinate, and none of the second list has a
greater one; or the same for abscissas. -/
def Spec.TwoFarthest (l m : List (Point K)) : Prop :=
  ∃ v ∈ l, ∃ w ∈ l, v ≠ w ∧ (v.y = w.y ∧ (∀ u ∈ m, u.y ≤ v.y) ∨ v.x = w.x ∧ ∀ u ∈ m, u.x ≤ v.x)

/-- The two points with the greatest parabola index. -/
theorem parabola_top {p : ℕ} (hp : p.Prime) (h5 : 5 ≤ p) {s : ℤ} (hs : ¬ (p : ℤ) ∣ s) :
    ∃ i ∈ intRange p, ∃ j ∈ intRange p, i ≠ j ∧ parabola p s i = parabola p s j ∧
      ∀ k ∈ intRange p, parabola p s k ≤ parabola p s i := by
  have hrange : ∀ i, 0 ≤ parabola p s i ∧ parabola p s i < p :=
    fun i => parabola_range p s i (by omega)
  obtain ⟨i, hi, hmax⟩ := Finset.exists_max_image (intRange p).toFinset (parabola p s)
    ⟨0, by rw [List.mem_toFinset, mem_intRange]; omega⟩
  simp only [List.mem_toFinset] at hi hmax
  have hpar0 : parabola p s 0 = 0 := by simp [parabola]
  have hpar1 : 0 < parabola p s 1 := by
    rcases (hrange 1).1.eq_or_lt with e | e
    · exfalso
      have := parabola_dvd p s 1
      rw [← e] at this
      exact hs (by simpa using this)
    · exact e
  have h1 := hmax 1 (by rw [mem_intRange]; omega)
  have hi0 : i ≠ 0 := by rintro rfl; omega
  have hi' := mem_intRange.1 hi
  have hodd : ¬ 2 ∣ p := by
    intro h2
    have := (Nat.prime_dvd_prime_iff_eq Nat.prime_two hp).1 h2
    omega
  have hpi : parabola p s (p - i) = parabola p s i := by
    unfold parabola
    apply Int.ModEq.eq
    refine (Int.modEq_iff_dvd.2 ⟨s * (2 * i - p), ?_⟩)
    ring
  exact ⟨i, hi, p - i, by rw [mem_intRange]; omega, by omega, hpi.symm, hmax⟩

end

section
variable {K : Type} [CommRing K] [LinearOrder K] [IsStrictOrderedRing K]

theorem generalPosition_farthest {x : Strategy K} {y : Option (Strategy K)} {lo : Int}
    {hi : Option Int} (hlo : 3 ≤ lo) {pts : List (Point K)}
    (h : (toGeneralPositionStrategy x y lo hi).val pts) : TwoFarthest pts pts := by
  obtain ⟨p, s, swap, xs, ys, hp, hp5, -, -, hs, hx, hy, -, -, lx, ly, rfl⟩ :=
    generalPosition_val hlo h
  obtain ⟨i, hi, j, hj, hij, e, hmax⟩ := parabola_top hp hp5 hs
  have hi' := mem_intRange.1 hi
  have hj' := mem_intRange.1 hj
  have range : ∀ k, 0 ≤ parabola p s k ∧ parabola p s k < p := fun k =>
    parabola_range p s k (by omega)
  have hmem : ∀ k ∈ intRange p, pointAt xs ys (indexPair swap p s k) ∈
      ((intRange p).map (indexPair swap p s)).map (pointAt xs ys) := fun k hk =>
    List.mem_map_of_mem (List.mem_map_of_mem hk)
  refine ⟨_, hmem i hi, _, hmem j hj, ?_, ?_⟩
  · intro h
    apply hij
    cases swap
    · have := getD_injOn hx (i := i.toNat) (j := j.toNat) (by omega) (by omega)
        (congrArg Point.x h)
      omega
    · have := getD_injOn hy (i := i.toNat) (j := j.toNat) (by omega) (by omega)
        (congrArg Point.y h)
      omega
  · have le : ∀ {l : List K}, l.Pairwise (· < ·) → p ≤ l.length → ∀ k ∈ intRange p,
        l.getD (parabola p s k).toNat 0 ≤ l.getD (parabola p s i).toNat 0 := by
      intro l hl hlen k hk
      have := hmax k hk
      have := range k
      have := range i
      exact getD_monotone hl (by omega) (by omega)
    cases swap
    · left
      refine ⟨?_, ?_⟩
      · change ys.getD (parabola p s i).toNat 0 = ys.getD (parabola p s j).toNat 0
        rw [e]
      · intro u hu
        obtain ⟨q, hq, rfl⟩ := List.mem_map.1 hu
        obtain ⟨k, hk, rfl⟩ := List.mem_map.1 hq
        exact le hy ly k hk
    · right
      refine ⟨?_, ?_⟩
      · change xs.getD (parabola p s i).toNat 0 = xs.getD (parabola p s j).toNat 0
        rw [e]
      · intro u hu
        obtain ⟨q, hq, rfl⟩ := List.mem_map.1 hu
        obtain ⟨k, hk, rfl⟩ := List.mem_map.1 hq
        exact le hx lx k hk

/-! ## The convex hull of a border -/

theorem Spec.InHull.mono {l l' : List (Point K)} (h : ∀ v ∈ l, v ∈ l') {q : Point K}
    (hq : InHull l q) : InHull l' q := fun a b c hc => hq a b c fun v hv => hc v (h v hv)

theorem SC.compress_hull {l : List (Point K)} (h : SC l) {q : Point K} (hq : InHull l q) :
    InHull (compressContour l) q :=
  (compress_ind (Q := fun l => SC l ∧ InHull l q) (l := l)
    (fun _ _ _ hd h0 hs => ⟨hs.1.erase hd h0, hs.1.inHull_erase hd h0 hs.2⟩) ⟨h, hq⟩).2

variable {m : Mesh K} {D : Ref → Prop} {B : List Ref} {P : List (Point K)} {e : Ref} {t : Tri}

/-- All points are in the convex hull of the boundary of the triangulation. -/
theorem Tgl.inHull (h : Tgl m D P t) (nc : ¬ AllCol P) (hB : Bord P m D B)
    (hiff : ∀ e, e ∈ B ↔ HullDart P m D e) {q : Point K} (hq : q ∈ P) :
    InHull (B.map m.org) q := by
  by_cases hn : q ∈ B.map m.org
  · exact inHull_of_mem hn
  intro a b c hc
  by_contra hlt
  push Not at hlt
  obtain ⟨e0, he0, hm0⟩ := exists_greatest B (fun e => a * (m.org e).x + b * (m.org e).y) hB.nonempty
  classical
  obtain ⟨e, he, hm⟩ := exists_greatest
    (B.filter fun e => a * (m.org e).x + b * (m.org e).y = a * (m.org e0).x + b * (m.org e0).y)
    (fun e => a * (m.org e).y - b * (m.org e).x) (by
      intro h0
      have : e0 ∈ B.filter fun e => a * (m.org e).x + b * (m.org e).y =
        a * (m.org e0).x + b * (m.org e0).y := List.mem_filter.2 ⟨he0, by simp⟩
      rw [h0] at this
      cases this)
  obtain ⟨he, hv⟩ := List.mem_filter.1 he
  have hv : a * (m.org e).x + b * (m.org e).y = a * (m.org e0).x + b * (m.org e0).y := by
    simpa using hv
  obtain ⟨g, hg, hge⟩ := hB.pred he
  obtain ⟨f, hf, hef⟩ : ∃ f ∈ B, m.org f = m.org e.opp := by
    refine ⟨_, hB.rfe he, ?_⟩
    exact hB.org (hB.opp (hB.bd e he))
  have ho : m.org e = m.org g.opp := by
    rw [← hge]; exact hB.org (hB.opp (hB.bd g hg))
  have c1 := hull_strict h nc hB hiff hq hn hg
  have c2 := hull_strict h nc hB hiff hq hn he
  have c3 := ((hiff g).1 hg).2 _ (hB.mem (hB.bd f hf))
  have fu := hc (m.org e) (List.mem_map_of_mem he)
  have f1 := hm0 g hg
  have f2 := hm0 f hf
  have t1 := fun h => hm g (List.mem_filter.2 ⟨hg, h⟩)
  have t2 := fun h => hm f (List.mem_filter.2 ⟨hf, h⟩)
  simp only [decide_eq_true_eq] at t1 t2
  rw [← hv] at f1 f2 t1 t2
  rw [hef] at f2 t2 c3
  rw [← ho] at c1 c3
  unfold cross at c1 c2 c3
  generalize m.org g = A at *
  generalize m.org e = U at *
  generalize m.org e.opp = V at *
  set nw := a * (q.x - U.x) + b * (q.y - U.y) with hnw
  have pw : 0 < nw := by rw [hnw]; linarith
  set n1 := a * (U.x - A.x) + b * (U.y - A.y) with hn1
  set n2 := a * (V.x - U.x) + b * (V.y - U.y) with hn2
  have p1 : 0 ≤ n1 := by rw [hn1]; linarith
  have p2 : n2 ≤ 0 := by rw [hn2]; linarith
  have key : nw * ((U.x - A.x) * (V.y - A.y) - (U.y - A.y) * (V.x - A.x)) +
      n1 * ((V.x - U.x) * (q.y - U.y) - (V.y - U.y) * (q.x - U.x)) =
      n2 * ((U.x - A.x) * (q.y - A.y) - (U.y - A.y) * (q.x - A.x)) := by
    rw [hnw, hn1, hn2]; ring
  have z1 : n1 = 0 := by
    rcases p1.eq_or_lt with h | h
    · exact h.symm
    · have k1 := mul_pos h c2
      have k2 := mul_nonneg pw.le c3
      have k3 := mul_nonneg (neg_nonneg.2 p2) c1.le
      nlinarith
  have t3 := t1 (by rw [hn1] at z1; linarith)
  have sq : (a * a + b * b) * ((U.x - A.x) * (q.y - A.y) - (U.y - A.y) * (q.x - A.x)) =
      n1 * (a * (q.y - U.y) - b * (q.x - U.x)) -
        (a * (U.y - A.y) - b * (U.x - A.x)) * nw := by
    rw [hnw, hn1]; ring
  rw [z1, zero_mul, zero_sub] at sq
  have k4 : 0 ≤ (a * (U.y - A.y) - b * (U.x - A.x)) * nw := mul_nonneg (by linarith) pw.le
  have k5 : a * a + b * b ≤ 0 := by
    by_contra hpos
    have := mul_pos (not_le.1 hpos) c1
    linarith
  have ha : a = 0 := by
    have := mul_self_nonneg b
    exact mul_self_eq_zero.1 (le_antisymm (by linarith) (mul_self_nonneg a))
  have hb : b = 0 := by
    have := mul_self_nonneg a
    exact mul_self_eq_zero.1 (le_antisymm (by linarith) (mul_self_nonneg b))
  rw [hnw, ha, hb] at pw
  simp at pw

theorem inHull_map {l : List (Point K)} {v : Point K} (i j : K) (h : InHull l v) :
    InHull (l.map fun p => ⟨i * p.x, j * p.y⟩) ⟨i * v.x, j * v.y⟩ := by
  intro a b c hc
  have := h (a * i) (b * j) c fun q hq => by
    have := hc _ (List.mem_map_of_mem hq)
    dsimp only at this
    linarith
  dsimp only
  linarith

/-- A point of the convex hull that is extreme in the order of one axis, and then in the order of the
other (`i` and `j` are the directions), is one of the points. -/
theorem extreme_mem_dir (k : Bool) {i j : K} (hi : i * i = 1) (hj : j * j = 1) {l : List (Point K)}
    {q : Point K} (h : InHull l q) (hl : ∀ v ∈ l, v = q ∨
      keyOrder k (⟨i * v.x, j * v.y⟩ : Point K) ⟨i * q.x, j * q.y⟩) : q ∈ l := by
  have hm := extreme_mem k (inHull_map i j h) (by
    intro v hv
    obtain ⟨u, hu, rfl⟩ := List.mem_map.1 hv
    rcases hl u hu with rfl | h
    · exact .inl rfl
    · exact .inr h)
  obtain ⟨u, hu, e⟩ := List.mem_map.1 hm
  simp only [Point.mk.injEq] at e
  have e1 : u.x = q.x := by
    have := congrArg (i * ·) e.1
    rwa [← mul_assoc, ← mul_assoc, hi, one_mul, one_mul] at this
  have e2 : u.y = q.y := by
    have := congrArg (j * ·) e.2
    rwa [← mul_assoc, ← mul_assoc, hj, one_mul, one_mul] at this
  have : u = q := by cases u; cases q; simp_all
  exact this ▸ hu

/-- If the convex hull of some of the points contains all of them, then the points that are farthest in one
direction are among these. -/
theorem farthest_sub {pts l : List (Point K)} (h1 : OneAxisDistinct pts) (h2 : TwoFarthest pts pts)
    (hl : ∀ v ∈ l, v ∈ pts) (hh : ∀ v ∈ pts, InHull l v) : TwoFarthest l pts := by
  obtain ⟨v, hv, w, hw, hne, h⟩ := h2
  have one : (1 : K) * 1 = 1 := one_mul 1
  have neg : (-1 : K) * (-1) = 1 := by ring
  rcases h with ⟨e, hmax⟩ | ⟨e, hmax⟩
  · have two : ∀ u ∈ pts, u = v ∨ u = w ∨ u.y < v.y := by
      intro u hu
      rcases (hmax u hu).lt_or_eq with h | h
      · exact .inr (.inr h)
      rcases h1 with ⟨-, h1⟩ | ⟨h1, -⟩
      · rcases h1 u hu v hv w hw h e with h | h | h
        · exact .inl h
        · exact absurd h hne
        · exact .inr (.inl h)
      · exact absurd (h1 v hv w hw e) hne
    have side : ∀ {v w : Point K}, v ∈ pts → v.y = w.y → v.x < w.x →
        (∀ u ∈ pts, u = v ∨ u = w ∨ u.y < v.y) → v ∈ l := by
      intro v w hv e hx two
      refine extreme_mem_dir false neg one (hh v hv) fun u hu => ?_
      unfold keyOrder
      rcases two u (hl u hu) with h | rfl | h
      · exact .inl h
      · right; right; exact ⟨by dsimp only; rw [e], by dsimp only; linarith⟩
      · right; left; dsimp only; linarith
    have side' : ∀ {v w : Point K}, v ∈ pts → v.y = w.y → w.x < v.x →
        (∀ u ∈ pts, u = v ∨ u = w ∨ u.y < v.y) → v ∈ l := by
      intro v w hv e hx two
      refine extreme_mem_dir false one one (hh v hv) fun u hu => ?_
      unfold keyOrder
      rcases two u (hl u hu) with h | rfl | h
      · exact .inl h
      · right; right; exact ⟨by dsimp only; rw [e], by dsimp only; linarith⟩
      · right; left; dsimp only; linarith
    have two' : ∀ u ∈ pts, u = w ∨ u = v ∨ u.y < w.y := fun u hu => by
      rw [← e]; rcases two u hu with h | h | h
      · exact .inr (.inl h)
      · exact .inl h
      · exact .inr (.inr h)
    rcases lt_trichotomy v.x w.x with hx | hx | hx
    · exact ⟨v, side hv e hx two, w, side' hw e.symm hx two', hne, .inl ⟨e, hmax⟩⟩
    · exact absurd (by cases v; cases w; simp_all) hne
    · exact ⟨v, side' hv e hx two, w, side hw e.symm hx two', hne, .inl ⟨e, hmax⟩⟩
  · have two : ∀ u ∈ pts, u = v ∨ u = w ∨ u.x < v.x := by
      intro u hu
      rcases (hmax u hu).lt_or_eq with h | h
      · exact .inr (.inr h)
      rcases h1 with ⟨h1, -⟩ | ⟨-, h1⟩
      · exact absurd (h1 v hv w hw e) hne
      · rcases h1 u hu v hv w hw h e with h | h | h
        · exact .inl h
        · exact absurd h hne
        · exact .inr (.inl h)
    have side : ∀ {v w : Point K}, v ∈ pts → v.x = w.x → v.y < w.y →
        (∀ u ∈ pts, u = v ∨ u = w ∨ u.x < v.x) → v ∈ l := by
      intro v w hv e hx two
      refine extreme_mem_dir true one neg (hh v hv) fun u hu => ?_
      unfold keyOrder
      rcases two u (hl u hu) with h | rfl | h
      · exact .inl h
      · right; right; exact ⟨by dsimp only; rw [e], by dsimp only; linarith⟩
      · right; left; dsimp only; linarith
    have side' : ∀ {v w : Point K}, v ∈ pts → v.x = w.x → w.y < v.y →
        (∀ u ∈ pts, u = v ∨ u = w ∨ u.x < v.x) → v ∈ l := by
      intro v w hv e hx two
      refine extreme_mem_dir true one one (hh v hv) fun u hu => ?_
      unfold keyOrder
      rcases two u (hl u hu) with h | rfl | h
      · exact .inl h
      · right; right; exact ⟨by dsimp only; rw [e], by dsimp only; linarith⟩
      · right; left; dsimp only; linarith
    have two' : ∀ u ∈ pts, u = w ∨ u = v ∨ u.x < w.x := fun u hu => by
      rw [← e]; rcases two u hu with h | h | h
      · exact .inr (.inl h)
      · exact .inl h
      · exact .inr (.inr h)
    rcases lt_trichotomy v.y w.y with hx | hx | hx
    · exact ⟨v, side hv e hx two, w, side' hw e.symm hx two', hne, .inr ⟨e, hmax⟩⟩
    · exact absurd (by cases v; cases w; simp_all) hne
    · exact ⟨v, side' hv e hx two, w, side hw e.symm hx two', hne, .inr ⟨e, hmax⟩⟩

theorem Spec.TwoFarthest.mono {l m m' : List (Point K)} (h : TwoFarthest l m)
    (hs : ∀ p ∈ m', p ∈ m) : TwoFarthest l m' := by
  obtain ⟨v, hv, w, hw, hne, h⟩ := h
  exact ⟨v, hv, w, hw, hne, h.imp (fun h => ⟨h.1, fun u hu => h.2 u (hs u hu)⟩)
    fun h => ⟨h.1, fun u hu => h.2 u (hs u hu)⟩⟩

/-- All drawn points are in the convex hull of the border of a polygon. -/
theorem PolyRun.inHull {env : Env K} {pts : List (Point K)} {hss : List Int} {ch : Nat → Bool}
    {p : Polygon K} (h : PolyRun env pts hss ch p) {q : Point K} (hq : q ∈ pts) :
    InHull p.border.vertices q := by
  obtain ⟨nc, m, t, es, hst, D, m', D', B', hT, hB, hes, -, -, hC, hB', e, -⟩ := h
  rw [e]
  exact hB'.sc.compress_hull ((hT.inHull nc hB hes hq).mono fun v hv => hC.keeps hv)

/-- All points are in the convex hull of the vertex sequence, without slanted collinear triples. -/
theorem toVertexSequence_inHull {o : EdgeOrder} {fuel : Nat} {coins : Nat → List Nat}
    {pts : List (Point K)} {size : Int} {vs : List (Point K)} (hn : pts.Nodup)
    (hc : (coins pts.length).sum = pts.length) (hg : NoThree pts)
    (h : toVertexSequence fuel coins o pts size = .ok vs) (h3 : 3 ≤ vs.length) {q : Point K}
    (hq : q ∈ pts) : InHull vs q := by
  simp only [toVertexSequence, exc_bind_ok] at h
  obtain ⟨⟨m, t⟩, hd, es, hes, h⟩ := h
  unfold toVertexSequence' at h
  dsimp only at h
  obtain ⟨D, hT⟩ := delaunay_tgl hn hc hd
  split at h
  · rename_i hs
    simp only [exc_pure_ok] at h
    subst h
    omega
  rename_i hs
  have nc : ¬ AllCol pts := by
    intro hcol
    obtain ⟨g, ht⟩ := Good.delaunay hd
    have hE := g.boundaryEdges ht hes
    have hall : ∀ v ∈ es.map m.start, v ∈ pts := by
      intro v hv
      obtain ⟨e, he, rfl⟩ := List.mem_map.1 hv
      exact g.start (hE e he)
    have := compressContour_col (l := es.map m.start)
      (fun x hx y hy z hz => hcol x (hall x hx) y (hall y hy) z (hall z hz))
    omega
  obtain ⟨hB, hiff, hhead⟩ := hT.bord nc hes
  simp only [exc_bind_ok] at h
  obtain ⟨b, hb, s, hl, ec, hec, eb, heb, s', hl', h⟩ := h
  have nd : es.Nodup := List.Nodup.of_map _ hB.nodup
  have hinv : MInv pts { mesh := m, tri := t, boundaryPoints := (es.map m.start).dedup
                         candidates := es, buckets := b
                         left := size - (compressContour (es.map m.start)).length } D es := by
    refine ⟨hB, hhead, fun f hf => ?_, fun c hc => hc, nd, BOk.mouths (fun c hc => hc) nd hb⟩
    dsimp only
    rw [List.mem_dedup]
    exact List.mem_map_of_mem hf
  obtain ⟨D', B', hI, hK⟩ := hinv.loop_keeps _ hl
  have same : s'.mesh = s.mesh ∧ s'.tri = s.tri := by
    split at hec
    · have := hI.bord.walk hI.head hec
      subst this
      exact hI.bord.no_ears hg heb hl'
    · rename_i hleft
      simp only [exc_pure_ok] at hec
      subst hec
      rcases fuel with _ | fuel
      · simp [earLoop, exc_throw_ok] at hl'
      unfold earLoop at hl'
      rw [if_neg hleft] at hl'
      simp only [exc_pure_ok] at hl'
      subst hl'; exact ⟨rfl, rfl⟩
  simp only [triToBorderVertices, exc_bind_ok, exc_pure_ok] at h
  obtain ⟨es', hes', rfl⟩ := h
  rw [same.1, same.2] at hes'
  have hw := hI.bord.walk hI.head hes'
  subst hw
  rw [same.1]
  exact hI.bord.sc.compress_hull ((hT.inHull nc hB hiff hq).mono fun v hv => hK v hv)

/-! ## The strategies -/

/-- C74: a concave contour that is not a star contour has two topmost or two rightmost vertices,
unless drawn points are on a slanted line. -/
theorem C74_concave_contours (env : Env K) (hcoin : Sums env.coinChange) (x : Strategy K)
    (y : Option (Strategy K)) (hgen : GenericCoords x y) (lo : Int) (hi : Option Int)
    (s : Made (Contour K)) (hs : concaveContours env x y lo hi = .ok s) (c : Contour K)
    (h : s.2.val c) :
    (∃ r, starContours env x y (max lo 4) hi = .ok r ∧ r.2.val c) ∨
      TwoFarthest c.vertices c.vertices := by
  simp only [concaveContours, exc_bind_ok, exc_pure_ok, validate_ok] at hs
  obtain ⟨w, ⟨hb, -⟩, rfl⟩ := hs
  obtain ⟨vs, ⟨h, -⟩, rfl⟩ := h
  obtain ⟨b1, b2⟩ := okBounds_of hb
  have h3 : 3 ≤ max lo 4 := by have := le_max_right lo 4; omega
  rcases h with h | ⟨h, hsz⟩
  · exact .inl ⟨_, starContours_ok h3 b2, vs, h, rfl⟩
  · right
    rw [val_mapE] at h
    obtain ⟨⟨pts, n⟩, ⟨pts', hp, rfl, -⟩, h⟩ := h
    have hl : 3 ≤ vs.length := by
      have := ((hasValidSize_iff _ _ _).1 hsz).1
      omega
    obtain ⟨hn, hpr, -, -⟩ := C35_distinct x y _ _ h3 pts hp
    have hm := toVertexSequence_mem h
    exact (farthest_sub (generalPosition_oneAxis h3 hp) (generalPosition_farthest h3 hp) hm
      fun q hq => toVertexSequence_inHull hn (hcoin _ hpr.two_le)
        (generalPosition_noThree hgen h3 hp) h hl hq).mono hm

/-- C74: two border vertices of a polygon are topmost, or two are rightmost. -/
theorem C74_polygons (env : Env K) (hcoin : Sums env.coinChange)
    (hset : ∀ l, (env.setOrder l).Perm l) (x : Strategy K)
    (y : Option (Strategy K)) (lo : Int) (hi : Option Int) (nlo : Int) (nhi : Option Int)
    (hlo : Int) (hhi : Option Int) (s : Made (Polygon K))
    (hs : polygons env x y lo hi nlo nhi hlo hhi = .ok s) (p : Polygon K) (h : s.2.val p) :
    TwoFarthest p.border.vertices (polygonVertices p) := by
  simp only [polygons, exc_bind_ok, exc_pure_ok, validate_ok] at hs
  obtain ⟨w, -, w', -, w'', -, rfl⟩ := hs
  have h1 : 3 ≤ max lo 3 := le_max_right _ _
  have h2 : 0 ≤ max nlo 0 := le_max_right _ _
  have h3 : 3 ≤ max hlo 3 := le_max_right _ _
  obtain ⟨h, -⟩ := h
  simp only [val_bind', val_filter] at h
  obtain ⟨pts, ⟨hp, -⟩, h⟩ := h
  simp only [pointsToPolygonStrategy, val_mapE] at h
  obtain ⟨r, -, h⟩ := h
  have h3' : 3 ≤ max lo 3 + max hlo 3 * max nlo 0 := by nlinarith
  obtain ⟨hn, hpr, -, -⟩ := C35_distinct x y _ _ h3' pts hp
  obtain ⟨m1, m2⟩ := toPolygon_mem hset h
  refine (farthest_sub (generalPosition_oneAxis h3' hp) (generalPosition_farthest h3' hp) m1
    fun q hq => (toPolygon_run hn (hcoin _ hpr.two_le) h).inHull hq).mono fun w hw => ?_
  rcases mem_polygonVertices.1 hw with hw | ⟨c, hc, hw⟩
  · exact m1 w hw
  · exact m2 c hc w hw

/-- C74: so for the polygons of a multipolygon, unless the multipolygon has no holes and its borders
are a multicontour. -/
theorem C74_multipolygons (env : Env K) (hcoin : Sums env.coinChange)
    (hset : ∀ l, (env.setOrder l).Perm l) (x : Strategy K) (y : Option (Strategy K)) (lo : Int)
    (hi : Option Int) (blo : Int) (bhi : Option Int) (nlo : Int) (h0 : 0 ≤ nlo) (nhi : Option Int)
    (hlo : Int) (hhi : Option Int) (s : Made (List (Polygon K)))
    (hs : multipolygons env x y lo hi blo bhi nlo nhi hlo hhi = .ok s) (l : List (Polygon K))
    (h : s.2.val l) :
    (∀ p ∈ l, TwoFarthest p.border.vertices (polygonVertices p)) ∨
    (nlo = 0 ∧ (∀ p ∈ l, p.holes = []) ∧
      ∃ t, multicontours env x y lo hi blo bhi = .ok t ∧ t.2.val (l.map Polygon.border)) := by
  rcases C57_multipolygons env x y lo hi blo bhi nlo h0 nhi hlo hhi s hs l h with ⟨t, ht, hp⟩ | h
  · exact .inl fun p hm => C74_polygons env hcoin hset x y _ _ _ _ _ _ t ht p (hp p hm)
  · exact .inr h

/-- C74: so for the polygons of a mix. -/
theorem C74_mixes (env : Env K) (hcoin : Sums env.coinChange)
    (hset : ∀ l, (env.setOrder l).Perm l) (x : Strategy K) (y : Option (Strategy K)) (a : MixArgs)
    (s : Made (Mix K)) (hs : mixes env x y a = .ok s) (g : Mix K) (h : s.2.val g) :
    ∀ p ∈ mixPolygons g, TwoFarthest p.border.vertices (polygonVertices p) := by
  obtain ⟨-, -, t, ht, hp⟩ := C57_mixes env x y a s hs g h
  exact fun p hm => C74_polygons env hcoin hset x y _ _ _ _ _ _ t ht p (hp p hm)

/-- C74: a polygon with a triangular border has the vertices `(a, b)`, `(c, e)` and `(d, e)`, or
`(a, b)`, `(e, c)` and `(e, d)`, with the first of them to the left of and below the other two. -/
theorem C74_triangles (env : Env K) (hcoin : Sums env.coinChange)
    (hset : ∀ l, (env.setOrder l).Perm l) (x : Strategy K)
    (y : Option (Strategy K)) (lo : Int) (hi : Option Int) (nlo : Int) (nhi : Option Int)
    (hlo : Int) (hhi : Option Int) (s : Made (Polygon K))
    (hs : polygons env x y lo hi nlo nhi hlo hhi = .ok s) (p : Polygon K) (h : s.2.val p)
    (h3 : p.border.vertices.length = 3) :
    ∃ a b c d e : K,
      (p.border.vertices.Perm [⟨a, b⟩, ⟨c, e⟩, ⟨d, e⟩] ∧ a < c ∧ c < d ∧ b < e) ∨
      (p.border.vertices.Perm [⟨a, b⟩, ⟨e, c⟩, ⟨e, d⟩] ∧ b < c ∧ c < d ∧ a < e) := by
  obtain ⟨q, hq, hqc⟩ := C73_polygons env hcoin hset x y _ _ _ _ _ _ s hs p h
  obtain ⟨v, hv, w, hw, hne, hf⟩ := C74_polygons env hcoin hset x y _ _ _ _ _ _ s hs p h
  have nd := (C47_polygon_border env hcoin x y _ _ _ _ _ _ s hs p h).nodup
  have mem : ∀ u ∈ p.border.vertices, u ∈ polygonVertices p := fun u hu =>
    mem_polygonVertices.2 (.inl hu)
  -- both are different from the corner
  have cv : ∀ u ∈ p.border.vertices, u ≠ q → q.x < u.x ∧ q.y < u.y := fun u hu hne' =>
    (hqc u (mem u hu)).resolve_left hne'
  have perm : ∀ v w : Point K, v ∈ p.border.vertices → w ∈ p.border.vertices → q ≠ v → q ≠ w →
      v ≠ w → p.border.vertices.Perm [q, v, w] := by
    intro v w hv hw h1 h2 h3'
    refine ((List.subperm_of_subset (l₁ := [q, v, w]) (by simp [h1, h2, h3']) ?_).perm_of_length_le
      (by simp [h3])).symm
    intro u hu
    simp only [List.mem_cons, List.not_mem_nil, or_false] at hu
    rcases hu with rfl | rfl | rfl <;> assumption
  have nq : q ≠ v ∧ q ≠ w := by
    constructor
    · rintro rfl
      obtain ⟨a1, a2⟩ := cv w hw (Ne.symm hne)
      rcases hf with ⟨h, -⟩ | ⟨h, -⟩
      · exact a2.ne h
      · exact a1.ne h
    · rintro rfl
      obtain ⟨a1, a2⟩ := cv v hv hne
      rcases hf with ⟨h, -⟩ | ⟨h, -⟩
      · exact a2.ne h.symm
      · exact a1.ne h.symm
  obtain ⟨v1, v2⟩ := cv v hv nq.1.symm
  obtain ⟨w1, w2⟩ := cv w hw nq.2.symm
  obtain ⟨qx, qy⟩ := q
  obtain ⟨vx, vy⟩ := v
  obtain ⟨wx, wy⟩ := w
  rcases hf with ⟨h, -⟩ | ⟨h, -⟩
  · dsimp only at h
    subst h
    rcases lt_trichotomy vx wx with hx | hx | hx
    · exact ⟨qx, qy, vx, wx, vy, .inl ⟨perm _ _ hv hw nq.1 nq.2 hne, v1, hx, v2⟩⟩
    · exact absurd (by rw [hx]) hne
    · exact ⟨qx, qy, wx, vx, vy, .inl ⟨perm _ _ hw hv nq.2 nq.1 (Ne.symm hne), w1, hx, v2⟩⟩
  · dsimp only at h
    subst h
    rcases lt_trichotomy vy wy with hx | hx | hx
    · exact ⟨qx, qy, vy, wy, vx, .inr ⟨perm _ _ hv hw nq.1 nq.2 hne, v2, hx, v1⟩⟩
    · exact absurd (by rw [hx]) hne
    · exact ⟨qx, qy, wy, vy, vx, .inr ⟨perm _ _ hw hv nq.2 nq.1 (Ne.symm hne), w2, hx, v1⟩⟩

end

section
open Sample

/-- Non-vacuity for C74: a polygon with a hole and a concave contour. -/
example : TwoFarthest (K := ℤ) [⟨0, 0⟩, ⟨6, 1⟩, ⟨5, 4⟩, ⟨2, 4⟩]
    [⟨0, 0⟩, ⟨6, 1⟩, ⟨5, 4⟩, ⟨2, 4⟩, ⟨1, 1⟩, ⟨3, 2⟩, ⟨4, 2⟩] := by
  obtain ⟨s, hs, h⟩ := sample_polygons
  exact C74_polygons env coins_sums (fun l => List.Perm.refl l) _ _ _ _ _ _ _ _ s hs _ h

example : (∃ r, starContours env (sampledFrom genXs) (some (sampledFrom genYs)) (max 4 4) none =
      .ok r ∧
      r.2.val ⟨[⟨0, 1⟩, ⟨6, 10⟩, ⟨4, 100⟩, ⟨5, 10000⟩, ⟨2, 10000⟩, ⟨3, 100⟩, ⟨1, 10⟩]⟩) ∨
    TwoFarthest (K := ℤ) [⟨0, 1⟩, ⟨6, 10⟩, ⟨4, 100⟩, ⟨5, 10000⟩, ⟨2, 10000⟩, ⟨3, 100⟩, ⟨1, 10⟩]
      [⟨0, 1⟩, ⟨6, 10⟩, ⟨4, 100⟩, ⟨5, 10000⟩, ⟨2, 10000⟩, ⟨3, 100⟩, ⟨1, 10⟩] := by
  obtain ⟨s, hs, h⟩ := sample_generic_contour
  exact C74_concave_contours env coins_sums _ _ gen_generic _ _ s hs _ h

/-- Five points with a triangular convex hull. -/
def Sample.peak : List (Point ℤ) := [⟨0, 0⟩, ⟨1, 100⟩, ⟨2, 90⟩, ⟨3, 90⟩, ⟨4, 100⟩]

theorem sample_triangle : ∃ s, polygons env (sampledFrom [0, 1, 2, 3, 4])
      (some (sampledFrom [0, 90, 91, 92, 100])) = .ok s ∧
    s.2.val ⟨⟨[⟨0, 0⟩, ⟨4, 100⟩, ⟨1, 100⟩]⟩, []⟩ := by
  refine ⟨_, rfl, ⟨peak, ⟨?_, by decide +kernel⟩, ?_⟩, by decide⟩
  · simp only [toGeneralPositionStrategy, val_bind, val_ofExcept, val_prod, val_uniqueLists]
    refine ⟨5, by decide +kernel, ([0, 1, 2, 3, 4], [0, 90, 91, 92, 100]),
      ⟨⟨fun a ha => ha, by decide, by decide, trivial⟩, ⟨fun a ha => ha, by decide, by decide,
        trivial⟩⟩, ?_⟩
    simp only [coordinatePairToPoints, val_bind, val_ofExcept]
    refine ⟨5, by decide +kernel, Or.inl ?_⟩
    simp only [val_mapE, val_bind', val_integersFrom, val_integers]
    exact ⟨4, ⟨0, le_refl _, by decide, by decide⟩, by decide +kernel⟩
  · simp only [pointsToPolygonStrategy, val_mapE, val_prod]
    refine ⟨(3, [], fun _ => true), ⟨by simp only [val_integers]; decide +kernel, ?_, trivial⟩,
      by decide +kernel⟩
    have h3 : (peak.length : Int) - ((toMaxConvexHull peak).length : Nat) = 2 := by
      decide +kernel
    simp only [toHoleSizes, h3]
    rw [if_neg (by decide)]
    simp

/-- C74 applied to a triangle. -/
example : ∃ a b c d e : ℤ,
    ([⟨0, 0⟩, ⟨4, 100⟩, ⟨1, 100⟩] : List (Point ℤ)).Perm [⟨a, b⟩, ⟨c, e⟩, ⟨d, e⟩] ∧ a < c ∧ c < d ∧
      b < e ∨
    ([⟨0, 0⟩, ⟨4, 100⟩, ⟨1, 100⟩] : List (Point ℤ)).Perm [⟨a, b⟩, ⟨e, c⟩, ⟨e, d⟩] ∧ b < c ∧ c < d ∧
      a < e := by
  obtain ⟨s, hs, h⟩ := sample_triangle
  exact C74_triangles env coins_sums (fun l => List.Perm.refl l) _ _ _ _ _ _ _ _ s hs _ h rfl

/-- A triangle without horizontal and vertical edges is never generated as a polygon. -/
example (x : Strategy ℤ) (y : Option (Strategy ℤ)) (s : Made (Polygon ℤ))
    (hs : polygons env x y = .ok s) : ¬ s.2.val ⟨⟨[⟨0, 0⟩, ⟨2, 1⟩, ⟨1, 2⟩]⟩, []⟩ := by
  intro h
  have := C74_polygons env coins_sums (fun l => List.Perm.refl l) _ _ _ _ _ _ _ _ s hs _ h
  revert this
  unfold TwoFarthest
  decide

end
end HG
