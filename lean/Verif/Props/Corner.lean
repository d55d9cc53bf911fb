import Verif.Delaunay.VertexSeq
import Verif.Props.Generic
import Verif.Props.StarConvex
import Verif.Props.Parts
import Verif.Props.GenericSamples
import Verif.Props.RowSamples

/-!
# C73: borders of polygons have a vertex in the lower left corner of their bounding box

The points in general position have the indices `i` and `scale * i² mod p`, so the point with the
index zero has the least coordinate in both axes.  It is the first point of the triangulation and never
leaves the border.
-/

set_option linter.unusedSectionVars false

namespace HG

open Strategy Spec

section
variable {K : Type} [LinearOrder K] [Zero K] [Add K] [_root_.Sub K] [Predicates K]

/-- One of the first points is to the left of and below all other of the second points: it is in the
lower left corner of their bounding box and no other point is on the left or the lower side of the box. -/
def Spec.HasCorner (l m : List (Point K)) : Prop :=
  ∃ v ∈ l, ∀ w ∈ m, w = v ∨ v.x < w.x ∧ v.y < w.y

theorem corner_le {v : Point K} {m : List (Point K)}
    (h : ∀ w ∈ m, w = v ∨ v.x < w.x ∧ v.y < w.y) : ∀ w ∈ m, v.x ≤ w.x ∧ v.y ≤ w.y := by
  intro w hw
  rcases h w hw with rfl | ⟨h1, h2⟩
  · exact ⟨le_rfl, le_rfl⟩
  · exact ⟨h1.le, h2.le⟩

theorem getD_zero_lt {l : List K} (h : l.Pairwise (· < ·)) {i : ℕ} (h0 : 0 < i) (hi : i < l.length) :
    l.getD 0 0 < l.getD i 0 := by
  rw [List.getD_eq_getElem _ _ (by omega), List.getD_eq_getElem _ _ hi]
  exact List.pairwise_iff_getElem.1 h 0 i (by omega) hi h0

/-- The drawn points have the corner of their bounding box among them. -/
theorem generalPosition_corner {x : Strategy K} {y : Option (Strategy K)} {lo : Int}
    {hi : Option Int} (hlo : 3 ≤ lo) {pts : List (Point K)}
    (h : (toGeneralPositionStrategy x y lo hi).val pts) : HasCorner pts pts := by
  obtain ⟨p, s, swap, xs, ys, hp, hp5, -, -, hs, hx, hy, -, -, lx, ly, rfl⟩ :=
    generalPosition_val hlo h
  have range : ∀ i ∈ intRange p, i = 0 ∨ 0 < (indexPair swap p s i).1.toNat ∧
      (indexPair swap p s i).1.toNat < xs.length ∧ 0 < (indexPair swap p s i).2.toNat ∧
      (indexPair swap p s i).2.toNat < ys.length := by
    intro i hi
    rw [mem_intRange] at hi
    rcases eq_or_ne i 0 with h0 | h0
    · exact .inl h0
    · right
      have h1 : 0 ≤ parabola p s i := Int.emod_nonneg _ (by omega)
      have h2 : parabola p s i < p := Int.emod_lt_of_pos _ (by omega)
      have h3 : parabola p s i ≠ 0 := by
        intro h4
        have h5 : (p : ℤ) ∣ s * (i * i) := Int.dvd_of_emod_eq_zero h4
        have hpz : Prime (p : ℤ) := Nat.prime_iff_prime_int.1 hp
        have h6 : (p : ℤ) ∣ i := by
          rcases hpz.dvd_or_dvd h5 with h | h
          · exact absurd h hs
          · rcases hpz.dvd_or_dvd h with h | h <;> exact h
        have := Int.le_of_dvd (by omega) h6
        omega
      unfold indexPair
      split <;> refine ⟨?_, ?_, ?_, ?_⟩ <;> dsimp only <;> omega
  have zero : indexPair swap p s 0 = (0, 0) := by
    unfold indexPair parabola
    simp
  refine ⟨pointAt xs ys (0, 0), ?_, ?_⟩
  · refine List.mem_map.2 ⟨_, List.mem_map.2 ⟨0, ?_, zero⟩, rfl⟩
    rw [mem_intRange]; omega
  · intro w hw
    obtain ⟨q, hq, rfl⟩ := List.mem_map.1 hw
    obtain ⟨i, hi, rfl⟩ := List.mem_map.1 hq
    rcases range i hi with rfl | ⟨h1, h2, h3, h4⟩
    · exact .inl (by rw [zero])
    · exact .inr ⟨getD_zero_lt hx h1 h2, getD_zero_lt hy h3 h4⟩

end

section
variable {K : Type} [CommRing K] [LinearOrder K] [IsStrictOrderedRing K]

/-! ## Vertices that stay on the border -/

/-- Removing a vertex on the line of its neighbours keeps the convex hull of a simple contour. -/
theorem SC.inHull_erase {l : List (Point K)} (h : SC l) {d : Nat} (hd : d < l.length)
    (h0 : cross (cyc l (d + (l.length - 1))) (cyc l d) (cyc l (d + 1)) = 0) {q : Point K}
    (hq : InHull l q) : InHull (l.eraseIdx d) q := by
  have h3 := h.three
  have keep : ∀ i, i % l.length ≠ d → cyc l i ∈ l.eraseIdx d := by
    intro i hi
    have hlt : i % l.length < l.length := Nat.mod_lt _ (by omega)
    unfold cyc
    rw [List.getD_eq_getElem _ _ hlt]
    exact List.mem_eraseIdx_iff_getElem.2 ⟨_, hlt, hi, rfl⟩
  have hin := h.straight h0
  have n1 : (d + (l.length - 1)) % l.length ≠ d := by
    intro e
    rcases Nat.eq_zero_or_pos d with hz | hz
    · subst hz
      rw [Nat.zero_add, Nat.mod_eq_of_lt (by omega)] at e; omega
    · rw [show d + (l.length - 1) = (d - 1) + l.length by omega, Nat.add_mod_right,
        Nat.mod_eq_of_lt (by omega)] at e
      omega
  have n2 : (d + 1) % l.length ≠ d := by
    intro e
    rcases Nat.lt_or_ge (d + 1) l.length with hz | hz
    · rw [Nat.mod_eq_of_lt hz] at e; omega
    · rw [show d + 1 = l.length by omega, Nat.mod_self] at e; omega
  intro a b c hc
  refine hq a b c fun v hv => ?_
  obtain ⟨j, hj, rfl⟩ := List.getElem_of_mem hv
  by_cases hjd : j = d
  · have e : l[j] = cyc l d := by
      rw [cyc_lt hd, List.getD_eq_getElem _ _ hd]; simp [hjd]
    rw [e]
    have u1 := hc _ (keep _ n1)
    have u2 := hc _ (keep _ n2)
    refine inHull_of_onSeg (inside_onSeg hin) a b c fun w hw => ?_
    simp only [List.mem_cons, List.not_mem_nil, or_false] at hw
    rcases hw with rfl | rfl
    · exact u1
    · exact u2
  · exact hc _ (List.mem_eraseIdx_iff_getElem.2 ⟨j, hj, hjd, rfl⟩)

/-- Compression keeps the corner of the bounding box. -/
theorem SC.compress_corner {l : List (Point K)} (h : SC l) {q : Point K} (hq : q ∈ l)
    (hc : ∀ w ∈ l, q.x ≤ w.x ∧ q.y ≤ w.y) : q ∈ compressContour l := by
  have key := compress_ind (Q := fun l => SC l ∧ InHull l q) (l := l)
    (fun l d h3 hd h0 hs => ⟨hs.1.erase hd h0, hs.1.inHull_erase hd h0 hs.2⟩)
    ⟨h, inHull_of_mem hq⟩
  refine extreme_mem' true key.2 fun v hv => ?_
  obtain ⟨h1, h2⟩ := hc v ((compressContour_sublist l).subset hv)
  rcases h1.lt_or_eq with h1 | h1
  · right; unfold keyOrder; rw [if_pos rfl]; exact .inl h1
  · rcases h2.lt_or_eq with h2 | h2
    · right; unfold keyOrder; rw [if_pos rfl]; exact .inr ⟨h1, h2⟩
    · left; cases v; cases q; simp_all

variable {m : Mesh K} {D : Ref → Prop} {B : List Ref} {P : List (Point K)} {e : Ref}

theorem Bord.mouth_keeps (h : Bord P m D B) (he : e ∈ B) {q : Point K} (hq : q ∈ B.map m.org) :
    q ∈ (mouthBorder m B e).map m.org := by
  obtain ⟨f, hf, rfl⟩ := List.mem_map.1 hq
  by_cases hfe : f = e
  · subst hfe
    exact List.mem_map.2 ⟨m.next f, (mem_mouthBorder he).2 (.inr (.inl rfl)), h.org (h.bd f hf)⟩
  · exact List.mem_map.2 ⟨f, (mem_mouthBorder he).2 (.inl ⟨hf, hfe⟩), rfl⟩

theorem Carved.keeps {env : Env K} {he : List (Segment K)} {bp : List (Point K)} {m₀ : Mesh K}
    {D₀ : Ref → Prop} {B₀ : List Ref} (h : Carved env he bp P m₀ D₀ B₀ m D B) {q : Point K}
    (hq : q ∈ B₀.map m₀.org) : q ∈ B.map m.org := by
  induction h with
  | refl => exact hq
  | step _ hb hm _ _ _ ih => exact hb.mouth_keeps hm.mem ih

/-- The corner of the bounding box is the first point of the triangulation. -/
theorem Tgl.corner {t : Tri} (h : Tgl m D P t) {q : Point K} (hq : q ∈ P)
    (hc : ∀ w ∈ P, q.x ≤ w.x ∧ q.y ≤ w.y) : m.org t.leftSide = q := by
  have h1 := (leB_iff _ _).1 (h.lmin q hq)
  obtain ⟨h2, h3⟩ := hc _ (h.mem h.dl)
  generalize m.org t.leftSide = r at *
  cases r; cases q
  simp only [Point.mk.injEq]
  dsimp only at h1 h2 h3
  rcases h1 with h1 | ⟨h1, h4⟩
  · exact absurd h1 (not_lt.2 h2)
  · exact ⟨h1, le_antisymm h4 h3⟩

theorem PolyRun.corner {env : Env K} {pts : List (Point K)} {hss : List Int} {ch : Nat → Bool}
    {p : Polygon K} (h : PolyRun env pts hss ch p) {q : Point K} (hq : q ∈ pts)
    (hc : ∀ w ∈ pts, q.x ≤ w.x ∧ q.y ≤ w.y) : q ∈ p.border.vertices := by
  obtain ⟨-, m, t, es, hst, D, m', D', B', hT, hB, hes, -, -, hC, hB', e, -⟩ := h
  have h0 : t.leftSide ∈ es := (hes _).2 ⟨hT.dl, hT.lhull⟩
  have h1 : q ∈ es.map m.org := List.mem_map.2 ⟨_, h0, hT.corner hq hc⟩
  rw [e]
  refine hB'.sc.compress_corner (hC.keeps h1) fun w hw => ?_
  obtain ⟨f, hf, rfl⟩ := List.mem_map.1 hw
  exact hc _ (hB'.mem (hB'.bd f hf))

/-! ## The loop of vertex sequences -/

theorem MInv.flip_org {s : MouthState K} (h : MInv P s D B) (he : e ∈ B)
    (hn : s.mesh.stop (s.mesh.rfs (s.mesh.lfe e)) ∉ s.boundaryPoints) {f : Ref} (hf : f ∈ B) :
    (s.mesh.flip (s.mesh.lfe e)).org f = s.mesh.org f := by
  obtain ⟨-, d2, d3⟩ := h.bord.diagonal he h.pts hn
  exact flip_org_of_ne (fun hh => d2 (hh ▸ hf)) (fun hh => d3 (hh ▸ hf))

theorem MInv.neg_org {inner : Nat} (n : Nat) {s s' : MouthState K} {r : Option (Ref × Int)}
    (hs : MInv P s D B) (h : mouthLoopNeg inner n s = .ok (s', r)) :
    ∀ f ∈ B, s'.mesh.org f = s.mesh.org f := by
  induction n generalizing s with
  | zero =>
    simp only [mouthLoopNeg, exc_pure_ok, Prod.mk.injEq] at h
    obtain ⟨rfl, rfl⟩ := h
    exact fun _ _ => rfl
  | succ n ih =>
    unfold mouthLoopNeg at h
    split at h
    · simp only [exc_throw_ok] at h
    · rename_i c rest hp
      obtain ⟨hc, hcv, hs1⟩ := hs.pop hp
      dsimp only at h
      split at h
      · simp [exc_throw_ok, exc_bind_ok] at h
      simp only [exc_bind_ok] at h
      obtain ⟨b, hb, h⟩ := h
      split at h
      · split at h
        · rename_i hq
          simp only [exc_pure_ok, Prod.mk.injEq] at h
          obtain ⟨rfl, rfl⟩ := h
          exact fun f hf => hs1.flip_org hc hq.1 hf
        · simp only [exc_bind_ok] at h
          obtain ⟨cs, hcs, h⟩ := h
          obtain ⟨-, rfl⟩ := removeEdge_eq hcs
          exact ih (s := { s with buckets := s.buckets.set 0 rest, candidates := s.candidates.filter (· ≠ c) })
            ⟨hs1.bord, hs1.head, hs1.pts, fun c hc => hs1.cand c (List.mem_of_mem_filter hc),
              hs1.candNodup.filter _, hs1.bok⟩ h
      · exact ih (s := { s with buckets := s.buckets.set 0 rest }) hs1 h

theorem MInv.pos_org {inner target : Nat} (n : Nat) {s s' : MouthState K} {r : Option (Ref × Int)}
    (hs : MInv P s D B) (h : mouthLoopPos inner target n s = .ok (s', r)) :
    ∀ f ∈ B, s'.mesh.org f = s.mesh.org f := by
  induction n generalizing s with
  | zero =>
    simp only [mouthLoopPos, exc_pure_ok, Prod.mk.injEq] at h
    obtain ⟨rfl, rfl⟩ := h
    exact fun _ _ => rfl
  | succ n ih =>
    unfold mouthLoopPos at h
    split at h
    · simp only [exc_throw_ok] at h
    · rename_i c rest hp
      obtain ⟨hc, hcv, hs1⟩ := hs.pop hp
      simp only [exc_bind_ok] at h
      obtain ⟨b, hb, h⟩ := h
      split at h
      · simp only [exc_bind_ok] at h
        obtain ⟨cs, hcs, h⟩ := h
        obtain ⟨-, rfl⟩ := removeEdge_eq hcs
        exact ih (s := { s with buckets := s.buckets.set (target + 1) rest, candidates := s.candidates.filter (· ≠ c) })
          ⟨hs1.bord, hs1.head, hs1.pts, fun c hc => hs1.cand c (List.mem_of_mem_filter hc),
            hs1.candNodup.filter _, hs1.bok⟩ h
      · rename_i hq
        obtain ⟨s2, hs2⟩ : ∃ s2, s2 = (if b then { s with buckets := s.buckets.set (target + 1) rest }
          else { s with buckets := s.buckets.set (target + 1) rest, mesh := s.mesh.flip (s.mesh.lfe c) } :
            MouthState K) := ⟨_, rfl⟩
        have hI : MInv P s2 D B ∧ c ∉ s2.buckets.vals ∧ ∀ f ∈ B, s2.mesh.org f = s.mesh.org f := by
          rw [hs2]
          split
          · exact ⟨hs1, hcv, fun _ _ => rfl⟩
          · rename_i hb0
            have hq' : s.mesh.stop (s.mesh.rfs (s.mesh.lfe c)) ∉ s.boundaryPoints ∧
                isConvexQuadDiagonal s.mesh (s.mesh.lfe c) = true := by
              by_contra hcon
              exact hq ⟨by simpa using hb0, hcon⟩
            exact ⟨hs1.flip hc hq'.1 hq'.2, hcv, fun f hf => hs1.flip_org hc hq'.1 hf⟩
        rw [← hs2] at h
        split at h
        · simp only [exc_pure_ok, Prod.mk.injEq] at h
          obtain ⟨rfl, rfl⟩ := h
          exact hI.2.2
        · simp only [exc_bind_ok] at h
          obtain ⟨b', hb', h⟩ := h
          obtain ⟨k1, -⟩ := hI.1.bok.add hc hI.2.1 hb'
          have := ih (s := { s2 with buckets := b' })
            ⟨hI.1.bord, hI.1.head, hI.1.pts, hI.1.cand, hI.1.candNodup, k1⟩ h
          exact fun f hf => (this f hf).trans (hI.2.2 f hf)

theorem mouthDelete_org {inner : Nat} {s s' : MouthState K} {c : Ref} {a b : Int}
    (h : mouthDelete inner s c a b = .ok s') : s'.mesh.org = s.mesh.org := by
  unfold mouthDelete at h
  split at h
  · simp [exc_throw_ok, exc_bind_ok] at h
  simp only [exc_bind_ok] at h
  obtain ⟨mo, hmo, h⟩ := h
  split at h
  swap
  · simp [exc_throw_ok, exc_bind_ok] at h
  simp only [exc_bind_ok, exc_pure_ok] at h
  obtain ⟨cs, hcs, ⟨m, t⟩, hd, ⟨cs', b'⟩, hf, rfl⟩ := h
  obtain ⟨rfl, -⟩ := triDelete_left hd
  rfl

/-- The first loop keeps the points of the border on the border. -/
theorem MInv.loop_keeps {o : EdgeOrder} {inner : Nat} (fuel : Nat) {s s' : MouthState K}
    (hs : MInv P s D B) (h : mouthLoop o inner fuel s = .ok s') : ∃ D' B', MInv P s' D' B' ∧
      ∀ q ∈ B.map s.mesh.org, q ∈ B'.map s'.mesh.org := by
  have same : ∀ {s s' : MouthState K} {B : List Ref}, (∀ f ∈ B, s'.mesh.org f = s.mesh.org f) →
      B.map s'.mesh.org = B.map s.mesh.org := fun h => List.map_congr_left h
  induction fuel generalizing s D B with
  | zero => simp [mouthLoop, exc_throw_ok] at h
  | succ n ih =>
    unfold mouthLoop at h
    split at h
    · split at h
      · simp only [exc_bind_ok] at h
        obtain ⟨⟨s1, r⟩, h1, h⟩ := h
        obtain ⟨hI, hr⟩ := hs.neg _ h1
        have ho := same (hs.neg_org _ h1)
        dsimp only at h
        split at h
        · simp only [exc_pure_ok] at h
          exact h ▸ ⟨D, B, hI, fun q hq => by rw [ho]; exact hq⟩
        · simp only [exc_bind_ok] at h
          obtain ⟨s2, h2, h⟩ := h
          obtain ⟨hc, hcv⟩ := hr _ _ rfl
          obtain ⟨D', B', h3, h4⟩ := ih (hI.del hc hcv h2) h
          refine ⟨D', B', h3, fun q hq => h4 q ?_⟩
          rw [mouthDelete_org h2]
          exact hI.bord.mouth_keeps hc (by rw [ho]; exact hq)
      · simp only [exc_bind_ok] at h
        obtain ⟨⟨s1, r⟩, h1, h⟩ := h
        obtain ⟨hI, hr⟩ := hs.pos _ h1
        have ho := same (hs.pos_org _ h1)
        dsimp only at h
        split at h
        · simp only [exc_bind_ok] at h
          obtain ⟨b, hb, h⟩ := h
          obtain ⟨D', B', h3, h4⟩ := ih (s := { s1 with buckets := b })
            ⟨hI.bord, hI.head, hI.pts, hI.cand, hI.candNodup,
              BOk.mouths (fun c hc => hI.cand c (o.mem.1 hc)) ((o.perm _).nodup_iff.2 hI.candNodup) hb⟩ h
          exact ⟨D', B', h3, fun q hq => h4 q (by dsimp only; rw [ho]; exact hq)⟩
        · simp only [exc_bind_ok] at h
          obtain ⟨s2, h2, h⟩ := h
          obtain ⟨hc, hcv⟩ := hr _ _ rfl
          obtain ⟨D', B', h3, h4⟩ := ih (hI.del hc hcv h2) h
          refine ⟨D', B', h3, fun q hq => h4 q ?_⟩
          rw [mouthDelete_org h2]
          exact hI.bord.mouth_keeps hc (by rw [ho]; exact hq)
    · simp only [exc_pure_ok] at h
      exact h ▸ ⟨D, B, hs, fun q hq => hq⟩

/-- The corner of the bounding box is a vertex of the vertex sequence, without slanted collinear
triples. -/
theorem toVertexSequence_corner {o : EdgeOrder} {fuel : Nat} {coins : Nat → List Nat}
    {pts : List (Point K)} {size : Int} {vs : List (Point K)} (hn : pts.Nodup)
    (hc : (coins pts.length).sum = pts.length) (hg : NoThree pts)
    (h : toVertexSequence fuel coins o pts size = .ok vs) (h3 : 3 ≤ vs.length) {q : Point K}
    (hq : q ∈ pts) (hqc : ∀ w ∈ pts, q.x ≤ w.x ∧ q.y ≤ w.y) : q ∈ vs := by
  simp only [toVertexSequence, exc_bind_ok] at h
  obtain ⟨⟨m, t⟩, hd, es, hes, h⟩ := h
  unfold toVertexSequence' at h
  dsimp only at h
  obtain ⟨D, hT⟩ := delaunay_tgl hn hc hd
  split at h
  · rename_i hs
    simp only [exc_pure_ok] at h
    subst h
    omega
  rename_i hs
  have nc : ¬ AllCol pts := by
    intro hcol
    obtain ⟨g, ht⟩ := Good.delaunay hd
    have hE := g.boundaryEdges ht hes
    have hall : ∀ v ∈ es.map m.start, v ∈ pts := by
      intro v hv
      obtain ⟨e, he, rfl⟩ := List.mem_map.1 hv
      exact g.start (hE e he)
    have := compressContour_col (l := es.map m.start)
      (fun x hx y hy z hz => hcol x (hall x hx) y (hall y hy) z (hall z hz))
    omega
  obtain ⟨hB, hiff, hhead⟩ := hT.bord nc hes
  simp only [exc_bind_ok] at h
  obtain ⟨b, hb, s, hl, ec, hec, eb, heb, s', hl', h⟩ := h
  have nd : es.Nodup := List.Nodup.of_map _ hB.nodup
  have hinv : MInv pts { mesh := m, tri := t, boundaryPoints := (es.map m.start).dedup
                         candidates := es, buckets := b
                         left := size - (compressContour (es.map m.start)).length } D es := by
    refine ⟨hB, hhead, fun f hf => ?_, fun c hc => hc, nd, BOk.mouths (fun c hc => hc) nd hb⟩
    dsimp only
    rw [List.mem_dedup]
    exact List.mem_map_of_mem hf
  obtain ⟨D', B', hI, hK⟩ := hinv.loop_keeps _ hl
  have same : s'.mesh = s.mesh ∧ s'.tri = s.tri := by
    split at hec
    · have := hI.bord.walk hI.head hec
      subst this
      exact hI.bord.no_ears hg heb hl'
    · rename_i hleft
      simp only [exc_pure_ok] at hec
      subst hec
      rcases fuel with _ | fuel
      · simp [earLoop, exc_throw_ok] at hl'
      unfold earLoop at hl'
      rw [if_neg hleft] at hl'
      simp only [exc_pure_ok] at hl'
      subst hl'; exact ⟨rfl, rfl⟩
  simp only [triToBorderVertices, exc_bind_ok, exc_pure_ok] at h
  obtain ⟨es', hes', rfl⟩ := h
  rw [same.1, same.2] at hes'
  have hw := hI.bord.walk hI.head hes'
  subst hw
  rw [same.1]
  have h0 : t.leftSide ∈ es := (hiff _).2 ⟨hT.dl, hT.lhull⟩
  refine hI.bord.sc.compress_corner (hK q (List.mem_map.2 ⟨_, h0, hT.corner hq hqc⟩)) fun w hw => ?_
  obtain ⟨f, hf, rfl⟩ := List.mem_map.1 hw
  exact hqc _ (hI.bord.mem (hI.bord.bd f hf))

/-! ## The strategies -/

theorem vertexSequences_corner {env : Env K} (hcoin : Sums env.coinChange) {x : Strategy K}
    {y : Option (Strategy K)} (hgen : GenericCoords x y) {lo : Int} {hi : Option Int}
    (h3 : 3 ≤ lo) {vs : List (Point K)} (h : (toVertexSequences env x y lo hi).val vs) :
    (toStarStrategy env x y lo hi).val vs ∨ HasCorner vs vs := by
  rcases h with h | ⟨h, hsz⟩
  · exact .inl h
  · right
    rw [val_mapE] at h
    obtain ⟨⟨pts, n⟩, ⟨pts', hp, rfl, -⟩, h⟩ := h
    have hl : 3 ≤ vs.length := by
      have := ((hasValidSize_iff _ _ _).1 hsz).1
      omega
    obtain ⟨hn, hpr, -, -⟩ := C35_distinct x y _ _ h3 pts hp
    obtain ⟨q, hq, hqc⟩ := generalPosition_corner h3 hp
    refine ⟨q, toVertexSequence_corner hn (hcoin _ hpr.two_le) (generalPosition_noThree hgen h3 hp) h
      hl hq (corner_le hqc), fun w hw => hqc w (toVertexSequence_mem h w hw)⟩

/-- C73: a concave contour that is not a star contour has a vertex in the lower left corner of its
bounding box and no other on the left or lower side, unless drawn points are on a slanted line. -/
theorem C73_concave_contours (env : Env K) (hcoin : Sums env.coinChange) (x : Strategy K)
    (y : Option (Strategy K)) (hgen : GenericCoords x y) (lo : Int) (hi : Option Int)
    (s : Made (Contour K)) (hs : concaveContours env x y lo hi = .ok s) (c : Contour K)
    (h : s.2.val c) :
    (∃ r, starContours env x y (max lo 4) hi = .ok r ∧ r.2.val c) ∨
      HasCorner c.vertices c.vertices := by
  simp only [concaveContours, exc_bind_ok, exc_pure_ok, validate_ok] at hs
  obtain ⟨w, ⟨hb, -⟩, rfl⟩ := hs
  obtain ⟨vs, ⟨h, -⟩, rfl⟩ := h
  obtain ⟨b1, b2⟩ := okBounds_of hb
  have h3 : 3 ≤ max lo 4 := by have := le_max_right lo 4; omega
  rcases vertexSequences_corner hcoin hgen h3 h with h | h
  · exact .inl ⟨_, starContours_ok h3 b2, vs, h, rfl⟩
  · exact .inr h

theorem multicontourLoop_corner {env : Env K} (hcoin : Sums env.coinChange) (l : List (Int × Bool))
    {pts : List (Point K)} {prior : Option Bool} (hn : pts.Nodup)
    (hp : ∀ k', prior = some k' → pts.Pairwise (keyOrder k')) (hg : NoThree pts) {q : Point K}
    (hq : q ∈ pts) (hqc : ∀ w ∈ pts, q.x ≤ w.x ∧ q.y ≤ w.y) {c : Contour K} {cs : List (Contour K)}
    (h : multicontourLoop env pts prior l = .ok (c :: cs)) : q ∈ c.vertices := by
  induction l generalizing pts prior with
  | nil =>
    simp only [multicontourLoop, exc_pure_ok] at h
    cases h
  | cons a l ih =>
    obtain ⟨size, key⟩ := a
    simp only [multicontourLoop, exc_bind_ok] at h
    obtain ⟨vs, hvs, h⟩ := h
    obtain ⟨hs, hnd⟩ := keyOrder_sortedBy (k := key) hn hp
    have hperm : (if prior ≠ some key then sortByKey key pts else pts).Perm pts := by
      split
      · exact sortByKey_perm _ _
      · exact List.Perm.refl _
    generalize (if prior ≠ some key then sortByKey key pts else pts) = ps at hs hnd h hvs hperm
    have hq' : q ∈ ps := hperm.mem_iff.2 hq
    have hqc' : ∀ w ∈ ps, q.x ≤ w.x ∧ q.y ≤ w.y := fun w hw => hqc w (hperm.mem_iff.1 hw)
    have hg' : NoThree ps := noThree_mono hg fun w hw => hperm.mem_iff.1 hw
    split at h
    · rename_i h3
      simp only [exc_bind_ok, exc_pure_ok] at h
      obtain ⟨b, -, r, hr, h⟩ := h
      cases h
      dsimp only
      obtain ⟨v, hv⟩ := List.exists_mem_of_length_pos (l := vs) (by omega)
      have h0 : 0 < size.toNat := by
        rcases Nat.eq_zero_or_pos size.toNat with h0 | h0
        · have := toVertexSequence_mem hvs v hv
          rw [h0] at this
          simp at this
        · exact h0
      have ht : q ∈ ps.take size.toNat := by
        obtain ⟨n, hn⟩ : ∃ n, size.toNat = n + 1 := ⟨size.toNat - 1, by omega⟩
        rw [hn]
        cases ps with
        | nil => cases hq'
        | cons r ps =>
          rw [List.take_succ_cons]
          rcases List.mem_cons.1 hq' with rfl | hm
          · simp
          · exfalso
            have h1 := (List.pairwise_cons.1 hs).1 q hm
            obtain ⟨h2, h4⟩ := hqc' r (by simp)
            unfold keyOrder at h1
            split at h1
            · rcases h1 with h1 | ⟨-, h1⟩
              · exact absurd h1 (not_lt.2 h2)
              · exact absurd h1 (not_lt.2 h4)
            · rcases h1 with h1 | ⟨-, h1⟩
              · exact absurd h1 (not_lt.2 h4)
              · exact absurd h1 (not_lt.2 h2)
      exact toVertexSequence_corner (hnd.sublist (List.take_sublist _ _))
        (hcoin _ (toVertexSequence_two hvs h3)) (noThree_mono hg' fun w hw => List.mem_of_mem_take hw) hvs h3 ht
        fun w hw => hqc' w (List.mem_of_mem_take hw)
    · exact ih hnd (by intro k' hk'; cases hk'; exact hs) hg' hq' hqc' h

/-- C73: the first contour of a multicontour has a vertex in the lower left corner of the bounding
box of the multicontour, unless drawn points are on a slanted line. -/
theorem C73_multicontours (env : Env K) (hcoin : Sums env.coinChange) (x : Strategy K)
    (y : Option (Strategy K)) (hgen : GenericCoords x y) (lo : Int)
    (hi : Option Int) (clo : Int) (chi : Option Int) (s : Made (List (Contour K)))
    (hs : multicontours env x y lo hi clo chi = .ok s) (c : Contour K) (l : List (Contour K))
    (h : s.2.val (c :: l)) : HasCorner c.vertices ((c :: l).flatMap Contour.vertices) := by
  simp only [multicontours, exc_bind_ok, exc_pure_ok, validate_ok] at hs
  obtain ⟨w, -, w', -, rfl⟩ := hs
  have h1 : 2 ≤ max lo 2 := le_max_right _ _
  have h2 : 3 ≤ max clo 3 := le_max_right _ _
  have h3 : 3 ≤ max lo 2 * max clo 3 := by nlinarith
  obtain ⟨h, -⟩ := h
  simp only [val_bind', val_mapE] at h
  obtain ⟨pts, hp, r, -, h⟩ := h
  obtain ⟨q, hq, hqc⟩ := generalPosition_corner h3 hp
  refine ⟨q, multicontourLoop_corner hcoin _ (C35_distinct x y _ _ h3 pts hp).1 (by simp)
    (generalPosition_noThree hgen h3 hp) hq (corner_le hqc) h, fun w hw => hqc w ?_⟩
  obtain ⟨d, hd, hw⟩ := List.mem_flatMap.1 hw
  exact multicontourLoop_mem _ h d hd w hw

/-- C73: a polygon has a border vertex in the lower left corner of its bounding box and no other vertex
on the left or the lower side of the box. -/
theorem C73_polygons (env : Env K) (hcoin : Sums env.coinChange)
    (hset : ∀ l, (env.setOrder l).Perm l) (x : Strategy K)
    (y : Option (Strategy K)) (lo : Int) (hi : Option Int) (nlo : Int) (nhi : Option Int)
    (hlo : Int) (hhi : Option Int) (s : Made (Polygon K))
    (hs : polygons env x y lo hi nlo nhi hlo hhi = .ok s) (p : Polygon K) (h : s.2.val p) :
    HasCorner p.border.vertices (polygonVertices p) := by
  simp only [polygons, exc_bind_ok, exc_pure_ok, validate_ok] at hs
  obtain ⟨w, -, w', -, w'', -, rfl⟩ := hs
  have h1 : 3 ≤ max lo 3 := le_max_right _ _
  have h2 : 0 ≤ max nlo 0 := le_max_right _ _
  have h3 : 3 ≤ max hlo 3 := le_max_right _ _
  obtain ⟨h, -⟩ := h
  simp only [val_bind', val_filter] at h
  obtain ⟨pts, ⟨hp, -⟩, h⟩ := h
  simp only [pointsToPolygonStrategy, val_mapE] at h
  obtain ⟨r, -, h⟩ := h
  have h3' : 3 ≤ max lo 3 + max hlo 3 * max nlo 0 := by nlinarith
  obtain ⟨hn, hpr, -, -⟩ := C35_distinct x y _ _ h3' pts hp
  obtain ⟨q, hq, hqc⟩ := generalPosition_corner h3' hp
  obtain ⟨m1, m2⟩ := toPolygon_mem hset h
  refine ⟨q, (toPolygon_run hn (hcoin _ hpr.two_le) h).corner hq (corner_le hqc), fun w hw => hqc w ?_⟩
  rcases mem_polygonVertices.1 hw with hw | ⟨c, hc, hw⟩
  · exact m1 w hw
  · exact m2 c hc w hw

/-- C73: so do the polygons of a multipolygon, unless the multipolygon has no holes and its borders
are a multicontour. -/
theorem C73_multipolygons (env : Env K) (hcoin : Sums env.coinChange)
    (hset : ∀ l, (env.setOrder l).Perm l) (x : Strategy K) (y : Option (Strategy K)) (lo : Int)
    (hi : Option Int) (blo : Int) (bhi : Option Int) (nlo : Int) (h0 : 0 ≤ nlo) (nhi : Option Int)
    (hlo : Int) (hhi : Option Int) (s : Made (List (Polygon K)))
    (hs : multipolygons env x y lo hi blo bhi nlo nhi hlo hhi = .ok s) (l : List (Polygon K))
    (h : s.2.val l) :
    (∀ p ∈ l, HasCorner p.border.vertices (polygonVertices p)) ∨
    (nlo = 0 ∧ (∀ p ∈ l, p.holes = []) ∧
      ∃ t, multicontours env x y lo hi blo bhi = .ok t ∧ t.2.val (l.map Polygon.border)) := by
  rcases C57_multipolygons env x y lo hi blo bhi nlo h0 nhi hlo hhi s hs l h with ⟨t, ht, hp⟩ | h
  · exact .inl fun p hm => C73_polygons env hcoin hset x y _ _ _ _ _ _ t ht p (hp p hm)
  · exact .inr h

/-- C73: so do the polygons of a mix. -/
theorem C73_mixes (env : Env K) (hcoin : Sums env.coinChange)
    (hset : ∀ l, (env.setOrder l).Perm l) (x : Strategy K) (y : Option (Strategy K)) (a : MixArgs)
    (s : Made (Mix K)) (hs : mixes env x y a = .ok s) (g : Mix K) (h : s.2.val g) :
    ∀ p ∈ mixPolygons g, HasCorner p.border.vertices (polygonVertices p) := by
  obtain ⟨-, -, t, ht, hp⟩ := C57_mixes env x y a s hs g h
  exact fun p hm => C73_polygons env hcoin hset x y _ _ _ _ _ _ t ht p (hp p hm)

end

section
open Sample

/-- Non-vacuity for C73: a polygon with a hole and a concave contour. -/
example : HasCorner (K := ℤ) [⟨0, 0⟩, ⟨6, 1⟩, ⟨5, 4⟩, ⟨2, 4⟩]
    [⟨0, 0⟩, ⟨6, 1⟩, ⟨5, 4⟩, ⟨2, 4⟩, ⟨1, 1⟩, ⟨3, 2⟩, ⟨4, 2⟩] := by
  obtain ⟨s, hs, h⟩ := sample_polygons
  exact C73_polygons env coins_sums (fun l => List.Perm.refl l) _ _ _ _ _ _ _ _ s hs _ h

/-- A triangle with an edge on the lower side of its bounding box is never generated. -/
example (x : Strategy ℤ) (y : Option (Strategy ℤ)) (s : Made (Polygon ℤ))
    (hs : polygons env x y = .ok s) : ¬ s.2.val ⟨⟨[⟨0, 0⟩, ⟨2, 0⟩, ⟨1, 1⟩]⟩, []⟩ := by
  intro h
  have := C73_polygons env coins_sums (fun l => List.Perm.refl l) _ _ _ _ _ _ _ _ s hs _ h
  revert this
  unfold HasCorner
  decide

/-- A polygon without a vertex in the corner of its bounding box is never generated. -/
example (x : Strategy ℤ) (y : Option (Strategy ℤ)) (s : Made (Polygon ℤ))
    (hs : polygons env x y = .ok s) : ¬ s.2.val ⟨⟨[⟨0, 1⟩, ⟨1, 0⟩, ⟨2, 2⟩]⟩, []⟩ := by
  intro h
  have := C73_polygons env coins_sums (fun l => List.Perm.refl l) _ _ _ _ _ _ _ _ s hs _ h
  revert this
  unfold HasCorner
  decide

example : HasCorner (K := ℤ) [⟨0, 1⟩, ⟨1, 10⟩, ⟨3, 100⟩, ⟨2, 10000⟩]
    [⟨0, 1⟩, ⟨1, 10⟩, ⟨3, 100⟩, ⟨2, 10000⟩, ⟨4, 100⟩, ⟨6, 10⟩, ⟨5, 10000⟩] := by
  obtain ⟨s, hs, h⟩ := sample_generic_multicontours
  exact C73_multicontours env coins_sums _ _ gen_generic _ _ _ _ s hs _ _ h

example : (∃ r, starContours env (sampledFrom genXs) (some (sampledFrom genYs)) (max 4 4) none =
      .ok r ∧
      r.2.val ⟨[⟨0, 1⟩, ⟨6, 10⟩, ⟨4, 100⟩, ⟨5, 10000⟩, ⟨2, 10000⟩, ⟨3, 100⟩, ⟨1, 10⟩]⟩) ∨
    HasCorner (K := ℤ) [⟨0, 1⟩, ⟨6, 10⟩, ⟨4, 100⟩, ⟨5, 10000⟩, ⟨2, 10000⟩, ⟨3, 100⟩, ⟨1, 10⟩]
      [⟨0, 1⟩, ⟨6, 10⟩, ⟨4, 100⟩, ⟨5, 10000⟩, ⟨2, 10000⟩, ⟨3, 100⟩, ⟨1, 10⟩] := by
  obtain ⟨s, hs, h⟩ := sample_generic_contour
  exact C73_concave_contours env coins_sums _ _ gen_generic _ _ s hs _ h

end
end HG
