import Verif.Delaunay.Leaf
import Verif.Lemmas.Star
import Verif.Props.QuadEdge

/-!
# The Delaunay triangulation of a set of points
-/

set_option linter.unusedSectionVars false

namespace HG

variable {K : Type} [Field K] [LinearOrder K] [IsStrictOrderedRing K]
variable {kx ky : K}

/-- The darts of one of the parts. -/
def Touch (ds : List ((Ref → Prop) × List (Point K))) (e : Ref) : Prop := ∃ d ∈ ds, d.1 e

/-- All points of the parts. -/
def allPts (ds : List ((Ref → Prop) × List (Point K))) : List (Point K) := (ds.map Prod.snd).flatten

/-- A list of triangulations of consecutive chunks of points. -/
def Parts (kx ky : K) (m : Mesh K) (ts : List Tri) (ds : List ((Ref → Prop) × List (Point K))) : Prop :=
  List.Forall₂ (fun t d => Part kx ky m d.1 d.2 t) ts ds

theorem Part.mem {m : Mesh K} {D : Ref → Prop} {P : List (Point K)} {t : Tri} (h : Part kx ky m D P t)
    {e : Ref} (he : D e) : m.org e ∈ P := h.dt.mem (adj_org he)

theorem Part.frame {m m' : Mesh K} {D D₀ D' : Ref → Prop} {P : List (Point K)} {t : Tri}
    (h : Part kx ky m D P t) (w : m'.WF) (ho : Only m D₀ m' D') (hd : ∀ e, D e → ¬ D₀ e) :
    Part kx ky m' D P t := by
  have og : ∀ e, D e → m'.org e = m.org e := fun e he => ho.org (h.comp.edge he)
  have ha : Adj m' D = Adj m D := by
    funext x y
    refine propext ⟨?_, ?_⟩
    · rintro ⟨e, he, rfl, rfl⟩; exact ⟨e, he, (og e he).symm, (og _ (h.comp.opp he)).symm⟩
    · rintro ⟨e, he, rfl, rfl⟩; exact ⟨e, he, og e he, og _ (h.comp.opp he)⟩
  refine ⟨h.comp.frame w ho.size (fun e he => ho.next (h.comp.edge he) (hd e he)) og, ?_, h.dl, ?_, ?_,
    h.dr, ?_, ?_⟩
  · rw [ha]; exact h.dt
  · rw [og _ h.dl]; exact h.lmin
  · rw [og _ h.dl, og _ (h.comp.opp h.dl)]; exact h.lhull
  · rw [og _ h.dr]; exact h.rmax
  · rw [og _ h.dr, og _ (h.comp.opp h.dr)]; exact h.rhull

theorem Parts.frame {m m' : Mesh K} {D₀ D' : Ref → Prop} {ts : List Tri}
    {ds : List ((Ref → Prop) × List (Point K))} (h : Parts kx ky m ts ds) (w : m'.WF)
    (ho : Only m D₀ m' D') (hd : ∀ d ∈ ds, ∀ e, d.1 e → ¬ D₀ e) : Parts kx ky m' ts ds := by
  induction h with
  | nil => exact .nil
  | cons h1 _ ih =>
    exact .cons (h1.frame w ho (hd _ (by simp))) (ih fun d hd' => hd d (by simp [hd']))

theorem Parts.mem {m : Mesh K} {ts : List Tri} {ds : List ((Ref → Prop) × List (Point K))}
    (h : Parts kx ky m ts ds) {d : (Ref → Prop) × List (Point K)} (hd : d ∈ ds) {e : Ref} (he : d.1 e) :
    m.org e ∈ d.2 ∧ m.Edge e := by
  induction h with
  | nil => simp at hd
  | cons h1 _ ih =>
    rcases List.mem_cons.1 hd with rfl | hd
    · exact ⟨h1.mem he, h1.comp.edge he⟩
    · exact ih hd

theorem mem_allPts {ds : List ((Ref → Prop) × List (Point K))} {p : Point K} :
    p ∈ allPts ds ↔ ∃ d ∈ ds, p ∈ d.2 := by
  unfold allPts
  rw [List.mem_flatten]
  constructor
  · rintro ⟨l, hl, hp⟩
    obtain ⟨d, hd, rfl⟩ := List.mem_map.1 hl
    exact ⟨d, hd, hp⟩
  · rintro ⟨d, hd, hp⟩
    exact ⟨_, List.mem_map.2 ⟨d, hd, rfl⟩, hp⟩

theorem allPts_cons (d : (Ref → Prop) × List (Point K)) (ds : List ((Ref → Prop) × List (Point K))) :
    allPts (d :: ds) = d.2 ++ allPts ds := by
  simp [allPts]

/-- Points in increasing order of the functional. -/
def Inc (kx ky : K) (P : List (Point K)) : Prop := P.Pairwise fun p q => sg kx ky p < sg kx ky q

theorem Inc.inj {P : List (Point K)} (h : Inc kx ky P) :
    ∀ x ∈ P, ∀ y ∈ P, sg kx ky x = sg kx ky y → x = y := by
  induction P with
  | nil => simp
  | cons a l ih =>
    obtain ⟨h1, h2⟩ := List.pairwise_cons.1 h
    intro x hx y hy e
    rcases List.mem_cons.1 hx with hx' | hx' <;> rcases List.mem_cons.1 hy with hy' | hy'
    · rw [hx', hy']
    · rw [hx'] at e; exact absurd e (ne_of_lt (h1 y hy'))
    · rw [hy'] at e; exact absurd e (ne_of_gt (h1 x hx'))
    · exact ih h2 x hx' y hy' e

theorem Inc.append {P Q : List (Point K)} (h : Inc kx ky (P ++ Q)) :
    Inc kx ky P ∧ Inc kx ky Q ∧ ∀ x ∈ P, ∀ y ∈ Q, sg kx ky x < sg kx ky y :=
  List.pairwise_append.1 h

theorem initTri_part {m : Mesh K} (w : m.WF) {P : List (Point K)} (hP : Inc kx ky P) {m' : Mesh K}
    {t : Tri} (h : initTri m P = .ok (m', t)) :
    ∃ D, Part kx ky m' D P t ∧ Only m (fun _ => False) m' D := by
  unfold initTri at h
  split at h
  · simp only [exc_pure_ok] at h
    rename_i a b
    have := part_two w (hab := show sg kx ky a < sg kx ky b by simpa [Inc] using hP)
    rw [h] at this
    exact ⟨_, this⟩
  · simp only [exc_pure_ok] at h
    rename_i a b c
    have h1 : (sg kx ky a < sg kx ky b ∧ sg kx ky a < sg kx ky c) ∧ sg kx ky b < sg kx ky c := by
      simpa [Inc] using hP
    have := part_three m a b c w h1.1.1 h1.2
    rw [h] at this
    exact this
  · simp at h

theorem initParts_part (ns : List Nat) {m : Mesh K} (w : m.WF) {pts : List (Point K)}
    (hP : Inc kx ky pts) {m' : Mesh K} {ts : List Tri} (h : initParts m pts ns = .ok (m', ts)) :
    ∃ ds, Parts kx ky m' ts ds ∧ Only m (fun _ => False) m' (Touch ds) ∧
      allPts ds = pts.take ns.sum ∧ m'.WF := by
  induction ns generalizing m pts m' ts with
  | nil =>
    simp only [initParts, exc_pure_ok, Prod.mk.injEq] at h
    obtain ⟨rfl, rfl⟩ := h
    exact ⟨[], .nil, ⟨le_refl _, fun _ => rfl, by rintro e ⟨d, hd, -⟩; simp at hd, fun _ _ => rfl⟩,
      by simp [allPts], w⟩
  | cons n ns ih =>
    simp only [initParts, exc_bind_ok, exc_pure_ok] at h
    obtain ⟨⟨m1, t⟩, h1, ⟨m2, ts'⟩, h2, h3⟩ := h
    simp only [Prod.mk.injEq] at h3
    obtain ⟨rfl, rfl⟩ := h3
    dsimp only at h2
    obtain ⟨D, hp, ho⟩ := initTri_part w (hP.sublist (List.take_sublist n pts)) h1
    obtain ⟨ds, q1, q2, q3, q4⟩ := ih hp.comp.wf (hP.sublist (List.drop_sublist n pts)) h2
    refine ⟨(D, pts.take n) :: ds, .cons (hp.frame q4 q2 (by simp)) q1, ?_, ?_, q4⟩
    · refine ⟨le_trans ho.size q2.size, ?_, ?_, ?_⟩
      · intro e he
        rw [q2.org ⟨lt_of_lt_of_le he.alloc ho.size, he.primal⟩, ho.org he]
      · rintro e ⟨d, hd, hde⟩
        rcases List.mem_cons.1 hd with rfl | hd
        · exact ho.sub hde
        · rcases q2.sub ⟨d, hd, hde⟩ with hh | hh
          · exact .inl hh
          · exact .inr (le_trans ho.size hh)
      · intro e he hn
        rw [q2.next ⟨lt_of_lt_of_le he.alloc ho.size, he.primal⟩ (by simp), ho.next he hn]
    · rw [allPts_cons, q3, List.sum_cons, List.take_add]

theorem mergeRound_part (fuel : Nat) (ts : List Tri) {m : Mesh K} (w : m.WF)
    {ds : List ((Ref → Prop) × List (Point K))} (hp : Parts kx ky m ts ds) (hP : Inc kx ky (allPts ds))
    {m' : Mesh K} {ts' : List Tri} (h : mergeRound fuel m ts = .ok (m', ts')) :
    ∃ ds', Parts kx ky m' ts' ds' ∧ Only m (Touch ds) m' (Touch ds') ∧ allPts ds' = allPts ds ∧ m'.WF := by
  induction ts using List.twoStepInduction generalizing m ds m' ts' with
  | nil =>
    simp only [mergeRound, exc_pure_ok, Prod.mk.injEq] at h
    obtain ⟨rfl, rfl⟩ := h
    exact ⟨ds, hp, ⟨le_refl _, fun _ => rfl, fun h => .inl h, fun _ _ => rfl⟩, rfl, w⟩
  | singleton t =>
    simp only [mergeRound, exc_pure_ok, Prod.mk.injEq] at h
    obtain ⟨rfl, rfl⟩ := h
    exact ⟨ds, hp, ⟨le_refl _, fun _ => rfl, fun h => .inl h, fun _ _ => rfl⟩, rfl, w⟩
  | cons_cons a b rest ih _ =>
    simp only [mergeRound, exc_bind_ok, exc_pure_ok] at h
    obtain ⟨⟨m1, t⟩, h1, ⟨m2, ts2⟩, h2, h3⟩ := h
    simp only [Prod.mk.injEq] at h3
    obtain ⟨rfl, rfl⟩ := h3
    dsimp only at h2
    obtain ⟨d1, dr0, k1, kr0, rfl⟩ : ∃ d1 dr, Part kx ky m d1.1 d1.2 a ∧ Parts kx ky m (b :: rest) dr ∧
        ds = d1 :: dr := by
      cases hp with
      | cons x y => exact ⟨_, _, x, y, rfl⟩
    obtain ⟨d2, dr, k2, kr, rfl⟩ : ∃ d2 dr', Part kx ky m d2.1 d2.2 b ∧ Parts kx ky m rest dr' ∧
        dr0 = d2 :: dr' := by
      cases kr0 with
      | cons x y => exact ⟨_, _, x, y, rfl⟩
    rw [allPts_cons, allPts_cons, ← List.append_assoc] at hP
    obtain ⟨p12, pr, p12r⟩ := hP.append
    obtain ⟨p1, p2, p1r⟩ := p12.append
    obtain ⟨D, hD, ho⟩ := k1.merge k2 p1r p12.inj fuel h1
    have sep : ∀ d ∈ dr, ∀ e, d.1 e → ¬ (d1.1 e ∨ d2.1 e) := by
      rintro d hd e he hh
      have hm := (kr.mem hd he).1
      have hm2 : m.org e ∈ d1.2 ++ d2.2 := by
        rcases hh with hh | hh
        · exact List.mem_append_left _ (k1.mem hh)
        · exact List.mem_append_right _ (k2.mem hh)
      exact lt_irrefl _ (p12r _ hm2 _ (mem_allPts.2 ⟨d, hd, hm⟩))
    have kr1 := kr.frame hD.comp.wf ho sep
    obtain ⟨ds', q1, q2, q3, q4⟩ := ih hD.comp.wf kr1 pr h2
    refine ⟨(D, d1.2 ++ d2.2) :: ds', .cons (hD.frame q4 q2 ?_) q1, ?_, ?_, q4⟩
    · rintro e he ⟨d, hd, hde⟩
      have hm := (kr1.mem hd hde).1
      exact lt_irrefl _ (p12r _ (hD.mem he) _ (mem_allPts.2 ⟨d, hd, hm⟩))
    · refine ⟨le_trans ho.size q2.size, ?_, ?_, ?_⟩
      · intro e he
        rw [q2.org ⟨lt_of_lt_of_le he.alloc ho.size, he.primal⟩, ho.org he]
      · rintro e ⟨d, hd, hde⟩
        rcases List.mem_cons.1 hd with rfl | hd
        · rcases ho.sub hde with (hh | hh) | hh
          · exact .inl ⟨d1, by simp, hh⟩
          · exact .inl ⟨d2, by simp, hh⟩
          · exact .inr hh
        · rcases q2.sub ⟨d, hd, hde⟩ with ⟨d', hd', hde'⟩ | hh
          · exact .inl ⟨d', by simp [hd'], hde'⟩
          · exact .inr (le_trans ho.size hh)
      · intro e he hn
        rw [q2.next ⟨lt_of_lt_of_le he.alloc ho.size, he.primal⟩ (fun ⟨d, hd, hde⟩ =>
          hn ⟨d, by simp [hd], hde⟩), ho.next he (fun hh => hn (by
            rcases hh with hh | hh
            · exact ⟨d1, by simp, hh⟩
            · exact ⟨d2, by simp, hh⟩))]
    · rw [allPts_cons, q3, allPts_cons, allPts_cons, List.append_assoc]

theorem mergeRounds_part (fuel k : Nat) (ts : List Tri) {m : Mesh K} (w : m.WF)
    {ds : List ((Ref → Prop) × List (Point K))} (hp : Parts kx ky m ts ds) (hP : Inc kx ky (allPts ds))
    {m' : Mesh K} {ts' : List Tri} (h : mergeRounds fuel m k ts = .ok (m', ts')) :
    ∃ ds', Parts kx ky m' ts' ds' ∧ allPts ds' = allPts ds := by
  induction k generalizing m ts ds with
  | zero =>
    simp only [mergeRounds, exc_pure_ok, Prod.mk.injEq] at h
    obtain ⟨rfl, rfl⟩ := h
    exact ⟨ds, hp, rfl⟩
  | succ k ih =>
    simp only [mergeRounds, exc_bind_ok] at h
    obtain ⟨⟨m1, ts1⟩, h1, h2⟩ := h
    obtain ⟨ds1, q1, -, q3, q4⟩ := mergeRound_part fuel ts w hp hP h1
    obtain ⟨ds2, r1, r2⟩ := ih ts1 q4 q1 (by rw [q3]; exact hP) h2
    exact ⟨ds2, r1, r2.trans q3⟩

/-- A linear functional that orders finitely many points lexicographically. -/
theorem exists_sg (P : List (Point K)) : ∃ k : K, ∀ p ∈ P, ∀ q ∈ P,
    p.x < q.x ∨ (p.x = q.x ∧ p.y < q.y) → sg k 1 p < sg k 1 q := by
  have one : ∀ p q : Point K, ∃ k : K, ∀ k' ≥ k, p.x < q.x → sg k' 1 p < sg k' 1 q := by
    intro p q
    by_cases h : p.x < q.x
    · refine ⟨(p.y - q.y) / (q.x - p.x) + 1, fun k' hk _ => ?_⟩
      have hpos := sub_pos.2 h
      have h1 : (p.y - q.y) / (q.x - p.x) < k' := by linarith
      rw [div_lt_iff₀ hpos] at h1
      unfold sg; linarith
    · exact ⟨0, fun _ _ h' => absurd h' h⟩
  have all : ∀ Q : List (Point K × Point K), ∃ k : K, ∀ k' ≥ k, ∀ z ∈ Q, z.1.x < z.2.x →
      sg k' 1 z.1 < sg k' 1 z.2 := by
    intro Q
    induction Q with
    | nil => exact ⟨0, by simp⟩
    | cons z Q ih =>
      obtain ⟨k1, h1⟩ := one z.1 z.2
      obtain ⟨k2, h2⟩ := ih
      refine ⟨max k1 k2, fun k' hk w hw => ?_⟩
      rcases List.mem_cons.1 hw with rfl | hw
      · exact h1 k' (le_trans (le_max_left _ _) hk)
      · exact h2 k' (le_trans (le_max_right _ _) hk) w hw
  obtain ⟨k, hk⟩ := all (P.product P)
  refine ⟨k, fun p hp q hq h => ?_⟩
  rcases h with h | ⟨h, h'⟩
  · exact hk k (le_refl _) (p, q) (List.mem_product.2 ⟨hp, hq⟩) h
  · unfold sg; rw [h]; linarith

/-- Distinct points, sorted, increase under some functional. -/
theorem exists_inc {pts : List (Point K)} (hn : pts.Nodup) :
    ∃ k : K, Inc k 1 (pySort Point.leB pts) := by
  obtain ⟨k, hk⟩ := exists_sg (pySort Point.leB pts)
  refine ⟨k, ?_⟩
  have hs := pySort_sorted Point.leB leB_total leB_trans pts
  have hn' : (pySort Point.leB pts).Nodup := (pySort_perm _ _).nodup_iff.2 hn
  unfold Inc
  have := (hs.and hn').imp_of_mem (S := fun p q => sg k 1 p < sg k 1 q) (by
    rintro p q hp hq ⟨h1, h2⟩
    refine hk p hp q hq ?_
    rcases (leB_iff p q).1 h1 with h | ⟨h, h'⟩
    · exact .inl h
    · refine .inr ⟨h, lt_of_le_of_ne h' fun e => h2 ?_⟩
      rcases p with ⟨px, py⟩; rcases q with ⟨qx, qy⟩
      simp only at h e
      rw [h, e])
  exact this

theorem delaunay_part {fuel : Nat} {parts : List Nat} {pts : List (Point K)} (hn : pts.Nodup)
    (hs : parts.sum = pts.length) {m : Mesh K} {t : Tri} (h : delaunay fuel parts pts = .ok (m, t)) :
    ∃ (k : K) (D : Ref → Prop), Part k 1 m D (pySort Point.leB pts) t ∧
      Inc k 1 (pySort Point.leB pts) := by
  obtain ⟨m0, ts, h1, -, h3⟩ := C42_single fuel parts pts m t h
  obtain ⟨k, hk⟩ := exists_inc hn
  obtain ⟨ds, q1, -, q3, q4⟩ := initParts_part parts Mesh.WF.empty hk h1
  have hlen : (pySort Point.leB pts).length = pts.length := pySort_length _ _
  rw [hs, ← hlen, List.take_length] at q3
  obtain ⟨ds', r1, r2⟩ := mergeRounds_part fuel _ ts q4 q1 (by rw [q3]; exact hk) h3
  obtain ⟨d, hd, rfl⟩ : ∃ d, Part k 1 m d.1 d.2 t ∧ ds' = [d] := by
    cases r1 with
    | cons x y => cases y; exact ⟨_, x, rfl⟩
  rw [q3, allPts_cons] at r2
  have : d.2 = pySort Point.leB pts := by simpa [allPts] using r2
  rw [this] at hd
  exact ⟨k, d.1, hd, hk⟩

end HG
