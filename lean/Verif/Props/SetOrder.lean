import Verif.Props.GeneralPosition
import Verif.Props.Primes
import Verif.Lemmas.Star
import Verif.Lemmas.Segments

/-!
# Iteration order of sets (C45)
-/

set_option linter.unusedSectionVars false

namespace HG

open Strategy Spec

section
variable {K : Type} [LinearOrder K] [Zero K] [Add K] [Sub K] [Predicates K]

/-- The same environment with another iteration order of sets of points. -/
def Spec.withOrder (env : Env K) (o : List (Point K) → List (Point K)) : Env K :=
  { env with setOrder := o }

/-! ## Functions that do not enumerate sets -/

theorem starLoop_order (env : Env K) (o : List (Point K) → List (Point K)) (n : Nat) (c : Point K)
    (k : Nat) (vs : List (Point K)) : starLoop (withOrder env o) n c k vs = starLoop env n c k vs := by
  induction n generalizing c k vs with
  | zero => rfl
  | succ n ih =>
    rw [starLoop, starLoop]
    split
    · exact ih _ _ _
    · rfl

theorem toStarStrategy_order (env : Env K) (o : List (Point K) → List (Point K)) (x : Strategy K)
    (y : Option (Strategy K)) (lo : Int) (hi : Option Int) :
    toStarStrategy (withOrder env o) x y lo hi = toStarStrategy env x y lo hi := by
  unfold toStarStrategy
  have : toStarContourVertices (withOrder env o) = toStarContourVertices env := by
    funext pts
    exact starLoop_order env o _ _ _ _
  rw [this]

theorem toVertexSequenceStrategy_order (env : Env K) (o : List (Point K) → List (Point K))
    (x : Strategy K) (y : Option (Strategy K)) (lo : Int) (hi : Option Int) :
    toVertexSequenceStrategy (withOrder env o) x y lo hi =
      toVertexSequenceStrategy env x y lo hi := by
  unfold toVertexSequenceStrategy toVertexSequences
  rw [toStarStrategy_order]
  rfl

theorem toSegmentSequenceStrategy_order (env : Env K) (o : List (Point K) → List (Point K))
    (x : Strategy K) (y : Option (Strategy K)) (lo : Int) (hi : Option Int) :
    toSegmentSequenceStrategy (withOrder env o) x y lo hi =
      toSegmentSequenceStrategy env x y lo hi := by
  unfold toSegmentSequenceStrategy
  simp only [toVertexSequenceStrategy_order]
  rfl

theorem multicontourLoop_order (env : Env K) (o : List (Point K) → List (Point K))
    (pts : List (Point K)) (prior : Option Bool) (l : List (Int × Bool)) :
    multicontourLoop (withOrder env o) pts prior l = multicontourLoop env pts prior l := by
  induction l generalizing pts prior with
  | nil => rfl
  | cons a l ih =>
    obtain ⟨size, key⟩ := a
    simp only [multicontourLoop, ih]
    rfl

theorem toMulticontourStrategy_order (env : Env K) (o : List (Point K) → List (Point K))
    (x : Strategy K) (y : Option (Strategy K)) (lo : Int) (hi : Option Int) (clo : Int)
    (chi : Option Int) :
    toMulticontourStrategy (withOrder env o) x y lo hi clo chi =
      toMulticontourStrategy env x y lo hi clo chi := by
  unfold toMulticontourStrategy
  have : toMulticontour (withOrder env o) = toMulticontour env := by
    funext pts sizes ch
    exact multicontourLoop_order env o _ _ _
  rw [this]

/-! ## Polygons -/

theorem leVB_iff (p q : Point K) : Point.leVB p q = true ↔ p.y < q.y ∨ (p.y = q.y ∧ p.x ≤ q.x) := by
  simp [Point.leVB]

theorem leVB_total (p q : Point K) : Point.leVB p q = true ∨ Point.leVB q p = true := by
  rw [leVB_iff, leVB_iff]
  rcases lt_trichotomy p.y q.y with h | h | h
  · exact .inl (.inl h)
  · rcases le_total p.x q.x with g | g
    · exact .inl (.inr ⟨h, g⟩)
    · exact .inr (.inr ⟨h.symm, g⟩)
  · exact .inr (.inl h)

theorem leVB_trans (p q r : Point K) : Point.leVB p q = true → Point.leVB q r = true →
    Point.leVB p r = true := by
  rw [leVB_iff, leVB_iff, leVB_iff]
  rintro (h | ⟨h, h'⟩) (g | ⟨g, g'⟩)
  · exact .inl (h.trans g)
  · exact .inl (by rw [← g]; exact h)
  · exact .inl (by rw [h]; exact g)
  · exact .inr ⟨h.trans g, h'.trans g'⟩

theorem leVB_antisymm (p q : Point K) (h : Point.leVB p q = true) (g : Point.leVB q p = true) :
    p = q := by
  rw [leVB_iff] at h g
  rcases h with h | ⟨h, h'⟩ <;> rcases g with g | ⟨g, g'⟩
  · exact absurd h (lt_asymm g)
  · exact absurd h (by rw [g]; exact lt_irrefl _)
  · exact absurd g (by rw [h]; exact lt_irrefl _)
  · exact point_ext (le_antisymm h' g') h

theorem leB_antisymm' (p q : Point K) (h : Point.leB p q = true) (g : Point.leB q p = true) :
    p = q := by
  rw [leB_iff] at h g
  rcases h with h | ⟨h, h'⟩ <;> rcases g with g | ⟨g, g'⟩
  · exact absurd h (lt_asymm g)
  · exact absurd h (by rw [g]; exact lt_irrefl _)
  · exact absurd g (by rw [h]; exact lt_irrefl _)
  · exact point_ext h (le_antisymm h' g')

/-- Sorting by a total order forgets the initial order. -/
theorem sortByKey_of_perm (key : Bool) {l m : List (Point K)} (h : l.Perm m) :
    sortByKey key l = sortByKey key m := by
  have gen : ∀ (le : Point K → Point K → Bool), (∀ a b, le a b = true ∨ le b a = true) →
      (∀ a b c, le a b = true → le b c = true → le a c = true) →
      (∀ a b, le a b = true → le b a = true → a = b) → pySort le l = pySort le m := by
    intro le ht htr ha
    refine List.Perm.eq_of_pairwise (le := fun a b => le a b = true) (fun a b _ _ => ha a b)
      (pySort_sorted le ht htr l) (pySort_sorted le ht htr m) ?_
    exact ((pySort_perm le l).trans h).trans (pySort_perm le m).symm
  unfold sortByKey
  split
  · exact gen _ leB_total leB_trans leB_antisymm'
  · exact gen _ leVB_total leVB_trans leVB_antisymm

/-- The hole loop does not depend on the set order. -/
theorem holeLoop_order (env : Env K) (o : List (Point K) → List (Point K)) (s : HoleState K)
    (prior : Option Bool) (l : List (Int × Bool)) :
    holeLoop (withOrder env o) s prior l = holeLoop env s prior l := by
  induction l generalizing s prior with
  | nil => rfl
  | cons a l ih =>
    obtain ⟨size, key⟩ := a
    simp only [holeLoop, ih]
    rfl

/-- Before the first hole the order of the inner points is irrelevant. -/
theorem holeLoop_perm (env : Env K) {l m : List (Point K)} (h : l.Perm m) (b : List (Point K))
    (sizes : List (Int × Bool)) :
    (holeLoop env ⟨l, b, [], []⟩ none sizes).map (fun s => (s.boundaryPoints, s.holes, s.holeEdges)) =
      (holeLoop env ⟨m, b, [], []⟩ none sizes).map
        (fun s => (s.boundaryPoints, s.holes, s.holeEdges)) := by
  cases sizes with
  | nil => rfl
  | cons a rest =>
    obtain ⟨size, key⟩ := a
    simp only [holeLoop, ne_eq, reduceCtorEq, not_false_eq_true, if_true, sortByKey_of_perm key h]

theorem borderLoop_order (env : Env K) (o : List (Point K) → List (Point K))
    (he : List (Segment K)) (n : Int) (fuel : Nat) (s : BorderState K) :
    borderLoop (withOrder env o) he n fuel s = borderLoop env he n fuel s := by
  induction fuel generalizing s with
  | zero => rfl
  | succ k ih =>
    simp only [borderLoop, ih]
    rfl

theorem toPolygon_order (env : Env K) (o : List (Point K) → List (Point K))
    (h1 : ∀ l, (env.setOrder l).Perm l) (h2 : ∀ l, (o l).Perm l) (pts : List (Point K)) (n : Int)
    (hs : List Int) (ch : Nat → Bool) :
    toPolygon (withOrder env o) pts n hs ch = toPolygon env pts n hs ch := by
  unfold toPolygon
  simp only [holeLoop_order, borderLoop_order]
  refine congrArg _ ?_
  funext mt
  refine congrArg _ ?_
  funext boundary
  have hp := holeLoop_perm env (((h2 (pts.filter fun p => p ∉ (boundary.map mt.1.start).dedup))).trans
    (h1 (pts.filter fun p => p ∉ (boundary.map mt.1.start).dedup)).symm)
    (boundary.map mt.1.start).dedup (hs.zip ((List.range hs.length).map ch))
  change ((holeLoop env ⟨o _, _, [], []⟩ none _).bind _) = ((holeLoop env ⟨env.setOrder _, _, [], []⟩ none _).bind _)
  revert hp
  generalize holeLoop env ⟨o _, _, [], []⟩ none _ = r1
  generalize holeLoop env ⟨env.setOrder _, _, [], []⟩ none _ = r2
  intro hp
  cases r1 with
  | error e =>
    cases r2 with
    | error e' =>
      simp only [Except.map, Except.error.injEq] at hp
      rw [hp]; rfl
    | ok s => simp [Except.map] at hp
  | ok s =>
    cases r2 with
    | error e' => simp [Except.map] at hp
    | ok s' =>
      simp only [Except.map, Except.ok.injEq, Prod.mk.injEq] at hp
      obtain ⟨e1, e2, e3⟩ := hp
      obtain ⟨_, _, _, _⟩ := s
      obtain ⟨_, _, _, _⟩ := s'
      dsimp only at e1 e2 e3
      subst e1 e2 e3
      rfl

theorem toPolygonStrategy_order (env : Env K) (o : List (Point K) → List (Point K))
    (h1 : ∀ l, (env.setOrder l).Perm l) (h2 : ∀ l, (o l).Perm l) (x : Strategy K)
    (y : Option (Strategy K)) (z : PolygonSizes) :
    toPolygonStrategy (withOrder env o) x y z = toPolygonStrategy env x y z := by
  unfold toPolygonStrategy
  have : pointsToPolygonStrategy (withOrder env o) z = pointsToPolygonStrategy env z := by
    funext pts
    unfold pointsToPolygonStrategy
    simp only [toPolygon_order env o h1 h2]
    rfl
  rw [this]
  rfl

theorem slabPolygon_order (env : Env K) (o : List (Point K) → List (Point K))
    (h1 : ∀ l, (env.setOrder l).Perm l) (h2 : ∀ l, (o l).Perm l) (a : Bool) (cs : List K)
    (other : Strategy K) (z : PolygonSizes) :
    slabPolygon (withOrder env o) a cs other z = slabPolygon env a cs other z := by
  unfold slabPolygon
  rw [toPolygonStrategy_order env o h1 h2, toPolygonStrategy_order env o h1 h2]

theorem slabLoop_order (env : Env K) (o : List (Point K) → List (Point K))
    (h1 : ∀ l, (env.setOrder l).Perm l) (h2 : ∀ l, (o l).Perm l) (a : Bool) (cs : List K)
    (other : Strategy K) (z : PolygonSizes) (mp : Int) (n : Nat) (start : Int) :
    slabLoop (withOrder env o) a cs other z mp n start = slabLoop env a cs other z mp n start := by
  induction n generalizing start with
  | zero => simp only [slabLoop, slabPolygon_order env o h1 h2]
  | succ n ih => simp only [slabLoop, slabPolygon_order env o h1 h2, ih]

theorem toMultipolygonStrategy_order (env : Env K) (o : List (Point K) → List (Point K))
    (h1 : ∀ l, (env.setOrder l).Perm l) (h2 : ∀ l, (o l).Perm l) (x : Strategy K)
    (y : Option (Strategy K)) (lo : Int) (hi : Option Int) (z : PolygonSizes) :
    toMultipolygonStrategy (withOrder env o) x y lo hi z =
      toMultipolygonStrategy env x y lo hi z := by
  unfold toMultipolygonStrategy
  simp only [toMulticontourStrategy_order]
  have : coordsToPolygons (withOrder env o) = coordsToPolygons env := by
    funext a cs other z lo hi mp
    unfold coordsToPolygons
    simp only [slabLoop_order env o h1 h2]
  simp only [this]

theorem runDrawer_order (env : Env K) (o : List (Point K) → List (Point K))
    (h1 : ∀ l, (env.setOrder l).Perm l) (h2 : ∀ l, (o l).Perm l) (a : Bool) (cs : List K)
    (other : Strategy K) (z : PolygonSizes) (d : Drawer) (n : Int) (s : MixState K) :
    runDrawer (withOrder env o) a cs other z d n s = runDrawer env a cs other z d n s := by
  cases d with
  | points => rfl
  | segments => simp only [runDrawer, drawSegments, toSegmentSequenceStrategy_order]
  | polygon => simp only [runDrawer, drawPolygon, slabPolygon_order env o h1 h2]

theorem mixLoop_order (env : Env K) (o : List (Point K) → List (Point K))
    (h1 : ∀ l, (env.setOrder l).Perm l) (h2 : ∀ l, (o l).Perm l) (a : Bool) (other : Strategy K)
    (z : PolygonSizes) (l : List (Drawer × Int)) (cs : List K) (s : MixState K) :
    mixLoop (withOrder env o) a other z l cs s = mixLoop env a other z l cs s := by
  induction l generalizing cs s with
  | nil => rfl
  | cons d l ih =>
    obtain ⟨d, n⟩ := d
    simp only [mixLoop, runDrawer_order env o h1 h2, ih]

theorem toMixStrategy_order (env : Env K) (o : List (Point K) → List (Point K))
    (h1 : ∀ l, (env.setOrder l).Perm l) (h2 : ∀ l, (o l).Perm l) (x : Strategy K)
    (y : Option (Strategy K)) (z : MixSizes) :
    toMixStrategy (withOrder env o) x y z = toMixStrategy env x y z := by
  unfold toMixStrategy
  have : coordsToMix (withOrder env o) = coordsToMix env := by
    funext a other z mp cs
    unfold coordsToMix
    simp only [mixLoop_order env o h1 h2]
  simp only [this]

theorem unionMixes_order (env : Env K) (o : List (Point K) → List (Point K))
    (h1 : ∀ l, (env.setOrder l).Perm l) (h2 : ∀ l, (o l).Perm l) (x : Strategy K)
    (y : Option (Strategy K)) : ∀ l, unionMixes (withOrder env o) x y l = unionMixes env x y l
  | [] => rfl
  | [_] => toMixStrategy_order env o h1 h2 x y _
  | _ :: z :: zs => by
    simp only [unionMixes, toMixStrategy_order env o h1 h2, unionMixes_order env o h1 h2 x y (z :: zs)]

/-- C45: the iteration order of sets of points has no influence on polygons, multipolygons and
mixes: the same values can be generated, the same exceptions and warnings can arise. -/
theorem C45_set_order (env : Env K) (o : List (Point K) → List (Point K))
    (h1 : ∀ l, (env.setOrder l).Perm l) (h2 : ∀ l, (o l).Perm l) (x : Strategy K)
    (y : Option (Strategy K)) :
    (∀ lo hi nlo nhi hlo hhi, polygons (withOrder env o) x y lo hi nlo nhi hlo hhi =
      polygons env x y lo hi nlo nhi hlo hhi) ∧
    (∀ lo hi blo bhi nlo nhi hlo hhi,
      multipolygons (withOrder env o) x y lo hi blo bhi nlo nhi hlo hhi =
        multipolygons env x y lo hi blo bhi nlo nhi hlo hhi) ∧
    (∀ a, mixes (withOrder env o) x y a = mixes env x y a) := by
  refine ⟨fun lo hi nlo nhi hlo hhi => ?_, fun lo hi blo bhi nlo nhi hlo hhi => ?_, fun a => ?_⟩
  · unfold polygons
    simp only [toPolygonStrategy_order env o h1 h2]
  · unfold multipolygons
    simp only [toMultipolygonStrategy_order env o h1 h2]
  · unfold mixes
    simp only [unionMixes_order env o h1 h2]

/-! ## Sets of edges -/

/-- The lexicographic order of edge keys as a proposition. -/
def KeyLt (a b : EdgeKey K) : Prop :=
  a.1 < b.1 ∨ (a.1 = b.1 ∧ (LexLt a.2.1 b.2.1 ∨ (a.2.1 = b.2.1 ∧ LexLt a.2.2 b.2.2)))

theorem keyLt_iff (a b : EdgeKey K) : keyLt a b = true ↔ KeyLt a b := by
  unfold keyLt KeyLt
  simp only [Bool.or_eq_true, Bool.and_eq_true, decide_eq_true_eq, ltB_iff]

theorem keyLt_trans {a b c : EdgeKey K} (h : KeyLt a b) (g : KeyLt b c) : KeyLt a c := by
  unfold KeyLt at *
  rcases h with h | ⟨h, h'⟩
  · rcases g with g | ⟨g, -⟩
    · exact .inl (h.trans g)
    · exact .inl (g ▸ h)
  · rcases g with g | ⟨g, g'⟩
    · exact .inl (h ▸ g)
    · refine .inr ⟨h.trans g, ?_⟩
      rcases h' with h' | ⟨h', h''⟩ <;> rcases g' with g' | ⟨g', g''⟩
      · exact .inl (lexLt_trans h' g')
      · exact .inl (g' ▸ h')
      · exact .inl (h' ▸ g')
      · exact .inr ⟨h'.trans g', lexLt_trans h'' g''⟩

theorem keyLt_irrefl (a : EdgeKey K) : ¬ KeyLt a a := by
  rintro (h | ⟨-, h | ⟨-, h⟩⟩)
  · exact lt_irrefl _ h
  · exact lexLt_irrefl _ h
  · exact lexLt_irrefl _ h

theorem keyLt_trichotomy (a b : EdgeKey K) : KeyLt a b ∨ a = b ∨ KeyLt b a := by
  obtain ⟨a1, a2, a3⟩ := a
  obtain ⟨b1, b2, b3⟩ := b
  unfold KeyLt
  dsimp only
  rcases lt_trichotomy a1 b1 with h | rfl | h
  · exact .inl (.inl h)
  · rcases lexLt_trichotomy a2 b2 with h | rfl | h
    · exact .inl (.inr ⟨rfl, .inl h⟩)
    · rcases lexLt_trichotomy a3 b3 with h | rfl | h
      · exact .inl (.inr ⟨rfl, .inr ⟨rfl, h⟩⟩)
      · exact .inr (.inl rfl)
      · exact .inr (.inr (.inr ⟨rfl, .inr ⟨rfl, h⟩⟩))
    · exact .inr (.inr (.inr ⟨rfl, .inl h⟩))
  · exact .inr (.inr (.inl h))

theorem add_lt {k a : EdgeKey K} (h : KeyLt k a) (e f : Ref) (l : KeyedSet K) :
    KeyedSet.add k e ((a, f) :: l) = (k, e) :: (a, f) :: l := by
  rw [KeyedSet.add, if_pos ((keyLt_iff _ _).2 h)]

theorem add_eq (k : EdgeKey K) (e f : Ref) (l : KeyedSet K) :
    KeyedSet.add k e ((k, f) :: l) = (k, f) :: l := by
  rw [KeyedSet.add, if_neg (fun h => keyLt_irrefl k ((keyLt_iff _ _).1 h)), if_pos rfl]

theorem add_gt {k a : EdgeKey K} (h : KeyLt a k) (e f : Ref) (l : KeyedSet K) :
    KeyedSet.add k e ((a, f) :: l) = (a, f) :: KeyedSet.add k e l := by
  rw [KeyedSet.add, if_neg (fun g => keyLt_irrefl k (keyLt_trans ((keyLt_iff _ _).1 g) h)),
    if_neg (fun g => keyLt_irrefl k (by rw [← g] at h; exact h))]

/-- Additions of different keys commute. -/
theorem add_comm_keys {k k' : EdgeKey K} (hk : k ≠ k') (e e' : Ref) (l : KeyedSet K) :
    KeyedSet.add k e (KeyedSet.add k' e' l) = KeyedSet.add k' e' (KeyedSet.add k e l) := by
  have hlt : ∀ {k k' : EdgeKey K} (e e' : Ref) (l : KeyedSet K), KeyLt k k' →
      KeyedSet.add k e (KeyedSet.add k' e' l) = KeyedSet.add k' e' (KeyedSet.add k e l) := by
    intro k k' e e' l h
    induction l with
    | nil =>
      change KeyedSet.add k e [(k', e')] = KeyedSet.add k' e' [(k, e)]
      rw [add_lt h, add_gt h]
      rfl
    | cons a l ih =>
      obtain ⟨a, f⟩ := a
      rcases keyLt_trichotomy k' a with g | rfl | g
      · rw [add_lt g, add_lt h, add_lt (keyLt_trans h g), add_gt h, add_lt g]
      · rw [add_eq, add_lt h, add_gt h, add_eq]
      · rw [add_gt g]
        rcases keyLt_trichotomy k a with j | rfl | j
        · rw [add_lt j, add_lt j, add_gt h, add_gt g]
        · rw [add_eq, add_eq, add_gt h]
        · rw [add_gt j, add_gt j, ih, add_gt g]
  rcases keyLt_trichotomy k k' with h | h | h
  · exact hlt e e' l h
  · exact absurd h hk
  · exact (hlt e' e l h).symm

theorem bucketsAdd_ok {fuel : Nat} {m : Mesh K} {b b' : Buckets K} {i : Int} {e : Ref} :
    Buckets.add fuel m b i e = .ok b' ↔ ¬ (i < 0 ∨ b.length ≤ i.toNat) ∧
      ∃ k, edgeKey fuel m e = .ok k ∧ b' = b.modify i.toNat (KeyedSet.add k e) := by
  unfold Buckets.add
  split
  · rename_i h
    constructor
    · intro g
      simp only [exc_bind_ok, exc_throw_ok, false_and, exists_false] at g
    · exact fun g => absurd h g.1
  · rename_i h
    simp only [exc_bind_ok, exc_pure_ok]
    constructor
    · rintro ⟨k, hk, g⟩
      exact ⟨h, k, hk, g.symm⟩
    · rintro ⟨-, k, hk, g⟩
      exact ⟨k, hk, g.symm⟩

theorem edgeKey_ends {fuel : Nat} {m : Mesh K} {e : Ref} {k : EdgeKey K}
    (h : edgeKey fuel m e = .ok k) : k.2 = (m.start e, m.stop e) := by
  simp only [edgeKey, exc_bind_ok, exc_pure_ok] at h
  obtain ⟨w, -, rfl⟩ := h
  rfl

theorem modify_comm_ne {α : Type} (l : List α) {i j : Nat} (h : i ≠ j) (f g : α → α) :
    (l.modify i f).modify j g = (l.modify j g).modify i f := by
  apply List.ext_getElem?
  intro n
  simp only [List.getElem?_modify]
  by_cases h1 : i = n <;> by_cases h2 : j = n <;> simp [h1, h2]
  exact absurd (h1.trans h2.symm) h

theorem modify_comm_eq {α : Type} (l : List α) (i : Nat) (f g : α → α)
    (h : ∀ a, f (g a) = g (f a)) :
    (l.modify i f).modify i g = (l.modify i g).modify i f := by
  apply List.ext_getElem?
  intro n
  simp only [List.getElem?_modify]
  by_cases h1 : i = n <;> simp [h1, Function.comp_def, h]

/-- Filling buckets with edges of different endpoints does not depend on the order. -/
theorem foldlM_buckets_perm (fuel : Nat) (m : Mesh K) (idx : Ref → Int) {l l' : List Ref}
    (h : l.Perm l')
    (hd : l.Pairwise fun e f => ¬ (m.start e = m.start f ∧ m.stop e = m.stop f))
    (b c : Buckets K) :
    l.foldlM (fun b e => Buckets.add fuel m b (idx e) e) b = .ok c ↔
      l'.foldlM (fun b e => Buckets.add fuel m b (idx e) e) b = .ok c := by
  induction h generalizing b with
  | nil => rfl
  | cons a h ih =>
    simp only [List.foldlM_cons, exc_bind_ok]
    rw [List.pairwise_cons] at hd
    exact exists_congr fun b' => and_congr_right fun _ => ih hd.2 b'
  | swap a a' l =>
    have hne : ¬ (m.start a' = m.start a ∧ m.stop a' = m.stop a) := by
      rw [List.pairwise_cons] at hd
      exact hd.1 a (by simp)
    have key : ∀ {a a' : Ref}, ¬ (m.start a' = m.start a ∧ m.stop a' = m.stop a) → ∀ b b2,
        (∃ b1, Buckets.add fuel m b (idx a') a' = .ok b1 ∧
          Buckets.add fuel m b1 (idx a) a = .ok b2) →
        (∃ b1, Buckets.add fuel m b (idx a) a = .ok b1 ∧
          Buckets.add fuel m b1 (idx a') a' = .ok b2) := by
      rintro a a' hne b b2 ⟨b1, h1, h2⟩
      obtain ⟨g1, k1, e1, rfl⟩ := bucketsAdd_ok.1 h1
      obtain ⟨g2, k2, e2, rfl⟩ := bucketsAdd_ok.1 h2
      rw [List.length_modify] at g2
      refine ⟨_, bucketsAdd_ok.2 ⟨g2, k2, e2, rfl⟩, bucketsAdd_ok.2 ⟨?_, k1, e1, ?_⟩⟩
      · rw [List.length_modify]; exact g1
      · by_cases hi : (idx a').toNat = (idx a).toNat
        · rw [hi]
          refine modify_comm_eq _ _ _ _ fun s => ?_
          refine add_comm_keys (fun e => hne ?_) _ _ _
          have := congrArg Prod.snd e
          rw [edgeKey_ends e1, edgeKey_ends e2, Prod.mk.injEq] at this
          exact this
        · exact modify_comm_ne _ hi _ _
    simp only [List.foldlM_cons, exc_bind_ok]
    constructor
    · rintro ⟨b1, h1, b2, h2, h3⟩
      obtain ⟨b1', h1', h2'⟩ := key hne b b2 ⟨b1, h1, h2⟩
      exact ⟨b1', h1', b2, h2', h3⟩
    · rintro ⟨b1, h1, b2, h2, h3⟩
      obtain ⟨b1', h1', h2'⟩ := key (fun h => hne ⟨h.1.symm, h.2.symm⟩) b b2 ⟨b1, h1, h2⟩
      exact ⟨b1', h1', b2, h2', h3⟩
  | trans h1 h2 ih1 ih2 =>
    exact (ih1 hd b).trans (ih2 ((h1.pairwise_iff (fun {_ _} g f => g ⟨f.1.symm, f.2.symm⟩)).1 hd) b)

/-- C45 (partial): the order in which a set of edges is enumerated is irrelevant for the
candidate queues built from it, as long as no two edges of the set have the same start and the
same end.  Missing: that the edges of a boundary have this property. -/
theorem C45_edge_order_partial (fuel : Nat) (m : Mesh K) {l l' : List Ref} (h : l.Perm l')
    (hd : l.Pairwise fun e f => ¬ (m.start e = m.start f ∧ m.stop e = m.stop f))
    (b : Buckets K) :
    (toMouthsIncrements fuel m l = .ok b ↔ toMouthsIncrements fuel m l' = .ok b) ∧
    (toEarsIncrements fuel m l = .ok b ↔ toEarsIncrements fuel m l' = .ok b) :=
  ⟨foldlM_buckets_perm fuel m _ h hd _ _, foldlM_buckets_perm fuel m _ h hd _ _⟩

end

/-- C45 applies to the sample environment and the reversed enumeration of sets, which differs. -/
example : (∀ l, (Sample.env.setOrder l).Perm l) ∧ (∀ l : List (Point ℤ), l.reverse.Perm l) ∧
    Sample.env.setOrder (Sample.parab 5) ≠ (Sample.parab 5).reverse ∧
    (polygons (withOrder Sample.env List.reverse) (integers 0 100) none 3 none 0 none 3 none =
      polygons Sample.env (integers 0 100) none 3 none 0 none 3 none) :=
  ⟨fun l => List.Perm.refl l, fun l => List.reverse_perm l, by decide +kernel,
    (C45_set_order Sample.env List.reverse (fun l => List.Perm.refl l)
      (fun l => List.reverse_perm l) _ _).1 _ _ _ _ _ _⟩

/-- The boundary of the triangulation of seven points has different edges, queues can be built
from it. -/
example : ∃ m t es b, delaunay 100 (Sample.coins 7) (Sample.parab 7) = .ok (m, t) ∧
    boundaryEdges 100 m t = .ok es ∧ es.reverse ≠ es ∧
    es.Pairwise (fun e f => ¬ (m.start e = m.start f ∧ m.stop e = m.stop f)) ∧
    toMouthsIncrements 100 m es = .ok b ∧ toMouthsIncrements 100 m es.reverse = .ok b := by
  have key : (match delaunay 100 (Sample.coins 7) (Sample.parab 7) with
    | .error _ => false
    | .ok (m, t) =>
      match boundaryEdges 100 m t with
      | .error _ => false
      | .ok es => decide (es.reverse ≠ es) &&
        decide (es.Pairwise (fun e f => ¬ (m.start e = m.start f ∧ m.stop e = m.stop f))) &&
        (match toMouthsIncrements 100 m es with
          | .error _ => false
          | .ok _ => true)) = true := by decide +kernel
  revert key
  cases h1 : delaunay 100 (Sample.coins 7) (Sample.parab 7) with
  | error e => simp
  | ok mt =>
    obtain ⟨m, t⟩ := mt
    cases h2 : boundaryEdges 100 m t with
    | error e => simp [h2]
    | ok es =>
      cases h3 : toMouthsIncrements 100 m es with
      | error e => simp [h2, h3]
      | ok b =>
        simp only [h2, h3, Bool.and_true, Bool.and_eq_true, decide_eq_true_eq]
        rintro ⟨g1, g2⟩
        exact ⟨m, t, es, b, rfl, h2, g1, g2, h3,
          ((C45_edge_order_partial 100 m (List.reverse_perm es).symm g2 b).1).1 h3⟩

end HG
