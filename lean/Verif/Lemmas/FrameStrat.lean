import Verif.Lemmas.FrameFac
import Verif.Model.Planar

/-!
# Change of coordinates: strategies
-/

set_option linter.unusedSectionVars false

namespace HG

open Strategy

/-! ## Strategies and maps -/

section
variable {α β γ δ : Type}

theorem bind_nat {s : Strategy α} {f : α → β} {k : α → Strategy γ} {k' : β → Strategy δ} {h : γ → δ}
    (H : ∀ a, k' (f a) = (k a).map h) : (s.map f).bind k' = (s.bind k).map h := by
  apply Strategy.ext
  · funext d
    apply propext
    constructor
    · rintro ⟨_, ⟨a, ha, rfl⟩, hd⟩
      rw [H] at hd
      obtain ⟨c, hc, rfl⟩ := hd
      exact ⟨c, ⟨a, ha, hc⟩, rfl⟩
    · rintro ⟨c, ⟨a, ha, hc⟩, rfl⟩
      refine ⟨f a, ⟨a, ha, rfl⟩, ?_⟩
      rw [H]
      exact ⟨c, hc, rfl⟩
  · funext e
    apply propext
    constructor
    · rintro (he | ⟨_, ⟨a, ha, rfl⟩, he⟩)
      · exact Or.inl he
      · rw [H] at he
        exact Or.inr ⟨a, ha, he⟩
    · rintro (he | ⟨a, ha, he⟩)
      · exact Or.inl he
      · refine Or.inr ⟨f a, ⟨a, ha, rfl⟩, ?_⟩
        rw [H]
        exact he

theorem smap_id (s : Strategy α) : s.map id = s := by
  apply Strategy.ext
  · funext a
    apply propext
    exact ⟨fun ⟨b, hb, e⟩ => e ▸ hb, fun h => ⟨a, h, rfl⟩⟩
  · rfl

theorem bind_nat' {s : Strategy α} {k : α → Strategy γ} {k' : α → Strategy δ} {h : γ → δ}
    (H : ∀ a, k' a = (k a).map h) : s.bind k' = (s.bind k).map h := by
  have := bind_nat (s := s) (f := id) (k := k) (k' := k') H
  rwa [smap_id] at this

theorem do_nat {s : Strategy α} {f : α → β} {k : α → Strategy γ} {k' : β → Strategy δ} {h : γ → δ}
    (H : ∀ a, k' (f a) = (k a).map h) : (s.map f >>= k') = (s >>= k).map h := bind_nat H

theorem do_nat' {s : Strategy α} {k : α → Strategy γ} {k' : α → Strategy δ} {h : γ → δ}
    (H : ∀ a, k' a = (k a).map h) : (s >>= k') = (s >>= k).map h := bind_nat' H

theorem do_nat2 {s : Strategy α} {s' : Strategy β} {f : α → β} {k : α → Strategy γ}
    {k' : β → Strategy δ} {h : γ → δ} (hs : s' = s.map f)
    (H : ∀ a, k' (f a) = (k a).map h) : (s' >>= k') = (s >>= k).map h := by
  rw [hs]; exact bind_nat H

theorem just_nat {a : α} {f : α → β} : just (f a) = (just a).map f := by
  apply Strategy.ext
  · funext b
    apply propext
    exact ⟨fun h => ⟨a, rfl, h⟩, fun ⟨_, h, e⟩ => by rw [e, h]; rfl⟩
  · rfl

theorem pure_nat {a : α} {f : α → β} : (pure (f a) : Strategy β) = (pure a : Strategy α).map f :=
  just_nat

theorem ofExcept_nat {x : Except Exc α} {f : α → β} : ofExcept (x.map f) = (ofExcept x).map f := by
  cases x with
  | ok a => exact just_nat
  | error e =>
    apply Strategy.ext
    · funext b
      apply propext
      exact ⟨False.elim, fun ⟨_, h, _⟩ => h.elim⟩
    · rfl

theorem mapE_nat {s : Strategy α} {f : α → β} {k : α → Except Exc γ} {k' : β → Except Exc δ}
    {h : γ → δ} (H : ∀ a, k' (f a) = (k a).map h) : (s.map f).mapE k' = (s.mapE k).map h :=
  bind_nat fun a => by rw [H, ofExcept_nat]

theorem mapE_nat' {s : Strategy α} {k : α → Except Exc γ} {k' : α → Except Exc δ}
    {h : γ → δ} (H : ∀ a, k' a = (k a).map h) : s.mapE k' = (s.mapE k).map h :=
  bind_nat' fun a => by rw [H, ofExcept_nat]

theorem map_nat {s : Strategy α} {f : α → β} {k : α → γ} {k' : β → δ} {h : γ → δ}
    (H : ∀ a, k' (f a) = h (k a)) : (s.map f).map k' = (s.map k).map h := by
  apply Strategy.ext
  · funext d
    apply propext
    constructor
    · rintro ⟨_, ⟨a, ha, rfl⟩, rfl⟩
      exact ⟨_, ⟨a, ha, rfl⟩, H a⟩
    · rintro ⟨_, ⟨a, ha, rfl⟩, rfl⟩
      exact ⟨_, ⟨a, ha, rfl⟩, (H a).symm⟩
  · rfl

theorem filter_nat {s : Strategy α} {f : α → β} {p : α → Bool} {p' : β → Bool}
    (H : ∀ a, p' (f a) = p a) : (s.map f).filter p' = (s.filter p).map f := by
  apply Strategy.ext
  · funext d
    apply propext
    constructor
    · rintro ⟨⟨a, ha, rfl⟩, h⟩
      exact ⟨a, ⟨ha, by rwa [H] at h⟩, rfl⟩
    · rintro ⟨a, ⟨ha, h⟩, rfl⟩
      exact ⟨⟨a, ha, rfl⟩, by rwa [H]⟩
  · rfl

theorem filterE_nat {s : Strategy α} {f : α → β} {p : α → Except Exc Bool} {p' : β → Except Exc Bool}
    (H : ∀ a, p' (f a) = p a) : (s.map f).filterE p' = (s.filterE p).map f := by
  apply Strategy.ext
  · funext d
    apply propext
    constructor
    · rintro ⟨⟨a, ha, rfl⟩, h⟩
      exact ⟨a, ⟨ha, by rwa [H] at h⟩, rfl⟩
    · rintro ⟨a, ⟨ha, h⟩, rfl⟩
      exact ⟨⟨a, ha, rfl⟩, by rwa [H]⟩
  · funext e
    apply propext
    constructor
    · rintro (h | ⟨_, ⟨a, ha, rfl⟩, h⟩)
      · exact Or.inl h
      · exact Or.inr ⟨a, ha, by rwa [H] at h⟩
    · rintro (h | ⟨a, ha, h⟩)
      · exact Or.inl h
      · exact Or.inr ⟨_, ⟨a, ha, rfl⟩, by rwa [H]⟩

theorem union_nat {s t : Strategy α} {f : α → β} : (s.map f ||| t.map f) = (s ||| t).map f := by
  apply Strategy.ext
  · funext d
    apply propext
    constructor
    · rintro (⟨a, ha, rfl⟩ | ⟨a, ha, rfl⟩)
      · exact ⟨a, Or.inl ha, rfl⟩
      · exact ⟨a, Or.inr ha, rfl⟩
    · rintro ⟨a, ha | ha, rfl⟩
      · exact Or.inl ⟨a, ha, rfl⟩
      · exact Or.inr ⟨a, ha, rfl⟩
  · rfl

theorem prod_nat {s : Strategy α} {t : Strategy β} {f : α → γ} {g : β → δ} :
    prod (s.map f) (t.map g) = (prod s t).map fun p => (f p.1, g p.2) := by
  apply Strategy.ext
  · funext ⟨c, d⟩
    apply propext
    constructor
    · rintro ⟨⟨a, ha, ea⟩, ⟨b, hb, eb⟩⟩
      exact ⟨(a, b), ⟨ha, hb⟩, Prod.ext ea eb⟩
    · rintro ⟨⟨a, b⟩, ⟨ha, hb⟩, e⟩
      obtain ⟨rfl, rfl⟩ := Prod.mk.inj e
      exact ⟨⟨a, ha, rfl⟩, ⟨b, hb, rfl⟩⟩
  · funext e
    apply propext
    constructor
    · rintro (h | ⟨⟨_, a, ha, rfl⟩, h⟩)
      · exact Or.inl h
      · exact Or.inr ⟨⟨a, ha⟩, h⟩
    · rintro (h | ⟨⟨a, ha⟩, h⟩)
      · exact Or.inl h
      · exact Or.inr ⟨⟨_, a, ha, rfl⟩, h⟩

theorem prod_natL {s : Strategy α} {t : Strategy β} {f : α → γ} :
    prod (s.map f) t = (prod s t).map fun p => (f p.1, p.2) := by
  have := prod_nat (s := s) (t := t) (f := f) (g := id)
  rwa [smap_id] at this

theorem prod_natR {s : Strategy α} {t : Strategy β} {g : β → δ} :
    prod s (t.map g) = (prod s t).map fun p => (p.1, g p.2) := by
  have := prod_nat (s := s) (t := t) (f := id) (g := g)
  rwa [smap_id] at this

theorem list_preimage {s : Strategy α} {f : α → β} {l : List β} (h : ∀ b ∈ l, (s.map f).val b) :
    ∃ l' : List α, (∀ a ∈ l', s.val a) ∧ l = l'.map f := by
  induction l with
  | nil => exact ⟨[], by simp, rfl⟩
  | cons b l ih =>
    obtain ⟨l', h1, rfl⟩ := ih fun b hb => h b (List.mem_cons_of_mem _ hb)
    obtain ⟨a, ha, rfl⟩ := h b List.mem_cons_self
    exact ⟨a :: l', by simpa using ⟨ha, h1⟩, rfl⟩

theorem lists_nat {s : Strategy α} {f : α → β} {lo : Int} {hi : Option Int} :
    lists (s.map f) lo hi = (lists s lo hi).map (List.map f) := by
  apply Strategy.ext
  · funext l
    apply propext
    constructor
    · rintro ⟨h1, h2, h3⟩
      obtain ⟨l', h, rfl⟩ := list_preimage h1
      rw [List.length_map] at h2 h3
      exact ⟨l', ⟨h, h2, h3⟩, rfl⟩
    · rintro ⟨l', ⟨h1, h2, h3⟩, rfl⟩
      refine ⟨fun b hb => ?_, by rwa [List.length_map], by rwa [List.length_map]⟩
      obtain ⟨a, ha, rfl⟩ := List.mem_map.1 hb
      exact ⟨a, h1 a ha, rfl⟩
  · rfl

theorem uniqueLists_nat {s : Strategy α} {f : α → β} (hf : Function.Injective f) {lo : Int}
    {hi : Option Int} : uniqueLists (s.map f) lo hi = (uniqueLists s lo hi).map (List.map f) := by
  apply Strategy.ext
  · funext l
    apply propext
    constructor
    · rintro ⟨h1, h2, h3, h4⟩
      obtain ⟨l', h, rfl⟩ := list_preimage h1
      rw [List.length_map] at h3 h4
      exact ⟨l', ⟨h, List.Nodup.of_map f h2, h3, h4⟩, rfl⟩
    · rintro ⟨l', ⟨h1, h2, h3, h4⟩, rfl⟩
      refine ⟨fun b hb => ?_, h2.map hf, by rwa [List.length_map], by rwa [List.length_map]⟩
      obtain ⟨a, ha, rfl⟩ := List.mem_map.1 hb
      exact ⟨a, h1 a ha, rfl⟩
  · funext e
    apply propext
    refine or_congr Iff.rfl (or_congr Iff.rfl (and_congr (not_congr ⟨?_, ?_⟩) Iff.rfl))
    · rintro ⟨l, h1, h2, h3⟩
      obtain ⟨l', h, rfl⟩ := list_preimage h1
      rw [List.length_map] at h3
      exact ⟨l', h, List.Nodup.of_map f h2, h3⟩
    · rintro ⟨l', h1, h2, h3⟩
      refine ⟨l'.map f, fun b hb => ?_, h2.map hf, by rwa [List.length_map]⟩
      obtain ⟨a, ha, rfl⟩ := List.mem_map.1 hb
      exact ⟨a, h1 a ha, rfl⟩

theorem sampledFrom_nat {l : List α} {f : α → β} :
    sampledFrom (l.map f) = (sampledFrom l).map f := by
  apply Strategy.ext
  · funext b
    apply propext
    show b ∈ l.map f ↔ ∃ a, a ∈ l ∧ b = f a
    rw [List.mem_map]
    exact ⟨fun ⟨a, h, e⟩ => ⟨a, h, e.symm⟩, fun ⟨a, h, e⟩ => ⟨a, h, e.symm⟩⟩
  · funext e
    apply propext
    show _ ∧ _ ↔ _ ∧ _
    rw [List.map_eq_nil_iff]

theorem perm_map_preimage {f : α → β} {l' m : List β} (h : l'.Perm m) :
    ∀ l : List α, m = l.map f → ∃ l'' : List α, l''.Perm l ∧ l' = l''.map f := by
  have key : ∀ {m l' : List β}, m.Perm l' → ∀ l : List α, m = l.map f →
      ∃ l'' : List α, l''.Perm l ∧ l' = l''.map f := by
    intro m l' h
    induction h with
    | nil => exact fun l e => ⟨l, List.Perm.refl _, e⟩
    | cons x _ ih =>
      intro l e
      cases l with
      | nil => cases e
      | cons a l =>
        simp only [List.map_cons, List.cons.injEq] at e
        obtain ⟨rfl, e⟩ := e
        obtain ⟨l'', h1, rfl⟩ := ih l e
        exact ⟨a :: l'', h1.cons a, rfl⟩
    | swap x y m =>
      intro l e
      rcases l with _ | ⟨a, _ | ⟨b, l⟩⟩
      · cases e
      · cases e
      · simp only [List.map_cons, List.cons.injEq] at e
        obtain ⟨rfl, rfl, rfl⟩ := e
        exact ⟨b :: a :: l, List.Perm.swap _ _ _, rfl⟩
    | trans _ _ ih1 ih2 =>
      intro l e
      obtain ⟨l1, h1, e1⟩ := ih1 l e
      obtain ⟨l2, h2, e2⟩ := ih2 l1 e1
      exact ⟨l2, h2.trans h1, e2⟩
  exact key h.symm

theorem permutations_nat {l : List α} {f : α → β} :
    permutations (l.map f) = (permutations l).map (List.map f) := by
  apply Strategy.ext
  · funext l'
    apply propext
    constructor
    · intro h
      obtain ⟨l'', h1, h2⟩ := perm_map_preimage h l rfl
      exact ⟨l'', h1, h2⟩
    · rintro ⟨l'', h, rfl⟩
      exact List.Perm.map f h
  · rfl

theorem mapM_nat {f : β → γ} {l : List α} {k : α → Except Exc β} {k' : α → Except Exc γ}
    (H : ∀ a, k' a = (k a).map f) : l.mapM k' = (l.mapM k).map (List.map f) := by
  induction l with
  | nil => rfl
  | cons a l ih =>
    simp only [List.mapM_cons, H, ih]
    refine exc_nat fun b => ?_
    exact exc_nat fun bs => rfl

theorem pairwise_map {f : α → β} (l : List α) :
    HG.pairwise (l.map f) = (HG.pairwise l).map fun p => (f p.1, f p.2) := by
  induction l with
  | nil => rfl
  | cons a l ih =>
    cases l with
    | nil => rfl
    | cons b l =>
      simp only [List.map_cons, HG.pairwise] at ih ⊢
      rw [ih]

theorem cut_map {f : α → β} (l : List α) (n : Int) : cut (l.map f) n = (cut l n).map f := by
  unfold cut
  rw [List.length_map]
  split <;> simp

theorem subSequence_nat {f : α → β} (n : Int) (l : List α) :
    toSubSequenceStrategy n (l.map f) = (toSubSequenceStrategy n l).map (List.map f) := by
  unfold toSubSequenceStrategy
  rw [permutations_nat, List.length_map, prod_natL]
  exact map_nat fun p => cut_map _ _

end

section
variable {K L : Type} [LinearOrder K] [Zero K] [Add K] [Sub K] [Predicates K]
  [LinearOrder L] [Zero L] [Add L] [Sub L] [Predicates L]

theorem getE_map {α β : Type} (f : α → β) (l : List α) (i : Int) :
    getE (l.map f) i = (getE l i).map f := by
  unfold getE
  rw [pyGet_map]
  cases pyGet l i <;> rfl

namespace Frame

variable (T : Frame K L)

/-- The coordinate strategies correspond to each other. -/
structure Axes (x : Strategy K) (y : Option (Strategy K)) (x' : Strategy L)
    (y' : Option (Strategy L)) : Prop where
  ofX : x' = x.map T.fx
  ofY : yOr x' y' = (yOr x y).map T.fy

section
variable {T} {x : Strategy K} {y : Option (Strategy K)} {x' : Strategy L} {y' : Option (Strategy L)}
  (hA : T.Axes x y x' y') {env : Env K} {env' : Env L} (hE : T.Compat env env')

include hA in
theorem Axes.some' : T.Axes x (some (yOr x y)) x' (some (yOr x' y')) := ⟨hA.ofX, hA.ofY⟩

include hA

theorem points_eq : toPointStrategy x' y' = (toPointStrategy x y).map T.pt := by
  unfold toPointStrategy
  rw [hA.ofY, hA.ofX, prod_nat]
  exact map_nat fun _ => rfl

theorem sortPairs_eq {f : K → L} (hf : StrictMono f) (s : Strategy K) :
    (uniqueLists (s.map f) 2 (some 2)).mapE sortPairList =
      ((uniqueLists s 2 (some 2)).mapE sortPairList).map fun p => (f p.1, f p.2) := by
  rw [uniqueLists_nat hf.injective]
  refine mapE_nat fun l => ?_
  rcases l with _ | ⟨a, _ | ⟨b, _ | ⟨c, l⟩⟩⟩ <;> try rfl
  show Except.ok (sortPair (f a) (f b)) = Except.ok _
  unfold sortPair
  simp only [hf.lt_iff_lt]
  split <;> rfl

theorem boxes_eq : toBoxStrategy x' y' = (toBoxStrategy x y).map T.box := by
  unfold toBoxStrategy
  rw [hA.ofY, hA.ofX, sortPairs_eq hA T.monoX, sortPairs_eq hA T.monoY, prod_nat]
  exact map_nat fun _ => rfl

theorem segments_eq : toSegmentStrategy x' y' = (toSegmentStrategy x y).map T.seg := by
  unfold toSegmentStrategy
  rw [points_eq hA, prod_nat, filter_nat (p := fun p => decide (p.1 ≠ p.2))]
  · exact map_nat fun _ => rfl
  · intro p
    simp

theorem uniquePoints_eq (lo : Int) (hi : Option Int) :
    toUniquePointSequenceStrategy x' y' lo hi =
      (toUniquePointSequenceStrategy x y lo hi).map (List.map T.pt) := by
  unfold toUniquePointSequenceStrategy
  rw [points_eq hA, uniqueLists_nat T.pt_inj]

theorem rect_eq : toRectangularStrategy x' y' = (toRectangularStrategy x y).map (List.map T.pt) := by
  unfold toRectangularStrategy
  rw [boxes_eq hA]
  exact map_nat fun _ => rfl

theorem tri_eq : toTriangularStrategy x' y' = (toTriangularStrategy x y).map (List.map T.pt) := by
  unfold toTriangularStrategy
  simp only [points_eq hA, prod_nat]
  rw [filter_nat (p := fun t : Point K × Point K × Point K => areVerticesStrict [t.1, t.2.1, t.2.2])]
  · refine map_nat fun t => ?_
    simp only [toCcwTriplet, orient_pt]
    split <;> rfl
  · intro t
    exact T.strict_eq [t.1, t.2.1, t.2.2]

theorem general_eq (lo : Int) (hi : Option Int) :
    toGeneralPositionStrategy x' y' lo hi =
      (toGeneralPositionStrategy x y lo hi).map (List.map T.pt) := by
  unfold toGeneralPositionStrategy
  refine do_nat' fun n => ?_
  rw [hA.ofY, hA.ofX]
  dsimp only
  rw [uniqueLists_nat T.monoX.injective, uniqueLists_nat T.monoY.injective, prod_nat]
  refine do_nat fun ⟨xs, ys⟩ => ?_
  dsimp only
  unfold coordinatePairToPoints
  have e : ∀ (swap : Bool) (g : Int) (xs ys : List K) (sc : Int),
      indicesToPoints swap g (xs.map T.fx) (ys.map T.fy) sc =
        (indicesToPoints swap g xs ys sc).map (List.map T.pt) := by
    intro swap g xs ys sc
    unfold indicesToPoints
    split
    · refine mapM_nat fun i => ?_
      simp only [getE_map]
      split
      · refine exc_nat fun a => ?_
        exact exc_nat fun b => rfl
      · refine exc_nat fun a => ?_
        exact exc_nat fun b => rfl
    · rfl
  simp only [sortCoords, sort_fx, sort_fy, List.length_map]
  refine do_nat' fun g => ?_
  rw [mapE_nat' (fun sc => e false g _ _ sc), mapE_nat' (fun sc => e true g _ _ sc), union_nat]

omit hA in
theorem random_exists (r : ConvexRandom K) (h : ∀ l, (r.shuffle l).Perm l) :
    ∃ r' : ConvexRandom L, (∀ l, (r'.shuffle l).Perm l) ∧ T.SameRandom r r' := by
  classical
  refine ⟨⟨r.xBits, r.yBits, fun l' => if h : ∃ l, l' = l.map T.g then (r.shuffle h.choose).map T.g
    else l'⟩, ?_, rfl, rfl, ?_⟩
  · intro l'
    dsimp only
    split
    · rename_i hl
      have := hl.choose_spec
      conv => rhs; rw [this]
      exact (h _).map _
    · exact List.Perm.refl _
  · intro l
    dsimp only
    have hl : ∃ l1 : List K, l.map T.g = l1.map T.g := ⟨l, rfl⟩
    rw [dif_pos hl]
    have := hl.choose_spec
    have e : hl.choose = l := (List.map_injective_iff.2 T.monoG.injective this).symm
    rw [e]

omit hA in
theorem random_exists' (r' : ConvexRandom L) (h : ∀ l, (r'.shuffle l).Perm l) :
    ∃ r : ConvexRandom K, (∀ l, (r.shuffle l).Perm l) ∧ T.SameRandom r r' := by
  classical
  have ex : ∀ l : List K, ∃ l'' : List K, l''.Perm l ∧ r'.shuffle (l.map T.g) = l''.map T.g :=
    fun l => perm_map_preimage (h (l.map T.g)) l rfl
  exact ⟨⟨r'.xBits, r'.yBits, fun l => (ex l).choose⟩, fun l => (ex l).choose_spec.1, rfl, rfl,
    fun l => (ex l).choose_spec.2⟩

include hE

theorem convexS_eq (lo : Int) (hi : Option Int) :
    toConvexStrategy env' x' y' lo hi = (toConvexStrategy env x y lo hi).map (List.map T.pt) := by
  have big : ((prod (toGeneralPositionStrategy x' y' lo hi) convexRandoms).mapE
      (fun p => toConvexVertexSequence env' p.1 p.2)).filter
        (fun vs => hasValidSize lo hi vs.length) =
      (((prod (toGeneralPositionStrategy x y lo hi) convexRandoms).mapE
      (fun p => toConvexVertexSequence env p.1 p.2)).filter
        (fun vs => hasValidSize lo hi vs.length)).map (List.map T.pt) := by
    rw [← filter_nat (p' := fun vs : List (Point L) => hasValidSize lo hi vs.length)
      (fun a => by rw [List.length_map]), general_eq hA]
    congr 1
    apply Strategy.ext
    · funext vs
      apply propext
      constructor
      · rintro ⟨⟨_, r'⟩, ⟨⟨pts, hp, rfl⟩, hr⟩, h⟩
        obtain ⟨r, hr1, hr2⟩ := random_exists' (T := T) r' hr
        dsimp only at h
        rw [T.convex_eq hE pts hr2, ofExcept_nat] at h
        obtain ⟨a, ha, rfl⟩ := h
        exact ⟨a, ⟨(pts, r), ⟨hp, hr1⟩, ha⟩, rfl⟩
      · rintro ⟨a, ⟨⟨pts, r⟩, ⟨hp, hr⟩, ha⟩, rfl⟩
        obtain ⟨r', hr1, hr2⟩ := random_exists (T := T) r hr
        refine ⟨(pts.map T.pt, r'), ⟨⟨pts, hp, rfl⟩, hr1⟩, ?_⟩
        dsimp only
        rw [T.convex_eq hE pts hr2, ofExcept_nat]
        exact ⟨a, ha, rfl⟩
    · funext e
      apply propext
      constructor
      · rintro (he | ⟨⟨_, r'⟩, ⟨⟨pts, hp, rfl⟩, hr⟩, h⟩)
        · rcases he with he | ⟨_, he⟩
          · exact Or.inl (Or.inl he)
          · exact he.elim
        · obtain ⟨r, hr1, hr2⟩ := random_exists' (T := T) r' hr
          dsimp only at h
          rw [T.convex_eq hE pts hr2, ofExcept_nat] at h
          exact Or.inr ⟨(pts, r), ⟨hp, hr1⟩, h⟩
      · rintro (he | ⟨⟨pts, r⟩, ⟨hp, hr⟩, h⟩)
        · rcases he with he | ⟨_, he⟩
          · exact Or.inl (Or.inl he)
          · exact he.elim
        · obtain ⟨r', hr1, hr2⟩ := random_exists (T := T) r hr
          refine Or.inr ⟨(pts.map T.pt, r'), ⟨⟨pts, hp, rfl⟩, hr1⟩, ?_⟩
          dsimp only
          rw [T.convex_eq hE pts hr2, ofExcept_nat]
          exact h
  unfold toConvexStrategy
  simp only [big, rect_eq hA, tri_eq hA]
  have e1 : ∀ (c : Prop) [Decidable c] (s t : Strategy (List (Point K))),
      (if c then s.map (List.map T.pt) ||| t.map (List.map T.pt) else t.map (List.map T.pt)) =
        (if c then s ||| t else t).map (List.map T.pt) := by
    intro c _ s t
    split
    · exact union_nat
    · rfl
  rw [e1, e1]
  cases hi with
  | none => rfl
  | some m => dsimp only; split <;> rfl

theorem starS_eq (lo : Int) (hi : Option Int) :
    toStarStrategy env' x' y' lo hi = (toStarStrategy env x y lo hi).map (List.map T.pt) := by
  unfold toStarStrategy
  rw [general_eq hA, map_nat (h := List.map T.pt) (fun a => T.star_eq hE a)]
  exact filter_nat fun a => by rw [List.length_map]

theorem sequences_eq (lo : Int) (hi : Option Int) :
    toVertexSequences env' x' y' lo hi = (toVertexSequences env x y lo hi).map (List.map T.pt) := by
  unfold toVertexSequences
  rw [← union_nat, starS_eq hA hE, general_eq hA]
  congr 1
  rw [← filter_nat (p' := fun vs : List (Point L) => hasValidSize lo hi vs.length)
      (fun a => by rw [List.length_map])]
  congr 1
  rw [bind_nat (h := fun p : List (Point K) × Int => (p.1.map T.pt, p.2))
    (k := fun points => prod (just points) (integers lo (minOpt points.length hi)))]
  · refine mapE_nat fun p => ?_
    dsimp only
    rw [hE.fuel, hE.coin, hE.order, toVertexSequence_eq]
  · intro pts
    rw [List.length_map, just_nat, prod_natL]

theorem concaveS_eq (lo : Int) (hi : Option Int) :
    toConcaveStrategy env' x' y' lo hi = (toConcaveStrategy env x y lo hi).map (List.map T.pt) := by
  unfold toConcaveStrategy
  rw [sequences_eq hA hE]
  refine filterE_nat fun a => ?_
  unfold areVerticesNonConvexE
  rw [nonConvex_eq]

theorem contourS_eq (lo : Int) (hi : Option Int) :
    toVertexSequenceStrategy env' x' y' lo hi =
      (toVertexSequenceStrategy env x y lo hi).map (List.map T.pt) := by
  unfold toVertexSequenceStrategy
  rw [convexS_eq hA hE, sequences_eq hA hE, union_nat]

theorem segmentSeq_eq (lo : Int) (hi : Option Int) :
    toSegmentSequenceStrategy env' x' y' lo hi =
      (toSegmentSequenceStrategy env x y lo hi).map (List.map T.seg) := by
  have v : ((prod x' (uniqueLists (yOr x' y') (lo + 1) (hi.map (· + 1)))).map
      fun p => verticalMultisegment p.1 p.2) =
      ((prod x (uniqueLists (yOr x y) (lo + 1) (hi.map (· + 1)))).map
        fun p => verticalMultisegment p.1 p.2).map (List.map T.seg) := by
    rw [hA.ofY, hA.ofX, uniqueLists_nat T.monoY.injective, prod_nat]
    refine map_nat fun p => ?_
    simp only [verticalMultisegment, sortCoords, sort_fy, pairwise_map, List.map_map]
    rfl
  have h : ((prod (uniqueLists x' (lo + 1) (hi.map (· + 1))) (yOr x' y')).map
      fun p => horizontalMultisegment p.1 p.2) =
      ((prod (uniqueLists x (lo + 1) (hi.map (· + 1))) (yOr x y)).map
        fun p => horizontalMultisegment p.1 p.2).map (List.map T.seg) := by
    rw [hA.ofY, hA.ofX, uniqueLists_nat T.monoX.injective, prod_nat]
    refine map_nat fun p => ?_
    simp only [horizontalMultisegment, sortCoords, sort_fx, pairwise_map, List.map_map]
    rfl
  have c : (((toVertexSequenceStrategy env' x' (some (yOr x' y')) (max lo 3) hi).map
      contourEdges).bind (toSubSequenceStrategy lo)) =
      (((toVertexSequenceStrategy env x (some (yOr x y)) (max lo 3) hi).map
      contourEdges).bind (toSubSequenceStrategy lo)).map (List.map T.seg) := by
    rw [contourS_eq hA.some' hE, map_nat (h := List.map T.seg) (fun a => T.contourEdges_eq a)]
    exact bind_nat fun l => subSequence_nat _ _
  have f : ((lists (toSegmentStrategy x' (some (yOr x' y'))) lo hi).filter
      fun ss => !env'.segmentsCrossOrOverlap ss) =
      ((lists (toSegmentStrategy x (some (yOr x y))) lo hi).filter
      fun ss => !env.segmentsCrossOrOverlap ss).map (List.map T.seg) := by
    rw [segments_eq hA.some', lists_nat]
    exact filter_nat fun l => by rw [hE.scross]
  unfold toSegmentSequenceStrategy
  simp only [v, h, c, f]
  simp only [segments_eq hA.some', union_nat]
  cases hi with
  | none => rfl
  | some m =>
    dsimp only
    split
    · split
      · exact map_nat fun _ => rfl
      · exact just_nat (a := ([] : List (Segment K))) (f := List.map T.seg)
    · split <;> rfl

theorem multicontourS_eq (lo : Int) (hi : Option Int) (clo : Int) (chi : Option Int) :
    toMulticontourStrategy env' x' y' lo hi clo chi =
      (toMulticontourStrategy env x y lo hi clo chi).map (List.map T.con) := by
  unfold toMulticontourStrategy
  rw [general_eq hA]
  rw [← filter_nat (p' := multicontourHasValidSizes (K := L) lo hi clo chi)
    (fun a => T.multiSizes_eq lo hi clo chi a)]
  congr 1
  refine bind_nat fun pts => ?_
  rw [List.length_map]
  exact mapE_nat' fun p => T.toMulticontour_eq hE _ _ _

omit hA in
theorem toPolygonS_eq (z : PolygonSizes) (pts : List (Point K)) :
    pointsToPolygonStrategy env' z (pts.map T.pt) = (pointsToPolygonStrategy env z pts).map T.poly := by
  unfold pointsToPolygonStrategy toHoleSizes
  simp only [List.length_map, hE.hull, maxHull_eq]
  exact mapE_nat' fun p => T.toPolygon_eq hE _ _ _ _

theorem polygonS_eq (z : PolygonSizes) :
    toPolygonStrategy env' x' y' z = (toPolygonStrategy env x y z).map T.poly := by
  unfold toPolygonStrategy
  rw [general_eq hA]
  rw [filter_nat (p := hasValidInnerPointCount env z)]
  · rw [← filter_nat (f := T.poly) (p' := polygonHasValidSizes (K := L) z)]
    · congr 1
      exact bind_nat fun pts => toPolygonS_eq hE z pts
    · intro p
      unfold polygonHasValidSizes
      simp only [poly, con, List.length_map]
      congr 1
      exact T.multiSizes_eq _ _ _ _ _
  · intro pts
    unfold hasValidInnerPointCount
    simp only [hE.hull, List.length_map, maxHull_eq]

end

/-! ## Slabs -/

/-- The map of the coordinates of one axis. -/
def ax (a : Bool) : K → L := if a then T.fx else T.fy

theorem ax_mono (a : Bool) : StrictMono (T.ax a) := by
  cases a
  · exact T.monoY
  · exact T.monoX

theorem sort_ax (a : Bool) (l : List K) : sortCoords (l.map (T.ax a)) = (sortCoords l).map (T.ax a) :=
  pySort_map' (fun _ _ => decide_eq_decide.2 (T.ax_mono a).le_iff_le) l

theorem axes_slab_x (cs : List K) (o : Strategy K) :
    T.Axes (sampledFrom cs) (some o) (sampledFrom (cs.map (T.ax true))) (some (o.map (T.ax false))) :=
  ⟨sampledFrom_nat, rfl⟩

theorem axes_slab_y (cs : List K) (o : Strategy K) :
    T.Axes o (some (sampledFrom cs)) (o.map (T.ax true)) (some (sampledFrom (cs.map (T.ax false)))) :=
  ⟨rfl, sampledFrom_nat⟩

def linear : Linear K → Linear L
  | .empty => .empty
  | .segment s => .segment (T.seg s)
  | .multisegment l => .multisegment (l.map T.seg)

def shaped : Shaped K → Shaped L
  | .empty => .empty
  | .polygon s => .polygon (T.poly s)
  | .multipolygon l => .multipolygon (l.map T.poly)

def discrete : Discrete K → Discrete L
  | .empty => .empty
  | .multipoint l => .multipoint (l.map T.pt)

def mix (m : Mix K) : Mix L := ⟨T.discrete m.discrete, T.linear m.linear, T.shaped m.shaped⟩

def mixState (s : MixState K) : MixState L :=
  ⟨s.points.map T.pt, s.segments.map T.seg, s.polygons.map T.poly⟩

section
variable {T} {env : Env K} {env' : Env L} (hE : T.Compat env env')
include hE

theorem slabPolygon_eq (a : Bool) (cs : List K) (o : Strategy K) (z : PolygonSizes) :
    slabPolygon env' a (cs.map (T.ax a)) (o.map (T.ax (!a))) z =
      (slabPolygon env a cs o z).map T.poly := by
  cases a
  · exact polygonS_eq (T.axes_slab_y cs o) hE z
  · exact polygonS_eq (T.axes_slab_x cs o) hE z

theorem slabLoop_eq (a : Bool) (cs : List K) (o : Strategy K) (z : PolygonSizes) (mp : Int) (n : Nat)
    (st : Int) :
    slabLoop env' a (cs.map (T.ax a)) (o.map (T.ax (!a))) z mp n st =
      (slabLoop env a cs o z mp n st).map (List.map T.poly) := by
  induction n generalizing st with
  | zero =>
    unfold slabLoop
    rw [← List.map_drop, slabPolygon_eq hE]
    exact map_nat fun _ => rfl
  | succ n ih =>
    unfold slabLoop
    rw [List.length_map]
    refine do_nat' fun c => do_nat' fun p => ?_
    have e : slice (cs.map (T.ax a)) st (st + p) = (slice cs st (st + p)).map (T.ax a) := by
      unfold slice
      rw [← List.map_drop, ← List.map_take]
    rw [e, slabPolygon_eq hE]
    refine do_nat fun q => ?_
    have e2 : hasExtremeSegment a (contourEdges (T.poly q).border.vertices) =
        hasExtremeSegment a (contourEdges q.border.vertices) := by
      unfold hasExtremeSegment
      show touchPredicate a (contourEdges (q.border.vertices.map T.pt)) = _
      rw [contourEdges_eq, touch_eq]
    rw [e2]
    refine do_nat' fun b => ?_
    rw [ih]
    exact do_nat fun r => pure_nat (a := q :: r) (f := List.map T.poly)

theorem coordsToPolygons_eq (a : Bool) (cs : List K) (o : Strategy K) (z : PolygonSizes) (mp lo : Int)
    (hi : Option Int) :
    coordsToPolygons env' a (o.map (T.ax (!a))) z mp lo hi (cs.map (T.ax a)) =
      (coordsToPolygons env a o z mp lo hi cs).map (List.map T.poly) := by
  unfold coordsToPolygons
  rw [List.length_map, sort_ax]
  exact do_nat' fun n => slabLoop_eq hE _ _ _ _ _ _ _

theorem drawPoints_eq (a : Bool) (cs : List K) (o : Strategy K) (n : Int) (s : MixState K) :
    drawPoints a (cs.map (T.ax a)) (o.map (T.ax (!a))) n (T.mixState s) =
      (drawPoints a cs o n s).map T.mixState := by
  unfold drawPoints
  rw [← List.map_take]
  have e : ∀ ps : List (Point K), (pure { T.mixState s with points := (T.mixState s).points ++ ps.map T.pt } :
      Strategy (MixState L)) = (pure { s with points := s.points ++ ps } : Strategy (MixState K)).map T.mixState := by
    intro ps
    rw [← pure_nat]
    simp [mixState]
  cases a
  · exact do_nat2 (uniquePoints_eq (T.axes_slab_y (cs.take n.toNat) o) n (some n)) e
  · exact do_nat2 (uniquePoints_eq (T.axes_slab_x (cs.take n.toNat) o) n (some n)) e

theorem drawSegments_eq (a : Bool) (cs : List K) (o : Strategy K) (n : Int) (s : MixState K) :
    drawSegments env' a (cs.map (T.ax a)) (o.map (T.ax (!a))) n (T.mixState s) =
      (drawSegments env a cs o n s).map T.mixState := by
  unfold drawSegments
  rw [← List.map_take]
  have e : ∀ ps : List (Segment K), (pure { T.mixState s with segments := (T.mixState s).segments ++ ps.map T.seg } :
      Strategy (MixState L)) = (pure { s with segments := s.segments ++ ps } : Strategy (MixState K)).map T.mixState := by
    intro ps
    rw [← pure_nat]
    simp [mixState]
  cases a
  · exact do_nat2 (segmentSeq_eq (T.axes_slab_y (cs.take n.toNat) o) hE (n / 2) (some (n / 2))) e
  · exact do_nat2 (segmentSeq_eq (T.axes_slab_x (cs.take n.toNat) o) hE (n / 2) (some (n / 2))) e

theorem drawPolygon_eq (a : Bool) (cs : List K) (o : Strategy K) (z : PolygonSizes) (n : Int)
    (s : MixState K) :
    drawPolygon env' a (cs.map (T.ax a)) (o.map (T.ax (!a))) z n (T.mixState s) =
      (drawPolygon env a cs o z n s).map T.mixState := by
  unfold drawPolygon
  refine do_nat' fun k => ?_
  rw [← List.map_take, slabPolygon_eq hE]
  refine do_nat fun p => ?_
  rw [← pure_nat]
  simp [mixState]

theorem runDrawer_eq (a : Bool) (cs : List K) (o : Strategy K) (z : PolygonSizes) (d : Drawer) (n : Int)
    (s : MixState K) :
    runDrawer env' a (cs.map (T.ax a)) (o.map (T.ax (!a))) z d n (T.mixState s) =
      (runDrawer env a cs o z d n s).map T.mixState := by
  cases d
  · exact drawPoints_eq hE _ _ _ _ _
  · exact drawSegments_eq hE _ _ _ _ _
  · exact drawPolygon_eq hE _ _ _ _ _ _

omit hE in
theorem canTouchNext_eq (a : Bool) (d : Drawer) (n : Option Drawer) (s : MixState K) :
    canTouchNext a d n (T.mixState s) = canTouchNext a d n s := by
  unfold canTouchNext
  rcases n with _ | (_ | _ | _) <;> try rfl
  all_goals
    cases d <;> try rfl
    all_goals dsimp only [mixState, hasExtremeSegment]
    · rw [touch_eq]
    · rw [List.getLast?_map]
      cases s.polygons.getLast? with
      | none => rfl
      | some p =>
        dsimp only [Option.map_some, poly, con]
        rw [contourEdges_eq, touch_eq]

theorem mixLoop_eq (a : Bool) (o : Strategy K) (z : PolygonSizes) (ds : List (Drawer × Int))
    (cs : List K) (s : MixState K) :
    mixLoop env' a (o.map (T.ax (!a))) z ds (cs.map (T.ax a)) (T.mixState s) =
      (mixLoop env a o z ds cs s).map T.mixState := by
  induction ds generalizing cs s with
  | nil => exact just_nat
  | cons d ds ih =>
    obtain ⟨d, n⟩ := d
    simp only [mixLoop]
    rw [runDrawer_eq hE]
    refine do_nat fun s1 => ?_
    rw [canTouchNext_eq]
    refine do_nat' fun b => ?_
    rw [← List.map_drop]
    exact ih _ _

theorem coordsToMix_eq (a : Bool) (o : Strategy K) (z : MixSizes) (mp : Int) (cs : List K) :
    coordsToMix env' a (o.map (T.ax (!a))) z mp (cs.map (T.ax a)) =
      (coordsToMix env a o z mp cs).map T.mix := by
  unfold coordsToMix
  rw [List.length_map, sort_ax]
  refine do_nat' fun c => do_nat' fun ds => ?_
  refine do_nat2 (mixLoop_eq hE a o z.polygon ds (sortCoords cs) ⟨[], [], []⟩) fun s => ?_
  rw [← pure_nat]
  congr 1
  obtain ⟨p, s, g⟩ := s
  simp only [mixState, mix]
  congr 1
  · cases p <;> rfl
  · rcases s with _ | ⟨a, _ | ⟨b, l⟩⟩ <;> rfl
  · rcases g with _ | ⟨a, _ | ⟨b, l⟩⟩ <;> rfl

end

section
variable {T} {x : Strategy K} {y : Option (Strategy K)} {x' : Strategy L} {y' : Option (Strategy L)}
  (hA : T.Axes x y x' y') {env : Env K} {env' : Env L} (hE : T.Compat env env')
include hA hE

theorem slabs_x {α β : Type} {h : α → β} {lo : Int} {hi : Option Int} {k : Strategy K → List K → Strategy α}
    {k' : Strategy L → List L → Strategy β}
    (H : ∀ o cs, k' (o.map (T.ax false)) (cs.map (T.ax true)) = (k o cs).map h) :
    (uniqueLists x' lo hi).bind (k' (yOr x' y')) = ((uniqueLists x lo hi).bind (k (yOr x y))).map h := by
  rw [hA.ofY, hA.ofX, uniqueLists_nat T.monoX.injective]
  exact bind_nat fun cs => H _ cs

theorem slabs_y {α β : Type} {h : α → β} {lo : Int} {hi : Option Int} {k : Strategy K → List K → Strategy α}
    {k' : Strategy L → List L → Strategy β}
    (H : ∀ o cs, k' (o.map (T.ax true)) (cs.map (T.ax false)) = (k o cs).map h) :
    (uniqueLists (yOr x' y') lo hi).bind (k' x') = ((uniqueLists (yOr x y) lo hi).bind (k x)).map h := by
  rw [hA.ofY, hA.ofX, uniqueLists_nat T.monoY.injective]
  exact bind_nat fun cs => H _ cs

theorem multipolygonS_eq (lo : Int) (hi : Option Int) (z : PolygonSizes) :
    toMultipolygonStrategy env' x' y' lo hi z =
      (toMultipolygonStrategy env x y lo hi z).map fun s => s.map (List.map T.poly) := by
  unfold toMultipolygonStrategy
  refine exc_nat' fun mp => ?_
  dsimp only
  rw [slabs_x (h := List.map T.poly) hA hE (k := fun o cs => coordsToPolygons env true o z mp lo hi cs)
      (k' := fun o cs => coordsToPolygons env' true o z mp lo hi cs)
      fun o cs => coordsToPolygons_eq hE true cs o z mp lo hi,
    slabs_y (h := List.map T.poly) hA hE (k := fun o cs => coordsToPolygons env false o z mp lo hi cs)
      (k' := fun o cs => coordsToPolygons env' false o z mp lo hi cs)
      fun o cs => coordsToPolygons_eq hE false cs o z mp lo hi,
    multicontourS_eq hA.some' hE,
    map_nat (h := List.map T.poly) (k := List.map fun c => (⟨c, []⟩ : Polygon K))]
  · rw [union_nat, union_nat]
    split <;> rfl
  · intro l
    simp [poly]

theorem mixS_eq (z : MixSizes) :
    toMixStrategy env' x' y' z = (toMixStrategy env x y z).map fun s => s.map T.mix := by
  unfold toMixStrategy
  refine exc_nat' fun mp => ?_
  dsimp only
  rw [slabs_x (h := T.mix) hA hE (k := fun o cs => coordsToMix env true o z mp cs)
      (k' := fun o cs => coordsToMix env' true o z mp cs)
      fun o cs => coordsToMix_eq hE true o z mp cs,
    slabs_y (h := T.mix) hA hE (k := fun o cs => coordsToMix env false o z mp cs)
      (k' := fun o cs => coordsToMix env' false o z mp cs)
      fun o cs => coordsToMix_eq hE false o z mp cs, union_nat]
  rfl

theorem unionMixes_eq (l : List MixSizes) :
    unionMixes env' x' y' l = (unionMixes env x y l).map fun s => s.map T.mix := by
  induction l with
  | nil =>
    show Except.ok _ = Except.ok _
    congr 1
    apply Strategy.ext
    · funext a
      apply propext
      exact ⟨False.elim, fun ⟨_, h, _⟩ => h⟩
    · rfl
  | cons z l ih =>
    cases l with
    | nil => exact mixS_eq hA hE z
    | cons w l =>
      simp only [unionMixes] at ih ⊢
      rw [mixS_eq hA hE]
      refine exc_nat fun s => ?_
      rw [ih]
      refine exc_nat fun t => ?_
      rw [union_nat]
      rfl

end

end Frame
end
end HG
