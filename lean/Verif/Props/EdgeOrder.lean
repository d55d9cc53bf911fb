import Verif.Props.SetOrder
import Verif.Props.Total
import Verif.Props.GenericSamples

/-!
# Iteration order of sets of edges (C45)

`to_vertex_sequence` enumerates sets of edges when it fills its buckets again.  Edges are hashed by
identity, hence the order of enumeration may differ between two runs of the same program.  Here: the
order has no influence on vertex sequences of points no three of which are on a line, and hence on
none of the strategies with generic coordinates.
-/

set_option linter.unusedSectionVars false

namespace HG

open Strategy Spec

section
variable {K : Type} [CommRing K] [LinearOrder K] [IsStrictOrderedRing K]
variable {P : List (Point K)} {m : Mesh K} {D : Ref → Prop} {t : Tri} {B : List Ref}

/-! ## Buckets -/

theorem Net.key_err (h : Net P m D) {e : Ref} (he : D e) {fuel : Nat} {x : Exc}
    (hx : edgeKey fuel m e = .error x) : x = .outOfFuel := by
  obtain ⟨k, hk⟩ := h.key he (fuel := max fuel (P.length * P.length)) (le_max_right _ _)
  exact (edgeKey_sub _ _ (le_max_left _ _)).err hk hx

theorem bucketsAdd_length {fuel : Nat} {b b' : Buckets K} {i : Int} {e : Ref}
    (h : Buckets.add fuel m b i e = .ok b') : b'.length = b.length := by
  obtain ⟨-, k, -, rfl⟩ := bucketsAdd_ok.1 h
  exact List.length_modify _ _ _

/-- Filling buckets with edges of a region ends with an exception only when it is stopped. -/
theorem Net.fill_err (h : Net P m D) {fuel : Nat} {f : Ref → Int} (l : List Ref) {b : Buckets K}
    (hl : ∀ c ∈ l, D c) (hr : ∀ c ∈ l, 0 ≤ f c ∧ f c < 5) (hb : b.length = 5) {x : Exc}
    (hx : l.foldlM (fun b e => Buckets.add fuel m b (f e) e) b = .error x) : x = .outOfFuel := by
  induction l generalizing b with
  | nil => simp [exc_pure_error] at hx
  | cons a l ih =>
    simp only [List.foldlM_cons, exc_bind_error] at hx
    rcases hx with hx | ⟨b', hb', hx⟩
    · unfold Buckets.add at hx
      obtain ⟨r1, r2⟩ := hr a (by simp)
      rw [if_neg (by omega)] at hx
      simp only [exc_bind_error, exc_pure_error, and_false, exists_false, or_false] at hx
      exact h.key_err (hl a (by simp)) hx
    · exact ih (fun c hc => hl c (by simp [hc])) (fun c hc => hr c (by simp [hc]))
        (by rw [bucketsAdd_length hb', hb]) hx

/-- The order in which buckets are filled with edges of a border is irrelevant. -/
theorem Bord.fill_perm (h : Bord P m D B) {fuel : Nat} {f : Ref → Int} {l l' : List Ref}
    (hp : l.Perm l') (hn : l.Nodup) (hl : ∀ c ∈ l, c ∈ B) (hr : ∀ c ∈ l, 0 ≤ f c ∧ f c < 5)
    {b : Buckets K} (hb : b.length = 5) :
    l.foldlM (fun b e => Buckets.add fuel m b (f e) e) b =
      l'.foldlM (fun b e => Buckets.add fuel m b (f e) e) b := by
  have hd : l.Pairwise fun e f => ¬ (m.start e = m.start f ∧ m.stop e = m.stop f) := by
    refine hn.imp_of_mem fun {e f} he hf hne hh => hne ?_
    exact h.inj (hl e he) (hl f hf) hh.1
  have key := foldlM_buckets_perm fuel m f hp hd b
  cases e1 : l.foldlM (fun b e => Buckets.add fuel m b (f e) e) b with
  | ok c => exact ((key c).1 e1).symm
  | error x =>
    cases e2 : l'.foldlM (fun b e => Buckets.add fuel m b (f e) e) b with
    | ok c => rw [(key c).2 e2] at e1; cases e1
    | error x' =>
      rw [h.net.fill_err l (fun c hc => h.bd c (hl c hc)) hr hb e1,
        h.net.fill_err l' (fun c hc => h.bd c (hl c (hp.mem_iff.2 hc)))
          (fun c hc => hr c (hp.mem_iff.2 hc)) hb e2]

theorem mouth_range (m : Mesh K) (e : Ref) :
    0 ≤ mouthToIncrement m e + 1 ∧ mouthToIncrement m e + 1 < 5 := by
  have pos : ∀ b : Bool, 0 ≤ b2i b ∧ b2i b ≤ 1 := fun b => by cases b <;> decide
  have p1 := pos (isCol m (m.lfs e) (m.stop (m.rfs e)))
  have p2 := pos (isCol m (m.lfe e) (m.stop (m.rfe e)))
  have p3 := pos (isCol m e (m.stop (m.rfs e)))
  have p4 := pos (isCol m e (m.stop (m.rfe e)))
  unfold mouthToIncrement
  omega

theorem MInv.refill_order {s : MouthState K} (h : MInv P s D B) (o o' : EdgeOrder) (fuel : Nat) :
    toMouthsIncrements fuel s.mesh (o.order s.candidates) =
      toMouthsIncrements fuel s.mesh (o'.order s.candidates) :=
  h.bord.fill_perm ((o.perm _).trans (o'.perm _).symm) ((o.perm _).nodup_iff.2 h.candNodup)
    (fun c hc => h.cand c (o.mem.1 hc)) (fun c _ => mouth_range _ c) rfl

/-! ## Loops -/

/-- The first loop does not depend on the order of its candidates. -/
theorem MInv.loop_order {inner : Nat} (o o' : EdgeOrder) (fuel : Nat) {s : MouthState K}
    (hs : MInv P s D B) : mouthLoop o inner fuel s = mouthLoop o' inner fuel s := by
  induction fuel generalizing s D B with
  | zero => rfl
  | succ n ih =>
    unfold mouthLoop
    split
    · split
      · cases h1 : mouthLoopNeg inner (s.buckets.getD 0 []).length s with
        | error x => rfl
        | ok p =>
          obtain ⟨s1, r⟩ := p
          obtain ⟨hI, hr⟩ := hs.neg _ h1
          cases r with
          | none => rfl
          | some p =>
            obtain ⟨c, a⟩ := p
            obtain ⟨hc, hcv⟩ := hr _ _ rfl
            show (mouthDelete inner s1 c a 1 >>= _) = (mouthDelete inner s1 c a 1 >>= _)
            cases h2 : mouthDelete inner s1 c a 1 with
            | error x => rfl
            | ok s2 => exact ih (hI.del hc hcv h2)
      · rename_i target _
        cases h1 : mouthLoopPos inner target (s.buckets.getD (target + 1) []).length s with
        | error x => rfl
        | ok p =>
          obtain ⟨s1, r⟩ := p
          obtain ⟨hI, hr⟩ := hs.pos _ h1
          cases r with
          | none =>
            show (toMouthsIncrements inner s1.mesh (o.order s1.candidates) >>= _) =
              (toMouthsIncrements inner s1.mesh (o'.order s1.candidates) >>= _)
            rw [hI.refill_order o o']
            cases hb : toMouthsIncrements inner s1.mesh (o'.order s1.candidates) with
            | error x => rfl
            | ok b =>
              exact ih (s := { s1 with buckets := b })
                ⟨hI.bord, hI.head, hI.pts, hI.cand, hI.candNodup,
                  BOk.mouths (fun c hc => hI.cand c (o'.mem.1 hc))
                    ((o'.perm _).nodup_iff.2 hI.candNodup) hb⟩
          | some p =>
            obtain ⟨c, a⟩ := p
            obtain ⟨hc, hcv⟩ := hr _ _ rfl
            show (mouthDelete inner s1 c a target >>= _) = (mouthDelete inner s1 c a target >>= _)
            cases h2 : mouthDelete inner s1 c a target with
            | error x => rfl
            | ok s2 => exact ih (hI.del hc hcv h2)
    · rfl

/-- Without collinear points the second loop does not depend on the order of its candidates. -/
theorem Bord.ears_order (h : Bord P m D B) (hg : NoThree P) (o o' : EdgeOrder) {fuel inner : Nat}
    {ec : List Ref} (hec : ∀ c ∈ ec, c ∈ B) {b : Buckets K}
    (hb : toEarsIncrements inner m (o.order ec) = .ok b) (left : Int) :
    earLoop o inner fuel { mesh := m, tri := t, candidates := ec, buckets := b, left := left } =
      earLoop o' inner fuel { mesh := m, tri := t, candidates := ec, buckets := b, left := left } := by
  rcases fuel with _ | fuel
  · rfl
  unfold toEarsIncrements at hb
  have low := ears_low _ (fun c hc => h.ear_le hg (hec c (o.mem.1 hc))) (by
    intro j hj
    exact replicate_getD j) hb
  have ht : targetIncrement b 3 left = none := targetIncrement_none low
  unfold earLoop
  dsimp only
  rw [ht]

/-- The vertex sequence of distinct points no three of which are on a line does not depend on the
order in which sets of edges are enumerated. -/
theorem toVertexSequence_edges {fuel : Nat} {coins : Nat → List Nat} (hcoin : Sums coins)
    (o o' : EdgeOrder) {pts : List (Point K)} (hn : pts.Nodup) (hg : NoThree pts) (size : Int) :
    toVertexSequence fuel coins o pts size = toVertexSequence fuel coins o' pts size := by
  unfold toVertexSequence
  cases hd : delaunay fuel (coins pts.length) pts with
  | error x => rfl
  | ok p =>
    obtain ⟨m, t⟩ := p
    show (boundaryEdges fuel m t >>= _) = (boundaryEdges fuel m t >>= _)
    cases hes : boundaryEdges fuel m t with
    | error x => rfl
    | ok es =>
      show toVertexSequence' fuel o m t es size = toVertexSequence' fuel o' m t es size
      unfold toVertexSequence'
      dsimp only
      split
      · rfl
      have nc : ¬ AllCol pts := by
        intro hcol
        obtain ⟨g, ht⟩ := Good.delaunay hd
        have hE := g.boundaryEdges ht hes
        have hall : ∀ v ∈ es.map m.start, v ∈ pts := by
          intro v hv
          obtain ⟨e, he, rfl⟩ := List.mem_map.1 hv
          exact g.start (hE e he)
        have := compressContour_col (l := es.map m.start)
          (fun x hx y hy z hz => hcol x (hall x hx) y (hall y hy) z (hall z hz))
        omega
      have h2 : 2 ≤ pts.length := by
        by_contra hlt
        apply nc
        rcases pts with _ | ⟨a, _ | ⟨b, l⟩⟩
        · intro x hx; simp at hx
        · intro x hx y hy z hz
          simp only [List.mem_singleton] at hx hy hz
          subst hx hy hz
          simp
        · simp at hlt
      obtain ⟨D, hT⟩ := delaunay_tgl hn (hcoin _ h2) hd
      obtain ⟨hB, hiff, hhead⟩ := hT.bord nc hes
      have nd : es.Nodup := List.Nodup.of_map _ hB.nodup
      cases hb : toMouthsIncrements fuel m es with
      | error x => rfl
      | ok b =>
        have hinv : MInv pts { mesh := m, tri := t, boundaryPoints := (es.map m.start).dedup
                               candidates := es, buckets := b
                               left := size - (compressContour (es.map m.start)).length } D es := by
          refine ⟨hB, hhead, fun f hf => ?_, fun c hc => hc, nd, BOk.mouths (fun c hc => hc) nd hb⟩
          dsimp only
          rw [List.mem_dedup]
          exact List.mem_map_of_mem hf
        show (mouthLoop o fuel fuel _ >>= _) = (mouthLoop o' fuel fuel _ >>= _)
        rw [hinv.loop_order o o']
        cases hl : mouthLoop (K := K) o' fuel fuel _ with
        | error x => rfl
        | ok s =>
          obtain ⟨D', B', hI⟩ := hinv.loop _ hl
          have fin : ∀ ec : List Ref, ec.Nodup → (∀ c ∈ ec, c ∈ B') → (do
              let eb ← toEarsIncrements fuel s.mesh (o.order ec)
              let s' ← earLoop o fuel fuel
                { mesh := s.mesh, tri := s.tri, candidates := ec, buckets := eb, left := s.left }
              triToBorderVertices fuel s'.mesh s'.tri) = (do
              let eb ← toEarsIncrements fuel s.mesh (o'.order ec)
              let s' ← earLoop o' fuel fuel
                { mesh := s.mesh, tri := s.tri, candidates := ec, buckets := eb, left := s.left }
              triToBorderVertices fuel s'.mesh s'.tri) := by
            intro ec hec1 hec2
            have e1 : toEarsIncrements fuel s.mesh (o'.order ec) =
                toEarsIncrements fuel s.mesh (o.order ec) :=
              hI.bord.fill_perm ((o'.perm _).trans (o.perm _).symm) ((o'.perm _).nodup_iff.2 hec1)
                (fun c hc => hec2 c (o'.mem.1 hc)) (fun c hc => by
                  have h1 := hI.bord.ear_le hg (hec2 c (o'.mem.1 hc))
                  have h2 := Bord.ear_ge s.mesh c
                  omega) rfl
            rw [e1]
            cases heb : toEarsIncrements fuel s.mesh (o.order ec) with
            | error x => rfl
            | ok eb =>
              show (earLoop o fuel fuel _ >>= _) = (earLoop o' fuel fuel _ >>= _)
              rw [hI.bord.ears_order hg o o' hec2 heb]
          show ((if s.left > 0 then boundaryEdges fuel s.mesh s.tri else pure []) >>= _) =
            ((if s.left > 0 then boundaryEdges fuel s.mesh s.tri else pure []) >>= _)
          split
          · cases hes' : boundaryEdges fuel s.mesh s.tri with
            | error x => rfl
            | ok es' =>
              have hw := hI.bord.walk hI.head hes'
              subst hw
              exact fin es' (List.Nodup.of_map _ hI.bord.nodup) (fun c hc => hc)
          · exact fin [] (by simp) (by simp)

/-! ## Strategies -/

/-- The same environment with another iteration order of sets of edges. -/
def Spec.withEdges (env : Env K) (o : EdgeOrder) : Env K := { env with edgeOrder := o }

theorem bind_congr_val {α β : Type} {s : Strategy α} {f g : α → Strategy β}
    (h : ∀ a, s.val a → f a = g a) : s.bind f = s.bind g := by
  refine Strategy.ext (funext fun b => propext ?_) (funext fun e => propext ?_)
  · exact exists_congr fun a => and_congr_right fun ha => by rw [h a ha]
  · exact or_congr Iff.rfl (exists_congr fun a => and_congr_right fun ha => by rw [h a ha])

theorem mapE_congr_val {α β : Type} {s : Strategy α} {f g : α → Except Exc β}
    (h : ∀ a, s.val a → f a = g a) : s.mapE f = s.mapE g :=
  bind_congr_val fun a ha => by rw [h a ha]

theorem Spec.GenericCoords.mono {x x' : Strategy K} {y y' : Option (Strategy K)}
    (h : GenericCoords x y) (hx : ∀ a, x'.val a → x.val a)
    (hy : ∀ b, (y'.getD x').val b → (y.getD x).val b) : GenericCoords x' y' := by
  have k : ∀ p, Drawn x' y' p → Drawn x y p := fun p hp =>
    drawn_iff.2 ⟨hx _ (drawn_iff.1 hp).1, hy _ (drawn_iff.1 hp).2⟩
  exact fun a b c ha hb hc => h a b c (k a ha) (k b hb) (k c hc)

theorem Spec.GenericCoords.some {x : Strategy K} {y : Option (Strategy K)}
    (h : GenericCoords x y) : GenericCoords x (some (yOr x y)) :=
  h.mono (fun _ h => h) (fun _ h => h)

theorem starLoop_edges (env : Env K) (o : EdgeOrder) (n : Nat) (c : Point K)
    (k : Nat) (vs : List (Point K)) : starLoop (withEdges env o) n c k vs = starLoop env n c k vs := by
  induction n generalizing c k vs with
  | zero => rfl
  | succ n ih =>
    rw [starLoop, starLoop]
    split
    · exact ih _ _ _
    · rfl

theorem toStarStrategy_edges (env : Env K) (o : EdgeOrder) (x : Strategy K)
    (y : Option (Strategy K)) (lo : Int) (hi : Option Int) :
    toStarStrategy (withEdges env o) x y lo hi = toStarStrategy env x y lo hi := by
  unfold toStarStrategy
  have : toStarContourVertices (withEdges env o) = toStarContourVertices env := by
    funext pts
    exact starLoop_edges env o _ _ _ _
  rw [this]

theorem toVertexSequences_edges {env : Env K} (hcoin : Sums env.coinChange) (o : EdgeOrder)
    {x : Strategy K} {y : Option (Strategy K)} (hgen : GenericCoords x y) {lo : Int}
    (h3 : 3 ≤ lo) (hi : Option Int) :
    toVertexSequences (withEdges env o) x y lo hi = toVertexSequences env x y lo hi := by
  unfold toVertexSequences
  rw [toStarStrategy_edges]
  refine congrArg (fun s => _ ||| s) (congrArg (fun s => Strategy.filter s _) ?_)
  refine mapE_congr_val fun p hp => ?_
  obtain ⟨pts, hpts, hp1, -⟩ := hp
  have e : p.1 = pts := hp1
  rw [e]
  exact toVertexSequence_edges hcoin _ _ (C35_distinct x y _ _ h3 _ hpts).1
    (generalPosition_noThree hgen h3 hpts) _

theorem toVertexSequenceStrategy_edges {env : Env K} (hcoin : Sums env.coinChange) (o : EdgeOrder)
    {x : Strategy K} {y : Option (Strategy K)} (hgen : GenericCoords x y) {lo : Int}
    (h3 : 3 ≤ lo) (hi : Option Int) :
    toVertexSequenceStrategy (withEdges env o) x y lo hi =
      toVertexSequenceStrategy env x y lo hi := by
  unfold toVertexSequenceStrategy
  rw [toVertexSequences_edges hcoin o hgen h3]
  rfl

theorem toSegmentSequenceStrategy_edges {env : Env K} (hcoin : Sums env.coinChange) (o : EdgeOrder)
    {x : Strategy K} {y : Option (Strategy K)} (hgen : GenericCoords x y) (lo : Int)
    (hi : Option Int) :
    toSegmentSequenceStrategy (withEdges env o) x y lo hi =
      toSegmentSequenceStrategy env x y lo hi := by
  unfold toSegmentSequenceStrategy
  simp only [toVertexSequenceStrategy_edges hcoin o hgen.some (le_max_right lo 3)]
  rfl

theorem multicontourLoop_edges {env : Env K} (hcoin : Sums env.coinChange) (o : EdgeOrder)
    {pts : List (Point K)} (hn : pts.Nodup) (hg : NoThree pts) (prior : Option Bool)
    (l : List (Int × Bool)) :
    multicontourLoop (withEdges env o) pts prior l = multicontourLoop env pts prior l := by
  induction l generalizing pts prior with
  | nil => rfl
  | cons a l ih =>
    obtain ⟨size, key⟩ := a
    have hperm : (if prior ≠ some key then sortByKey key pts else pts).Perm pts := by
      split
      · exact sortByKey_perm _ _
      · exact List.Perm.refl _
    simp only [multicontourLoop]
    generalize (if prior ≠ some key then sortByKey key pts else pts) = ps at hperm
    have hps : ps.Nodup := hperm.nodup_iff.2 hn
    have hgs : NoThree ps := noThree_mono hg fun p hp => hperm.mem_iff.1 hp
    have e1 : toVertexSequence (withEdges env o).fuel (withEdges env o).coinChange
        (withEdges env o).edgeOrder (ps.take size.toNat) size =
        toVertexSequence env.fuel env.coinChange env.edgeOrder (ps.take size.toNat) size :=
      toVertexSequence_edges hcoin _ _ (hps.sublist (List.take_sublist _ _))
        (noThree_mono hgs fun p hp => List.mem_of_mem_take hp) _
    have e2 : ∀ n k, multicontourLoop (withEdges env o) (ps.drop n) k l =
        multicontourLoop env (ps.drop n) k l := fun n k =>
      ih (hps.sublist (List.drop_sublist _ _)) (noThree_mono hgs fun p hp => List.mem_of_mem_drop hp) k
    rw [e1]
    simp only [e2, ih hps hgs]

theorem toMulticontourStrategy_edges {env : Env K} (hcoin : Sums env.coinChange) (o : EdgeOrder)
    {x : Strategy K} {y : Option (Strategy K)} (hgen : GenericCoords x y) {lo clo : Int}
    (h3 : 3 ≤ lo * clo) (hi chi : Option Int) :
    toMulticontourStrategy (withEdges env o) x y lo hi clo chi =
      toMulticontourStrategy env x y lo hi clo chi := by
  unfold toMulticontourStrategy
  refine congrArg (fun s => Strategy.filter s _) (bind_congr_val fun pts hpts => ?_)
  refine congrArg _ (funext fun p => ?_)
  exact multicontourLoop_edges hcoin o (C35_distinct x y _ _ h3 _ hpts).1
    (generalPosition_noThree hgen h3 hpts) _ _

/-! ## Polygons -/

theorem holeLoop_edges {env : Env K} (hcoin : Sums env.coinChange) (o : EdgeOrder)
    {s : HoleState K} (hn : s.innerPoints.Nodup) (hg : NoThree s.innerPoints)
    (prior : Option Bool) (l : List (Int × Bool)) :
    holeLoop (withEdges env o) s prior l = holeLoop env s prior l := by
  induction l generalizing s prior with
  | nil => rfl
  | cons a l ih =>
    obtain ⟨size, key⟩ := a
    have hperm : (if prior ≠ some key then sortByKey key s.innerPoints else s.innerPoints).Perm
        s.innerPoints := by
      split
      · exact sortByKey_perm _ _
      · exact List.Perm.refl _
    simp only [holeLoop]
    generalize (if prior ≠ some key then sortByKey key s.innerPoints else s.innerPoints) = ps
      at hperm
    have hps : ps.Nodup := hperm.nodup_iff.2 hn
    have hgs : NoThree ps := noThree_mono hg fun p hp => hperm.mem_iff.1 hp
    have e1 : toVertexSequence (withEdges env o).fuel (withEdges env o).coinChange
        (withEdges env o).edgeOrder (ps.take size.toNat) size =
        toVertexSequence env.fuel env.coinChange env.edgeOrder (ps.take size.toNat) size :=
      toVertexSequence_edges hcoin _ _ (hps.sublist (List.take_sublist _ _))
        (noThree_mono hgs fun p hp => List.mem_of_mem_take hp) _
    have e2 : ∀ n b hs es k, holeLoop (withEdges env o) ⟨ps.drop n, b, hs, es⟩ k l =
        holeLoop env ⟨ps.drop n, b, hs, es⟩ k l := fun n b hs es k =>
      ih (s := ⟨ps.drop n, b, hs, es⟩) (hps.sublist (List.drop_sublist _ _))
        (noThree_mono hgs fun p hp => List.mem_of_mem_drop hp) k
    have e3 : ∀ b hs es k, holeLoop (withEdges env o) ⟨ps, b, hs, es⟩ k l =
        holeLoop env ⟨ps, b, hs, es⟩ k l := fun b hs es k =>
      ih (s := ⟨ps, b, hs, es⟩) hps hgs k
    rw [e1]
    simp only [e2, e3]
    rfl

theorem borderLoop_edges (env : Env K) (o : EdgeOrder)
    (he : List (Segment K)) (n : Int) (fuel : Nat) (s : BorderState K) :
    borderLoop (withEdges env o) he n fuel s = borderLoop env he n fuel s := by
  induction fuel generalizing s with
  | zero => rfl
  | succ k ih =>
    simp only [borderLoop, ih]
    rfl

theorem toPolygon_edges {env : Env K} (hcoin : Sums env.coinChange)
    (hset : ∀ l, (env.setOrder l).Perm l) (o : EdgeOrder) {pts : List (Point K)} (hn : pts.Nodup)
    (hg : NoThree pts) (n : Int) (hs : List Int) (ch : Nat → Bool) :
    toPolygon (withEdges env o) pts n hs ch = toPolygon env pts n hs ch := by
  unfold toPolygon
  have : ∀ (q : Point K → Bool) b l, holeLoop (withEdges env o)
      ⟨(withEdges env o).setOrder (pts.filter q), b, [], []⟩ none l =
      holeLoop env ⟨env.setOrder (pts.filter q), b, [], []⟩ none l := fun q b l =>
    holeLoop_edges hcoin o ((hset _).nodup_iff.2 (hn.filter _))
      (noThree_mono hg fun p hp => (List.mem_filter.1 ((hset _).mem_iff.1 hp)).1) _ _
  simp only [this, borderLoop_edges]
  rfl

theorem toPolygonStrategy_edges {env : Env K} (hcoin : Sums env.coinChange)
    (hset : ∀ l, (env.setOrder l).Perm l) (o : EdgeOrder) {x : Strategy K}
    {y : Option (Strategy K)} (hgen : GenericCoords x y) {z : PolygonSizes}
    (h3 : 3 ≤ z.minSize + z.minHoleSize * z.minHoleCount) :
    toPolygonStrategy (withEdges env o) x y z = toPolygonStrategy env x y z := by
  unfold toPolygonStrategy
  refine congrArg (fun s => Strategy.filter s _) ?_
  refine bind_congr_val fun pts hpts => ?_
  unfold pointsToPolygonStrategy
  simp only [toPolygon_edges hcoin hset o (C35_distinct x y _ _ h3 _ hpts.1).1
    (generalPosition_noThree hgen h3 hpts.1)]
  rfl

/-- Generic coordinates of a slab. -/
def GenericSlab (a : Bool) (coords : List K) (other : Strategy K) : Prop :=
  if a then GenericCoords (sampledFrom coords) (some other)
  else GenericCoords other (some (sampledFrom coords))

theorem GenericSlab.mono {a : Bool} {coords cs : List K} {other : Strategy K}
    (h : GenericSlab a coords other) (hs : ∀ c ∈ cs, c ∈ coords) : GenericSlab a cs other := by
  unfold GenericSlab at *
  split <;> rename_i ha <;> simp only [ha, if_true, Bool.false_eq_true, if_false] at h
  · exact h.mono (fun c hc => hs c hc) (fun _ h => h)
  · exact h.mono (fun _ h => h) (fun c hc => hs c hc)

theorem slabPolygon_edges {env : Env K} (hcoin : Sums env.coinChange)
    (hset : ∀ l, (env.setOrder l).Perm l) (o : EdgeOrder) {a : Bool} {cs : List K}
    {other : Strategy K} (hgen : GenericSlab a cs other) {z : PolygonSizes}
    (h3 : 3 ≤ z.minSize + z.minHoleSize * z.minHoleCount) :
    slabPolygon (withEdges env o) a cs other z = slabPolygon env a cs other z := by
  unfold slabPolygon
  unfold GenericSlab at hgen
  split <;> rename_i ha <;> simp only [ha, if_true, Bool.false_eq_true, if_false] at hgen
  · exact toPolygonStrategy_edges hcoin hset o hgen h3
  · exact toPolygonStrategy_edges hcoin hset o hgen h3

theorem slabLoop_edges {env : Env K} (hcoin : Sums env.coinChange)
    (hset : ∀ l, (env.setOrder l).Perm l) (o : EdgeOrder) {a : Bool} {cs : List K}
    {other : Strategy K} (hgen : GenericSlab a cs other) {z : PolygonSizes}
    (h3 : 3 ≤ z.minSize + z.minHoleSize * z.minHoleCount) (mp : Int) (n : Nat) (start : Int) :
    slabLoop (withEdges env o) a cs other z mp n start = slabLoop env a cs other z mp n start := by
  have e1 : ∀ k, slabPolygon (withEdges env o) a (cs.drop k) other z =
      slabPolygon env a (cs.drop k) other z := fun k =>
    slabPolygon_edges hcoin hset o (hgen.mono fun c hc => List.mem_of_mem_drop hc) h3
  have e2 : ∀ i j, slabPolygon (withEdges env o) a (slice cs i j) other z =
      slabPolygon env a (slice cs i j) other z := fun i j =>
    slabPolygon_edges hcoin hset o
      (hgen.mono fun c hc => List.mem_of_mem_drop (List.mem_of_mem_take hc)) h3
  induction n generalizing start with
  | zero => simp only [slabLoop, e1]
  | succ n ih => simp only [slabLoop, e2, ih]

theorem coordsToPolygons_edges {env : Env K} (hcoin : Sums env.coinChange)
    (hset : ∀ l, (env.setOrder l).Perm l) (o : EdgeOrder) {a : Bool} {cs : List K}
    {other : Strategy K} (hgen : GenericSlab a cs other) {z : PolygonSizes}
    (h3 : 3 ≤ z.minSize + z.minHoleSize * z.minHoleCount) (mp lo : Int) (hi : Option Int) :
    coordsToPolygons (withEdges env o) a other z mp lo hi cs =
      coordsToPolygons env a other z mp lo hi cs := by
  unfold coordsToPolygons
  simp only [slabLoop_edges hcoin hset o
    (hgen.mono fun c hc => (sortCoords_perm cs).mem_iff.1 hc) h3]

theorem genericSlab_x {x : Strategy K} {y : Option (Strategy K)} (hgen : GenericCoords x y)
    {cs : List K} (h : ∀ c ∈ cs, x.val c) : GenericSlab true cs (yOr x y) :=
  hgen.mono (fun c hc => h c hc) (fun _ h => h)

theorem genericSlab_y {x : Strategy K} {y : Option (Strategy K)} (hgen : GenericCoords x y)
    {cs : List K} (h : ∀ c ∈ cs, (yOr x y).val c) : GenericSlab false cs x :=
  hgen.mono (fun _ h => h) (fun c hc => h c hc)

theorem toMultipolygonStrategy_edges {env : Env K} (hcoin : Sums env.coinChange)
    (hset : ∀ l, (env.setOrder l).Perm l) (o : EdgeOrder) {x : Strategy K}
    {y : Option (Strategy K)} (hgen : GenericCoords x y) {lo : Int} (hlo : 1 ≤ lo)
    (hi : Option Int) {z : PolygonSizes} (hz : 3 ≤ z.minSize)
    (h3 : 3 ≤ z.minSize + z.minHoleSize * z.minHoleCount) :
    toMultipolygonStrategy (withEdges env o) x y lo hi z =
      toMultipolygonStrategy env x y lo hi z := by
  unfold toMultipolygonStrategy
  refine congrArg _ (funext fun mp => ?_)
  have e1 : ∀ mt mm, (uniqueLists x mt mm).bind
      (coordsToPolygons (withEdges env o) true (yOr x y) z mp lo hi) =
      (uniqueLists x mt mm).bind (coordsToPolygons env true (yOr x y) z mp lo hi) := fun mt mm =>
    bind_congr_val fun cs hcs => coordsToPolygons_edges hcoin hset o (genericSlab_x hgen hcs.1) h3 _ _ _
  have e2 : ∀ mt mm, (uniqueLists (yOr x y) mt mm).bind
      (coordsToPolygons (withEdges env o) false x z mp lo hi) =
      (uniqueLists (yOr x y) mt mm).bind (coordsToPolygons env false x z mp lo hi) := fun mt mm =>
    bind_congr_val fun cs hcs => coordsToPolygons_edges hcoin hset o (genericSlab_y hgen hcs.1) h3 _ _ _
  simp only [e1, e2, toMulticontourStrategy_edges hcoin o hgen.some
    (show 3 ≤ lo * z.minSize by nlinarith)]

/-! ## Mixes -/

theorem runDrawer_edges {env : Env K} (hcoin : Sums env.coinChange)
    (hset : ∀ l, (env.setOrder l).Perm l) (o : EdgeOrder) {a : Bool} {cs : List K}
    {other : Strategy K} (hgen : GenericSlab a cs other) {z : PolygonSizes}
    (h3 : 3 ≤ z.minSize + z.minHoleSize * z.minHoleCount) (d : Drawer) (n : Int)
    (s : MixState K) :
    runDrawer (withEdges env o) a cs other z d n s = runDrawer env a cs other z d n s := by
  have hgen' : ∀ k, GenericSlab a (cs.take k) other := fun k =>
    hgen.mono fun c hc => List.mem_of_mem_take hc
  cases d with
  | points => rfl
  | segments =>
    simp only [runDrawer, drawSegments]
    have h := hgen' n.toNat
    unfold GenericSlab at h
    cases a
    · simp only [Bool.false_eq_true, if_false] at h ⊢
      rw [toSegmentSequenceStrategy_edges hcoin o h]
    · simp only [if_true] at h ⊢
      rw [toSegmentSequenceStrategy_edges hcoin o h]
  | polygon => simp only [runDrawer, drawPolygon, slabPolygon_edges hcoin hset o (hgen' _) h3]

theorem mixLoop_edges {env : Env K} (hcoin : Sums env.coinChange)
    (hset : ∀ l, (env.setOrder l).Perm l) (o : EdgeOrder) {a : Bool}
    {other : Strategy K} {z : PolygonSizes}
    (h3 : 3 ≤ z.minSize + z.minHoleSize * z.minHoleCount) (l : List (Drawer × Int)) {cs : List K}
    (hgen : GenericSlab a cs other) (s : MixState K) :
    mixLoop (withEdges env o) a other z l cs s = mixLoop env a other z l cs s := by
  induction l generalizing cs s with
  | nil => rfl
  | cons d l ih =>
    obtain ⟨d, n⟩ := d
    have e : ∀ k s, mixLoop (withEdges env o) a other z l (cs.drop k) s =
        mixLoop env a other z l (cs.drop k) s := fun k s =>
      ih (hgen.mono fun c hc => List.mem_of_mem_drop hc) s
    simp only [mixLoop, runDrawer_edges hcoin hset o hgen h3, e]

theorem toMixStrategy_edges {env : Env K} (hcoin : Sums env.coinChange)
    (hset : ∀ l, (env.setOrder l).Perm l) (o : EdgeOrder) {x : Strategy K}
    {y : Option (Strategy K)} (hgen : GenericCoords x y) {z : MixSizes}
    (h3 : 3 ≤ z.polygon.minSize + z.polygon.minHoleSize * z.polygon.minHoleCount) :
    toMixStrategy (withEdges env o) x y z = toMixStrategy env x y z := by
  have e : ∀ a other mp cs, GenericSlab a cs other → coordsToMix (withEdges env o) a other z mp cs =
      coordsToMix env a other z mp cs := by
    intro a other mp cs h
    unfold coordsToMix
    simp only [mixLoop_edges hcoin hset o h3 _
      (h.mono fun c hc => (sortCoords_perm cs).mem_iff.1 hc)]
  unfold toMixStrategy
  refine congrArg _ (funext fun mp => ?_)
  have e1 : ∀ mt mm, (uniqueLists x mt mm).bind (coordsToMix (withEdges env o) true (yOr x y) z mp) =
      (uniqueLists x mt mm).bind (coordsToMix env true (yOr x y) z mp) := fun mt mm =>
    bind_congr_val fun cs hcs => e _ _ _ _ (genericSlab_x hgen hcs.1)
  have e2 : ∀ mt mm, (uniqueLists (yOr x y) mt mm).bind (coordsToMix (withEdges env o) false x z mp) =
      (uniqueLists (yOr x y) mt mm).bind (coordsToMix env false x z mp) := fun mt mm =>
    bind_congr_val fun cs hcs => e _ _ _ _ (genericSlab_y hgen hcs.1)
  simp only [e1, e2]

theorem unionMixes_edges {env : Env K} (hcoin : Sums env.coinChange)
    (hset : ∀ l, (env.setOrder l).Perm l) (o : EdgeOrder) {x : Strategy K}
    {y : Option (Strategy K)} (hgen : GenericCoords x y) : ∀ l : List MixSizes,
    (∀ z ∈ l, 3 ≤ z.polygon.minSize + z.polygon.minHoleSize * z.polygon.minHoleCount) →
    unionMixes (withEdges env o) x y l = unionMixes env x y l
  | [], _ => rfl
  | [z], h => toMixStrategy_edges hcoin hset o hgen (h z (by simp))
  | z :: z' :: zs, h => by
    simp only [unionMixes, toMixStrategy_edges hcoin hset o hgen (h z (by simp)),
      unionMixes_edges hcoin hset o hgen (z' :: zs) fun w hw => h w (by simp [hw])]

/-! ## The claim -/

/-- C45 without slanted collinear triples: the iteration order of sets of edges has no influence on
contours and multisegments: the same values can be generated, the same exceptions and warnings can
arise. -/
theorem C45_edges_contours_partial (env : Env K) (hcoin : Sums env.coinChange) (o : EdgeOrder)
    (x : Strategy K) (y : Option (Strategy K)) (hgen : GenericCoords x y) :
    (∀ lo hi, contours (withEdges env o) x y lo hi = contours env x y lo hi) ∧
    (∀ lo hi, concaveContours (withEdges env o) x y lo hi = concaveContours env x y lo hi) ∧
    (∀ lo hi, multisegments (withEdges env o) x y lo hi = multisegments env x y lo hi) ∧
    (∀ lo hi clo chi, multicontours (withEdges env o) x y lo hi clo chi =
      multicontours env x y lo hi clo chi) := by
  refine ⟨fun lo hi => ?_, fun lo hi => ?_, fun lo hi => ?_, fun lo hi clo chi => ?_⟩
  · unfold contours
    simp only [toVertexSequenceStrategy_edges hcoin o hgen (le_max_right lo 3)]
  · unfold concaveContours toConcaveStrategy
    have : 3 ≤ max lo 4 := by have := le_max_right lo 4; omega
    simp only [toVertexSequences_edges hcoin o hgen this]
  · unfold multisegments toMultisegmentStrategy
    simp only [toSegmentSequenceStrategy_edges hcoin o hgen]
  · unfold multicontours
    have h1 : 2 ≤ max lo 2 := le_max_right _ _
    have h2 : 3 ≤ max clo 3 := le_max_right _ _
    simp only [toMulticontourStrategy_edges hcoin o hgen
      (show 3 ≤ max lo 2 * max clo 3 by nlinarith)]

/-- C45 without slanted collinear triples, for strategies with polygons. -/
theorem C45_edges_polygons_partial (env : Env K) (hcoin : Sums env.coinChange)
    (hset : ∀ l, (env.setOrder l).Perm l) (o : EdgeOrder)
    (x : Strategy K) (y : Option (Strategy K)) (hgen : GenericCoords x y) :
    (∀ lo hi nlo nhi hlo hhi, polygons (withEdges env o) x y lo hi nlo nhi hlo hhi =
      polygons env x y lo hi nlo nhi hlo hhi) ∧
    (∀ lo hi blo bhi nlo nhi hlo hhi, 0 ≤ nlo →
      multipolygons (withEdges env o) x y lo hi blo bhi nlo nhi hlo hhi =
        multipolygons env x y lo hi blo bhi nlo nhi hlo hhi) ∧
    (∀ a, mixes (withEdges env o) x y a = mixes env x y a) := by
  refine ⟨fun lo hi nlo nhi hlo hhi => ?_, fun lo hi blo bhi nlo nhi hlo hhi h0 => ?_, fun a => ?_⟩
  · have h1 : 3 ≤ max lo 3 := le_max_right _ _
    have h2 : 0 ≤ max nlo 0 := le_max_right _ _
    have h3 : 3 ≤ max hlo 3 := le_max_right _ _
    unfold polygons
    rw [toPolygonStrategy_edges hcoin hset o hgen (by dsimp only; nlinarith)]
  · have h1 : 3 ≤ max blo 3 := le_max_right _ _
    have h2 : 2 ≤ max lo 2 := le_max_right _ _
    have h3 : 3 ≤ max hlo 3 := le_max_right _ _
    unfold multipolygons
    rw [toMultipolygonStrategy_edges hcoin hset o hgen (by omega) _ (by exact h1)
      (by dsimp only; nlinarith)]
  · unfold mixes
    rw [unionMixes_edges hcoin hset o hgen]
    intro z hz
    have h1 : 3 ≤ max a.minPolygonBorderSize 3 := le_max_right _ _
    have h2 : 0 ≤ max a.minPolygonHolesSize 0 := le_max_right _ _
    have h3 : 3 ≤ max a.minPolygonHoleSize 3 := le_max_right _ _
    have : ∀ p s g, 3 ≤ (a.sizes p s g).polygon.minSize +
        (a.sizes p s g).polygon.minHoleSize * (a.sizes p s g).polygon.minHoleCount := by
      intro p s g
      show 3 ≤ max a.minPolygonBorderSize 3 + max a.minPolygonHoleSize 3 * max a.minPolygonHolesSize 0
      nlinarith
    unfold MixArgs.branches at hz
    dsimp only at hz
    split at hz <;> (try split at hz) <;> (try split at hz) <;>
      simp only [List.mem_cons, List.not_mem_nil, or_false] at hz
    · rcases hz with rfl | rfl | rfl <;> exact this _ _ _
    all_goals exact hz ▸ this _ _ _

end

open Sample

/-- The reversed order of enumeration. -/
def Sample.backwards : EdgeOrder := ⟨List.reverse, List.reverse_perm⟩

/-- Non-vacuity: the contour with seven vertices that is not convex is also generated when sets of
edges are enumerated backwards. -/
example : ∃ s, concaveContours (withEdges env backwards) (sampledFrom genXs)
      (some (sampledFrom genYs)) = .ok s ∧
    s.2.val ⟨[⟨0, 1⟩, ⟨6, 10⟩, ⟨4, 100⟩, ⟨5, 10000⟩, ⟨2, 10000⟩, ⟨3, 100⟩, ⟨1, 10⟩]⟩ := by
  rw [(C45_edges_contours_partial env coins_sums backwards _ _ gen_generic).2.1]
  exact sample_generic_contour

/-- Non-vacuity: a polygon with a hole. -/
example : ∃ s, polygons (withEdges env backwards) (sampledFrom genXs) (some (sampledFrom genYs))
      (minHolesSize := 1) = .ok s ∧
    s.2.val ⟨⟨[⟨0, 1⟩, ⟨6, 10⟩, ⟨5, 10000⟩, ⟨2, 10000⟩]⟩, [⟨[⟨1, 10⟩, ⟨3, 100⟩, ⟨4, 100⟩]⟩]⟩ := by
  rw [(C45_edges_polygons_partial env coins_sums (fun l => List.Perm.refl l) backwards _ _
    gen_generic).1]
  exact sample_generic_polygon

end HG
