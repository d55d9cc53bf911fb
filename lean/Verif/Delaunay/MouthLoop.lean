import Verif.Delaunay.Flip

/-!
# The first loop of the vertex sequence construction keeps a triangulated region
-/

set_option linter.unusedSectionVars false

namespace HG

variable {K : Type} [CommRing K] [LinearOrder K] [IsStrictOrderedRing K] {o : EdgeOrder}
variable {P : List (Point K)} {m : Mesh K} {D : Ref → Prop} {t : Tri} {B : List Ref} {e : Ref}

/-- The edges stored in buckets. -/
def Buckets.vals (b : Buckets K) : List Ref := b.flatMap KeyedSet.vals

theorem Buckets.vals_set {b : Buckets K} {i : Nat} {r : KeyedSet K}
    (h : (b.getD i []).popmax = some (e, r)) : b.vals.Perm (e :: (Buckets.vals (b.set i r))) := by
  induction b generalizing i with
  | nil => simp [KeyedSet.popmax] at h
  | cons a b ih =>
    rcases i with _ | i
    · rw [List.getD_cons_zero] at h
      rw [List.set_cons_zero]
      unfold Buckets.vals
      rw [List.flatMap_cons, List.flatMap_cons, KeyedSet.vals_popmax h, List.append_assoc,
        List.singleton_append]
      exact List.perm_middle
    · rw [List.getD_cons_succ] at h
      rw [List.set_cons_succ]
      have := ih h
      unfold Buckets.vals at this ⊢
      rw [List.flatMap_cons, List.flatMap_cons]
      exact (this.append_left _).trans List.perm_middle

theorem Buckets.vals_modify {b : Buckets K} {i : Nat} {k : EdgeKey K} :
    (Buckets.vals (b.modify i (KeyedSet.add k e))).Perm b.vals ∨
      (Buckets.vals (b.modify i (KeyedSet.add k e))).Perm (e :: b.vals) := by
  induction b generalizing i with
  | nil => left; simp
  | cons a b ih =>
    rcases i with _ | i
    · rw [List.modify_zero_cons]
      unfold Buckets.vals
      rw [List.flatMap_cons, List.flatMap_cons]
      rcases KeyedSet.vals_add (s := a) (k := k) (e := e) with h | h
      · left; rw [h]
      · right; exact h.append_right _
    · rw [List.modify_succ_cons]
      unfold Buckets.vals at ih ⊢
      rw [List.flatMap_cons, List.flatMap_cons]
      rcases ih (i := i) with h | h
      · left; exact h.append_left _
      · right; exact (h.append_left _).trans List.perm_middle

theorem Buckets.vals_add {fuel : Nat} {b b' : Buckets K} {i : Int}
    (h : Buckets.add fuel m b i e = .ok b') : b'.vals.Perm b.vals ∨ b'.vals.Perm (e :: b.vals) := by
  unfold Buckets.add at h
  split at h
  · simp [exc_throw_ok, exc_bind_ok] at h
  simp only [exc_bind_ok, exc_pure_ok] at h
  obtain ⟨k, -, h⟩ := h
  subst h
  exact Buckets.vals_modify

/-- The buckets hold distinct edges of the border. -/
structure BOk (b : Buckets K) (B : List Ref) : Prop where
  sub : ∀ c ∈ b.vals, c ∈ B
  nodup : b.vals.Nodup

theorem BOk.add {fuel : Nat} {b b' : Buckets K} {i : Int} (h : BOk b B) (he : e ∈ B) (hn : e ∉ b.vals)
    (ha : Buckets.add fuel m b i e = .ok b') : BOk b' B ∧ ∀ c ∈ b'.vals, c = e ∨ c ∈ b.vals := by
  rcases Buckets.vals_add ha with hp | hp
  · refine ⟨⟨fun c hc => h.sub c (hp.mem_iff.1 hc), hp.nodup_iff.2 h.nodup⟩, fun c hc => .inr (hp.mem_iff.1 hc)⟩
  · have hm : ∀ c ∈ b'.vals, c = e ∨ c ∈ b.vals := fun c hc => by
      have := hp.mem_iff.1 hc
      rwa [List.mem_cons] at this
    refine ⟨⟨fun c hc => ?_, hp.nodup_iff.2 (List.nodup_cons.2 ⟨hn, h.nodup⟩)⟩, hm⟩
    rcases hm c hc with rfl | hc
    · exact he
    · exact h.sub c hc

theorem BOk.fill {fuel : Nat} {f : Ref → Int} (l : List Ref) {b b' : Buckets K} (h : BOk b B)
    (hl : ∀ c ∈ l, c ∈ B) (hn : l.Nodup) (hd : ∀ c ∈ l, c ∉ b.vals)
    (ha : l.foldlM (fun b e => Buckets.add fuel m b (f e) e) b = .ok b') : BOk b' B := by
  induction l generalizing b with
  | nil =>
    simp only [List.foldlM_nil, exc_pure_ok] at ha
    exact ha ▸ h
  | cons a l ih =>
    simp only [List.foldlM_cons, exc_bind_ok] at ha
    obtain ⟨b1, h1, ha⟩ := ha
    rw [List.nodup_cons] at hn
    obtain ⟨k1, k2⟩ := h.add (hl a (by simp)) (hd a (by simp)) h1
    refine ih k1 (fun c hc => hl c (by simp [hc])) hn.2 (fun c hc hh => ?_) ha
    rcases k2 c hh with rfl | hh
    · exact hn.1 hc
    · exact hd c (by simp [hc]) hh

theorem BOk.mouths {fuel : Nat} {l : List Ref} {b : Buckets K} (hl : ∀ c ∈ l, c ∈ B) (hn : l.Nodup)
    (h : toMouthsIncrements fuel m l = .ok b) : BOk b B := by
  have e0 : Buckets.vals (List.replicate 5 ([] : KeyedSet K)) = [] := by
    simp [Buckets.vals, KeyedSet.vals, List.replicate]
  unfold toMouthsIncrements at h
  refine BOk.fill l ⟨?_, ?_⟩ hl hn ?_ h
  · rw [e0]; simp
  · rw [e0]; simp
  · rw [e0]; simp

/-- Invariant of the first loop. -/
structure MInv (P : List (Point K)) (s : MouthState K) (D : Ref → Prop) (B : List Ref) : Prop where
  bord : Bord P s.mesh D B
  head : B.head? = some s.tri.leftSide
  pts : ∀ f ∈ B, s.mesh.org f ∈ s.boundaryPoints
  cand : ∀ c ∈ s.candidates, c ∈ B
  candNodup : s.candidates.Nodup
  bok : BOk s.buckets B

theorem Bord.lfe_eq (h : Bord P m D B) (he : e ∈ B) : m.lfe e = (m.next (m.next e).opp).opp := by
  have De := h.bd e he
  have T := (h.triFace he).three
  have Dy := h.opp (h.next (h.opp (h.next De)))
  rw [lfe_rfs]
  refine ((eq_rfs_iff h.wf (h.edge (h.opp De)) (h.edge Dy)).2 ?_).symm
  have := congrArg Ref.opp T
  unfold Mesh.lf at this
  rwa [Ref.opp_opp] at this

/-- The diagonal next to a border edge is inside the region. -/
theorem Bord.diagonal (h : Bord P m D B) (he : e ∈ B) {bp : List (Point K)} (hp : ∀ f ∈ B, m.org f ∈ bp)
    (hn : m.stop (m.rfs (m.lfe e)) ∉ bp) : D (m.lfe e) ∧ m.lfe e ∉ B ∧ (m.lfe e).opp ∉ B := by
  have De := h.bd e he
  have hl := h.lfe_eq he
  have Dd : D (m.lfe e) := by rw [hl]; exact h.opp (h.next (h.opp (h.next De)))
  refine ⟨Dd, fun hd => ?_, fun hd => ?_⟩
  · obtain ⟨g, hg, hge⟩ := h.pred hd
    have : m.rfs (m.lfe e) = g.opp :=
      ((eq_rfs_iff h.wf (h.edge Dd) (h.edge (h.opp (h.bd g hg)))).2 hge).symm
    rw [this, Mesh.stop, Ref.opp_opp] at hn
    exact hn (hp g hg)
  · have := h.lf_out hd
    have T := (h.triFace he).three
    rw [hl] at this
    apply h.one e he
    rw [← T]
    exact this

theorem flip_org_of_ne {u : Ref} (h1 : u ≠ e) (h2 : u ≠ e.opp) : (m.flip e).org u = m.org u := by
  unfold Mesh.flip
  simp only [updRef, if_neg h1, if_neg h2, splice_org]

theorem MInv.flip {s : MouthState K} (h : MInv P s D B) (he : e ∈ B)
    (hn : s.mesh.stop (s.mesh.rfs (s.mesh.lfe e)) ∉ s.boundaryPoints)
    (hq : isConvexQuadDiagonal s.mesh (s.mesh.lfe e) = true) :
    MInv P { s with mesh := s.mesh.flip (s.mesh.lfe e) } D B := by
  obtain ⟨d1, d2, d3⟩ := h.bord.diagonal he h.pts hn
  refine ⟨h.bord.flip d1 d2 d3 hq, h.head, fun f hf => ?_, h.cand, h.candNodup, h.bok⟩
  show (s.mesh.flip _).org f ∈ _
  rw [flip_org_of_ne]
  · exact h.pts f hf
  · rintro rfl; exact d2 hf
  · rintro rfl; exact d3 hf

theorem removeEdge_eq {l l' : List Ref} (h : removeEdge e l = .ok l') :
    e ∈ l ∧ l' = l.filter (· ≠ e) := by
  unfold removeEdge at h
  split at h
  · rename_i he
    simp only [exc_pure_ok] at h
    exact ⟨he, h.symm⟩
  · simp only [exc_throw_ok] at h

theorem isMouth_ok {bp : List (Point K)} {b : Bool} (h : isMouth m e bp = .ok b) :
    b = decide (m.stop (m.lfs e) ∉ bp) := by
  unfold isMouth at h
  split at h
  · simp only [exc_pure_ok] at h
    exact h.symm
  · simp only [exc_throw_ok] at h

theorem MInv.pop {s : MouthState K} (h : MInv P s D B) {i : Nat} {r : KeyedSet K}
    (hp : (s.buckets.getD i []).popmax = some (e, r)) :
    e ∈ B ∧ e ∉ Buckets.vals (s.buckets.set i r) ∧ MInv P { s with buckets := s.buckets.set i r } D B := by
  have hv := Buckets.vals_set hp
  have hn := hv.nodup_iff.1 h.bok.nodup
  rw [List.nodup_cons] at hn
  exact ⟨h.bok.sub e (hv.mem_iff.2 (by simp)), hn.1, h.bord, h.head, h.pts, h.cand, h.candNodup,
    fun c hc => h.bok.sub c (hv.mem_iff.2 (by simp [hc])), hn.2⟩

theorem MInv.neg {inner : Nat} (n : Nat) {s s' : MouthState K} {r : Option (Ref × Int)} (hs : MInv P s D B)
    (h : mouthLoopNeg inner n s = .ok (s', r)) : MInv P s' D B ∧
      ∀ c a, r = some (c, a) → c ∈ B ∧ c ∉ s'.buckets.vals := by
  induction n generalizing s with
  | zero =>
    simp only [mouthLoopNeg, exc_pure_ok, Prod.mk.injEq] at h
    obtain ⟨rfl, rfl⟩ := h
    exact ⟨hs, by simp⟩
  | succ n ih =>
    unfold mouthLoopNeg at h
    split at h
    · simp only [exc_throw_ok] at h
    · rename_i c rest hp
      obtain ⟨hc, hcv, hs1⟩ := hs.pop hp
      dsimp only at h
      split at h
      · simp [exc_throw_ok, exc_bind_ok] at h
      simp only [exc_bind_ok] at h
      obtain ⟨b, hb, h⟩ := h
      split at h
      · split at h
        · rename_i hq
          simp only [exc_pure_ok, Prod.mk.injEq] at h
          obtain ⟨rfl, rfl⟩ := h
          refine ⟨hs1.flip hc hq.1 hq.2, ?_⟩
          rintro c' a hca
          simp only [Option.some.injEq, Prod.mk.injEq] at hca
          obtain ⟨rfl, -⟩ := hca
          exact ⟨hc, hcv⟩
        · simp only [exc_bind_ok] at h
          obtain ⟨cs, hcs, h⟩ := h
          obtain ⟨-, rfl⟩ := removeEdge_eq hcs
          exact ih (s := { s with buckets := s.buckets.set 0 rest, candidates := s.candidates.filter (· ≠ c) })
            ⟨hs1.bord, hs1.head, hs1.pts, fun c hc => hs1.cand c (List.mem_of_mem_filter hc),
              hs1.candNodup.filter _, hs1.bok⟩ h
      · exact ih hs1 h

theorem MInv.pos {inner target : Nat} (n : Nat) {s s' : MouthState K} {r : Option (Ref × Int)}
    (hs : MInv P s D B) (h : mouthLoopPos inner target n s = .ok (s', r)) : MInv P s' D B ∧
      ∀ c a, r = some (c, a) → c ∈ B ∧ c ∉ s'.buckets.vals := by
  induction n generalizing s with
  | zero =>
    simp only [mouthLoopPos, exc_pure_ok, Prod.mk.injEq] at h
    obtain ⟨rfl, rfl⟩ := h
    exact ⟨hs, by simp⟩
  | succ n ih =>
    unfold mouthLoopPos at h
    split at h
    · simp only [exc_throw_ok] at h
    · rename_i c rest hp
      obtain ⟨hc, hcv, hs1⟩ := hs.pop hp
      simp only [exc_bind_ok] at h
      obtain ⟨b, hb, h⟩ := h
      split at h
      · simp only [exc_bind_ok] at h
        obtain ⟨cs, hcs, h⟩ := h
        obtain ⟨-, rfl⟩ := removeEdge_eq hcs
        exact ih (s := { s with buckets := s.buckets.set (target + 1) rest, candidates := s.candidates.filter (· ≠ c) })
          ⟨hs1.bord, hs1.head, hs1.pts, fun c hc => hs1.cand c (List.mem_of_mem_filter hc),
            hs1.candNodup.filter _, hs1.bok⟩ h
      · rename_i hq
        obtain ⟨s2, hs2⟩ : ∃ s2, s2 = (if b then { s with buckets := s.buckets.set (target + 1) rest }
          else { s with buckets := s.buckets.set (target + 1) rest, mesh := s.mesh.flip (s.mesh.lfe c) } :
            MouthState K) := ⟨_, rfl⟩
        have hI : MInv P s2 D B ∧ c ∉ s2.buckets.vals := by
          rw [hs2]
          split
          · exact ⟨hs1, hcv⟩
          · rename_i hb0
            have hq' : s.mesh.stop (s.mesh.rfs (s.mesh.lfe c)) ∉ s.boundaryPoints ∧
                isConvexQuadDiagonal s.mesh (s.mesh.lfe c) = true := by
              by_contra hcon
              exact hq ⟨by simpa using hb0, hcon⟩
            exact ⟨hs1.flip hc hq'.1 hq'.2, hcv⟩
        rw [← hs2] at h
        split at h
        · simp only [exc_pure_ok, Prod.mk.injEq] at h
          obtain ⟨rfl, rfl⟩ := h
          refine ⟨hI.1, ?_⟩
          rintro c' a hca
          simp only [Option.some.injEq, Prod.mk.injEq] at hca
          obtain ⟨rfl, -⟩ := hca
          exact ⟨hc, hI.2⟩
        · simp only [exc_bind_ok] at h
          obtain ⟨b', hb', h⟩ := h
          obtain ⟨k1, -⟩ := hI.1.bok.add hc hI.2 hb'
          exact ih (s := { s2 with buckets := b' })
            ⟨hI.1.bord, hI.1.head, hI.1.pts, hI.1.cand, hI.1.candNodup, k1⟩ h

theorem insertSet_nodup {α : Type} [DecidableEq α] {a : α} {l : List α} (h : l.Nodup) : (insertSet a l).Nodup := by
  unfold insertSet
  split
  · exact h
  · rename_i hn
    rw [List.nodup_append]
    exact ⟨h, by simp, by rintro x hx y hy rfl; simp at hy; exact hn (hy ▸ hx)⟩

theorem MInv.del {inner : Nat} {s s' : MouthState K} {c : Ref} {a b : Int} (hs : MInv P s D B) (hc : c ∈ B)
    (hcv : c ∉ s.buckets.vals) (h : mouthDelete inner s c a b = .ok s') :
    MInv P s' (fun x => D x ∧ x ≠ c ∧ x ≠ c.opp) (mouthBorder s.mesh B c) := by
  unfold mouthDelete at h
  split at h
  · simp [exc_throw_ok, exc_bind_ok] at h
  simp only [exc_bind_ok] at h
  obtain ⟨mo, hmo, h⟩ := h
  split at h
  swap
  · simp [exc_throw_ok, exc_bind_ok] at h
  rename_i hmo1
  have hmo' := isMouth_ok hmo
  rw [hmo1] at hmo'
  have hnew := of_decide_eq_true hmo'.symm
  have hB := hs.bord
  have hm : Mouth P s.mesh D B c := ⟨hc, fun f hf hh => hnew (by
    show s.mesh.org (s.mesh.next c).opp ∈ _
    rw [← hh]; exact hs.pts f hf)⟩
  have hB' := hB.delete hm
  have De := hB.bd c hc
  simp only [exc_bind_ok, exc_pure_ok] at h
  obtain ⟨cs, hcs, ⟨m, t⟩, hd, ⟨cs', b'⟩, hf, rfl⟩ := h
  obtain ⟨-, rfl⟩ := removeEdge_eq hcs
  have hhead := hB.head_delete hc hs.head hd
  obtain ⟨rfl, -⟩ := triDelete_left hd
  rw [hB.neighbours hc] at hf
  simp only [List.foldlM_cons, List.foldlM_nil, exc_bind_ok, exc_pure_ok] at hf
  obtain ⟨⟨c1, b1⟩, ⟨b1', hb1, hk1⟩, ⟨c2, b2⟩, ⟨b2', hb2, hk2⟩, hk3⟩ := hf
  simp only [Prod.mk.injEq] at hk1 hk2 hk3
  obtain ⟨rfl, rfl⟩ := hk1
  obtain ⟨rfl, rfl⟩ := hk2
  obtain ⟨rfl, rfl⟩ := hk3
  dsimp only at hb2 ⊢
  have hap := hB.apex_notMem hm
  obtain ⟨x, hx⟩ : ∃ x, x = s.mesh.next c := ⟨_, rfl⟩
  rw [← hx] at hb1 hb2 hap ⊢
  obtain ⟨y, hy⟩ : ∃ y, y = s.mesh.next x.opp := ⟨_, rfl⟩
  rw [← hy] at hb2 hap ⊢
  have hmem : ∀ {f}, f ∈ mouthBorder s.mesh B c ↔ (f ∈ B ∧ f ≠ c) ∨ f = x ∨ f = y := by
    intro f; rw [mem_mouthBorder hc, hy, hx]
  have hxy : x ≠ y := by
    intro hh
    have h1 := hB.org De
    have h2 := hB.org (hB.opp (hB.next De))
    rw [← hx] at h1 h2
    rw [← hy, ← hh, h1] at h2
    exact hm.new c hc (by rw [← hx, h2])
  have b0 : BOk s.buckets (mouthBorder s.mesh B c) :=
    ⟨fun f hf => hmem.2 (.inl ⟨hs.bok.sub f hf, fun hh => hcv (hh ▸ hf)⟩), hs.bok.nodup⟩
  obtain ⟨b1ok, b1m⟩ := b0.add (hmem.2 (.inr (.inl rfl))) (fun hh => hap.1 (hs.bok.sub _ hh)) hb1
  obtain ⟨b2ok, -⟩ := b1ok.add (hmem.2 (.inr (.inr rfl))) (fun hh => by
    rcases b1m _ hh with hh | hh
    · exact hxy hh.symm
    · exact hap.2 (hs.bok.sub _ hh)) hb2
  refine ⟨hB', hhead, ?_, ?_, ?_, b2ok⟩
  · intro f hf
    show s.mesh.org f ∈ insertSet _ _
    rw [mem_insertSet]
    rcases hmem.1 hf with ⟨hf, -⟩ | rfl | rfl
    · exact .inr (hs.pts f hf)
    · right; rw [hx, hB.org De]; exact hs.pts c hc
    · left; rw [hy, hB.org (hB.opp (hx ▸ hB.next De)), hx]; rfl
  · intro f hf
    dsimp only at hf
    rw [mem_insertSet, mem_insertSet] at hf
    rw [hmem]
    rcases hf with hf | hf | hf
    · exact .inr (.inr hf)
    · exact .inr (.inl hf)
    · left
      rw [List.mem_filter] at hf
      exact ⟨hs.cand f hf.1, by simpa using hf.2⟩
  · exact insertSet_nodup (insertSet_nodup (hs.candNodup.filter _))

/-- The first loop keeps a triangulated region. -/
theorem MInv.loop {inner : Nat} (fuel : Nat) {s s' : MouthState K} (hs : MInv P s D B)
    (h : mouthLoop o inner fuel s = .ok s') : ∃ D' B', MInv P s' D' B' := by
  induction fuel generalizing s D B with
  | zero => simp [mouthLoop, exc_throw_ok] at h
  | succ n ih =>
    unfold mouthLoop at h
    split at h
    · split at h
      · simp only [exc_bind_ok] at h
        obtain ⟨⟨s1, r⟩, h1, h⟩ := h
        obtain ⟨hI, hr⟩ := hs.neg _ h1
        dsimp only at h
        split at h
        · simp only [exc_pure_ok] at h
          exact h ▸ ⟨D, B, hI⟩
        · simp only [exc_bind_ok] at h
          obtain ⟨s2, h2, h⟩ := h
          obtain ⟨hc, hcv⟩ := hr _ _ rfl
          exact ih (hI.del hc hcv h2) h
      · simp only [exc_bind_ok] at h
        obtain ⟨⟨s1, r⟩, h1, h⟩ := h
        obtain ⟨hI, hr⟩ := hs.pos _ h1
        dsimp only at h
        split at h
        · simp only [exc_bind_ok] at h
          obtain ⟨b, hb, h⟩ := h
          exact ih (s := { s1 with buckets := b })
            ⟨hI.bord, hI.head, hI.pts, hI.cand, hI.candNodup,
              BOk.mouths (fun c hc => hI.cand c (o.mem.1 hc)) ((o.perm _).nodup_iff.2 hI.candNodup) hb⟩ h
        · simp only [exc_bind_ok] at h
          obtain ⟨s2, h2, h⟩ := h
          obtain ⟨hc, hcv⟩ := hr _ _ rfl
          exact ih (hI.del hc hcv h2) h
    · simp only [exc_pure_ok] at h
      exact h ▸ ⟨D, B, hs⟩

end HG
