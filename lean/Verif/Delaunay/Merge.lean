import Verif.Delaunay.Mirror

/-!
# Merging two Delaunay triangulations, geometrically

`C` is the set of edges between `L` and `R` drawn so far, `(a, b)` the last of them.  When the sweep
has reached the upper tangent, the edges of `L` and of `R` that are still on an empty circle together
with `C` form a Delaunay triangulation of `L ∪ R`.
-/

set_option linter.unusedSectionVars false

namespace HG

variable {K : Type} [Field K] [LinearOrder K] [IsStrictOrderedRing K]
variable {L R : List (Point K)}

abbrev Rel (K : Type) := Point K → Point K → Prop

/-- The edges of the merged triangulation. -/
def BB (L R : List (Point K)) (AL AR C : Rel K) (x y : Point K) : Prop :=
  ((AL x y ∨ AR x y) ∧ Del (L ++ R) x y) ∨ C x y ∨ C y x

/-- Mirror image of a relation. -/
def Rel.mir (A : Rel K) : Rel K := fun x y => A (HG.mir x) (HG.mir y)

/-- Mirror image of the edges between the two sets. -/
def Rel.mirC (C : Rel K) : Rel K := fun x y => C (HG.mir y) (HG.mir x)

/-- Every edge of `R` seen across the gap is in the sweep state `St`. -/
def StAll (S : Sep L R) (AR C : Rel K) (a b : Point K) : Prop :=
  ∀ u v mu mv g, AR u v → Del (L ++ R) u v → Gap L R g u v mu mv → St S C a b u v mu mv

structure MS (S : Sep L R) (AL AR C : Rel K) (a b : Point K) : Prop where
  cmem : ∀ {x y}, C x y → x ∈ L ∧ y ∈ R
  cdel : ∀ {x y}, C x y → Del (L ++ R) x y
  base : C a b
  below : ∀ {x y}, C x y → (∀ p ∈ L ++ R, cross y x p ≤ 0) ∨
    ∃ c, BB L R AL AR C x c ∧ BB L R AL AR C y c ∧ DTri (L ++ R) y x c
  above : ∀ {x y}, C x y → (x = a ∧ y = b) ∨
    ∃ c, BB L R AL AR C x c ∧ BB L R AL AR C y c ∧ DTri (L ++ R) x y c
  stR : StAll S AR C a b
  stL : StAll S.mir AL.mir C.mirC (mir b) (mir a)

theorem BB.mono {AL AR C C' : Rel K} (hC : ∀ x y, C x y → C' x y) {x y : Point K}
    (h : BB L R AL AR C x y) : BB L R AL AR C' x y := by
  rcases h with h | h | h
  · exact .inl h
  · exact .inr (.inl (hC _ _ h))
  · exact .inr (.inr (hC _ _ h))

/-- `C` with one more edge. -/
def addC (C : Rel K) (a b : Point K) : Rel K := fun x y => C x y ∨ (x = a ∧ y = b)

theorem MS.right {S : Sep L R} {AL AR C : Rel K} {a b c : Point K} (h : MS S AL AR C a b)
    (hR : DT R AR) (hL : DT L AL) (hc : c ∈ R) (hbc : AR b c) (ht : DTri (L ++ R) a b c)
    (hx : ∀ u v, AR u v → Del (L ++ R) u v → ¬ XX u v a c) : MS S AL AR (addC C a c) a c := by
  obtain ⟨ha, hb⟩ := h.cmem h.base
  have mono : ∀ x y, C x y → addC C a c x y := fun x y hxy => .inl hxy
  have hac : addC C a c a c := .inr ⟨rfl, rfl⟩
  have Bbc : BB L R AL AR (addC C a c) b c := .inl ⟨.inr hbc, ht.rot.del⟩
  have Bcb : BB L R AL AR (addC C a c) c b := .inl ⟨.inr (hR.symm hbc), ht.rot.del.symm⟩
  have Bac : BB L R AL AR (addC C a c) a c := .inr (.inl hac)
  have Bab : BB L R AL AR (addC C a c) a b := .inr (.inl (mono _ _ h.base))
  refine ⟨?_, ?_, hac, ?_, ?_, ?_, ?_⟩
  · rintro x y (hxy | ⟨rfl, rfl⟩)
    · exact h.cmem hxy
    · exact ⟨ha, hc⟩
  · rintro x y (hxy | ⟨rfl, rfl⟩)
    · exact h.cdel hxy
    · exact ht.rot.rot.del.symm
  · rintro x y (hxy | ⟨rfl, rfl⟩)
    · rcases h.below hxy with h1 | ⟨d, h1, h2, h3⟩
      · exact .inl h1
      · exact .inr ⟨d, h1.mono mono, h2.mono mono, h3⟩
    · exact .inr ⟨b, Bab, Bcb, ht.rot.rot⟩
  · rintro x y (hxy | ⟨rfl, rfl⟩)
    · rcases h.above hxy with ⟨rfl, rfl⟩ | ⟨d, h1, h2, h3⟩
      · exact .inr ⟨c, Bac, Bbc, ht⟩
      · exact .inr ⟨d, h1.mono mono, h2.mono mono, h3⟩
    · exact .inl ⟨rfl, rfl⟩
  · intro u v mu mv g huv hd hg
    exact ((h.stR u v mu mv g huv hd hg).mono mono).right hg (hR.ne huv) ha hb hc ht
      (mono _ _ h.base) hac (hx u v huv hd)
  · intro u v mu mv g huv hd hg
    have h1 := (h.stL u v mu mv g huv hd hg).mono (C' := (addC C a c).mirC)
      (fun x y hxy => mono _ _ hxy)
    exact h1.left hg (fun e => hL.ne huv (by rw [e])) (mir_mem hb) (mir_mem ha) (mir_mem hc) ht.mir

theorem MS.left {S : Sep L R} {AL AR C : Rel K} {a b c : Point K} (h : MS S AL AR C a b)
    (hR : DT R AR) (hL : DT L AL) (hc : c ∈ L) (hac : AL a c) (ht : DTri (L ++ R) a b c)
    (hx : ∀ u v, AL u v → Del (L ++ R) u v → ¬ XX u v c b) : MS S AL AR (addC C c b) c b := by
  obtain ⟨ha, hb⟩ := h.cmem h.base
  have mono : ∀ x y, C x y → addC C c b x y := fun x y hxy => .inl hxy
  have hcb : addC C c b c b := .inr ⟨rfl, rfl⟩
  have Bac : BB L R AL AR (addC C c b) a c := .inl ⟨.inl hac, ht.rot.rot.del.symm⟩
  have Bca : BB L R AL AR (addC C c b) c a := .inl ⟨.inl (hL.symm hac), ht.rot.rot.del⟩
  have Bbc : BB L R AL AR (addC C c b) b c := .inr (.inr hcb)
  have Bba : BB L R AL AR (addC C c b) b a := .inr (.inr (mono _ _ h.base))
  refine ⟨?_, ?_, hcb, ?_, ?_, ?_, ?_⟩
  · rintro x y (hxy | ⟨rfl, rfl⟩)
    · exact h.cmem hxy
    · exact ⟨hc, hb⟩
  · rintro x y (hxy | ⟨rfl, rfl⟩)
    · exact h.cdel hxy
    · exact ht.rot.del.symm
  · rintro x y (hxy | ⟨rfl, rfl⟩)
    · rcases h.below hxy with h1 | ⟨d, h1, h2, h3⟩
      · exact .inl h1
      · exact .inr ⟨d, h1.mono mono, h2.mono mono, h3⟩
    · exact .inr ⟨a, Bca, Bba, ht.rot⟩
  · rintro x y (hxy | ⟨rfl, rfl⟩)
    · rcases h.above hxy with ⟨rfl, rfl⟩ | ⟨d, h1, h2, h3⟩
      · exact .inr ⟨c, Bac, Bbc, ht⟩
      · exact .inr ⟨d, h1.mono mono, h2.mono mono, h3⟩
    · exact .inl ⟨rfl, rfl⟩
  · intro u v mu mv g huv hd hg
    exact ((h.stR u v mu mv g huv hd hg).mono mono).left hg (hR.ne huv) ha hb hc ht
  · intro u v mu mv g huv hd hg
    have h1 := (h.stL u v mu mv g huv hd hg).mono (C' := (addC C c b).mirC)
      (fun x y hxy => mono _ _ hxy)
    refine h1.right hg (fun e => hL.ne huv (by rw [e])) (mir_mem hb) (mir_mem ha) (mir_mem hc) ht.mir
      ?_ ?_ ?_
    · show addC C c b (mir (mir a)) (mir (mir b))
      rw [mir_mir, mir_mir]; exact mono _ _ h.base
    · show addC C c b (mir (mir c)) (mir (mir b))
      rw [mir_mir, mir_mir]; exact hcb
    · intro hX
      refine hx (mir u) (mir v) huv hd.mir' ?_
      have : XX (mir (mir u)) (mir (mir v)) (mir c) (mir b) := by
        rw [mir_mir, mir_mir]; exact hX.swap'
      exact XX_mir.1 this

theorem MS.init (S : Sep L R) {AL AR : Rel K} {a b : Point K} (ha : a ∈ L) (hb : b ∈ R)
    (hd : Del (L ++ R) a b) (hlow : ∀ p ∈ L ++ R, 0 ≤ cross a b p) :
    MS S AL AR (fun x y => x = a ∧ y = b) a b := by
  refine ⟨?_, ?_, ⟨rfl, rfl⟩, ?_, ?_, ?_, ?_⟩
  · rintro x y ⟨rfl, rfl⟩; exact ⟨ha, hb⟩
  · rintro x y ⟨rfl, rfl⟩; exact hd
  · rintro x y ⟨rfl, rfl⟩
    left
    intro p hp
    rw [cross_swap12]; have := hlow p hp; linarith
  · rintro x y ⟨rfl, rfl⟩; exact .inl ⟨rfl, rfl⟩
  · intro u v mu mv g huv hd hg
    left
    have pu := S.pos hg.hmu hg.hu
    have e := S.pt_cross (ne_of_gt pu) a b
    have b1 := mul_nonneg (show 0 ≤ S.s u - S.c by linarith [S.gt' hg.hu])
      (hlow mu (List.mem_append_left _ hg.hmu))
    have b2 := mul_nonneg (show 0 ≤ S.c - S.s mu by linarith [S.lt' hg.hmu])
      (hlow u (List.mem_append_right _ hg.hu))
    exact pos_of_mul_neg (by linarith) pu
  · intro u v mu mv g huv hd hg
    left
    have low' : ∀ p ∈ R.map mir ++ L.map mir, 0 ≤ cross (mir b) (mir a) p := by
      intro p hp
      have : cross (mir b) (mir a) p = cross a b (mir p) := by
        have h1 := cross_mir b a (mir p)
        rw [mir_mir] at h1
        rw [h1, cross_swap12]; ring
      rw [this]
      apply hlow
      rcases List.mem_append.1 hp with hp | hp
      · exact List.mem_append_right _ (mem_mir.1 hp)
      · exact List.mem_append_left _ (mem_mir.1 hp)
    have pu := S.mir.pos hg.hmu hg.hu
    have e := S.mir.pt_cross (ne_of_gt pu) (mir b) (mir a)
    have b1 := mul_nonneg (show 0 ≤ S.mir.s u - S.mir.c by linarith [S.mir.gt' hg.hu])
      (low' mu (List.mem_append_left _ hg.hmu))
    have b2 := mul_nonneg (show 0 ≤ S.mir.c - S.mir.s mu by linarith [S.mir.lt' hg.hmu])
      (low' u (List.mem_append_right _ hg.hu))
    exact pos_of_mul_neg (by linarith) pu

theorem side_R (S : Sep L R) {AR C : Rel K} {a b u v : Point K} (hR : DT R AR) (ha : a ∈ L)
    (hb : b ∈ R) (st : StAll S AR C a b) (top : ∀ p ∈ L ++ R, cross a b p ≤ 0) (huv : AR u v)
    (hd : Del (L ++ R) u v) : (∀ p ∈ L ++ R, cross u v p ≤ 0) ∨
      (∃ c, AR u c ∧ AR v c ∧ DTri (L ++ R) u v c) ∨ ∃ c, C c u ∧ C c v ∧ DTri (L ++ R) u v c := by
  by_cases h1 : ∃ p ∈ L ++ R, 0 < cross u v p
  · right
    by_cases h2 : ∃ c, AR u c ∧ AR v c ∧ DTri (L ++ R) u v c
    · exact .inl h2
    · obtain ⟨g, mu, mv, hg⟩ := gap_exists S hR huv hd h1 h2
      exact .inr ((st u v mu mv g huv hd hg).final hg ha hb top)
  · left
    push Not at h1
    exact h1

theorem deg_R (S : Sep L R) {AR : Rel K} (hR : DT R AR)
    (inj : ∀ p ∈ L ++ R, ∀ q ∈ L ++ R, S.s p = S.s q → p = q) {x : Point K} (hx : x ∈ R) :
    ∃ c, AR x c ∧ Del (L ++ R) x c := by
  classical
  by_cases h1 : ∃ n ∈ R, S.s x < S.s n
  · obtain ⟨n, hn, hs⟩ := h1
    obtain ⟨c, hc, hd, -⟩ := grow S hR hx hn hs
    exact ⟨c, hc, hd⟩
  · push Not at h1
    obtain ⟨y, hy⟩ := hR.deg hx
    obtain ⟨n, hn, hmax⟩ := Finset.exists_max_image (R.toFinset.erase x) (fun p => S.s p)
      ⟨y, Finset.mem_erase.2 ⟨Ne.symm (hR.ne hy), List.mem_toFinset.2 (hR.mem (hR.symm hy))⟩⟩
    rw [Finset.mem_erase, List.mem_toFinset] at hn
    have hlt : S.s n < S.s x := by
      refine lt_of_le_of_ne (h1 n hn.2) fun e => hn.1 ?_
      exact inj n (List.mem_append_right _ hn.2) x (List.mem_append_right _ hx) e
    obtain ⟨c, hc, hd, hs⟩ := grow S hR hn.2 hx hlt
    have hcx : c = x := by
      by_contra hne
      have := hmax c (Finset.mem_erase.2 ⟨hne, List.mem_toFinset.2 (hR.mem (hR.symm hc))⟩)
      linarith
    subst hcx
    exact ⟨n, hR.symm hc, hd.symm⟩

theorem s_line (S : Sep L R) (x p c : Point K) :
    dot x p c * (S.s c - S.s x) = dot x c c * (S.s p - S.s x)
      - cross x p c * (S.sx * (c.y - x.y) - S.sy * (c.x - x.x)) := by
  unfold dot cross Sep.s; ring

/-- On a line, `dot` compares the directions given by `s`. -/
theorem dot_pos_of_s (S : Sep L R) {x p c : Point K} (h0 : cross x p c = 0)
    (h : 0 < (S.s p - S.s x) * (S.s c - S.s x)) : 0 < dot x p c := by
  have hc : c ≠ x := by rintro rfl; simp at h
  have e := s_line S x p c
  rw [h0, zero_mul, sub_zero] at e
  have d := dot_self_pos hc
  have h2 := mul_pos d h
  by_contra hcon
  have h3 : dot x p c * ((S.s c - S.s x) * (S.s c - S.s x)) ≤ 0 :=
    mul_nonpos_of_nonpos_of_nonneg (not_lt.1 hcon) (mul_self_nonneg _)
  rw [← mul_assoc, e, mul_assoc] at h3
  linarith

theorem mid_of_s (S : Sep L R) {a b x : Point K} (h0 : cross a b x = 0) (h1 : S.s a < S.s x)
    (h2 : S.s x < S.s b) : Mid a b x := by
  refine ⟨h0, ?_⟩
  have e1 : (diam a b).ev x = dot x a b := by rw [ev_diam]; unfold dot; ring
  rw [e1]
  have hbx : b ≠ x := by rintro rfl; linarith
  have d := dot_self_pos hbx
  have e2 := s_line S x a b
  have h3 : cross x a b = 0 := by rw [cross_rot']; exact h0
  rw [h3, zero_mul, sub_zero] at e2
  have h4 := mul_neg_of_pos_of_neg d (show S.s a - S.s x < 0 by linarith)
  by_contra hcon
  have := mul_nonneg (not_lt.1 hcon) (show 0 ≤ S.s b - S.s x by linarith)
  linarith

theorem line_R (S : Sep L R) {AR : Rel K} (hR : DT R AR)
    (inj : ∀ p ∈ L ++ R, ∀ q ∈ L ++ R, S.s p = S.s q → p = q)
    (hcol : ∀ x ∈ L ++ R, ∀ y ∈ L ++ R, ∀ z ∈ L ++ R, cross x y z = 0) {a b : Point K} (ha : a ∈ L)
    (hb : b ∈ R) (hd : Del (L ++ R) a b) {x p : Point K} (hx : x ∈ R) (hp : p ∈ L ++ R)
    (hpx : p ≠ x) : (∃ n, AR x n ∧ Del (L ++ R) x n ∧ 0 < dot x p n) ∨ (x = b ∧ 0 < dot x p a) := by
  have hxP : x ∈ L ++ R := List.mem_append_right _ hx
  have rP : ∀ {q}, q ∈ R → q ∈ L ++ R := fun h => List.mem_append_right _ h
  rcases lt_trichotomy (S.s p) (S.s x) with h | h | h
  · by_cases h1 : ∃ q ∈ R, S.s q < S.s x
    · left
      obtain ⟨q, hq, hs⟩ := h1
      have hqx : q ≠ x := by rintro rfl; linarith
      obtain ⟨n, hn, hdot⟩ := hR.line (fun x hx y hy z hz => hcol x (rP hx) y (rP hy) z (rP hz))
        hx hq hqx
      have hnR := hR.mem (hR.symm hn)
      have hnP := rP hnR
      have e := s_line S x q n
      rw [hcol x hxP q (rP hq) n hnP, zero_mul, sub_zero] at e
      have hnx : n ≠ x := Ne.symm (hR.ne hn)
      have hdn := dot_self_pos hnx
      have hsn : S.s n < S.s x := by
        by_contra hcon
        have t1 := mul_nonneg (le_of_lt hdot) (show 0 ≤ S.s n - S.s x by linarith)
        have t2 := mul_neg_of_pos_of_neg hdn (show S.s q - S.s x < 0 by linarith)
        linarith
      refine ⟨n, hn, hull_del (fun p hp => le_of_eq (hcol x hxP n hnP p hp)) (fun p hp hm => ?_),
        dot_pos_of_s S (hcol x hxP p hp n hnP) (mul_pos_of_neg_of_neg (by linarith) (by linarith))⟩
      rcases List.mem_append.1 hp with hp | hp
      · have e1 : (diam x n).ev p = dot p x n := by rw [ev_diam]; unfold dot; ring
        have hp' : p ∈ L ++ R := List.mem_append_left _ hp
        have := dot_pos_of_s S (x := p) (p := x) (c := n) (hcol p hp' x hxP n hnP)
          (mul_pos (by linarith [S.lt' hp, S.gt' hx]) (by linarith [S.lt' hp, S.gt' hnR]))
        have h5 := hm.2
        rw [e1] at h5
        linarith
      · exact (hR.del hn).not_mid hp hm
    · right
      push Not at h1
      have hxb : x = b := by
        by_contra hne
        have hlt : S.s x < S.s b := lt_of_le_of_ne (h1 b hb) fun e => hne (inj x hxP b (rP hb) e)
        exact hd.not_mid hxP (mid_of_s S (hcol a (List.mem_append_left _ ha) b (rP hb) x hxP)
          (by linarith [S.lt' ha, S.gt' hx]) hlt)
      refine ⟨hxb, dot_pos_of_s S (hcol x hxP p hp a (List.mem_append_left _ ha))
        (mul_pos_of_neg_of_neg (by linarith) (by linarith [S.lt' ha, S.gt' hx]))⟩
  · exact absurd (inj p hp x hxP h) hpx
  · left
    have hpR : p ∈ R := by
      rcases List.mem_append.1 hp with hp | hp
      · have := S.lt' hp; have := S.gt' hx; linarith
      · exact hp
    obtain ⟨c, hc, hd, hs⟩ := grow S hR hx hpR h
    exact ⟨c, hc, hd, dot_pos_of_s S (hcol x hxP p hp c (rP (hR.mem (hR.symm hc))))
      (mul_pos (by linarith) (by linarith))⟩

theorem mem_swap {p : Point K} (h : p ∈ L ++ R) : mir p ∈ R.map mir ++ L.map mir := by
  rcases List.mem_append.1 h with h | h
  · exact List.mem_append_right _ (mir_mem h)
  · exact List.mem_append_left _ (mir_mem h)

theorem mem_swap' {p : Point K} (h : p ∈ R.map mir ++ L.map mir) : mir p ∈ L ++ R := by
  rcases List.mem_append.1 h with h | h
  · exact List.mem_append_right _ (mem_mir.1 h)
  · exact List.mem_append_left _ (mem_mir.1 h)

/-- The result of a completed sweep is a Delaunay triangulation. -/
theorem MS.final {S : Sep L R} {AL AR C : Rel K} {a b : Point K} (h : MS S AL AR C a b)
    (hR : DT R AR) (hL : DT L AL) (top : ∀ p ∈ L ++ R, cross a b p ≤ 0)
    (inj : ∀ p ∈ L ++ R, ∀ q ∈ L ++ R, S.s p = S.s q → p = q) :
    DT (L ++ R) (BB L R AL AR C) := by
  obtain ⟨ha, hb⟩ := h.cmem h.base
  have injM : ∀ p ∈ R.map mir ++ L.map mir, ∀ q ∈ R.map mir ++ L.map mir,
      S.mir.s p = S.mir.s q → p = q := by
    intro p hp q hq e
    have e1 := S.mir_s (mir p)
    have e2 := S.mir_s (mir q)
    rw [mir_mir] at e1 e2
    rw [e1, e2] at e
    exact mir_inj (inj _ (mem_swap' hp) _ (mem_swap' hq) (by linarith))
  have topM : ∀ p ∈ R.map mir ++ L.map mir, cross (mir b) (mir a) p ≤ 0 := by
    intro p hp
    have : cross (mir b) (mir a) p = cross a b (mir p) := by
      have h1 := cross_mir b a (mir p)
      rw [mir_mir] at h1
      rw [h1, cross_swap12]; ring
    rw [this]
    exact top _ (mem_swap' hp)
  refine ⟨?_, ?_, ?_, ?_, ?_, ?_, ?_⟩
  · rintro x y (⟨h1 | h1, h2⟩ | h1 | h1)
    · exact .inl ⟨.inl (hL.symm h1), h2.symm⟩
    · exact .inl ⟨.inr (hR.symm h1), h2.symm⟩
    · exact .inr (.inr h1)
    · exact .inr (.inl h1)
  · rintro x y (⟨h1 | h1, h2⟩ | h1 | h1)
    · exact List.mem_append_left _ (hL.mem h1)
    · exact List.mem_append_right _ (hR.mem h1)
    · exact List.mem_append_left _ (h.cmem h1).1
    · exact List.mem_append_right _ (h.cmem h1).2
  · rintro x y (⟨h1 | h1, h2⟩ | h1 | h1)
    · exact hL.ne h1
    · exact hR.ne h1
    · exact S.ne (h.cmem h1).1 (h.cmem h1).2
    · exact (S.ne (h.cmem h1).1 (h.cmem h1).2).symm
  · rintro x y (⟨h1 | h1, h2⟩ | h1 | h1)
    · exact h2
    · exact h2
    · exact h.cdel h1
    · exact (h.cdel h1).symm
  · rintro x y (⟨h1 | h1, h2⟩ | h1 | h1)
    · have h3 := side_R S.mir (u := mir y) (v := mir x) hL.mir (mir_mem hb) (mir_mem ha) h.stL topM
        (show AL (mir (mir y)) (mir (mir x)) by rw [mir_mir, mir_mir]; exact hL.symm h1) h2.symm.mir
      rcases h3 with h3 | ⟨c, c1, c2, c3⟩ | ⟨c, c1, c2, c3⟩
      · left
        intro p hp
        have := h3 _ (mem_swap hp)
        rw [cross_mir, cross_swap12] at this
        linarith
      · right
        have c3' := c3.mir'
        rw [mir_mir, mir_mir] at c3'
        have c1' : AL y (mir c) := by rw [mir_mir] at c1; exact c1
        have c2' : AL x (mir c) := by rw [mir_mir] at c2; exact c2
        exact ⟨mir c, .inl ⟨.inl c2', c3'.rot.rot.del.symm⟩, .inl ⟨.inl c1', c3'.rot.del⟩, c3'⟩
      · right
        have c3' := c3.mir'
        rw [mir_mir, mir_mir] at c3'
        have c1' : C y (mir c) := by
          have : C (mir (mir y)) (mir c) := c1
          rwa [mir_mir] at this
        have c2' : C x (mir c) := by
          have : C (mir (mir x)) (mir c) := c2
          rwa [mir_mir] at this
        exact ⟨mir c, .inr (.inl c2'), .inr (.inl c1'), c3'⟩
    · rcases side_R S hR ha hb h.stR top h1 h2 with h3 | ⟨c, c1, c2, c3⟩ | ⟨c, c1, c2, c3⟩
      · exact .inl h3
      · exact .inr ⟨c, .inl ⟨.inr c1, c3.rot.rot.del.symm⟩, .inl ⟨.inr c2, c3.rot.del⟩, c3⟩
      · exact .inr ⟨c, .inr (.inr c1), .inr (.inr c2), c3⟩
    · rcases h.above h1 with ⟨rfl, rfl⟩ | h2
      · exact .inl top
      · exact .inr h2
    · rcases h.below h1 with h2 | ⟨c, c1, c2, c3⟩
      · exact .inl h2
      · exact .inr ⟨c, c2, c1, c3⟩
  · intro x hx
    rcases List.mem_append.1 hx with hx | hx
    · obtain ⟨c, c1, c2⟩ := deg_R S.mir hL.mir injM (mir_mem hx)
      have c1' : AL x (mir c) := by rw [mir_mir] at c1; exact c1
      have c2' := c2.mir'
      rw [mir_mir] at c2'
      exact ⟨mir c, .inl ⟨.inl c1', c2'⟩⟩
    · obtain ⟨c, c1, c2⟩ := deg_R S hR inj hx
      exact ⟨c, .inl ⟨.inr c1, c2⟩⟩
  · intro hcol x p hx hp hpx
    rcases List.mem_append.1 hx with hx' | hx'
    · have hcolM : ∀ x ∈ R.map mir ++ L.map mir, ∀ y ∈ R.map mir ++ L.map mir,
          ∀ z ∈ R.map mir ++ L.map mir, cross x y z = 0 := by
        intro x hx y hy z hz
        have := hcol _ (mem_swap' hx) _ (mem_swap' hy) _ (mem_swap' hz)
        rw [cross_mir] at this
        linarith
      have h3 := line_R S.mir hL.mir injM hcolM (mir_mem hb) (mir_mem ha)
        (h.cdel h.base).symm.mir (mir_mem hx') (mem_swap hp) (fun e => hpx (mir_inj e))
      rcases h3 with ⟨n, n1, n2, n3⟩ | ⟨e, n3⟩
      · have n1' : AL x (mir n) := by rw [mir_mir] at n1; exact n1
        have n2' := n2.mir'
        rw [mir_mir] at n2'
        rw [← dot_mir, mir_mir, mir_mir] at n3
        exact ⟨mir n, .inl ⟨.inl n1', n2'⟩, n3⟩
      · have e' := mir_inj e
        subst e'
        rw [dot_mir] at n3
        exact ⟨b, .inr (.inl h.base), n3⟩
    · rcases line_R S hR inj hcol ha hb (h.cdel h.base) hx' hp hpx with ⟨n, n1, n2, n3⟩ | ⟨rfl, n3⟩
      · exact ⟨n, .inl ⟨.inr n1, n2⟩, n3⟩
      · exact ⟨a, .inr (.inr h.base), n3⟩

end HG
