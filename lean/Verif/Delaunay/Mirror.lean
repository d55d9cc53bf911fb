import Verif.Delaunay.Sweep

/-!
# Mirror images, hull edges, growing circles
-/

set_option linter.unusedSectionVars false

namespace HG

variable {K : Type} [Field K] [LinearOrder K] [IsStrictOrderedRing K]
variable {L R P : List (Point K)}

/-- Mirror image in the vertical axis. -/
def mir (p : Point K) : Point K := ⟨-p.x, p.y⟩

@[simp] theorem mir_mir (p : Point K) : mir (mir p) = p := by simp [mir]

theorem mir_inj {p q : Point K} (h : mir p = mir q) : p = q := by
  rw [← mir_mir p, h, mir_mir]

theorem mem_mir {p : Point K} : p ∈ P.map mir ↔ mir p ∈ P := by
  rw [List.mem_map]
  constructor
  · rintro ⟨q, hq, rfl⟩; rwa [mir_mir]
  · exact fun h => ⟨mir p, h, mir_mir p⟩

theorem mir_mem {p : Point K} (h : p ∈ P) : mir p ∈ P.map mir := mem_mir.2 (by rwa [mir_mir])

theorem cross_mir (a b c : Point K) : cross (mir a) (mir b) (mir c) = - cross a b c := by
  unfold mir cross; ring

theorem dot_mir (a b c : Point K) : dot (mir a) (mir b) (mir c) = dot a b c := by
  unfold mir dot; ring

def Circ.mir (f : Circ K) : Circ K := ⟨-f.u, f.v, f.w⟩

theorem ev_mir (f : Circ K) (p : Point K) : f.mir.ev (HG.mir p) = f.ev p := by
  unfold Circ.mir HG.mir Circ.ev; ring

theorem XX_mir {a b c d : Point K} : XX (mir a) (mir b) (mir c) (mir d) ↔ XX a b c d := by
  unfold XX; rw [cross_mir, cross_mir, cross_mir, cross_mir]
  simp only [neg_mul_neg]

theorem empty_mir {f : Circ K} (h : f.Empty (L ++ R)) : f.mir.Empty (R.map mir ++ L.map mir) := by
  intro p hp
  have : f.mir.ev p = f.ev (HG.mir p) := by rw [← ev_mir f (HG.mir p), mir_mir]
  rw [this]
  apply h
  rcases List.mem_append.1 hp with hp | hp
  · exact List.mem_append_right _ (mem_mir.1 hp)
  · exact List.mem_append_left _ (mem_mir.1 hp)

theorem empty_mir' {f : Circ K} (h : f.Empty (R.map HG.mir ++ L.map HG.mir)) :
    f.mir.Empty (L ++ R) := by
  intro p hp
  have : f.mir.ev p = f.ev (HG.mir p) := by rw [← ev_mir f (HG.mir p), mir_mir]
  rw [this]
  apply h
  rcases List.mem_append.1 hp with hp | hp
  · exact List.mem_append_right _ (mir_mem hp)
  · exact List.mem_append_left _ (mir_mem hp)

theorem Del.mir {a b : Point K} (h : Del (L ++ R) a b) :
    Del (R.map mir ++ L.map mir) (HG.mir a) (HG.mir b) := by
  obtain ⟨f, hf, ha, hb⟩ := h
  exact ⟨f.mir, empty_mir hf, by rw [ev_mir, ha], by rw [ev_mir, hb]⟩

theorem Del.mir' {a b : Point K} (h : Del (R.map HG.mir ++ L.map HG.mir) a b) :
    Del (L ++ R) (HG.mir a) (HG.mir b) := by
  obtain ⟨f, hf, ha, hb⟩ := h
  exact ⟨f.mir, empty_mir' hf, by rw [ev_mir, ha], by rw [ev_mir, hb]⟩

theorem DTri.mir {a b c : Point K} (h : DTri (L ++ R) a b c) :
    DTri (R.map mir ++ L.map mir) (HG.mir b) (HG.mir a) (HG.mir c) := by
  obtain ⟨h0, f, hf, ha, hb, hc⟩ := h
  refine ⟨by rw [cross_mir, cross_swap12]; linarith, f.mir, empty_mir hf, ?_, ?_, ?_⟩ <;> rw [ev_mir] <;>
    assumption

theorem DTri.mir' {a b c : Point K} (h : DTri (R.map HG.mir ++ L.map HG.mir) a b c) :
    DTri (L ++ R) (HG.mir b) (HG.mir a) (HG.mir c) := by
  obtain ⟨h0, f, hf, ha, hb, hc⟩ := h
  refine ⟨by rw [cross_mir, cross_swap12]; linarith, f.mir, empty_mir' hf, ?_, ?_, ?_⟩ <;> rw [ev_mir] <;>
    assumption

/-- The mirror image of a separating line. -/
def Sep.mir (S : Sep L R) : Sep (R.map mir) (L.map mir) where
  sx := S.sx
  sy := -S.sy
  c := -S.c
  lt := fun p hp => by
    have := S.gt _ (mem_mir.1 hp)
    unfold HG.mir at this
    simp only at this
    linarith
  gt := fun p hp => by
    have := S.lt _ (mem_mir.1 hp)
    unfold HG.mir at this
    simp only at this
    linarith

theorem Sep.mir_s (S : Sep L R) (p : Point K) : S.mir.s (HG.mir p) = - S.s p := by
  unfold Sep.mir Sep.s HG.mir; ring

theorem DT.mir {A : Point K → Point K → Prop} (h : DT P A) :
    DT (P.map mir) (fun x y => A (HG.mir x) (HG.mir y)) where
  symm := fun x => h.symm x
  mem := fun x => mem_mir.2 (h.mem x)
  ne := fun x e => h.ne x (by rw [e])
  del := fun {a b} x => by
    obtain ⟨f, hf, ha, hb⟩ := h.del x
    have e : ∀ p, f.mir.ev p = f.ev (HG.mir p) := fun p => by
      rw [← ev_mir f (HG.mir p), mir_mir]
    exact ⟨f.mir, fun p hp => by rw [e]; exact hf _ (mem_mir.1 hp), by rw [e, ha], by rw [e, hb]⟩
  side := fun {a b} x => by
    rcases h.side (h.symm x) with h1 | ⟨c, hc1, hc2, h0, f, hf, fb, fa, fc⟩
    · left
      intro p hp
      have := h1 _ (mem_mir.1 hp)
      rw [cross_mir, cross_swap12] at this
      linarith
    · right
      have e : ∀ p, f.mir.ev p = f.ev (HG.mir p) := fun p => by
        rw [← ev_mir f (HG.mir p), mir_mir]
      refine ⟨HG.mir c, by rwa [mir_mir], by rwa [mir_mir], ?_, f.mir,
        fun p hp => by rw [e]; exact hf _ (mem_mir.1 hp), by rw [e, fa], by rw [e, fb],
        by rw [e, mir_mir, fc]⟩
      have e2 : cross a b (HG.mir c) = - cross (HG.mir a) (HG.mir b) c := by
        rw [← cross_mir, mir_mir, mir_mir]
      rw [e2, cross_swap12]
      linarith
  deg := fun {a} ha => by
    obtain ⟨b, hb⟩ := h.deg (mem_mir.1 ha)
    exact ⟨HG.mir b, by rwa [mir_mir]⟩
  line := fun hcol {a p} ha hp hpa => by
    obtain ⟨n, hn, hd⟩ := h.line (fun x hx y hy z hz => by
      have := hcol _ (mir_mem hx) _ (mir_mem hy) _ (mir_mem hz)
      rw [cross_mir] at this
      linarith) (mem_mir.1 ha) (mem_mir.1 hp) (fun e => hpa (mir_inj e))
    refine ⟨HG.mir n, by rwa [mir_mir], ?_⟩
    have : dot a p (HG.mir n) = dot (HG.mir a) (HG.mir p) n := by
      rw [← dot_mir, mir_mir]
    rw [this]; exact hd

/-- A hull edge that contains no further point is on an empty circle. -/
theorem hull_del {a b : Point K} (hs : ∀ p ∈ P, cross a b p ≤ 0) (hm : ∀ p ∈ P, ¬ Mid a b p) :
    Del P a b := by
  have hk : ∀ Q : List (Point K), (∀ p ∈ Q, cross a b p ≤ 0) → (∀ p ∈ Q, ¬ Mid a b p) →
      ∃ k : K, 0 ≤ k ∧ ∀ p ∈ Q, 0 ≤ (diam a b).ev p - k * cross a b p := by
    intro Q
    induction Q with
    | nil => intro _ _; exact ⟨0, le_refl _, fun p hp => by simp at hp⟩
    | cons q Q ih =>
      intro hQ hM
      obtain ⟨k, hk0, hk⟩ := ih (fun p hp => hQ p (List.mem_cons_of_mem _ hp))
        (fun p hp => hM p (List.mem_cons_of_mem _ hp))
      have hn : 0 ≤ |(diam a b).ev q| / |cross a b q| := by positivity
      refine ⟨k + |(diam a b).ev q| / |cross a b q|, by positivity, fun p hp => ?_⟩
      rcases List.mem_cons.1 hp with rfl | hp
      · rcases lt_or_eq_of_le (hQ p List.mem_cons_self) with hc | hc
        · have e1 : |(diam a b).ev p| / |cross a b p| * cross a b p = - |(diam a b).ev p| := by
            rw [abs_of_neg hc]
            have := ne_of_lt hc
            field_simp
          have e2 := neg_abs_le ((diam a b).ev p)
          have e3 := mul_nonneg hk0 (neg_nonneg.2 (le_of_lt hc))
          nlinarith
        · rw [hc, mul_zero, sub_zero]
          by_contra hcon
          exact hM p List.mem_cons_self ⟨hc, not_le.1 hcon⟩
      · have e1 := hk p hp
        have e2 := mul_nonneg hn (neg_nonneg.2 (hQ p (List.mem_cons_of_mem _ hp)))
        nlinarith
  obtain ⟨k, -, hk⟩ := hk P hs hm
  refine ⟨(diam a b).tilt (-k) a b, fun p hp => ?_, ?_, ?_⟩
  · rw [ev_tilt]; have := hk p hp; linarith
  · rw [ev_tilt, ev_diam]; simp
  · rw [ev_tilt, ev_diam]; simp

/-- Every point of `R` that is not the furthest one has a neighbour further away, on an empty
circle of all points. -/
theorem grow (S : Sep L R) {A : Point K → Point K → Prop} (h : DT R A) {x n : Point K} (hx : x ∈ R)
    (hn : n ∈ R) (hs : S.s x < S.s n) : ∃ c, A x c ∧ Del (L ++ R) x c ∧ S.s x < S.s c := by
  classical
  let l : Point K := ⟨x.x - S.sy, x.y + S.sx⟩
  have hl : ∀ q, cross l x q = S.s q - S.s x := by intro q; simp only [l, cross, Sep.s]; ring
  obtain ⟨q, hq, hmin⟩ := Finset.exists_min_image (R.toFinset.filter fun p => S.s x < S.s p)
    (fun p => dot x p p / (S.s p - S.s x)) ⟨n, by simp [hn, hs]⟩
  rw [Finset.mem_filter, List.mem_toFinset] at hq
  set t := dot x q q / (S.s q - S.s x) with ht
  have hd : ∀ p, 0 ≤ dot x p p := by
    intro p; unfold dot
    exact add_nonneg (mul_self_nonneg _) (mul_self_nonneg _)
  have ht0 : 0 ≤ t := div_nonneg (hd q) (by linarith)
  set g : Circ K := (diam x x).tilt (-t) l x with hg
  have gev : ∀ p, g.ev p = dot x p p - t * (S.s p - S.s x) := by
    intro p
    rw [hg, ev_tilt, hl, ev_diam]; unfold dot; ring
  have gE : g.Empty (L ++ R) := by
    intro p hp
    rw [gev]
    rcases le_or_gt (S.s p) (S.s x) with h1 | h1
    · have := mul_nonneg ht0 (show 0 ≤ S.s x - S.s p by linarith)
      have := hd p
      linarith
    · have hpR : p ∈ R := by
        rcases List.mem_append.1 hp with hp | hp
        · have := S.lt' hp; have := S.gt' hx; linarith
        · exact hp
      have h2 := hmin p (by simp [hpR, h1])
      have h3 := mul_le_mul_of_nonneg_right h2 (show 0 ≤ S.s p - S.s x by linarith)
      have e : dot x p p / (S.s p - S.s x) * (S.s p - S.s x) = dot x p p := by
        have : S.s p - S.s x ≠ 0 := by linarith
        field_simp
      rw [e] at h3
      linarith
  have gx : g.ev x = 0 := by rw [gev]; unfold dot; ring
  have gq : g.ev q = 0 := by
    rw [gev, ht]
    have : S.s q - S.s x ≠ 0 := by linarith [hq.2]
    field_simp
    ring
  obtain ⟨c, hc, hpos, gc⟩ := h.nbr (P := L ++ R) (fun p hp => List.mem_append_right _ hp) (l := l)
    gE gx gq hx hq.1 (by rw [hl]; linarith [hq.2])
  rw [hl] at hpos
  exact ⟨c, hc, ⟨g, gE, gx, gc⟩, by linarith⟩

end HG
