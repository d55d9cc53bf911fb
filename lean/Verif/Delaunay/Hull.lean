import Verif.Delaunay.Border

/-!
# The hull of a triangulation as the border of the triangulated region
-/

set_option linter.unusedSectionVars false

namespace HG

variable {K : Type} [CommRing K] [LinearOrder K] [IsStrictOrderedRing K]
variable {P : List (Point K)} {m : Mesh K} {D : Ref → Prop} {t : Tri} {B : List Ref}

theorem boundaryLoop_ok {s : Ref} {fuel : Nat} {c : Ref} {es : List Ref}
    (h : boundaryLoop m s fuel c = .ok es) :
    ∃ l, es = c :: l ∧ List.IsChain (fun a b => m.next a.opp = b) (c :: (l ++ [s])) ∧ s ∉ l := by
  induction fuel generalizing c es with
  | zero => simp [boundaryLoop, throw, throwThe, MonadExceptOf.throw] at h
  | succ fuel ih =>
    unfold boundaryLoop at h
    split at h
    · rename_i h1
      simp only [exc_pure_ok] at h
      subst h
      refine ⟨[], rfl, ?_, by simp⟩
      rw [List.nil_append, List.isChain_pair]
      exact h1
    · rename_i h1
      simp only [exc_bind_ok, exc_pure_ok] at h
      obtain ⟨r, hr, rfl⟩ := h
      obtain ⟨l, rfl, hc, hs⟩ := ih hr
      refine ⟨_, rfl, ?_, ?_⟩
      · rw [List.cons_append, List.isChain_cons_cons]
        exact ⟨rfl, hc⟩
      · rw [List.mem_cons]
        rintro (h2 | h2)
        · exact h1 h2.symm
        · exact hs h2

theorem chain_det {f : Ref → Ref} {x s : Ref} {l₁ l₂ : List Ref}
    (h1 : List.IsChain (fun a b => f a = b) (x :: (l₁ ++ [s])))
    (h2 : List.IsChain (fun a b => f a = b) (x :: (l₂ ++ [s]))) (n1 : s ∉ l₁) (n2 : s ∉ l₂) :
    l₁ = l₂ := by
  induction l₁ generalizing x l₂ with
  | nil =>
    rcases l₂ with _ | ⟨b, l₂⟩
    · rfl
    · rw [List.nil_append, List.isChain_pair] at h1
      rw [List.cons_append, List.isChain_cons_cons] at h2
      exact absurd (by rw [← h1, h2.1]; simp) n2
  | cons a l₁ ih =>
    rcases l₂ with _ | ⟨b, l₂⟩
    · rw [List.nil_append, List.isChain_pair] at h2
      rw [List.cons_append, List.isChain_cons_cons] at h1
      exact absurd (by rw [← h2, h1.1]; simp) n1
    · rw [List.cons_append, List.isChain_cons_cons] at h1 h2
      have e : a = b := by rw [← h1.1, h2.1]
      subst e
      rw [ih h1.2 h2.2 (fun h => n1 (List.mem_cons_of_mem _ h)) (fun h => n2 (List.mem_cons_of_mem _ h))]

theorem chain_nodup {f : Ref → Ref} {x s : Ref} {l : List Ref}
    (h : List.IsChain (fun a b => f a = b) (x :: (l ++ [s]))) (n : s ∉ l) : (x :: l).Nodup := by
  induction l generalizing x with
  | nil => simp
  | cons a l ih =>
    rw [List.nodup_cons]
    have h' := h
    rw [List.cons_append, List.isChain_cons_cons] at h'
    refine ⟨?_, ih h'.2 (fun h => n (List.mem_cons_of_mem _ h))⟩
    intro hx
    obtain ⟨p, q, hpq⟩ := List.append_of_mem hx
    have hq : List.IsChain (fun a b => f a = b) (x :: (q ++ [s])) := by
      rw [hpq, List.append_assoc, List.cons_append, ← List.cons_append, List.isChain_split] at h
      exact h.2
    have := chain_det h hq n (by intro hh; apply n; rw [hpq]; simp [hh])
    rw [hpq] at this
    have := congrArg List.length this
    simp at this
    omega

/-- The hull walk of a triangulation of points that are not on one line. -/
theorem Tgl.bord (h : Tgl m D P t) (nc : ¬ AllCol P) {fuel : Nat} {es : List Ref}
    (hb : boundaryEdges fuel m t = .ok es) :
    Bord P m D es ∧ (∀ e, e ∈ es ↔ HullDart P m D e) ∧ es.head? = some t.leftSide := by
  obtain ⟨l, rfl, hc, hs⟩ := boundaryLoop_ok hb
  have h0 : HullDart P m D t.leftSide := ⟨h.dl, h.lhull⟩
  have hall : ∀ e ∈ t.leftSide :: l, HullDart P m D e := by
    have key : ∀ (l : List Ref) (c : Ref), HullDart P m D c →
        List.IsChain (fun a b => m.next a.opp = b) (c :: l) → ∀ e ∈ c :: l, HullDart P m D e := by
      intro l
      induction l with
      | nil => intro c hc _ e he; rw [List.mem_singleton] at he; exact he ▸ hc
      | cons a l ih =>
        intro c hc hch e he
        rw [List.isChain_cons_cons] at hch
        rcases List.mem_cons.1 he with he | he
        · exact he ▸ hc
        · refine ih a ?_ hch.2 e he
          rw [← hch.1]; exact hc.rfe h
    intro e he
    refine key _ _ h0 hc e ?_
    rw [List.mem_cons] at he ⊢
    rcases he with he | he
    · exact .inl he
    · exact .inr (by simp [he])
  have hclosed : ∀ e ∈ t.leftSide :: l, m.rfe e ∈ t.leftSide :: l := by
    intro e he
    obtain ⟨b, hb, rfl⟩ := chain_mem hc (l' := t.leftSide :: l) (x := t.leftSide) (by simp) e he
    show m.next e.opp ∈ _
    simp only [List.mem_cons, List.mem_append, List.not_mem_nil, or_false] at hb ⊢
    tauto
  have hiff : ∀ e, e ∈ t.leftSide :: l ↔ HullDart P m D e := by
    refine fun e => ⟨hall e, fun he => ?_⟩
    obtain ⟨k, rfl⟩ := hull_reach h nc he
    clear he
    induction k with
    | zero => simp
    | succ k ih => rw [Function.iterate_succ_apply']; exact hclosed _ ih
  refine ⟨⟨h.wf, h.edge, h.opp, h.next, h.org, h.ne, h.mem, h.simple, h.nocross, h.nomid, ?_, ?_, ?_,
    by simp, ?_, ?_⟩, hiff, rfl⟩
  · intro e he
    rcases h.side he with h1 | h1
    · left
      rw [hiff]
      refine ⟨h.opp he, fun p hp => ?_⟩
      have := h1 p hp
      rw [Ref.opp_opp, cross_swap12]; linarith
    · exact .inr h1.1
  · exact fun e he => (hall e he).1
  · intro e he heo
    have h1 := hall e he
    have h2 := hall _ heo
    refine nc (both_col h h1.1 h1.2 fun p hp => ?_)
    have := h2.2 p hp
    rw [Ref.opp_opp, cross_swap12] at this; linarith
  · simpa using hc
  · rw [List.nodup_map_iff_inj_on (chain_nodup hc hs)]
    intro a ha b hb hab
    exact HullDart.inj h nc (hall a ha) (hall b hb) hab

/-- The boundary walk of a triangulated region that starts at the first edge of its border. -/
theorem Bord.walk (h : Bord P m D B) (hh : B.head? = some t.leftSide) {fuel : Nat} {es : List Ref}
    (hb : boundaryEdges fuel m t = .ok es) : es = B := by
  obtain ⟨l, rfl, hc, hs⟩ := boundaryLoop_ok hb
  rcases B with _ | ⟨s, l'⟩
  · simp at hh
  simp only [List.head?_cons, Option.some.injEq] at hh
  subst hh
  have nd : (t.leftSide :: l').Nodup := List.Nodup.of_map _ h.nodup
  have hc' := h.cyc
  simp only [List.take_succ_cons, List.take_zero, List.cons_append] at hc'
  rw [chain_det (f := fun a => m.next a.opp) hc hc' hs (List.nodup_cons.1 nd).1]

end HG
