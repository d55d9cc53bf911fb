import Verif.Props.Total
import Verif.Props.GenericSamples

/-!
# C48, C49, C50: concrete cases
-/

set_option linter.unusedSectionVars false

namespace HG

open Strategy Spec

namespace Sample

theorem coins_ok : Coins Sample.coins := by
  intro n hn
  refine ⟨coins_sums n hn, ?_⟩
  intro k hk
  unfold coins at hk
  split at hk
  · exact .inl (List.mem_replicate.1 hk).2
  · split at hk
    · simp at hk
    · rcases List.mem_append.1 hk with h | h
      · exact .inl (List.mem_replicate.1 h).2
      · exact .inr (by simpa using h)

/-- The sample environment with more steps. -/
def env' : Env ℤ := env.withFuel 2601

theorem gen_rich : Rich (sampledFrom genXs) 7 ∧ Rich (sampledFrom genYs) 7 :=
  ⟨rich_sampledFrom (l := genXs) (by decide) (by decide),
    rich_sampledFrom (l := genYs) (by decide) (by decide)⟩

theorem gen_steps : EnoughSteps env' (Drawn (sampledFrom genXs) (some (sampledFrom genYs))) :=
  enoughSteps_of (xs := genXs) (ys := genYs) (fun _ h => h) (fun _ h => h) (by decide)

/-- No draw of a polygon with a hole and coordinates from `genXs`, `genYs` fails. -/
example (e : Exc) : ∃ s, polygons env' (sampledFrom genXs) (some (sampledFrom genYs)) 3 none 1
    = .ok s ∧ ¬ s.2.err e :=
  ⟨_, rfl, C50_polygons env' coins_ok (fun l => List.Perm.refl l) sample_sound sample_hullOk _ _
    gen_steps 3 none 1 none (.inr gen_generic) 3 none 7 (by norm_num) (by norm_num) gen_rich.1
    gen_rich.2 _ rfl e⟩

/-- No draw of contours, multisegments, multicontours with coordinates from `genXs`, `genYs`
fails. -/
example (e : Exc) : ∃ s t u v,
    contours env' (sampledFrom genXs) (some (sampledFrom genYs)) 2 none = .ok s ∧
    concaveContours env' (sampledFrom genXs) (some (sampledFrom genYs)) 2 none = .ok t ∧
    multisegments env' (sampledFrom genXs) (some (sampledFrom genYs)) 2 none = .ok u ∧
    multicontours env' (sampledFrom genXs) (some (sampledFrom genYs)) 2 none 3 none = .ok v ∧
    ¬ s.2.err e ∧ ¬ t.2.err e ∧ ¬ u.2.err e ∧ ¬ v.2.err e := by
  obtain ⟨h1, h2, h3, h4⟩ := C50_contours env' coins_ok (sampledFrom genXs)
    (some (sampledFrom genYs)) gen_generic gen_steps 2 none 3 none 7 (by norm_num) (by norm_num)
    gen_rich.1 gen_rich.2 e
  exact ⟨_, _, _, _, rfl, rfl, rfl, rfl, h1 _ rfl, h2 _ rfl, h3 _ rfl, h4 _ rfl⟩

/-- Polygons without holes do not fail with the coordinates `0, ..., 6` either, which have many
collinear triples. -/
example (e : Exc) : ∃ s, polygons env' (sampledFrom (coords 7)) none 3 none 0 (some 0) = .ok s ∧
    ¬ s.2.err e :=
  ⟨_, rfl, C50_polygons env' coins_ok (fun l => List.Perm.refl l) sample_sound sample_hullOk _ _
    (enoughSteps_of (x := sampledFrom (coords 7)) (y := none) (xs := coords 7) (ys := coords 7)
      (fun _ h => h) (fun _ h => h) (by decide))
    3 none 0 (some 0) (.inl rfl) 3 none 7 (by norm_num) (by norm_num) (sample_rich 7 (by norm_num))
    (sample_rich 7 (by norm_num)) _ rfl e⟩

/-- Eleven coordinates with no slanted collinear triple. -/
def genXs11 : List ℤ := [0, 1, 2, 3, 4, 5, 6, 7, 8, 9, 10]

/-- Powers of a large number. -/
def genYs11 : List ℤ := genXs11.map fun i => 1000 ^ i.toNat

/-- Close abscissas and ordinates with large ratios of differences. -/
def ratioTest (m : ℤ) (xs ys : List ℤ) : Bool :=
  (xs.all fun a => xs.all fun b => decide (|a - b| ≤ m)) &&
    ys.all fun d => ys.all fun e => ys.all fun f => d == e || d == f || e == f ||
      decide (m < |(e - d) / Int.gcd (e - d) (f - d)|) ||
      decide (m < |(f - d) / Int.gcd (e - d) (f - d)|)

theorem ratioTest_generic {m : ℤ} {xs ys : List ℤ} (h : ratioTest m xs ys = true) :
    GenericCoords (sampledFrom xs) (some (sampledFrom ys)) := by
  rintro ⟨a, d⟩ ⟨b, e⟩ ⟨c, f⟩ ⟨ha, hd⟩ ⟨hb, he⟩ ⟨hc, hf⟩ hab hac hbc hcol
  simp only [ratioTest, Bool.and_eq_true, List.all_eq_true, decide_eq_true_eq] at h
  obtain ⟨h1, h2⟩ := h
  have h2 := h2 d hd e he f hf
  have hba := h1 b hb a ha
  have hca := h1 c hc a ha
  unfold Collinear area2 at hcol
  simp only [ne_eq, Point.mk.injEq, not_and, Bool.or_eq_true, beq_iff_eq, decide_eq_true_eq] at *
  have key : (b - a) * (f - d) = (e - d) * (c - a) := by linear_combination hcol
  by_cases hde : d = e
  · subst hde
    rw [sub_self, zero_mul] at key
    rcases mul_eq_zero.1 key with k | k
    · exact absurd rfl (hab (by omega))
    · exact .inr ⟨rfl, by omega⟩
  by_cases hdf : d = f
  · subst hdf
    rw [sub_self, mul_zero] at key
    rcases mul_eq_zero.1 key.symm with k | k
    · exact .inr ⟨by omega, rfl⟩
    · exact absurd rfl (hac (by omega))
  by_cases hef : e = f
  · subst hef
    have : (b - c) * (e - d) = 0 := by linear_combination key
    rcases mul_eq_zero.1 this with k | k
    · exact absurd rfl (hbc (by omega))
    · exact absurd (by omega) hde
  by_cases hx : a = b
  · subst hx
    rw [sub_self, zero_mul] at key
    rcases mul_eq_zero.1 key.symm with k | k
    · exact absurd (by omega) hde
    · exact .inl ⟨rfl, by omega⟩
  by_cases hx' : a = c
  · subst hx'
    rw [sub_self, mul_zero] at key
    rcases mul_eq_zero.1 key with k | k
    · exact .inl ⟨by omega, rfl⟩
    · exact absurd (by omega) hdf
  exfalso
  obtain ⟨u, v, hg, e1, e2⟩ : ∃ u v : ℤ, Int.gcd u v = 1 ∧
      e - d = u * (Int.gcd (e - d) (f - d) : ℤ) ∧ f - d = v * (Int.gcd (e - d) (f - d) : ℤ) := by
    have hpos : 0 < Int.gcd (e - d) (f - d) := Int.gcd_pos_of_ne_zero_left _ (by omega)
    obtain ⟨u, v, h1, h2, h3⟩ := Int.exists_gcd_one hpos
    exact ⟨u, v, h1, h2, h3⟩
  have hg0 : (Int.gcd (e - d) (f - d) : ℤ) ≠ 0 := by
    intro h0
    rw [h0, mul_zero] at e1
    exact hde (by omega)
  generalize (Int.gcd (e - d) (f - d) : ℤ) = g at *
  rw [e1, e2] at key h2
  rw [Int.mul_ediv_cancel _ hg0, Int.mul_ediv_cancel _ hg0] at h2
  have key : (b - a) * v = u * (c - a) := by
    have : g * ((b - a) * v - u * (c - a)) = 0 := by linear_combination key
    have := (mul_eq_zero.1 this).resolve_left hg0
    linarith
  have d1 : u ∣ b - a := IsCoprime.dvd_of_dvd_mul_right (Int.isCoprime_iff_gcd_eq_one.2 hg)
    ⟨c - a, key⟩
  have d2 : v ∣ c - a := IsCoprime.dvd_of_dvd_mul_left
    (Int.isCoprime_iff_gcd_eq_one.2 hg).symm ⟨b - a, by linear_combination -key⟩
  have l1 : |u| ≤ |b - a| := by
    have := Int.le_of_dvd (abs_pos.2 (by omega)) ((abs_dvd_abs u (b - a)).2 d1)
    exact this
  have l2 : |v| ≤ |c - a| := by
    have := Int.le_of_dvd (abs_pos.2 (by omega)) ((abs_dvd_abs v (c - a)).2 d2)
    exact this
  rcases h2 with (((h | h) | h) | h) | h
  · exact hde h
  · exact hdf h
  · exact hef h
  · omega
  · omega

theorem gen_generic11 : GenericCoords (sampledFrom genXs11) (some (sampledFrom genYs11)) :=
  ratioTest_generic (m := 10) (by decide +kernel)

theorem gen_rich11 : Rich (sampledFrom genXs11) 11 ∧ Rich (sampledFrom genYs11) 11 :=
  ⟨rich_sampledFrom (l := genXs11) (by decide) (by decide),
    rich_sampledFrom (l := genYs11) (by decide +kernel) (by decide)⟩

/-- The sample environment with even more steps. -/
def env'' : Env ℤ := env.withFuel 15129

theorem gen_steps11 : EnoughSteps env'' (Drawn (sampledFrom genXs11) (some (sampledFrom genYs11))) :=
  enoughSteps_of (xs := genXs11) (ys := genYs11) (fun _ h => h) (fun _ h => h)
    (by simp [genXs11, genYs11, env'', Env.withFuel])

theorem rich_iff {l : List ℤ} (hl : l.Nodup) {m : ℕ} (h0 : 0 < m) (hm : l.length = m) (n : Int) :
    Rich (sampledFrom l) n ↔ n ≤ m := by
  constructor
  · rintro ⟨-, k, h1, h2, h3⟩
    have := (h2.subperm (l₂ := l) fun a ha => h1 a ha).length_le
    omega
  · intro h
    refine (rich_sampledFrom hl ?_).mono (by omega)
    rintro rfl
    simp at hm
    omega

/-- No draw of a multipolygon with these coordinates fails. -/
example (e : Exc) (s : Made (List (Polygon ℤ)))
    (hs : multipolygons env'' (sampledFrom genXs11) (some (sampledFrom genYs11)) = .ok s) :
    ¬ s.2.err e :=
  C50_multipolygons env'' coins_ok (fun l => List.Perm.refl l) sample_sound
      sample_hullOk _ _ gen_generic11 gen_steps11 2 none 3 none 0 none 3 none (by norm_num) 5 11
      (by norm_num) (by norm_num) (by norm_num) (by norm_num) gen_rich11.1 gen_rich11.2 s hs e


/-- No draw of a mix with these coordinates fails. -/
example (e : Exc) (s : Made (Mix ℤ))
    (hs : mixes env'' (sampledFrom genXs11) (some (sampledFrom genYs11)) = .ok s) :
    ¬ s.2.err e := by
  refine C50_mixes env'' coins_ok (fun l => List.Perm.refl l) sample_sound
    sample_hullOk _ _ gen_generic11 gen_steps11 {} 5 (by norm_num) (by norm_num)
    (gen_rich11.1.mono (by norm_num)) ?_ s hs e
  intro n
  show Rich (sampledFrom genXs11) n ↔ Rich (sampledFrom genYs11) n
  rw [rich_iff (m := 11) (by decide) (by norm_num) rfl,
    rich_iff (m := 11) (by decide +kernel) (by norm_num) rfl]

example : (∃ s, multipolygons env'' (sampledFrom genXs11) (some (sampledFrom genYs11)) = .ok s) ∧
    ∃ s, mixes env'' (sampledFrom genXs11) (some (sampledFrom genYs11)) = .ok s :=
  ⟨⟨_, rfl⟩, ⟨_, rfl⟩⟩

end Sample
end HG
