import Verif.Model.Strategy

/-!
# Unfolding lemmas for strategies
-/

namespace HG
namespace Strategy

variable {α β : Type}

@[simp] theorem val_pure (a b : α) : (pure a : Strategy α).val b ↔ b = a := Iff.rfl
@[simp] theorem err_pure (a : α) (e : Exc) : (pure a : Strategy α).err e ↔ False := Iff.rfl
@[simp] theorem val_just (a b : α) : (just a).val b ↔ b = a := Iff.rfl
@[simp] theorem err_just (a : α) (e : Exc) : (just a).err e ↔ False := Iff.rfl
@[simp] theorem val_fail (e : Exc) (b : α) : (fail e : Strategy α).val b ↔ False := Iff.rfl
@[simp] theorem err_fail (e e' : Exc) : (fail e : Strategy α).err e' ↔ e' = e := Iff.rfl

@[simp] theorem val_bind (s : Strategy α) (f : α → Strategy β) (b : β) :
    (s >>= f).val b ↔ ∃ a, s.val a ∧ (f a).val b := Iff.rfl
@[simp] theorem err_bind (s : Strategy α) (f : α → Strategy β) (e : Exc) :
    (s >>= f).err e ↔ s.err e ∨ ∃ a, s.val a ∧ (f a).err e := Iff.rfl
@[simp] theorem val_bind' (s : Strategy α) (f : α → Strategy β) (b : β) :
    (s.bind f).val b ↔ ∃ a, s.val a ∧ (f a).val b := Iff.rfl
@[simp] theorem err_bind' (s : Strategy α) (f : α → Strategy β) (e : Exc) :
    (s.bind f).err e ↔ s.err e ∨ ∃ a, s.val a ∧ (f a).err e := Iff.rfl

@[simp] theorem val_ofExcept (r : Except Exc α) (a : α) :
    (ofExcept r).val a ↔ r = .ok a := by
  cases r <;> simp [ofExcept, eq_comm]
@[simp] theorem err_ofExcept (r : Except Exc α) (e : Exc) :
    (ofExcept r).err e ↔ r = .error e := by
  cases r <;> simp [ofExcept, eq_comm]

@[simp] theorem val_mapE (s : Strategy α) (f : α → Except Exc β) (b : β) :
    (s.mapE f).val b ↔ ∃ a, s.val a ∧ f a = .ok b := by simp [mapE]
@[simp] theorem err_mapE (s : Strategy α) (f : α → Except Exc β) (e : Exc) :
    (s.mapE f).err e ↔ s.err e ∨ ∃ a, s.val a ∧ f a = .error e := by simp [mapE]

@[simp] theorem val_map (s : Strategy α) (f : α → β) (b : β) :
    (s.map f).val b ↔ ∃ a, s.val a ∧ b = f a := Iff.rfl
@[simp] theorem err_map (s : Strategy α) (f : α → β) (e : Exc) :
    (s.map f).err e ↔ s.err e := Iff.rfl

@[simp] theorem val_filter (s : Strategy α) (p : α → Bool) (a : α) :
    (s.filter p).val a ↔ s.val a ∧ p a = true := Iff.rfl
@[simp] theorem err_filter (s : Strategy α) (p : α → Bool) (e : Exc) :
    (s.filter p).err e ↔ s.err e := Iff.rfl
@[simp] theorem val_filterE (s : Strategy α) (p : α → Except Exc Bool) (a : α) :
    (s.filterE p).val a ↔ s.val a ∧ p a = .ok true := Iff.rfl
@[simp] theorem err_filterE (s : Strategy α) (p : α → Except Exc Bool) (e : Exc) :
    (s.filterE p).err e ↔ s.err e ∨ ∃ a, s.val a ∧ p a = .error e := Iff.rfl

@[simp] theorem val_or (s t : Strategy α) (a : α) :
    (s ||| t).val a ↔ s.val a ∨ t.val a := Iff.rfl
@[simp] theorem err_or (s t : Strategy α) (e : Exc) :
    (s ||| t).err e ↔ s.err e ∨ t.err e := Iff.rfl

@[simp] theorem val_prod (s : Strategy α) (t : Strategy β) (p : α × β) :
    (prod s t).val p ↔ s.val p.1 ∧ t.val p.2 := Iff.rfl
@[simp] theorem err_prod (s : Strategy α) (t : Strategy β) (e : Exc) :
    (prod s t).err e ↔ s.err e ∨ ((∃ a, s.val a) ∧ t.err e) := Iff.rfl

@[simp] theorem val_integers (lo hi n : Int) : (integers lo hi).val n ↔ lo ≤ n ∧ n ≤ hi := Iff.rfl
@[simp] theorem err_integers (lo hi : Int) (e : Exc) :
    (integers lo hi).err e ↔ hi < lo ∧ e = .invalidArgument := Iff.rfl
@[simp] theorem val_integersFrom (lo n : Int) : (integersFrom lo).val n ↔ lo ≤ n := Iff.rfl
@[simp] theorem err_integersFrom (lo : Int) (e : Exc) : (integersFrom lo).err e ↔ False := Iff.rfl
@[simp] theorem val_sampledFrom (l : List α) (a : α) : (sampledFrom l).val a ↔ a ∈ l := Iff.rfl
@[simp] theorem err_sampledFrom (l : List α) (e : Exc) :
    (sampledFrom l).err e ↔ l = [] ∧ e = .invalidArgument := Iff.rfl
@[simp] theorem val_permutations (l l' : List α) :
    (permutations l).val l' ↔ l'.Perm l := Iff.rfl
@[simp] theorem err_permutations (l : List α) (e : Exc) :
    (permutations l).err e ↔ False := Iff.rfl
@[simp] theorem val_lists (s : Strategy α) (lo : Int) (hi : Option Int) (l : List α) :
    (lists s lo hi).val l ↔ (∀ a ∈ l, s.val a) ∧ lo ≤ l.length ∧ leOpt l.length hi := Iff.rfl
@[simp] theorem err_lists (s : Strategy α) (lo : Int) (hi : Option Int) (e : Exc) :
    (lists s lo hi).err e ↔ s.err e ∨ (¬ leOpt lo hi ∧ e = .invalidArgument) := Iff.rfl
@[simp] theorem val_uniqueLists (s : Strategy α) (lo : Int) (hi : Option Int) (l : List α) :
    (uniqueLists s lo hi).val l ↔
      (∀ a ∈ l, s.val a) ∧ l.Nodup ∧ lo ≤ l.length ∧ leOpt l.length hi := Iff.rfl
@[simp] theorem err_uniqueLists (s : Strategy α) (lo : Int) (hi : Option Int) (e : Exc) :
    (uniqueLists s lo hi).err e ↔ s.err e ∨ (¬ leOpt lo hi ∧ e = .invalidArgument) ∨
     ((¬ ∃ l : List α, (∀ a ∈ l, s.val a) ∧ l.Nodup ∧ lo ≤ l.length) ∧
       e = .unsatisfiable) := Iff.rfl
@[simp] theorem val_anything (a : α) : (anything : Strategy α).val a ↔ True := Iff.rfl
@[simp] theorem err_anything (e : Exc) : (anything : Strategy α).err e ↔ False := Iff.rfl

@[simp] theorem leOpt_none (n : Int) : leOpt n none ↔ True := Iff.rfl
@[simp] theorem leOpt_some (n m : Int) : leOpt n (some m) ↔ n ≤ m := Iff.rfl

@[simp] theorem sequence_nil : sequence ([] : List (Strategy α)) = just [] := rfl

theorem val_sequence (ss : List (Strategy α)) (l : List α) :
    (sequence ss).val l ↔ List.Forall₂ (fun s a => s.val a) ss l := by
  induction ss generalizing l with
  | nil => simp [sequence]
  | cons s ss ih =>
    cases l with
    | nil => simp [sequence]
    | cons a l => simp [sequence, ih]

theorem err_sequence (ss : List (Strategy α)) (e : Exc) (h : (sequence ss).err e) :
    ∃ s ∈ ss, s.err e := by
  induction ss with
  | nil => simp [sequence] at h
  | cons s ss ih =>
    simp only [sequence, err_bind', err_map] at h
    rcases h with h | ⟨a, _, h⟩
    · exact ⟨s, by simp, h⟩
    · obtain ⟨t, ht, h⟩ := ih h
      exact ⟨t, by simp [ht], h⟩

end Strategy
end HG
