import Verif.Model.Validate
import Verif.Spec.Validate

/-!
# Failed assertions of combined results
-/

namespace Tombi.Validate

theorem merge_failed (C : Ctx) (a b : Outcome) : (merge C a b).failed = (a.failed || b.failed) := by
  cases a <;> cases b <;> simp [merge, Outcome.failed]

theorem withLint_failed (C : Ctx) (p : Path) (o : Outcome) : (withLint C p o).failed = o.failed := by
  cases o with
  | ok => simp only [withLint]; split <;> rfl
  | err => rfl

theorem finish_failed (ev : Nat) (t : Part) : (finish ev t).failed = t.failed := by
  simp only [finish]
  split
  · rename_i h
    simp only [Bool.and_eq_true, Bool.not_eq_true'] at h
    rw [h.2]
    rfl
  · rfl

theorem withDeprecated_failed (C : Ctx) (p : Path) (n : Node) (t : Part) :
    (withDeprecated C p n t).failed = t.failed := by
  simp only [withDeprecated]
  split <;> rfl

theorem check_failed (C : Ctx) (p : Path) (r : Rule) (b : Bool) : (check C p r b).failed = b := by
  cases b <;> rfl

theorem part_failed (o : Outcome) : o.part.failed = o.failed := rfl

theorem total_failed (ps : List Part) : (total ps).failed = ps.any Part.failed := rfl

theorem filterStrict_failed (o : Outcome) : (filterStrict o).failed = o.failed := by
  cases o with
  | ok => rfl
  | err f e ds =>
    simp only [filterStrict]
    split
    · rename_i h
      simp only [Bool.and_eq_true, Bool.not_eq_true'] at h
      rw [h.2]
      rfl
    · rfl

theorem keyEmpty_failed (C : Ctx) (p : Path) (s : Key) : (keyEmpty C p s).failed = false := by
  simp only [keyEmpty]
  split <;> rfl

theorem withKey_failed (C : Ctx) (q : Pos) (o : Outcome) : (withKey C q o).failed = o.failed := by
  simp only [withKey]
  split
  · rw [merge_failed, keyEmpty_failed, Bool.or_false]
  · rfl

theorem mergeIf_failed (C : Ctx) (b i : Outcome) : (mergeIf C b i).failed = b.failed := by
  match i with
  | .ok =>
    simp only [mergeIf, merge_failed]
    rfl
  | .err false e ds =>
    simp only [mergeIf, merge_failed]
    rfl
  | .err true _ _ => rfl

theorem combine_err (f e ds) (o : Outcome) : ∃ f' e' ds', combine (.err f e ds) o = .err f' e' ds' ∧
    (f = true → o.failed = true ∨ o = .ok → f' = true) ∧ (o.failed = true → f' = true ∨
      (f = false ∧ f' = false ∧ e' = e ∧ ds' = ds)) := by
  cases o with
  | ok => exact ⟨f, e, ds, rfl, fun h _ => h, by intro h; cases h⟩
  | err f' e' ds' =>
    simp only [combine]
    split
    · refine ⟨f', e', ds', rfl, ?_, ?_⟩
      · intro _ h
        rcases h with h | h
        · exact h
        · cases h
      · intro h
        exact .inl h
    · split
      · refine ⟨f || f', e, ds ++ ds', rfl, ?_, ?_⟩
        · intro h _
          rw [h]
          rfl
        · intro h
          simp only [Outcome.failed] at h
          rw [h]
          simp
      · refine ⟨f, e, ds, rfl, fun h _ => h, ?_⟩
        intro _
        cases f
        · exact .inr ⟨rfl, rfl, rfl, rfl⟩
        · exact .inl rfl

/-- Folding failed results into a failed one stays failed. -/
theorem foldl_combine_failed (rs : List Outcome) (e ds) (h : ∀ o ∈ rs, o.failed = true) :
    ∃ e' ds', rs.foldl combine (.err true e ds) = .err true e' ds' := by
  induction rs generalizing e ds with
  | nil => exact ⟨e, ds, rfl⟩
  | cons o rs ih =>
    obtain ⟨f', e', ds', h1, h2, _⟩ := combine_err true e ds o
    have := h2 rfl (.inl (h o (by simp)))
    subst this
    simp only [List.foldl_cons, h1]
    exact ih e' ds' fun o ho => h o (by simp [ho])

/-- Folding failed results into the empty one is failed, unless there are none. -/
theorem foldl_combine_new (rs : List Outcome) (h : ∀ o ∈ rs, o.failed = true) (hne : rs ≠ []) :
    ∃ e' ds', rs.foldl combine (.err false 0 []) = .err true e' ds' := by
  cases rs with
  | nil => exact absurd rfl hne
  | cons o rs =>
    have ho := h o (by simp)
    cases o with
    | ok => cases ho
    | err f e ds =>
      simp only [Outcome.failed] at ho
      subst ho
      simp only [List.foldl_cons]
      have : combine (.err false 0 []) (.err true e ds) = .err true e ds := by simp [combine]
      rw [this]
      exact foldl_combine_failed rs e ds fun o ho => h o (by simp [ho])

/-- A `oneOf` result has no failed assertion iff exactly one member has none. -/
theorem oneOfResult_failed (C : Ctx) (p : Path) (n : Node) (adj : Part) (noMembers : Bool)
    (rs : List Outcome) (hadj : adj.failed = false) (hno : noMembers = true ↔ rs = []) :
    (oneOfResult C p n adj noMembers rs).failed = false ↔
      (rs.filter fun o => !o.failed).length = 1 := by
  simp only [oneOfResult]
  split
  · rename_i h
    rw [hno.1 h]
    simp [Outcome.failed]
  · rename_i h
    have hne : rs ≠ [] := fun hc => h (hno.2 hc)
    generalize hv : (rs.filter fun o => !o.failed) = valid
    match valid with
    | [] =>
      have hall : ∀ o ∈ rs, o.failed = true := by
        intro o ho
        have := List.filter_eq_nil_iff.1 hv o ho
        simpa using this
      obtain ⟨e', ds', he⟩ := foldl_combine_new rs hall hne
      simp only [he]
      simp [Outcome.failed]
    | [.ok] =>
      simp only [hadj]
      split <;> simp [Outcome.failed]
    | [.err f e ds] =>
      have hm : Outcome.err f e ds ∈ rs.filter fun o => !o.failed := by rw [hv]; simp
      have := (List.mem_filter.1 hm).2
      simp only [Outcome.failed, Bool.not_eq_true'] at this
      simp [Outcome.failed, this]
    | _ :: _ :: _ => simp [Outcome.failed]

/-- An `anyOf` result has no failed assertion iff some member has none and the adjacent keywords
have none. -/
theorem anyOfResult_failed (adj : Part) (dep : List Diag) (rs : List Outcome) (hne : rs ≠ []) :
    (anyOfResult adj dep rs).failed = false ↔ (∃ o ∈ rs, o.failed = false) ∧ adj.failed = false := by
  simp only [anyOfResult]
  split
  · rename_i h
    have hex : ∃ o ∈ rs, o.failed = false := by
      cases hf : rs.filter fun o => !o.failed with
      | nil => rw [hf] at h; simp at h
      | cons o os =>
        have hm : o ∈ rs.filter fun o => !o.failed := by rw [hf]; simp
        have := List.mem_filter.1 hm
        exact ⟨o, this.1, by simpa using this.2⟩
    split
    · rename_i h2
      simp only [Bool.and_eq_true, Bool.not_eq_true'] at h2
      exact ⟨fun _ => ⟨hex, h2.2⟩, fun _ => rfl⟩
    · simp only [Outcome.failed]
      exact ⟨fun h => ⟨hex, h⟩, fun h => h.2⟩
  · rename_i h
    have hall : ∀ o ∈ rs, o.failed = true := by
      intro o ho
      cases hf : o.failed with
      | true => rfl
      | false =>
        exfalso
        apply h
        have : o ∈ rs.filter fun o => !o.failed := List.mem_filter.2 ⟨ho, by simp [hf]⟩
        cases hr : rs.filter fun o => !o.failed with
        | nil => rw [hr] at this; cases this
        | cons => rfl
    have hfil : (rs.filter fun o => o.failed) = rs := List.filter_eq_self.2 hall
    obtain ⟨e', ds', he⟩ := foldl_combine_new rs hall hne
    rw [hfil]
    simp only [he]
    constructor
    · intro hc
      simp [Outcome.failed] at hc
    · rintro ⟨⟨o, ho, hof⟩, _⟩
      rw [hall o ho] at hof
      cases hof

end Tombi.Validate
