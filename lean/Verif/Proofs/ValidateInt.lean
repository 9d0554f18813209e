import Verif.Proofs.ValidateClean
import Verif.Proofs.ValidateMeaning

/-!
# Integers of any size
-/

namespace Tombi.Validate
open Tombi.Spec.Validate

theorem notMultiple_any {i m : Int} (h0 : m ≠ 0) (h1 : ¬(i = -(2 ^ 63) ∧ m = -1)) :
    (!(!((notMultiple i m).getD true))) = false ↔ ∃ c : Int, i = m * c := by
  simp only [notMultiple, if_neg h0, if_neg h1, Option.getD_some, Bool.not_not]
  simp only [bne_eq_false_iff_eq]
  constructor
  · intro h
    exact ⟨i.tdiv m, by have := Int.mul_tdiv_add_tmod i m; rw [h] at this; omega⟩
  · rintro ⟨c, rfl⟩
    exact Int.mul_tmod_right m c

theorem int_const {n : Node} {i : Int}
    (ha : ∀ l, n.const = some l → litHasType l .int = true) :
    constViolated .int n (.int i) = false ↔ ∀ l, n.const = some l → ∃ w, l = some w ∧ Same (.int i) w := by
  simp only [constViolated]
  cases hn : n.const with
  | none => simp
  | some l =>
    have h := ha l hn
    have hj : ∀ j : Int, Same (.int i) (.int j) ↔ i = j := fun j => by simp [Same]
    rcases l with _ | (_ | j | _ | _ | _)
    case some.int =>
      simp only [litFor, valueFor, jsonEq, Option.some.injEq, forall_eq', Bool.not_eq_false', beq_iff_eq]
      constructor
      · rintro rfl
        exact ⟨_, rfl, (hj i).2 rfl⟩
      · rintro ⟨w, hw, hs⟩
        subst hw
        exact (hj j).1 hs
    all_goals cases h

theorem int_enum {n : Node} {i : Int} :
    enumViolated .int n (.int i) = false ↔ ∀ ls, n.enum = some ls → ∃ w, some w ∈ ls ∧ Same (.int i) w := by
  simp only [enumViolated]
  cases hn : n.enum with
  | none => simp
  | some ls =>
    simp only [Option.some.injEq, forall_eq', Bool.not_eq_false', List.any_eq_true, List.mem_filterMap]
    constructor
    · rintro ⟨w, ⟨l, hl, hw⟩, he⟩
      rcases l with _ | (_ | j | _ | _ | _) <;> simp [litFor] at hw
      subst hw
      refine ⟨.int j, hl, ?_⟩
      simpa [valueFor, jsonEq, Same] using he
    · rintro ⟨w, hw, hs⟩
      cases w <;> simp [Same] at hs
      subst hs
      exact ⟨.int i, ⟨_, hw, rfl⟩, by simp [valueFor, jsonEq]⟩

/-- The integer view without applicators. -/
theorem int_view (rec : Rec) (keyCall : Key → Nat → Outcome) (E : Env) (C : Ctx) (q : Pos) (id : Nat)
    (n : Node) (i : Int) (hq : q.value = .int i) (hno : NoApplicator n) (hnot : n.not = none)
    (hm : ∀ m, n.multipleOf = some m → m ≠ 0 ∧ ¬(i = -(2 ^ 63) ∧ m = -1))
    (ha : ∀ l, n.const = some l → litHasType l .int = true) :
    (typedView rec keyCall E C q id n .int).failed = false ↔
      ((∀ l, n.const = some l → ∃ w, l = some w ∧ Same (.int i) w) ∧
        ∀ ls, n.enum = some ls → ∃ w, some w ∈ ls ∧ Same (.int i) w) ∧ Numeric n i := by
  have hadj : adjacent rec C q id n = .ok := by
    simp only [adjacent, hno.1, hno.2.1, hno.2.2, notOutcome, hnot, merge]
  simp only [typedView, hq, merge_failed, finish_failed, withDeprecated_failed, hadj]
  rw [show Outcome.ok.failed = false from rfl, Bool.or_false]
  rw [numberParts_iff (n := n) C q.path _ _ (fun _ _ => rfl) rfl
    (fun m h => notMultiple_any (hm m h).1 (hm m h).2)]
  rw [int_const ha, int_enum]

theorem accepts_int_iff {E : Env} {f : Nat} {n : Node} (hno : NoApplicator n) :
    accepts E f n .int = true ↔ (∀ ts, n.types = some ts → .int ∈ ts ∨ .num ∈ ts) ∧
      (∀ l, n.const = some l → litHasType l .int = true) ∧
      (∀ ls, n.enum = some ls → ∃ l ∈ ls, litHasType l .int = true) := by
  constructor
  · intro h
    obtain ⟨h1, h2, h3⟩ := accepts_types h
    exact ⟨fun ts ht => (h1 ts ht).imp id And.right, h2, h3⟩
  · rintro ⟨h1, h2, h3⟩
    simp only [accepts, acceptsNode, Bool.and_eq_true, hno.1, hno.2.1, hno.2.2]
    refine ⟨⟨⟨⟨⟨?_, ?_⟩, ?_⟩, rfl⟩, rfl⟩, rfl⟩
    · cases hn : n.types with
      | none => rfl
      | some ts =>
        simp only [List.any_eq_true]
        rcases h1 ts hn with h | h
        · exact ⟨_, h, by decide⟩
        · exact ⟨_, h, by decide⟩
    · cases hn : n.const with
      | none => rfl
      | some l => exact h2 l hn
    · cases hn : n.enum with
      | none => rfl
      | some ls =>
        obtain ⟨l, hl, ht⟩ := h3 ls hn
        exact List.any_eq_true.2 ⟨l, hl, ht⟩

theorem int_fits {k : Kind} {i : Int} (h : k.fits (.int i) = true) : k = .int ∨ k = .num := by
  cases k <;> simp [Kind.fits] at h <;> simp

/-- Which way an integer takes through `value.validate`. -/
theorem objectDirect_int (rec : Rec) (keyCall : Key → Nat → Outcome) (E : Env) (C : Ctx) (f : Nat) (q : Pos)
    (id : Nat) (n : Node) (i : Int) (hq : q.value = .int i) (hno : NoApplicator n)
    (hnum : n.numberOnly = false) :
    (accepts E f n .int = true →
      objectDirect rec keyCall E C f q id false n = typedView rec keyCall E C q id n .int) ∧
    (accepts E f n .int = false → n.typed = true →
      (objectDirect rec keyCall E C f q id false n).failed = true ∧
        ∀ d ∈ (objectDirect rec keyCall E C f q id false n).diags, d.rule = .typeMismatch ∨ d.rule = .nothing) := by
  have hkind : kindFor n q.value = .int := by simp [hq, kindFor, hnum]
  have hty : tyOf q.value = .int := by rw [hq]; rfl
  constructor
  · intro ha
    have hmem : Kind.int ∈ views E f n := by
      have := kindFor_mem (E := E) (f := f) (n := n) (v := .int i) (by simp [hnum]) ha
      rw [hq] at hkind
      rwa [hkind] at this
    simp only [objectDirect, hkind, hty, ha, hno.1, hno.2.1, hno.2.2]
    split
    · split
      · rfl
      · rename_i k hk
        rw [hk] at hmem
        simp only [List.mem_singleton] at hmem
        subst hmem
        split <;> rfl
      · rfl
    · rfl
  · intro ha ht
    have hfit : ∀ k ∈ views E f n, k.fits q.value = false := by
      intro k hk
      cases hf : k.fits q.value with
      | false => rfl
      | true =>
        have := accepts_of_fits hk hf
        rw [hty, ha] at this
        cases this
    have hpush : ∀ (e : Nat), (typeMismatch C q.path e).failed = true ∧
        ∀ d ∈ (typeMismatch C q.path e).diags, d.rule = .typeMismatch ∨ d.rule = .nothing := by
      intro e
      refine ⟨rfl, ?_⟩
      intro d hd
      simp only [typeMismatch, Outcome.diags, push] at hd
      split at hd
      · cases hd
      · rw [List.mem_singleton] at hd
        subst hd
        exact .inl rfl
    simp only [objectDirect, ht, if_true, hty, ha]
    split
    · refine ⟨rfl, ?_⟩
      intro d hd
      simp only [Bool.false_eq_true, if_false, nothing, Outcome.diags, List.mem_singleton] at hd
      subst hd
      exact .inr rfl
    · rename_i k hk
      rw [hfit k (by rw [hk]; simp)]
      simp only [Bool.false_eq_true, if_false, mismatched, Bool.false_and]
      exact hpush _
    · rename_i hne _
      have hkey : ∀ o, withKey C q o = o := by
        intro o
        simp only [withKey, hq]
        cases q.isKey <;> rfl
      simp only [Bool.not_false, Bool.true_and, Bool.false_eq_true, if_false, hkey]
      have hall : anyOfViews rec keyCall E C q id n (views E f n) = anyOfResult ⟨false, []⟩ []
          ((views E f n).map fun _ => typeMismatch C q.path (C.evidence q.path id q.value)) := by
        simp only [anyOfViews]
        congr 1
        apply List.map_congr_left
        intro k hk
        rw [hfit k hk]
        rfl
      rw [hall]
      generalize C.evidence q.path id q.value = e at *
      have hne' : (views E f n).map (fun _ => typeMismatch C q.path e) ≠ [] := by
        simpa using hne
      constructor
      · cases hf : (anyOfResult ⟨false, []⟩ [] ((views E f n).map fun _ => typeMismatch C q.path e)).failed with
        | true => rfl
        | false =>
          obtain ⟨⟨o, ho, hof⟩, _⟩ := (anyOfResult_failed _ _ _ hne').1 hf
          obtain ⟨_, _, rfl⟩ := List.mem_map.1 ho
          cases hof
      · have hfold : ∀ (os : List Outcome) (acc : Outcome),
            (∀ o ∈ os, ∀ d ∈ o.diags, d.rule = .typeMismatch ∨ d.rule = .nothing) →
            (∀ d ∈ acc.diags, d.rule = .typeMismatch ∨ d.rule = .nothing) →
            ∀ d ∈ (os.foldl combine acc).diags, d.rule = .typeMismatch ∨ d.rule = .nothing := by
          intro os
          induction os with
          | nil => intro acc _ h; exact h
          | cons o os ih =>
            intro acc h1 h2
            apply ih _ (fun o ho => h1 o (by simp [ho]))
            have ho := h1 o (by simp)
            cases acc with
            | ok => cases o <;> simpa [combine] using ho
            | err f e ds =>
              cases o with
              | ok => simpa [combine] using h2
              | err f' e' ds' =>
                simp only [combine]
                split
                · exact ho
                · split
                  · intro d hd
                    rcases List.mem_append.1 hd with h | h
                    · exact h2 d h
                    · exact ho d h
                  · exact h2
        have hrs : ((views E f n).map fun _ => typeMismatch C q.path e).filter (fun o => !o.failed) = [] := by
          rw [List.filter_eq_nil_iff]
          intro o ho
          obtain ⟨_, _, rfl⟩ := List.mem_map.1 ho
          simp [typeMismatch, Outcome.failed]
        simp only [anyOfResult, hrs]
        have := hfold (((views E f n).map fun _ => typeMismatch C q.path e).filter fun o => o.failed)
          (.err false 0 []) (by
            intro o ho
            obtain ⟨_, _, rfl⟩ := List.mem_map.1 (List.mem_filter.1 ho).1
            exact (hpush e).2) (by intro d hd; cases hd)
        split
        · rename_i hc; cases hc
        · split
          · intro d hd; cases hd
          · rename_i hfo
            rw [hfo] at this
            split
            · intro d hd; cases hd
            · exact this

end Tombi.Validate
