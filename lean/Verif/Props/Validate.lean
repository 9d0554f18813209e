import Verif.Proofs.ValidateInt

/-!
C38, C39 and C58: validation against a JSON schema.
-/

namespace Tombi.Validate
open Tombi.Spec.Validate

/-! ## Concrete schemas -/

/-- A schema graph given by the list of its entries. -/
def graph (es : List Entry) : Env where
  entry i := es[i]?.getD ⟨false, .always true⟩
  regex _ := none
  graphemes s := s.length
  floatMultiple i m := decide (m ∣ i)

/-- Every rule is an error, there are no directives. -/
def plainCtx : Ctx where
  level _ _ := .error
  unused _ _ := false
  lint _ := []
  evaluated _ _ _ := false
  evidence _ _ _ := 0
  mergeEvidence := max

/-- Deprecation is not reported. -/
def quietCtx : Ctx := { plainCtx with level := fun _ r => if r = .deprecated then .off else .error }

theorem validateAt_eq (E : Env) (C : Ctx) (f : Nat) (strict : Bool) (p : Path) (v : Value) (id : Nat) (n : Node)
    (hn : E.entry id = ⟨false, .obj n⟩) :
    validateAt E C (f + 1) strict p v id = withLint C p (objectDirect (run E C f)
      (keyCallOf (run E C f) E C f ⟨strict, [], false, p, v⟩) E C f ⟨strict, [], false, p, v⟩ id false n) := by
  simp only [validateAt, run, step, hn, Option.getD_some]

/-! ## C38: integers -/

/-- Every `i64` (and every integer), against a schema object without applicators that is not
about `number` alone: no assertion fails exactly if `type`, `const` and `enum` hold and the
numeric keywords hold.  Missing: schemas of `type` `number` without `integer`, which compare as
`f64` (`C38_number_rounding_false`; small integers are in `C39_outcome_is_meaning_partial`). -/
theorem C38_integer_exact_partial (E : Env) (C : Ctx) (fuel : Nat) (strict : Bool) (p : Path) (i : Int) (id : Nat)
    (n : Node) (hn : E.entry id = ⟨false, .obj n⟩)
    (hty : ∀ ts, n.types = some ts → .num ∈ ts → .int ∈ ts)
    (hno : NoApplicator n) (hnot : n.not = none)
    (hm : ∀ m, n.multipleOf = some m → m ≠ 0 ∧ ¬(i = -(2 ^ 63) ∧ m = -1)) :
    (validateAt E C (fuel + 1) strict p (.int i) id).failed = false ↔
      General n (.int i) ∧ Numeric n i := by
  rw [validateAt_eq E C fuel strict p _ id n hn, withLint_failed]
  have hnum : n.numberOnly = false := by
    cases hb : n.numberOnly with
    | false => rfl
    | true =>
      simp only [Node.numberOnly] at hb
      split at hb
      · rename_i ts ht
        simp only [Bool.and_eq_true, Bool.not_eq_true', List.contains_iff_mem] at hb
        have := hty ts ht hb.1
        have hc := hb.2
        rw [← List.contains_iff_mem] at this
        rw [this] at hc
        cases hc
      · cases hb
  obtain ⟨h1, h2⟩ := objectDirect_int (run E C fuel) (keyCallOf (run E C fuel) E C fuel
    ⟨strict, [], false, p, .int i⟩) E C fuel ⟨strict, [], false, p, .int i⟩ id n i rfl hno hnum
  cases ha : accepts E fuel n .int with
  | true =>
    rw [h1 ha, int_view _ _ E C ⟨strict, [], false, p, .int i⟩ id n i rfl hno hnot hm
      ((accepts_int_iff hno).1 ha).2.1]
    constructor
    · rintro ⟨⟨hc, he⟩, hnum⟩
      exact ⟨⟨types_of_accepts (v := .int i) ha, hc, he⟩, hnum⟩
    · rintro ⟨⟨_, hc, he⟩, hnum⟩
      exact ⟨⟨hc, he⟩, hnum⟩
  | false =>
    have hnot : ¬General n (.int i) := by
      rintro ⟨ht, hc, he⟩
      have : accepts E fuel n .int = true := by
        refine (accepts_int_iff hno).2 ⟨?_, ?_, ?_⟩
        · intro ts hts
          obtain ⟨t, htm, hv⟩ := ht ts hts
          simp only [HasType] at hv
          rcases hv with rfl | rfl
          · exact .inl htm
          · exact .inr htm
        · intro l hl
          obtain ⟨w, rfl, hs⟩ := hc l hl
          exact hasType_of_same hs
        · intro ls hls
          obtain ⟨w, hw, hs⟩ := he ls hls
          exact ⟨_, hw, hasType_of_same hs⟩
      rw [ha] at this
      cases this
    have htyped : n.typed = true := by
      cases hb : n.typed with
      | true => rfl
      | false =>
        exfalso
        simp only [Node.typed, Bool.or_eq_false_iff, Option.isSome_eq_false_iff, Option.isNone_iff_eq_none] at hb
        apply hnot
        exact ⟨by simp [hb], by simp [hb], by simp [hb]⟩
    rw [(h2 ha htyped).1]
    exact iff_of_false (by simp) (fun h => hnot h.1)

/-- Each numeric keyword, `const` and `enum` is reported by its own rule exactly if it is
violated. -/
theorem C38_integer_reports_partial (E : Env) (C : Ctx) (fuel : Nat) (strict : Bool) (p : Path) (i : Int) (id : Nat)
    (n : Node) (hn : E.entry id = ⟨false, .obj n⟩) (hty : ∀ ts, n.types = some ts → .int ∈ ts)
    (hc : ∀ l, n.const = some l → ∃ j, l = some (.int j))
    (he : ∀ ls, n.enum = some ls → ∃ j, some (.int j) ∈ ls)
    (hno : NoApplicator n) (hnot : n.not = none)
    (hm : ∀ m, n.multipleOf = some m → m ≠ 0 ∧ ¬(i = -(2 ^ 63) ∧ m = -1))
    (r : Rule) (hr : r ∈ [.constValue, .enumValue, .minimum, .maximum, .exclusiveMinimum,
      .exclusiveMaximum, .multipleOf]) (hl : C.level p r ≠ .off) (hlint : ∀ d ∈ C.lint p, d.rule ≠ r) :
    (∃ d ∈ (validateAt E C (fuel + 1) strict p (.int i) id).diags, d.rule = r) ↔ Violated n i r := by
  rw [validateAt_eq E C fuel strict p _ id n hn]
  have hnum : n.numberOnly = false := by
    cases hb : n.numberOnly with
    | false => rfl
    | true =>
      simp only [Node.numberOnly] at hb
      split at hb
      · rename_i ts ht
        simp only [Bool.and_eq_true, Bool.not_eq_true', List.contains_iff_mem] at hb
        have := hty ts ht
        have hc := hb.2
        rw [← List.contains_iff_mem] at this
        rw [this] at hc
        cases hc
      · cases hb
  have ha : accepts E fuel n .int = true := by
    refine (accepts_int_iff hno).2 ⟨fun ts ht => .inl (hty ts ht), ?_, ?_⟩
    · intro l h
      obtain ⟨j, rfl⟩ := hc l h
      rfl
    · intro ls h
      obtain ⟨j, hj⟩ := he ls h
      exact ⟨_, hj, rfl⟩
  obtain ⟨h1, _⟩ := objectDirect_int (run E C fuel) (keyCallOf (run E C fuel) E C fuel
    ⟨strict, [], false, p, .int i⟩) E C fuel ⟨strict, [], false, p, .int i⟩ id n i rfl hno hnum
  rw [h1 ha]
  have hadj : adjacent (run E C fuel) C ⟨strict, [], false, p, .int i⟩ id n = .ok := by
    simp only [adjacent, hno.1, hno.2.1, hno.2.2, notOutcome, hnot, merge]
  have hlintd : ∀ o : Outcome, (∃ d ∈ (withLint C p o).diags, d.rule = r) ↔ ∃ d ∈ o.diags, d.rule = r := by
    intro o
    have hno : ¬∃ d ∈ C.lint p, d.rule = r := by
      rintro ⟨d, hd, hdr⟩
      exact hlint d hd hdr
    cases o with
    | ok =>
      simp only [withLint]
      split
      · rfl
      · simp only [Outcome.diags]
        exact iff_of_false hno (by simp)
    | err f e ds =>
      simp only [withLint, Outcome.diags]
      constructor
      · rintro ⟨d, hd, hdr⟩
        rcases List.mem_append.1 hd with h | h
        · exact absurd hdr (hlint d h)
        · exact ⟨d, h, hdr⟩
      · rintro ⟨d, hd, hdr⟩
        exact ⟨d, List.mem_append.2 (.inr hd), hdr⟩
  rw [hlintd]
  have hmok : ∀ o, merge C o .ok = o := fun o => by cases o <;> rfl
  simp only [typedView, hadj, hmok]
  generalize hps : numberParts C p n .int (fun x => x) (fun x m => !((notMultiple x m).getD true)) i = ps
  have hfin : ∀ (e : Nat) (t : Part), (finish e t).diags = t.diags := by
    intro e t
    simp only [finish]
    split
    · rename_i h
      simp only [Bool.and_eq_true, List.isEmpty_iff] at h
      rw [h.1]
      rfl
    · rfl
  have hrule : ∀ p', (∀ d ∈ push C p' .deprecated, d.rule ≠ r) ∧ ∀ p' r', ∀ d ∈ unusedNoqa C p' r', d.rule ≠ r := by
    intro p'
    constructor
    · intro d hd
      simp only [push] at hd
      split at hd
      · cases hd
      · rw [List.mem_singleton] at hd
        subst hd
        rintro rfl
        simp at hr
    · intro p' r' d hd
      simp only [unusedNoqa] at hd
      split at hd
      · rw [List.mem_singleton] at hd
        subst hd
        rintro rfl
        simp at hr
      · cases hd
  have hdep : ∀ d ∈ deprecatedDiags C p n, d.rule ≠ r := by
    intro d hd
    simp only [deprecatedDiags] at hd
    split at hd
    · exact (hrule p).1 d hd
    · exact (hrule p).2 _ _ d hd
  have hwd : (∃ d ∈ (withDeprecated C p n (total ps)).diags, d.rule = r) ↔ ∃ d ∈ (total ps).diags, d.rule = r := by
    simp only [withDeprecated]
    split
    · rename_i h
      rw [List.isEmpty_iff] at h
      rw [h]
      refine iff_of_false ?_ (by simp)
      rintro ⟨d, hd, hdr⟩
      exact hdep d hd hdr
    · rfl
  rw [hfin, hwd]
  have hcheck : ∀ r' b, (∃ d ∈ (check C p r' b).diags, d.rule = r) ↔ r' = r ∧ b = true := by
    intro r' b
    cases b with
    | false =>
      refine iff_of_false ?_ (by simp)
      rintro ⟨d, hd, hdr⟩
      exact (hrule p).2 _ _ d hd hdr
    | true =>
      simp only [check, if_true, push]
      constructor
      · rintro ⟨d, hd, hdr⟩
        split at hd
        · cases hd
        · rw [List.mem_singleton] at hd
          subst hd
          exact ⟨hdr, trivial⟩
      · rintro ⟨rfl, _⟩
        split
        · contradiction
        · exact ⟨_, List.mem_singleton.2 rfl, rfl⟩
  have htot : (∃ d ∈ (total ps).diags, d.rule = r) ↔ ∃ t ∈ ps, ∃ d ∈ t.diags, d.rule = r := by
    simp only [total, List.mem_flatMap]
    constructor
    · rintro ⟨d, ⟨t, ht, hd⟩, hdr⟩
      exact ⟨t, ht, d, hd, hdr⟩
    · rintro ⟨t, ht, d, hd, hdr⟩
      exact ⟨d, ⟨t, ht, hd⟩, hdr⟩
  rw [htot, ← hps]
  simp only [numberParts, List.mem_cons, List.not_mem_nil, or_false, exists_eq_or_imp, exists_eq_left, hcheck]
  have hv : ∀ (o : Option Int) (f : Int → Bool), violates o f = true ↔ ∃ m, o = some m ∧ f m = true := by
    intro o f
    cases o <;> simp [violates]
  have hj : ∀ j : Int, Same (.int i) (.int j) ↔ i = j := fun j => by simp [Same]
  simp only [List.mem_cons, List.not_mem_nil, or_false] at hr
  rcases hr with rfl | rfl | rfl | rfl | rfl | rfl | rfl <;> simp [hv, Violated]
  · have h := int_const (n := n) (i := i) (fun l h => by obtain ⟨j, rfl⟩ := hc l h; rfl)
    rw [← Bool.not_eq_false, h]
    constructor
    · intro hx
      cases hl : n.const with
      | none => exact absurd (by simp [hl]) hx
      | some l =>
        refine ⟨l, rfl, ?_⟩
        rintro rfl
        apply hx
        intro l' hl'
        rw [hl, Option.some.injEq] at hl'
        subst hl'
        exact ⟨_, rfl, (hj i).2 rfl⟩
    · rintro ⟨l, hl, hne⟩ hx
      obtain ⟨w, rfl, hs⟩ := hx l hl
      obtain ⟨j, hj'⟩ := hc _ hl
      rw [Option.some.injEq] at hj'
      subst hj'
      exact hne (by rw [(hj j).1 hs])
  · have h := int_enum (n := n) (i := i)
    rw [← Bool.not_eq_false, h]
    constructor
    · intro hx
      cases hl : n.enum with
      | none => exact absurd (by simp [hl]) hx
      | some ls =>
        refine ⟨ls, rfl, ?_⟩
        intro hmem
        apply hx
        intro ls' hl'
        rw [hl, Option.some.injEq] at hl'
        subst hl'
        exact ⟨_, hmem, (hj i).2 rfl⟩
    · rintro ⟨ls, hl, hne⟩ hx
      obtain ⟨w, hw, hs⟩ := hx ls hl
      cases w <;> simp [Same] at hs
      subst hs
      exact hne hw
  · constructor
    · rintro ⟨m, hmm, hx⟩
      refine ⟨m, hmm, ?_⟩
      rintro c rfl
      have := (notMultiple_any (hm m hmm).1 (hm m hmm).2).2 ⟨c, rfl⟩
      simp only [Bool.not_not] at this
      rw [this] at hx
      cases hx
    · rintro ⟨m, hmm, hx⟩
      refine ⟨m, hmm, ?_⟩
      cases hb : (notMultiple i m).getD true with
      | true => rfl
      | false =>
        obtain ⟨c, hc⟩ := (notMultiple_any (hm m hmm).1 (hm m hmm).2).1 (by simpa using hb)
        exact absurd hc (hx c)

/-- The hypotheses are met by a schema with every keyword. -/
def boundsNode : Node where
  types := some [.int, .str]
  enum := some [some (.int 12), some (.str []), some (.int 9)]
  minimum := some (-5)
  maximum := some 100
  exclusiveMinimum := some (-6)
  exclusiveMaximum := some 101
  multipleOf := some 3

example : (graph [⟨false, .obj boundsNode⟩]).entry 0 = ⟨false, .obj boundsNode⟩ ∧
    (∀ ts, boundsNode.types = some ts → .int ∈ ts) ∧
    (∀ ls, boundsNode.enum = some ls → ∃ j, some (.int j) ∈ ls) ∧
    NoApplicator boundsNode ∧ boundsNode.not = none ∧
    (∀ m, boundsNode.multipleOf = some m → m ≠ 0 ∧ ¬((12 : Int) = -(2 ^ 63) ∧ m = -1)) := by
  refine ⟨rfl, ?_, ?_, ⟨rfl, rfl, rfl⟩, rfl, ?_⟩
  · rintro ts ⟨⟩; decide
  · rintro ls ⟨⟩; exact ⟨12, by simp⟩
  · rintro m ⟨⟩; decide
example : (validateAt (graph [⟨false, .obj boundsNode⟩]) plainCtx 1 false [] (.int 12) 0).failed = false := by
  decide +kernel
example : (validateAt (graph [⟨false, .obj boundsNode⟩]) plainCtx 1 false [] (.int 15) 0).diags
    = [⟨[], .enumValue, .error⟩] := by decide +kernel

/-- A zero `multipleOf` panics on every integer, and -1 on the smallest one: `value % 0`. -/
theorem C38_multiple_of_zero_panics_false : (∀ i, notMultiple i 0 = none) ∧
    notMultiple (-(2 ^ 63)) (-1) = none := ⟨fun _ => rfl, by decide +kernel⟩

/-- Under `type` `number` integers are compared after rounding to `f64`: a value over the maximum
is accepted. -/
theorem C38_number_rounding_false : ∃ (n : Node) (i : Int), (-(2 ^ 63) ≤ i ∧ i < 2 ^ 63) ∧ n.types = some [.num] ∧
    NoApplicator n ∧ ¬Numeric n i ∧
    (validateAt (graph [⟨false, .obj n⟩]) plainCtx 1 false [] (.int i) 0).failed = false := by
  refine ⟨{ types := some [.num], maximum := some (2 ^ 53) }, 2 ^ 53 + 1, by decide, rfl, ⟨rfl, rfl, rfl⟩, ?_, ?_⟩
  · intro h
    have := h.maximum (2 ^ 53) rfl
    omega
  · decide +kernel

/-! ## C39: composed schemas -/

theorem outcome_is_meaning {E : Env} {H : Nat → Value → Prop} {level : Nat → Nat} {measure : Nat → Value → Nat}
    (hH : Meaning E H) (hd : Descends E level measure) (strict : Bool) (hsup : AllSupported E strict) (C : Ctx)
    (p : Path) (v : Value) (hv : Plain E v) (id fuel : Nat) (hf : measure id v < fuel) :
    (validateAt E C fuel strict p v id).failed = false ↔ H id v := by
  obtain ⟨o, ho, h⟩ := run_answers hH hd C fuel strict hsup .direct [] id v (by simp [Free]) hf false p hv
  simp only [validateAt, ho, Option.getD_some, h]

theorem severity_independent {E : Env} {level : Nat → Nat} {measure : Nat → Value → Nat} (hd : Descends E level measure)
    (strict : Bool) (hsup : AllSupported E strict) (C C' : Ctx) (p p' : Path) (v : Value)
    (hv : Plain E v) (id fuel fuel' : Nat) (hf : measure id v < fuel) (hf' : measure id v < fuel') :
    (validateAt E C fuel strict p v id).failed = (validateAt E C' fuel' strict p' v id).failed := by
  obtain ⟨H, hH⟩ := meaning_exists hd
  have h1 := outcome_is_meaning hH hd strict hsup C p v hv id fuel hf
  have h2 := outcome_is_meaning hH hd strict hsup C' p' v hv id fuel' hf'
  have h := h1.trans h2.symm
  revert h
  generalize (validateAt E C fuel strict p v id).failed = a
  generalize (validateAt E C' fuel' strict p' v id).failed = b
  cases a <;> cases b <;> simp

/-- In the fragment, for every value, every severity configuration and every set of directives:
no assertion fails exactly if the value is valid in the sense of JSON Schema.  Missing: the
schemas outside `Supported`, each excluded keyword combination with a counterexample below;
schemas with cycles (`C39_recursive_partial`); floats and date-times. -/
theorem C39_outcome_is_meaning_partial {E : Env} {H : Nat → Value → Prop} {rank : Nat → Nat}
    (hH : Meaning E H) (hr : Ranked E rank) (strict : Bool) (hsup : AllSupported E strict) (C : Ctx)
    (p : Path) (v : Value) (hv : Plain E v) (id fuel : Nat) (hf : rank id < fuel) :
    (validateAt E C fuel strict p v id).failed = false ↔ H id v :=
  outcome_is_meaning hH (.ranked hr) strict hsup C p v hv id fuel hf

/-- The same for recursive schemas, if the recursion does not stay at the same value and does not go
through a member of `oneOf` or `anyOf` (for these `C39_recursive_any_of_false` and `C39_recursive_rejected_false`). -/
theorem C39_recursive_partial {E : Env} {H : Nat → Value → Prop} {rank level : Nat → Nat} {bound : Nat}
    (hH : Meaning E H) (hg : Guarded E rank level bound) (strict : Bool) (hsup : AllSupported E strict) (C : Ctx)
    (p : Path) (v : Value) (hv : Plain E v) (id fuel : Nat) (hf : depth v * (bound + 1) + rank id < fuel) :
    (validateAt E C fuel strict p v id).failed = false ↔ H id v :=
  outcome_is_meaning hH (.guarded hg) strict hsup C p v hv id fuel hf

/-- The meaning exists and is unique: `Meaning` is not a hypothesis that could fail. -/
theorem C39_meaning_exists_unique {E : Env} {rank : Nat → Nat} (hr : Ranked E rank) :
    (∃ H, Meaning E H) ∧ ∀ H H', Meaning E H → Meaning E H' → ∀ id v, H id v ↔ H' id v :=
  ⟨meaning_exists (.ranked hr), fun _ _ h h' id v => meaning_unique (.ranked hr) h h' id v⟩

/-- Recursive schemas have a meaning, and only one. -/
theorem C39_recursive_meaning {E : Env} {rank level : Nat → Nat} {bound : Nat} (hg : Guarded E rank level bound) :
    (∃ H, Meaning E H) ∧ ∀ H H', Meaning E H → Meaning E H' → ∀ id v, H id v ↔ H' id v :=
  ⟨meaning_exists (.guarded hg), fun _ _ h h' id v => meaning_unique (.guarded hg) h h' id v⟩

/-- In the fragment the outcome does not depend on severities, comment directives or evidence. -/
theorem C39_severity_independent_partial {E : Env} {rank : Nat → Nat} (hr : Ranked E rank)
    (strict : Bool) (hsup : AllSupported E strict) (C C' : Ctx) (p p' : Path) (v : Value)
    (hv : Plain E v) (id fuel fuel' : Nat) (hf : rank id < fuel) (hf' : rank id < fuel') :
    (validateAt E C fuel strict p v id).failed = (validateAt E C' fuel' strict p' v id).failed :=
  severity_independent (.ranked hr) strict hsup C C' p p' v hv id fuel fuel' hf hf'

theorem filterMap_answered (f : Nat → Option Outcome) : ∀ (ms : List Nat), (∀ m ∈ ms, f m ≠ none) →
    ms.filterMap f = ms.map fun m => (f m).getD .ok
  | [], _ => rfl
  | m :: ms, h => by
    have hm := h m (by simp)
    have ih := filterMap_answered f ms fun m' hm' => h m' (by simp [hm'])
    cases hf : f m with
    | none => exact absurd hf hm
    | some o => simp [hf, ih]

/-- `oneOf`, whatever the members are (cyclic, outside of the fragment): no assertion fails
exactly if the outcome of exactly one position is no failure. -/
theorem C39_one_of (E : Env) (C : Ctx) (fuel : Nat) (strict : Bool) (p : Path) (v : Value) (id : Nat)
    (ms : List Nat) (dep : Bool) (hn : E.entry id = ⟨false, .obj { oneOf := some ms, deprecated := dep }⟩)
    (out : Nat → Outcome) (hout : ∀ m ∈ ms, run E C fuel .resolved strict [] false p v m = some (out m)) :
    (validateAt E C (fuel + 1) strict p v id).failed = false ↔
      ∃ (i m : Nat), ms[i]? = some m ∧ (out m).failed = false ∧
        ∀ (j m' : Nat), ms[j]? = some m' → (out m').failed = false → j = i := by
  rw [validateAt_eq E C fuel strict p v id _ hn, withLint_failed]
  have hd : ∀ t, directConstraints { oneOf := some ms, deprecated := dep } t = false := by
    intro t; cases t <;> rfl
  simp only [objectDirect, Node.typed, Option.isSome_none, Bool.or_false, Bool.false_eq_true, if_false, hd,
    Bool.and_false, Bool.false_and, withKey_failed, oneOfOutcome]
  rw [filterMap_answered _ ms (fun m hm => by simp only [resolved, hout m hm]; simp)]
  rw [oneOfResult_failed _ _ _ _ _ _ (by rfl) (by cases ms <;> simp), exactly_one]
  have hm : ∀ (i : Nat), ((ms.map fun m => (resolved (run E C fuel) ⟨strict, [], false, p, v⟩ m).getD .ok)[i]?)
      = ms[i]?.map out := by
    intro i
    rw [List.getElem?_map]
    cases hi : ms[i]? with
    | none => rfl
    | some m =>
      simp only [Option.map_some, resolved, hout m (List.mem_of_getElem? hi), Option.getD_some]
  simp only [hm, Option.map_eq_some_iff, Bool.not_eq_true']
  constructor
  · rintro ⟨i, o, ⟨m, hm, rfl⟩, hf, hu⟩
    exact ⟨i, m, hm, hf, fun j m' hj hf' => hu j _ ⟨m', hj, rfl⟩ hf'⟩
  · rintro ⟨i, m, hm, hf, hu⟩
    exact ⟨i, _, ⟨m, hm, rfl⟩, hf, fun j o ⟨m', hj, ho⟩ hf' => hu j m' hj (by rw [ho]; exact hf')⟩

/-- `anyOf`, whatever the members are: no assertion fails exactly if some outcome is no failure. -/
theorem C39_any_of (E : Env) (C : Ctx) (fuel : Nat) (strict : Bool) (p : Path) (v : Value) (id : Nat)
    (ms : List Nat) (hne : ms ≠ []) (dep : Bool)
    (hn : E.entry id = ⟨false, .obj { anyOf := some ms, deprecated := dep }⟩)
    (out : Nat → Outcome) (hout : ∀ m ∈ ms, run E C fuel .resolved strict [] false p v m = some (out m)) :
    (validateAt E C (fuel + 1) strict p v id).failed = false ↔ ∃ m ∈ ms, (out m).failed = false := by
  rw [validateAt_eq E C fuel strict p v id _ hn, withLint_failed]
  have hd : ∀ t, directConstraints { anyOf := some ms, deprecated := dep } t = false := by
    intro t; cases t <;> rfl
  simp only [objectDirect, Node.typed, Option.isSome_none, Bool.or_false, Bool.false_eq_true, if_false, hd,
    Bool.and_false, Bool.false_and, withKey_failed, anyOfOutcome]
  rw [filterMap_answered _ ms (fun m hm => by simp only [resolved, hout m hm]; simp)]
  rw [anyOfResult_failed _ _ _ (by simpa using hne)]
  constructor
  · rintro ⟨⟨o, ho, hf⟩, _⟩
    obtain ⟨m, hm, rfl⟩ := List.mem_map.1 ho
    simp only [resolved, hout m hm, Option.getD_some] at hf
    exact ⟨m, hm, hf⟩
  · rintro ⟨m, hm, hf⟩
    refine ⟨⟨_, List.mem_map.2 ⟨m, hm, rfl⟩, ?_⟩, rfl⟩
    simp only [resolved, hout m hm, Option.getD_some, hf]

/-- `allOf`, whatever the members are: no assertion fails exactly if no member fails. -/
theorem C39_all_of (E : Env) (C : Ctx) (fuel : Nat) (strict : Bool) (p : Path) (v : Value) (id : Nat)
    (ms : List Nat) (dep : Bool) (hn : E.entry id = ⟨false, .obj { allOf := some ms, deprecated := dep }⟩) :
    (validateAt E C (fuel + 1) strict p v id).failed = false ↔
      ∀ m ∈ ms, (validateAt E C fuel strict p v m).failed = false := by
  rw [validateAt_eq E C fuel strict p v id _ hn, withLint_failed]
  have hd : ∀ t, directConstraints { allOf := some ms, deprecated := dep } t = false := by
    intro t; cases t <;> rfl
  simp only [objectDirect, Node.typed, Option.isSome_none, Bool.or_false, Bool.false_eq_true, if_false, hd,
    Bool.and_false, Bool.false_and, withKey_failed, allOfOutcome, finish_failed, total_failed, List.any_cons,
    List.any_nil, part_failed, withDeprecated_failed, notOutcome, ifOutcome, List.any_map, List.any_eq_false,
    Bool.or_eq_false_iff]
  constructor
  · rintro ⟨h, _⟩ m hm
    have := h m hm
    simpa [part_failed, validateAt, direct] using this
  · intro h
    refine ⟨fun m hm => ?_, rfl, rfl⟩
    have := h m hm
    simpa [part_failed, validateAt, direct] using this

/-- `not`, whatever its schema is and for every value: no assertion fails exactly if the schema
fails. -/
theorem C39_not (E : Env) (C : Ctx) (fuel : Nat) (strict : Bool) (p : Path) (v : Value) (id m : Nat) (dep : Bool)
    (hn : E.entry id = ⟨false, .obj { not := some m, deprecated := dep }⟩) :
    (validateAt E C (fuel + 1) strict p v id).failed = false ↔ (validateAt E C fuel strict p v m).failed = true := by
  rw [validateAt_eq E C fuel strict p v id _ hn, withLint_failed]
  have hadj : (adjacent (run E C fuel) C ⟨strict, [], false, p, v⟩ id { not := some m, deprecated := dep }).failed
      = !(validateAt E C fuel strict p v m).failed := by
    simp only [adjacent, merge_failed, notOutcome, direct, validateAt]
    rw [show Outcome.ok.failed = false from rfl]
    cases h : ((run E C fuel .direct strict [] false p v m).getD .ok).failed
    · rfl
    · simp only [if_true]
      split <;> rfl
  simp only [objectDirect, Node.typed, Option.isSome_none, Bool.or_false, Bool.false_eq_true, if_false]
  have hcheck : ∀ r, (check C p r false).failed = false := fun r => by rw [check_failed]
  cases v with
  | bool b =>
    simp only [kindFor, typedView, merge_failed, finish_failed, withDeprecated_failed, hadj, total_failed, boolParts,
      List.any_cons, List.any_nil, check_failed, constViolated, enumViolated]
    simp
  | int i =>
    simp only [kindFor, Node.numberOnly, Bool.false_eq_true, if_false, typedView, merge_failed, finish_failed,
      withDeprecated_failed, hadj, total_failed, numberParts, List.any_cons, List.any_nil, check_failed,
      constViolated, enumViolated, violates]
    simp
  | str s =>
    simp only [kindFor, typedView, merge_failed, finish_failed, withDeprecated_failed, hadj, total_failed, stringParts,
      List.any_cons, List.any_nil, check_failed, constViolated, enumViolated, violates, Bool.false_and,
      Bool.false_eq_true, if_false]
    rw [show Outcome.ok.failed = false from rfl]
    simp
  | arr xs =>
    simp only [kindFor, typedView, merge_failed, hadj]
    have : (arrayBase (run E C fuel) C ⟨strict, [], false, p, .arr xs⟩ id
        { not := some m, deprecated := dep } xs).failed = false := by
      simp only [arrayBase, finish_failed, withDeprecated_failed, total_failed, ifOutcome, containsParts,
        constViolated, enumViolated, violates, uniquePart, itemPart]
      simp [check_failed, part_failed]
      rfl
    rw [this]
    simp
  | tbl kvs =>
    simp only [kindFor, typedView, merge_failed, filterStrict_failed, hadj]
    have : ∀ kc, (tableBase (run E C fuel) kc E C ⟨strict, [], false, p, .tbl kvs⟩ id
        { not := some m, deprecated := dep } kvs).failed = false := by
      intro kc
      simp only [tableBase, finish_failed, withDeprecated_failed, total_failed, ifOutcome, List.any_cons, List.any_nil,
        constViolated, enumViolated, violates, keysParts, dependentParts, keyParts, List.any_append, check_failed,
        List.any_flatMap, List.any_map, entryParts, patternSchemas, additionalParts, Additional.forbidden,
        Additional.missing, allowsAny, allowsAdditional]
      simp [part_failed, keyEmpty_failed]
      refine ⟨?_, rfl⟩
      intro a b _
      split
      all_goals
        intro x _ hx
        rw [List.mem_singleton] at hx
        subst hx
        rfl
    rw [this]
    simp

/-- `if`/`then`/`else` for arrays and tables, whatever the schemas are.  For scalar values
`C39_if_ignored_false`. -/
theorem C39_if_then_else_partial (E : Env) (C : Ctx) (fuel : Nat) (strict : Bool) (p : Path) (v : Value)
    (hv : (∃ xs, v = .arr xs) ∨ ∃ kvs, v = .tbl kvs) (id i : Nat) (t e : Option Nat) (dep : Bool)
    (hn : E.entry id = ⟨false, .obj { ifS := some i, thenS := t, elseS := e, deprecated := dep }⟩) :
    (validateAt E C (fuel + 1) strict p v id).failed = false ↔
      ((validateAt E C fuel strict p v i).failed = false →
        ∀ s, t = some s → (validateAt E C fuel strict p v s).failed = false) ∧
      ((validateAt E C fuel strict p v i).failed = true →
        ∀ s, e = some s → (validateAt E C fuel strict p v s).failed = false) := by
  rw [validateAt_eq E C fuel strict p v id _ hn, withLint_failed]
  have hif : (ifOutcome (run E C fuel) C ⟨strict, [], false, p, v⟩
      { ifS := some i, thenS := t, elseS := e, deprecated := dep }).failed = false ↔
      ((validateAt E C fuel strict p v i).failed = false →
        ∀ s, t = some s → (validateAt E C fuel strict p v s).failed = false) ∧
      ((validateAt E C fuel strict p v i).failed = true →
        ∀ s, e = some s → (validateAt E C fuel strict p v s).failed = false) := by
    have hdir : ∀ m, direct (run E C fuel) ⟨strict, [], false, p, v⟩ m = validateAt E C fuel strict p v m :=
      fun _ => rfl
    simp only [ifOutcome]
    by_cases h : (direct (run E C fuel) ⟨strict, [], false, p, v⟩ i).failed = true
    · rw [if_pos h]
      rw [hdir] at h
      cases e with
      | none => exact iff_of_true rfl (by simp [h])
      | some e => simp [h, hdir]
    · rw [if_neg h]
      rw [hdir] at h
      have h' : (validateAt E C fuel strict p v i).failed = false := by simpa using h
      cases t with
      | none =>
        simp only [mergeIf_failed]
        exact iff_of_true rfl (by simp [h'])
      | some t =>
        simp only [mergeIf_failed, hdir]
        simp [h']
  have hadj : (adjacent (run E C fuel) C ⟨strict, [], false, p, v⟩ id
      { ifS := some i, thenS := t, elseS := e, deprecated := dep }).failed = false := rfl
  simp only [objectDirect, Node.typed, Option.isSome_none, Bool.or_false, Bool.false_eq_true, if_false]
  refine Iff.trans ?_ hif
  rcases hv with ⟨xs, rfl⟩ | ⟨kvs, rfl⟩
  · simp only [kindFor, typedView, merge_failed, hadj, Bool.or_false]
    simp only [arrayBase, finish_failed, withDeprecated_failed, total_failed, containsParts,
      constViolated, enumViolated, violates, uniquePart, itemPart]
    simp [check_failed, part_failed]
  · simp only [kindFor, typedView, merge_failed, filterStrict_failed, hadj, Bool.or_false]
    simp only [tableBase, finish_failed, withDeprecated_failed, total_failed, List.any_cons, List.any_nil,
      constViolated, enumViolated, violates, keysParts, dependentParts, keyParts, List.any_append, check_failed,
      List.any_flatMap, List.any_map, entryParts, patternSchemas, additionalParts, Additional.forbidden,
      Additional.missing, allowsAny, allowsAdditional]
    simp [part_failed, keyEmpty_failed]
    intro _ a b _
    split
    all_goals
      intro x _ hx
      rw [List.mem_singleton] at hx
      subst hx
      rfl

/-! ### A schema in the fragment -/

/-- The properties `name` (a string of at least one character or an integer), `port` (an integer
from 1 to 65535 that is not 80) and `mode` (exactly one of two enumerations, or at least one of
two types); other keys must be arrays of booleans. -/
def exampleEntries : List Entry :=
  [⟨false, .obj {
      types := some [.obj]
      properties := [("name".toList, 1), ("port".toList, 2), ("mode".toList, 4)]
      additional := .schema 8
      required := ["name".toList] }⟩,
    ⟨true, .obj { types := some [.str, .int], minLength := some 1, deprecated := true }⟩,
    ⟨false, .obj { types := some [.int], minimum := some 1, maximum := some 65535, not := some 3 }⟩,
    ⟨false, .obj { types := some [.int], const := some (some (.int 80)) }⟩,
    ⟨false, .obj { oneOf := some [6, 5] }⟩,
    ⟨false, .obj { anyOf := some [7, 6] }⟩,
    ⟨false, .obj { types := some [.str], maxLength := some 3 }⟩,
    ⟨false, .obj { enum := some [some (.int 1), some (.str "long".toList)] }⟩,
    ⟨false, .obj { types := some [.arr], items := .all 9, uniqueItems := true }⟩,
    ⟨false, .obj { types := some [.bool] }⟩]

theorem exampleRanked : Ranked (graph exampleEntries) fun id => 10 - id := by
  intro id n s hn hs
  match id, hn with
  | 0, hn | 1, hn | 2, hn | 3, hn | 4, hn | 5, hn | 6, hn | 7, hn | 8, hn | 9, hn =>
    have hn := Schema.obj.inj hn
    subst hn
    show 10 - s < 10 - _
    cases hs
    all_goals first
      | (rename_i h; cases h; done)
      | (rename_i h1 h2; cases h1; done)
      | (rename_i h; simp at h; omega)
      | (rename_i h; cases h; omega)
      | (rename_i h1 h2; cases h1; simp at h2; omega)
  | k + 10, hn => cases hn

theorem exampleSupported (strict : Bool) : AllSupported (graph exampleEntries) strict := by
  intro id n hn
  match id, hn with
  | 0, h | 1, h | 2, h | 3, h | 4, h | 5, h | 6, h | 7, h | 8, h | 9, h =>
    have hn := Schema.obj.inj h
    clear h
    subst hn
    constructor
    all_goals simp [Asserts, NoApplicator, OnlyApplicators, PlainLit, Small]
    all_goals try (rintro m (rfl | rfl) <;> decide)
    all_goals try
      (rintro ls l rfl hl
       simp at hl
       rcases hl with rfl | rfl <;> exact ⟨_, rfl, by simp [PlainLit, Small]⟩)
    all_goals try (intro h; cases h)
    all_goals try rfl
  | k + 10, hn => cases hn

/-- `name = "x"`, `port = 80`, `mode = "long"`, `other = [true, false]`. -/
def exampleDoc (port : Int) : Value :=
  .tbl [("name".toList, .str "x".toList), ("port".toList, .int port), ("mode".toList, .str "long".toList),
    ("other".toList, .arr [.bool true, .bool false])]

example : Plain (graph exampleEntries) (exampleDoc 80) := by
  simp [Plain, PlainEntries, PlainList, exampleDoc, graph, Small]
example : (validate (graph exampleEntries) plainCtx 5 true (exampleDoc 80) 0).failed = true := by decide +kernel
example : (validate (graph exampleEntries) plainCtx 5 true (exampleDoc 81) 0).failed = false := by decide +kernel

/-! ### Where it does not hold -/

/-- `oneOf` beside `not`: a warning of the only matching member (here `deprecated`) makes the
failed `not` disappear.  Switching the warning off makes the document invalid. -/
theorem C39_severity_independent_false : ∃ (es : List Entry) (v : Value),
    (∀ H, Meaning (graph es) H → ¬H 0 v) ∧
    (∀ fuel, (validate (graph es) plainCtx (fuel + 5) false v 0).failed = false) ∧
    (∀ fuel, (validate (graph es) quietCtx (fuel + 5) false v 0).failed = true) := by
  refine ⟨[⟨false, .obj { oneOf := some [1], not := some 2 }⟩,
    ⟨false, .obj { types := some [.obj], deprecated := true }⟩, ⟨false, .always true⟩], .tbl [], ?_, ?_, ?_⟩
  · intro H hH h
    have h0 : NodeHolds _ H _ _ := (hH 0 (.tbl [])).1 h
    exact h0.applied.not 2 rfl ((hH 2 (.tbl [])).2 rfl)
  · intro fuel; rfl
  · intro fuel; rfl

/-- `anyOf` whose members are all of type `null` accepts everything. -/
theorem C39_any_of_null_false : ∃ (es : List Entry) (v : Value),
    (∀ H, Meaning (graph es) H → ¬H 0 v) ∧
    ∀ fuel, (validate (graph es) plainCtx (fuel + 5) false v 0) = .ok := by
  refine ⟨[⟨false, .obj { anyOf := some [1] }⟩, ⟨false, .obj { types := some [.null] }⟩], .tbl [], ?_, ?_⟩
  · intro H hH h
    have h0 : NodeHolds _ H _ _ := (hH 0 (.tbl [])).1 h
    obtain ⟨m, hm, h1⟩ := h0.applied.anyOf [1] rfl
    rw [List.mem_singleton] at hm
    subst hm
    have h1 : NodeHolds _ H _ _ := (hH 1 (.tbl [])).1 h1
    obtain ⟨t, ht, hv⟩ := h1.general.types [.null] rfl
    rw [List.mem_singleton] at ht
    subst ht
    cases hv
  · intro fuel; rfl

/-- Without `type`, `anyOf` beside `oneOf` is not checked. -/
theorem C39_any_of_beside_one_of_false : ∃ (es : List Entry) (v : Value),
    (∀ H, Meaning (graph es) H → ¬H 0 v) ∧
    ∀ fuel, (validate (graph es) plainCtx (fuel + 5) false v 0) = .ok := by
  refine ⟨[⟨false, .obj { oneOf := some [1], anyOf := some [2] }⟩, ⟨false, .always true⟩,
    ⟨false, .always false⟩], .tbl [], ?_, ?_⟩
  · intro H hH h
    have h0 : NodeHolds _ H _ _ := (hH 0 (.tbl [])).1 h
    obtain ⟨m, hm, h1⟩ := h0.applied.anyOf [2] rfl
    rw [List.mem_singleton] at hm
    subst hm
    cases (hH 2 (.tbl [])).1 h1
  · intro fuel; rfl

/-- In a member of `anyOf`, keywords beside an applicator are not checked:
`{"anyOf": [{"required": ["a"], "allOf": [true]}]}` accepts the empty table. -/
theorem C39_member_keywords_false : ∃ (es : List Entry) (v : Value),
    (∀ H, Meaning (graph es) H → ¬H 0 v) ∧
    ∀ fuel, (validate (graph es) plainCtx (fuel + 5) false v 0) = .ok := by
  refine ⟨[⟨false, .obj { anyOf := some [1] }⟩, ⟨false, .obj { required := [['a']], allOf := some [2] }⟩,
    ⟨false, .always true⟩], .tbl [], ?_, ?_⟩
  · intro H hH h
    have h0 : NodeHolds _ H _ _ := (hH 0 (.tbl [])).1 h
    obtain ⟨m, hm, h1⟩ := h0.applied.anyOf [1] rfl
    rw [List.mem_singleton] at hm
    subst hm
    have h1 : NodeHolds _ H _ _ := (hH 1 (.tbl [])).1 h1
    have hm : Mapping _ H _ [] := h1.typed
    cases hm.required ['a'] (List.mem_singleton.2 rfl)
  · intro fuel; rfl

/-- `if` under a scalar value is not checked: `a = 1` against
`{"properties": {"a": {"if": true, "then": false}}}`. -/
theorem C39_if_ignored_false : ∃ (es : List Entry) (v : Value),
    (∀ H, Meaning (graph es) H → ¬H 0 v) ∧
    ∀ fuel, (validate (graph es) plainCtx (fuel + 5) false v 0) = .ok := by
  refine ⟨[⟨false, .obj { properties := [(['a'], 1)] }⟩, ⟨false, .obj { ifS := some 2, thenS := some 3 }⟩,
    ⟨false, .always true⟩, ⟨false, .always false⟩], .tbl [(['a'], .int 1)], ?_, ?_⟩
  · intro H hH h
    have h0 : NodeHolds _ H _ _ := (hH 0 _).1 h
    have hm : Mapping _ H _ _ := h0.typed
    have h1 : NodeHolds _ H _ _ := (hH 1 _).1 (hm.properties ['a'] (.int 1) 1 (List.mem_singleton.2 rfl) rfl)
    cases (hH 3 _).1 (h1.applied.thenS 2 3 rfl rfl ((hH 2 (.int 1)).2 rfl))
  · intro fuel; rfl

/-- A `$ref` to a schema with `enum` but no `type` accepts values of every other type: `a = 1`
against `{"properties": {"a": {"$ref": "#/$defs/e"}}, "$defs": {"e": {"enum": ["x"]}}}`. -/
theorem C39_ref_enum_false : ∃ (es : List Entry) (v : Value),
    (∀ H, Meaning (graph es) H → ¬H 0 v) ∧
    ∀ fuel, (validate (graph es) plainCtx (fuel + 5) false v 0) = .ok := by
  refine ⟨[⟨false, .obj { properties := [(['a'], 1)] }⟩, ⟨true, .obj { enum := some [some (.str ['x'])] }⟩],
    .tbl [(['a'], .int 1)], ?_, ?_⟩
  · intro H hH h
    have h0 : NodeHolds _ H _ _ := (hH 0 _).1 h
    have hm : Mapping _ H _ _ := h0.typed
    have h1 : NodeHolds _ H _ _ := (hH 1 _).1 (hm.properties ['a'] (.int 1) 1 (List.mem_singleton.2 rfl) rfl)
    obtain ⟨w, hw, hs⟩ := h1.general.enum _ rfl
    rw [List.mem_singleton, Option.some.injEq] at hw
    subst hw
    simp [Same] at hs
  · intro fuel; rfl

/-- The other direction: `{"type": "number", "allOf": [{"type": "integer"}]}` as a member of
`anyOf` rejects integers. -/
theorem C39_number_member_false : ∃ (es : List Entry) (v : Value),
    (∀ H, Meaning (graph es) H → H 0 v) ∧
    ∀ fuel, (validate (graph es) plainCtx (fuel + 5) false v 0).failed = true := by
  refine ⟨[⟨false, .obj { properties := [(['a'], 1)] }⟩, ⟨false, .obj { anyOf := some [2] }⟩,
    ⟨false, .obj { types := some [.num], allOf := some [3] }⟩, ⟨false, .obj { types := some [.int] }⟩],
    .tbl [(['a'], .int 1)], ?_, ?_⟩
  · intro H hH
    have h3 : H 3 (.int 1) := (hH 3 _).2 (show NodeHolds _ H _ _ from
      ⟨⟨by rintro _ ⟨⟩; exact ⟨.int, by simp, .inl rfl⟩, nofun, nofun⟩, ⟨nofun, nofun, nofun, nofun, nofun⟩,
        ⟨nofun, nofun, nofun, nofun, nofun, nofun⟩⟩)
    have h2 : H 2 (.int 1) := (hH 2 _).2 (show NodeHolds _ H _ _ from
      ⟨⟨by rintro _ ⟨⟩; exact ⟨.num, by simp, .inr rfl⟩, nofun, nofun⟩, ⟨nofun, nofun, nofun, nofun, nofun⟩,
        ⟨by rintro _ m ⟨⟩ hm; rw [List.mem_singleton] at hm; subst hm; exact h3,
          nofun, nofun, nofun, nofun, nofun⟩⟩)
    have h1 : H 1 (.int 1) := (hH 1 _).2 (show NodeHolds _ H _ _ from
      ⟨⟨nofun, nofun, nofun⟩, ⟨nofun, nofun, nofun, nofun, nofun⟩,
        ⟨nofun, by rintro _ ⟨⟩; exact ⟨2, by simp, h2⟩, nofun, nofun, nofun, nofun⟩⟩)
    refine (hH 0 _).2 (show NodeHolds _ H _ _ from ⟨⟨nofun, nofun, nofun⟩, ?_,
      ⟨nofun, nofun, nofun, nofun, nofun, nofun⟩⟩)
    refine ⟨?_, nofun, fun _ _ _ _ => trivial, nofun, nofun, nofun, nofun, nofun, nofun⟩
    intro k v s hkv hl
    rw [List.mem_singleton, Prod.mk.injEq] at hkv
    obtain ⟨rfl, rfl⟩ := hkv
    cases hl
    exact h1
  · intro fuel; rfl

/-- A recursive schema behind `anyOf`: below the first level nothing is checked, because the guard
against cycles still holds the schema.  `n.v` must be an integer and is a boolean. -/
theorem C39_recursive_any_of_false : ∃ (es : List Entry) (v : Value),
    (∀ H, Meaning (graph es) H → ¬H 0 v) ∧
    ∀ fuel, (validate (graph es) plainCtx (fuel + 6) false v 0) = .ok := by
  refine ⟨[⟨false, .obj { anyOf := some [1] }⟩,
    ⟨false, .obj { types := some [.obj], properties := [(['v'], 2), (['n'], 0)] }⟩,
    ⟨false, .obj { types := some [.int] }⟩],
    .tbl [(['n'], .tbl [(['v'], .bool true)])], ?_, ?_⟩
  · intro H hH h
    have up : ∀ w, H 0 w → H 1 w := by
      intro w hw
      have h0 : NodeHolds _ H _ _ := (hH 0 _).1 hw
      obtain ⟨m, hm, h1⟩ := h0.applied.anyOf [1] rfl
      rw [List.mem_singleton] at hm
      subst hm
      exact h1
    have h2 : NodeHolds _ H _ _ := (hH 1 _).1 (up _ h)
    have hm : Mapping _ H _ _ := h2.typed
    have h3 : NodeHolds _ H _ _ :=
      (hH 1 _).1 (up _ (hm.properties ['n'] _ 0 (List.mem_singleton.2 rfl) rfl))
    have hm : Mapping _ H _ _ := h3.typed
    have h1 : NodeHolds _ H _ _ :=
      (hH 2 _).1 (hm.properties ['v'] (.bool true) 2 (List.mem_singleton.2 rfl) rfl)
    obtain ⟨t, ht, hv⟩ := h1.general.types [.int] rfl
    rw [List.mem_singleton] at ht
    subst ht
    cases hv
  · intro fuel; rfl

/-- … and a value that is valid is rejected: a text, or a list of such values. `[["x"]]` is one. -/
theorem C39_recursive_rejected_false : ∃ (es : List Entry) (v : Value),
    (∀ H, Meaning (graph es) H → H 0 v) ∧
    ∀ fuel, (validate (graph es) plainCtx (fuel + 6) false v 0).failed = true := by
  refine ⟨[⟨false, .obj { anyOf := some [1, 2] }⟩,
    ⟨false, .obj { types := some [.str] }⟩,
    ⟨false, .obj { types := some [.arr], items := .all 0 }⟩],
    .arr [.arr [.str ['x']]], ?_, ?_⟩
  · intro H hH
    have up : ∀ m ∈ [1, 2], ∀ w, H m w → H 0 w := fun m hm w hw =>
      (hH 0 _).2 (show NodeHolds _ H _ _ from (nodeHolds_bare rfl w).2
        ⟨⟨nofun, fun ms h => by cases h; exact ⟨m, hm, hw⟩, nofun, nofun, fun _ => ⟨nofun, nofun⟩⟩, nofun, nofun⟩)
    have text := up 1 (by simp)
    have list := up 2 (by simp)
    have nest : ∀ w, H 0 w → H 2 (.arr [w]) := by
      intro w hw
      refine (hH 2 _).2 (show NodeHolds _ H _ _ from ⟨⟨?_, nofun, nofun⟩, ?_, ⟨nofun, nofun, nofun, nofun, nofun, nofun⟩⟩)
      · intro ts ht
        cases ht
        exact ⟨.arr, by simp, rfl⟩
      · refine ⟨?_, nofun, nofun, nofun, nofun⟩
        intro i x hi
        have := List.mem_singleton.1 (List.mem_of_getElem? hi)
        subst this
        exact hw
    refine list _ (nest _ (list _ (nest _ (text _ ?_))))
    refine (hH 1 _).2 (show NodeHolds _ H _ _ from ⟨⟨?_, nofun, nofun⟩, ⟨nofun, nofun, nofun⟩,
      ⟨nofun, nofun, nofun, nofun, nofun, nofun⟩⟩)
    intro ts ht
    cases ht
    exact ⟨.str, by simp, rfl⟩
  · intro fuel; rfl

/-- A tree: a value that is a text or an integer, and a list of trees. -/
def treeEntries : List Entry :=
  [⟨false, .obj { types := some [.obj], properties := [("value".toList, 1), ("children".toList, 2)], required := ["value".toList] }⟩,
    ⟨false, .obj { anyOf := some [3, 4] }⟩,
    ⟨false, .obj { types := some [.arr], items := .all 0 }⟩,
    ⟨false, .obj { types := some [.str] }⟩,
    ⟨false, .obj { types := some [.int], minimum := some 1 }⟩]

/-- The recursion goes down. -/
theorem treeGuarded : Guarded (graph treeEntries) (fun id => if id = 1 then 1 else 0) (fun id => if id < 3 then 1 else 0) 1 := by
  refine ⟨?_, fun id => by split <;> simp, ?_, ?_⟩
  all_goals
    intro id n s hn hs
    match id, hn with
    | 0, hn | 1, hn | 2, hn | 3, hn | 4, hn =>
      have hn := Schema.obj.inj hn
      subst hn
      cases hs
      all_goals first
        | (rename_i h; cases h; done)
        | (rename_i h1 h2; cases h1; done)
        | (rename_i h; simp at h; rcases h with ⟨_, rfl⟩ | ⟨_, rfl⟩ <;> decide)
        | (rename_i h; cases h; decide)
        | (rename_i h1 h2; cases h1; simp at h2; rcases h2 with rfl | rfl <;> decide)
    | k + 5, hn => cases hn

/-- Its objects are in the fragment. -/
theorem treeSupported (strict : Bool) : AllSupported (graph treeEntries) strict := by
  intro id n hn
  match id, hn with
  | 0, h | 1, h | 2, h | 3, h | 4, h =>
    have hn := Schema.obj.inj h
    clear h
    subst hn
    constructor
    all_goals simp [Asserts, NoApplicator, OnlyApplicators, PlainLit, Small]
  | k + 5, hn => cases hn

/-- Valid trees of any depth are accepted; here the value of the inner tree is too small. -/
example : (validate (graph treeEntries) plainCtx 99 false (.tbl [("value".toList, .str []), ("children".toList, .arr [.tbl
      [("value".toList, .int 1), ("children".toList, .arr [.tbl [("value".toList, .str [])]])]])]) 0).failed = false ∧
    (validate (graph treeEntries) plainCtx 99 false (.tbl [("value".toList, .str []), ("children".toList, .arr [.tbl
      [("value".toList, .int 1), ("children".toList, .arr [.tbl [("value".toList, .int 0)]])]])]) 0).failed = true := by
  decide +kernel

/-! ## C58: what is reported -/

/-- Whatever the schema is: if a value fails, a diagnostic that is not a mere lint is reported,
unless the configuration switched rules off. -/
theorem C58_failure_is_reported (E : Env) (C : Ctx) (hC : ∀ p r, ¬Advisory r → C.level p r ≠ .off)
    (fuel : Nat) (strict : Bool) (p : Path) (v : Value) (id : Nat)
    (h : (validateAt E C fuel strict p v id).failed = true) :
    ∃ d ∈ (validateAt E C fuel strict p v id).diags, ¬Advisory d.rule := by
  simp only [validateAt] at h ⊢
  cases hr : run E C fuel .direct strict [] false p v id with
  | none =>
    rw [hr] at h
    cases h
  | some o =>
    rw [hr] at h
    exact shown_run E hC fuel _ _ _ _ _ _ _ o hr h

theorem reported_iff_invalid {E : Env} {H : Nat → Value → Prop} {level : Nat → Nat} {measure : Nat → Value → Nat}
    (hH : Meaning E H) (hr : Descends E level measure) (strict : Bool) (hsup : AllSupported E strict) (C : Ctx)
    (hC : ∀ p r, ¬Advisory r → C.level p r ≠ .off) (hL : ∀ p, ∀ d ∈ C.lint p, Advisory d.rule)
    (p : Path) (v : Value) (hv : Plain E v) (id fuel : Nat) (hf : measure id v < fuel) :
    H id v ↔ ∀ d ∈ (validateAt E C fuel strict p v id).diags, Advisory d.rule := by
  rw [← outcome_is_meaning hH hr strict hsup C p v hv id fuel hf]
  constructor
  · intro h
    obtain ⟨o, ho, _⟩ := run_answers hH hr C fuel strict hsup .direct [] id v (by simp [Free]) hf false p hv
    simp only [validateAt, ho, Option.getD_some] at h ⊢
    exact run_calm hH hr hL fuel strict hsup .direct [] id v (by simp [Free]) hf _ _ o hv ho h
  · intro h
    cases hb : (validateAt E C fuel strict p v id).failed with
    | false => rfl
    | true =>
      obtain ⟨d, hd, hn⟩ := C58_failure_is_reported E C hC fuel strict p v id hb
      exact absurd (h d hd) hn

/-- In the fragment a document is invalid exactly if something other than lints is reported. -/
theorem C58_reported_iff_invalid_partial {E : Env} {H : Nat → Value → Prop} {rank : Nat → Nat}
    (hH : Meaning E H) (hr : Ranked E rank) (strict : Bool) (hsup : AllSupported E strict) (C : Ctx)
    (hC : ∀ p r, ¬Advisory r → C.level p r ≠ .off) (hL : ∀ p, ∀ d ∈ C.lint p, Advisory d.rule)
    (p : Path) (v : Value) (hv : Plain E v) (id fuel : Nat) (hf : rank id < fuel) :
    H id v ↔ ∀ d ∈ (validateAt E C fuel strict p v id).diags, Advisory d.rule :=
  reported_iff_invalid hH (.ranked hr) strict hsup C hC hL p v hv id fuel hf

/-- The same for recursive schemas. -/
theorem C58_recursive_partial {E : Env} {H : Nat → Value → Prop} {rank level : Nat → Nat} {bound : Nat}
    (hH : Meaning E H) (hg : Guarded E rank level bound) (strict : Bool) (hsup : AllSupported E strict) (C : Ctx)
    (hC : ∀ p r, ¬Advisory r → C.level p r ≠ .off) (hL : ∀ p, ∀ d ∈ C.lint p, Advisory d.rule)
    (p : Path) (v : Value) (hv : Plain E v) (id fuel : Nat) (hf : depth v * (bound + 1) + rank id < fuel) :
    H id v ↔ ∀ d ∈ (validateAt E C fuel strict p v id).diags, Advisory d.rule :=
  reported_iff_invalid hH (.guarded hg) strict hsup C hC hL p v hv id fuel hf

/-- The configurations above meet the hypotheses, and the example is not vacuous: the valid
document has a lint (`name` is deprecated), the invalid one an error. -/
example : (∀ p r, ¬Advisory r → plainCtx.level p r ≠ .off) ∧ ∀ p, ∀ d ∈ plainCtx.lint p, Advisory d.rule :=
  ⟨fun _ _ _ => by simp [plainCtx], fun _ d hd => by cases hd⟩
example : (validate (graph exampleEntries) plainCtx 5 true (exampleDoc 81) 0).diags
    = [⟨[.key "name".toList], .deprecated, .error⟩] := by
  decide +kernel
example : (validate (graph exampleEntries) plainCtx 5 true (exampleDoc 80) 0).diags
    = [⟨[.key "name".toList], .deprecated, .error⟩, ⟨[.key "port".toList], .notSchemaMatch, .error⟩] := by decide +kernel

end Tombi.Validate
