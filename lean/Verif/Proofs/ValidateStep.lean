import Verif.Proofs.ValidateTable

/-!
# One level of the validator, and the whole run
-/

namespace Tombi.Validate
open Tombi.Spec.Validate

section
variable {E : Env} {H : Nat → Value → Prop} {rec : Rec} {q : Pos} {n : Node}

/-- Without `if`, or where the validator looks at it, the applicators are the adjacent ones. -/
theorem ifHolds_scalar {byRef strict : Bool} (hsup : Supported byRef strict n) {v : Value}
    (ht : ∀ ts, n.types = some ts → ∃ t ∈ ts, HasType v t)
    (hsc : ∀ t, HasType v t → t ≠ .arr ∧ t ≠ .obj) (ha : Adjacent H n v) : IfHolds H n v := by
  by_cases hif : n.ifS = none
  · refine ⟨?_, ?_⟩ <;> intro i _ hi <;> rw [hif] at hi <;> cases hi
  · rcases hsup.conditional hif with h | ⟨ts, hts, h⟩
    · exact ha.ifS h
    · obtain ⟨t, hm, hv⟩ := ht ts hts
      have := hsc t hv
      rcases h t hm with h | h
      · exact absurd h this.1
      · exact absurd h this.2

theorem numberParts_iff {k : Kind} {i : Int} (C : Ctx) (p : Path) (g : Int → Int)
    (mul : Int → Int → Bool) (hg : ∀ m, (n.minimum = some m ∨ n.maximum = some m ∨
      n.exclusiveMinimum = some m ∨ n.exclusiveMaximum = some m) → g m = m) (hgi : g i = i)
    (hmul : ∀ m, n.multipleOf = some m → ((!mul i m) = false ↔ ∃ c : Int, i = m * c)) :
    (total (numberParts C p n k g mul i)).failed = false ↔
      (constViolated k n (.int i) = false ∧ enumViolated k n (.int i) = false) ∧ Numeric n i := by
  have h1 : (violates n.maximum fun m => decide (g m < g i)) = false ↔ ∀ m, n.maximum = some m → i ≤ m :=
    violates_iff fun m hm => by rw [hg m (by simp [hm]), hgi]; simp
  have h2 : (violates n.minimum fun m => decide (g i < g m)) = false ↔ ∀ m, n.minimum = some m → m ≤ i :=
    violates_iff fun m hm => by rw [hg m (by simp [hm]), hgi]; simp
  have h3 : (violates n.exclusiveMaximum fun m => decide (g m ≤ g i)) = false ↔
      ∀ m, n.exclusiveMaximum = some m → i < m :=
    violates_iff fun m hm => by rw [hg m (by simp [hm]), hgi]; simp
  have h4 : (violates n.exclusiveMinimum fun m => decide (g i ≤ g m)) = false ↔
      ∀ m, n.exclusiveMinimum = some m → m < i :=
    violates_iff fun m hm => by rw [hg m (by simp [hm]), hgi]; simp
  have h5 : (violates n.multipleOf fun m => !mul i m) = false ↔
      ∀ m, n.multipleOf = some m → ∃ c : Int, i = m * c :=
    violates_iff fun m hm => hmul m hm
  simp only [numberParts, total_failed, List.any_cons, List.any_nil, check_failed, Bool.or_false,
    Bool.or_eq_false_iff]
  rw [h1, h2, h3, h4, h5]
  constructor
  · rintro ⟨hc, he, a, b, c, d, e⟩
    exact ⟨⟨hc, he⟩, b, a, d, c, e⟩
  · rintro ⟨⟨hc, he⟩, b, a, d, c, e⟩
    exact ⟨hc, he, a, b, c, d, e⟩

theorem stringParts_iff {s : Key} (C : Ctx) (p : Path) (hs : E.graphemes s = s.length) :
    (total (stringParts E C p n s)).failed = false ↔
      (constViolated .str n (.str s) = false ∧ enumViolated .str n (.str s) = false) ∧ Textual E n s := by
  have h1 : (violates n.maxLength fun m => decide (m < E.graphemes s)) = false ↔
      ∀ m, n.maxLength = some m → s.length ≤ m := violates_iff fun m _ => by rw [hs]; simp
  have h2 : (violates n.minLength fun m => decide (E.graphemes s < m)) = false ↔
      ∀ m, n.minLength = some m → m ≤ s.length := violates_iff fun m _ => by rw [hs]; simp
  have h3 : (violates n.pattern fun r => violates (E.regex r) fun m => !m s) = false ↔
      ∀ r, n.pattern = some r → ∀ m, E.regex r = some m → m s = true :=
    violates_iff fun r _ => violates_iff fun m _ => by simp
  simp only [stringParts, total_failed, List.any_cons, List.any_nil, check_failed, Bool.or_false,
    Bool.or_eq_false_iff]
  rw [h1, h2, h3]
  constructor
  · rintro ⟨hc, he, a, b, c⟩
    exact ⟨⟨hc, he⟩, b, a, fun r m hr => c r hr m⟩
  · rintro ⟨⟨hc, he⟩, b, a, c⟩
    exact ⟨hc, he, a, b, fun r hr m => c r m hr⟩

/-- A value against a typed view that fits it. -/
theorem typedView_iff {byRef : Bool} (C : Ctx) (f id : Nat) (hsup : Supported byRef q.strict n)
    (keyCall : Key → Nat → Outcome) (k : Kind)
    (hs : Covers E H rec q.strict q.visits n q.value)
    (hs' : Covers E H rec false q.visits n q.value) (hv : Plain E q.value)
    (hkey : ∀ kvs k s, q.value = .tbl kvs → k ∈ kvs.map Prod.fst → n.propertyNames = some s →
      ((keyCall k s).failed = false ↔ H s (.str k)))
    (hk : k.fits q.value = true) (hnum : k = .num → n.multipleOf = none)
    (ha : accepts E f n (tyOf q.value) = true) :
    (typedView rec keyCall E C q id n k).failed = false ↔ NodeHolds E H n q.value := by
  have htypes := types_of_accepts ha
  have hlits := (accepts_types ha).2.1
  have hconst := constViolated_iff hk hv hsup.const hlits
  have henum := enumViolated_iff hk hv hsup.enum
  have hadj := adjacent_iff C id hsup hs hv
  have hgen : General n q.value ↔ constViolated k n q.value = false ∧ enumViolated k n q.value = false := by
    rw [hconst, henum]
    exact ⟨fun h => ⟨h.const, h.enum⟩, fun h => ⟨htypes, h.1, h.2⟩⟩
  -- scalars
  have hscalar : ∀ (ps : List Part), (∀ t, HasType q.value t → t ≠ .arr ∧ t ≠ .obj) →
      ((total ps).failed = false ↔ (constViolated k n q.value = false ∧ enumViolated k n q.value = false) ∧
        Typed E H n q.value) →
      ((merge C (finish (C.evidence q.path id q.value) (withDeprecated C q.path n (total ps)))
        (adjacent rec C q id n)).failed = false ↔ NodeHolds E H n q.value) := by
    intro ps hsc hps
    rw [merge_failed, Bool.or_eq_false_iff, finish_failed, withDeprecated_failed, hps, hadj, ← hgen]
    constructor
    · rintro ⟨⟨h1, h2⟩, h3⟩
      exact ⟨h1, h2, applied_iff.2 ⟨h3, ifHolds_scalar hsup htypes hsc h3⟩⟩
    · rintro ⟨h1, h2, h3⟩
      exact ⟨⟨h1, h2⟩, (applied_iff.1 h3).1⟩
  cases hval : q.value with
  | bool b =>
    cases k <;> simp only [hval, Kind.fits, Bool.false_eq_true] at hk
    have := hscalar (boolParts C q.path n b) (by rw [hval]; simp [HasType])
      (by
        rw [hval]
        simp [boolParts, total_failed, check_failed, Typed])
    rw [hval] at this
    simp only [typedView, hval]
    exact this
  | int i =>
    rw [hval] at hv
    simp only [Plain] at hv
    cases k <;> simp only [hval, Kind.fits, Bool.false_eq_true] at hk
    case int =>
      have := hscalar (numberParts C q.path n .int (fun x => x)
          (fun x m => !((notMultiple x m).getD true)) i) (by rw [hval]; simp [HasType])
        (by
          rw [hval]
          exact numberParts_iff C q.path _ _ (fun _ _ => rfl) rfl
            fun m hm => notMultiple_iff (hsup.multiple m hm))
      rw [hval] at this
      simp only [typedView, hval]
      exact this
    case num =>
      have := hscalar (numberParts C q.path n .num roundF64 E.floatMultiple i) (by rw [hval]; simp [HasType])
        (by
          rw [hval]
          exact numberParts_iff C q.path _ _ (fun m hm => roundF64_small (hsup.small m (by
              rcases hm with h | h | h | h <;> simp [h])))
            (roundF64_small hv) fun m hm => by rw [hnum rfl] at hm; cases hm)
      rw [hval] at this
      simp only [typedView, hval]
      exact this
  | str s =>
    rw [hval] at hv
    simp only [Plain] at hv
    cases k <;> simp only [hval, Kind.fits, Bool.false_eq_true] at hk
    have := hscalar (stringParts E C q.path n s) (by rw [hval]; simp [HasType])
      (by
        rw [hval]
        exact stringParts_iff C q.path hv)
    rw [hval] at this
    simp only [typedView, hval]
    rw [merge_failed]
    have hke : (if (q.isKey && n.minLength != some 0) = true then keyEmpty C q.path s else .ok).failed = false := by
      split
      · exact keyEmpty_failed C q.path s
      · rfl
    rw [hke, Bool.false_or]
    exact this
  | arr xs =>
    cases k <;> simp only [hval, Kind.fits, Bool.false_eq_true] at hk
    have hb := arrayBase_iff C id hval hs hv
    rw [← hgen] at hb
    simp only [typedView, hval]
    rw [merge_failed, Bool.or_eq_false_iff, hb, hadj, ← hval]
    constructor
    · rintro ⟨⟨h1, h2, h3⟩, h4⟩
      exact ⟨h3, by rw [hval]; exact h1, applied_iff.2 ⟨h4, h2⟩⟩
    · rintro ⟨h3, h1, h4⟩
      rw [hval] at h1
      exact ⟨⟨h1, (applied_iff.1 h4).2, h3⟩, (applied_iff.1 h4).1⟩
  | tbl kvs =>
    cases k <;> simp only [hval, Kind.fits, Bool.false_eq_true] at hk
    have hb := tableBase_iff C id hsup keyCall hval hs hs' hv (fun k s => hkey kvs k s hval)
    rw [← hgen] at hb
    simp only [typedView, hval]
    rw [merge_failed, Bool.or_eq_false_iff, hb, filterStrict_failed, hadj, ← hval]
    constructor
    · rintro ⟨⟨h1, h2, h3⟩, h4⟩
      exact ⟨h3, by rw [hval]; exact h1, applied_iff.2 ⟨h4, h2⟩⟩
    · rintro ⟨h3, h1, h4⟩
      rw [hval] at h1
      exact ⟨⟨h1, (applied_iff.1 h4).2, h3⟩, (applied_iff.1 h4).1⟩

/-- The schema object with only applicators says what its applicators say. -/
theorem nodeHolds_bare (hb : n = OnlyApplicators n) (v : Value) :
    NodeHolds E H n v ↔ Adjacent H n v ∧ IfHolds H n v := by
  rw [← applied_iff]
  constructor
  · exact fun h => h.applied
  · intro h
    refine ⟨?_, ?_, h⟩
    · rw [hb]
      refine ⟨?_, ?_, ?_⟩ <;> intro _ h <;> cases h
    · rw [hb]
      cases v with
      | bool b => trivial
      | int i =>
        simp only [Typed]
        refine ⟨?_, ?_, ?_, ?_, ?_⟩ <;> intro _ h <;> cases h
      | str s =>
        simp only [Typed]
        refine ⟨?_, ?_, ?_⟩
        · intro _ h; cases h
        · intro _ h; cases h
        · intro _ _ h; cases h
      | arr xs =>
        simp only [Typed]
        refine ⟨?_, ?_, ?_, ?_, ?_⟩
        · intro i x _
          trivial
        all_goals intro h; try cases h
        all_goals intro h; cases h
      | tbl kvs =>
        simp only [Typed]
        refine ⟨?_, ?_, ?_, ?_, ?_, ?_, ?_, ?_, ?_⟩
        · intro k v s _ h; cases h
        · intro k v ps r s m _ h; cases h
        · intro k v _ _; trivial
        · intro k h; cases h
        · intro m h; cases h
        · intro m h; cases h
        · intro k s _ h; cases h
        · intro k rs r h; cases h
        · intro k s h; cases h

/-- What one level needs to know about the object. -/
structure Level1 (E : Env) (H : Nat → Value → Prop) (rec : Rec) (q : Pos) (n : Node) (byRef : Bool)
    (keyCall : Key → Nat → Outcome) : Prop where
  meaning : Meaning E H
  sup : Supported byRef q.strict n
  sub : Covers E H rec q.strict q.visits n q.value
  sub' : Covers E H rec false q.visits n q.value
  plain : Plain E q.value
  key : ∀ kvs k s, q.value = .tbl kvs → k ∈ kvs.map Prod.fst → n.propertyNames = some s →
      ((keyCall k s).failed = false ↔ H s (.str k))

variable {byRef : Bool} {keyCall : Key → Nat → Outcome}

theorem typedView_level (h : Level1 E H rec q n byRef keyCall) (C : Ctx) (f id : Nat) (k : Kind)
    (hk : k.fits q.value = true) (hnum : k = .num → n.multipleOf = none)
    (ha : accepts E f n (tyOf q.value) = true) :
    (typedView rec keyCall E C q id n k).failed = false ↔ NodeHolds E H n q.value :=
  typedView_iff C f id h.sup keyCall k h.sub h.sub' h.plain h.key hk hnum ha

theorem no_multiple_of_view (hsup : Supported byRef q.strict n) {f : Nat} (hty : Asserts n) {k : Kind}
    (hk : k ∈ views E f n) : k = .num → n.multipleOf = none := by
  intro he
  subst he
  cases hm : n.multipleOf with
  | none => rfl
  | some m =>
    exfalso
    obtain ⟨ts, hts, hnot⟩ := hsup.floatMultiple (by simp [hm]) hty
    have := (accepts_types (List.mem_filter.1 hk).2).1 ts hts
    rcases this with h | h
    · exact hnot h
    · cases h.1

theorem no_multiple_of_for (hsup : Supported byRef q.strict n) (v : Value) :
    kindFor n v = .num → n.multipleOf = none := by
  intro he
  have hno := kindFor_num he
  cases hm : n.multipleOf with
  | none => rfl
  | some m =>
    exfalso
    cases hts : n.types with
    | none => simp [Node.numberOnly, hts] at hno
    | some ts =>
      obtain ⟨ts', hts', hnot⟩ := hsup.floatMultiple (by simp [hm]) (.inl (by simp [hts]))
      rw [hts] at hts'
      cases hts'
      simp only [Node.numberOnly, hts, Bool.and_eq_true, List.contains_iff_mem] at hno
      exact hnot hno.1

theorem numberOnly_noApplicator (hsup : Supported byRef q.strict n) (h : n.numberOnly = true) :
    NoApplicator n := by
  cases hts : n.types with
  | none => simp [Node.numberOnly, hts] at h
  | some ts =>
    simp only [Node.numberOnly, hts, Bool.and_eq_true, List.contains_iff_mem, Bool.not_eq_true'] at h
    refine hsup.number ts hts h.1 ?_
    intro hc
    have := List.contains_iff_mem.2 hc
    rw [this] at h
    cases h.2

theorem typedFor_level (h : Level1 E H rec q n byRef keyCall) (C : Ctx) (f id : Nat)
    (ha : accepts E f n (tyOf q.value) = true) :
    (typedView rec keyCall E C q id n (kindFor n q.value)).failed = false ↔ NodeHolds E H n q.value :=
  typedView_level h C f id _ (kindFor_fits n q.value) (no_multiple_of_for h.sup q.value) ha

theorem anyOfViews_level (h : Level1 E H rec q n byRef keyCall) (C : Ctx) (f id : Nat) (hty : Asserts n)
    (hne : views E f n ≠ []) :
    (anyOfViews rec keyCall E C q id n (views E f n)).failed = false ↔ NodeHolds E H n q.value := by
  simp only [anyOfViews]
  rw [anyOfResult_failed _ _ _ (by simpa using hne)]
  constructor
  · rintro ⟨⟨o, ho, hf⟩, _⟩
    obtain ⟨k, hk, rfl⟩ := List.mem_map.1 ho
    split at hf
    · rename_i hfit
      rw [withLint_failed] at hf
      exact (typedView_level h C f id k hfit (no_multiple_of_view h.sup hty hk) (accepts_of_fits hk hfit)).1 hf
    · simp [typeMismatch, Outcome.failed] at hf
  · intro hn
    have ha := accepts_of_holds (f := f) h.meaning hn
    have hm := kindFor_mem (numberOnly_noApplicator h.sup) ha
    refine ⟨⟨_, List.mem_map.2 ⟨kindFor n q.value, hm, rfl⟩, ?_⟩, rfl⟩
    rw [if_pos (kindFor_fits n q.value), withLint_failed]
    exact (typedFor_level h C f id ha).2 hn

theorem mismatched_level (h : Level1 E H rec q n byRef keyCall) (C : Ctx) (f id : Nat) (hty : Asserts n)
    (hna : accepts E f n (tyOf q.value) = false) :
    (mismatched rec C q id byRef n).failed = false ↔ NodeHolds E H n q.value := by
  have hn : ¬NodeHolds E H n q.value := fun hn => by
    rw [accepts_of_holds h.meaning hn] at hna
    cases hna
  have hb : (byRef && n.types.isNone) = false := by
    cases hb : byRef with
    | false => rfl
    | true =>
      have := h.sup.byRef hb hty
      cases ht : n.types with
      | none => exact absurd ht this
      | some _ => rfl
  simp only [mismatched, hb, hn]
  simp [typeMismatch, Outcome.failed]

/-- A schema object without `type`, `const`, `enum` and with applicators. -/
theorem composite_level (h : Level1 E H rec q n byRef keyCall) (C : Ctx) (id : Nat) (hty : ¬Asserts n)
    (happ : ¬NoApplicator n) {o : Outcome}
    (ho : o = match n.oneOf, n.anyOf, n.allOf with
      | some ms, _, _ => oneOfOutcome rec C q n ms
      | none, some ms, _ => anyOfOutcome rec C q n ms
      | none, none, some ms => allOfOutcome rec C q id n ms
      | none, none, none => .ok) :
    o.failed = false ↔ NodeHolds E H n q.value := by
  rw [nodeHolds_bare (h.sup.bare hty happ)]
  have hsingle := h.sup.single hty
  subst ho
  cases h1 : n.oneOf with
  | some ms =>
    have hany := (hsingle.1 (by simp [h1])).1
    have hall := (hsingle.1 (by simp [h1])).2
    have hno := h.sup.oneOf (by simp [h1])
    simp only
    rw [oneOfOutcome_iff C h1 h.sub h.plain hno]
    constructor
    · intro hone
      have hif : IfHolds H n q.value := by
        refine ⟨?_, ?_⟩ <;> intro i _ hi <;> rw [hno.2] at hi <;> cases hi
      refine ⟨⟨?_, ?_, ?_, ?_, fun _ => hif⟩, hif⟩
      · intro ms m hm; rw [hall] at hm; cases hm
      · intro ms hm; rw [hany] at hm; cases hm
      · intro ms' hm; rw [h1] at hm; cases hm; exact hone
      · intro m hm; rw [hno.1] at hm; cases hm
    · rintro ⟨hadj, _⟩
      exact hadj.oneOf ms h1
  | none =>
    cases h2 : n.anyOf with
    | some ms =>
      have hall := hsingle.2 (by simp [h2])
      simp only
      rw [anyOfOutcome_iff C h2 (fun he => h.sup.anyOf (he ▸ h2)) h.sub h.plain]
      constructor
      · rintro ⟨ha, hn, hif⟩
        refine ⟨⟨?_, ?_, ?_, hn, fun _ => hif⟩, hif⟩
        · intro ms m hm; rw [hall] at hm; cases hm
        · intro ms' hm; rw [h2] at hm; cases hm; exact ha
        · intro ms' hm; rw [h1] at hm; cases hm
      · rintro ⟨hadj, hif⟩
        exact ⟨hadj.anyOf ms h2, hadj.not, hif⟩
    | none =>
      cases h3 : n.allOf with
      | some ms =>
        simp only
        rw [allOfOutcome_iff C id h3 h.sub h.plain]
        constructor
        · rintro ⟨ha, hn, hif⟩
          refine ⟨⟨?_, ?_, ?_, hn, fun _ => hif⟩, hif⟩
          · intro ms' m hm; rw [h3] at hm; cases hm; exact ha m
          · intro ms' hm; rw [h2] at hm; cases hm
          · intro ms' hm; rw [h1] at hm; cases hm
        · rintro ⟨hadj, hif⟩
          exact ⟨fun m => hadj.allOf ms m h3, hadj.not, hif⟩
      | none => exact absurd ⟨h1, h2, h3⟩ happ

theorem not_project (h : Level1 E H rec q n byRef keyCall) (hty : ¬Asserts n) (happ : ¬NoApplicator n)
    (t : Ty) : directConstraints n t = false := by
  rw [h.sup.bare hty happ]
  cases t <;> rfl

theorem accepts_untyped {f : Nat} (hty : ¬Asserts n) (happ : NoApplicator n) (t : Ty) :
    accepts E f n t = true := by
  have h1 : n.types = none := by
    cases hc : n.types with
    | none => rfl
    | some _ => exact absurd (.inl (by simp [hc])) hty
  have h2 : n.const = none := by
    cases hc : n.const with
    | none => rfl
    | some _ => exact absurd (.inr (.inl (by simp [hc]))) hty
  have h3 : n.enum = none := by
    cases hc : n.enum with
    | none => rfl
    | some _ => exact absurd (.inr (.inr (by simp [hc]))) hty
  simp [accepts, acceptsNode, h1, h2, h3, happ.1, happ.2.1, happ.2.2]

theorem objectDirect_level (h : Level1 E H rec q n byRef keyCall) (C : Ctx) (f id : Nat) :
    (objectDirect rec keyCall E C f q id byRef n).failed = false ↔ NodeHolds E H n q.value := by
  simp only [objectDirect]
  cases hp : accepts E f n (tyOf q.value) with
  | true =>
    have hfor := typedFor_level h C f id hp
    by_cases hty : n.typed = true
    · rw [if_pos hty]
      rw [typed_iff] at hty
      cases hvs : views E f n with
      | nil => simpa using hfor
      | cons k ks =>
        cases ks with
        | nil =>
          simp only
          split
          · rename_i hfit
            exact typedView_level h C f id k hfit (no_multiple_of_view h.sup hty (by rw [hvs]; simp)) hp
          · simpa using hfor
        | cons k' ks =>
          simp only
          split
          · exact hfor
          · rw [withKey_failed, ← hvs]
            exact anyOfViews_level h C f id hty (by simp [hvs])
    · rw [if_neg hty]
      rw [typed_iff] at hty
      by_cases happ : NoApplicator n
      · simp only [happ.1, happ.2.1, happ.2.2]
        exact hfor
      · rw [not_project h hty happ]
        have hc := @composite_level E H rec q n byRef keyCall h C id hty happ _ rfl
        simp only [Bool.and_false, Bool.false_and, Bool.false_eq_true, if_false]
        cases h1 : n.oneOf with
        | some ms => simp only [h1] at hc; simp only [withKey_failed]; exact hc
        | none =>
          cases h2 : n.anyOf with
          | some ms => simp only [h1, h2] at hc; simp only [withKey_failed]; exact hc
          | none =>
            cases h3 : n.allOf with
            | some ms => simp only [h1, h2, h3] at hc; simp only [withKey_failed]; exact hc
            | none => exact absurd ⟨h1, h2, h3⟩ happ
  | false =>
    have hn : ¬NodeHolds E H n q.value := fun hn => by
      rw [accepts_of_holds h.meaning hn] at hp
      cases hp
    by_cases hty : n.typed = true
    · rw [if_pos hty]
      rw [typed_iff] at hty
      cases hvs : views E f n with
      | nil => simp [nothing, Outcome.failed, hn]
      | cons k ks =>
        cases ks with
        | nil =>
          simp only
          split
          · rename_i hfit
            rw [accepts_of_fits (by rw [hvs]; simp) hfit] at hp
            cases hp
          · simpa using mismatched_level h C f id hty hp
        | cons k' ks =>
          simp only [Bool.and_false, Bool.false_eq_true, if_false]
          rw [withKey_failed, ← hvs]
          exact anyOfViews_level h C f id hty (by simp [hvs])
    · rw [if_neg hty]
      rw [typed_iff] at hty
      by_cases happ : NoApplicator n
      · rw [accepts_untyped hty happ] at hp
        cases hp
      · have hc := @composite_level E H rec q n byRef keyCall h C id hty happ _ rfl
        simp only [Bool.and_false, Bool.false_eq_true, if_false]
        cases h1 : n.oneOf with
        | some ms => simp only [h1] at hc; simp only [withKey_failed]; exact hc
        | none =>
          cases h2 : n.anyOf with
          | some ms => simp only [h1, h2] at hc; simp only [withKey_failed]; exact hc
          | none =>
            cases h3 : n.allOf with
            | some ms => simp only [h1, h2, h3] at hc; simp only [withKey_failed]; exact hc
            | none => exact absurd ⟨h1, h2, h3⟩ happ

theorem objectResolved_level (h : Level1 E H rec q n byRef keyCall) (C : Ctx) (f id : Nat) :
    ∃ o, objectResolved rec keyCall E C f q id byRef n = some o ∧
      (o.failed = false ↔ NodeHolds E H n q.value) := by
  have hd := objectDirect_level h C f id
  simp only [objectResolved]
  by_cases hty : n.typed = true
  · rw [if_pos hty]
    rw [typed_iff] at hty
    cases hvs : views E f n with
    | nil =>
      rw [accepts_null h.sup hty hvs]
      refine ⟨_, rfl, ?_⟩
      have hp : accepts E f n (tyOf q.value) = false := by
        cases hp : accepts E f n (tyOf q.value) with
        | false => rfl
        | true =>
          have := kindFor_mem (numberOnly_noApplicator h.sup) hp
          rw [hvs] at this
          cases this
      have hn : ¬NodeHolds E H n q.value := fun hn => by
        rw [accepts_of_holds h.meaning hn] at hp
        cases hp
      simp [nothing, Outcome.failed, hn]
    | cons k ks =>
      cases ks with
      | nil =>
        simp only
        split
        · exact ⟨_, rfl, by rw [withLint_failed]; exact hd⟩
        · rename_i hfit
          refine ⟨_, rfl, mismatched_level h C f id hty ?_⟩
          cases hp : accepts E f n (tyOf q.value) with
          | false => rfl
          | true =>
            have := kindFor_mem (numberOnly_noApplicator h.sup) hp
            rw [hvs] at this
            simp only [List.mem_singleton] at this
            have hf := kindFor_fits n q.value
            rw [this] at hf
            exact absurd hf hfit
      | cons k' ks =>
        refine ⟨_, rfl, ?_⟩
        rw [← hvs]
        exact anyOfViews_level h C f id hty (by simp [hvs])
  · rw [if_neg hty]
    rw [typed_iff] at hty
    by_cases happ : NoApplicator n
    · simp only [happ.1, happ.2.1, happ.2.2]
      exact ⟨_, rfl, by rw [withLint_failed]; exact hd⟩
    · have hc := @composite_level E H rec q n byRef keyCall h C id hty happ _ rfl
      cases h1 : n.oneOf with
      | some ms => simp only [h1] at hc; exact ⟨_, rfl, hc⟩
      | none =>
        cases h2 : n.anyOf with
        | some ms => simp only [h1, h2] at hc; exact ⟨_, rfl, hc⟩
        | none =>
          cases h3 : n.allOf with
          | some ms => simp only [h1, h2, h3] at hc; exact ⟨_, rfl, hc⟩
          | none => exact absurd ⟨h1, h2, h3⟩ happ

end

theorem supported_false {byRef strict : Bool} {n : Node} (h : Supported byRef strict n) :
    Supported byRef false n where
  single := h.single
  bare := h.bare
  conditional := h.conditional
  oneOf := h.oneOf
  anyOf := h.anyOf
  number := h.number
  floatMultiple := h.floatMultiple
  multiple := h.multiple
  small := h.small
  null := h.null
  const := h.const
  enum := h.enum
  strict := fun hc => by cases hc
  byRef := h.byRef

/-- The recursive calls come to an end (`measure` decreases), and the schemas of the calls by the route `resolved` are not the
ones that are being visited (`level` decreases). -/
structure Descends (E : Env) (level : Nat → Nat) (measure : Nat → Value → Nat) : Prop where
  less : ∀ {id n v route s w}, (E.entry id).schema = .obj n → Uses n v route s w → measure s w < measure id v
  down : ∀ {id n v route s w}, (E.entry id).schema = .obj n → Uses n v route s w → level s ≤ level id
  alternative : ∀ {id n v s w}, (E.entry id).schema = .obj n → Uses n v .resolved s w → level s < level id

/-- The schema is not being visited, if that is asked. -/
def Free (level : Nat → Nat) (visits : List Nat) (s : Nat) : Route → Prop
  | .direct => ∀ j ∈ visits, level s ≤ level j
  | .resolved => ∀ j ∈ visits, level s < level j

theorem free_uses {E : Env} {level : Nat → Nat} {measure : Nat → Value → Nat} (hd : Descends E level measure) {visits : List Nat}
    {id : Nat} (hvis : ∀ j ∈ visits, level id ≤ level j) {n : Node} (hn : (E.entry id).schema = .obj n) {v w : Value} {s : Nat}
    {route : Route} (h : Uses n v route s w) : Free level visits s route := by
  cases route with
  | direct => exact fun j hj => Nat.le_trans (hd.down hn h) (hvis j hj)
  | resolved => exact fun j hj => Nat.lt_of_lt_of_le (hd.alternative hn h) (hvis j hj)

/-- What one level needs holds, if the calls below are answered correctly. -/
theorem step_level1 {E : Env} {H : Nat → Value → Prop} {level : Nat → Nat} {measure : Nat → Value → Nat} (hH : Meaning E H)
    (hd : Descends E level measure) {strict : Bool} (hsup : AllSupported E strict) (C : Ctx) (f : Nat) (rec : Rec)
    (id : Nat) (isKey : Bool) (path : Path) (v : Value) (hv : Plain E v)
    (ih : ∀ route visits s w, Free level visits s route → measure s w < measure id v →
      Answers E H rec route strict visits s w ∧ Answers E H rec route false visits s w) :
    ∀ (visits' : List Nat) (n : Node), (E.entry id).schema = .obj n →
      (∀ j ∈ visits', level id ≤ level j) → ∀ q : Pos, q = ⟨strict, visits', isKey, path, v⟩ →
      Level1 E H rec q n (E.entry id).byRef (keyCallOf rec E C f q) := by
  intro visits' n hn hvis' q hq
  have hsub : ∀ route s w, Uses n v route s w →
      Answers E H rec route strict visits' s w ∧ Answers E H rec route false visits' s w :=
    fun route s w hs => ih route visits' s w (free_uses hd hvis' hn hs) (hd.less hn hs)
  have hstrict : q.strict = strict := by rw [hq]
  have hvisits : q.visits = visits' := by rw [hq]
  have hvalue : q.value = v := by rw [hq]
  refine ⟨hH, hstrict ▸ hsup id n hn, ?_, ?_, hvalue ▸ hv, ?_⟩
  · intro route s w hs
    rw [hvalue] at hs
    rw [hstrict, hvisits]
    exact (hsub route s w hs).1
  · intro route s w hs
    rw [hvalue] at hs
    rw [hvisits]
    exact (hsub route s w hs).2
  · intro kvs k s hkvs hk hpn
    rw [hvalue] at hkvs
    have hplain : Plain E (.str k) := by
      simp only [Plain]
      rw [hkvs] at hv
      simp only [Plain] at hv
      exact hv.2.1 k hk
    have huse : Uses n v .direct s (.str k) := .name hpn hkvs hk
    have hdirect : (direct rec { q with isKey := true, value := .str k } s).failed = false ↔ H s (.str k) :=
      direct_iff (q := { q with isKey := true, value := .str k })
        (by
          show Answers E H rec .direct q.strict q.visits s (.str k)
          rw [hstrict, hvisits]
          exact (hsub _ s _ huse).1) hplain
    simp only [keyCallOf]
    cases hsc : (E.entry s).schema with
    | always b => exact hdirect
    | obj m =>
      simp only
      split
      · rename_i hcond
        simp only [Bool.and_eq_true, Bool.not_eq_true'] at hcond
        have hsm : ∀ route s' w, Uses m (.str k) route s' w →
            Answers E H rec route strict visits' s' w ∧ Answers E H rec route false visits' s' w :=
          fun route s' w hs' => ih route visits' s' w
            (free_uses hd (fun j hj => Nat.le_trans (hd.down hn huse) (hvis' j hj)) hsc hs')
            (Nat.lt_trans (hd.less hsc hs') (hd.less hn huse))
        rw [withLint_failed]
        have hm := (hH s (.str k))
        rw [hsc] at hm
        rw [hm]
        have hsupm := hsup s m hsc
        exact typedView_iff (q := { q with isKey := true, value := .str k }) C f s
          (by
            show Supported (E.entry s).byRef q.strict m
            rw [hstrict]
            exact hsupm) _ .str
          (by
            show Covers E H rec q.strict q.visits m (.str k)
            rw [hstrict, hvisits]
            exact fun {route s' w} hs' => (hsm route s' w hs').1)
          (by
            show Covers E H rec false q.visits m (.str k)
            rw [hvisits]
            exact fun {route s' w} hs' => (hsm route s' w hs').2)
          hplain (fun kvs k s hc => by cases hc) rfl (fun hc => by cases hc) hcond.2
      · exact hdirect

/-- One level of the validator answers a schema correctly, if the calls below do. -/
theorem step_answers {E : Env} {H : Nat → Value → Prop} {level : Nat → Nat} {measure : Nat → Value → Nat} (hH : Meaning E H)
    (hd : Descends E level measure) {strict : Bool} (hsup : AllSupported E strict) (C : Ctx) (f : Nat) (rec : Rec)
    (route : Route) (visits : List Nat) (id : Nat) (v : Value) (hvis : Free level visits id route)
    (ih : ∀ route visits s w, Free level visits s route → measure s w < measure id v →
      Answers E H rec route strict visits s w ∧ Answers E H rec route false visits s w) :
    Answers E H (step E C f rec) route strict visits id v := by
  intro isKey path hv
  have hlevel := step_level1 hH hd hsup C f rec id isKey path v hv ih
  have hm := hH id v
  cases route with
  | direct =>
    refine ⟨_, rfl, ?_⟩
    rw [withLint_failed]
    cases hsc : (E.entry id).schema with
    | always b =>
      rw [hsc] at hm
      rw [hm]
      cases b <;> simp [nothing, Outcome.failed]
    | obj n =>
      rw [hsc] at hm
      rw [hm]
      exact objectDirect_level (hlevel visits n hsc hvis _ rfl) C f id
  | resolved =>
    have hnot : visits.contains id = false := by
      cases hc : visits.contains id with
      | false => rfl
      | true => exact absurd (hvis id (List.contains_iff_mem.1 hc)) (Nat.lt_irrefl _)
    simp only [step, hnot, Bool.false_eq_true, if_false]
    cases hsc : (E.entry id).schema with
    | always b =>
      rw [hsc] at hm
      rw [hm]
      cases b
      · exact ⟨_, rfl, by simp [nothing, Outcome.failed]⟩
      · exact ⟨_, rfl, by simp [Outcome.failed]⟩
    | obj n =>
      rw [hsc] at hm
      rw [hm]
      exact objectResolved_level (hlevel (id :: visits) n hsc (fun j hj => by
        rcases List.mem_cons.1 hj with h | h
        · rw [h]
          exact Nat.le_refl _
        · exact Nat.le_of_lt (hvis j h)) _ rfl) C f id

/-- Every run with enough fuel answers every schema correctly. -/
theorem run_answers {E : Env} {H : Nat → Value → Prop} {level : Nat → Nat} {measure : Nat → Value → Nat} (hH : Meaning E H)
    (hd : Descends E level measure) (C : Ctx) : ∀ (fuel : Nat) (strict : Bool), AllSupported E strict →
      ∀ (route : Route) (visits : List Nat) (id : Nat) (v : Value),
      Free level visits id route → measure id v < fuel → Answers E H (run E C fuel) route strict visits id v
  | 0, _, _, _, _, _, _, _, h => by omega
  | fuel + 1, strict, hsup, route, visits, id, v, hvis, h => by
    refine step_answers hH hd hsup C fuel _ route visits id v hvis ?_
    intro route' visits' s w hvis' hlt
    exact ⟨run_answers hH hd C fuel strict hsup route' visits' s w hvis' (by omega),
      run_answers hH hd C fuel false (fun id n hn => supported_false (hsup id n hn)) route' visits' s w hvis' (by omega)⟩

theorem depth_element {xs : List Value} {x : Value} (h : x ∈ xs) : depth x ≤ depthList xs := by
  induction xs with
  | nil => cases h
  | cons y ys ih =>
    rw [depthList]
    rcases List.mem_cons.1 h with rfl | h
    · omega
    · have := ih h
      omega

theorem depth_entry {kvs : List (Key × Value)} {k : Key} {x : Value} (h : (k, x) ∈ kvs) : depth x ≤ depthEntries kvs := by
  induction kvs with
  | nil => cases h
  | cons y ys ih =>
    obtain ⟨k', y⟩ := y
    rw [depthEntries]
    rcases List.mem_cons.1 h with h | h
    · cases h
      omega
    · have := ih h
      omega

theorem sub_of_uses {n : Node} {v : Value} {route : Route} {s : Nat} {w : Value} (h : Uses n v route s w) : Sub n s := by
  cases h with
  | oneOf h h' => exact .oneOf h h'
  | anyOf h h' => exact .anyOf h h'
  | allOf h h' => exact .allOf h h'
  | not h => exact .not h
  | ifS h => exact .ifS h
  | thenS h => exact .thenS h
  | elseS h => exact .elseS h
  | dependent h => exact .dependent h
  | element h => exact h
  | entry h => exact h
  | name h => exact .names h

/-- A call is for a sub-schema at the value itself, or for a value inside it. -/
theorem inPlace_of_uses {n : Node} {v : Value} {route : Route} {s : Nat} {w : Value} (h : Uses n v route s w) :
    (InPlace n s ∧ w = v) ∨ depth w < depth v := by
  cases h with
  | oneOf h h' => exact .inl ⟨.oneOf h h', rfl⟩
  | anyOf h h' => exact .inl ⟨.anyOf h h', rfl⟩
  | allOf h h' => exact .inl ⟨.allOf h h', rfl⟩
  | not h => exact .inl ⟨.not h, rfl⟩
  | ifS h => exact .inl ⟨.ifS h, rfl⟩
  | thenS h => exact .inl ⟨.thenS h, rfl⟩
  | elseS h => exact .inl ⟨.elseS h, rfl⟩
  | dependent h => exact .inl ⟨.dependent h, rfl⟩
  | element h hv hx =>
    subst hv
    right
    rw [depth]
    exact Nat.lt_succ_of_le (depth_element hx)
  | entry h hv hx =>
    subst hv
    right
    rw [depth]
    exact Nat.lt_succ_of_le (depth_entry hx)
  | name h hv hx =>
    subst hv
    right
    rw [depth, depth]
    omega

/-- A graph without cycles. -/
theorem Descends.ranked {E : Env} {rank : Nat → Nat} (h : Ranked E rank) : Descends E rank (fun id _ => rank id) where
  less hn hs := h _ _ _ hn (sub_of_uses hs)
  down hn hs := Nat.le_of_lt (h _ _ _ hn (sub_of_uses hs))
  alternative hn hs := h _ _ _ hn (sub_of_uses hs)

/-- A graph with cycles that go down into the value. -/
theorem Descends.guarded {E : Env} {rank level : Nat → Nat} {bound : Nat} (h : Guarded E rank level bound) :
    Descends E level (fun id v => depth v * (bound + 1) + rank id) where
  less := by
    intro id n v route s w hn hs
    rcases inPlace_of_uses hs with ⟨hp, rfl⟩ | hlt
    · have := h.inPlace _ _ _ hn hp
      show depth w * (bound + 1) + rank s < depth w * (bound + 1) + rank id
      omega
    · have hb := h.bound s
      have : (depth w + 1) * (bound + 1) ≤ depth v * (bound + 1) := Nat.mul_le_mul_right _ hlt
      rw [Nat.add_mul] at this
      show depth w * (bound + 1) + rank s < depth v * (bound + 1) + rank id
      omega
  down hn hs := h.down _ _ _ hn (sub_of_uses hs)
  alternative := by
    intro id n v s w hn hs
    cases hs with
    | oneOf h1 h2 => exact h.alternative _ _ _ hn (.oneOf h1 h2)
    | anyOf h1 h2 => exact h.alternative _ _ _ hn (.anyOf h1 h2)

end Tombi.Validate
