import Verif.Proofs.ValidateAccepts

/-!
# Applicators, arrays and tables, if the sub-schemas are answered correctly
-/

namespace Tombi.Validate
open Tombi.Spec.Validate

/-- The recursive calls for the sub-schemas of an object: by which route, for which schema and value. -/
inductive Uses (n : Node) (v : Value) : Route → Nat → Value → Prop where
  | oneOf {ms s} : n.oneOf = some ms → s ∈ ms → Uses n v .resolved s v
  | anyOf {ms s} : n.anyOf = some ms → s ∈ ms → Uses n v .resolved s v
  | allOf {ms s} : n.allOf = some ms → s ∈ ms → Uses n v .direct s v
  | not {s} : n.not = some s → Uses n v .direct s v
  | ifS {s} : n.ifS = some s → Uses n v .direct s v
  | thenS {s} : n.thenS = some s → Uses n v .direct s v
  | elseS {s} : n.elseS = some s → Uses n v .direct s v
  | dependent {k s} : (k, s) ∈ n.dependentSchemas → Uses n v .direct s v
  | element {s xs x} : Sub n s → v = .arr xs → x ∈ xs → Uses n v .direct s x
  | entry {s kvs k x} : Sub n s → v = .tbl kvs → (k, x) ∈ kvs → Uses n v .direct s x
  | name {s kvs k} : n.propertyNames = some s → v = .tbl kvs → k ∈ kvs.map Prod.fst → Uses n v .direct s (.str k)

/-- The recursive call answers the schema `s` correctly for the value `v`. -/
def Answers (E : Env) (H : Nat → Value → Prop) (rec : Rec) (route : Route) (strict : Bool) (visits : List Nat)
    (s : Nat) (v : Value) : Prop :=
  ∀ isKey path, Plain E v → ∃ o, rec route strict visits isKey path v s = some o ∧
    (o.failed = false ↔ H s v)

/-- All recursive calls for an object are answered correctly. -/
def Covers (E : Env) (H : Nat → Value → Prop) (rec : Rec) (strict : Bool) (visits : List Nat) (n : Node) (v : Value) : Prop :=
  ∀ {route s w}, Uses n v route s w → Answers E H rec route strict visits s w

theorem not_failed {o : Outcome} {P : Prop} (h : o.failed = false ↔ P) : o.failed = true ↔ ¬P := by
  cases hf : o.failed <;> simp_all

section
variable {E : Env} {H : Nat → Value → Prop} {rec : Rec} {q : Pos} {n : Node}

theorem direct_iff {s : Nat} (h : Answers E H rec .direct q.strict q.visits s q.value) (hv : Plain E q.value) :
    (direct rec q s).failed = false ↔ H s q.value := by
  obtain ⟨o, ho, hi⟩ := h q.isKey q.path hv
  simp only [direct, ho, Option.getD_some, hi]

theorem child_iff {s : Nat} {v : Value} (st : Step) (h : Answers E H rec .direct q.strict q.visits s v)
    (hv : Plain E v) : (child rec q st v s).failed = false ↔ H s v := by
  obtain ⟨o, ho, hi⟩ := h false (q.path ++ [st]) hv
  simp only [child, ho, Option.getD_some, hi]

theorem notOutcome_iff (C : Ctx) (hs : Covers E H rec q.strict q.visits n q.value)
    (hv : Plain E q.value) :
    (notOutcome rec C q n).failed = false ↔ ∀ m, n.not = some m → ¬H m q.value := by
  simp only [notOutcome]
  cases hn : n.not with
  | none => simp [Outcome.failed]
  | some m =>
    have hd := direct_iff (hs (.not hn)) hv
    simp only [Option.some.injEq, forall_eq']
    cases hf : (direct rec q m).failed with
    | true =>
      rw [← not_failed hd]
      simp only [if_true, hf, iff_true]
      split <;> rfl
    | false =>
      rw [← not_failed hd, hf]
      simp [Outcome.failed]

/-- `if`, `then` and `else` hold. -/
def IfHolds (H : Nat → Value → Prop) (n : Node) (v : Value) : Prop :=
  (∀ i t, n.ifS = some i → n.thenS = some t → H i v → H t v) ∧
  (∀ i e, n.ifS = some i → n.elseS = some e → ¬H i v → H e v)

theorem ifOutcome_iff (C : Ctx) (hs : Covers E H rec q.strict q.visits n q.value)
    (hv : Plain E q.value) :
    (ifOutcome rec C q n).failed = false ↔ IfHolds H n q.value := by
  cases hn : n.ifS with
  | none => simp [ifOutcome, IfHolds, hn, Outcome.failed]
  | some i =>
    have hd := direct_iff (hs (.ifS hn)) hv
    have hr : IfHolds H n q.value ↔ (∀ t, n.thenS = some t → H i q.value → H t q.value) ∧
        (∀ e, n.elseS = some e → ¬H i q.value → H e q.value) := by
      constructor
      · rintro ⟨h1, h2⟩
        exact ⟨fun t => h1 i t hn, fun e => h2 i e hn⟩
      · rintro ⟨h1, h2⟩
        refine ⟨fun i' t hi => ?_, fun i' e hi => ?_⟩ <;> rw [hn] at hi <;> cases hi
        · exact h1 t
        · exact h2 e
    rw [hr]
    simp only [ifOutcome, hn]
    cases hf : (direct rec q i).failed with
    | true =>
      have hi := (not_failed hd).1 hf
      simp only [if_true, hi, false_implies, implies_true, true_and, not_false_eq_true, true_implies]
      cases he : n.elseS with
      | none => simp [Outcome.failed]
      | some e =>
        have hde := direct_iff (hs (.elseS he)) hv
        simp only [hde, Option.some.injEq, forall_eq']
    | false =>
      have hi := hd.1 hf
      simp only [Bool.false_eq_true, if_false, hi, not_true_eq_false, false_implies, implies_true,
        and_true, true_implies]
      cases ht : n.thenS with
      | none => simp only [mergeIf_failed, reduceCtorEq, false_implies, implies_true, iff_true]; rfl
      | some t =>
        have hdt := direct_iff (hs (.thenS ht)) hv
        simp only [mergeIf_failed, hdt, Option.some.injEq, forall_eq']

theorem adjacentPart_failed (C : Ctx) : (adjacentPart rec C q n).failed = false ↔
    (notOutcome rec C q n).failed = false ∧ (ifOutcome rec C q n).failed = false := by
  simp only [adjacentPart, total_failed, List.any_cons, List.any_nil, part_failed, Bool.or_false,
    Bool.or_eq_false_iff]

/-- Every member answers, so the results are one per member. -/
theorem resolved_map (ms : List Nat) (hs : ∀ m ∈ ms, Answers E H rec .resolved q.strict q.visits m q.value)
    (hv : Plain E q.value) : ∃ g : Nat → Outcome, ms.filterMap (resolved rec q) = ms.map g ∧
      ∀ m ∈ ms, ((g m).failed = false ↔ H m q.value) := by
  refine ⟨fun m => (resolved rec q m).getD .ok, ?_, ?_⟩
  · induction ms with
    | nil => rfl
    | cons m ms ih =>
      obtain ⟨o, ho, _⟩ := hs m (by simp) q.isKey q.path hv
      rw [List.filterMap_cons, ih fun m hm => hs m (by simp [hm])]
      simp only [resolved, ho, List.map_cons, Option.getD_some]
  · intro m hm
    obtain ⟨o, ho, hi⟩ := hs m hm q.isKey q.path hv
    simp only [resolved, ho, Option.getD_some, hi]

theorem exactly_one {α : Type} (p : α → Bool) : ∀ xs : List α, (xs.filter p).length = 1 ↔
    ∃ (i : Nat) (x : α), xs[i]? = some x ∧ p x = true ∧ ∀ (j : Nat) y, xs[j]? = some y → p y = true → j = i
  | [] => by simp
  | x :: xs => by
    cases hp : p x with
    | true =>
      rw [List.filter_cons_of_pos hp]
      simp only [List.length_cons, Nat.add_eq_right, List.length_eq_zero_iff, List.filter_eq_nil_iff]
      constructor
      · intro h
        refine ⟨0, x, rfl, hp, ?_⟩
        intro j y hj hy
        cases j with
        | zero => rfl
        | succ j =>
          simp only [List.getElem?_cons_succ] at hj
          exact absurd hy (h y (List.mem_of_getElem? hj))
      · rintro ⟨i, y, _, _, h⟩ z hz hpz
        obtain ⟨j, hj⟩ := List.mem_iff_getElem?.1 hz
        have h0 := h 0 x rfl hp
        have h1 := h (j + 1) z (by simpa using hj) hpz
        omega
    | false =>
      rw [List.filter_cons_of_neg (by simp [hp]), exactly_one p xs]
      constructor
      · rintro ⟨i, y, hi, hy, h⟩
        refine ⟨i + 1, y, by simpa using hi, hy, ?_⟩
        intro j z hj hz
        cases j with
        | zero =>
          simp only [List.getElem?_cons_zero, Option.some.injEq] at hj
          subst hj
          rw [hp] at hz
          cases hz
        | succ j => rw [h j z (by simpa using hj) hz]
      · rintro ⟨i, y, hi, hy, h⟩
        cases i with
        | zero =>
          simp only [List.getElem?_cons_zero, Option.some.injEq] at hi
          subst hi
          rw [hp] at hy
          cases hy
        | succ i =>
          refine ⟨i, y, by simpa using hi, hy, ?_⟩
          intro j z hj hz
          have := h (j + 1) z (by simpa using hj) hz
          omega

theorem oneOfOutcome_iff (C : Ctx) {ms : List Nat} (hn : n.oneOf = some ms)
    (hs : Covers E H rec q.strict q.visits n q.value) (hv : Plain E q.value)
    (hno : n.not = none ∧ n.ifS = none) :
    (oneOfOutcome rec C q n ms).failed = false ↔ ∃ (i m : Nat), ms[i]? = some m ∧ H m q.value ∧
      ∀ (j m' : Nat), ms[j]? = some m' → H m' q.value → j = i := by
  obtain ⟨g, hg, hi⟩ := resolved_map (H := H) ms (fun m hm => hs (.oneOf hn hm)) hv
  have hadj : (adjacentPart rec C q n).failed = false := by
    rw [adjacentPart_failed]
    simp [notOutcome, ifOutcome, hno, Outcome.failed]
  simp only [oneOfOutcome, hg]
  rw [oneOfResult_failed C q.path n _ _ _ hadj (by cases ms <;> simp), List.filter_map, List.length_map,
    exactly_one]
  have hp : ∀ (i m : Nat), ms[i]? = some m →
      ((((fun o => !o.failed) ∘ g) m = true) ↔ H m q.value) := by
    intro i m hm
    simp only [Function.comp_apply, Bool.not_eq_true']
    exact hi m (List.mem_of_getElem? hm)
  constructor
  · rintro ⟨i, m, h1, h2, h3⟩
    exact ⟨i, m, h1, (hp i m h1).1 h2, fun j m' hj hm' => h3 j m' hj ((hp j m' hj).2 hm')⟩
  · rintro ⟨i, m, h1, h2, h3⟩
    exact ⟨i, m, h1, (hp i m h1).2 h2, fun j m' hj hm' => h3 j m' hj ((hp j m' hj).1 hm')⟩

theorem anyOfOutcome_iff (C : Ctx) {ms : List Nat} (hn : n.anyOf = some ms) (hne : ms ≠ [])
    (hs : Covers E H rec q.strict q.visits n q.value) (hv : Plain E q.value) :
    (anyOfOutcome rec C q n ms).failed = false ↔ (∃ m ∈ ms, H m q.value) ∧
      (∀ m, n.not = some m → ¬H m q.value) ∧ IfHolds H n q.value := by
  obtain ⟨g, hg, hi⟩ := resolved_map (H := H) ms (fun m hm => hs (.anyOf hn hm)) hv
  simp only [anyOfOutcome, hg]
  rw [anyOfResult_failed _ _ _ (by simpa using hne), adjacentPart_failed, notOutcome_iff C hs hv,
    ifOutcome_iff C hs hv]
  have : (∃ o ∈ ms.map g, o.failed = false) ↔ ∃ m ∈ ms, H m q.value := by
    constructor
    · rintro ⟨o, ho, hf⟩
      obtain ⟨m, hm, rfl⟩ := List.mem_map.1 ho
      exact ⟨m, hm, (hi m hm).1 hf⟩
    · rintro ⟨m, hm, h⟩
      exact ⟨g m, List.mem_map.2 ⟨m, hm, rfl⟩, (hi m hm).2 h⟩
  rw [this]

theorem allOfOutcome_iff (C : Ctx) (id : Nat) {ms : List Nat} (hn : n.allOf = some ms)
    (hs : Covers E H rec q.strict q.visits n q.value) (hv : Plain E q.value) :
    (allOfOutcome rec C q id n ms).failed = false ↔ (∀ m ∈ ms, H m q.value) ∧
      (∀ m, n.not = some m → ¬H m q.value) ∧ IfHolds H n q.value := by
  simp only [allOfOutcome, finish_failed, total_failed, List.any_cons, List.any_nil, part_failed,
    withDeprecated_failed, Bool.or_false, Bool.or_eq_false_iff, notOutcome_iff C hs hv,
    ifOutcome_iff C hs hv, List.any_map, List.any_eq_false]
  have : (∀ x ∈ ms, ¬(Part.failed ∘ fun m => (direct rec q m).part) x = true) ↔
      ∀ m ∈ ms, H m q.value := by
    constructor
    · intro h m hm
      have := h m hm
      simp only [Function.comp_apply, part_failed, Bool.not_eq_true] at this
      exact (direct_iff (hs (.allOf hn hm)) hv).1 this
    · intro h m hm
      simp only [Function.comp_apply, part_failed, Bool.not_eq_true]
      exact (direct_iff (hs (.allOf hn hm)) hv).2 (h m hm)
  rw [this]

/-- The applicators without `if`, which the validator only looks at beside another one. -/
structure Adjacent (H : Nat → Value → Prop) (n : Node) (v : Value) : Prop where
  allOf : ∀ ms m, n.allOf = some ms → m ∈ ms → H m v
  anyOf : ∀ ms, n.anyOf = some ms → ∃ m ∈ ms, H m v
  oneOf : ∀ ms, n.oneOf = some ms →
    ∃ (i m : Nat), ms[i]? = some m ∧ H m v ∧ ∀ (j m' : Nat), ms[j]? = some m' → H m' v → j = i
  not : ∀ m, n.not = some m → ¬H m v
  ifS : ¬NoApplicator n → IfHolds H n v

theorem applied_iff {v : Value} : Applied H n v ↔ Adjacent H n v ∧ IfHolds H n v := by
  constructor
  · rintro ⟨h1, h2, h3, h4, h5, h6⟩
    exact ⟨⟨h1, h2, h3, h4, fun _ => ⟨h5, h6⟩⟩, h5, h6⟩
  · rintro ⟨⟨h1, h2, h3, h4, _⟩, h5, h6⟩
    exact ⟨h1, h2, h3, h4, h5, h6⟩

theorem adjacent_iff {byRef strict : Bool} (C : Ctx) (id : Nat) (hsup : Supported byRef strict n)
    (hs : Covers E H rec q.strict q.visits n q.value) (hv : Plain E q.value) :
    (adjacent rec C q id n).failed = false ↔ Adjacent H n q.value := by
  simp only [adjacent, merge_failed, Bool.or_eq_false_iff, notOutcome_iff C hs hv]
  have h1 : (match n.oneOf with
      | some ms => oneOfOutcome rec C q n ms
      | none => Outcome.ok).failed = false ↔ ∀ ms, n.oneOf = some ms → ∃ (i m : Nat), ms[i]? = some m ∧
        H m q.value ∧ ∀ (j m' : Nat), ms[j]? = some m' → H m' q.value → j = i := by
    cases hn : n.oneOf with
    | none => simp [Outcome.failed]
    | some ms =>
      simp only [Option.some.injEq, forall_eq']
      exact oneOfOutcome_iff C hn hs hv (hsup.oneOf (by simp [hn]))
  have h2 : (match n.anyOf with
      | some ms => anyOfOutcome rec C q n ms
      | none => Outcome.ok).failed = false ↔ (∀ ms, n.anyOf = some ms → ∃ m ∈ ms, H m q.value) ∧
        (n.anyOf ≠ none → (∀ m, n.not = some m → ¬H m q.value) ∧ IfHolds H n q.value) := by
    cases hn : n.anyOf with
    | none => simp [Outcome.failed]
    | some ms =>
      have := anyOfOutcome_iff C hn (fun h => hsup.anyOf (h ▸ hn)) hs hv
      simp only [this, Option.some.injEq, forall_eq', ne_eq, reduceCtorEq, not_false_eq_true, true_implies]
  have h3 : (match n.allOf with
      | some ms => allOfOutcome rec C q id n ms
      | none => Outcome.ok).failed = false ↔ (∀ ms m, n.allOf = some ms → m ∈ ms → H m q.value) ∧
        (n.allOf ≠ none → (∀ m, n.not = some m → ¬H m q.value) ∧ IfHolds H n q.value) := by
    cases hn : n.allOf with
    | none => simp [Outcome.failed]
    | some ms =>
      have := allOfOutcome_iff C id hn hs hv
      simp only [this, Option.some.injEq, ne_eq, reduceCtorEq, not_false_eq_true, true_implies]
      constructor
      · rintro ⟨h, h'⟩
        exact ⟨fun ms' m hm => hm ▸ h m, h'⟩
      · rintro ⟨h, h'⟩
        exact ⟨fun m hm => h ms m rfl hm, h'⟩
  refine Iff.trans (and_congr (and_congr (and_congr (and_congr Iff.rfl h1) h2) h3) Iff.rfl) ?_
  constructor
  · rintro ⟨⟨⟨⟨_, ho⟩, ha, ha'⟩, hl, hl'⟩, hno⟩
    refine ⟨hl, ha, ho, hno, ?_⟩
    intro hc
    by_cases hon : n.oneOf = none
    · by_cases han : n.anyOf = none
      · exact (hl' fun hal => hc ⟨hon, han, hal⟩).2
      · exact (ha' han).2
    · have := (hsup.oneOf hon).2
      refine ⟨?_, ?_⟩ <;> intro i _ hi <;> rw [this] at hi <;> cases hi
  · rintro ⟨hl, ha, ho, hno, hif⟩
    exact ⟨⟨⟨⟨rfl, ho⟩, ha, fun h => ⟨hno, hif fun hc => h hc.2.1⟩⟩, hl,
      fun h => ⟨hno, hif fun hc => h hc.2.2⟩⟩, hno⟩

/-! ## Arrays -/

theorem itemPart_iff (C : Ctx) (hs : Covers E H rec q.strict q.visits n q.value) {xs : List Value}
    (hq : q.value = .arr xs) {x : Value} (hm : x ∈ xs) (hx : Plain E x) (i : Nat) : (itemPart rec C q n x i).failed = false ↔ ItemHolds H n x i := by
  simp only [itemPart, ItemHolds]
  cases hn : n.items with
  | absent => simp
  | all s => exact child_iff _ (hs (.element (.all hn) hq hm)) hx
  | tuple ps rest =>
    cases hp : ps[i]? with
    | some s =>
      have hlt : i < ps.length := (List.getElem?_eq_some_iff.1 hp).1
      have := child_iff (q := q) (.index i) (hs (.element (.pre hn (List.mem_of_getElem? hp)) hq hm)) hx
      simp only [hp, part_failed, this, Option.some.injEq, forall_eq']
      exact ⟨fun h => ⟨h, fun hle => by omega⟩, fun h => h.1⟩
    | none =>
      have hge : ps.length ≤ i := List.getElem?_eq_none_iff.1 hp
      simp only [hp, reduceCtorEq, false_implies, implies_true, hge, true_and, true_implies]
      cases rest with
      | absent => simp
      | allowed b => cases b <;> simp
      | schema s => exact child_iff _ (hs (.element (.rest hn) hq hm)) hx

theorem containsParts_iff (C : Ctx) (hs : Covers E H rec q.strict q.visits n q.value)
    {xs : List Value} (hq : q.value = .arr xs) (hx : ∀ x ∈ xs, Plain E x) :
    (containsParts rec C q n xs).any Part.failed = false ↔ ∀ s, n.contains = some s →
      ∃ c, Count (H s) xs c ∧ (match n.minContains with
        | some m => m ≤ c
        | none => 1 ≤ c) ∧ ∀ m, n.maxContains = some m → c ≤ m := by
  simp only [containsParts]
  cases hn : n.contains with
  | none => simp
  | some s =>
    simp only [Option.some.injEq, forall_eq']
    generalize hb : (xs.zipIdx.map fun (x, i) => !(child rec q (.index i) x s).failed) = bs
    have hlen : bs.length = xs.length := by rw [← hb]; simp
    have hcount : Count (H s) xs (bs.count true) := by
      apply count_of_bools xs bs hlen
      intro i x b hi hbi
      rw [← hb] at hbi
      simp only [List.getElem?_map, List.getElem?_zipIdx, hi, Option.map_some, Option.some.injEq] at hbi
      rw [← hbi]
      simp only [Bool.not_eq_true']
      exact child_iff _ (hs (.element (.contains hn) hq (List.mem_of_getElem? hi))) (hx x (List.mem_of_getElem? hi))
    have hex : ∀ P : Nat → Prop, (∃ c, Count (H s) xs c ∧ P c) ↔ P (bs.count true) := by
      intro P
      constructor
      · rintro ⟨c, hc, h⟩
        rw [count_unique hcount hc]
        exact h
      · exact fun h => ⟨_, hcount, h⟩
    rw [hex]
    have hmin : ∀ c, (match n.minContains with
        | some m => m ≤ c
        | none => 1 ≤ c) ↔ n.minContains.getD 1 ≤ c := by
      intro c
      cases n.minContains <;> rfl
    rw [hmin]
    simp only [List.any_cons, List.any_nil, Bool.or_false, Bool.or_eq_false_iff]
    cases hm : n.maxContains with
    | none =>
      simp only [Option.isSome_none, reduceCtorEq, false_implies, implies_true, and_true]
      have := containsCount_early (n.minContains.getD 1) bs 0
      split
      · rename_i hlt
        simp only [decide_eq_true_eq] at hlt
        rw [this] at hlt
        simp
        omega
      · rename_i hlt
        simp only [decide_eq_true_eq] at hlt
        rw [this] at hlt
        simp
        omega
    | some m =>
      simp only [Option.isSome_some, containsCount_full, Nat.zero_add, Option.some.injEq, forall_eq']
      split <;> split <;> simp_all <;> omega

theorem if_failed {b : Bool} (p : Part) (hp : p.failed = true) (p' : Part) (hp' : p'.failed = false) :
    (if b = true then p else p').failed = b := by
  cases b <;> simp [hp, hp']

theorem violates_iff {α : Type} {o : Option α} {f : α → Bool} {P : α → Prop}
    (h : ∀ m, o = some m → (f m = false ↔ P m)) :
    violates o f = false ↔ ∀ m, o = some m → P m := by
  cases o with
  | none => simp [violates]
  | some m => simp [violates, h m rfl]

/-- The array keywords, `if`, `const` and `enum`. -/
theorem arrayBase_iff (C : Ctx) (id : Nat) {xs : List Value} (hq : q.value = .arr xs)
    (hs : Covers E H rec q.strict q.visits n q.value) (hv : Plain E q.value) :
    (arrayBase rec C q id n xs).failed = false ↔ Listing H n xs ∧ IfHolds H n q.value ∧
      constViolated .arr n q.value = false ∧ enumViolated .arr n q.value = false := by
  have hxs : PlainList E xs := by rw [hq] at hv; simpa only [Plain] using hv
  have hmem : ∀ x ∈ xs, Plain E x := fun x hx => plainList_mem E xs x hxs hx
  have hitems : (xs.zipIdx.map fun (x, i) => itemPart rec C q n x i).any Part.failed = false ↔
      ∀ (i : Nat) x, xs[i]? = some x → ItemHolds H n x i := by
    rw [List.any_map, List.any_eq_false]
    constructor
    · intro h i x hi
      have := h (x, i) (List.mk_mem_zipIdx_iff_getElem?.2 hi)
      simp only [Function.comp_apply, Bool.not_eq_true] at this
      exact (itemPart_iff C hs hq (List.mem_of_getElem? hi) (hmem x (List.mem_of_getElem? hi)) i).1 this
    · rintro h ⟨x, i⟩ hi
      have hi' := List.mk_mem_zipIdx_iff_getElem?.1 hi
      simp only [Function.comp_apply, Bool.not_eq_true]
      exact (itemPart_iff C hs hq (List.mem_of_getElem? hi') (hmem x (List.mem_of_getElem? hi')) i).2 (h i x hi')
  have hmax : (violates n.maxItems fun m => decide (m < xs.length)) = false ↔
      ∀ m, n.maxItems = some m → xs.length ≤ m := violates_iff fun m _ => by simp
  have hmin : (violates n.minItems fun m => decide (xs.length < m)) = false ↔
      ∀ m, n.minItems = some m → m ≤ xs.length := violates_iff fun m _ => by simp
  have huni : (uniquePart C q.path n xs).failed = false ↔ (n.uniqueItems = true →
      ∀ (i j : Nat) x y, xs[i]? = some x → xs[j]? = some y → i ≠ j → ¬Same x y) := by
    rw [← duplicates_iff xs (plainList_uniq E xs hxs)]
    simp only [uniquePart]
    rw [if_failed _ rfl _ rfl]
    cases n.uniqueItems <;> simp
  simp only [arrayBase, finish_failed, withDeprecated_failed, total_failed, List.any_append,
    List.any_cons, List.any_nil, part_failed, check_failed, Bool.or_false, Bool.or_eq_false_iff,
    ifOutcome_iff C hs hv]
  rw [hitems, containsParts_iff C hs hq hmem, hmax, hmin, huni]
  constructor
  · rintro ⟨⟨⟨h1, h2⟩, h3⟩, h4, h5, h6, h7, h8⟩
    exact ⟨⟨h2, h3, h7, h6, h8⟩, h1, h4, h5⟩
  · rintro ⟨⟨h2, h3, h7, h6, h8⟩, h1, h4, h5⟩
    exact ⟨⟨⟨h1, h2⟩, h3⟩, h4, h5, h6, h7, h8⟩

end

end Tombi.Validate
