import Verif.Proofs.ValidateApply

/-!
# Tables, if the sub-schemas are answered correctly
-/

namespace Tombi.Validate
open Tombi.Spec.Validate

section
variable {E : Env} {H : Nat → Value → Prop} {rec : Rec} {q : Pos} {n : Node}

theorem mem_patternSchemas (k : Key) (s : Nat) : s ∈ patternSchemas E n k ↔
    ∃ ps r m, n.patternProperties = some ps ∧ (r, s) ∈ ps ∧ E.regex r = some m ∧ m k = true := by
  simp only [patternSchemas, List.mem_filterMap, Prod.exists]
  constructor
  · rintro ⟨r, s', hm, h⟩
    cases hp : n.patternProperties with
    | none => rw [hp] at hm; cases hm
    | some ps =>
      rw [hp] at hm
      cases hr : E.regex r with
      | none => rw [hr] at h; cases h
      | some m =>
        rw [hr] at h
        simp only at h
        split at h
        · rename_i hk
          cases h
          exact ⟨ps, r, m, rfl, hm, hr, hk⟩
        · cases h
  · rintro ⟨ps, r, m, hp, hm, hr, hk⟩
    refine ⟨r, s, by rw [hp]; exact hm, ?_⟩
    simp [hr, hk]

/-- The schemas of `properties` and `patternProperties` for the key. -/
def declaredSchemas (E : Env) (n : Node) (k : Key) : List Nat :=
  (match n.properties.lookup k with
    | some s => [s]
    | none => []) ++ patternSchemas E n k

theorem mem_declaredSchemas (k : Key) (s : Nat) : s ∈ declaredSchemas E n k ↔
    n.properties.lookup k = some s ∨ s ∈ patternSchemas E n k := by
  simp only [declaredSchemas, List.mem_append]
  cases n.properties.lookup k with
  | none => simp
  | some s' => simp [eq_comm]

theorem declared_iff (k : Key) : Declared E n k ↔ declaredSchemas E n k ≠ [] := by
  rw [List.ne_nil_iff_exists_cons]
  constructor
  · intro h
    have : ∃ s, s ∈ declaredSchemas E n k := by
      rcases h with ⟨s, h⟩ | ⟨ps, r, s, m, h1, h2, h3, h4⟩
      · exact ⟨s, (mem_declaredSchemas k s).2 (.inl h)⟩
      · exact ⟨s, (mem_declaredSchemas k s).2 (.inr ((mem_patternSchemas k s).2 ⟨ps, r, m, h1, h2, h3, h4⟩))⟩
    obtain ⟨s, hs⟩ := this
    cases hd : declaredSchemas E n k with
    | nil => rw [hd] at hs; cases hs
    | cons a as => exact ⟨a, as, rfl⟩
  · rintro ⟨s, ss, h⟩
    have hs : s ∈ declaredSchemas E n k := by rw [h]; simp
    rcases (mem_declaredSchemas k s).1 hs with h | h
    · exact .inl ⟨s, h⟩
    · obtain ⟨ps, r, m, h1, h2, h3, h4⟩ := (mem_patternSchemas k s).1 h
      exact .inr ⟨ps, r, s, m, h1, h2, h3, h4⟩

theorem sub_of_declared {k : Key} {s : Nat} (h : s ∈ declaredSchemas E n k) : Sub n s := by
  rcases (mem_declaredSchemas k s).1 h with h | h
  · exact .prop (lookup_mem k s n.properties h)
  · obtain ⟨ps, r, m, h1, h2, _⟩ := (mem_patternSchemas k s).1 h
    exact .pattern h1 h2

/-- What `additionalProperties` says about one undeclared entry. -/
def AdditionalHolds (H : Nat → Value → Prop) (n : Node) (v : Value) : Prop :=
  match n.additional with
  | .absent => True
  | .allowed b => b = true
  | .schema s => H s v

theorem entryParts_iff (C : Ctx) (id : Nat) {byRef : Bool} (hsup : Supported byRef q.strict n)
    (hs : Covers E H rec q.strict q.visits n q.value) {kvs : List (Key × Value)} (hq : q.value = .tbl kvs)
    {kv : Key × Value} (hm : kv ∈ kvs) (hv : Plain E kv.2) :
    (entryParts rec E C q id n kv).any Part.failed = false ↔
      (∀ s ∈ declaredSchemas E n kv.1, H s kv.2) ∧
      (declaredSchemas E n kv.1 = [] → AdditionalHolds H n kv.2) := by
  have hdecl : ((declaredSchemas E n kv.1).map fun s => (child rec q (.key kv.1) kv.2 s).part).any
      Part.failed = false ↔ ∀ s ∈ declaredSchemas E n kv.1, H s kv.2 := by
    rw [List.any_map, List.any_eq_false]
    constructor
    · intro h s hsd
      have := h s hsd
      simp only [Function.comp_apply, part_failed, Bool.not_eq_true] at this
      exact (child_iff _ (hs (.entry (sub_of_declared hsd) hq hm)) hv).1 this
    · intro h s hsd
      simp only [Function.comp_apply, part_failed, Bool.not_eq_true]
      exact (child_iff _ (hs (.entry (sub_of_declared hsd) hq hm)) hv).2 (h s hsd)
  have hunfold : entryParts rec E C q id n kv =
      ((declaredSchemas E n kv.1).map fun s => (child rec q (.key kv.1) kv.2 s).part) ++
      (if n.patternProperties.isSome then [check C q.path .keyPattern
        (!(!(declaredSchemas E n kv.1).isEmpty) && !allowsAdditional n q.strict)] else []) ++
      (if !(declaredSchemas E n kv.1).isEmpty then [] else
        additionalParts rec E C q id n kv.1 kv.2) := rfl
  rw [hunfold, List.any_append, List.any_append, Bool.or_eq_false_iff, Bool.or_eq_false_iff, hdecl]
  by_cases hd : declaredSchemas E n kv.1 = []
  · simp only [hd, List.isEmpty_nil, Bool.not_true, Bool.not_false, Bool.true_and, Bool.false_eq_true,
      if_false, true_implies]
    have hstrict := hsup.strict
    simp only [additionalParts, AdditionalHolds, List.any_append, Bool.or_eq_false_iff]
    cases hn : n.additional with
    | absent =>
      simp only [hn] at hstrict
      cases hpp : n.patternProperties with
      | none =>
        cases hst : q.strict <;> simp [Additional.forbidden, Additional.missing, allowsAny, allowsAdditional, hn] <;> split <;> simp
      | some ps =>
        have hst : q.strict = false := by
          cases h : q.strict with
          | false => rfl
          | true => exact absurd rfl (hstrict h (by simp [hpp]))
        simp only [hst]
        simp [Additional.forbidden, Additional.missing, allowsAny, allowsAdditional, hn, hpp, check_failed]
    | allowed b =>
      cases b with
      | true => cases hpp : n.patternProperties <;> simp [Additional.forbidden, Additional.missing, allowsAny, allowsAdditional, hn, check_failed] <;>
          split <;> simp
      | false => cases hpp : n.patternProperties <;> simp [Additional.forbidden, Additional.missing, allowsAny, allowsAdditional, hn, hpp, check_failed]
    | schema s =>
      have hc := child_iff (q := q) (.key kv.1) (hs (.entry (.additional hn) hq hm)) hv
      simp only [← hc]
      cases hpp : n.patternProperties <;> simp [Additional.forbidden, Additional.missing, allowsAny, allowsAdditional, hn, part_failed, check_failed] <;>
        intro _ <;> split <;> simp
  · have he : (declaredSchemas E n kv.1).isEmpty = false := by
      cases h : declaredSchemas E n kv.1 with
      | nil => exact absurd h hd
      | cons => rfl
    simp only [he, Bool.not_false, Bool.not_true, Bool.false_and, if_true, hd, false_implies, and_true]
    cases n.patternProperties <;> simp [check_failed]

theorem hasKey_iff (kvs : List (Key × Value)) (k : Key) : hasKey kvs k = true ↔ k ∈ kvs.map Prod.fst := by
  simp only [hasKey, List.contains_iff_mem]

theorem keysParts_iff (C : Ctx) (p : Path) (kvs : List (Key × Value)) :
    (keysParts C p n kvs).any Part.failed = false ↔
      (∀ k, k ∈ n.required → k ∈ kvs.map Prod.fst) ∧
      (∀ m, n.maxProperties = some m → kvs.length ≤ m) ∧
      (∀ m, n.minProperties = some m → m ≤ kvs.length) ∧
      (∀ k rs r, (k, rs) ∈ n.dependentRequired → k ∈ kvs.map Prod.fst → r ∈ rs →
        r ∈ kvs.map Prod.fst) := by
  have hmax : (violates n.maxProperties fun m => decide (m < kvs.length)) = false ↔
      ∀ m, n.maxProperties = some m → kvs.length ≤ m := violates_iff fun m _ => by simp
  have hmin : (violates n.minProperties fun m => decide (kvs.length < m)) = false ↔
      ∀ m, n.minProperties = some m → m ≤ kvs.length := violates_iff fun m _ => by simp
  have hreq : (n.required.map fun k => check C p .keyRequired (!hasKey kvs k)).any Part.failed = false ↔
      ∀ k, k ∈ n.required → k ∈ kvs.map Prod.fst := by
    rw [List.any_map, List.any_eq_false]
    apply forall_congr'
    intro k
    apply imp_congr Iff.rfl
    simp only [Function.comp_apply, check_failed, Bool.not_eq_true', Bool.not_eq_false, hasKey_iff]
  have hdep : (n.dependentRequired.flatMap fun (k, rs) =>
      if hasKey kvs k then
        rs.map fun r => if hasKey kvs r then (⟨false, []⟩ : Part) else ⟨true, push C p .dependentRequired⟩
      else []).any Part.failed = false ↔
      ∀ k rs r, (k, rs) ∈ n.dependentRequired → k ∈ kvs.map Prod.fst → r ∈ rs →
        r ∈ kvs.map Prod.fst := by
    rw [List.any_eq_false]
    constructor
    · intro h k rs r hm hk hr
      rw [← hasKey_iff] at hk ⊢
      cases hkr : hasKey kvs r with
      | true => rfl
      | false =>
        exfalso
        apply h ⟨true, push C p .dependentRequired⟩ _ rfl
        rw [List.mem_flatMap]
        refine ⟨(k, rs), hm, ?_⟩
        simp only [hk, if_true, List.mem_map]
        exact ⟨r, hr, by simp [hkr]⟩
    · intro h x hx
      rw [List.mem_flatMap] at hx
      obtain ⟨⟨k, rs⟩, hm, hx⟩ := hx
      simp only at hx
      split at hx
      · rename_i hk
        obtain ⟨r, hr, rfl⟩ := List.mem_map.1 hx
        have := (hasKey_iff kvs r).2 (h k rs r hm ((hasKey_iff kvs k).1 hk) hr)
        simp [this]
      · cases hx
  simp only [keysParts, List.any_append, List.any_cons, List.any_nil, check_failed, Bool.or_false,
    Bool.or_eq_false_iff]
  rw [hreq, hmax, hmin]
  refine Iff.trans (and_congr Iff.rfl hdep) ?_
  constructor
  · rintro ⟨⟨h1, h2, h3⟩, h4⟩
    exact ⟨h1, h2, h3, h4⟩
  · rintro ⟨h1, h2, h3, h4⟩
    exact ⟨⟨h1, h2, h3⟩, h4⟩

theorem dependentParts_iff {kvs : List (Key × Value)} (hq : q.value = .tbl kvs)
    (hs : Covers E H rec false q.visits n q.value) (hv : Plain E q.value) :
    (dependentParts rec q n kvs).any Part.failed = false ↔
      ∀ k s, (k, s) ∈ n.dependentSchemas → k ∈ kvs.map Prod.fst → H s (.tbl kvs) := by
  simp only [dependentParts]
  rw [List.any_map, List.any_eq_false]
  constructor
  · intro h k s hm hk
    have := h (k, s) hm
    simp only [Function.comp_apply, (hasKey_iff kvs k).2 hk, if_true, part_failed, Bool.not_eq_true] at this
    obtain ⟨o, ho, hi⟩ := hs (.dependent hm) false q.path hv
    rw [ho, Option.getD_some] at this
    rw [← hq]
    exact hi.1 this
  · rintro h ⟨k, s⟩ hm
    simp only [Function.comp_apply]
    split
    · rename_i hk
      have := h k s hm ((hasKey_iff kvs k).1 hk)
      obtain ⟨o, ho, hi⟩ := hs (.dependent hm) false q.path hv
      rw [ho, Option.getD_some, part_failed, Bool.not_eq_true]
      rw [← hq] at this
      exact hi.2 this
    · simp

theorem keyParts_iff (C : Ctx) (p : Path) (keyCall : Key → Nat → Outcome) (kvs : List (Key × Value))
    (hk : ∀ k s, k ∈ kvs.map Prod.fst → n.propertyNames = some s →
      ((keyCall k s).failed = false ↔ H s (.str k))) :
    (keyParts keyCall C p n kvs).any Part.failed = false ↔
      ∀ k s, k ∈ kvs.map Prod.fst → n.propertyNames = some s → H s (.str k) := by
  simp only [keyParts]
  rw [List.any_map, List.any_eq_false]
  cases hn : n.propertyNames with
  | none => simp [keyEmpty_failed, part_failed]
  | some s =>
    simp only [Option.some.injEq]
    constructor
    · intro h k s' hkm hs'
      subst hs'
      obtain ⟨⟨k', v⟩, hm, rfl⟩ := List.mem_map.1 hkm
      have := h (k', v) hm
      simp only [Function.comp_apply, part_failed, Bool.not_eq_true] at this
      exact (hk k' s hkm hn).1 this
    · rintro h ⟨k, v⟩ hm
      have hkm : k ∈ kvs.map Prod.fst := List.mem_map.2 ⟨_, hm, rfl⟩
      simp only [Function.comp_apply, part_failed, Bool.not_eq_true]
      exact (hk k s hkm hn).2 (h k s hkm rfl)

/-- The table keywords, `if`, `const` and `enum`. -/
theorem tableBase_iff (C : Ctx) (id : Nat) {byRef : Bool} (hsup : Supported byRef q.strict n)
    (keyCall : Key → Nat → Outcome) {kvs : List (Key × Value)} (hq : q.value = .tbl kvs)
    (hs : Covers E H rec q.strict q.visits n q.value)
    (hs' : Covers E H rec false q.visits n q.value) (hv : Plain E q.value)
    (hk : ∀ k s, k ∈ kvs.map Prod.fst → n.propertyNames = some s →
      ((keyCall k s).failed = false ↔ H s (.str k))) :
    (tableBase rec keyCall E C q id n kvs).failed = false ↔ Mapping E H n kvs ∧ IfHolds H n q.value ∧
      constViolated .tbl n q.value = false ∧ enumViolated .tbl n q.value = false := by
  have hkvs : PlainEntries E kvs := by
    rw [hq] at hv
    simp only [Plain] at hv
    exact hv.2.2
  have hent : (kvs.flatMap (entryParts rec E C q id n)).any Part.failed = false ↔
      ∀ k v, (k, v) ∈ kvs → (∀ s ∈ declaredSchemas E n k, H s v) ∧
        (declaredSchemas E n k = [] → AdditionalHolds H n v) := by
    rw [List.any_flatMap, List.any_eq_false]
    constructor
    · intro h k v hm
      have := h (k, v) hm
      rw [Bool.not_eq_true] at this
      exact (entryParts_iff C id hsup hs hq hm (plainEntries_mem E kvs k v hkvs hm)).1 this
    · rintro h ⟨k, v⟩ hm
      rw [Bool.not_eq_true]
      exact (entryParts_iff C id hsup hs hq hm (plainEntries_mem E kvs k v hkvs hm)).2 (h k v hm)
  simp only [tableBase, finish_failed, withDeprecated_failed, total_failed, List.any_append,
    List.any_cons, List.any_nil, part_failed, check_failed, Bool.or_false, Bool.or_eq_false_iff,
    ifOutcome_iff C hs hv]
  rw [hent, keysParts_iff, dependentParts_iff hq hs' hv, keyParts_iff C q.path keyCall kvs hk]
  constructor
  · rintro ⟨⟨⟨⟨⟨h1, h2, h3, h4, h5⟩, h6⟩, h7, h8⟩, h9⟩, h10⟩
    refine ⟨⟨?_, ?_, ?_, h2, h4, h3, h9, h5, h6⟩, h10, h7, h8⟩
    · intro k v s hm hl
      exact (h1 k v hm).1 s ((mem_declaredSchemas k s).2 (.inl hl))
    · intro k v ps r s m hm hp hr he hmk
      exact (h1 k v hm).1 s ((mem_declaredSchemas k s).2 (.inr ((mem_patternSchemas k s).2
        ⟨ps, r, m, hp, hr, he, hmk⟩)))
    · intro k v hm hd
      have : declaredSchemas E n k = [] := by
        by_cases h : declaredSchemas E n k = []
        · exact h
        · exact absurd ((declared_iff k).2 h) hd
      exact (h1 k v hm).2 this
  · rintro ⟨⟨h1, h1', h1'', h2, h4, h3, h9, h5, h6⟩, h10, h7, h8⟩
    refine ⟨⟨⟨⟨⟨?_, h2, h3, h4, h5⟩, h6⟩, h7, h8⟩, h9⟩, h10⟩
    intro k v hm
    refine ⟨?_, ?_⟩
    · intro s hsd
      rcases (mem_declaredSchemas k s).1 hsd with h | h
      · exact h1 k v s hm h
      · obtain ⟨ps, r, m, hp, hr, he, hmk⟩ := (mem_patternSchemas k s).1 h
        exact h1' k v ps r s m hm hp hr he hmk
    · intro hd
      exact h1'' k v hm (fun h => (declared_iff k).1 h hd)

end

end Tombi.Validate
