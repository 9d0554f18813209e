import Verif.Proofs.ValidateShown

/-!
# Without a failed assertion there are only lints
-/

namespace Tombi.Validate
open Tombi.Spec.Validate

/-- Only lints. -/
def Silent (ds : List Diag) : Prop := ∀ d ∈ ds, Advisory d.rule

theorem silent_nil : Silent [] := fun _ h => by cases h

theorem silent_append {a b : List Diag} (ha : Silent a) (hb : Silent b) : Silent (a ++ b) := by
  intro d hd
  rcases List.mem_append.1 hd with h | h
  · exact ha d h
  · exact hb d h

/-- An outcome that did not fail only has lints. -/
def Clean (o : Outcome) : Prop := o.failed = false → Silent o.diags

/-- A part that did not fail only has lints. -/
def CleanPart (t : Part) : Prop := t.failed = false → Silent t.diags

/-- Diagnostics about comment directives are lints. -/
def LintOnly (C : Ctx) : Prop := ∀ p, Silent (C.lint p)

theorem clean_ok : Clean .ok := fun _ => silent_nil

theorem clean_part {o : Outcome} (h : Clean o) : CleanPart o.part := h

theorem clean_empty {b : Bool} : CleanPart ⟨b, []⟩ := fun _ => silent_nil

theorem push_silent {C : Ctx} {p : Path} {r : Rule} (hr : Advisory r) : Silent (push C p r) := by
  simp only [push]
  split
  · exact silent_nil
  · intro d hd
    rw [List.mem_singleton] at hd
    subst hd
    exact hr

theorem unusedNoqa_silent {C : Ctx} {p : Path} {r : Rule} : Silent (unusedNoqa C p r) := by
  simp only [unusedNoqa]
  split
  · intro d hd
    rw [List.mem_singleton] at hd
    subst hd
    simp [Advisory]
  · exact silent_nil

theorem deprecatedDiags_silent {C : Ctx} {p : Path} {n : Node} : Silent (deprecatedDiags C p n) := by
  simp only [deprecatedDiags]
  split
  · exact push_silent (by simp [Advisory])
  · exact unusedNoqa_silent

theorem clean_merge {C : Ctx} {a b : Outcome} (ha : Clean a) (hb : Clean b) : Clean (merge C a b) := by
  cases a with
  | ok => cases b with
    | ok => exact clean_ok
    | err f e ds => exact hb
  | err f e ds =>
    cases b with
    | ok => exact ha
    | err f' e' ds' =>
      intro h
      simp only [merge, Outcome.failed, Bool.or_eq_false_iff] at h
      exact silent_append (ha h.1) (hb h.2)

theorem clean_total {ps : List Part} (h : ∀ p ∈ ps, CleanPart p) : CleanPart (total ps) := by
  intro hf
  simp only [total, List.any_eq_false] at hf
  intro d hd
  obtain ⟨p, hp, hdp⟩ := List.mem_flatMap.1 hd
  exact h p hp (by simpa using hf p hp) d hdp

theorem clean_finish {ev : Nat} {t : Part} (h : CleanPart t) : Clean (finish ev t) := by
  simp only [finish]
  split
  · exact clean_ok
  · exact h

theorem clean_withDeprecated {C : Ctx} {p : Path} {n : Node} {t : Part} (h : CleanPart t) :
    CleanPart (withDeprecated C p n t) := by
  simp only [withDeprecated]
  split
  · exact fun _ => deprecatedDiags_silent
  · exact h

theorem clean_withLint {C : Ctx} (hL : LintOnly C) {p : Path} {o : Outcome} (h : Clean o) :
    Clean (withLint C p o) := by
  cases o with
  | ok =>
    simp only [withLint]
    split
    · exact clean_ok
    · exact fun _ => hL p
  | err f e ds => exact fun hf => silent_append (hL p) (h hf)

theorem clean_check {C : Ctx} {p : Path} {r : Rule} {b : Bool} : CleanPart (check C p r b) := by
  cases b with
  | true => intro h; cases h
  | false => exact fun _ => unusedNoqa_silent

theorem clean_keyEmpty {C : Ctx} {p : Path} {s : Key} : Clean (keyEmpty C p s) := by
  simp only [keyEmpty]
  split
  · exact fun _ => push_silent (by simp [Advisory])
  · exact clean_ok

theorem clean_failed {e : Nat} {ds : List Diag} : Clean (.err true e ds) := fun h => by cases h

theorem clean_mergeIf {C : Ctx} {b i : Outcome} (hb : Clean b) (hi : Clean i) : Clean (mergeIf C b i) := by
  match i with
  | .ok => exact clean_merge clean_ok hb
  | .err false e ds => exact clean_merge hi hb
  | .err true _ _ => exact hb

theorem clean_filterStrict {o : Outcome} (h : Clean o) : Clean (filterStrict o) := by
  cases o with
  | ok => exact clean_ok
  | err f e ds =>
    simp only [filterStrict]
    split
    · exact clean_ok
    · exact fun hf d hd => h hf d (List.mem_filter.1 hd).1

theorem clean_oneOfResult {C : Ctx} {p : Path} {n : Node} {adj : Part} {b : Bool}
    {rs : List Outcome} (hadj : Silent adj.diags) (hne : b = false → rs ≠ []) (h : ∀ o ∈ rs, Clean o) :
    Clean (oneOfResult C p n adj b rs) := by
  simp only [oneOfResult]
  split
  · exact clean_failed
  · rename_i hb
    have hne' := hne (by simpa using hb)
    generalize hv : (rs.filter fun o => !o.failed) = valid
    match valid with
    | [] =>
      have hall : ∀ o ∈ rs, o.failed = true := by
        intro o ho
        have := List.filter_eq_nil_iff.1 hv o ho
        simpa using this
      obtain ⟨e', ds', he⟩ := foldl_combine_new rs hall hne'
      simp only [he]
      exact clean_failed
    | [.ok] =>
      simp only
      split
      · exact clean_ok
      · exact fun _ => hadj
    | [.err f e ds] =>
      have hm : Outcome.err f e ds ∈ rs.filter fun o => !o.failed := by rw [hv]; simp
      intro hf
      exact silent_append hadj (h _ (List.mem_filter.1 hm).1 hf)
    | _ :: _ :: _ =>
      simp only
      exact clean_failed

theorem clean_anyOfResult {adj : Part} {dep : List Diag} {rs : List Outcome} (hadj : CleanPart adj)
    (hdep : Silent dep) (hne : rs ≠ []) (h : ∀ o ∈ rs, Clean o) : Clean (anyOfResult adj dep rs) := by
  simp only [anyOfResult]
  split
  · split
    · exact clean_ok
    · intro hf
      refine silent_append (silent_append ?_ hdep) (hadj hf)
      intro d hd
      obtain ⟨o, ho, hdo⟩ := List.mem_flatMap.1 hd
      have := List.mem_filter.1 ho
      exact h o this.1 (by simpa using this.2) d hdo
  · rename_i hm
    have hall : ∀ o ∈ rs, o.failed = true := by
      intro o ho
      cases hf : o.failed with
      | true => rfl
      | false =>
        exfalso
        apply hm
        have : o ∈ rs.filter fun o => !o.failed := List.mem_filter.2 ⟨ho, by simp [hf]⟩
        cases hr : rs.filter fun o => !o.failed with
        | nil => rw [hr] at this; cases this
        | cons => rfl
    have hfil : (rs.filter fun o => o.failed) = rs := List.filter_eq_self.2 hall
    obtain ⟨e', ds', he⟩ := foldl_combine_new rs hall hne
    rw [hfil]
    simp only [he]
    exact clean_failed

/-- Every answer of the recursive call for a schema is clean. -/
def Calm (E : Env) (rec : Rec) (route : Route) (strict : Bool) (visits : List Nat) (s : Nat) (v : Value) : Prop :=
  ∀ isKey path o, Plain E v → rec route strict visits isKey path v s = some o → Clean o

/-- All recursive calls for an object have clean answers. -/
def Calms (E : Env) (rec : Rec) (strict : Bool) (visits : List Nat) (n : Node) (v : Value) : Prop :=
  ∀ {route s w}, Uses n v route s w → Calm E rec route strict visits s w

section
variable {E : Env} {H : Nat → Value → Prop} {rec : Rec} {C : Ctx} {q : Pos} {n : Node}
variable (hL : LintOnly C) (hs : Covers E H rec q.strict q.visits n q.value)
  (hc : Calms E rec q.strict q.visits n q.value)
  (hc' : Calms E rec false q.visits n q.value) (hv : Plain E q.value)

theorem clean_getD {route : Route} {strict : Bool} {visits : List Nat} {isKey : Bool} {path : Path}
    {v : Value} {id : Nat} (h : Calm E rec route strict visits id v) (hv : Plain E v) :
    Clean ((rec route strict visits isKey path v id).getD .ok) := by
  cases hr : rec route strict visits isKey path v id with
  | none => exact clean_ok
  | some o => exact h _ _ _ hv hr

theorem clean_direct {id : Nat} (h : Calm E rec .direct q.strict q.visits id q.value) (hv : Plain E q.value) :
    Clean (direct rec q id) := clean_getD h hv

theorem clean_child {s : Step} {v : Value} {id : Nat} (h : Calm E rec .direct q.strict q.visits id v) (hv : Plain E v) :
    Clean (child rec q s v id) := clean_getD h hv

theorem clean_notOutcome : Clean (notOutcome rec C q n) := by
  simp only [notOutcome]
  split
  · exact clean_ok
  · split
    · split
      · intro _ d hd
        simp only [Outcome.diags, List.mem_singleton] at hd
        subst hd
        simp [Advisory]
      · exact clean_ok
    · exact clean_failed

include hc hv in
theorem clean_ifOutcome : Clean (ifOutcome rec C q n) := by
  simp only [ifOutcome]
  split
  · exact clean_ok
  · rename_i i hi
    split
    · split
      · rename_i e he
        exact clean_direct (hc (.elseS he)) hv
      · exact clean_ok
    · split
      · rename_i t ht
        exact clean_mergeIf (clean_direct (hc (.thenS ht)) hv) (clean_direct (hc (.ifS hi)) hv)
      · exact clean_mergeIf clean_ok (clean_direct (hc (.ifS hi)) hv)

include hc hv in
theorem clean_adjacentPart : CleanPart (adjacentPart rec C q n) := by
  apply clean_total
  intro p hp
  simp only [List.mem_cons, List.not_mem_nil, or_false] at hp
  rcases hp with rfl | rfl
  · exact clean_part clean_notOutcome
  · exact clean_part (clean_ifOutcome hc hv)

include hv in
theorem clean_results (ms : List Nat) (hcm : ∀ m ∈ ms, Calm E rec .resolved q.strict q.visits m q.value) :
    ∀ o ∈ ms.filterMap (resolved rec q), Clean o := by
  intro o ho
  obtain ⟨m, hm, hr⟩ := List.mem_filterMap.1 ho
  exact hcm m hm _ _ _ hv hr

include hv in
theorem results_ne (ms : List Nat) (hne : ms ≠ []) (hsm : ∀ m ∈ ms, Answers E H rec .resolved q.strict q.visits m q.value) :
    ms.filterMap (resolved rec q) ≠ [] := by
  obtain ⟨g, hg, _⟩ := resolved_map (H := H) ms hsm hv
  rw [hg]
  simpa using hne

include hs hc hv in
theorem clean_oneOfOutcome {ms : List Nat} (hn : n.oneOf = some ms) (hno : n.not = none ∧ n.ifS = none) :
    Clean (oneOfOutcome rec C q n ms) := by
  apply clean_oneOfResult
  · simp only [adjacentPart, total, notOutcome, ifOutcome, hno.1, hno.2]
    exact silent_nil
  · intro hb
    exact results_ne hv ms (by cases ms <;> simp_all) (fun m hm => hs (.oneOf hn hm))
  · exact clean_results hv ms (fun m hm => hc (.oneOf hn hm))

include hs hc hv in
theorem clean_anyOfOutcome {ms : List Nat} (hn : n.anyOf = some ms) (hne : ms ≠ []) :
    Clean (anyOfOutcome rec C q n ms) :=
  clean_anyOfResult (clean_adjacentPart hc hv) deprecatedDiags_silent
    (results_ne hv ms hne (fun m hm => hs (.anyOf hn hm))) (clean_results hv ms (fun m hm => hc (.anyOf hn hm)))

include hc hv in
theorem clean_allOfOutcome (id : Nat) {ms : List Nat} (hn : n.allOf = some ms) :
    Clean (allOfOutcome rec C q id n ms) := by
  apply clean_finish
  apply clean_total
  intro p hp
  simp only [List.mem_cons, List.not_mem_nil, or_false] at hp
  rcases hp with rfl | rfl | rfl
  · apply clean_withDeprecated
    apply clean_total
    intro p hp
    obtain ⟨m, hm, rfl⟩ := List.mem_map.1 hp
    exact clean_part (clean_direct (hc (.allOf hn hm)) hv)
  · exact clean_part clean_notOutcome
  · exact clean_part (clean_ifOutcome hc hv)

include hs hc hv in
theorem clean_adjacent {byRef strict : Bool} (hsup : Supported byRef strict n) (id : Nat) :
    Clean (adjacent rec C q id n) := by
  simp only [adjacent]
  refine clean_merge (clean_merge (clean_merge (clean_merge clean_ok ?_) ?_) ?_) clean_notOutcome
  · cases hn : n.oneOf with
    | none => exact clean_ok
    | some ms => exact clean_oneOfOutcome hs hc hv hn (hsup.oneOf (by simp [hn]))
  · cases hn : n.anyOf with
    | none => exact clean_ok
    | some ms => exact clean_anyOfOutcome hs hc hv hn (fun h => hsup.anyOf (h ▸ hn))
  · cases hn : n.allOf with
    | none => exact clean_ok
    | some ms => exact clean_allOfOutcome hc hv id hn

include hc in
theorem clean_itemPart {xs : List Value} (hq : q.value = .arr xs) {x : Value} (hm : x ∈ xs) (hx : Plain E x) (i : Nat) : CleanPart (itemPart rec C q n x i) := by
  simp only [itemPart]
  split
  · exact clean_empty
  · rename_i s hn
    exact clean_part (clean_child (hc (.element (.all hn) hq hm)) hx)
  · rename_i ps rest hn
    split
    · rename_i s hp
      exact clean_part (clean_child (hc (.element (.pre hn (List.mem_of_getElem? hp)) hq hm)) hx)
    · split
      · rename_i s
        exact clean_part (clean_child (hc (.element (.rest hn) hq hm)) hx)
      · intro h; cases h
      · exact clean_empty

theorem clean_if {b : Bool} {t t' : Part} (h : CleanPart t) (h' : CleanPart t') :
    CleanPart (if b = true then t else t') := by
  cases b <;> assumption

theorem clean_containsParts (xs : List Value) : ∀ p ∈ containsParts rec C q n xs, CleanPart p := by
  simp only [containsParts]
  split
  · intro p hp; cases hp
  · intro p hp
    simp only [List.mem_cons, List.not_mem_nil, or_false] at hp
    rcases hp with rfl | rfl
    · exact clean_if (fun h => by cases h) clean_empty
    · split
      · exact clean_if (fun h => by cases h) clean_empty
      · exact clean_empty

theorem clean_uniquePart (p : Path) (xs : List Value) : CleanPart (uniquePart C p n xs) :=
  clean_if (fun h => by cases h) fun _ => unusedNoqa_silent

include hc hv in
theorem clean_arrayBase (id : Nat) {xs : List Value} (hq : q.value = .arr xs) :
    Clean (arrayBase rec C q id n xs) := by
  have hxs : PlainList E xs := by rw [hq] at hv; simpa only [Plain] using hv
  apply clean_finish
  apply clean_withDeprecated
  apply clean_total
  intro p hp
  simp only [List.mem_append, List.mem_cons, List.not_mem_nil, or_false, List.mem_map] at hp
  rcases hp with ((rfl | ⟨⟨x, i⟩, hx, rfl⟩) | hp) | rfl | rfl | rfl | rfl | rfl
  · exact clean_part (clean_ifOutcome hc hv)
  · have hm := List.mem_of_getElem? (List.mk_mem_zipIdx_iff_getElem?.1 hx)
    exact clean_itemPart hc hq hm (plainList_mem E xs x hxs hm) i
  · exact clean_containsParts xs p hp
  · exact clean_check
  · exact clean_check
  · exact clean_check
  · exact clean_check
  · exact clean_uniquePart _ _

include hc in
theorem clean_additionalParts (id : Nat) {kvs : List (Key × Value)} (hq : q.value = .tbl kvs) {k : Key} {v : Value}
    (hm : (k, v) ∈ kvs) (hv : Plain E v) :
    ∀ p ∈ additionalParts rec E C q id n k v, CleanPart p := by
  intro p hp
  simp only [additionalParts, List.mem_append] at hp
  rcases hp with hp | hp
  · split at hp
    · rename_i s hn
      simp only [List.mem_cons, List.not_mem_nil, or_false] at hp
      rcases hp with rfl | rfl
      · intro _
        simp only [schemaDeprecated]
        split
        · exact deprecatedDiags_silent
        · exact silent_nil
      · exact clean_part (clean_child (hc (.entry (.additional hn) hq hm)) hv)
    · cases hp
  · split at hp
    · cases hp
    · split at hp
      · rw [List.mem_singleton] at hp
        subst hp
        intro _ d hd
        rw [List.mem_singleton] at hd
        subst hd
        simp [Advisory]
      · split at hp
        · rw [List.mem_singleton] at hp
          subst hp
          intro h; cases h
        · rw [List.mem_singleton] at hp
          subst hp
          exact fun _ => unusedNoqa_silent

include hc in
theorem clean_entryParts (id : Nat) {kvs : List (Key × Value)} (hq : q.value = .tbl kvs) {kv : Key × Value} (hm : kv ∈ kvs)
    (hv : Plain E kv.2) :
    ∀ p ∈ entryParts rec E C q id n kv, CleanPart p := by
  intro p hp
  have hunfold : entryParts rec E C q id n kv =
      ((declaredSchemas E n kv.1).map fun s => (child rec q (.key kv.1) kv.2 s).part) ++
      (if n.patternProperties.isSome then [check C q.path .keyPattern
        (!(!(declaredSchemas E n kv.1).isEmpty) && !allowsAdditional n q.strict)] else []) ++
      (if !(declaredSchemas E n kv.1).isEmpty then [] else
        additionalParts rec E C q id n kv.1 kv.2) := rfl
  rw [hunfold, List.mem_append, List.mem_append] at hp
  rcases hp with (hp | hp) | hp
  · obtain ⟨s, hsd, rfl⟩ := List.mem_map.1 hp
    exact clean_part (clean_child (hc (.entry (sub_of_declared hsd) hq hm)) hv)
  · split at hp
    · rw [List.mem_singleton] at hp
      subst hp
      exact clean_check
    · cases hp
  · split at hp
    · cases hp
    · exact clean_additionalParts hc id hq hm hv p hp

theorem clean_keysParts (p : Path) (kvs : List (Key × Value)) : ∀ t ∈ keysParts C p n kvs, CleanPart t := by
  intro t ht
  simp only [keysParts, List.mem_append, List.mem_cons, List.not_mem_nil, or_false, List.mem_map,
    List.mem_flatMap] at ht
  rcases ht with (⟨k, _, rfl⟩ | rfl | rfl) | ⟨⟨k, rs⟩, _, ht⟩
  · exact clean_check
  · exact clean_check
  · exact clean_check
  · simp only at ht
    split at ht
    · obtain ⟨r, _, rfl⟩ := List.mem_map.1 ht
      exact clean_if clean_empty (fun h => by cases h)
    · cases ht

include hc hc' hv in
theorem clean_tableBase (keyCall : Key → Nat → Outcome) {kvs : List (Key × Value)} (hq : q.value = .tbl kvs)
    (hkey : ∀ k s, k ∈ kvs.map Prod.fst → n.propertyNames = some s → Clean (keyCall k s)) (id : Nat) :
    Clean (tableBase rec keyCall E C q id n kvs) := by
  have hkvs : PlainEntries E kvs := by
    rw [hq] at hv
    simp only [Plain] at hv
    exact hv.2.2
  apply clean_finish
  apply clean_total
  intro p hp
  simp only [List.mem_cons, List.not_mem_nil, or_false] at hp
  rcases hp with rfl | rfl
  · apply clean_withDeprecated
    apply clean_total
    intro p hp
    simp only [List.mem_append, List.mem_cons, List.not_mem_nil, or_false, List.mem_flatMap] at hp
    rcases hp with (((⟨kv, hkv, hp⟩ | hp) | hp) | rfl | rfl) | hp
    · exact clean_entryParts hc id hq hkv (plainEntries_mem E kvs kv.1 kv.2 hkvs hkv) p hp
    · exact clean_keysParts _ _ p hp
    · simp only [dependentParts] at hp
      obtain ⟨⟨k, s⟩, hd, rfl⟩ := List.mem_map.1 hp
      exact clean_if (clean_part (clean_getD (hc' (.dependent hd)) hv)) clean_empty
    · exact clean_check
    · exact clean_check
    · simp only [keyParts] at hp
      obtain ⟨⟨k, v⟩, hkv, rfl⟩ := List.mem_map.1 hp
      simp only
      split
      · rename_i s hpn
        exact clean_part (hkey k s (List.mem_map.2 ⟨_, hkv, rfl⟩) hpn)
      · exact clean_part clean_keyEmpty
  · exact clean_part (clean_ifOutcome hc hv)

include hs hc hv in
theorem clean_scalar {byRef strict : Bool} (hsup : Supported byRef strict n) (id : Nat) (ps : List Part)
    (h : ∀ p ∈ ps, CleanPart p) :
    Clean (merge C (finish (C.evidence q.path id q.value) (withDeprecated C q.path n (total ps)))
      (adjacent rec C q id n)) :=
  clean_merge (clean_finish (clean_withDeprecated (clean_total h))) (clean_adjacent hs hc hv hsup id)

theorem clean_numberParts (p : Path) (k : Kind) (g : Int → Int) (mul : Int → Int → Bool) (i : Int) :
    ∀ t ∈ numberParts C p n k g mul i, CleanPart t := by
  intro t ht
  simp only [numberParts, List.mem_cons, List.not_mem_nil, or_false] at ht
  rcases ht with rfl | rfl | rfl | rfl | rfl | rfl | rfl <;> exact clean_check

include hs hc hc' hv in
theorem clean_typedView {byRef strict : Bool} (hsup : Supported byRef strict n)
    (keyCall : Key → Nat → Outcome)
    (hkey : ∀ kvs k s, q.value = .tbl kvs → k ∈ kvs.map Prod.fst → n.propertyNames = some s →
      Clean (keyCall k s)) (id : Nat) (k : Kind) : Clean (typedView rec keyCall E C q id n k) := by
  simp only [typedView]
  split
  · apply clean_scalar hs hc hv hsup
    intro t ht
    simp only [boolParts, List.mem_cons, List.not_mem_nil, or_false] at ht
    rcases ht with rfl | rfl <;> exact clean_check
  · exact clean_scalar hs hc hv hsup _ _ (clean_numberParts _ _ _ _ _)
  · exact clean_scalar hs hc hv hsup _ _ (clean_numberParts _ _ _ _ _)
  · refine clean_merge ?_ ?_
    · split
      · exact clean_keyEmpty
      · exact clean_ok
    · apply clean_scalar hs hc hv hsup
      intro t ht
      simp only [stringParts, List.mem_cons, List.not_mem_nil, or_false] at ht
      rcases ht with rfl | rfl | rfl | rfl | rfl <;> exact clean_check
  · rename_i xs hq
    exact clean_merge (clean_arrayBase hc hv id hq) (clean_adjacent hs hc hv hsup id)
  · rename_i kvs hq
    exact clean_merge (clean_tableBase hc hc' hv keyCall hq (fun k s => hkey kvs k s hq) id)
      (clean_filterStrict (clean_adjacent hs hc hv hsup id))
  · exact clean_failed

end

/-- What one level needs to know about the object. -/
structure Calm1 (E : Env) (H : Nat → Value → Prop) (rec : Rec) (q : Pos) (n : Node) (byRef : Bool)
    (keyCall : Key → Nat → Outcome) : Prop extends Level1 E H rec q n byRef keyCall where
  calm : Calms E rec q.strict q.visits n q.value
  calm' : Calms E rec false q.visits n q.value
  cleanKey : ∀ kvs k s, q.value = .tbl kvs → k ∈ kvs.map Prod.fst → n.propertyNames = some s →
      Clean (keyCall k s)

section
variable {E : Env} {H : Nat → Value → Prop} {rec : Rec} {C : Ctx} {q : Pos} {n : Node} {byRef : Bool}
  {keyCall : Key → Nat → Outcome} (h : Calm1 E H rec q n byRef keyCall) (hL : LintOnly C)
include h

theorem clean_typed1 (id : Nat) (k : Kind) : Clean (typedView rec keyCall E C q id n k) :=
  clean_typedView h.sub h.calm h.calm' h.plain h.sup keyCall h.cleanKey id k

include hL in
theorem clean_anyOfViews (id : Nat) {ks : List Kind} (hne : ks ≠ []) :
    Clean (anyOfViews rec keyCall E C q id n ks) := by
  apply clean_anyOfResult clean_empty silent_nil (by simpa using hne)
  intro o ho
  obtain ⟨k, _, rfl⟩ := List.mem_map.1 ho
  split
  · exact clean_withLint hL (clean_typed1 h id k)
  · exact clean_failed

omit h in
theorem clean_withKey {o : Outcome} (ho : Clean o) : Clean (withKey C q o) := by
  simp only [withKey]
  split
  · exact clean_merge ho clean_keyEmpty
  · exact ho

theorem clean_mismatched (id : Nat) : Clean (mismatched rec C q id byRef n) := by
  simp only [mismatched]
  split
  · exact clean_adjacent h.sub h.calm h.plain h.sup id
  · exact clean_failed

include hL in
theorem clean_objectDirect (f id : Nat) : Clean (objectDirect rec keyCall E C f q id byRef n) := by
  have ht := fun k => clean_typed1 (C := C) h id k
  simp only [objectDirect]
  split
  · split
    · split
      · exact ht _
      · exact clean_failed
    · split
      · exact ht _
      · split
        · exact ht _
        · exact clean_mismatched h id
    · rename_i hne _
      split
      · exact ht _
      · exact clean_withKey (clean_anyOfViews h hL id (fun hc => hne hc))
  · split
    · rename_i ms _ _ hn
      split
      · exact ht _
      · exact clean_withKey (clean_oneOfOutcome h.sub h.calm h.plain hn (h.sup.oneOf (by simp [hn])))
    · rename_i ms _ _ hn
      split
      · exact ht _
      · exact clean_withKey (clean_anyOfOutcome h.sub h.calm h.plain hn (fun hc => h.sup.anyOf (hc ▸ hn)))
    · rename_i ms _ _ hn
      split
      · exact ht _
      · exact clean_withKey (clean_allOfOutcome h.calm h.plain id hn)
    · exact ht _

include hL in
theorem clean_objectResolved (f id : Nat) (o : Outcome)
    (ho : objectResolved rec keyCall E C f q id byRef n = some o) : Clean o := by
  have hd := clean_objectDirect (C := C) h hL f id
  simp only [objectResolved] at ho
  split at ho
  · split at ho
    · split at ho
      · cases ho
      · cases ho; exact clean_failed
    · split at ho
      · cases ho; exact clean_withLint hL hd
      · cases ho; exact clean_mismatched h id
    · rename_i hne _
      cases ho; exact clean_anyOfViews h hL id (fun hc => hne hc)
  · split at ho
    · rename_i ms _ _ hn
      cases ho; exact clean_oneOfOutcome h.sub h.calm h.plain hn (h.sup.oneOf (by simp [hn]))
    · rename_i ms _ _ hn
      cases ho; exact clean_anyOfOutcome h.sub h.calm h.plain hn (fun hc => h.sup.anyOf (hc ▸ hn))
    · rename_i ms _ _ hn
      cases ho; exact clean_allOfOutcome h.calm h.plain id hn
    · cases ho; exact clean_withLint hL hd

end

theorem step_calm {E : Env} {H : Nat → Value → Prop} {level : Nat → Nat} {measure : Nat → Value → Nat} (hH : Meaning E H)
    (hd : Descends E level measure) {strict : Bool} (hsup : AllSupported E strict) {C : Ctx} (hL : LintOnly C)
    (f : Nat) (rec : Rec) (route : Route) (visits : List Nat) (id : Nat) (v : Value) (hvis : Free level visits id route)
    (ih : ∀ route visits s w, Free level visits s route → measure s w < measure id v →
      (Answers E H rec route strict visits s w ∧ Answers E H rec route false visits s w) ∧
      Calm E rec route strict visits s w ∧ Calm E rec route false visits s w) :
    Calm E (step E C f rec) route strict visits id v := by
  intro isKey path o hv ho
  have hlevel : ∀ (visits' : List Nat) (n : Node), (E.entry id).schema = .obj n →
      (∀ j ∈ visits', level id ≤ level j) → ∀ q : Pos, q = ⟨strict, visits', isKey, path, v⟩ →
      Calm1 E H rec q n (E.entry id).byRef (keyCallOf rec E C f q) := by
    intro visits' n hn hvis' q hq
    have hsub : ∀ route s w, Uses n v route s w →
        (Answers E H rec route strict visits' s w ∧ Answers E H rec route false visits' s w) ∧
        Calm E rec route strict visits' s w ∧ Calm E rec route false visits' s w :=
      fun route s w hs => ih route visits' s w (free_uses hd hvis' hn hs) (hd.less hn hs)
    have hstrict : q.strict = strict := by rw [hq]
    have hvisits : q.visits = visits' := by rw [hq]
    have hvalue : q.value = v := by rw [hq]
    refine ⟨step_level1 hH hd hsup C f rec id isKey path v hv
      (fun route visits s w h1 h2 => (ih route visits s w h1 h2).1) visits' n hn hvis' q hq, ?_, ?_, ?_⟩
    · intro route s w hs
      rw [hvalue] at hs
      rw [hstrict, hvisits]
      exact (hsub route s w hs).2.1
    · intro route s w hs
      rw [hvalue] at hs
      rw [hvisits]
      exact (hsub route s w hs).2.2
    · intro kvs k s hkvs hk hpn
      rw [hvalue] at hkvs
      have hplain : Plain E (.str k) := by
        simp only [Plain]
        rw [hkvs] at hv
        simp only [Plain] at hv
        exact hv.2.1 k hk
      have huse : Uses n v .direct s (.str k) := .name hpn hkvs hk
      have hdirect : Clean (direct rec { q with isKey := true, value := .str k } s) :=
        clean_direct (q := { q with isKey := true, value := .str k })
          (by
            show Calm E rec .direct q.strict q.visits s (.str k)
            rw [hstrict, hvisits]
            exact (hsub _ s _ huse).2.1) hplain
      simp only [keyCallOf]
      cases hsc : (E.entry s).schema with
      | always b => exact hdirect
      | obj m =>
        simp only
        split
        · have hsm : ∀ route s' w, Uses m (.str k) route s' w →
              (Answers E H rec route strict visits' s' w ∧ Answers E H rec route false visits' s' w) ∧
              Calm E rec route strict visits' s' w ∧ Calm E rec route false visits' s' w :=
            fun route s' w hs' => ih route visits' s' w
              (free_uses hd (fun j hj => Nat.le_trans (hd.down hn huse) (hvis' j hj)) hsc hs')
              (Nat.lt_trans (hd.less hsc hs') (hd.less hn huse))
          apply clean_withLint hL
          exact clean_typedView (q := { q with isKey := true, value := .str k })
            (by
              show Covers E H rec q.strict q.visits m (.str k)
              rw [hstrict, hvisits]
              exact fun {route s' w} hs' => (hsm route s' w hs').1.1)
            (by
              show Calms E rec q.strict q.visits m (.str k)
              rw [hstrict, hvisits]
              exact fun {route s' w} hs' => (hsm route s' w hs').2.1)
            (by
              show Calms E rec false q.visits m (.str k)
              rw [hvisits]
              exact fun {route s' w} hs' => (hsm route s' w hs').2.2)
            hplain (hsup s m hsc) _ (fun kvs k s hc => by cases hc) s .str
        · exact hdirect
  cases route with
  | direct =>
    simp only [step, Option.some.injEq] at ho
    subst ho
    apply clean_withLint hL
    cases hsc : (E.entry id).schema with
    | always b =>
      cases b
      · exact clean_failed
      · exact clean_ok
    | obj n =>
      exact clean_objectDirect (hlevel visits n hsc hvis _ rfl) hL f id
  | resolved =>
    simp only [step] at ho
    split at ho
    · cases ho
    · cases hsc : (E.entry id).schema with
      | always b =>
        simp only [hsc] at ho
        cases b
        · cases ho; exact clean_failed
        · cases ho; exact clean_ok
      | obj n =>
        simp only [hsc] at ho
        exact clean_objectResolved (hlevel (id :: visits) n hsc (fun j hj => by
          rcases List.mem_cons.1 hj with h | h
          · rw [h]
            exact Nat.le_refl _
          · exact Nat.le_of_lt (hvis j h)) _ rfl) hL f id o ho

theorem run_calm {E : Env} {H : Nat → Value → Prop} {level : Nat → Nat} {measure : Nat → Value → Nat} (hH : Meaning E H)
    (hd : Descends E level measure) {C : Ctx} (hL : LintOnly C) : ∀ (fuel : Nat) (strict : Bool), AllSupported E strict →
      ∀ (route : Route) (visits : List Nat) (id : Nat) (v : Value),
      Free level visits id route → measure id v < fuel → Calm E (run E C fuel) route strict visits id v
  | 0, _, _, _, _, _, _, _, h => by omega
  | fuel + 1, strict, hsup, route, visits, id, v, hvis, h => by
    refine step_calm hH hd hsup hL fuel _ route visits id v hvis ?_
    intro route' visits' s w hvis' hlt
    have hsup' : AllSupported E false := fun id n hn => supported_false (hsup id n hn)
    exact ⟨⟨run_answers hH hd C fuel strict hsup route' visits' s w hvis' (by omega),
        run_answers hH hd C fuel false hsup' route' visits' s w hvis' (by omega)⟩,
      run_calm hH hd hL fuel strict hsup route' visits' s w hvis' (by omega),
      run_calm hH hd hL fuel false hsup' route' visits' s w hvis' (by omega)⟩

end Tombi.Validate
