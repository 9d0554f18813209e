import Verif.Proofs.EditorOrdered
/-! After a run of the editor, keys are in the order that the schema says: values and sections. -/
namespace Tombi.Editing
open SyntaxKind
open Tombi.Format (AstKey)
open Tombi.Formatter (Node Body Section Doc Comma Text docOf childrenOf)
open Tombi.Reading (Scalar keyOr valueOf itemsOf keyValuesOf convert headComments astRoot)
open Tombi.Spec (stepOf pathAt OrderLe firstKey KeysInOrder TableInOrder ValueInOrder ItemsInOrder AllInOrder PlainSchemas PlainSteps schemaAt
  schemaBelow lookup child keyPath sectionPath openedBy)

variable {S : Type}

/-! ### which schema -/

/-- The schema is the one that is used. -/
def Agrees (sp schema : Option S) : Prop := sp = schema

theorem schemaAt_none (w : EditWorld S) (path : List Accessor) : schemaAt w none path = none := by
  cases path <;> rfl

theorem schemaAt_cons (w : EditWorld S) (sp : Option S) (a : Accessor) (path : List Accessor) :
    schemaAt w sp (a :: path) = schemaAt w (schemaAt w sp [a]) path := by
  cases sp with
  | none => rw [schemaAt_none, schemaAt_none, schemaAt_none]
  | some s => simp [schemaAt]

theorem choose_plain {w : EditWorld S} (hp : PlainSteps w) (t : DValue Scalar) (acc : List Accessor) (schema : Option S) :
    choose w t acc schema = .here := by
  unfold choose
  cases schema with
  | none => rfl
  | some s =>
    simp only [Option.map_some]
    cases hv : w.schemas.view s acc with
    | combined ss o => exact absurd hv (hp.single s acc ss o)
    | _ => rfl

theorem childSchema_plain {w : EditWorld S} (hp : PlainSteps w) {acc : List Accessor} {a : Accessor} {sp schema schema' : Option S}
    (ha : Agrees sp schema) (h : childSchema w acc a schema = .ok schema') : Agrees (schemaAt w sp [a]) schema' := by
  cases ha
  · unfold childSchema at h
    cases sp with
    | none => cases h; exact schemaAt_none w _
    | some s =>
      simp only at h
      show Agrees (schemaBelow w s a) schema'
      unfold schemaBelow
      rw [hp.view] at h
      cases hv : w.schemas.view s [] with
      | combined ss o => exact absurd hv (hp.single s _ ss o)
      | table t =>
        rw [hv] at h
        cases a with
        | index i => cases h
        | key k =>
          cases h
          unfold Agrees
          simp only
          rw [hp.pattern s acc]
          cases t.property (.key k) <;> cases w.patternProperty s [] k <;> rfl
      | array items =>
        rw [hv] at h
        cases h
        cases a <;> rfl
      | other =>
        rw [hv] at h
        cases h
        cases a <;> rfl

theorem stepDown_child (t : DValue Scalar) (a : Accessor) : stepDown t a = child t (stepOf a) := by
  cases t <;> cases a <;> try rfl
  rename_i k es key
  show dget es key = _
  simp only [stepOf, child]
  induction es with
  | nil => rfl
  | cons e es ih =>
    rw [dget, List.find?_cons]
    by_cases h : e.1 = key
    · rw [if_pos h]; simp [h]
    · rw [if_neg h, ih]
      have : (e.1 == key) = false := by simpa using h
      rw [this]

theorem followSchema_plain {w : EditWorld S} (hp : PlainSteps w) : (keys : List Accessor) → ∀ {fuel t acc sp schema t' r},
    Agrees sp schema → lookup t (keys.map stepOf) = some t' → followSchema w fuel t keys acc schema = .ok r →
    ∃ schema', r = some (t', acc ++ keys, schema') ∧ Agrees (schemaAt w sp keys) schema'
  | [], fuel, t, acc, sp, schema, t', r, ha, ht, h => by
    cases fuel with
    | zero => rw [followSchema] at h; cases h
    | succ fuel =>
      rw [followSchema, hp.sub, choose_plain hp] at h
      cases h
      cases ht
      exact ⟨schema, by simp, by simpa [schemaAt] using ha⟩
  | a :: as, fuel, t, acc, sp, schema, t', r, ha, ht, h => by
    cases fuel with
    | zero => rw [followSchema] at h; cases h
    | succ fuel =>
      rw [followSchema, hp.sub, choose_plain hp] at h
      simp only at h
      rw [List.map_cons, lookup, ← stepDown_child] at ht
      cases hs : stepDown t a with
      | none => rw [hs] at ht; cases ht
      | some t1 =>
        rw [hs] at ht h
        simp only at h
        cases hc : childSchema w acc a schema with
        | error e => rw [hc] at h; cases h
        | ok schema1 =>
          rw [hc] at h
          obtain ⟨schema', h1, h2⟩ := followSchema_plain hp as (childSchema_plain hp ha hc) ht h
          refine ⟨schema', by rw [h1]; simp, ?_⟩
          rw [schemaAt_cons]
          exact h2

theorem itemSchema_plain {w : EditWorld S} (hp : PlainSteps w) {fuel : Nat} {t : DValue Scalar} {acc : List Accessor}
    {sp schema item : Option S} (ha : Agrees sp schema) (h : itemSchema w fuel t acc schema = .ok item) :
    Agrees (schemaAt w sp [.index 0]) item := by
  cases fuel with
  | zero => rw [itemSchema] at h; cases h
  | succ fuel =>
    rw [itemSchema, hp.sub, choose_plain hp] at h
    cases h
    cases ha
    · cases sp with
      | none => rfl
      | some s =>
        show Agrees (schemaBelow w s (.index 0)) _
        unfold schemaBelow
        simp only [Option.map_some, Option.bind_some]
        rw [hp.view s acc]
        cases hv : w.schemas.view s [] with
        | combined ss o => exact absurd hv (hp.single s _ ss o)
        | table t => rfl
        | array items => rfl
        | other => rfl

/-! ### values in the tree -/

theorem value_kind {x : AstValue Scalar} (h : x.tree.2 = []) : ValueKind (kindOf x.tree.1) := by
  cases x with
  | bad => rw [AstValue.tree] at h; cases h
  | scalar s => rw [AstValue.tree]; trivial
  | array items => rw [AstValue.tree]; rfl
  | inlineTable kvs => rw [AstValue.tree]; rfl

theorem within_at {x : AstValue Scalar} {t : DValue Scalar} {p : Spec.Path} (h : x.tree.2 = []) (hw : Within x.tree.1 t p) :
    ∃ t', lookup t p = some t' ∧ Within x.tree.1 t' [] := by
  have h1 := hw [] _ rfl (value_kind h)
  rw [List.append_nil] at h1
  unfold kindAt at h1
  cases hl : lookup t p with
  | none => rw [hl] at h1; cases h1
  | some t' =>
    refine ⟨t', rfl, fun q k hk hv => ?_⟩
    have := hw q k hk hv
    rwa [kindAt_append hl] at this

theorem within_inline {kvs : List (AstKeyValue Scalar)} {t : DValue Scalar} (hw : Within (AstValue.inlineTable kvs).tree.1 t []) :
    ∃ es, t = .table .inlineTable es := by
  rw [AstValue.tree] at hw
  have := hw [] (.table .inlineTable) rfl rfl
  cases t <;> cases this
  exact ⟨_, rfl⟩

theorem within_array {items : List (AstItem Scalar)} {t : DValue Scalar} (hw : Within (AstValue.array items).tree.1 t []) :
    ∃ ts, t = .array .array ts ∧ ts.length = (arrayTrees items).1.length ∧
      ∀ (j : Nat) x t', (arrayTrees items).1[j]? = some x → ts[j]? = some t' → Within x t' [] := by
  rw [AstValue.tree] at hw
  have h1 := hw [] (.array .array (arrayTrees items).1.length) rfl rfl
  obtain ⟨ts, rfl, hl⟩ : ∃ ts, t = .array .array ts ∧ ts.length = (arrayTrees items).1.length := by
    obtain ⟨ts, h2, h3⟩ := kindAt_array (p := []) h1
    cases h2
    exact ⟨ts, rfl, h3⟩
  refine ⟨ts, rfl, hl, fun j x t' hx ht q k hk hv => ?_⟩
  have c1 : child (.array .array (arrayTrees items).1) (.index j) = some x := hx
  have c2 : child (.array .array ts) (.index j) = some t' := ht
  have := hw (.index j :: q) k (by simp only; rw [kindAt_cons c1]; exact hk) hv
  rw [List.nil_append, kindAt_cons c2] at this
  exact this

/-- The values of key-values are in the tree. -/
def HoldsKvs (v : TomlVersion) (t : DValue Scalar) (b : Body) : Prop :=
  ∀ keys x, AstKeyValue.mk (some keys) (some x) ∈ keyValuesOf v b → x.tree.2 = [] ∧ Within x.tree.1 t (keyPath keys)

theorem keyPath_map (v : TomlVersion) (ks : List AstKey) : (ks.map fun k => Accessor.key (keyOr v k)).map stepOf = keyPath (ks.map (keyOr v)) := by
  simp [keyPath, stepOf, Function.comp_def]

mutual
theorem keyValues_named (v : TomlVersion) : (b : Body) → ∀ d prev, b.WF true d prev → ∀ keys x,
    AstKeyValue.mk (some keys) x ∈ keyValuesOf v b → keys ≠ []
  | .nil, _, _, _, _, _, h => by rw [keyValuesOf] at h; cases h
  | .dangling _ _ rest, d, prev, hw, keys, x, h => by
    rw [Body.WF] at hw
    rw [keyValuesOf] at h
    exact keyValues_named v rest _ _ hw.2.2.2 keys x h
  | .item _ (.lit ..) _ _, _, _, hw, _, _, _ => by rw [Body.WF] at hw; cases hw.1
  | .item _ (.array ..) _ _, _, _, hw, _, _, _ => by rw [Body.WF] at hw; cases hw.1
  | .item _ (.table ..) _ _, _, _, hw, _, _, _ => by rw [Body.WF] at hw; cases hw.1
  | .item _ (.pair l ks src n) _ rest, d, prev, hw, keys, x, h => by
    rw [Body.WF, Node.WF] at hw
    rw [keyValuesOf] at h
    rcases List.mem_cons.mp h with h | h
    · cases h
      simpa using hw.2.1.1
    · exact keyValues_named v rest _ _ hw.2.2.2 keys x h
end

/-! ### values -/

theorem bodyPaths_length (v : TomlVersion) : (b : Body) → ∀ p ∈ bodyPaths v b, p.length ≤ bodyLength b
  | .nil, p, h => by rw [bodyPaths] at h; cases h
  | .dangling _ _ rest, p, h => by rw [bodyPaths] at h; rw [bodyLength]; exact bodyPaths_length v rest p h
  | .item _ n c rest, p, h => by
    rw [bodyPaths] at h
    rw [bodyLength]
    rcases List.mem_cons.mp h with rfl | h
    · unfold itemAccessors
      split
      · rename_i e
        simp only at e
        rw [e, nodeLength, List.length_map]; omega
      · simp
    · have := bodyPaths_length v rest p h
      omega

theorem sortEntries_paths {w : EditWorld S} {fuel : Nat} {v : TomlVersion} {acc : List Accessor} {schema : Option S} {t : DValue Scalar} :
    (b : Body) → ∀ d prev b', b.WF true d prev → sortEntries w fuel v acc schema t b = .ok b' → bodyPaths v b' = bodyPaths v b
  | .nil, _, _, b', _, h => by rw [sortEntries] at h; cases h; rfl
  | .dangling n cs rest, d, prev, b', hw, h => by
    rw [Body.WF] at hw
    rw [sortEntries] at h
    cases hs : sortEntries w fuel v acc schema t rest with
    | error e => rw [hs] at h; cases h
    | ok rest' =>
      rw [hs] at h
      cases h
      rw [bodyPaths, bodyPaths, sortEntries_paths rest _ _ rest' hw.2.2.2 hs]
  | .item f n c rest, d, prev, b', hw, h => by
    rw [Body.WF] at hw
    rw [sortEntries] at h
    cases hn : sortNode w fuel v [] acc schema t n with
    | error e => rw [hn] at h; cases h
    | ok n' =>
      rw [hn] at h
      simp only at h
      cases hs : sortEntries w fuel v acc schema t rest with
      | error e => rw [hs] at h; cases h
      | ok rest' =>
        rw [hs] at h
        cases h
        rw [bodyPaths, bodyPaths, sortEntries_paths rest _ _ rest' hw.2.2.2 hs]
        congr 1
        cases n with
        | lit => cases hw.1
        | array => cases hw.1
        | table => cases hw.1
        | pair l ks src n =>
          rw [sortNode] at hn
          cases hf : followSchema w fuel t (ks.map fun k => .key (keyOr v k)) acc schema with
          | error e => rw [hf] at hn; cases hn
          | ok o =>
            rw [hf] at hn
            cases o with
            | none => cases hn; rfl
            | some x =>
              obtain ⟨t', acc', schema'⟩ := x
              simp only at hn
              cases hn' : sortNode w fuel v (l ++ n.trailing.toList) acc' schema' t' n with
              | error e => rw [hn'] at hn; cases hn
              | ok m => rw [hn'] at hn; cases hn; rfl

mutual
theorem sortNode_ordered {w : EditWorld S} (hp : PlainSchemas w) (fuel : Nat) (v : TomlVersion) : (n : Node) → ∀ cs acc sp schema t d n',
    Agrees sp schema → n.WF d → n.isPair = false → nodeLength n < fuel → (valueOf v n).tree.2 = [] → Within (valueOf v n).tree.1 t [] →
    sortNode w fuel v cs acc schema t n = .ok n' → ValueInOrder w v sp n'
  | .lit l k x tr, cs, acc, sp, schema, t, d, n', ha, hw, hi, hl, he, hin, h => by
    rw [sortNode] at h
    cases h
    trivial
  | .array l s b tr, cs, acc, sp, schema, t, d, n', ha, hw, hi, hl, he, hin, h => by
    rw [Node.WF] at hw
    rw [nodeLength] at hl
    rw [valueOf] at he hin
    obtain ⟨ts, rfl, hlen, hts⟩ := within_array hin
    rw [AstValue.tree] at he
    rw [sortNode] at h
    simp only [arrayValues] at h
    cases hit : itemSchema w fuel (.array .array ts) acc schema with
    | error e => rw [hit] at h; cases h
    | ok item =>
      rw [hit] at h
      simp only at h
      cases hs : sortItems w fuel v acc item 0 ts b with
      | error e => rw [hs] at h; cases h
      | ok b' =>
        rw [hs] at h
        simp only at h
        cases h
        rw [ValueInOrder]
        refine items_mapGroups (fun last start items => editValues_items _ _ _ fun items => arraySort_ok items) ?_
        exact sortItems_ordered hp fuel v b acc _ item 0 ts _ _ b' (itemSchema_plain hp.toPlainSteps ha hit) hw.2 hl he hlen hts hs
  | .table l s b tr, cs, acc, sp, schema, t, d, n', ha, hw, hi, hl, he, hin, h => by
    rw [Node.WF] at hw
    rw [nodeLength] at hl
    rw [valueOf] at he hin
    obtain ⟨es, rfl⟩ := within_inline hin
    rw [sortNode] at h
    rw [if_pos (by rfl)] at h
    cases hs : sortEntries w fuel v acc schema (.table .inlineTable es) b with
    | error e => rw [hs] at h; cases h
    | ok b' =>
      rw [hs] at h
      simp only at h
      cases h
      have hh : HoldsKvs v (.table .inlineTable es) b := by
        intro keys x hm
        obtain ⟨h1, h2⟩ := inline_within he hm (keyValues_named v b _ _ hw.2 keys _ hm)
        refine ⟨h1, ?_⟩
        have := h2.trans hin
        rwa [List.nil_append] at this
      have h1 := sortEntries_ordered hp fuel v b acc sp schema _ _ _ b' ha hw.2 hl hh hs
      rw [ValueInOrder]
      refine ⟨?_, items_mapGroups (fun last start items => editGroup_items _ _ (inlineSort_ok items)) h1⟩
      rw [hp.directive]
      refine tableObeys_inOrder hp (acc := acc) ?_
      have h2 := inline_inOrder hp.toPlainSteps (fuel := fuel) (v := v) (kind := .inlineTable) (es := es) (acc := acc) (schema := schema) (directive := none) (b := b')
        (hasComma := b.lastComma false) (fun p hp' => by
          rw [sortEntries_paths b _ _ b' hw.2 hs] at hp'
          exact Nat.lt_of_le_of_lt (bodyPaths_length v b p hp') hl) (by omega)
      cases ha
      exact h2
  | .pair l ks src n, cs, acc, sp, schema, t, d, n', ha, hw, hi, hl, he, hin, h => by cases hi
theorem sortItems_ordered {w : EditWorld S} (hp : PlainSchemas w) (fuel : Nat) (v : TomlVersion) : (b : Body) → ∀ acc sp item i ts d prev b',
    Agrees sp item → b.WF false d prev → bodyLength b < fuel → (arrayTrees (itemsOf v b)).2 = [] →
    ts.length = (arrayTrees (itemsOf v b)).1.length →
    (∀ (j : Nat) x t', (arrayTrees (itemsOf v b)).1[j]? = some x → ts[j]? = some t' → Within x t' []) →
    sortItems w fuel v acc item i ts b = .ok b' → ItemsInOrder w v sp b'
  | .nil, acc, sp, item, i, ts, d, prev, b', ha, hw, hl, he, hlen, hts, h => by
    rw [sortItems] at h
    cases h
    trivial
  | .dangling k cs rest, acc, sp, item, i, ts, d, prev, b', ha, hw, hl, he, hlen, hts, h => by
    rw [Body.WF] at hw
    rw [bodyLength] at hl
    rw [itemsOf] at he hlen hts
    rw [sortItems] at h
    cases hs : sortItems w fuel v acc item i ts rest with
    | error e => rw [hs] at h; cases h
    | ok rest' =>
      rw [hs] at h
      cases h
      rw [ItemsInOrder]
      exact sortItems_ordered hp fuel v rest acc sp item i ts _ _ rest' ha hw.2.2.2 hl he hlen hts hs
  | .item f n c rest, acc, sp, item, i, ts, d, prev, b', ha, hw, hl, he, hlen, hts, h => by
    rw [Body.WF] at hw
    rw [bodyLength] at hl
    have hit : itemsOf v (.item f n c rest) = .value (valueOf v n) :: itemsOf v rest := by
      cases n with
      | pair => cases hw.1
      | _ => rw [itemsOf]; intro _ _ _ _ e; cases e
    rw [hit] at he hlen hts
    rw [arrayTrees, AstItem.tree] at he hlen hts
    simp only [List.append_eq_nil_iff] at he
    cases ts with
    | nil => simp at hlen
    | cons t ts =>
      rw [sortItems] at h
      cases hn : sortNode w fuel v [] (acc ++ [.index i]) item t n with
      | error e => rw [hn] at h; cases h
      | ok n' =>
        rw [hn] at h
        simp only at h
        cases hs : sortItems w fuel v acc item (i + 1) ts rest with
        | error e => rw [hs] at h; cases h
        | ok rest' =>
          rw [hs] at h
          cases h
          rw [ItemsInOrder]
          refine ⟨sortNode_ordered hp fuel v n _ _ sp item t _ n' ha hw.2.1 hw.1 (by omega) he.1 (hts 0 _ _ rfl rfl) hn, ?_⟩
          exact sortItems_ordered hp fuel v rest acc sp item (i + 1) ts _ _ rest' ha hw.2.2.2 (by omega) he.2 (by simpa using hlen)
            (fun j x t' hx ht => hts (j + 1) x t' (by simpa using hx) (by simpa using ht)) hs
theorem sortEntries_ordered {w : EditWorld S} (hp : PlainSchemas w) (fuel : Nat) (v : TomlVersion) : (b : Body) → ∀ acc sp schema t d prev b',
    Agrees sp schema → b.WF true d prev → bodyLength b < fuel → HoldsKvs v t b → sortEntries w fuel v acc schema t b = .ok b' →
    ItemsInOrder w v sp b'
  | .nil, acc, sp, schema, t, d, prev, b', ha, hw, hl, hh, h => by
    rw [sortEntries] at h
    cases h
    trivial
  | .dangling k cs rest, acc, sp, schema, t, d, prev, b', ha, hw, hl, hh, h => by
    rw [Body.WF] at hw
    rw [bodyLength] at hl
    rw [sortEntries] at h
    cases hs : sortEntries w fuel v acc schema t rest with
    | error e => rw [hs] at h; cases h
    | ok rest' =>
      rw [hs] at h
      cases h
      rw [ItemsInOrder]
      refine sortEntries_ordered hp fuel v rest acc sp schema t _ _ rest' ha hw.2.2.2 hl (fun keys x hm => hh keys x ?_) hs
      rwa [keyValuesOf]
  | .item f (.lit ..) c rest, acc, sp, schema, t, d, prev, b', ha, hw, hl, hh, h => by rw [Body.WF] at hw; cases hw.1
  | .item f (.array ..) c rest, acc, sp, schema, t, d, prev, b', ha, hw, hl, hh, h => by rw [Body.WF] at hw; cases hw.1
  | .item f (.table ..) c rest, acc, sp, schema, t, d, prev, b', ha, hw, hl, hh, h => by rw [Body.WF] at hw; cases hw.1
  | .item f (.pair l ks src n) c rest, acc, sp, schema, t, d, prev, b', ha, hw, hl, hh, h => by
    rw [Body.WF, Node.WF] at hw
    rw [bodyLength, nodeLength] at hl
    obtain ⟨h1, h2⟩ := hh (ks.map (keyOr v)) (valueOf v n) (by rw [keyValuesOf]; exact List.mem_cons_self)
    obtain ⟨t', ht, hin⟩ := within_at h1 h2
    rw [sortEntries, sortNode] at h
    cases hf : followSchema w fuel t (ks.map fun k => .key (keyOr v k)) acc schema with
    | error e => rw [hf] at h; cases h
    | ok o =>
      rw [hf] at h
      obtain ⟨schema', rfl, ha'⟩ := followSchema_plain hp.toPlainSteps _ ha (by rw [keyPath_map]; exact ht) hf
      simp only at h
      cases hn : sortNode w fuel v (l ++ n.trailing.toList) (acc ++ ks.map fun k => .key (keyOr v k)) schema' t' n with
      | error e => rw [hn] at h; cases h
      | ok n' =>
        rw [hn] at h
        simp only at h
        cases hs : sortEntries w fuel v acc schema t rest with
        | error e => rw [hs] at h; cases h
        | ok rest' =>
          rw [hs] at h
          cases h
          rw [ItemsInOrder, ValueInOrder]
          refine ⟨sortNode_ordered hp fuel v n _ _ _ schema' t' _ n' ha' hw.2.1.2.2.2 hw.2.1.2.1 (by omega) h1 hin hn, ?_⟩
          refine sortEntries_ordered hp fuel v rest acc sp schema t _ _ rest' ha hw.2.2.2 (by omega) (fun keys x hm => hh keys x ?_) hs
          rw [keyValuesOf]
          exact List.mem_cons_of_mem _ hm
end

end Tombi.Editing
