import Verif.Proofs.Gathered
/-! A check for examples: does what belongs together stand together? -/
namespace Tombi.Spec

variable {σ : Type}

/-- The longest common start of two paths. -/
def common : List Accessor → List Accessor → List Accessor
  | a :: as, b :: bs => if a = b then a :: common as bs else []
  | _, _ => []

theorem prefix_common : (p q c : List Accessor) → c <+: p → c <+: q → c <+: common p q
  | [], _, c, h, _ => by
    obtain rfl := List.prefix_nil.mp h
    exact List.nil_prefix
  | _ :: _, [], c, _, h => by
    obtain rfl := List.prefix_nil.mp h
    exact List.nil_prefix
  | a :: p, b :: q, c, h1, h2 => by
    cases c with
    | nil => exact List.nil_prefix
    | cons x c =>
      rw [List.cons_prefix_cons] at h1 h2
      obtain ⟨rfl, h1⟩ := h1
      obtain ⟨rfl, h2⟩ := h2
      rw [common, if_pos rfl, List.cons_prefix_cons]
      exact ⟨rfl, prefix_common p q c h1 h2⟩

/-- The first path and the later ones, after `m`. -/
def gatheredAfter (p : List Accessor) (m : List (List Accessor)) : List (List Accessor) → Bool
  | [] => true
  | q :: r => (!q.isPrefixOf p || q == p) && m.all (common p q).isPrefixOf && gatheredAfter p (m ++ [q]) r

/-- Does what belongs together stand together? -/
def gatheredCheck : List (List Accessor) → Bool
  | [] => true
  | p :: rest => gatheredAfter p [] rest && gatheredCheck rest

theorem gatheredAfter_sound (p : List Accessor) : (rest m : List (List Accessor)) → gatheredAfter p m rest = true →
    ∀ m' q r, rest = m' ++ q :: r → (q <+: p → q = p) ∧ ∀ c, c <+: p → c <+: q → ∀ x ∈ m ++ m', c <+: x
  | [], m, _, m', q, r, e => by cases m' <;> cases e
  | q' :: rest, m, h, m', q, r, e => by
    rw [gatheredAfter, Bool.and_eq_true, Bool.and_eq_true] at h
    cases m' with
    | nil =>
      rw [List.nil_append] at e
      obtain ⟨rfl, rfl⟩ := List.cons.inj e
      refine ⟨fun hp => ?_, fun c h1 h2 x hx => ?_⟩
      · have := h.1.1
        rw [Bool.or_eq_true, Bool.not_eq_true', beq_iff_eq] at this
        rcases this with this | this
        · rw [List.isPrefixOf_iff_prefix.mpr hp] at this
          cases this
        · exact this
      · rw [List.append_nil] at hx
        exact (prefix_common _ _ _ h1 h2).trans (List.isPrefixOf_iff_prefix.mp (List.all_eq_true.mp h.1.2 x hx))
    | cons y m' =>
      obtain rfl := (List.cons.inj e).1
      have := gatheredAfter_sound p rest (m ++ [q']) h.2 m' q r (List.cons.inj e).2
      rw [List.append_assoc] at this
      exact this

theorem gathered_of_check : (paths : List (List Accessor)) → gatheredCheck paths = true → Gathered paths
  | [], _ => fun l p m q r e => by cases l <;> cases e
  | p' :: rest, h => fun l p m q r e => by
    rw [gatheredCheck, Bool.and_eq_true] at h
    cases l with
    | nil =>
      obtain ⟨rfl, rfl⟩ := List.cons.inj e
      have := gatheredAfter_sound p' _ [] h.1 m q r rfl
      rwa [List.nil_append] at this
    | cons y l =>
      exact gathered_of_check rest h.2 l p m q r (List.cons.inj e).2

mutual
/-- The check for a value. -/
def checkValue : AstValue σ → Bool
  | .scalar _ => true
  | .bad => true
  | .array items => checkItems items
  | .inlineTable kvs => gatheredCheck (kvPaths kvs) && checkKvs kvs
/-- The check for elements. -/
def checkItems : List (AstItem σ) → Bool
  | [] => true
  | item :: rest => checkItem item && checkItems rest
/-- The check for an element. -/
def checkItem : AstItem σ → Bool
  | .value v => checkValue v
  | .keyValue kv => checkKv kv
/-- The check for key-values. -/
def checkKvs : List (AstKeyValue σ) → Bool
  | [] => true
  | kv :: rest => checkKv kv && checkKvs rest
/-- The check for a key-value. -/
def checkKv : AstKeyValue σ → Bool
  | .mk _ (some v) => checkValue v
  | .mk _ none => true
end

mutual
theorem checkValue_sound : (v : AstValue σ) → checkValue v = true → GatheredValue v
  | .scalar _, _ => by rw [GatheredValue]; trivial
  | .bad, _ => by rw [GatheredValue]; trivial
  | .array items, h => by
    rw [checkValue] at h
    rw [GatheredValue]
    exact checkItems_sound items h
  | .inlineTable kvs, h => by
    rw [checkValue, Bool.and_eq_true] at h
    rw [GatheredValue]
    exact ⟨gathered_of_check _ h.1, checkKvs_sound kvs h.2⟩
theorem checkItems_sound : (items : List (AstItem σ)) → checkItems items = true → GatheredItems items
  | [], _ => by rw [GatheredItems]; trivial
  | item :: rest, h => by
    rw [checkItems, Bool.and_eq_true] at h
    rw [GatheredItems]
    exact ⟨checkItem_sound item h.1, checkItems_sound rest h.2⟩
theorem checkItem_sound : (item : AstItem σ) → checkItem item = true → GatheredItem item
  | .value v, h => by
    rw [checkItem] at h
    rw [GatheredItem]
    exact checkValue_sound v h
  | .keyValue kv, h => by
    rw [checkItem] at h
    rw [GatheredItem]
    exact checkKv_sound kv h
theorem checkKvs_sound : (kvs : List (AstKeyValue σ)) → checkKvs kvs = true → GatheredKvs kvs
  | [], _ => by rw [GatheredKvs]; trivial
  | kv :: rest, h => by
    rw [checkKvs, Bool.and_eq_true] at h
    rw [GatheredKvs]
    exact ⟨checkKv_sound kv h.1, checkKvs_sound rest h.2⟩
theorem checkKv_sound : (kv : AstKeyValue σ) → checkKv kv = true → GatheredKv kv
  | .mk _ (some v), h => by
    rw [checkKv] at h
    rw [GatheredKv]
    exact checkValue_sound v h
  | .mk _ none, _ => by rw [GatheredKv]; trivial
end

/-- The check for a document. -/
def checkRoot (root : AstRoot σ) : Bool :=
  gatheredCheck (kvPaths root.kvs) && checkKvs root.kvs &&
    root.sections.all (fun s => gatheredCheck (kvPaths s.kvs) && checkKvs s.kvs) && gatheredCheck (sectionAccessors [] root.sections)

theorem gathered_root {root : AstRoot σ} (h : checkRoot root = true) : GatheredRoot root := by
  rw [checkRoot, Bool.and_eq_true, Bool.and_eq_true, Bool.and_eq_true, List.all_eq_true] at h
  refine ⟨⟨gathered_of_check _ h.1.1.1, checkKvs_sound _ h.1.1.2⟩, fun s hs => ?_, gathered_of_check _ h.2⟩
  have := h.1.2 s hs
  rw [Bool.and_eq_true] at this
  exact ⟨gathered_of_check _ this.1, checkKvs_sound _ this.2⟩

end Tombi.Spec
