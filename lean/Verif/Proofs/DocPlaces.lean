import Verif.Proofs.DocConflict2
/-! The values of a document are in its tree, with all that is in them. -/
namespace Tombi
open Spec

variable {σ : Type}

/-- What is in `x` and comes from a value is in `T`, below `p`. -/
def Within (x T : DValue σ) (p : Path) : Prop :=
  ∀ q k, kindAt x q = some k → ValueKind k → kindAt T (p ++ q) = some k

/-- Values stay as they are when more key-values are merged. -/
theorem kvs_stay (rest : List (AstKeyValue σ)) : ∀ (t : DTable σ), BodyOk t → (mergeKeyValues t rest).2 = [] →
    ∀ p k, kindAt t.value p = some k → ValueKind k → kindAt (mergeKeyValues t rest).1.value p = some k := by
  induction rest with
  | nil => intro t _ _ p k hk _; rw [mergeKeyValues]; exact hk
  | cons kv rest ihs =>
    intro t ht h p k hk hvk
    rw [mergeKeyValues] at h ⊢
    simp only [List.append_eq_nil_iff] at h
    obtain ⟨⟨h1, h2⟩, h3⟩ := h
    have hs := kv_tree_spec kv h1
    refine ihs _ (merge_kv_step ht hs h2).1 h3 p k ?_ hvk
    have := (kv_step_value ht hs h2 ⟨k, hk, hvk⟩).1
    rw [(body_merge ht hs h2 p).1 this]
    exact hk

theorem keyPath_ne_nil {keys : List DKey} (h : keys ≠ []) : keyPath keys ≠ [] := by
  intro e; apply h
  unfold keyPath at e
  simpa using e

/-- The values of key-values are in the table. -/
theorem kvs_within (kvs : List (AstKeyValue σ)) : ∀ (t : DTable σ), BodyOk t → (mergeKeyValues t kvs).2 = [] →
    ∀ keys v, AstKeyValue.mk (some keys) (some v) ∈ kvs → keys ≠ [] →
      v.tree.2 = [] ∧ Within v.tree.1 (mergeKeyValues t kvs).1.value (keyPath keys) := by
  induction kvs with
  | nil => intro t _ _ keys v h; cases h
  | cons kv rest ih =>
    intro t ht h keys v hm hne
    rw [mergeKeyValues] at h ⊢
    simp only [List.append_eq_nil_iff] at h
    obtain ⟨⟨h1, h2⟩, h3⟩ := h
    have hs := kv_tree_spec kv h1
    obtain ⟨s1, -, -⟩ := merge_kv_step ht hs h2
    rcases List.mem_cons.1 hm with rfl | hm
    · refine ⟨kv_tree_value_errors h1, fun q k hk hv => kvs_stay rest _ s1 h3 _ _ ?_ hv⟩
      have hkind : kindAt (AstKeyValue.mk (some keys) (some v)).tree.1.value (keyPath keys ++ q) = some k := by
        rw [kv_tree_nest, kindAt_append (lookup_kvNest_value _ _ hne)]
        exact hk
      have hp0 : keyPath keys ++ q ≠ [] := by simp [keyPath_ne_nil hne]
      rcases (body_merge ht hs h2 _).2 _ hkind with ⟨-, h⟩ | ⟨k1, k', e1, e2, -⟩
      · exact h
      · exfalso
        obtain ⟨-, e3, -⟩ := mergedKind_value_right hv e2
        have := ht.body _ _ hp0 e1
        rcases e3 with e3 | e3 <;> subst e3 <;> rcases this with h | h | h <;> cases h
    · exact ih _ s1 h3 keys v hm hne

/-- The values in an inline table are in its tree. -/
theorem inline_within {kvs : List (AstKeyValue σ)} (h : (AstValue.inlineTable kvs).tree.2 = []) {keys : List DKey} {v : AstValue σ}
    (hm : AstKeyValue.mk (some keys) (some v) ∈ kvs) (hne : keys ≠ []) :
    v.tree.2 = [] ∧ Within v.tree.1 (AstValue.inlineTable kvs).tree.1 (keyPath keys) := by
  rw [AstValue.tree] at h ⊢
  obtain ⟨h1, h2⟩ := kvs_within kvs _ (empty_bodyOk (Or.inl rfl)) h keys v hm hne
  refine ⟨h1, fun q k hk hv => ?_⟩
  have := h2 q k hk hv
  cases keys with
  | nil => exact absurd rfl hne
  | cons a as => exact this

theorem Within.trans {x y T : DValue σ} {p q : Path} (h : Within x y q) (k : Within y T p) : Within x T (p ++ q) := by
  intro r kd hr hv
  rw [List.append_assoc]
  exact k _ _ (h r kd hr hv) hv

/-! ### sections -/

theorem step_stay {T T' : DValue σ} {body : DTable σ} {r : Path} (hst : Step' T T' body.value r) (hb : BodyOk body)
    (hk : body.kind = .table) {p : Path} {k : DKind σ} (h : kindAt T p = some k) (hv : ValueKind k) : kindAt T' p = some k := by
  rw [hst.other p (step_value_not_placed hst hb hk ⟨k, h, hv⟩)]
  exact h

theorem step_new {T T' : DValue σ} {body : DTable σ} {r : Path} (hst : Step' T T' body.value r) {q : Path} {k : DKind σ}
    (hr : kindAt T (r ++ q) ≠ some (.table .root)) (h : kindAt body.value q = some k) (hv : ValueKind k) : kindAt T' (r ++ q) = some k := by
  rcases hst.placed (r ++ q) k (Or.inl ⟨q, rfl, h⟩) with ⟨-, h4⟩ | ⟨k1, k', h3, h4, h5⟩
  · exact h4
  · obtain ⟨e1, e2, e3⟩ := mergedKind_value_right hv h4
    rcases e2 with e2 | e2
    · rw [h5, e3 e2, e1]
    · rw [e2] at h3; exact absurd h3 hr

/-- The values of the sections are in the tree, at the places of the sections. -/
theorem sections_within (sections : List (AstSection σ)) : ∀ (prev : List (AstSection σ)) (T : DTable σ) (opened : List Path),
    Everywhere LocalOk T.value → CountInv T.value opened → Rooted T.value → HeadersOk sections → RegularFrom prev opened sections →
    (mergeSections prev T sections).2 = [] →
    (∀ p k, kindAt T.value p = some k → ValueKind k → kindAt (mergeSections prev T sections).1.value p = some k) ∧
    ∀ before s after, sections = before ++ s :: after → ∀ keys v, AstKeyValue.mk (some keys) (some v) ∈ s.kvs → keys ≠ [] →
      v.tree.2 = [] ∧ Within v.tree.1 (mergeSections prev T sections).1.value (sectionPath (openedBy opened before) s ++ keyPath keys) := by
  induction sections with
  | nil =>
    intro prev T opened _ _ _ _ _ _
    refine ⟨fun p k hk _ => (by rw [mergeSections]; exact hk), fun before s after h => ?_⟩
    simp at h
  | cons s rest ih =>
    intro prev T opened hT hI hR hh hreg he
    rw [mergeSections] at he ⊢
    simp only [List.append_eq_nil_iff] at he
    obtain ⟨⟨h1, h2⟩, h3⟩ := he
    obtain ⟨ks, last, hs⟩ := section_header (hh s List.mem_cons_self) h1
    have hst := section_step hT hI hs (fun name hp hne hex => hreg.1 (ks ++ [last]) name hs hp hne hex) h1 h2
    have hbe := section_body_errors hs h1
    obtain ⟨hb, hbk, -⟩ := body_ok hbe
    obtain ⟨i1, i2⟩ := ih (s :: prev) (T.merge (s.tree prev).1).1 (openedAfter opened s) (section_ok hT hs)
      (countInv_step hI hb hs hst) (step_rooted hst hb hbk hR) (fun x hx => hh x (List.mem_cons_of_mem _ hx)) hreg.2 h3
    refine ⟨fun p k hk hv => i1 p k (step_stay hst hb hbk hk hv) hv, ?_⟩
    intro before s' after hsplit keys v hm hne
    cases before with
    | nil =>
      simp only [List.nil_append, List.cons.injEq] at hsplit
      obtain ⟨rfl, rfl⟩ := hsplit
      obtain ⟨e1, e2⟩ := kvs_within _ _ (empty_bodyOk (Or.inl rfl)) hbe keys v hm hne
      refine ⟨e1, fun q k hk hv => ?_⟩
      rw [openedBy, List.append_assoc (sectionPath opened s)]
      have h0 : kindAt T.value (sectionPath opened s ++ (keyPath keys ++ q)) ≠ some (.table .root) := fun e => by
        have := hR _ e
        simp [keyPath_ne_nil hne] at this
      exact i1 _ _ (step_new hst h0 (e2 q k hk hv) hv) hv
    | cons b before =>
      simp only [List.cons_append, List.cons.injEq] at hsplit
      obtain ⟨rfl, rfl⟩ := hsplit
      exact i2 before s' after rfl keys v hm hne

/-- The values of a document are in its tree. -/
theorem doc_within {root : AstRoot σ} (he : root.tree.2 = []) (hk : HasKeys root) (hr : Regular root) :
    (∀ keys v, AstKeyValue.mk (some keys) (some v) ∈ root.kvs → v.tree.2 = [] ∧ Within v.tree.1 root.tree.1.value (keyPath keys)) ∧
    ∀ before s after, root.sections = before ++ s :: after → ∀ keys v, AstKeyValue.mk (some keys) (some v) ∈ s.kvs →
      v.tree.2 = [] ∧ Within v.tree.1 root.tree.1.value (sectionPath (openedBy [] before) s ++ keyPath keys) := by
  unfold AstRoot.tree at he ⊢
  simp only [List.append_eq_nil_iff] at he
  obtain ⟨h1, h2⟩ := he
  obtain ⟨r1, r2, -⟩ := root_start h1
  obtain ⟨b1, -, -⟩ := merge_kvs_spec ⟨.root, []⟩ (empty_bodyOk (Or.inr rfl)) root.kvs h1
  have hR : Rooted (mergeKeyValues ⟨.root, []⟩ root.kvs).1.value := by
    intro p hp
    by_cases h0 : p = []
    · exact h0
    · exfalso
      rcases b1.body p _ h0 hp with h | h | h <;> cases h
  obtain ⟨i1, i2⟩ := sections_within root.sections [] _ [] r1 r2 hR hk.1 hr h2
  refine ⟨fun keys v hm => ?_, fun before s after hsp keys v hm => i2 before s after hsp keys v hm ?_⟩
  · have hne : keys ≠ [] := fun e => hk.2.1 _ hm (some v) (by rw [e])
    obtain ⟨e1, e2⟩ := kvs_within _ _ (empty_bodyOk (Or.inr rfl)) h1 keys v hm hne
    exact ⟨e1, fun q k hk' hv => i1 _ _ (e2 q k hk' hv) hv⟩
  · exact fun e => hk.2.2 s (by rw [hsp]; simp) _ hm (some v) (by rw [e])

/-- The table of a section is in the tree. -/
theorem section_table {root : AstRoot σ} (he : root.tree.2 = []) (hk : HasKeys root) (hr : Regular root)
    {before after : List (AstSection σ)} {s : AstSection σ} (hs : root.sections = before ++ s :: after) :
    ∃ k e, lookup root.tree.1.value (sectionPath (openedBy [] before) s) = some (.table k e) := by
  have hn : nodeAt root.tree.1.value (sectionPath (openedBy [] before) s) = some .table := by
    obtain ⟨r1, r2, r3⟩ : Everywhere LocalOk (mergeKeyValues ⟨.root, []⟩ root.kvs).1.value ∧
        CountInv (mergeKeyValues ⟨.root, []⟩ root.kvs).1.value [] ∧ _ := root_start (by
      unfold AstRoot.tree at he
      simp only [List.append_eq_nil_iff] at he
      exact he.1)
    unfold AstRoot.tree at he ⊢
    simp only [List.append_eq_nil_iff] at he
    rw [sections_nodes root.sections [] _ [] r1 r2 hk.1 hr he.2]
    refine .inr ?_
    rw [hs]
    have : ∀ (before : List (AstSection σ)) opened, (sectionPath (openedBy opened before) s, Spec.Node.table) ∈
        sectionsNodes opened (before ++ s :: after) := by
      intro before
      induction before with
      | nil =>
        intro opened
        rw [List.nil_append, sectionsNodes, openedBy]
        simp only [List.mem_append, mem_wayNodes]
        exact .inl (.inl (.inl ⟨rfl, trivial⟩))
      | cons b before ih =>
        intro opened
        rw [List.cons_append, sectionsNodes, openedBy]
        exact List.mem_append_right _ (ih _)
    exact this before []
  unfold nodeAt at hn
  cases hl : lookup root.tree.1.value (sectionPath (openedBy [] before) s) with
  | none => rw [hl] at hn; cases hn
  | some x =>
    rw [hl] at hn
    cases x with
    | table k e => exact ⟨k, e, rfl⟩
    | _ => cases hn

end Tombi
