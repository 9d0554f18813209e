import Verif.Proofs.SerializeText
import Verif.Proofs.DocSteps
import Verif.Proofs.KeysHeaders
/-!
The tables that a document is written as make a valid document, with the nodes of the document.
-/
namespace Tombi.Serializing
open Spec
open Tombi.Reading

abbrev vals (P : List Key) : List DKey := P.map (·.value)

theorem vals_snoc (P : List Key) (k : Key) : vals (P ++ [k]) = vals P ++ [k.value] := by simp [vals]

/-! ### where the tables lie -/

mutual
theorem parts_path : ∀ (v : Value) (P : List Key), ∀ p ∈ parts P v, vals P <+: vals p.header
  | .scalar s, P, p, hp => by simp [parts] at hp
  | .array .array vs, P, p, hp => by simp [parts] at hp
  | .array .arrayOfTable vs, P, p, hp => by
    simp only [parts, List.mem_map] at hp
    obtain ⟨v, hv, rfl⟩ := hp
    exact List.prefix_refl _
  | .table .inlineTable es, P, p, hp => by simp [parts] at hp
  | .table .keyValue es, P, p, hp => by simp [parts] at hp
  | .table .table es, P, p, hp => by
    simp only [parts, List.mem_append] at hp
    rcases hp with hp | hp
    · split at hp
      · cases hp
      · rw [List.mem_singleton] at hp
        subst hp
        exact List.prefix_refl _
    · obtain ⟨e, -, h⟩ := partsE_path es P p hp
      exact (by rw [vals_snoc]; exact List.prefix_append _ _ : vals P <+: vals (P ++ [e.key])).trans h
theorem partsE_path : ∀ (es : List Entry) (P : List Key), ∀ p ∈ partsE P es,
    ∃ e ∈ es, vals (P ++ [e.key]) <+: vals p.header
  | [], P, p, hp => by simp [partsE] at hp
  | .mk k v :: es, P, p, hp => by
    simp only [partsE, List.mem_append] at hp
    rcases hp with hp | hp
    · exact ⟨.mk k v, List.mem_cons_self, parts_path v (P ++ [k]) p hp⟩
    · obtain ⟨e, he, h⟩ := partsE_path es P p hp
      exact ⟨e, List.mem_cons_of_mem _ he, h⟩
end

/-- Only tables and arrays of tables have headers. -/
theorem partsE_section : ∀ (es : List Entry) (P : List Key), ∀ p ∈ partsE P es,
    ∃ e ∈ es, isSection e.value = true ∧ vals (P ++ [e.key]) <+: vals p.header
  | [], P, p, hp => by simp [partsE] at hp
  | .mk k v :: es, P, p, hp => by
    simp only [partsE, List.mem_append] at hp
    rcases hp with hp | hp
    · refine ⟨.mk k v, List.mem_cons_self, ?_, parts_path v (P ++ [k]) p hp⟩
      cases v with
      | scalar s => simp [parts] at hp
      | array a vs => cases a <;> simp_all [parts, isSection, Entry.value]
      | table a vs => cases a <;> simp_all [parts, isSection, Entry.value]
    · obtain ⟨e, he, h⟩ := partsE_section es P p hp
      exact ⟨e, List.mem_cons_of_mem _ he, h⟩

theorem apart {α : Type} {P : List α} {k k' : α} (h : k ≠ k') {a b : List α} (ha : P ++ [k] <+: a) (hb : P ++ [k'] <+: b) : ¬ a <+: b := by
  intro hab
  have h1 := ha.trans hab
  obtain ⟨r, rfl⟩ := hb
  obtain ⟨r', e⟩ := h1
  rw [List.append_assoc, List.append_assoc] at e
  have := List.append_cancel_left e
  simp at this
  exact h this.1

theorem mem_plain : ∀ {es : List Entry} {e : Entry}, e ∈ plain es ↔ e ∈ es ∧ isSection e.value = false
  | [], e => by simp [plain]
  | .mk k v :: es, e => by
    have ih := @mem_plain es e
    cases hv : isSection v with
    | true =>
      have : plain (.mk k v :: es) = plain es := by simp [plain, hv]
      rw [this, ih, List.mem_cons]
      constructor
      · rintro ⟨h1, h2⟩; exact ⟨.inr h1, h2⟩
      · rintro ⟨rfl | h1, h2⟩
        · simp only [Entry.value] at h2; rw [hv] at h2; cases h2
        · exact ⟨h1, h2⟩
    | false =>
      have : plain (.mk k v :: es) = .mk k v :: plain es := by simp [plain, hv]
      rw [this, List.mem_cons, ih, List.mem_cons]
      constructor
      · rintro (rfl | ⟨h1, h2⟩)
        · exact ⟨.inl rfl, hv⟩
        · exact ⟨.inr h1, h2⟩
      · rintro ⟨rfl | h1, h2⟩
        · exact .inl rfl
        · exact .inr ⟨h1, h2⟩

theorem plain_sublist : ∀ (es : List Entry), (plain es).Sublist es
  | [] => by simp [plain]
  | .mk k v :: es => by
    have ih := plain_sublist es
    cases hv : isSection v with
    | true =>
      have : plain (.mk k v :: es) = plain es := by simp [plain, hv]
      rw [this]; exact ih.cons _
    | false =>
      have : plain (.mk k v :: es) = .mk k v :: plain es := by simp [plain, hv]
      rw [this]; exact ih.cons_cons _

theorem plain_nodup {es : List Entry} (h : (names es).Nodup) : (names (plain es)).Nodup :=
  h.sublist ((plain_sublist es).map _)

theorem names_inj : ∀ {es : List Entry}, (names es).Nodup → ∀ {a b : Entry}, a ∈ es → b ∈ es → a.key.value = b.key.value → a = b
  | [], _, _, _, ha, _, _ => by cases ha
  | e :: es, h, a, b, ha, hb, hab => by
    simp only [names, List.map_cons, List.nodup_cons] at h
    rcases List.mem_cons.mp ha with rfl | ha' <;> rcases List.mem_cons.mp hb with rfl | hb'
    · rfl
    · exact absurd (List.mem_map.mpr ⟨b, hb', hab.symm⟩) h.1
    · exact absurd (List.mem_map.mpr ⟨a, ha', hab⟩) h.1
    · exact names_inj h.2 ha' hb' hab

/-- The keys of a table are no names of tables in it. -/
theorem header_before {es : List Entry} (h : (names es).Nodup) (P : List Key) {p : Part} (hp : p ∈ partsE P es) :
    (⟨false, vals P, astEntries (plain es)⟩ : Sect Scalar).Before p.sect := by
  obtain ⟨e, he, h1, h2⟩ := partsE_section es P p hp
  refine .inr (.inr ⟨rfl, e.key.value, ?_⟩)
  obtain ⟨r, hr⟩ := h2
  refine ⟨r, ?_, ?_⟩
  · simp only [Part.sect]
    show vals p.header = _
    rw [← hr, vals_snoc]
    simp
  · show e.key.value ∉ (astEntries (plain es)).map (·.1)
    rw [astEntries_names]
    intro hm
    obtain ⟨e', he', h3⟩ := List.mem_map.mp hm
    obtain ⟨h4, h5⟩ := mem_plain.mp he'
    have := names_inj h h4 he h3
    subst this
    rw [h1] at h5
    cases h5

mutual
theorem parts_before : ∀ (v : Value) (P : List Key), Tab v → ((parts P v).map Part.sect).Pairwise Sect.Before
  | .scalar s, P, _ => by simp [parts]
  | .array .array vs, P, _ => by simp [parts]
  | .array .arrayOfTable vs, P, h => by
    simp only [parts, List.map_map]
    rw [List.pairwise_map]
    exact List.pairwise_of_forall fun a b => .inl ⟨rfl, rfl, rfl⟩
  | .table .inlineTable es, P, _ => by simp [parts]
  | .table .keyValue es, P, _ => by simp [parts]
  | .table .table es, P, h => by
    simp only [Tab] at h
    have ih := partsE_before es P h.2 h.1
    simp only [parts, List.map_append]
    rw [List.pairwise_append]
    refine ⟨?_, ih, ?_⟩
    · split <;> simp
    · intro a ha b hb
      split at ha
      · cases ha
      · simp only [List.map_cons, List.map_nil, List.mem_singleton] at ha
        subst ha
        obtain ⟨p, hp, rfl⟩ := List.mem_map.mp hb
        exact header_before h.1 P hp
theorem partsE_before : ∀ (es : List Entry) (P : List Key), TabE es → (names es).Nodup →
    ((partsE P es).map Part.sect).Pairwise Sect.Before
  | [], P, _, _ => by simp [partsE]
  | .mk k v :: es, P, h, hn => by
    simp only [TabE] at h
    obtain ⟨⟨h1, h2⟩, h3⟩ := h
    simp only [names, List.map_cons, List.nodup_cons, Entry.key] at hn
    have ih := partsE_before es P h3 hn.2
    simp only [partsE, List.map_append]
    rw [List.pairwise_append]
    refine ⟨?_, ih, ?_⟩
    · rcases h2 with h2 | ⟨h2, -⟩
      · simp [parts_inl h2]
      · exact parts_before v (P ++ [k]) h2
    · intro a ha b hb
      obtain ⟨p, hp, rfl⟩ := List.mem_map.mp ha
      obtain ⟨q, hq, rfl⟩ := List.mem_map.mp hb
      have ha := parts_path v (P ++ [k]) p hp
      obtain ⟨e, he, hb⟩ := partsE_path es P q hq
      rw [vals_snoc] at ha hb
      have hne : k.value ≠ e.key.value := fun h => hn.1 (List.mem_map.mpr ⟨e, he, h.symm⟩)
      exact .inr (.inl ⟨apart hne ha hb, apart hne.symm hb ha⟩)
end

mutual
theorem parts_sectFine : ∀ (v : Value) (P : List Key), Tab v → ∀ p ∈ parts P v, p.sect.Fine
  | .scalar s, P, h, _, _ => by simp [Tab] at h
  | .array .array vs, P, h, _, _ => by simp [Tab] at h
  | .array .arrayOfTable vs, P, h, p, hp => by
    simp only [Tab] at h
    simp only [parts, List.mem_map] at hp
    obtain ⟨v, hv, rfl⟩ := hp
    obtain ⟨es, rfl, h0, h1⟩ := h.2 v hv
    exact ⟨by simp only [Part.sect, entriesOf, astEntries_names]; exact h0, inlE_valid es h1⟩
  | .table .inlineTable es, P, h, _, _ => by simp [Tab] at h
  | .table .keyValue es, P, h, _, _ => by simp [Tab] at h
  | .table .table es, P, h, p, hp => by
    simp only [Tab] at h
    simp only [parts, List.mem_append] at hp
    rcases hp with hp | hp
    · split at hp
      · cases hp
      · rw [List.mem_singleton] at hp
        subst hp
        exact ⟨by simp only [Part.sect, astEntries_names]; exact plain_nodup h.1, inlE_valid _ (plain_inlE es h.2)⟩
    · exact partsE_sectFine es P h.2 p hp
theorem partsE_sectFine : ∀ (es : List Entry) (P : List Key), TabE es → ∀ p ∈ partsE P es, p.sect.Fine
  | [], P, _, p, hp => by simp [partsE] at hp
  | .mk k v :: es, P, h, p, hp => by
    simp only [TabE] at h
    obtain ⟨⟨h1, h2⟩, h3⟩ := h
    simp only [partsE, List.mem_append] at hp
    rcases hp with hp | hp
    · rcases h2 with h2 | ⟨h2, -⟩
      · rw [parts_inl h2] at hp; cases hp
      · exact parts_sectFine v (P ++ [k]) h2 p hp
    · exact partsE_sectFine es P h3 p hp
end

/-- A document as a document of the grammar. -/
def rootOf (es : List Entry) : AstRoot Scalar :=
  ⟨kvsOf (astEntries (plain es)), ((partsE [] es).map Part.sect).map Sect.toSection⟩

theorem document_valid {es : List Entry} (h : TabE es) (hn : (names es).Nodup) :
    Valid (rootOf es) ∧ Regular (rootOf es) ∧ Uninterrupted (rootOf es) := by
  refine sects_valid ?_ ⟨by simp only [astEntries_names]; exact plain_nodup hn, inlE_valid _ (plain_inlE es h)⟩ ?_
  · rw [List.pairwise_cons]
    refine ⟨fun s hs => ?_, partsE_before es [] h hn⟩
    obtain ⟨p, hp, rfl⟩ := List.mem_map.mp hs
    exact header_before hn [] hp
  · intro s hs
    obtain ⟨p, hp, rfl⟩ := List.mem_map.mp hs
    refine ⟨?_, partsE_sectFine es [] h p hp⟩
    obtain ⟨e, -, hr⟩ := partsE_path es [] p hp
    intro e0
    have : vals p.header = [] := e0
    rw [this] at hr
    simp [vals] at hr

/-! ### the nodes -/

theorem sectionsNodes_append : ∀ (a b : List (AstSection Scalar)) (opened : List Path),
    sectionsNodes opened (a ++ b) = sectionsNodes opened a ++ sectionsNodes (openedBy opened a) b
  | [], b, _ => rfl
  | s :: a, b, o => by simp [sectionsNodes, openedBy, sectionsNodes_append a b]

/-- The nodes of key-values. -/
theorem mem_kvsNodes {p : Path} {n : Spec.Node Scalar} : ∀ (es : List Entry),
    (p, n) ∈ kvsNodes (kvsOf (astEntries es)) ↔ ∃ e ∈ es, (p, n) ∈ below [.key e.key.value] (valueNodes (astVal e.value))
  | [] => by simp [astEntries, kvsOf, kvsNodes]
  | .mk k v :: es => by
    have ih := mem_kvsNodes (p := p) (n := n) es
    simp only [kvsOf] at ih
    simp only [astEntries, kvsOf, List.map_cons, kvsNodes, kvNodes, assignNodes, List.mem_append, ih, List.mem_cons, exists_eq_or_imp,
      Entry.key, Entry.value]

/-- No array of tables opened so far lies on the way to a place, or below it. -/
def Free (opened : List Path) (P : List DKey) : Prop := ∀ q ∈ opened, ¬ q <+: keyPath P ∧ ¬ keyPath P <+: q

theorem free_named {opened : List Path} {P : List DKey} (hne : P ≠ []) (h : ∀ q ∈ opened, q <+: keyPath P → q = keyPath P) :
    named opened P = keyPath P :=
  named_free hne fun _ hq h1 _ hm => h1 (keyPath_inj (h _ hm (keyPath_prefix hq)))

/-- The nodes on the way to the table of a header. -/
theorem mem_way_keys {P : List DKey} {p : Path} {n : Spec.Node Scalar} :
    (p, n) ∈ wayNodes [] (keyPath P) ↔ p <+: keyPath P ∧ n = .table := by
  rw [mem_wayNodes]
  constructor
  · rintro (⟨rfl, rfl⟩ | ⟨q, s, rest, e, rfl, h⟩)
    · exact ⟨List.prefix_refl _, rfl⟩
    · rw [e]
      refine ⟨List.prefix_append _ _, ?_⟩
      have hs : s ∈ keyPath P := by rw [e]; simp
      obtain ⟨k, -, rfl⟩ := List.mem_map.mp hs
      cases rest with
      | nil => simpa [wayKind, eraseKind] using h.symm
      | cons a b => cases a <;> simpa [wayKind, eraseKind] using h.symm
  · rintro ⟨⟨r, e⟩, rfl⟩
    cases r with
    | nil => left; rw [List.append_nil] at e; exact ⟨by simpa using e, rfl⟩
    | cons s r =>
      right
      refine ⟨p, s, r, e.symm, rfl, ?_⟩
      have hs : s ∈ keyPath P := by rw [← e]; simp
      obtain ⟨k, -, rfl⟩ := List.mem_map.mp hs
      cases r with
      | nil => simp [wayKind, eraseKind]
      | cons a b => cases a <;> simp [wayKind, eraseKind]

/-- The nodes on the way to an element of an array of tables. -/
theorem mem_way_index {P : List DKey} {i : Nat} {p : Path} {n : Spec.Node Scalar} :
    (p, n) ∈ wayNodes [] (keyPath P ++ [.index i]) ↔
      (p <+: keyPath P ∧ p ≠ keyPath P ∧ n = .table) ∨ (p = keyPath P ∧ n = .array) ∨ (p = keyPath P ++ [.index i] ∧ n = .table) := by
  rw [mem_wayNodes]
  constructor
  · rintro (⟨rfl, rfl⟩ | ⟨q, s, rest, e, rfl, h⟩)
    · exact .inr (.inr ⟨rfl, rfl⟩)
    · rcases List.eq_nil_or_concat rest with rfl | ⟨r, x, rfl⟩
      · obtain ⟨e1, e2⟩ := List.append_inj' e rfl
        simp only [List.cons.injEq, and_true] at e2
        subst e2
        refine .inr (.inl ⟨e1.symm, ?_⟩)
        simpa [wayKind, eraseKind] using h.symm
      · rw [List.concat_eq_append, ← List.cons_append, ← List.append_assoc] at e
        obtain ⟨e1, e2⟩ := List.append_inj' e rfl
        have hs : s ∈ keyPath P := by rw [e1]; simp
        obtain ⟨k, -, rfl⟩ := List.mem_map.mp hs
        refine .inl ⟨by rw [e1]; exact List.prefix_append _ _, fun e0 => ?_, by simpa [wayKind, eraseKind] using h.symm⟩
        have := congrArg List.length e1
        rw [← e0] at this
        simp at this
  · rintro (⟨⟨r, e⟩, h, rfl⟩ | ⟨rfl, rfl⟩ | ⟨rfl, rfl⟩)
    · cases r with
      | nil => exact absurd (by simpa using e) h
      | cons s r =>
        have hs : s ∈ keyPath P := by rw [← e]; simp
        obtain ⟨k, -, rfl⟩ := List.mem_map.mp hs
        exact .inr ⟨p, .key k, r ++ [.index i], by rw [← e]; simp, rfl, by simp [wayKind, eraseKind]⟩
    · exact .inr ⟨_, .index i, [], rfl, rfl, by simp [wayKind, eraseKind]⟩
    · exact .inl ⟨rfl, rfl⟩

theorem below_below (a b : Path) (l : List (Path × Spec.Node Scalar)) : below a (below b l) = below (a ++ b) l := by
  simp [below, List.map_map]

theorem below_append (a : Path) (l m : List (Path × Spec.Node Scalar)) : below a (l ++ m) = below a l ++ below a m := by
  simp [below]

theorem below_cons (a p : Path) (n : Spec.Node Scalar) (l : List (Path × Spec.Node Scalar)) :
    below a ((p, n) :: l) = (a ++ p, n) :: below a l := by
  simp [below]

/-- The sections of parts. -/
def secsOf (ps : List Part) : List (AstSection Scalar) := (ps.map Part.sect).map Sect.toSection

theorem secsOf_append (a b : List Part) : secsOf (a ++ b) = secsOf a ++ secsOf b := by simp [secsOf]

theorem secsOf_cons (p : Part) (ps : List Part) : secsOf (p :: ps) = p.sect.toSection :: secsOf ps := rfl

theorem elements_nodes {P : List Key} (hne : P ≠ []) : ∀ (vs : List Value) (opened : List Path), (∀ v ∈ vs, ElementFine v) →
    (∀ q ∈ opened, q <+: keyPath (vals P) → q = keyPath (vals P)) →
    (∀ p n, (p, n) ∈ sectionsNodes opened (secsOf (vs.map fun v => (⟨true, P, entriesOf v⟩ : Part))) ↔
      (vs ≠ [] ∧ ((p <+: keyPath (vals P) ∧ p ≠ keyPath (vals P) ∧ n = .table) ∨ (p = keyPath (vals P) ∧ n = .array))) ∨
        (p, n) ∈ below (keyPath (vals P)) (itemsNodes (opened.count (keyPath (vals P))) (astItems vs))) ∧
    openedBy opened (secsOf (vs.map fun v => (⟨true, P, entriesOf v⟩ : Part))) = opened ++ List.replicate vs.length (keyPath (vals P))
  | [], opened, _, _ => by simp [secsOf, sectionsNodes, astItems, itemsNodes, below, openedBy]
  | v :: vs, opened, h, hf => by
    obtain ⟨es, rfl, -, h1⟩ := h v List.mem_cons_self
    have hn : named opened (vals P) = keyPath (vals P) := free_named (by simpa [vals] using hne) hf
    have hpath : sectionPath opened (Part.sect ⟨true, P, es⟩).toSection = keyPath (vals P) ++ [.index (opened.count (keyPath (vals P)))] := by
      simp only [sectionPath, Part.sect, Sect.toSection, Option.getD_some, if_true]
      rw [show P.map (·.value) = vals P from rfl, hn]
    have hafter : openedAfter opened (Part.sect ⟨true, P, es⟩).toSection = opened ++ [keyPath (vals P)] := by
      simp only [openedAfter, Part.sect, Sect.toSection, Option.getD_some, if_true]
      rw [show P.map (·.value) = vals P from rfl, hn]
    obtain ⟨i1, i2⟩ := elements_nodes hne vs (opened ++ [keyPath (vals P)]) (fun x hx => h x (List.mem_cons_of_mem _ hx)) (by
      intro q hq
      rcases List.mem_append.mp hq with hq | hq
      · exact hf q hq
      · rw [List.mem_singleton] at hq; exact fun _ => hq)
    have hcount : (opened ++ [keyPath (vals P)]).count (keyPath (vals P)) = opened.count (keyPath (vals P)) + 1 := by simp
    rw [hcount] at i1
    refine ⟨fun p n => ?_, ?_⟩
    · rw [List.map_cons, secsOf_cons, sectionsNodes, entriesOf, hpath, hafter, List.mem_append, List.mem_append, i1 p n, mem_way_index]
      simp only [astItems, itemsNodes, Spec.itemNodes, astVal, valueNodes, below_append, below_cons, below_below, List.append_nil,
        List.mem_append, List.mem_cons, Prod.mk.injEq]
      show (_ ∨ (p, n) ∈ below _ (kvsNodes (kvsOf (astEntries es)))) ∨ _ ↔ _
      constructor
      · rintro ((( h | h | h) | h) | h | h)
        · exact .inl ⟨by simp, .inl h⟩
        · exact .inl ⟨by simp, .inr h⟩
        · exact .inr (.inl (.inl h))
        · exact .inr (.inl (.inr h))
        · exact .inl ⟨by simp, h.2⟩
        · exact .inr (.inr h)
      · rintro (⟨-, h | h⟩ | (h | h) | h)
        · exact .inl (.inl (.inl h))
        · exact .inl (.inl (.inr (.inl h)))
        · exact .inl (.inl (.inr (.inr h)))
        · exact .inl (.inr h)
        · exact .inr (.inr h)
    · rw [List.map_cons, secsOf_cons, openedBy, entriesOf, hafter, i2, List.length_cons, List.replicate_succ]
      simp

theorem prefix_snoc {α : Type} {p l : List α} {a : α} : (p <+: l ++ [a] ∧ p ≠ l ++ [a]) ↔ p <+: l := by
  rw [List.prefix_concat_iff]
  constructor
  · rintro ⟨h | h, h'⟩
    · exact absurd h h'
    · exact h
  · intro h
    refine ⟨.inr h, fun e => ?_⟩
    have := h.length_le
    rw [e] at this
    simp at this
    omega

theorem keyPath_snoc (P : List Key) (k : Key) : keyPath (vals (P ++ [k])) = keyPath (vals P) ++ [.key k.value] := by
  simp [keyPath, vals]

mutual
/-- The nodes of the tables that a value is written as. -/
theorem parts_nodes : ∀ (v : Value) (P : List Key) (opened : List Path), P ≠ [] → Tab v → Free opened (vals P) →
    (∀ p n, (p, n) ∈ sectionsNodes opened (secsOf (parts P v)) ↔
      (p <+: keyPath (vals P) ∧ p ≠ keyPath (vals P) ∧ n = .table) ∨ (p, n) ∈ below (keyPath (vals P)) (valueNodes (astVal v))) ∧
    ∃ ext, openedBy opened (secsOf (parts P v)) = opened ++ ext ∧ ∀ q ∈ ext, keyPath (vals P) <+: q
  | .scalar s, P, _, _, h, _ => by simp [Tab] at h
  | .array .array vs, P, _, _, h, _ => by simp [Tab] at h
  | .array .arrayOfTable vs, P, opened, hne, h, hf => by
    simp only [Tab] at h
    obtain ⟨h1, h2⟩ := elements_nodes hne vs opened h.2 (fun q hq hp => absurd hp (hf q hq).1)
    have h0 : opened.count (keyPath (vals P)) = 0 := List.count_eq_zero.mpr fun hm => (hf _ hm).1 (List.prefix_refl _)
    rw [h0] at h1
    simp only [parts, astVal, valueNodes, below_cons, List.append_nil]
    refine ⟨fun p n => ?_, _, h2, fun q hq => ?_⟩
    · rw [h1 p n, List.mem_cons, Prod.mk.injEq]
      constructor
      · rintro (⟨-, h | h⟩ | h)
        · exact .inl h
        · exact .inr (.inl h)
        · exact .inr (.inr h)
      · rintro (h' | h' | h')
        · exact .inl ⟨h.1, .inl h'⟩
        · exact .inl ⟨h.1, .inr h'⟩
        · exact .inr h'
    · rw [(List.mem_replicate.mp hq).2]
      exact List.prefix_refl _
  | .table .inlineTable es, P, _, _, h, _ => by simp [Tab] at h
  | .table .keyValue es, P, _, _, h, _ => by simp [Tab] at h
  | .table .table es, P, opened, hne, h, hf => by
    simp only [Tab] at h
    have hfe : ∀ e ∈ es, Free opened (vals (P ++ [e.key])) := by
      intro e _ q hq
      rw [keyPath_snoc]
      obtain ⟨a, b⟩ := hf q hq
      refine ⟨fun hp => ?_, fun hp => b ((List.prefix_append _ _).trans hp)⟩
      rcases List.prefix_concat_iff.mp hp with e1 | hp
      · exact b (by rw [e1]; exact List.prefix_append _ _)
      · exact a hp
    obtain ⟨i1, ext, i2, i3⟩ := partsE_nodes es P opened h.2 h.1 hfe
    have i4 : ∀ q ∈ ext, keyPath (vals P) <+: q := by
      intro q hq
      obtain ⟨e, -, he⟩ := i3 q hq
      rw [keyPath_snoc] at he
      exact (List.prefix_append _ _).trans he
    have hall : ∀ p n, (p, n) ∈ below (keyPath (vals P)) (valueNodes (astVal (.table .table es))) ↔
        (p = keyPath (vals P) ∧ n = .table) ∨
        (p, n) ∈ below (keyPath (vals P)) (kvsNodes (kvsOf (astEntries (plain es)))) ∨
        ∃ e ∈ es, isSection e.value = true ∧ (p, n) ∈ below (keyPath (vals P)) (below [.key e.key.value] (valueNodes (astVal e.value))) := by
      intro p n
      simp only [astVal, valueNodes, below_cons, List.append_nil, List.mem_cons, Prod.mk.injEq]
      refine or_congr Iff.rfl ?_
      simp only [mem_below, mem_kvsNodes]
      constructor
      · rintro ⟨r, rfl, e, he, hr⟩
        cases hs : isSection e.value with
        | true => exact .inr ⟨e, he, hs, r, rfl, hr⟩
        | false => exact .inl ⟨r, rfl, e, mem_plain.mpr ⟨he, hs⟩, hr⟩
      · rintro (⟨r, rfl, e, he, hr⟩ | ⟨e, he, -, r, rfl, hr⟩)
        · exact ⟨r, rfl, e, (mem_plain.mp he).1, hr⟩
        · exact ⟨r, rfl, e, he, hr⟩
    rcases isOnly_cases es with ⟨k, v, rfl, hv⟩ | ho
    · have e0 : parts P (.table .table [.mk k v]) = partsE P [.mk k v] := by simp [parts, isOnly, hv]
      rw [e0]
      refine ⟨fun p n => ?_, ext, i2, i4⟩
      rw [i1 p n, hall p n, plain_only hv]
      simp only [astEntries, kvsOf, List.map_nil, kvsNodes, below, List.not_mem_nil, false_or]
      constructor
      · rintro (⟨-, h1, h2⟩ | h)
        · by_cases hp : p = keyPath (vals P)
          · exact .inr (.inl ⟨hp, h2⟩)
          · exact .inl ⟨h1, hp, h2⟩
        · exact .inr (.inr h)
      · rintro (⟨h1, -, h2⟩ | ⟨rfl, h2⟩ | h)
        · exact .inl ⟨⟨_, List.mem_cons_self, hv⟩, h1, h2⟩
        · exact .inl ⟨⟨_, List.mem_cons_self, hv⟩, List.prefix_refl _, h2⟩
        · exact .inr h
    · have e0 : parts P (.table .table es) = ⟨false, P, plain es⟩ :: partsE P es := by simp [parts, ho]
      have hn : named opened (vals P) = keyPath (vals P) := free_named (by simpa [vals] using hne) fun q hq hp => absurd hp (hf q hq).1
      have hpath : sectionPath opened (Part.sect ⟨false, P, plain es⟩).toSection = keyPath (vals P) := by
        simp only [sectionPath, Part.sect, Sect.toSection, Option.getD_some, Bool.false_eq_true, if_false]
        exact hn
      have hafter : openedAfter opened (Part.sect ⟨false, P, plain es⟩).toSection = opened := by
        simp [openedAfter, Part.sect, Sect.toSection]
      rw [e0, secsOf_cons]
      refine ⟨fun p n => ?_, ext, by rw [openedBy, hafter, i2], i4⟩
      rw [sectionsNodes, hpath, hafter, List.mem_append, List.mem_append, i1 p n, hall p n, mem_way_keys]
      show (_ ∨ (p, n) ∈ below _ (kvsNodes (kvsOf (astEntries (plain es))))) ∨ _ ↔ _
      constructor
      · rintro ((⟨h1, h2⟩ | h) | ⟨-, h1, h2⟩ | h)
        · by_cases hp : p = keyPath (vals P)
          · exact .inr (.inl ⟨hp, h2⟩)
          · exact .inl ⟨h1, hp, h2⟩
        · exact .inr (.inr (.inl h))
        · by_cases hp : p = keyPath (vals P)
          · exact .inr (.inl ⟨hp, h2⟩)
          · exact .inl ⟨h1, hp, h2⟩
        · exact .inr (.inr (.inr h))
      · rintro (⟨h1, -, h2⟩ | ⟨rfl, h2⟩ | h | h)
        · exact .inl (.inl ⟨h1, h2⟩)
        · exact .inl (.inl ⟨List.prefix_refl _, h2⟩)
        · exact .inl (.inr h)
        · exact .inr (.inr h)
/-- The nodes of the tables in a table. -/
theorem partsE_nodes : ∀ (es : List Entry) (P : List Key) (opened : List Path), TabE es → (names es).Nodup →
    (∀ e ∈ es, Free opened (vals (P ++ [e.key]))) →
    (∀ p n, (p, n) ∈ sectionsNodes opened (secsOf (partsE P es)) ↔
      ((∃ e ∈ es, isSection e.value = true) ∧ p <+: keyPath (vals P) ∧ n = .table) ∨
        ∃ e ∈ es, isSection e.value = true ∧ (p, n) ∈ below (keyPath (vals P)) (below [.key e.key.value] (valueNodes (astVal e.value)))) ∧
    ∃ ext, openedBy opened (secsOf (partsE P es)) = opened ++ ext ∧ ∀ q ∈ ext, ∃ e ∈ es, keyPath (vals (P ++ [e.key])) <+: q
  | [], P, opened, _, _, _ => by simp [partsE, secsOf, sectionsNodes, openedBy]
  | .mk k v :: es, P, opened, h, hn, hf => by
    simp only [TabE] at h
    obtain ⟨⟨-, h2⟩, h3⟩ := h
    simp only [names, List.map_cons, List.nodup_cons, Entry.key] at hn
    have hfk := hf (.mk k v) List.mem_cons_self
    simp only [Entry.key] at hfk
    rcases h2 with h2 | ⟨h2, -⟩
    · obtain ⟨i1, ext, i2, i3⟩ := partsE_nodes es P opened h3 hn.2 fun e he => hf e (List.mem_cons_of_mem _ he)
      have hs := inl_notSection h2
      rw [partsE, parts_inl h2, List.nil_append]
      refine ⟨fun p n => ?_, ext, i2, fun q hq => ?_⟩
      · rw [i1 p n]
        simp only [List.mem_cons, exists_eq_or_imp, Entry.value, hs, Bool.false_eq_true, false_and, false_or]
      · obtain ⟨e, he, r⟩ := i3 q hq
        exact ⟨e, List.mem_cons_of_mem _ he, r⟩
    · obtain ⟨j1, ext1, j2, j3⟩ := parts_nodes v (P ++ [k]) opened (by simp) h2 hfk
      have hfree : ∀ e ∈ es, Free (opened ++ ext1) (vals (P ++ [e.key])) := by
        intro e he q hq
        rcases List.mem_append.mp hq with hq | hq
        · exact hf e (List.mem_cons_of_mem _ he) q hq
        · have := j3 q hq
          rw [keyPath_snoc] at this ⊢
          have hne : Step.key k.value ≠ Step.key e.key.value := fun h0 => hn.1 (List.mem_map.mpr ⟨e, he, by injection h0 with h0; exact h0.symm⟩)
          exact ⟨apart hne this (List.prefix_refl _), apart hne.symm (List.prefix_refl _) this⟩
      obtain ⟨i1, ext, i2, i3⟩ := partsE_nodes es P (opened ++ ext1) h3 hn.2 hfree
      have hs := tab_section h2
      rw [partsE, secsOf_append]
      refine ⟨fun p n => ?_, ext1 ++ ext, ?_, fun q hq => ?_⟩
      · rw [sectionsNodes_append, j2, List.mem_append, i1 p n, j1 p n]
        simp only [keyPath_snoc, below_below]
        rw [← and_assoc, prefix_snoc]
        simp only [List.mem_cons, exists_eq_or_imp, Entry.value, Entry.key, hs, true_and, true_or]
        constructor
        · rintro ((h | h) | ⟨-, h⟩ | h)
          · exact .inl h
          · exact .inr (.inl h)
          · exact .inl h
          · exact .inr (.inr h)
        · rintro (h | h | h)
          · exact .inl (.inl h)
          · exact .inl (.inr h)
          · exact .inr (.inr h)
      · rw [openedBy_append, j2, i2, List.append_assoc]
      · rcases List.mem_append.mp hq with hq | hq
        · exact ⟨.mk k v, List.mem_cons_self, j3 q hq⟩
        · obtain ⟨e, he, r⟩ := i3 q hq
          exact ⟨e, List.mem_cons_of_mem _ he, r⟩
end

/-- The nodes of the document that is written are those of the table. -/
theorem document_nodes {es : List Entry} (h : TabE es) (hn : (names es).Nodup) (p : Path) (n : Spec.Node Scalar) :
    (p, n) ∈ docNodes (rootOf es) ↔ (p, n) ∈ valueNodes (astVal (.table .table es)) := by
  obtain ⟨i1, -⟩ := partsE_nodes es [] [] h hn (fun e _ q hq => by cases hq)
  have i1 := i1 p n
  simp only [vals, List.map_nil, keyPath, List.prefix_nil] at i1
  simp only [rootOf, docNodes, astVal, valueNodes]
  rw [List.cons_append, List.mem_cons, List.mem_cons, List.mem_append]
  have : (p, n) ∈ sectionsNodes [] (((partsE [] es).map Part.sect).map Sect.toSection) ↔ _ := i1
  rw [this]
  simp only [mem_kvsNodes, Prod.mk.injEq, mem_below, List.nil_append]
  constructor
  · rintro (h | ⟨e, he, h⟩ | ⟨-, h1, h2⟩ | ⟨e, he, -, r, rfl, h⟩)
    · exact .inl h
    · exact .inr ⟨e, (mem_plain.mp he).1, h⟩
    · exact .inl ⟨h1, h2⟩
    · exact .inr ⟨e, he, h⟩
  · rintro (h | ⟨e, he, h⟩)
    · exact .inl h
    · cases hs : isSection e.value with
      | true => exact .inr (.inr (.inr ⟨e, he, hs, p, rfl, h⟩))
      | false => exact .inr (.inl ⟨e, mem_plain.mpr ⟨he, hs⟩, h⟩)

end Tombi.Serializing
