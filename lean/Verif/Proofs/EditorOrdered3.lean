import Verif.Proofs.EditorOrdered2
/-! After a run of the editor, keys are in the order that the schema says: the document. -/
namespace Tombi.Editing
open SyntaxKind
open Tombi.Format (AstKey)
open Tombi.Formatter (Node Body Section Doc Comma Text Env docOf childrenOf NormN NormP)
open Tombi.Reading (docKeys pairKeys KeepsValue Scalar keyOr valueOf itemsOf keyValuesOf convert headComments astRoot)
open Tombi.Spec (stepOf pathAt OrderLe firstKey KeysInOrder TableInOrder ValueInOrder ItemsInOrder AllInOrder SectionInOrder SectionObeys TableObeys PlainSchemas PlainSteps startKeys groupKeys
  schemaAt schemaBelow lookup child keyPath sectionPath openedBy)

variable {S : Type}

theorem section_fuel {d : Doc} {s : Section} (h : s ∈ d.sections) : bodyLength s.body < docFuel d := by
  unfold docFuel
  obtain ⟨l, r, e⟩ := List.append_of_mem h
  rw [e, List.map_append, List.map_cons, List.sum_append, List.sum_cons]
  omega

theorem body_length (d : Doc) : bodyLength d.body < docFuel d := by
  unfold docFuel
  omega

theorem wf_headers {d : Doc} (hw : d.WF) (v : TomlVersion) : Spec.HasHeaders (astRoot v d).sections := by
  intro s hs
  obtain ⟨s0, h0, rfl⟩ := List.mem_map.mp (show s ∈ d.sections.map (astSection v) from hs)
  have := (hw.sections s0 h0).header
  cases hh : s0.header with
  | nil => exact absurd hh this
  | cons k ks => exact ⟨keyOr v k, ks.map (keyOr v), by rw [astSection, hh]; rfl⟩

theorem wf_keys {d : Doc} (hw : d.WF) (v : TomlVersion) : Spec.HasKeys (astRoot v d) := by
  refine ⟨fun s hs e => ?_, fun kv hkv x e => ?_, fun s hs kv hkv x e => ?_⟩
  · obtain ⟨k, ks, h⟩ := wf_headers hw v s hs
    rw [h] at e
    cases e
  · subst e
    exact keyValues_named v d.body _ _ hw.body [] x hkv rfl
  · obtain ⟨s0, h0, rfl⟩ := List.mem_map.mp (show s ∈ d.sections.map (astSection v) from hs)
    subst e
    exact keyValues_named v s0.body _ _ (hw.sections s0 h0).body [] x hkv rfl

/-- What is known on a document. -/
structure Sortable (v : TomlVersion) (fuel : Nat) (d : Doc) : Prop where
  wf : d.WF
  errors : (astRoot v d).tree.2 = []
  flat : Spec.Flat (astRoot v d).sections
  near : Spec.Near (astRoot v d).sections
  fuel : docFuel d ≤ fuel

theorem Sortable.regular {v : TomlVersion} {fuel : Nat} {d : Doc} (h : Sortable v fuel d) : Spec.Regular (astRoot v d) :=
  flat_regular [] _ h.flat (wf_headers h.wf v)

theorem sortSection_ordered {w : EditWorld S} (hp : PlainSchemas w) {fuel : Nat} {v : TomlVersion} {schema : Option S} {d : Doc}
    (hd : Sortable v fuel d) {before after : List Section} {s s' : Section} (hs : d.sections = before ++ s :: after)
    (h : sortSection w fuel v schema (astRoot v d).tree.1.value (before.map (astSection v)).reverse s = .ok s') :
    SectionInOrder w v schema d.sections s' := by
  have hmem : s ∈ d.sections := by rw [hs]; simp
  have hsec : (astRoot v d).sections = before.map (astSection v) ++ astSection v s :: after.map (astSection v) := by
    show d.sections.map (astSection v) = _
    rw [hs]; simp
  obtain ⟨acc, h1, h2⟩ := header_path (by rw [← hsec]; exact hd.flat) (by rw [← hsec]; exact hd.near) (by rw [← hsec]; exact wf_headers hd.wf v)
  obtain ⟨k, es, ht⟩ := section_table hd.errors (wf_keys hd.wf v) hd.regular hsec
  unfold sortSection at h
  rw [h1] at h
  simp only at h
  cases hf : followSchema w fuel (astRoot v d).tree.1.value acc [] schema with
  | error e => rw [hf] at h; cases h
  | ok r =>
    rw [hf] at h
    obtain ⟨schema', rfl, ha⟩ := followSchema_plain hp.toPlainSteps acc rfl (by rw [h2]; exact ht) hf
    simp only at h
    rw [List.nil_append] at h
    have hh : HoldsKvs v (.table k es) s.body := by
      intro keys x hm
      obtain ⟨k1, k2⟩ := (doc_within hd.errors (wf_keys hd.wf v) hd.regular).2 _ _ _ hsec keys x hm
      refine ⟨k1, fun q kd hq hv => ?_⟩
      have := k2 q kd hq hv
      rwa [List.append_assoc, kindAt_append ht] at this
    have hl : bodyLength s.body < fuel := Nat.lt_of_lt_of_le (section_fuel hmem) hd.fuel
    cases hb : sortEntries w fuel v acc schema' (.table k es) s.body with
    | error e => rw [hb] at h; cases h
    | ok b =>
      rw [hb] at h
      cases h
      have i1 := sortEntries_ordered hp fuel v s.body acc _ schema' _ _ _ b ha (hd.wf.sections s hmem).body hl hh hb
      refine ⟨before, s, after, acc, hs, rfl, rfl, h2, ?_, orderTable_items _ i1⟩
      rw [hp.directive]
      cases ha
      refine tableObeys_inOrder hp (acc := acc) (orderTable_inOrder hp.toPlainSteps (fun _ => .table k es) (fun _ => ⟨k, es, rfl⟩) (fun p hpp => ?_) (by omega))
      rw [sortEntries_paths s.body _ _ b (hd.wf.sections s hmem).body hb] at hpp
      exact Nat.lt_of_le_of_lt (bodyPaths_length v s.body p hpp) hl

theorem sortEach_ordered {w : EditWorld S} (hp : PlainSchemas w) {fuel : Nat} {v : TomlVersion} {schema : Option S} {d : Doc}
    (hd : Sortable v fuel d) : (ss : List Section) → ∀ before ss', d.sections = before ++ ss →
    sortEach w fuel v schema (astRoot v d).tree.1.value (before.map (astSection v)).reverse ss = .ok ss' →
    ∀ s' ∈ ss', SectionInOrder w v schema d.sections s'
  | [], before, ss', hs, h, s', hm => by
    rw [sortEach] at h
    cases h
    cases hm
  | s :: ss, before, ss', hs, h, s', hm => by
    rw [sortEach] at h
    cases h1 : sortSection w fuel v schema (astRoot v d).tree.1.value (before.map (astSection v)).reverse s with
    | error e => rw [h1] at h; cases h
    | ok s1 =>
      rw [h1] at h
      simp only at h
      cases h2 : sortEach w fuel v schema (astRoot v d).tree.1.value (astSection v s :: (before.map (astSection v)).reverse) ss with
      | error e => rw [h2] at h; cases h
      | ok ss1 =>
        rw [h2] at h
        cases h
        rcases List.mem_cons.mp hm with rfl | hm
        · exact sortSection_ordered hp hd hs h1
        · refine sortEach_ordered hp hd ss (before ++ [s]) ss1 (by rw [hs]; simp) ?_ s' hm
          rw [← h2]
          congr 1
          simp

theorem groupTree_table (v : TomlVersion) (items : List GroupItem) : ∃ kind es, groupTree v items = .table kind es := by
  unfold groupTree
  split
  · exact ⟨_, _, rfl⟩
  · exact ⟨_, _, rfl⟩

theorem moveTop_ordered {w : EditWorld S} {v : TomlVersion} {schema : Option S} (n : Nat) {d : Doc} (source : List Section)
    (h1 : ItemsInOrder w v schema d.body) (h2 : ∀ s ∈ d.sections, SectionInOrder w v schema source s) :
    ItemsInOrder w v schema (moveTop n d).body ∧ bodyPaths v (moveTop n d).body = bodyPaths v d.body ∧
      ∀ s ∈ (moveTop n d).sections, SectionInOrder w v schema source s := by
  unfold moveTop
  split
  · rename_i f x c rest e
    split
    · rw [e, ItemsInOrder] at h1
      refine ⟨?_, ?_, h2⟩
      · rw [ItemsInOrder, ItemsInOrder, value_dropLeading]
        exact h1
      · rw [e, bodyPaths, bodyPaths, bodyPaths]
        congr 1
        cases x <;> rfl
    · exact ⟨h1, rfl, h2⟩
  · rename_i s ss e1 e2
    split
    · refine ⟨?_, by rw [e1]; rfl, fun s' hs' => ?_⟩
      · rw [ItemsInOrder]; rw [e1] at h1; exact h1
      · rcases List.mem_cons.mp hs' with rfl | hs'
        · exact h2 s (by rw [e2]; exact List.mem_cons_self)
        · exact h2 s' (by rw [e2]; exact List.mem_cons_of_mem _ hs')
    · exact ⟨h1, rfl, h2⟩
  · exact ⟨h1, rfl, h2⟩

theorem placed_ordered {w : EditWorld S} {v : TomlVersion} {schema : Option S} {old ss source : List Section}
    (h : ∀ s ∈ ss, SectionInOrder w v schema source s) : ∀ s ∈ placeSections old ss, SectionInOrder w v schema source s := by
  cases ss with
  | nil => exact fun _ h => (nomatch h)
  | cons s ss =>
    intro s' hs'
    rw [placeSections] at hs'
    rcases List.mem_cons.mp hs' with rfl | hs'
    · exact h s List.mem_cons_self
    · obtain ⟨s1, hs1, rfl⟩ := List.mem_map.mp hs'
      exact h s1 (List.mem_cons_of_mem _ hs1)

/-- The keys of a formatted document are in the order that the schema says. -/
theorem sortTree_ordered {w : EditWorld S} (hp : PlainSchemas w) {fuel : Nat} {v : TomlVersion} {schema : Option S} {root : Green} {d : Doc}
    (hd : Sortable v fuel (docOf root)) (he : (convert v (docOf root)).2 = []) (h : sortTree w fuel v schema root = .ok d) :
    AllInOrder w v schema d.body ∧ ∀ s ∈ d.sections, SectionInOrder w v schema (docOf root).sections s := by
  unfold sortTree at h
  simp only at h
  rw [he] at h
  simp only [List.isEmpty_nil, if_true] at h
  have e : (convert v (docOf root)).1 = (astRoot v (docOf root)).tree.1 := rfl
  rw [e] at h
  have hl : bodyLength (docOf root).body < fuel := Nat.lt_of_lt_of_le (body_length _) hd.fuel
  cases h1 : sortEntries w fuel v [] schema (astRoot v (docOf root)).tree.1.value (docOf root).body with
  | error e => rw [h1] at h; cases h
  | ok b =>
    rw [h1] at h
    simp only at h
    cases h2 : sortEach w fuel v schema (astRoot v (docOf root)).tree.1.value [] (docOf root).sections with
    | error e => rw [h2] at h; cases h
    | ok ss =>
      rw [h2] at h
      cases h
      have i1 := sortEntries_ordered hp fuel v _ [] schema schema _ _ _ b rfl hd.wf.body hl
        (doc_within hd.errors (wf_keys hd.wf v) hd.regular).1 h1
      have i2 := sortEach_ordered hp hd _ [] ss rfl h2
      obtain ⟨m1, m2, m3⟩ := moveTop_ordered (topBreaks (childrenOf root)) (d := ⟨b, ss⟩) (docOf root).sections i1 i2
      unfold orderRoot
      rw [hp.directive]
      rw [if_neg (by simp)]
      refine ⟨⟨?_, orderTable_items _ m1⟩, ?_⟩
      · refine tableObeys_inOrder hp (acc := []) (orderTable_inOrder hp.toPlainSteps (groupTree v) (groupTree_table v) (fun p hpp => ?_) (by omega))
        rw [m2, sortEntries_paths _ _ _ b hd.wf.body h1] at hpp
        exact Nat.lt_of_le_of_lt (bodyPaths_length v _ p hpp) hl
      · intro s hs
        simp only at hs
        split at hs
        · exact m3 s hs
        · refine placed_ordered (fun s hs => m3 s ?_) s hs
          obtain ⟨i, -, hi⟩ := List.mem_filterMap.mp hs
          exact List.mem_of_getElem? hi

/-! ### orders from comments and settings -/

theorem sortSection_obeys {w : EditWorld S} (hp : PlainSteps w) {fuel : Nat} {v : TomlVersion} {schema : Option S} {d : Doc}
    (hd : Sortable v fuel d) {before after : List Section} {s s' : Section} (hs : d.sections = before ++ s :: after)
    (h : sortSection w fuel v schema (astRoot v d).tree.1.value (before.map (astSection v)).reverse s = .ok s') :
    SectionObeys w v schema d.sections s' := by
  have hmem : s ∈ d.sections := by rw [hs]; simp
  have hsec : (astRoot v d).sections = before.map (astSection v) ++ astSection v s :: after.map (astSection v) := by
    show d.sections.map (astSection v) = _
    rw [hs]; simp
  obtain ⟨acc, h1, h2⟩ := header_path (by rw [← hsec]; exact hd.flat) (by rw [← hsec]; exact hd.near) (by rw [← hsec]; exact wf_headers hd.wf v)
  obtain ⟨k, es, ht⟩ := section_table hd.errors (wf_keys hd.wf v) hd.regular hsec
  unfold sortSection at h
  rw [h1] at h
  simp only at h
  cases hf : followSchema w fuel (astRoot v d).tree.1.value acc [] schema with
  | error e => rw [hf] at h; cases h
  | ok r =>
    rw [hf] at h
    obtain ⟨schema', rfl, ha⟩ := followSchema_plain hp acc rfl (by rw [h2]; exact ht) hf
    simp only at h
    rw [List.nil_append] at h
    have hl : bodyLength s.body < fuel := Nat.lt_of_lt_of_le (section_fuel hmem) hd.fuel
    cases hb : sortEntries w fuel v acc schema' (.table k es) s.body with
    | error e => rw [hb] at h; cases h
    | ok b =>
      rw [hb] at h
      cases h
      refine ⟨before, s, after, acc, hs, rfl, rfl, h2, ?_⟩
      cases ha
      refine orderTable_inOrder hp (fun _ => .table k es) (fun _ => ⟨k, es, rfl⟩) (fun p hpp => ?_) (by omega)
      rw [sortEntries_paths s.body _ _ b (hd.wf.sections s hmem).body hb] at hpp
      exact Nat.lt_of_le_of_lt (bodyPaths_length v s.body p hpp) hl

theorem sortEach_obeys {w : EditWorld S} (hp : PlainSteps w) {fuel : Nat} {v : TomlVersion} {schema : Option S} {d : Doc}
    (hd : Sortable v fuel d) : (ss : List Section) → ∀ before ss', d.sections = before ++ ss →
    sortEach w fuel v schema (astRoot v d).tree.1.value (before.map (astSection v)).reverse ss = .ok ss' →
    ∀ s' ∈ ss', SectionObeys w v schema d.sections s'
  | [], before, ss', hs, h, s', hm => by
    rw [sortEach] at h
    cases h
    cases hm
  | s :: ss, before, ss', hs, h, s', hm => by
    rw [sortEach] at h
    cases h1 : sortSection w fuel v schema (astRoot v d).tree.1.value (before.map (astSection v)).reverse s with
    | error e => rw [h1] at h; cases h
    | ok s1 =>
      rw [h1] at h
      simp only at h
      cases h2 : sortEach w fuel v schema (astRoot v d).tree.1.value (astSection v s :: (before.map (astSection v)).reverse) ss with
      | error e => rw [h2] at h; cases h
      | ok ss1 =>
        rw [h2] at h
        cases h
        rcases List.mem_cons.mp hm with rfl | hm
        · exact sortSection_obeys hp hd hs h1
        · refine sortEach_obeys hp hd ss (before ++ [s]) ss1 (by rw [hs]; simp) ?_ s' hm
          rw [← h2]
          congr 1
          simp

theorem moveTop_obeys {w : EditWorld S} {v : TomlVersion} {schema : Option S} (n : Nat) {d : Doc} (source : List Section)
    (h2 : ∀ s ∈ d.sections, SectionObeys w v schema source s) :
    bodyPaths v (moveTop n d).body = bodyPaths v d.body ∧ ∀ s ∈ (moveTop n d).sections, SectionObeys w v schema source s := by
  unfold moveTop
  split
  · rename_i f x c rest e
    split
    · refine ⟨?_, h2⟩
      rw [e, bodyPaths, bodyPaths, bodyPaths]
      congr 1
      cases x <;> rfl
    · exact ⟨rfl, h2⟩
  · rename_i s ss e1 e2
    split
    · refine ⟨by rw [e1]; rfl, fun s' hs' => ?_⟩
      rcases List.mem_cons.mp hs' with rfl | hs'
      · exact h2 s (by rw [e2]; exact List.mem_cons_self)
      · exact h2 s' (by rw [e2]; exact List.mem_cons_of_mem _ hs')
    · exact ⟨rfl, h2⟩
  · exact ⟨rfl, h2⟩

theorem placed_obeys {w : EditWorld S} {v : TomlVersion} {schema : Option S} {old ss source : List Section}
    (h : ∀ s ∈ ss, SectionObeys w v schema source s) : ∀ s ∈ placeSections old ss, SectionObeys w v schema source s := by
  cases ss with
  | nil => exact fun _ h => (nomatch h)
  | cons s ss =>
    intro s' hs'
    rw [placeSections] at hs'
    rcases List.mem_cons.mp hs' with rfl | hs'
    · exact h s List.mem_cons_self
    · obtain ⟨s1, hs1, rfl⟩ := List.mem_map.mp hs'
      exact h s1 (List.mem_cons_of_mem _ hs1)

theorem obeys_off {w : EditWorld S} {v : TomlVersion} {schema : Option S} {acc : List Accessor} {directive : Option OrderOverride} {b : Body}
    (h : (directive.map (·.disabled)).getD false = true) : TableObeys w v schema acc directive b := by
  intro le ho
  cases directive with
  | none => cases h
  | some x =>
    simp only [Option.map_some, Option.getD_some] at h
    unfold Spec.orderFor at ho
    simp [h] at ho

/-- The keys of a formatted document are in the order for their table. -/
theorem sortTree_obeys {w : EditWorld S} (hp : PlainSteps w) {fuel : Nat} {v : TomlVersion} {schema : Option S} {root : Green} {d : Doc}
    (hd : Sortable v fuel (docOf root)) (he : (convert v (docOf root)).2 = []) (h : sortTree w fuel v schema root = .ok d) :
    TableObeys w v schema [] (w.tableDirective (headComments (docOf root).body)) d.body ∧
      ∀ s ∈ d.sections, SectionObeys w v schema (docOf root).sections s := by
  unfold sortTree at h
  simp only at h
  rw [he] at h
  simp only [List.isEmpty_nil, if_true] at h
  have e : (convert v (docOf root)).1 = (astRoot v (docOf root)).tree.1 := rfl
  rw [e] at h
  have hl : bodyLength (docOf root).body < fuel := Nat.lt_of_lt_of_le (body_length _) hd.fuel
  cases h1 : sortEntries w fuel v [] schema (astRoot v (docOf root)).tree.1.value (docOf root).body with
  | error e => rw [h1] at h; cases h
  | ok b =>
    rw [h1] at h
    simp only at h
    cases h2 : sortEach w fuel v schema (astRoot v (docOf root)).tree.1.value [] (docOf root).sections with
    | error e => rw [h2] at h; cases h
    | ok ss =>
      rw [h2] at h
      cases h
      have i2 := sortEach_obeys hp hd _ [] ss rfl h2
      obtain ⟨m2, m3⟩ := moveTop_obeys (topBreaks (childrenOf root)) (d := ⟨b, ss⟩) (docOf root).sections i2
      unfold orderRoot
      split
      · rename_i hoff
        exact ⟨obeys_off hoff, m3⟩
      · refine ⟨orderTable_inOrder hp (groupTree v) (groupTree_table v) (fun p hpp => ?_) (by omega), ?_⟩
        · rw [m2, sortEntries_paths _ _ _ b hd.wf.body h1] at hpp
          exact Nat.lt_of_le_of_lt (bodyPaths_length v _ p hpp) hl
        · intro s hs
          simp only at hs
          split at hs
          · exact m3 s hs
          · refine placed_obeys (fun s hs => m3 s ?_) s hs
            obtain ⟨i, -, hi⟩ := List.mem_filterMap.mp hs
            exact List.mem_of_getElem? hi

/-! ### as text -/

/-- Sorting adds no keys. -/
theorem sortTree_docKeys {w : EditWorld S} {fuel : Nat} {v : TomlVersion} {schema : Option S} {root : Green} {d : Doc}
    (hw : (docOf root).WF) (h : sortTree w fuel v schema root = .ok d) : ∀ k ∈ docKeys d, k ∈ docKeys (docOf root) := by
  have hc : DocIn (fun _ => True) (docOf root) := fun _ _ _ => trivial
  unfold sortTree at h
  simp only at h
  split at h
  · cases h1 : sortEntries w fuel v [] schema (convert v (docOf root)).1.value (docOf root).body with
    | error e => rw [h1] at h; cases h
    | ok b =>
      rw [h1] at h
      simp only at h
      cases h2 : sortEach w fuel v schema (convert v (docOf root)).1.value [] (docOf root).sections with
      | error e => rw [h2] at h; cases h
      | ok ss =>
        rw [h2] at h
        cases h
        have hd := (docIn_iff _).mp hc
        have r1 := sortEntries_re w (arrays := true) (.inl rfl) fuel v _ _ _ _ _ _ b hw.body hd.1 h1
        have r2 := sortEach_re w (arrays := true) (.inl rfl) _ _ ss (fun s hs => ⟨hw.sections s hs, section_bodyIn (hd.2 s hs)⟩) h2
        obtain ⟨-, m2⟩ := moveTop_value (topBreaks (childrenOf root)) v ⟨b, ss⟩
        have hm : ∀ k ∈ docKeys (moveTop (topBreaks (childrenOf root)) ⟨b, ss⟩), k ∈ docKeys (docOf root) := by
          rw [m2]
          intro k hk
          unfold docKeys at hk ⊢
          rcases List.mem_append.1 hk with hk | hk
          · exact List.mem_append_left _ ((r1.docKeys.1 rfl).mem_iff.1 hk)
          · exact List.mem_append_right _ (r2.keys.mem_iff.1 hk)
        generalize moveTop (topBreaks (childrenOf root)) ⟨b, ss⟩ = d' at hm
        intro k hk
        refine hm k ?_
        unfold orderRoot at hk
        split at hk
        · exact hk
        · unfold docKeys at hk ⊢
          rcases List.mem_append.1 hk with hk | hk
          · have hbody : Re (fun _ => True) true true d'.body (orderTable (fun items =>
                tableOrder w fuel v (groupTree v items) [] schema (w.tableDirective (headComments (docOf root).body)) items) d'.body) :=
              orderTable_re _ (fun items rs hr => tableOrder_perm hr) fun _ _ _ => trivial
            exact List.mem_append_left _ ((hbody.docKeys.1 rfl).mem_iff.1 hk)
          · refine List.mem_append_right _ ?_
            simp only at hk
            split at hk
            · exact hk
            · have hk' : k ∈ sectionKeys (placeSections d'.sections (pick d'.sections (some _))) := hk
              rw [(placed_sections v _ _).2] at hk'
              obtain ⟨s, hm, hk'⟩ := List.mem_flatMap.1 hk'
              refine List.mem_flatMap.2 ⟨s, ?_, hk'⟩
              obtain ⟨i, -, hi⟩ := List.mem_filterMap.1 hm
              exact List.mem_of_getElem? hi
  · cases h
    exact fun _ h => h

theorem firstKey_addTrailing (v : TomlVersion) (n : Node) (c : Option Text) : firstKey v (n.addTrailing c) = firstKey v n := by
  cases n with
  | pair l ks src n => cases ks <;> rfl
  | _ => rfl

theorem firstKey_norm {E : Env} {v : TomlVersion} {n n' : Node} (hk : ∀ w ∈ n.words, KeepsValue E v w) (hd : Reading.Decoded v (pairKeys (.item none n none .nil)))
    (h : NormN E n n') : firstKey v n' = firstKey v n := by
  cases n with
  | pair l ks s n =>
    rw [NormN] at h
    obtain ⟨_, v', rfl, hv⟩ := h
    rw [pairKeys] at hd
    have := Reading.keyOr_kept (ks := ks) (fun k hm => hd k (by simp [hm])) (fun w hw => hk w (by simp [Node.words, hw]))
    cases ks with
    | nil => rfl
    | cons k ks =>
      simp only [List.map_cons, List.cons.injEq] at this
      simp only [List.map_cons, firstKey, this.1]
  | lit => rw [NormN] at h; subst h; rfl
  | array => rw [NormN] at h; obtain ⟨_, _, rfl, -⟩ := h; rfl
  | table => rw [NormN] at h; obtain ⟨_, _, rfl, -⟩ := h; rfl

theorem startKeys_norm {E : Env} {v : TomlVersion} : {prev : Formatter.Prev} → (b : Body) → ∀ {b'},
    (∀ w ∈ b.words, KeepsValue E v w) → Reading.Decoded v (pairKeys b) → NormP E prev b b' → startKeys v b' = startKeys v b
  | _, .nil, b', hk, hd, h => by rw [NormP] at h; subst h; rfl
  | _, .dangling n cs rest, b', hk, hd, h => by
    rw [NormP] at h
    obtain ⟨rest', rfl, hr⟩ := h
    rw [pairKeys] at hd
    rw [startKeys, startKeys, startKeys_norm rest (fun w hw => hk w (by simp [Body.words, hw])) hd hr]
  | _, .item f n c rest, b', hk, hd, h => by
    rw [NormP] at h
    obtain ⟨n', rest', rfl, hn, hr⟩ := h
    have hd2 : Reading.Decoded v (pairKeys rest) := by
      intro k hm
      refine hd k ?_
      cases n <;> simp [pairKeys, hm]
    have hd1 : Reading.Decoded v (pairKeys (.item none n none .nil)) := by
      intro k hm
      refine hd k ?_
      cases n <;> simp [pairKeys] at hm ⊢
      grind
    have e := firstKey_norm (fun w hw => hk w (by simp [Body.words, hw])) hd1 hn
    have ih := startKeys_norm rest (fun w hw => hk w (by simp [Body.words, hw])) hd2 hr
    cases f with
    | none => rw [Option.map_none, startKeys, startKeys, firstKey_addTrailing, e, ih]
    | some x => rw [Option.map_some, startKeys, startKeys, firstKey_addTrailing, e, ih]

theorem keys_normP {E : Env} {v : TomlVersion} {le : Accessor → Accessor → Prop} {prev : Formatter.Prev} (b : Body) {b' : Body}
    (hk : ∀ w ∈ b.words, KeepsValue E v w) (hd : Reading.Decoded v (pairKeys b)) (h : NormP E prev b b') (ho : KeysInOrder le v b) :
    KeysInOrder le v b' := by
  unfold KeysInOrder groupKeys at ho ⊢
  rwa [startKeys_norm b hk hd h]

end Tombi.Editing
