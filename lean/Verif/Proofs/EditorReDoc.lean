import Verif.Proofs.EditorReSort
import Verif.Proofs.EditorGathered
/-! What a run of the editor keeps of a document. -/
namespace Tombi.Editing
open SyntaxKind
open Tombi.Format (AstKey)
open Tombi.Formatter (Node Body Section Doc Comma Text Word Prev commentWords trailingWords commaWords keyWords NamesBeforeDots docOf
  childrenOf NoComma)
open Tombi.Reading (Scalar keyOr convert headComments)

variable {C : Text → Prop} {arrays : Bool} {S : Type}

/-- The comments of a document are in `C`. -/
def DocIn (C : Text → Prop) (d : Doc) : Prop := ∀ f t, Word.comment f t ∈ d.words → C t

theorem docIn_iff (d : Doc) : DocIn C d ↔ BodyIn C d.body ∧ ∀ s ∈ d.sections, ∀ f t, Word.comment f t ∈ s.words → C t := by
  unfold DocIn BodyIn Doc.words
  simp only [List.mem_append, List.mem_flatten, List.mem_map]
  constructor
  · exact fun h => ⟨fun f t ht => h f t (.inl ht), fun s hs f t ht => h f t (.inr ⟨_, ⟨s, hs, rfl⟩, ht⟩)⟩
  · rintro ⟨h1, h2⟩ f t (ht | ⟨_, ⟨s, hs, rfl⟩, ht⟩)
    · exact h1 f t ht
    · exact h2 s hs f t ht

theorem noDot_section (s : Section) : NoDot s.words := by
  unfold Section.words
  rw [List.append_assoc, List.append_assoc]
  refine (noDot_comments _).append ?_
  cases s.isArray <;> simp [NoDot]

theorem noDot_flatten (ss : List Section) : NoDot (ss.map Section.words).flatten := by
  induction ss with
  | nil => simp [NoDot]
  | cons s ss ih => exact (noDot_section s).append ih

theorem names_flatten (ss : List Section) : NamesBeforeDots (ss.map Section.words).flatten ↔ ∀ s ∈ ss, NamesBeforeDots s.words := by
  induction ss with
  | nil => simp [names_plain]
  | cons s ss ih => rw [List.map_cons, List.flatten_cons, names_append (noDot_flatten ss), ih]; simp

theorem names_doc (d : Doc) : NamesBeforeDots d.words ↔ NamesBeforeDots d.body.words ∧ ∀ s ∈ d.sections, NamesBeforeDots s.words := by
  unfold Doc.words
  rw [names_append (noDot_flatten _), names_flatten]

theorem names_section (s : Section) : NamesBeforeDots s.words ↔ NamesBeforeDots (keyWords s.header) ∧ NamesBeforeDots s.body.words := by
  unfold Section.words
  have hk : ∀ (a : Bool), (if a then DOUBLE_BRACKET_START else BRACKET_START) ≠ DOT ∧
      (if a then DOUBLE_BRACKET_END else BRACKET_END) ≠ DOT := by decide
  rw [names_append (noDot_body _), names_append (by simpa [NoDot] using (hk s.isArray).2),
    names_append (by simpa [NoDot] using (hk s.isArray).1), names_mark (noDot_keys _), names_mark (noDot_trailing _)]
  exact ⟨fun h => ⟨h.1.1.2, h.2⟩, fun h => ⟨⟨⟨names_comments _, h.1⟩, names_trailing _⟩, h.2⟩⟩

/-! ### the bodies -/

theorem ReS.wf {s s' : Section} (h : ReS C arrays s s') (hw : s.WF) : s'.WF := by
  cases h with
  | mk h => exact ⟨hw.header, h.wf hw.body⟩

theorem section_bodyIn {s : Section} (h : ∀ f t, Word.comment f t ∈ s.words → C t) : BodyIn C s.body := fun f t ht =>
  h f t (by unfold Section.words; exact List.mem_append_right _ ht)

theorem ReS.comments {s s' : Section} (h : ReS C arrays s s') (hc : ∀ f t, Word.comment f t ∈ s.words → C t) :
    ∀ f t, Word.comment f t ∈ s'.words → C t := by
  cases h with
  | mk h =>
    intro f t ht
    have hb := h.comments (section_bodyIn hc)
    simp only [Section.words, List.mem_append] at ht hc
    rcases ht with ht | ht
    · exact hc f t (.inl ht)
    · exact hb f t ht

theorem ReS.names {s s' : Section} (h : ReS C arrays s s') : NamesBeforeDots s.words → NamesBeforeDots s'.words := by
  cases h with
  | mk h => rw [names_section, names_section]; exact fun hn => ⟨hn.1, h.names hn.2⟩

theorem ReS.tokens {s s' : Section} (h : ReS C arrays s s') : (tokens s'.words).Perm (tokens s.words) := by
  cases h with
  | mk h =>
    simp only [Section.words, tokens_append]
    exact h.tokens.append_left _

theorem ReL.each {ss ss' : List Section} (h : ReL C arrays ss ss') : ∀ s' ∈ ss', ∃ s ∈ ss, ReS C arrays s s' := by
  induction h with
  | nil => exact fun s h => (nomatch h)
  | cons h1 _ ih =>
    intro s' hs'
    rcases List.mem_cons.mp hs' with rfl | hs'
    · exact ⟨_, List.mem_cons_self, h1⟩
    · obtain ⟨s, hs, h⟩ := ih s' hs'
      exact ⟨s, List.mem_cons_of_mem _ hs, h⟩

theorem ReL.tokens {ss ss' : List Section} (h : ReL C arrays ss ss') :
    (tokens (ss'.map Section.words).flatten).Perm (tokens (ss.map Section.words).flatten) := by
  induction h with
  | nil => exact .refl _
  | cons h1 _ ih =>
    simp only [List.map_cons, List.flatten_cons, tokens_append]
    exact h1.tokens.append ih

theorem ReL.length {ss ss' : List Section} (h : ReL C arrays ss ss') : ss'.length = ss.length := by
  induction h with
  | nil => rfl
  | cons _ _ ih => rw [List.length_cons, List.length_cons, ih]

theorem ReL.blank {ss ss' : List Section} (h : ReL C arrays ss ss') : ss'.head?.map (·.blank) = ss.head?.map (·.blank) := by
  cases h with
  | nil => rfl
  | cons h1 _ => cases h1; rfl

/-- What an edit keeps. -/
structure KeptDoc (C : Text → Prop) (d d' : Doc) : Prop where
  wf : d.WF → d'.WF
  comments : DocIn C d → DocIn C d'
  names : NamesBeforeDots d.words → NamesBeforeDots d'.words

theorem KeptDoc.trans {a b c : Doc} (h1 : KeptDoc C a b) (h2 : KeptDoc C b c) : KeptDoc C a c :=
  ⟨fun h => h2.wf (h1.wf h), fun h => h2.comments (h1.comments h), fun h => h2.names (h1.names h)⟩

theorem bodies_kept {b b' : Body} {ss ss' : List Section} (hb : Re C arrays true b b') (hs : ReL C arrays ss ss') :
    KeptDoc C ⟨b, ss⟩ ⟨b', ss'⟩ ∧ (tokens (Doc.mk b' ss').words).Perm (tokens (Doc.mk b ss).words) := by
  refine ⟨⟨fun h => ⟨hb.wf h.body, fun s' hs' => ?_, ?_⟩, fun h => ?_, fun h => ?_⟩, ?_⟩
  · obtain ⟨s, hm, hr⟩ := hs.each s' hs'
    exact hr.wf (h.sections s hm)
  · intro s' hs'
    simp only at hs' ⊢
    rw [hb.last]
    have e := hs.blank
    rw [hs'] at e
    cases hh : ss.head? with
    | none => rw [hh] at e; cases e
    | some s =>
      rw [hh] at e
      have : s'.blank = s.blank := Option.some.inj e
      rw [this]
      exact h.first s hh
  · rw [docIn_iff] at h ⊢
    refine ⟨hb.comments h.1, fun s' hs' => ?_⟩
    obtain ⟨s, hm, hr⟩ := hs.each s' hs'
    exact hr.comments (h.2 s hm)
  · rw [names_doc] at h ⊢
    refine ⟨hb.names h.1, fun s' hs' => ?_⟩
    obtain ⟨s, hm, hr⟩ := hs.each s' hs'
    exact hr.names (h.2 s hm)
  · unfold Doc.words
    rw [tokens_append, tokens_append]
    exact hb.tokens.append hs.tokens

theorem moveTop_kept (k : Nat) (d : Doc) : KeptDoc C d (moveTop k d) := by
  refine ⟨moveTop_wf k, fun h => ?_, fun h => ?_⟩
  · unfold DocIn at h ⊢
    rwa [moveTop_words]
  · rwa [moveTop_words]

/-! ### the order of the sections -/

theorem rest_perm {rs : List Nat} (hn : rs.Nodup) {n : Nat} (h : ∀ i ∈ rs, i < n) : ∃ more, (rs ++ more).Perm (List.range n) := by
  refine ⟨(List.range n).filter (· ∉ rs), ?_⟩
  have hd : (rs ++ (List.range n).filter (· ∉ rs)).Nodup := by
    rw [List.nodup_append]
    refine ⟨hn, List.nodup_range.filter _, fun a ha b hb e => ?_⟩
    subst e
    simp at hb
    exact hb.2 ha
  refine (List.perm_ext_iff_of_nodup hd List.nodup_range).mpr fun a => ?_
  simp only [List.mem_append, List.mem_filter, List.mem_range, decide_not, Bool.not_eq_true', decide_eq_false_iff_not]
  constructor
  · rintro (h' | h')
    · exact h a h'
    · exact h'.1
  · intro ha
    by_cases hm : a ∈ rs
    · exact .inl hm
    · exact .inr ⟨ha, hm⟩

theorem placed_words (old ss : List Section) : (placeSections old ss).map Section.words = ss.map Section.words := by
  cases ss with
  | nil => rfl
  | cons s ss =>
    simp only [placeSections, List.map_cons, List.map_map]
    rfl

theorem placed_kept {b : Body} {ss : List Section} {rs : List Nat} :
    KeptDoc C ⟨b, ss⟩ ⟨b, placeSections ss (pick ss (some rs))⟩ := by
  have hmem : ∀ s' ∈ placeSections ss (pick ss (some rs)), ∃ s ∈ ss, s'.words = s.words ∧ (s.WF → s'.WF) := by
    intro s' hs'
    have hp : ∀ s ∈ pick ss (some rs), s ∈ ss := fun s hs => by
      obtain ⟨i, -, hi⟩ := List.mem_filterMap.mp hs
      exact List.mem_of_getElem? hi
    generalize pick ss (some rs) = l at hs' hp
    cases l with
    | nil => cases hs'
    | cons s l =>
      rw [placeSections] at hs'
      rcases List.mem_cons.mp hs' with rfl | hs'
      · exact ⟨s, hp s List.mem_cons_self, rfl, fun h => ⟨h.header, h.body⟩⟩
      · obtain ⟨s2, h2, rfl⟩ := List.mem_map.mp hs'
        exact ⟨s2, hp s2 (List.mem_cons_of_mem _ h2), rfl, fun h => ⟨h.header, h.body⟩⟩
  refine ⟨fun h => ⟨h.body, fun s' hs' => ?_, fun s' hs' => ?_⟩, fun h => ?_, fun h => ?_⟩
  · obtain ⟨s, hm, -, hw⟩ := hmem s' hs'
    exact hw (h.sections s hm)
  · simp only at hs'
    generalize hl : pick ss (some rs) = l at hs'
    cases l with
    | nil => cases hs'
    | cons s l =>
      rw [placeSections, List.head?_cons] at hs'
      cases hs'
      simp only
      cases hh : ss.head? with
      | none =>
        rw [List.head?_eq_none_iff] at hh
        subst hh
        have : pick ([] : List Section) (some rs) = [] := by
          unfold pick
          exact List.filterMap_eq_nil_iff.mpr fun i _ => by simp
        rw [this] at hl
        cases hl
      | some s0 =>
        rw [Option.map_some, Option.getD_some]
        exact h.first s0 hh
  · rw [docIn_iff] at h ⊢
    refine ⟨h.1, fun s' hs' => ?_⟩
    obtain ⟨s, hm, hw, -⟩ := hmem s' hs'
    rw [hw]
    exact h.2 s hm
  · rw [names_doc] at h ⊢
    refine ⟨h.1, fun s' hs' => ?_⟩
    obtain ⟨s, hm, hw, -⟩ := hmem s' hs'
    rw [hw]
    exact h.2 s hm

theorem placed_tokens {b : Body} {ss : List Section} {rs more : List Nat} (h : (rs ++ more).Perm (List.range ss.length)) :
    (tokens (Doc.mk b (placeSections ss (pick ss (some rs)))).words ++ tokens ((pick ss (some more)).map Section.words).flatten).Perm
      (tokens (Doc.mk b ss).words) := by
  have hp : (pick ss (some rs) ++ pick ss (some more)).Perm ss := by
    have := pick_perm ss h
    simp only [pick, List.filterMap_append] at this ⊢
    exact this
  unfold Doc.words
  simp only
  rw [placed_words, tokens_append, tokens_append, List.append_assoc]
  refine List.Perm.append_left _ ?_
  rw [← tokens_append, ← List.flatten_append, ← List.map_append]
  exact ((hp.map _).flatten).filter _

/-! ### the whole -/

theorem sectionOrder_sub {w : EditWorld S} {fuel : Nat} {v : TomlVersion} {schema : Option S} {directive : Option OrderOverride}
    {ss : List Section} {rs : List Nat} (h : sectionOrder w fuel v schema directive ss = some rs) :
    (∃ more, (rs ++ more).Perm (List.range ss.length)) ∧ (schema = none → rs.Perm (List.range ss.length)) := by
  unfold sectionOrder at h
  simp only at h
  split at h
  · cases h
  · refine ⟨?_, fun e => ?_⟩
    · obtain ⟨h1, h2, -⟩ := C30_nothing_new _ _ _ _ _ _ _ rs h
      rw [sectionAccessors_length, List.length_map] at h2
      exact rest_perm h1 h2
    · subst e
      have := C30_no_schema_permuted _ _ _ _ rs h
      rwa [List.length_map] at this

theorem orderRoot_kept {w : EditWorld S} {fuel : Nat} {v : TomlVersion} {schema : Option S} {directive : Option OrderOverride}
    {before : List Section} {d : Doc} (hl : before.length = d.sections.length) (hc : DocIn C d) :
    KeptDoc C d (orderRoot w fuel v schema directive before d) ∧
      ∃ lost, (tokens (orderRoot w fuel v schema directive before d).words ++ lost).Perm (tokens d.words) ∧
        (schema = none ∨ before = [] → lost = []) := by
  unfold orderRoot
  split
  · exact ⟨⟨id, id, id⟩, [], by rw [List.append_nil], fun _ => rfl⟩
  · have hb : Re C true true d.body (orderTable (fun items => tableOrder w fuel v (groupTree v items) [] schema directive items) d.body) :=
      orderTable_re _ (fun items rs hr => tableOrder_perm hr) ((docIn_iff d).mp hc).1
    have hs : ReL C true d.sections d.sections := by
      generalize d.sections = ss
      induction ss with
      | nil => exact .nil
      | cons s ss ih => exact .cons (.mk s (.refl _)) ih
    obtain ⟨h1, h2⟩ := bodies_kept hb hs
    cases ho : sectionOrder w fuel v schema directive before with
    | none => exact ⟨h1, [], by rw [List.append_nil]; exact h2, fun _ => rfl⟩
    | some rs =>
      obtain ⟨⟨more, hm⟩, hn⟩ := sectionOrder_sub ho
      refine ⟨h1.trans placed_kept, _, (placed_tokens (by rw [← hl]; exact hm)).trans h2, fun e => ?_⟩
      have : more = [] := by
        rcases e with e | e
        · have e1 := (hn e).length_eq
          have e2 := hm.length_eq
          rw [List.length_append, e1] at e2
          exact List.length_eq_zero_iff.mp (by omega)
        · subst e
          have e2 := hm.length_eq
          simp at e2
          exact e2.2
      rw [this]
      rfl

theorem sortTree_kept {w : EditWorld S} {fuel : Nat} {v : TomlVersion} {schema : Option S} {root : Green} {d : Doc}
    (hw : (docOf root).WF) (h : sortTree w fuel v schema root = .ok d) (hc : DocIn C (docOf root)) :
    KeptDoc C (docOf root) d ∧ ∃ lost, (tokens d.words ++ lost).Perm (tokens (docOf root).words) ∧
      (schema = none ∨ (docOf root).sections = [] → lost = []) := by
  unfold sortTree at h
  simp only at h
  split at h
  · cases h1 : sortEntries w fuel v [] schema (convert v (docOf root)).1.value (docOf root).body with
    | error e => rw [h1] at h; cases h
    | ok b =>
      rw [h1] at h
      simp only at h
      cases h2 : sortEach w fuel v schema (convert v (docOf root)).1.value [] (docOf root).sections with
      | error e => rw [h2] at h; cases h
      | ok ss =>
        rw [h2] at h
        cases h
        have hd := (docIn_iff _).mp hc
        have r1 := sortEntries_re w (arrays := true) (.inl rfl) fuel v _ _ _ _ _ _ b hw.body hd.1 h1
        have r2 := sortEach_re w (arrays := true) (.inl rfl) _ _ ss (fun s hs => ⟨hw.sections s hs, section_bodyIn (hd.2 s hs)⟩) h2
        obtain ⟨k1, t1⟩ := bodies_kept r1 r2
        have k2 := k1.trans (moveTop_kept (topBreaks (childrenOf root)) ⟨b, ss⟩)
        obtain ⟨k3, lost, t3, e3⟩ := orderRoot_kept (w := w) (fuel := fuel) (v := v) (schema := schema)
          (directive := w.tableDirective (headComments (docOf root).body)) (before := (docOf root).sections)
          (by rw [(moveTop_shape v _ _).2.2]; exact r2.length.symm) (k2.comments hc)
        refine ⟨k2.trans k3, lost, t3.trans ?_, e3⟩
        rw [moveTop_words]
        exact t1
  · cases h
    exact ⟨⟨id, id, id⟩, [], by rw [List.append_nil], fun _ => rfl⟩

end Tombi.Editing
