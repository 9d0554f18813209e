import Verif.Proofs.KeysHeaders
import Verif.Proofs.KeysOrder3
import Verif.Proofs.DocConflict2

/-! The accessors of the headers address the tree of the sections. -/
namespace Tombi
open Spec

variable {σ S : Type}

/-! ### The tree of the sections -/

theorem section_tree_single {prev : List (AstSection σ)} {s : AstSection σ} (h : ∃ k ks, s.header = some (k :: ks)) :
    ∃ k v, (s.tree prev).1 = ⟨.parentTable, [(k, v)]⟩ := by
  obtain ⟨k, ks, h⟩ := h
  obtain ⟨ks', last, hl⟩ : ∃ ks' last, k :: ks = ks' ++ [last] := by
    rcases List.eq_nil_or_concat (k :: ks) with h | ⟨a, b, h⟩
    · cases h
    · exact ⟨a, b, by rw [h, List.concat_eq_append]⟩
  have := (section_tree prev s ks' last (h.trans (congrArg some hl))).2
  cases hf : sectionFlags (parentArrayKeys prev (ks' ++ [last])) s.isArray ks' last with
  | nil => unfold sectionFlags at hf; simp at hf
  | cons f fs =>
    rw [hf] at this
    obtain ⟨k', o⟩ := f
    cases ht : (s.tree prev).1 with
    | mk kind entries =>
      rw [ht] at this
      cases o with
      | none => unfold spineTree DTable.value at this; injection this with h1 h2; simp only at h1 h2; subst h1 h2; exact ⟨_, _, rfl⟩
      | some a => unfold spineTree DTable.value at this; injection this with h1 h2; simp only at h1 h2; subst h1 h2; exact ⟨_, _, rfl⟩

theorem foldl_entries (sections : List (AstSection σ)) (hh : HasHeaders sections) : ∀ (prev : List (AstSection σ)) (T1 T2 : DTable σ),
    T1.kind = .parentTable → T2.kind = .root → T1.entries = T2.entries →
    ((sectionTrees prev sections).foldl (fun acc other => (acc.merge other).1) T1).kind = .parentTable ∧
    ((sectionTrees prev sections).foldl (fun acc other => (acc.merge other).1) T1).entries =
      (mergeSections prev T2 sections).1.entries := by
  induction sections with
  | nil => intro prev T1 T2 h1 h2 h3; exact ⟨h1, h3⟩
  | cons s rest ih =>
    intro prev T1 T2 h1 h2 h3
    obtain ⟨k, v, hs⟩ := section_tree_single (prev := prev) (hh s List.mem_cons_self)
    rw [sectionTrees, List.foldl_cons, mergeSections]
    refine ih (fun x hx => hh x (List.mem_cons_of_mem _ hx)) (s :: prev) _ _ ?_ ?_ ?_
    · rw [hs]; unfold DTable.merge; rw [h1]; rfl
    · rw [hs]; unfold DTable.merge; rw [h2]; rfl
    · rw [hs]; unfold DTable.merge; rw [h1, h2, h3]; rfl

theorem sectionsTree_entries (sections : List (AstSection σ)) (hh : HasHeaders sections) :
    (sectionsTree sections).entries = (AstRoot.tree ⟨[], sections⟩).1.entries := by
  unfold sectionsTree AstRoot.tree
  simp only [mergeKeyValues]
  cases sections with
  | nil => rfl
  | cons s rest =>
    obtain ⟨k, v, hs⟩ := section_tree_single (prev := []) (hh s List.mem_cons_self)
    rw [sectionTrees, mergeSections]
    simp only []
    refine (foldl_entries rest (fun x hx => hh x (List.mem_cons_of_mem _ hx)) [s] _ _ ?_ ?_ ?_).2
    · rw [hs]
    · rw [hs]; rfl
    · rw [hs]; rfl

theorem sectionsTree_lookup (sections : List (AstSection σ)) (hh : HasHeaders sections) (p : Path) (hp : p ≠ []) :
    lookup (sectionsTree sections).value p = lookup (AstRoot.tree ⟨[], sections⟩).1.value p := by
  cases p with
  | nil => exact absurd rfl hp
  | cons s p =>
    unfold DTable.value
    rw [sectionsTree_entries sections hh]
    cases s <;> rfl

/-! ### Indices in the places of sections -/

theorem resolve_index_eq {opened : List Path} (ks : List DKey) (cur : Path)
    (hcur : ∀ p i rest, cur = p ++ .index i :: rest → opened.count p = i + 1) :
    ∀ p i rest, resolve opened cur ks = p ++ .index i :: rest → opened.count p = i + 1 := by
  induction ks generalizing cur with
  | nil => exact hcur
  | cons k ks ih =>
    rw [resolve]
    refine ih _ ?_
    intro p i rest he
    unfold enter at he
    have key : ∀ p i rest, cur ++ [Step.key k] = p ++ .index i :: rest → opened.count p = i + 1 := by
      intro p i rest he
      rcases List.eq_nil_or_concat rest with rfl | ⟨rest', x, rfl⟩
      · have := congrArg List.getLast? he
        simp at this
      · rw [show p ++ Step.index i :: rest'.concat x = (p ++ .index i :: rest') ++ [x] from by simp] at he
        have := (List.append_inj_left' he rfl)
        exact hcur p i rest' this
    split at he
    · exact key p i rest he
    · rename_i n hn
      rcases List.eq_nil_or_concat rest with rfl | ⟨rest', x, rfl⟩
      · have h1 := (List.append_inj_left' (s₁ := cur ++ [Step.key k]) (t₁ := [.index n]) (s₂ := p) (t₂ := [.index i]) he rfl)
        have h2 := (List.append_inj_right' (s₁ := cur ++ [Step.key k]) (t₁ := [.index n]) (s₂ := p) (t₂ := [.index i]) he rfl)
        injection h2 with h2
        injection h2 with h2
        rw [← h1, hn, h2]
      · rw [show p ++ Step.index i :: rest'.concat x = (p ++ .index i :: rest') ++ [x] from by simp] at he
        exact key p i rest' (List.append_inj_left' he rfl)

/-- An index on the way to a section. -/
theorem sectionPath_index {opened : List Path} {s : AstSection σ} (hs : ∃ k ks, s.header = some (k :: ks)) {q : Path} {i : Nat}
    (h : q ++ [.index i] <+: sectionPath opened s) :
    opened.count q = i + 1 ∨ (opened.count q = i ∧ s.isArray = true ∧ named opened (s.header.getD []) = q) := by
  obtain ⟨k, ks, hs⟩ := hs
  obtain ⟨ks', last, hl⟩ : ∃ ks' last, k :: ks = ks' ++ [last] := by
    rcases List.eq_nil_or_concat (k :: ks) with h | ⟨a, b, h⟩
    · cases h
    · exact ⟨a, b, by rw [h, List.concat_eq_append]⟩
  have hs' := hs.trans (congrArg some hl)
  have hnamed : named opened (s.header.getD []) = resolve opened [] ks' ++ [.key last] := by
    rw [hs', Option.getD_some, named_append]
  rw [sectionPath_eq hs'] at h
  obtain ⟨rest, hr⟩ := h
  rw [List.append_assoc, List.singleton_append] at hr
  have hkey : ∀ rest, q ++ .index i :: rest = resolve opened [] ks' ++ [.key last] → opened.count q = i + 1 := by
    intro rest hr
    rcases List.eq_nil_or_concat rest with rfl | ⟨rest', x, rfl⟩
    · have := congrArg List.getLast? hr
      simp at this
    · rw [show q ++ Step.index i :: rest'.concat x = (q ++ .index i :: rest') ++ [x] from by simp] at hr
      exact resolve_index_eq ks' [] (fun p i rest h => by simp at h) q i rest' (List.append_inj_left' hr rfl).symm
  split at hr
  · rename_i ha
    rw [show resolve opened [] ks' ++ [Step.key last, .index (opened.count (resolve opened [] ks' ++ [.key last]))] =
      (resolve opened [] ks' ++ [Step.key last]) ++ [.index (opened.count (resolve opened [] ks' ++ [.key last]))] by simp] at hr
    rcases List.eq_nil_or_concat rest with rfl | ⟨rest', x, rfl⟩
    · have h1 := List.append_inj_left' hr rfl
      have h2 := List.append_inj_right' hr rfl
      injection h2 with h2
      injection h2 with h2
      exact Or.inr ⟨by rw [h2, h1], ha, by rw [hnamed, h1]⟩
    · rw [show q ++ Step.index i :: rest'.concat x = (q ++ .index i :: rest') ++ [x] from by simp] at hr
      exact Or.inl (hkey rest' (List.append_inj_left' hr rfl))
  · exact Or.inl (hkey rest hr)

theorem openedAfter_count {opened : List Path} {s : AstSection σ} (q : Path) :
    (openedAfter opened s).count q = opened.count q + if s.isArray = true ∧ named opened (s.header.getD []) = q then 1 else 0 := by
  unfold openedAfter
  by_cases ha : s.isArray = true
  · rw [if_pos ha, List.count_append]
    by_cases hn : named opened (s.header.getD []) = q
    · rw [if_pos ⟨ha, hn⟩, hn]; simp
    · rw [if_neg (fun h => hn h.2)]
      have : ([named opened (s.header.getD [])] : List Path).count q = 0 :=
        List.count_eq_zero.2 fun hm => hn (List.mem_singleton.1 hm).symm
      rw [this]
  · rw [if_neg ha, if_neg (fun h => ha h.1)]; rfl

theorem openedBy_count_le (opened : List Path) (sections : List (AstSection σ)) (q : Path) :
    opened.count q ≤ (openedBy opened sections).count q := by
  induction sections generalizing opened with
  | nil => exact Nat.le_refl _
  | cons s rest ih =>
    refine Nat.le_trans ?_ (ih (openedAfter opened s))
    rw [openedAfter_count]; omega

/-- The section that opened an element of an array of tables. -/
theorem opened_by_section (sections : List (AstSection σ)) (opened : List Path) (q : Path) (i : Nat) (h0 : opened.count q ≤ i)
    (h : i < (openedBy opened sections).count q) : ∃ a s b, sections = a ++ s :: b ∧
      sectionPath (openedBy opened a) s = q ++ [.index i] := by
  induction sections generalizing opened with
  | nil => simp only [openedBy] at h; omega
  | cons s rest ih =>
    rw [openedBy] at h
    by_cases hs : (openedAfter opened s).count q ≤ i
    · obtain ⟨a, s', b, h1, h2⟩ := ih (openedAfter opened s) hs h
      exact ⟨s :: a, s', b, by rw [h1]; rfl, h2⟩
    · rw [openedAfter_count] at hs
      split at hs
      · rename_i hc
        refine ⟨[], s, rest, rfl, ?_⟩
        unfold sectionPath openedBy
        simp only []
        rw [if_pos hc.1, hc.2]
        congr 3
        omega
      · omega

/-! ### Flat sections -/

theorem flat_named {done rest : List (AstSection σ)} (hf : Flat (done ++ rest)) (hh : HasHeaders (done ++ rest))
    {s : AstSection σ} (hs : s ∈ done ++ rest) (ha : s.isArray = true) {n : List DKey} (hn : s.header = some n) :
    named ((arrayNames done).map keyPath) n = keyPath n := by
  obtain ⟨k, ks, hs'⟩ := hh s hs
  obtain ⟨ks', last, hl⟩ : ∃ ks' last, n = ks' ++ [last] := by
    rcases List.eq_nil_or_concat n with h | ⟨a, b, h⟩
    · rw [hn, h] at hs'; cases hs'
    · exact ⟨a, b, by rw [h, List.concat_eq_append]⟩
  rw [hl, named_append]
  have hplain : ∀ (ks1 d : List DKey), (d ++ ks1) <+: ks' →
      resolve ((arrayNames done).map keyPath) (keyPath d) ks1 = keyPath (d ++ ks1) := by
    intro ks1
    induction ks1 with
    | nil => intro d _; simp [resolve]
    | cons a ks1 ih1 =>
      intro d hd
      have hd' : (d ++ [a]) ++ ks1 <+: ks' := by simpa using hd
      rw [resolve, show keyPath d ++ [Step.key a] = keyPath (d ++ [a]) by simp [keyPath], enter_zero, ih1 _ hd']
      · simp
      · rw [count_keyPath, List.count_eq_zero]
        intro hm
        obtain ⟨s', hs', ha', hh'⟩ := mem_arrayNames.1 hm
        have hpre : d ++ [a] <+: n := by
          rw [hl]; exact ((List.prefix_append _ _).trans hd').trans (List.prefix_append _ _)
        have := (hf s' (by simp [hs']) s hs ha' _ _ hh' hn hpre).1 ha
        have h1 := ((List.prefix_append (d ++ [a]) ks1).trans hd').length_le
        have h2 := congrArg List.length (this.trans hl)
        simp only [List.length_append, List.length_singleton] at h1 h2
        omega
  rw [show resolve ((arrayNames done).map keyPath) [] ks' = keyPath ks' from hplain ks' [] (List.prefix_refl _)]
  simp [keyPath]

theorem flat_opened {done rest : List (AstSection σ)} (hf : Flat (done ++ rest)) (hh : HasHeaders (done ++ rest)) :
    openedBy [] done = (arrayNames done).map keyPath := by
  have hsub : ∀ x ∈ done, x ∈ done ++ rest := fun x hx => List.mem_append_left _ hx
  have := openedBy_flat [] done (fun a ha b hb => hf a (hsub a ha) b (hsub b hb)) (fun x hx => hh x (hsub x hx))
  simpa [arrayNames] using this

theorem flat_regular (done rest : List (AstSection σ)) (hf : Flat (done ++ rest)) (hh : HasHeaders (done ++ rest)) :
    RegularFrom done.reverse (openedBy [] done) rest := by
  induction rest generalizing done with
  | nil => exact trivial
  | cons s rest ih =>
    refine ⟨?_, ?_⟩
    · rintro header name - - - ⟨s', hs', ha, hn⟩
      rw [List.mem_reverse] at hs'
      rw [flat_opened hf hh, flat_named hf hh (List.mem_append_left _ hs') ha hn]
      exact List.mem_map_of_mem (mem_arrayNames.2 ⟨s', hs', ha, hn⟩)
    · have := ih (done ++ [s]) (by simpa using hf) (by simpa using hh)
      rw [List.reverse_append, openedBy_append] at this
      exact this

theorem stepOf_inj {a b : Accessor} (h : stepOf a = stepOf b) : a = b := by
  cases a with
  | key k =>
    cases b with
    | key k' => injection h with h; rw [h]
    | index j => cases h
  | index i =>
    cases b with
    | key k' => cases h
    | index j => injection h with h; rw [h]

theorem mem_headerAccessors {arrays : List (List DKey)} {b : Bool} {done ks : List DKey} {k : DKey}
    (h : Accessor.key k ∈ headerAccessors arrays b done ks) : k ∈ ks := by
  induction ks generalizing done with
  | nil => cases h
  | cons k' ks ih =>
    rw [headerAccessors] at h
    simp only [List.cons_append, List.mem_cons, List.mem_append] at h
    rcases h with h | h | h
    · injection h with h; subst h; exact List.mem_cons_self
    · exfalso
      split at h
      · cases h
      · split at h
        · cases h
        · cases List.mem_singleton.1 h
    · exact List.mem_cons_of_mem _ (ih h)

theorem mem_sectionAccessors {prev sections : List (AstSection σ)} {p : List Accessor} (hp : p ∈ sectionAccessors prev sections)
    {k : DKey} (hk : .key k ∈ p) : ∃ s ∈ sections, ∃ header, s.header = some header ∧ k ∈ header := by
  induction sections generalizing prev with
  | nil => cases hp
  | cons s rest ih =>
    rw [sectionAccessors, List.mem_cons] at hp
    rcases hp with rfl | hp
    · refine ⟨s, List.mem_cons_self, ?_⟩
      unfold AstSection.headerAccessors at hk
      cases hh : s.header with
      | none => rw [hh] at hk; cases hk
      | some header =>
        rw [hh] at hk
        refine ⟨header, rfl, ?_⟩
        simp only at hk
        split at hk
        · rw [Option.getD_some] at hk
          rcases List.mem_append.1 hk with hk | hk
          · exact mem_headerAccessors hk
          · cases List.mem_singleton.1 hk
        · exact mem_headerAccessors hk
    · obtain ⟨s', h1, h2⟩ := ih hp
      exact ⟨s', List.mem_cons_of_mem _ h1, h2⟩

theorem sectionAccessors_length (prev sections : List (AstSection σ)) : (sectionAccessors prev sections).length = sections.length := by
  induction sections generalizing prev with
  | nil => rfl
  | cons s rest ih => rw [sectionAccessors, List.length_cons, ih, List.length_cons]

theorem sectionPaths_append (opened : List Path) (a b : List (AstSection σ)) :
    sectionPaths opened (a ++ b) = sectionPaths opened a ++ sectionPaths (openedBy opened a) b := by
  induction a generalizing opened with
  | nil => rfl
  | cons s a ih => rw [List.cons_append, sectionPaths, sectionPaths, ih, List.cons_append, openedBy]

theorem sectionPaths_length (opened : List Path) (a : List (AstSection σ)) : (sectionPaths opened a).length = a.length := by
  induction a generalizing opened with
  | nil => rfl
  | cons s a ih => rw [sectionPaths, List.length_cons, ih, List.length_cons]

theorem map_prefix_inj {q p : List Accessor} (h : q.map stepOf <+: p.map stepOf) : q <+: p := by
  induction q generalizing p with
  | nil => exact List.nil_prefix
  | cons a q ih =>
    cases p with
    | nil => obtain ⟨r, h⟩ := h; cases h
    | cons b p =>
      rw [List.map_cons, List.map_cons, List.cons_prefix_cons] at h
      exact List.cons_prefix_cons.2 ⟨stepOf_inj h.1, ih h.2⟩

/-- The accessors of the sections address the tree of the sections. -/
theorem sections_aligned {sections : List (AstSection σ)} (hf : Flat sections) (hn : Near sections) (hh : HasHeaders sections)
    (hb : ∀ s ∈ sections, ∀ header, s.header = some header → ∀ k ∈ header, TomlText.toKeyString k = k)
    (he : (AstRoot.tree ⟨[], sections⟩).2 = []) :
    Aligned (sectionsTree sections).value (sectionAccessors [] sections) := by
  have hpaths := sectionAccessors_paths [] sections hf hn hh
  have hsp : ∀ l p r, sectionAccessors [] sections = l ++ p :: r → ∃ a s b, sections = a ++ s :: b ∧ a.length = l.length ∧
      l.map (List.map stepOf) = sectionPaths [] a ∧ p.map stepOf = sectionPath (openedBy [] a) s := by
    intro l p r hl
    have hlen := congrArg List.length hl
    rw [sectionAccessors_length, List.length_append, List.length_cons] at hlen
    obtain ⟨a, b', hab, hal⟩ : ∃ a b', sections = a ++ b' ∧ a.length = l.length :=
      ⟨sections.take l.length, sections.drop l.length, (List.take_append_drop _ _).symm, by rw [List.length_take]; omega⟩
    cases b' with
    | nil => rw [hab, List.append_nil] at hlen; omega
    | cons s b =>
      refine ⟨a, s, b, hab, hal, ?_⟩
      rw [List.reverse_nil, hl, hab, openedBy, sectionPaths_append, List.map_append, List.map_cons, sectionPaths] at hpaths
      have h1 := List.append_inj hpaths (by rw [List.length_map, sectionPaths_length, hal])
      have h2 := h1.2
      injection h2 with h2 _
      exact ⟨h1.1, h2⟩
  constructor
  · intro p hp q i hq kind values hv
    obtain ⟨l, r, hl⟩ := List.append_of_mem hp
    obtain ⟨a, s, b, h1, h2, h3, h4⟩ := hsp l p r hl
    have hq' : q.map stepOf ++ [.index i] <+: sectionPath (openedBy [] a) s := by
      rw [← h4]
      obtain ⟨t, ht⟩ := hq
      exact ⟨t.map stepOf, by rw [← ht]; simp [stepOf]⟩
    have hcount : i < (openedBy [] sections).count (q.map stepOf) := by
      have h5 := openedBy_count_le (openedAfter (openedBy [] a) s) b (q.map stepOf)
      rw [h1, openedBy_append, openedBy]
      rw [openedAfter_count] at h5
      rcases sectionPath_index (hh s (by rw [h1]; simp)) hq' with h | ⟨h, h'⟩
      · omega
      · rw [if_pos h'] at h5; omega
    have hqne : q.map stepOf ≠ [] := by
      intro h
      rw [h] at hv
      cases hv
    rw [sectionsTree_lookup sections hh _ hqne] at hv
    have he' := he
    unfold AstRoot.tree at he' hv
    simp only [List.append_eq_nil_iff] at he'
    simp only [] at hv
    obtain ⟨r1, r2, -⟩ := root_start he'.1
    have hc := sections_count sections [] _ [] r1 r2 (fun s hs => by obtain ⟨k, ks, h⟩ := hh s hs; rw [h]; simp)
      (flat_regular [] sections hf hh) he'.2 (q.map stepOf)
    obtain ⟨kind', -, hk⟩ := hc.1 (by omega)
    obtain ⟨vs, hvs, hlen⟩ := kindAt_array hk
    rw [hvs] at hv
    injection hv with hv
    injection hv with _ hv
    rw [← hv, hlen]
    exact hcount
  · intro l p r hl q i hq
    obtain ⟨a, s, b, h1, h2, h3, h4⟩ := hsp l p r hl
    have hq' : q.map stepOf ++ [.index (i + 1)] <+: sectionPath (openedBy [] a) s := by
      rw [← h4]
      obtain ⟨t, ht⟩ := hq
      exact ⟨t.map stepOf, by rw [← ht]; simp [stepOf]⟩
    have hcount : i < (openedBy [] a).count (q.map stepOf) := by
      rcases sectionPath_index (hh s (by rw [h1]; simp)) hq' with h | ⟨h, h'⟩ <;> omega
    obtain ⟨a1, s1, b1, e1, e2⟩ := opened_by_section a [] (q.map stepOf) i (by simp) hcount
    have hmem : q.map stepOf ++ [.index i] ∈ l.map (List.map stepOf) := by
      rw [h3, e1, sectionPaths_append, sectionPaths, e2]
      simp
    obtain ⟨p', hp', hpe⟩ := List.mem_map.1 hmem
    refine ⟨p', hp', map_prefix_inj ?_⟩
    rw [hpe]; simp [stepOf]
  · intro p hp q k hq hk
    exfalso
    obtain ⟨t, ht⟩ := hq
    obtain ⟨s, hs, header, hhd, hkm⟩ := mem_sectionAccessors hp (k := k) (by rw [← ht]; simp)
    exact hk (hb s hs header hhd k hkm)

end Tombi
