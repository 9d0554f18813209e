import Verif.Proofs.DocConflict

/-! What an accepted document cannot contain: all sections. -/
namespace Tombi
open Spec (Step Path child lookup nodeAt nodeOf below kvsNodes wayNodes enter resolve named sectionPath openedAfter
  RegularFrom sectionsNodes keyPath kvAssigns assignsOf dottedOf sectionPaths isInline)

variable {σ : Type}

/-- Only the document itself is a root. -/
def Rooted (T : DValue σ) : Prop := ∀ p, kindAt T p = some (.table .root) → p = []

theorem step_rooted {T T' : DValue σ} {body : DTable σ} {r : Path} (hst : Step' T T' body.value r) (hb : BodyOk body)
    (hk : body.kind = .table) (h : Rooted T) : Rooted T' := by
  intro p hp
  by_cases hpl : ∃ k2, Placed body.value r p k2
  · obtain ⟨k2, hpl⟩ := hpl
    rcases hst.placed p k2 hpl with ⟨h1, h2⟩ | ⟨k1, k, h1, h2, h3⟩
    · rw [h2] at hp; cases hp
      exact absurd rfl (placed_not_root hb hk hpl)
    · rw [h3] at hp; cases hp
      refine h p ?_
      rw [h1]
      cases k1 with
      | table k1 =>
        cases k2 with
        | table k2 =>
          rw [mergedKind] at h2
          split at h2
          · cases h2
          · cases k1 with
            | root => rfl
            | table => cases h2
            | inlineTable => cases h2
            | keyValue => cases h2
            | parentTable => cases k2 <;> cases h2
            | parentKey => cases k2 <;> cases h2
        | _ => cases h2
      | array a n =>
        cases k2 with
        | array a2 m =>
          rw [mergedKind] at h2
          split at h2 <;> cases h2
        | _ => cases h2
      | _ => cases h2
  · rw [hst.other p (fun k2 h => hpl ⟨k2, h⟩)] at hp
    exact h p hp

theorem sectionPath_ne_nil {opened : List Path} {s : AstSection σ} {ks : List DKey} {last : DKey}
    (h : s.header = some (ks ++ [last])) : sectionPath opened s ≠ [] := by
  rw [sectionPath_eq h]
  split <;> simp

theorem mem_assignsOf {B : Path × List (AstKeyValue σ)} {x : Path × AstValue σ} :
    x ∈ assignsOf B ↔ ∃ a ∈ kvAssigns B.2, x = (B.1 ++ keyPath a.1, a.2) := by
  unfold assignsOf
  rw [List.mem_map]
  constructor
  · rintro ⟨a, h, rfl⟩; exact ⟨a, h, rfl⟩
  · rintro ⟨a, h, rfl⟩; exact ⟨a, h, rfl⟩

theorem mem_dottedOf {B : Path × List (AstKeyValue σ)} {d : Path} (h : d ∈ dottedOf B) :
    ∃ a ∈ kvAssigns B.2, ∃ ks1 ks2, a.1 = ks1 ++ ks2 ∧ ks1 ≠ [] ∧ ks2 ≠ [] ∧ d = B.1 ++ keyPath ks1 := by
  unfold dottedOf at h
  rw [List.mem_flatMap] at h
  obtain ⟨a, ha, h⟩ := h
  rw [List.mem_map] at h
  obtain ⟨i, hi, rfl⟩ := h
  rw [List.mem_range] at hi
  refine ⟨a, ha, a.1.take (i + 1), a.1.drop (i + 1), (List.take_append_drop _ _).symm, ?_, ?_, rfl⟩
  · intro h0
    have := congrArg List.length h0
    rw [List.length_take, List.length_nil] at this
    omega
  · intro h0
    have := congrArg List.length h0
    rw [List.length_drop, List.length_nil] at this
    omega

theorem inline_of_kind {v : AstValue σ} (h : kindOf v.tree.1 = .table .inlineTable) : isInline v := by
  cases v with
  | inlineTable kvs => exact trivial
  | scalar s => rw [AstValue.tree] at h; cases h
  | bad => rw [AstValue.tree] at h; cases h
  | array items => rw [AstValue.tree] at h; cases h

/-- What a table and a later table of an accepted document cannot have. -/
def Compatible (B1 B2 : Path × List (AstKeyValue σ)) : Prop :=
  (∀ a ∈ assignsOf B1, ¬ a.1 <+: B2.1) ∧
  (∀ a ∈ assignsOf B1, ∀ b ∈ assignsOf B2, ¬ a.1 <+: b.1 ∧ (b.1 <+: a.1 → isInline b.2)) ∧
  (∀ b ∈ assignsOf B2, b.1 ≠ B1.1 ∧ (b.1 <+: B1.1 → isInline b.2)) ∧
  B1.1 ≠ B2.1

/-- The places of a section. -/
def bodyNodes (B : Path × List (AstKeyValue σ)) : List (Path × Spec.Node σ) :=
  wayNodes [] B.1 ++ below B.1 (kvsNodes B.2)

theorem placed_bodyNodes {s : AstSection σ} (hbe : (mergeKeyValues ⟨.table, []⟩ s.kvs).2 = []) {r p : Path} {k2 : DKind σ}
    (h : Placed (mergeKeyValues ⟨.table, []⟩ s.kvs).1.value r p k2) : ∃ n, (p, n) ∈ bodyNodes (r, s.kvs) := by
  obtain ⟨hb, hbk, hbn⟩ := body_ok hbe
  unfold bodyNodes
  rcases h with ⟨q, rfl, hk⟩ | ⟨st, rest, hr, rfl⟩
  · by_cases hq : q = []
    · subst hq
      refine ⟨.table, List.mem_append_left _ ((mem_wayNodes _ _ _ _).2 (Or.inl ⟨by simp, rfl⟩))⟩
    · have hbk2 := hb.body q k2 hq hk
      have : ∃ n, eraseKind k2 = some n := by
        cases k2 with
        | incomplete => exact absurd hbk2 id
        | _ => exact ⟨_, rfl⟩
      obtain ⟨n, hn⟩ := this
      refine ⟨n, List.mem_append_right _ (mem_below.2 ⟨q, rfl, (hbn q n hq).1 ?_⟩)⟩
      rw [nodeAt_eq, hk]; exact hn
  · have : ∃ n, eraseKind (wayKind (σ := σ) st rest) = some n := by
      cases st <;> exact ⟨_, rfl⟩
    obtain ⟨n, hn⟩ := this
    exact ⟨n, List.mem_append_left _ ((mem_wayNodes _ _ _ _).2 (Or.inr ⟨p, st, rest, hr, by simp, hn⟩))⟩

theorem sections_conflict (sections : List (AstSection σ)) : ∀ (prev : List (AstSection σ)) (T : DTable σ) (opened : List Path),
    Everywhere LocalOk T.value → CountInv T.value opened → Rooted T.value → HeadersOk sections →
    (∀ s ∈ sections, ∀ kv ∈ s.kvs, ∀ v, kv ≠ .mk (some []) v) → RegularFrom prev opened sections →
    (mergeSections prev T sections).2 = [] →
    (∀ q, ValueAt T.value q → ∀ B ∈ (sectionPaths opened sections).zip (sections.map (·.kvs)),
      ¬ q <+: B.1 ∧ ∀ a ∈ assignsOf B, ¬ q <+: a.1) ∧
    (∀ q k, kindAt T.value q = some k → ∀ B ∈ (sectionPaths opened sections).zip (sections.map (·.kvs)),
      ∀ a ∈ assignsOf B, a.1 <+: q → isInline a.2) ∧
    (∀ q, TableAt T.value q → ∀ B ∈ (sectionPaths opened sections).zip (sections.map (·.kvs)),
      ∀ a ∈ assignsOf B, a.1 ≠ q) ∧
    (∀ q, ClosedAt T.value q → ∀ B ∈ (sectionPaths opened sections).zip (sections.map (·.kvs)), B.1 ≠ q) ∧
    ((sectionPaths opened sections).zip (sections.map (·.kvs))).Pairwise Compatible ∧
    (∀ B ∈ (sectionPaths opened sections).zip (sections.map (·.kvs)), B.1 ≠ [] ∧
      (kvAssigns B.2).Pairwise (fun a b => ¬ keyPath a.1 <+: keyPath b.1 ∧ ¬ keyPath b.1 <+: keyPath a.1)) ∧
    (∀ P B Q, (sectionPaths opened sections).zip (sections.map (·.kvs)) = P ++ B :: Q → ∀ d ∈ dottedOf B,
      kindAt T.value d = none → (∀ B0 ∈ P, ∀ n, (d, n) ∉ bodyNodes B0) → ∀ B2 ∈ Q, B2.1 ≠ d) := by
  induction sections with
  | nil =>
    intro prev T opened _ _ _ _ _ _ _
    refine ⟨fun q _ B h => (by cases h), fun q k _ B h => (by cases h), fun q _ B h => (by cases h),
      fun q _ B h => (by cases h), List.Pairwise.nil, fun B h => (by cases h), fun P B Q h => ?_⟩
    have := congrArg List.length h
    simp [sectionPaths] at this
  | cons s rest ih =>
    intro prev T opened hT hI hroot hh hkeys hreg he
    rw [mergeSections] at he
    simp only [List.append_eq_nil_iff] at he
    obtain ⟨⟨h1, h2⟩, h3⟩ := he
    obtain ⟨ks, last, hs⟩ := section_header (hh s List.mem_cons_self) h1
    have hst := section_step hT hI hs (fun name hp hne hex => hreg.1 (ks ++ [last]) name hs hp hne hex) h1 h2
    have hbe := section_body_errors hs h1
    obtain ⟨hb, hbk, hbn⟩ := body_ok hbe
    obtain ⟨i1, i2, i3, i4, i5, i6, i7⟩ := ih (s :: prev) (T.merge (s.tree prev).1).1 (openedAfter opened s) (section_ok hT hs)
      (countInv_step hI hb hs hst) (step_rooted hst hb hbk hroot) (fun x hx => hh x (List.mem_cons_of_mem _ hx))
      (fun x hx => hkeys x (List.mem_cons_of_mem _ hx)) hreg.2 h3
    obtain ⟨b1, b2, b3, b4, b5, b6⟩ := kvs_assigns s.kvs ⟨.table, []⟩ (empty_bodyOk (Or.inl rfl)) hbe
      (hkeys s List.mem_cons_self)
    have hr0 : sectionPath opened s ≠ [] := sectionPath_ne_nil hs
    have hnr : ∀ q, kindAt T.value (sectionPath opened s ++ q) ≠ some (.table .root) := by
      intro q h
      have := hroot _ h
      simp at this
      exact hr0 this.1
    have hl : (sectionPaths opened (s :: rest)).zip ((s :: rest).map (·.kvs)) =
        (sectionPath opened s, s.kvs) :: (sectionPaths (openedAfter opened s) rest).zip (rest.map (·.kvs)) := rfl
    rw [hl]
    generalize hL : (sectionPaths (openedAfter opened s) rest).zip (rest.map (·.kvs)) = L at *
    generalize hr : sectionPath opened s = r at *
    generalize hbody : (mergeKeyValues ⟨.table, []⟩ s.kvs).1 = body at *
    generalize hT' : (T.merge (s.tree prev).1).1.value = T' at *
    have b4' : ∀ a ∈ kvAssigns s.kvs, kindAt body.value (keyPath a.1) = some (kindOf a.2.tree.1) ∧ ValueKind (kindOf a.2.tree.1) :=
      fun a ha => ⟨(b4 a ha).2.2, (value_tree_spec a.2 (b4 a ha).2.1).2.1⟩
    have newVal : ∀ a ∈ kvAssigns s.kvs, ValueAt T' (r ++ keyPath a.1) := fun a ha =>
      step_new_value hst (hnr _) ⟨_, b4' a ha⟩
    have newTab : TableAt T' r := step_new_table hst hbk (by have := hnr []; rwa [List.append_nil] at this)
    refine ⟨?_, ?_, ?_, ?_, ?_, ?_, ?_⟩
    · intro q hq B hB
      rcases List.mem_cons.1 hB with rfl | hB
      · refine ⟨fun hp => ?_, fun a ha hp => ?_⟩
        · obtain ⟨x, hx⟩ := placed_prefix (body := body.value) (r := r) (q := []) (p := q) rfl (by rw [List.append_nil]; exact hp)
          exact step_value_not_placed hst hb hbk hq x hx
        · obtain ⟨a, hm, rfl⟩ := mem_assignsOf.1 ha
          obtain ⟨x, hx⟩ := placed_prefix (b4' a hm).1 hp
          exact step_value_not_placed hst hb hbk hq x hx
      · exact i1 q (step_value hst hb hbk hq) B hB
    · intro q k hk B hB a ha hp
      rcases List.mem_cons.1 hB with rfl | hB
      · obtain ⟨a, hm, rfl⟩ := mem_assignsOf.1 ha
        obtain ⟨x, hx⟩ := kindAt_prefix hk hp
        exact inline_of_kind (step_value_on hst hx (b4' a hm).1 (b4' a hm).2).1
      · obtain ⟨k', hk'⟩ := step_some hst hk
        exact i2 q k' hk' B hB a ha hp
    · intro q hq B hB a ha he
      rcases List.mem_cons.1 hB with rfl | hB
      · obtain ⟨a, hm, rfl⟩ := mem_assignsOf.1 ha
        unfold TableAt at hq
        rw [← he] at hq
        obtain ⟨-, h | h⟩ := step_value_on hst hq (b4' a hm).1 (b4' a hm).2 <;> cases h
      · exact i3 q (step_table hst hq) B hB a ha he
    · intro q hq B hB
      rcases List.mem_cons.1 hB with rfl | hB
      · exact step_closed_ne hst hbk hq
      · exact i4 q (step_closed hst hq) B hB
    · refine List.Pairwise.cons (fun B hB => ⟨?_, ?_, ?_, ?_⟩) i5
      · intro a ha
        obtain ⟨a, hm, rfl⟩ := mem_assignsOf.1 ha
        exact (i1 _ (newVal a hm) B hB).1
      · intro a ha b hb'
        obtain ⟨a, hm, rfl⟩ := mem_assignsOf.1 ha
        obtain ⟨k, hk, -⟩ := newVal a hm
        exact ⟨(i1 _ (newVal a hm) B hB).2 b hb', i2 _ k hk B hB b hb'⟩
      · intro b hb'
        exact ⟨i3 r newTab B hB b hb', i2 r _ newTab B hB b hb'⟩
      · exact (i4 r ⟨.table, newTab, Or.inl rfl⟩ B hB).symm
    · intro B hB
      rcases List.mem_cons.1 hB with rfl | hB
      · exact ⟨hr0, b6⟩
      · exact i6 B hB
    · intro P B Q hPQ d hd hdn hP B2 hB2
      cases P with
      | nil =>
        rw [List.nil_append] at hPQ
        injection hPQ with e1 e2
        subst e1
        obtain ⟨a, ha, ks1, ks2, e, hk1, hk2, rfl⟩ := mem_dottedOf hd
        refine i4 _ (step_new_closed hst hdn (b5 a ha ks1 ks2 e hk1 hk2)) B2 (by rw [e2]; exact hB2)
      | cons B0 P =>
        rw [List.cons_append] at hPQ
        injection hPQ with e1 e2
        refine i7 P B Q e2 d hd ?_ (fun B' hB' => hP B' (List.mem_cons_of_mem _ hB')) B2 hB2
        rw [hst.other d ?_]
        · exact hdn
        · intro k2 hpl
          have := placed_bodyNodes hbe (r := r) (p := d) (k2 := k2) (by rw [hbody]; exact hpl)
          obtain ⟨n, hn⟩ := this
          exact hP B0 List.mem_cons_self n (by rw [← e1]; exact hn)

/-- The tables of an accepted document. -/
theorem bodies_compatible {root : AstRoot σ} (he : root.tree.2 = []) (hk : Spec.HasKeys root) (hreg : Spec.Regular root) :
    (Spec.bodies root).Pairwise Compatible ∧
    (∀ B ∈ Spec.bodies root,
      (kvAssigns B.2).Pairwise (fun a b => ¬ keyPath a.1 <+: keyPath b.1 ∧ ¬ keyPath b.1 <+: keyPath a.1)) ∧
    (∀ P B Q, Spec.bodies root = P ++ B :: Q → ∀ d ∈ dottedOf B,
      (∀ B0 ∈ P, ∀ n, (d, n) ∉ bodyNodes B0) → ∀ B2 ∈ Q, B2.1 ≠ d) := by
  unfold AstRoot.tree at he
  simp only [List.append_eq_nil_iff] at he
  obtain ⟨h1, h2⟩ := he
  obtain ⟨r1, r2, r3⟩ := root_start h1
  obtain ⟨b0, b0k, b0n⟩ := merge_kvs_spec ⟨.root, []⟩ (empty_bodyOk (Or.inr rfl)) root.kvs h1
  obtain ⟨b1, b2, b3, b4, b5, b6⟩ := kvs_assigns root.kvs ⟨.root, []⟩ (empty_bodyOk (Or.inr rfl)) h1 hk.2.1
  have hroot : Rooted (mergeKeyValues ⟨.root, []⟩ root.kvs).1.value := by
    intro p hp
    apply Classical.byContradiction
    intro hne
    rcases b0.body p _ hne hp with h | h | h <;> cases h
  obtain ⟨i1, i2, i3, i4, i5, i6, i7⟩ := sections_conflict root.sections [] _ [] r1 r2 hroot hk.1 hk.2.2 hreg h2
  generalize hT : (mergeKeyValues ⟨.root, []⟩ root.kvs).1.value = T at *
  have newVal : ∀ a ∈ kvAssigns root.kvs, ValueAt T (keyPath a.1) := fun a ha =>
    ⟨_, (b4 a ha).2.2, (value_tree_spec a.2 (b4 a ha).2.1).2.1⟩
  refine ⟨?_, ?_, ?_⟩
  · refine List.Pairwise.cons (fun B hB => ⟨?_, ?_, ?_, ?_⟩) i5
    · intro a ha
      obtain ⟨a, hm, rfl⟩ := mem_assignsOf.1 ha
      exact (i1 _ (newVal a hm) B hB).1
    · intro a ha b hb
      obtain ⟨a, hm, rfl⟩ := mem_assignsOf.1 ha
      obtain ⟨k, hk, -⟩ := newVal a hm
      exact ⟨(i1 _ (newVal a hm) B hB).2 b hb, i2 _ k hk B hB b hb⟩
    · intro b hb
      obtain ⟨b, hm, rfl⟩ := mem_assignsOf.1 hb
      have hB0 := (i6 B hB).1
      refine ⟨fun h => ?_, fun h => ?_⟩
      · exact hB0 (List.append_eq_nil_iff.1 h).1
      · exact absurd (List.append_eq_nil_iff.1 (List.prefix_nil.1 h)).1 hB0
    · exact (i6 B hB).1.symm
  · intro B hB
    rcases List.mem_cons.1 hB with rfl | hB
    · exact b6
    · exact (i6 B hB).2
  · intro P B Q hPQ d hd hP B2 hB2
    unfold Spec.bodies at hPQ
    cases P with
    | nil =>
      rw [List.nil_append] at hPQ
      injection hPQ with e1 e2
      subst e1
      obtain ⟨a, ha, ks1, ks2, e, hk1, hk2, rfl⟩ := mem_dottedOf hd
      exact i4 _ (b5 a ha ks1 ks2 e hk1 hk2) B2 (by rw [e2]; exact hB2)
    | cons B0 P =>
      rw [List.cons_append] at hPQ
      injection hPQ with e1 e2
      refine i7 P B Q e2 d hd ?_ (fun B' hB' => hP B' (List.mem_cons_of_mem _ hB')) B2 hB2
      cases hkd : kindAt T d with
      | none => rfl
      | some k =>
        exfalso
        have hnn : ∃ n, eraseKind k = some n := by
          cases k with
          | incomplete =>
            cases d with
            | nil => rw [← hT] at hkd; cases hkd
            | cons s d => exact absurd (b0.body (s :: d) .incomplete (by simp) (by rw [hT]; exact hkd)) id
          | _ => exact ⟨_, rfl⟩
        obtain ⟨n, hn⟩ := hnn
        have hnode : nodeAt T d = some n := by rw [nodeAt_eq, hkd]; exact hn
        refine hP B0 List.mem_cons_self n ?_
        rw [← e1]
        unfold bodyNodes
        rcases List.mem_cons.1 ((r3 d n).1 hnode) with h | h
        · cases h
          exact List.mem_append_left _ List.mem_cons_self
        · exact List.mem_append_right _ (mem_below.2 ⟨d, rfl, h⟩)

/-- The arrays of tables of an accepted document have one element for each `[[…]]`. -/
theorem sections_count (sections : List (AstSection σ)) : ∀ (prev : List (AstSection σ)) (T : DTable σ) (opened : List Path),
    Everywhere LocalOk T.value → CountInv T.value opened → HeadersOk sections → RegularFrom prev opened sections →
    (mergeSections prev T sections).2 = [] →
    CountInv (mergeSections prev T sections).1.value (Spec.openedBy opened sections) := by
  induction sections with
  | nil =>
    intro prev T opened _ hI _ _ _
    rw [mergeSections]; exact hI
  | cons s rest ih =>
    intro prev T opened hT hI hh hreg he
    rw [mergeSections] at he ⊢
    simp only [List.append_eq_nil_iff] at he
    obtain ⟨⟨h1, h2⟩, h3⟩ := he
    obtain ⟨ks, last, hs⟩ := section_header (hh s List.mem_cons_self) h1
    have hst := section_step hT hI hs (fun name hp hne hex => hreg.1 (ks ++ [last]) name hs hp hne hex) h1 h2
    obtain ⟨hb, hbk, hbn⟩ := body_ok (section_body_errors hs h1)
    exact ih _ _ _ (section_ok hT hs) (countInv_step hI hb hs hst) (fun x hx => hh x (List.mem_cons_of_mem _ hx)) hreg.2 h3

end Tombi
