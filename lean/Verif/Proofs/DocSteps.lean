import Verif.Proofs.DocResolve

/-! One section merged into the document, and the whole document. -/
namespace Tombi
open Spec (Step Path child lookup nodeAt nodeOf below kvsNodes wayNodes enter resolve named sectionPath openedAfter
  RegularFrom sectionsNodes)

variable {σ : Type}

theorem resolve_append (opened : List Path) (cur : Path) (ks : List DKey) (k : DKey) :
    resolve opened cur (ks ++ [k]) = enter opened (resolve opened cur ks ++ [.key k]) := by
  induction ks generalizing cur with
  | nil => rfl
  | cons a ks ih => exact ih _

theorem named_append (opened : List Path) (ks : List DKey) (k : DKey) :
    named opened (ks ++ [k]) = resolve opened [] ks ++ [.key k] := by
  unfold named
  rw [List.getLast?_concat, List.dropLast_concat]

theorem mem_parentArrayKeys {prev : List (AstSection σ)} {header name : List DKey}
    (h : (parentArrayKeys prev header).contains name = true) :
    name <+: header ∧ ∃ s' ∈ prev, s'.isArray = true ∧ s'.header = some name := by
  unfold parentArrayKeys at h
  rw [List.contains_iff_mem] at h
  rw [List.mem_filter] at h
  obtain ⟨h1, h2⟩ := h
  refine ⟨List.isPrefixOf_iff_prefix.1 h2, ?_⟩
  have h3 := (List.takeWhile_sublist _).subset h1
  rw [List.mem_filterMap] at h3
  obtain ⟨s, hs, he⟩ := h3
  refine ⟨s, hs, ?_⟩
  split at he
  · rename_i ha; exact ⟨ha, he⟩
  · cases he

theorem regAt_of {arrays : List (List DKey)} {opened : List Path} {header : List DKey}
    (h : ∀ name, arrays.contains name = true → name ≠ header → named opened name ∈ opened)
    (last : DKey) : ∀ (ks done : List DKey), header = done ++ ks ++ [last] →
    RegAt arrays opened done (resolve opened [] done) ks := by
  intro ks
  induction ks with
  | nil => intro done _; exact trivial
  | cons k ks ih =>
    intro done he
    refine ⟨fun hc => ?_, ?_⟩
    · have := h (done ++ [k]) hc (by
        rw [he]
        intro heq
        have := congrArg List.length heq
        simp at this)
      rw [named_append] at this
      exact List.count_pos_iff.2 this
    · rw [← resolve_append]
      exact ih (done ++ [k]) (by rw [he]; simp)

/-- What a section puts at each place. -/
def Placed (body : DValue σ) (r p : Path) (k2 : DKind σ) : Prop :=
  (∃ q, p = r ++ q ∧ kindAt body q = some k2) ∨ (∃ s rest, r = p ++ s :: rest ∧ k2 = wayKind s rest)

/-- The document before and after a section. -/
structure Step' (T T' body : DValue σ) (r : Path) : Prop where
  placed : ∀ p k2, Placed body r p k2 → (kindAt T p = none ∧ kindAt T' p = some k2) ∨
    ∃ k1 k, kindAt T p = some k1 ∧ mergedKind k1 k2 = some k ∧ kindAt T' p = some k
  other : ∀ p, (∀ k2, ¬ Placed body r p k2) → kindAt T' p = kindAt T p

/-- An index in the place a header names is that of an array of tables opened before. -/
theorem resolve_index {opened : List Path} (ks : List DKey) (cur : Path)
    (hcur : ∀ p i rest, cur = p ++ .index i :: rest → 0 < opened.count p) :
    ∀ p i rest, resolve opened cur ks = p ++ .index i :: rest → 0 < opened.count p := by
  induction ks generalizing cur with
  | nil => exact hcur
  | cons k ks ih =>
    rw [resolve]
    refine ih _ ?_
    intro p i rest he
    unfold enter at he
    have key : ∀ p i rest, cur ++ [Step.key k] = p ++ .index i :: rest → 0 < opened.count p := by
      intro p i rest he
      rcases List.eq_nil_or_concat rest with rfl | ⟨rest', x, rfl⟩
      · have := congrArg List.getLast? he
        simp at this
      · rw [show p ++ Step.index i :: rest'.concat x = (p ++ .index i :: rest') ++ [x] from by simp] at he
        have := (List.append_inj_left' he rfl)
        exact hcur p i rest' this
    split at he
    · exact key p i rest he
    · rename_i n hn
      rcases List.eq_nil_or_concat rest with rfl | ⟨rest', x, rfl⟩
      · have := (List.append_inj_left' (s₁ := cur ++ [Step.key k]) (t₁ := [.index n]) (s₂ := p) (t₂ := [.index i]) he rfl)
        rw [← this, hn]; omega
      · rw [show p ++ Step.index i :: rest'.concat x = (p ++ .index i :: rest') ++ [x] from by simp] at he
        exact key p i rest' (List.append_inj_left' he rfl)

theorem sectionPath_eq {opened : List Path} {s : AstSection σ} {ks : List DKey} {last : DKey}
    (h : s.header = some (ks ++ [last])) : sectionPath opened s =
      if s.isArray then resolve opened [] ks ++ [.key last, .index (opened.count (resolve opened [] ks ++ [.key last]))]
      else resolve opened [] ks ++ [.key last] := by
  unfold sectionPath
  rw [h]
  simp only [Option.getD_some, named_append]
  split
  · simp
  · rfl

theorem openedAfter_eq {opened : List Path} {s : AstSection σ} {ks : List DKey} {last : DKey}
    (h : s.header = some (ks ++ [last])) : openedAfter opened s =
      if s.isArray then opened ++ [resolve opened [] ks ++ [.key last]] else opened := by
  unfold openedAfter
  rw [h]
  simp only [Option.getD_some, named_append]

theorem body_ok {s : AstSection σ} (h : (mergeKeyValues ⟨.table, []⟩ s.kvs).2 = []) :
    BodyOk (mergeKeyValues ⟨.table, []⟩ s.kvs).1 ∧ (mergeKeyValues ⟨.table, []⟩ s.kvs).1.kind = .table ∧
    ∀ p n, p ≠ [] → (nodeAt (mergeKeyValues ⟨.table, []⟩ s.kvs).1.value p = some n ↔ (p, n) ∈ kvsNodes s.kvs) := by
  obtain ⟨h1, h2, h3⟩ := merge_kvs_spec ⟨.table, []⟩ (empty_bodyOk (Or.inl rfl)) s.kvs h
  refine ⟨h1, h2, fun p n hp => ?_⟩
  rw [h3 p n hp]
  constructor
  · rintro (h | h)
    · exfalso
      cases p with
      | nil => exact hp rfl
      | cons s p => cases s <;> cases h
    · exact h
  · exact Or.inr

/-- A section merged without errors. -/
theorem section_step {T : DTable σ} {opened : List Path} {prev : List (AstSection σ)} {s : AstSection σ}
    {ks : List DKey} {last : DKey} (hT : Everywhere LocalOk T.value) (hI : CountInv T.value opened)
    (hs : s.header = some (ks ++ [last]))
    (hreg : ∀ name, name <+: ks ++ [last] → name ≠ ks ++ [last] →
      (∃ s' ∈ prev, s'.isArray = true ∧ s'.header = some name) → named opened name ∈ opened)
    (he : (s.tree prev).2 = []) (hm : (T.merge (s.tree prev).1).2 = []) :
    Step' T.value (T.merge (s.tree prev).1).1.value (mergeKeyValues ⟨.table, []⟩ s.kvs).1.value (sectionPath opened s) := by
  obtain ⟨t1, t2⟩ := section_tree prev s ks last hs
  rw [t1] at he
  obtain ⟨hb, hbk, -⟩ := body_ok he
  have hbp : Everywhere PlainOk (mergeKeyValues ⟨.table, []⟩ s.kvs).1.value :=
    plain_of_body (fun a vs h => (by cases h)) hb.body
  obtain ⟨e1, e2⟩ := DTable.merge_value T (s.tree prev).1
  rw [e2, t2] at hm
  have hok := (spineTree_localOk (b := (mergeKeyValues ⟨.table, []⟩ s.kvs).1.value) rfl hb.ok
    (sectionFlags (parentArrayKeys prev (ks ++ [last])) s.isArray ks last)).1
  have hsg := spineTree_singleOk (b := (mergeKeyValues ⟨.table, []⟩ s.kvs).1.value) rfl hbp
    (sectionFlags (parentArrayKeys prev (ks ++ [last])) s.isArray ks last)
  have hpath := spine_resolve hT hI (b := (mergeKeyValues ⟨.table, []⟩ s.kvs).1.value) rfl hbp
    (parentArrayKeys prev (ks ++ [last])) s.isArray last ks [] []
    (regAt_of (header := ks ++ [last]) (fun name hc hne =>
      hreg name (mem_parentArrayKeys hc).1 hne (mem_parentArrayKeys hc).2) last ks [] rfl)
    (fun v1 hv1 => by cases hv1; exact ⟨[], hm⟩)
  rw [List.nil_append, ← sectionPath_eq (opened := opened) hs] at hpath
  have hplaces := spine_places _ hbp _ (sectionFlags_ok (parentArrayKeys prev (ks ++ [last])) s.isArray ks last)
    (some T.value)
  have hr : embed (some T.value) (spineTree (mergeKeyValues ⟨.table, []⟩ s.kvs).1.value
      (sectionFlags (parentArrayKeys prev (ks ++ [last])) s.isArray ks last))
      (spinePath (sectionFlags (parentArrayKeys prev (ks ++ [last])) s.isArray ks last)) = sectionPath opened s := hpath
  simp only [hr] at hplaces
  rw [e1, t2]
  constructor
  · intro p k2 hp
    obtain ⟨p2, h1, h2⟩ := ((hplaces p k2).2).2 hp
    have := merge_second p2 [] T.value _ k2 hm hT hok hsg h2
    rw [h1] at this
    exact this
  · intro p hp
    rcases merge_other p [] T.value _ hm hT hok hsg with ⟨p2, k2, h1, h2⟩ | h
    · exact absurd (((hplaces p k2).2).1 ⟨p2, h2, h1⟩) (hp k2)
    · exact h

theorem list_append_cons_inj {α : Type} {a b : List α} {x y : α} {c d : List α} (h : a ++ x :: c = b ++ y :: d)
    (hl : a.length = b.length) : a = b ∧ x = y ∧ c = d := by
  obtain ⟨h1, h2⟩ := List.append_inj h hl
  injection h2 with h2 h3
  exact ⟨h1, h2, h3⟩

theorem mergedKind_not_aot {k1 k2 k : DKind σ} (h : mergedKind k1 k2 = some k)
    (h2 : ∀ a n, k2 = .array a n → a = .array) : (∃ t, k1 = .table t) ∧ ∃ t, k = .table t := by
  cases k1 <;> cases k2 <;> rw [mergedKind] at h <;> try (cases h; done)
  · rename_i a1 n1 a2 n2
    rw [if_neg (fun hh => hh.2 (h2 a2 n2 rfl))] at h; cases h
  · split at h
    · cases h
    · cases h; exact ⟨⟨_, rfl⟩, _, rfl⟩

theorem body_kind_plain {body : DTable σ} (hb : BodyOk body) {q : Path} {a : ArrayKind} {n : Nat}
    (h : kindAt body.value q = some (.array a n)) : a = .array := by
  by_cases hq : q = []
  · subst hq; cases h
  · exact hb.body q _ hq h

/-- The arrays of tables after a section. -/
theorem countInv_step {T T' : DValue σ} {opened : List Path} {body : DTable σ} {s : AstSection σ} {ks : List DKey}
    {last : DKey} (hI : CountInv T opened) (hb : BodyOk body)
    (hs : s.header = some (ks ++ [last])) (hst : Step' T T' body.value (sectionPath opened s)) :
    CountInv T' (openedAfter opened s) := by
  have hidx : ∀ p i rest, resolve opened [] ks = p ++ .index i :: rest → 0 < opened.count p :=
    resolve_index ks [] (fun p i rest h => by have := congrArg List.length h; simp at this)
  intro p
  obtain ⟨i1, i2⟩ := hI p
  -- a place with a plain kind
  have plain : ∀ k2, Placed body.value (sectionPath opened s) p k2 → (∀ a n, k2 = .array a n → a = .array) →
      opened.count p = 0 ∧ ∀ a n, kindAt T' p = some (.array a n) → a = .array := by
    intro k2 hp hk2
    rcases hst.placed p k2 hp with ⟨h1, h2⟩ | ⟨k1, k, h1, h2, h3⟩
    · refine ⟨?_, fun a n h => ?_⟩
      · rcases Nat.eq_zero_or_pos (opened.count p) with h | h
        · exact h
        · obtain ⟨a, _, ha⟩ := i1 h
          rw [h1] at ha; cases ha
      · rw [h2] at h; cases h; exact hk2 a n rfl
    · obtain ⟨⟨t1, rfl⟩, t, rfl⟩ := mergedKind_not_aot h2 hk2
      refine ⟨?_, fun a n h => ?_⟩
      · rcases Nat.eq_zero_or_pos (opened.count p) with h | h
        · exact h
        · obtain ⟨a, _, ha⟩ := i1 h
          rw [h1] at ha; cases ha
      · rw [h3] at h; cases h
  -- a place already open
  have parent : 0 < opened.count p → Placed body.value (sectionPath opened s) p (.array .parentArrayOfTable 1) →
      ∃ a, a ≠ .array ∧ kindAt T' p = some (.array a (opened.count p)) := by
    intro hpos hp
    obtain ⟨a, ha, hk⟩ := i1 hpos
    rcases hst.placed p _ hp with ⟨h1, h2⟩ | ⟨k1, k, h1, h2, h3⟩
    · rw [hk] at h1; cases h1
    · rw [hk] at h1; cases h1
      rw [mergedKind, if_pos ⟨ha, by simp⟩, if_pos rfl] at h2
      cases h2
      exact ⟨a, ha, h3⟩
  rw [sectionPath_eq hs] at plain parent hst
  rw [openedAfter_eq hs]
  cases hA : s.isArray with
  | false =>
    simp only [hA, Bool.false_eq_true, if_false] at plain parent hst ⊢
    by_cases hp : ∃ k2, Placed body.value (resolve opened [] ks ++ [.key last]) p k2
    · obtain ⟨k2, hp⟩ := hp
      rcases hp with ⟨q, hq, hk⟩ | ⟨st, rest, hr, hk⟩
      · obtain ⟨c, c'⟩ := plain k2 (Or.inl ⟨q, hq, hk⟩) (fun a n h => by subst h; exact body_kind_plain hb hk)
        exact ⟨fun h => by omega, fun a n h ha => absurd (c' a n h) ha⟩
      · cases st with
        | key k' =>
          obtain ⟨c, c'⟩ := plain k2 (Or.inr ⟨_, rest, hr, hk⟩) (fun a n h => by rw [hk] at h; cases h)
          exact ⟨fun h => by omega, fun a n h ha => absurd (c' a n h) ha⟩
        | index i =>
          rcases List.eq_nil_or_concat rest with rfl | ⟨rest', x, rfl⟩
          · have := congrArg List.getLast? hr
            simp at this
          · have hr2 := hr
            rw [show p ++ Step.index i :: rest'.concat x = (p ++ .index i :: rest') ++ [x] from by simp] at hr2
            have hpos := hidx p i rest' (List.append_inj_left' hr2 rfl)
            have hk' : k2 = .array .parentArrayOfTable 1 := by
              rw [hk]; unfold wayKind; simp
            obtain ⟨a, ha, h⟩ := parent hpos (Or.inr ⟨_, _, hr, by rw [← hk, hk']⟩)
            refine ⟨fun _ => ⟨a, ha, h⟩, fun a' n' h' _ => ?_⟩
            rw [h] at h'; cases h'; rfl
    · rw [hst.other p (fun k2 h => hp ⟨k2, h⟩)]
      exact ⟨i1, i2⟩
  | true =>
    simp only [hA, if_true] at plain parent hst ⊢
    rw [List.count_append, List.count_singleton]
    generalize hN : resolve opened [] ks ++ [Step.key last] = N at *
    rw [show resolve opened [] ks ++ [Step.key last, .index (opened.count N)] = N ++ [.index (opened.count N)] from by
      rw [← hN]; simp] at plain parent hst
    by_cases hpN : p = N
    · subst hpN
      simp only [beq_self_eq_true, if_true]
      have hp : Placed body.value (p ++ [.index (opened.count p)]) p (.array .arrayOfTable 1) :=
        Or.inr ⟨_, [], rfl, rfl⟩
      rcases hst.placed p _ hp with ⟨h1, h2⟩ | ⟨k1, k, h1, h2, h3⟩
      · have hz : opened.count p = 0 := by
          rcases Nat.eq_zero_or_pos (opened.count p) with h | h
          · exact h
          · obtain ⟨a, _, ha⟩ := i1 h
            rw [h1] at ha; cases ha
        rw [hz]
        refine ⟨fun _ => ⟨_, by simp, h2⟩, fun a n h _ => ?_⟩
        rw [h2] at h; cases h; rfl
      · cases k1 with
        | array a1 n1 =>
          rw [mergedKind] at h2
          split at h2
          · rename_i ha
            rw [if_neg (by simp)] at h2
            cases h2
            have := i2 a1 n1 h1 ha.1
            subst this
            refine ⟨fun _ => ⟨a1, ha.1, h3⟩, fun a n h _ => ?_⟩
            rw [h3] at h; cases h; rfl
          · cases h2
        | _ => cases h2
    · have hb0 : (N == p) = false := by simpa using Ne.symm hpN
      rw [hb0]
      simp only [Bool.false_eq_true, if_false, Nat.add_zero]
      by_cases hp : ∃ k2, Placed body.value (N ++ [.index (opened.count N)]) p k2
      · obtain ⟨k2, hp⟩ := hp
        rcases hp with ⟨q, hq, hk⟩ | ⟨st, rest, hr, hk⟩
        · obtain ⟨c, c'⟩ := plain k2 (Or.inl ⟨q, hq, hk⟩) (fun a n h => by subst h; exact body_kind_plain hb hk)
          exact ⟨fun h => by omega, fun a n h ha => absurd (c' a n h) ha⟩
        · cases st with
          | key k' =>
            obtain ⟨c, c'⟩ := plain k2 (Or.inr ⟨_, rest, hr, hk⟩) (fun a n h => by rw [hk] at h; cases h)
            exact ⟨fun h => by omega, fun a n h ha => absurd (c' a n h) ha⟩
          | index i =>
            rcases List.eq_nil_or_concat rest with rfl | ⟨rest', x, rfl⟩
            · exact absurd (List.append_inj_left' hr rfl).symm hpN
            · have hr2 := hr
              rw [show p ++ Step.index i :: rest'.concat x = (p ++ .index i :: rest') ++ [x] from by simp] at hr2
              have hr3 := List.append_inj_left' hr2 rfl
              rw [← hN] at hr3
              have hpos : 0 < opened.count p := by
                rcases List.eq_nil_or_concat rest' with rfl | ⟨rest'', y, rfl⟩
                · have := congrArg List.getLast? hr3
                  simp at this
                · rw [show p ++ Step.index i :: rest''.concat y = (p ++ .index i :: rest'') ++ [y] from by simp] at hr3
                  exact hidx p i rest'' (List.append_inj_left' hr3 rfl)
              have hk' : k2 = .array .parentArrayOfTable 1 := by
                rw [hk]; unfold wayKind; simp
              obtain ⟨a, ha, h⟩ := parent hpos (Or.inr ⟨_, _, hr, by rw [← hk, hk']⟩)
              refine ⟨fun _ => ⟨a, ha, h⟩, fun a' n' h' _ => ?_⟩
              rw [h] at h'; cases h'; rfl
      · rw [hst.other p (fun k2 h => hp ⟨k2, h⟩)]
        exact ⟨i1, i2⟩

theorem mem_wayNodes (r cur p : Path) (n : Spec.Node σ) :
    (p, n) ∈ wayNodes cur r ↔ (p = cur ++ r ∧ n = .table) ∨
      ∃ q s rest, r = q ++ s :: rest ∧ p = cur ++ q ∧ eraseKind (wayKind s rest) = some n := by
  induction r generalizing cur with
  | nil =>
    rw [wayNodes, List.mem_singleton]
    constructor
    · intro h; cases h; exact Or.inl ⟨by simp, rfl⟩
    · rintro (⟨rfl, rfl⟩ | ⟨q, s, rest, h, _⟩)
      · simp
      · have := congrArg List.length h; simp at this
  | cons s r ih =>
    have hw : (p, n) ∈ wayNodes cur (s :: r) ↔
        ((p = cur ∧ eraseKind (wayKind (σ := σ) s r) = some n) ∨ (p, n) ∈ wayNodes (cur ++ [s]) r) := by
      cases s with
      | key k =>
        rw [wayNodes, List.mem_cons]
        refine or_congr ?_ Iff.rfl
        constructor
        · intro h; cases h; exact ⟨rfl, rfl⟩
        · rintro ⟨rfl, h⟩; cases h; rfl
      | index k =>
        rw [wayNodes, List.mem_cons]
        refine or_congr ?_ Iff.rfl
        constructor
        · intro h; cases h; exact ⟨rfl, rfl⟩
        · rintro ⟨rfl, h⟩; cases h; rfl
    rw [hw, ih]
    constructor
    · rintro (⟨rfl, h⟩ | ⟨rfl, rfl⟩ | ⟨q, s', rest, rfl, rfl, h⟩)
      · exact Or.inr ⟨[], s, r, rfl, by simp, h⟩
      · exact Or.inl ⟨by simp, rfl⟩
      · exact Or.inr ⟨s :: q, s', rest, rfl, by simp, h⟩
    · rintro (⟨rfl, rfl⟩ | ⟨q, s', rest, h1, rfl, h⟩)
      · exact Or.inr (Or.inl ⟨by simp, rfl⟩)
      · cases q with
        | nil => cases h1; exact Or.inl ⟨by simp, h⟩
        | cons x q =>
          cases h1
          exact Or.inr (Or.inr ⟨q, s', rest, rfl, by simp, h⟩)

/-- The nodes after a section. -/
theorem nodes_step {T T' : DValue σ} {body : DTable σ} {r : Path} {nodes : List (Path × Spec.Node σ)}
    (hn : ∀ p n, p ≠ [] → (nodeAt body.value p = some n ↔ (p, n) ∈ nodes)) (hnil : ∀ n, ([], n) ∉ nodes)
    (hst : Step' T T' body.value r) (p : Path) (n : Spec.Node σ) :
    nodeAt T' p = some n ↔ nodeAt T p = some n ∨ (p, n) ∈ wayNodes [] r ++ below r nodes := by
  have hpl : (∃ k2, Placed body.value r p k2 ∧ eraseKind k2 = some n) ↔ (p, n) ∈ wayNodes [] r ++ below r nodes := by
    rw [List.mem_append, mem_wayNodes, mem_below]
    constructor
    · rintro ⟨k2, ⟨q, rfl, hk⟩ | ⟨s, rest, hr, rfl⟩, he⟩
      · by_cases hq : q = []
        · subst hq
          cases hk; cases he
          exact Or.inl (Or.inl ⟨by simp, rfl⟩)
        · refine Or.inr ⟨q, rfl, (hn q n hq).1 ?_⟩
          rw [nodeAt_eq, hk]; exact he
      · exact Or.inl (Or.inr ⟨p, s, rest, hr, by simp, he⟩)
    · rintro ((⟨rfl, rfl⟩ | ⟨q, s, rest, hr, rfl, he⟩) | ⟨q, rfl, hq⟩)
      · exact ⟨.table body.kind, Or.inl ⟨[], by simp, rfl⟩, rfl⟩
      · exact ⟨_, Or.inr ⟨s, rest, by simpa using hr, rfl⟩, he⟩
      · have hq0 : q ≠ [] := fun h => hnil n (h ▸ hq)
        have := (hn q n hq0).2 hq
        rw [nodeAt_eq] at this
        cases hk : kindAt body.value q with
        | none => rw [hk] at this; cases this
        | some k2 =>
          rw [hk] at this
          exact ⟨k2, Or.inl ⟨q, rfl, hk⟩, this⟩
  rw [← hpl]
  by_cases hp : ∃ k2, Placed body.value r p k2
  · obtain ⟨k2, hp⟩ := hp
    have huniq : ∀ k2', Placed body.value r p k2' → eraseKind k2' = eraseKind k2 := by
      intro k2' hp'
      rcases hp with ⟨q, hq, hk⟩ | ⟨s, rest, hr, rfl⟩ <;> rcases hp' with ⟨q', hq', hk'⟩ | ⟨s', rest', hr', rfl⟩
      · rw [hq] at hq'
        have := List.append_cancel_left hq'
        subst this
        rw [hk] at hk'; cases hk'; rfl
      · exfalso
        rw [hq] at hr'
        have := congrArg List.length hr'
        simp at this
      · exfalso
        rw [hq'] at hr
        have := congrArg List.length hr
        simp at this
      · rw [hr] at hr'
        have := List.append_cancel_left hr'
        cases this; rfl
    rw [nodeAt_eq, nodeAt_eq]
    have h0 : (∃ k2', Placed body.value r p k2' ∧ eraseKind k2' = some n) ↔ eraseKind k2 = some n :=
      ⟨fun ⟨k2', h1, h2⟩ => by rw [← huniq k2' h1]; exact h2, fun h => ⟨k2, hp, h⟩⟩
    rw [h0]
    rcases hst.placed p k2 hp with ⟨h1, h2⟩ | ⟨k1, k, h1, h2, h3⟩
    · rw [h1, h2]; simp
    · rw [h1, h3]
      obtain ⟨m1, m2, m3⟩ := mergedKind_erase h2
      show eraseKind k = some n ↔ eraseKind k1 = some n ∨ eraseKind k2 = some n
      rw [← m1, ← m2]; simp
  · rw [nodeAt_eq, nodeAt_eq, hst.other p (fun k2 h => hp ⟨k2, h⟩)]
    constructor
    · exact Or.inl
    · rintro (h | ⟨k2, h, _⟩)
      · exact h
      · exact absurd ⟨k2, h⟩ hp

/-- Every header has a key. -/
def HeadersOk (sections : List (AstSection σ)) : Prop := ∀ s ∈ sections, s.header ≠ some []

theorem section_header {prev : List (AstSection σ)} {s : AstSection σ} (h0 : s.header ≠ some []) (he : (s.tree prev).2 = []) :
    ∃ ks last, s.header = some (ks ++ [last]) := by
  cases h : s.header with
  | none => unfold AstSection.tree at he; rw [h] at he; cases he
  | some header =>
    rcases List.eq_nil_or_concat header with rfl | ⟨ks, last, rfl⟩
    · exact absurd h h0
    · exact ⟨ks, last, by rw [List.concat_eq_append]⟩

theorem section_body_errors {prev : List (AstSection σ)} {s : AstSection σ} {ks : List DKey} {last : DKey}
    (hs : s.header = some (ks ++ [last])) (he : (s.tree prev).2 = []) : (mergeKeyValues ⟨.table, []⟩ s.kvs).2 = [] := by
  rw [(section_tree prev s ks last hs).1] at he; exact he

theorem section_ok {T : DTable σ} {prev : List (AstSection σ)} {s : AstSection σ} {ks : List DKey} {last : DKey}
    (hT : Everywhere LocalOk T.value) (hs : s.header = some (ks ++ [last])) :
    Everywhere LocalOk (T.merge (s.tree prev).1).1.value := by
  rw [(DTable.merge_value T (s.tree prev).1).1, (section_tree prev s ks last hs).2]
  exact (mergeValue_ok [] _ hT _ (spineTree_localOk rfl
    (merge_kvs_ok _ (empty_bodyOk (Or.inl rfl)).ok s.kvs).1 _).1).1

/-- The sections of a document. -/
theorem sections_nodes (sections : List (AstSection σ)) : ∀ (prev : List (AstSection σ)) (T : DTable σ) (opened : List Path),
    Everywhere LocalOk T.value → CountInv T.value opened → HeadersOk sections → RegularFrom prev opened sections →
    (mergeSections prev T sections).2 = [] → ∀ p n, nodeAt (mergeSections prev T sections).1.value p = some n ↔
      nodeAt T.value p = some n ∨ (p, n) ∈ sectionsNodes opened sections := by
  induction sections with
  | nil =>
    intro prev T opened _ _ _ _ _ p n
    rw [mergeSections, sectionsNodes]; simp
  | cons s rest ih =>
    intro prev T opened hT hI hh hreg he p n
    rw [mergeSections] at he ⊢
    simp only [List.append_eq_nil_iff] at he
    obtain ⟨⟨h1, h2⟩, h3⟩ := he
    obtain ⟨ks, last, hs⟩ := section_header (hh s List.mem_cons_self) h1
    have hst := section_step hT hI hs (fun name hp hne hex => hreg.1 (ks ++ [last]) name hs hp hne hex) h1 h2
    have hbe := section_body_errors hs h1
    obtain ⟨hb, -, hbn⟩ := body_ok hbe
    have := ih (s :: prev) (T.merge (s.tree prev).1).1 (openedAfter opened s) (section_ok hT hs)
      (countInv_step hI hb hs hst) (fun x hx => hh x (List.mem_cons_of_mem _ hx)) hreg.2 h3 p n
    rw [this, nodes_step hbn (kvsNodes_ne_nil s.kvs) hst, sectionsNodes]
    simp only [List.mem_append, or_assoc]

theorem root_start {kvs : List (AstKeyValue σ)} (h : (mergeKeyValues ⟨.root, []⟩ kvs).2 = []) :
    Everywhere LocalOk (mergeKeyValues ⟨.root, []⟩ kvs).1.value ∧
    CountInv (mergeKeyValues ⟨.root, []⟩ kvs).1.value [] ∧
    ∀ p n, nodeAt (mergeKeyValues ⟨.root, []⟩ kvs).1.value p = some n ↔ (p, n) ∈ ([], Spec.Node.table) :: kvsNodes kvs := by
  obtain ⟨h1, h2, h3⟩ := merge_kvs_spec ⟨.root, []⟩ (empty_bodyOk (Or.inr rfl)) kvs h
  refine ⟨h1.ok, fun p => ⟨fun h => (by simp at h), fun a n hk ha => ?_⟩, fun p n => ?_⟩
  · exact absurd (body_kind_plain h1 hk) ha
  · rw [List.mem_cons]
    by_cases hp : p = []
    · subst hp
      constructor
      · intro h; cases h; exact Or.inl rfl
      · rintro (h | h)
        · cases h; rfl
        · exact absurd h (kvsNodes_ne_nil kvs n)
    · rw [h3 p n hp]
      constructor
      · rintro (h | h)
        · exfalso
          cases p with
          | nil => exact hp rfl
          | cons s p => cases s <;> cases h
        · exact Or.inr h
      · rintro (h | h)
        · cases h; exact absurd rfl hp
        · exact Or.inr h

end Tombi
