import Verif.Proofs.SchemaCovered
/-! The schemas of a file have the meaning of the file. -/
namespace Tombi.SchemaFile
open Tombi.Offer (J Text typeAssertion asSize tyOfName nameTy)
open Tombi.Spec.SchemaFile
open Tombi.Validate (Key Value Ty Node Env Schema Entry)
open Tombi.Spec.Validate (NodeHolds Sub Supported Ranked AllSupported)

/-! ### references to definitions -/

theorem split_plain : ∀ {k : Text}, '/' ∉ k → split k = [k]
  | [], _ => rfl
  | c :: k, h => by
    rw [List.mem_cons, not_or] at h
    rw [split, if_neg (fun e => h.1 e.symm), split_plain h.2]

theorem split_append : ∀ {a b : Text}, '/' ∉ a → split (a ++ '/' :: b) = a :: split b
  | [], b, _ => by rw [List.nil_append, split, if_pos rfl]
  | c :: a, b, h => by
    rw [List.mem_cons, not_or] at h
    rw [List.cons_append, split, if_neg (fun e => h.1 e.symm), split_append h.2]

theorem unescape_plain : ∀ {k : Text}, '~' ∉ k → unescape k = k
  | [], _ => by simp [unescape]
  | c :: k, h => by
    rw [List.mem_cons, not_or] at h
    rw [unescape.eq_def]
    split
    · rename_i e
      simp only [List.cons.injEq] at e
      exact absurd e.1.symm h.1
    · rename_i e
      simp only [List.cons.injEq] at e
      exact absurd e.1.symm h.1
    · rename_i e
      simp only [List.cons.injEq] at e
      obtain ⟨rfl, rfl⟩ := e
      rw [unescape_plain h.2]
    · rename_i e
      cases e

theorem reference_text {name : String} (hn : name ∈ ["definitions", "$defs"]) (k : Text) :
    ("#/" ++ name ++ "/").toList ++ k = '#' :: '/' :: (name.toList ++ '/' :: k) ∧ '/' ∉ name.toList ∧ '~' ∉ name.toList := by
  simp only [List.mem_cons, List.not_mem_nil, or_false] at hn
  rcases hn with rfl | rfl
  · exact ⟨by simp, by decide, by decide⟩
  · exact ⟨by simp, by decide, by decide⟩

theorem target_definition {name : String} (hn : name ∈ ["definitions", "$defs"]) {k : Text} (h1 : '/' ∉ k) (h2 : '~' ∉ k)
    {o ds : Members} {s : Json} (ho : kw o name = some (.obj ds)) (hs : ds.lookup k = some s) :
    target (.obj o) (("#/" ++ name ++ "/").toList ++ k) = some s := by
  obtain ⟨h3, h4, h5⟩ := reference_text hn k
  rw [kw_eq] at ho
  rw [h3, target, split_append h4, split_plain h1]
  simp only [List.map_cons, List.map_nil, unescape_plain h5, unescape_plain h2, walk, ho, hs]

theorem definedIn_here {name : String} {k : Text} {o ds : Members} {s : Json} (ho : kw o name = some (.obj ds))
    (hs : (k, s) ∈ ds) (hsch : isSchema s = true) :
    definedIn (.obj o) name (("#/" ++ name ++ "/").toList ++ k) = some [.key name.toList, .key k] := by
  rw [kw_eq] at ho
  simp only [definedIn, ho]
  have key : ∀ ds : Members, (k, s) ∈ ds → ds.findSome? (fun (x : Text × Json) =>
      if isSchema x.2 && (("#/" ++ name ++ "/").toList ++ x.1 == ("#/" ++ name ++ "/").toList ++ k) then
        some [Step.key name.toList, Step.key x.1] else none) = some [.key name.toList, .key k] := by
    intro ds
    induction ds with
    | nil => intro h; cases h
    | cons x ds ih =>
      intro h
      rw [List.findSome?_cons]
      by_cases hx : isSchema x.2 && (("#/" ++ name ++ "/").toList ++ x.1 == ("#/" ++ name ++ "/").toList ++ k)
      · rw [if_pos hx]
        have hx := (Bool.and_eq_true _ _ ▸ hx : _ ∧ _).2
        have := List.append_cancel_left (eq_of_beq hx)
        rw [this]
      · rw [if_neg hx]
        rcases List.mem_cons.1 h with rfl | h
        · exact absurd (by simp [hsch]) hx
        · exact ih h
  exact key ds hs

theorem definedIn_other {o : Members} {k : Text} : definedIn (.obj o) "definitions" (("#/" ++ "$defs" ++ "/").toList ++ k) = none := by
  rw [definedIn]
  split
  · rename_i ds h
    rw [List.findSome?_eq_none_iff]
    rintro ⟨k', j⟩ _
    simp only []
    rw [if_neg]
    intro hx
    have hx := eq_of_beq (Bool.and_eq_true _ _ ▸ hx : _ ∧ _).2
    have h1 := (reference_text (name := "definitions") (by simp) k').1
    have h2 := (reference_text (name := "$defs") (by simp) k).1
    rw [h1, h2] at hx
    simp at hx
  · rfl

theorem definition_eq {name : String} (hn : name ∈ ["definitions", "$defs"]) {k : Text} {o ds : Members} {s : Json}
    (ho : kw o name = some (.obj ds)) (hs : (k, s) ∈ ds) (hsch : isSchema s = true) :
    definition (.obj o) (("#/" ++ name ++ "/").toList ++ k) = some [.key name.toList, .key k] := by
  simp only [List.mem_cons, List.not_mem_nil, or_false] at hn
  rcases hn with rfl | rfl
  · rw [definition, definedIn_here ho hs hsch, Option.some_or]
  · rw [definition, definedIn_other, definedIn_here ho hs hsch, Option.none_or]

/-! ### the end of references -/

/-- The schema is no reference. -/
def Final (j : Json) : Prop := ∀ o, j = .obj o → ∀ r, kw o "$ref" ≠ some (.str r)

section
variable {d : Option Dialect} {strict : Bool} {root : Json} (hc : CoveredFile d strict root)
variable {m : Text → Option (Key → Bool)} {H : Json → Value → Prop} (hm : Meaning d m root H)
variable {rank level : Json → Nat} {bound : Nat} (ha : Grounded root rank level bound)
include hc hm ha

theorem resolve_ok : ∀ (hops : Nat) {p : Pointer} {j : Json}, Place root p j → rank j < hops →
    ∃ q jq dep, resolve root hops p = some (q, dep) ∧ Place root q jq ∧ Final jq ∧ (∀ v, H jq v ↔ H j v) ∧ (rank jq ≤ rank j ∧ level jq ≤ level j) ∧
      (¬ Final j → ∀ o, jq = .obj o → Asserts o → Has o "type") := by
  intro hops
  induction hops with
  | zero =>
    intro p j _ h
    exact absurd h (Nat.not_lt_zero _)
  | succ hops ih =>
    intro p j hp h
    obtain ⟨hi, hv⟩ := hp.inside (distinct_of_covered hc)
    by_cases hf : Final j
    · refine ⟨p, j, false, ?_, hp, hf, fun _ => Iff.rfl, ⟨Nat.le_refl _, Nat.le_refl _⟩, fun h => absurd hf h⟩
      rw [resolve, hv]
      rcases hc.schema j hi with ⟨b, rfl⟩ | ⟨o, rfl⟩
      · rfl
      · simp only []
        have : refOf o = none := by
          cases hr : refOf o with
          | none => rfl
          | some r => exact absurd (bind_asText.1 hr) (hf o rfl r)
        rw [this]
    · have ⟨o, r, e, hr⟩ : ∃ o r, j = .obj o ∧ kw o "$ref" = some (.str r) := by
        refine Classical.byContradiction fun hn => hf ?_
        intro o e r hr
        exact hn ⟨o, r, e, hr⟩
      subst e
      obtain ⟨name, hname, k, h1, h2, rfl, o', ds, s, hroot, hk, hs⟩ := (hc.ref o r hi hr).definition
      subst hroot
      have hname' : name ∈ ["properties", "patternProperties", "dependentSchemas", "definitions", "$defs"] := by
        simp only [List.mem_cons, List.not_mem_nil, or_false] at hname ⊢
        rcases hname with h | h <;> simp [h]
      have hp0 : Place (.obj o') [] (.obj o') := .here _
      have hps := map_place hp0 hname' hk hs
      obtain ⟨ds', e, hnd⟩ := map_form hc hp0 hname' hk
      cases e
      have htar := target_definition hname h1 h2 hk (lookup_of_mem hnd hs)
      obtain ⟨hrk, hlv⟩ := ha.ref o _ s hi hr htar
      obtain ⟨q, jq, dep, g1, g2, g3, g4, g5, g6⟩ := ih hps (by omega)
      refine ⟨q, jq, dep || isTrue o "deprecated", ?_, g2, g3, ?_, ⟨by omega, by omega⟩, ?_⟩
      · rw [resolve, hv]
        simp only []
        rw [show refOf o = some _ from bind_asText.2 hr]
        simp only []
        rw [definition_eq hname hk hs (map_schema hc hp0 hname' hk k s hs), Option.bind_some]
        rw [List.nil_append] at g1
        rw [show resolve (.obj o') hops [Step.key name.toList, Step.key k] = some (q, dep) from g1, Option.map_some]
      · intro v
        rw [g4 v, hm.ref o _ hi hr v]
        constructor
        · intro h
          exact ⟨s, htar, h⟩
        · rintro ⟨t, ht, h⟩
          rw [htar] at ht
          cases ht
          exact h
      · intro _ oq e hassert
        by_cases hfs : Final s
        · have : rank s < hops := by omega
          cases hops with
          | zero => omega
          | succ n =>
            have hvs := (hps.inside (distinct_of_covered hc)).2
            have hsi := (hps.inside (distinct_of_covered hc)).1
            have hq : q = [] ++ [.key name.toList] ++ [.key k] := by
              rw [resolve, hvs] at g1
              rcases hc.schema s hsi with ⟨b, rfl⟩ | ⟨os, rfl⟩
              · simp only [Option.some.injEq, Prod.mk.injEq] at g1
                exact g1.1.symm
              · simp only [] at g1
                have : refOf os = none := by
                  cases hr' : refOf os with
                  | none => rfl
                  | some r => exact absurd (bind_asText.1 hr') (hfs os rfl r)
                rw [this] at g1
                simp only [Option.some.injEq, Prod.mk.injEq] at g1
                exact g1.1.symm
            have hj := (g2.inside (distinct_of_covered hc)).2
            rw [hq, hvs] at hj
            cases hj
            subst e
            exact hc.referred o _ oq hi hr htar (hfs oq rfl) hassert
        · exact g6 hfs oq e hassert
end

/-! ### the entries of the file -/

section
variable {strict : Bool} {root : Json} (hc : CoveredFile (dialectOf root) strict root) (L : Libraries)
variable {H : Json → Value → Prop} (hm : Meaning (dialectOf root) L.compile root H)
variable {rank level : Json → Nat} {bound : Nat} (ha : Grounded root rank level bound) {hops : Nat} (hh : bound < hops)
include hc hm ha hh

theorem entry_shape {id : Nat} {p : Pointer} {j : Json} (hid : (places root)[id]? = some p) (hp : Place root p j) :
    ∃ q jq dep, ((fileEnv L root hops).entry id).schema = schemaAt (dialectOf root) root q dep ∧ Place root q jq ∧ Final jq ∧
      (∀ v, H jq v ↔ H j v) ∧ (rank jq ≤ rank j ∧ level jq ≤ level j) ∧
      (((fileEnv L root hops).entry id).byRef = true → ∀ o, jq = .obj o → Asserts o → Has o "type") := by
  obtain ⟨hi, hv⟩ := hp.inside (distinct_of_covered hc)
  have hr := ha.bound j hi
  have he : (fileEnv L root hops).entry id = entryAt (dialectOf root) root hops p := by
    show (match (places root)[id]? with
      | some p => entryAt (dialectOf root) root hops p
      | none => ⟨false, .always true⟩) = _
    rw [hid]
  by_cases hf : Final j
  · have : entryAt (dialectOf root) root hops p = ⟨false, schemaAt (dialectOf root) root p false⟩ := by
      rw [entryAt, hv]
      rcases hc.schema j hi with ⟨b, rfl⟩ | ⟨o, rfl⟩
      · rfl
      · simp only []
        have : refOf o = none := by
          cases hr' : refOf o with
          | none => rfl
          | some r => exact absurd (bind_asText.1 hr') (hf o rfl r)
        rw [this]
    rw [he, this]
    exact ⟨p, j, false, rfl, hp, hf, fun _ => Iff.rfl, ⟨Nat.le_refl _, Nat.le_refl _⟩, fun h => by cases h⟩
  · obtain ⟨q, jq, dep, g1, g2, g3, g4, g5, g6⟩ := resolve_ok hc hm ha hops hp (by omega)
    have ⟨o, r, e, hr'⟩ : ∃ o r, j = .obj o ∧ kw o "$ref" = some (.str r) := by
      refine Classical.byContradiction fun hn => hf ?_
      intro o e r hr'
      exact hn ⟨o, r, e, hr'⟩
    subst e
    have : entryAt (dialectOf root) root hops p = ⟨true, schemaAt (dialectOf root) root q dep⟩ := by
      rw [entryAt, hv]
      simp only []
      rw [show refOf o = some _ from bind_asText.2 hr']
      simp only [g1]
    rw [he, this]
    exact ⟨q, jq, dep, rfl, g2, g3, g4, g5, fun _ => g6 hf⟩

theorem file_meaning : Tombi.Spec.Validate.Meaning (fileEnv L root hops) (truth H root) := by
  intro id v
  cases hid : (places root)[id]? with
  | none =>
    have he : (fileEnv L root hops).entry id = ⟨false, .always true⟩ := by
      show (match (places root)[id]? with
        | some p => entryAt (dialectOf root) root hops p
        | none => ⟨false, .always true⟩) = _
      rw [hid]
    rw [he]
    refine ⟨fun _ => rfl, fun _ => ?_⟩
    intro p j h
    rw [hid] at h
    cases h
  | some p =>
    obtain ⟨j, hp⟩ := place_of_mem root p (List.mem_of_getElem? hid)
    have ht : truth H root id v ↔ H j v := by
      have hv := (hp.inside (distinct_of_covered hc)).2
      constructor
      · exact fun h => h p j hid hv
      · intro h p' j' h1 h2
        rw [hid] at h1
        cases h1
        rw [hv] at h2
        cases h2
        exact h
    obtain ⟨q, jq, dep, he, hq, hfin, hH, _, _⟩ := entry_shape hc L hm ha hh hid hp
    obtain ⟨hqi, hqv⟩ := hq.inside (distinct_of_covered hc)
    rw [ht, ← hH v, he, schemaAt, hqv]
    rcases hc.schema jq hqi with ⟨b, rfl⟩ | ⟨o, rfl⟩
    · exact hm.bool b v
    · simp only []
      rw [hm.obj o hqi (hfin o rfl) v]
      exact ⟨read_of_holds hc hq hm.bool L hops, holds_of_read hc hq hm.bool L hops⟩

/-- The rank of the schema with a number. -/
def rankOf (rank : Json → Nat) (root : Json) (id : Nat) : Nat :=
  match (places root)[id]? with
  | some p => match valueAt root p with
    | some j => rank j
    | none => 0
  | none => 0

omit hm ha hh L in
theorem rankOf_place {p : Pointer} {j : Json} (hp : Place root p j) : rankOf rank root (idOf root p) = rank j := by
  simp only [rankOf, idOf_place hp, (hp.inside (distinct_of_covered hc)).2]

theorem file_guarded : Tombi.Spec.Validate.Guarded (fileEnv L root hops) (rankOf rank root) (rankOf level root) bound := by
  have key : ∀ id n, ((fileEnv L root hops).entry id).schema = .obj n → ∃ q o dep, n = readNode (dialectOf root) root q o dep ∧
      Place root q (.obj o) ∧ rank (.obj o) ≤ rankOf rank root id ∧ level (.obj o) ≤ rankOf level root id := by
    intro id n hn
    cases hid : (places root)[id]? with
    | none =>
      have he : (fileEnv L root hops).entry id = ⟨false, .always true⟩ := by
        show (match (places root)[id]? with
          | some p => entryAt (dialectOf root) root hops p
          | none => ⟨false, .always true⟩) = _
        rw [hid]
      rw [he] at hn
      cases hn
    | some p =>
      obtain ⟨j, hp⟩ := place_of_mem root p (List.mem_of_getElem? hid)
      obtain ⟨q, jq, dep, he, hq, hfin, hH, ⟨hrk, hlv⟩, _⟩ := entry_shape hc L hm ha hh hid hp
      obtain ⟨hqi, hqv⟩ := hq.inside (distinct_of_covered hc)
      rw [he, schemaAt, hqv] at hn
      rcases hc.schema jq hqi with ⟨b, rfl⟩ | ⟨o, rfl⟩
      · cases hn
      · simp only [Schema.obj.injEq] at hn
        refine ⟨q, o, dep, hn.symm, hq, ?_, ?_⟩
        all_goals
          simp only [rankOf, hid, (hp.inside (distinct_of_covered hc)).2]
          assumption
  refine ⟨?_, ?_, ?_, ?_⟩
  · intro id n s hn hs
    obtain ⟨q, o, dep, rfl, hq, h1, _⟩ := key id n hn
    obtain ⟨q', s', rfl, hpl, hch⟩ := inPlace_applied hc hq dep hs
    have := ha.applied o s' (hq.inside (distinct_of_covered hc)).1 hch
    rw [rankOf_place hc hpl]
    omega
  · intro id
    rw [rankOf]
    split
    · rename_i p hid
      obtain ⟨j, hp⟩ := place_of_mem root p (List.mem_of_getElem? hid)
      obtain ⟨hi, hv⟩ := hp.inside (distinct_of_covered hc)
      simp only [hv]
      exact ha.bound j hi
    · exact Nat.zero_le _
  · intro id n s hn hs
    obtain ⟨q, o, dep, rfl, hq, _, h2⟩ := key id n hn
    obtain ⟨q', s', rfl, hpl, hch⟩ := sub_child hc hq dep hs
    have := ha.child o s' (hq.inside (distinct_of_covered hc)).1 hch
    rw [rankOf_place hc hpl]
    omega
  · intro id n s hn hs
    obtain ⟨q, o, dep, rfl, hq, _, h2⟩ := key id n hn
    obtain ⟨q', s', rfl, hpl, hch⟩ := alternative_alternate hc hq dep hs
    have := ha.alternate o s' (hq.inside (distinct_of_covered hc)).1 hch
    rw [rankOf_place hc hpl]
    omega

theorem file_supported : AllSupported (fileEnv L root hops) strict := by
  intro id n hn
  cases hid : (places root)[id]? with
  | none =>
    have he : (fileEnv L root hops).entry id = ⟨false, .always true⟩ := by
      show (match (places root)[id]? with
        | some p => entryAt (dialectOf root) root hops p
        | none => ⟨false, .always true⟩) = _
      rw [hid]
    rw [he] at hn
    cases hn
  | some p =>
    obtain ⟨j, hp⟩ := place_of_mem root p (List.mem_of_getElem? hid)
    obtain ⟨q, jq, dep, he, hq, hfin, hH, hrk, href⟩ := entry_shape hc L hm ha hh hid hp
    obtain ⟨hqi, hqv⟩ := hq.inside (distinct_of_covered hc)
    rw [he, schemaAt, hqv] at hn
    rcases hc.schema jq hqi with ⟨b, rfl⟩ | ⟨o, rfl⟩
    · cases hn
    · simp only [Schema.obj.injEq] at hn
      subst hn
      exact supported_read hc hq dep (hc.obj o hqi (hfin o rfl)) _ (fun h => href h o rfl)

end
end Tombi.SchemaFile
