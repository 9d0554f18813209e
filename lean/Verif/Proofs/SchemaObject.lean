import Verif.Proofs.SchemaHolds
/-! A schema object that is read is in the fragment, and has the meaning of its keywords. -/
namespace Tombi.SchemaFile
open Tombi.Offer (J Text typeAssertion asSize tyOfName nameTy)
open Tombi.Spec.SchemaFile
open Tombi.Validate (Key Value Ty Node Env Items Rest Additional)
open Tombi.Spec.Validate (HasType NodeHolds Same Count ItemHolds Declared General Typed Applied Sub Supported PlainLit PlainLits
  PlainLitEntries NoApplicator OnlyApplicators Small)

section
variable {d : Option Dialect} {strict : Bool} {root : Json} (hc : CoveredFile d strict root)
variable {p : Pointer} {o : Members} (hp : Place root p (.obj o)) {H : Json → Value → Prop} (hb : ∀ b v, H (.bool b) v ↔ b = true)
variable (L : Libraries) (hops : Nat)
include hc hp

theorem int_form {name : String} (hn : name ∈ ["minimum", "maximum", "exclusiveMinimum", "exclusiveMaximum", "multipleOf"]) {j : Json}
    (h : kw o name = some j) : ∃ i, j = .int i := by
  simp only [List.mem_cons, List.not_mem_nil, or_false] at hn
  rcases hn with rfl | rfl | rfl | rfl | rfl
  all_goals exact form_at hc hp (f := .int) (by simp [forms]) h

include hb in
theorem holds_of_read {dep : Bool} {v : Value} (h : NodeHolds (fileEnv L root hops) (truth H root) (readNode d root p o dep) v) :
    Holds d L.compile H o v := by
  obtain ⟨hg, ht, ha⟩ := h
  obtain ⟨h1, h2, h3⟩ := (general_iff hc hp dep v).1 hg
  refine ⟨h1, h2, h3, ?_, ?_, ?_, ?_, ?_, ?_, ?_, ?_, ?_, ?_, ?_, ?_, ?_, ?_, ?_, ?_, ?_, ?_, ?_, ?_, ?_, ?_, ?_, ?_, ?_, ?_, ?_, ?_⟩
  · rintro n i hk rfl
    obtain ⟨m, rfl⟩ := int_form hc hp (by simp) hk
    exact ht.minimum m (bind_asInt.2 hk)
  · rintro n i hk rfl
    obtain ⟨m, rfl⟩ := int_form hc hp (by simp) hk
    exact ht.maximum m (bind_asInt.2 hk)
  · rintro n i hk rfl
    obtain ⟨m, rfl⟩ := int_form hc hp (by simp) hk
    exact ht.exclusiveMinimum m (bind_asInt.2 hk)
  · rintro n i hk rfl
    obtain ⟨m, rfl⟩ := int_form hc hp (by simp) hk
    exact ht.exclusiveMaximum m (bind_asInt.2 hk)
  · rintro n i hk rfl
    obtain ⟨m, rfl⟩ := int_form hc hp (by simp) hk
    exact ht.multipleOf m (bind_asInt.2 hk)
  · rintro n s hk rfl
    exact ht.minLength n (bind_asSize.2 hk)
  · rintro n s hk rfl
    exact ht.maxLength n (bind_asSize.2 hk)
  · rintro r f s hk hf rfl
    have hb := bind_asText.2 hk
    refine ht.pattern (2 * idOf root p) f (congrArg (Option.map fun _ => 2 * idOf root p) hb) ?_
    rw [regex_own hc hp, hb, Option.bind_some]
    exact hf
  · rintro xs i x rfl hx
    exact (item_iff hc hp hb dep i x).1 (ht.items i x hx)
  · rintro s xs hk rfl
    obtain ⟨he, hs⟩ := sub_means hc hp (H := H) (name := "contains") (by simp) hk
    obtain ⟨c, hcnt, hmin, hmax⟩ := ht.contains _ he
    refine ⟨c, count_congr hs hcnt, ?_, ?_, fun n hn => hmax n (bind_asSize.2 hn)⟩
    · intro n hn
      have e : (readNode d root p o dep).minContains = some n := bind_asSize.2 hn
      rw [e] at hmin
      exact hmin
    · intro hn
      have e : (readNode d root p o dep).minContains = none := congrArg (Option.bind · asSize) hn
      rw [e] at hmin
      exact hmin
  · rintro n xs hk rfl
    exact ht.minItems n (bind_asSize.2 hk)
  · rintro n xs hk rfl
    exact ht.maxItems n (bind_asSize.2 hk)
  · rintro xs hk rfl
    exact ht.uniqueItems ((uniqueItems_iff dep).2 hk)
  · rintro ps kvs k x s hk rfl hx hs
    exact (truth_named hc hp (name := "properties") (by simp) hk hs x).1
      (ht.properties k x _ hx ((named_lookup hc hp (name := "properties") (by simp)).2 ⟨ps, s, hk, hs, rfl⟩))
  · rintro ps kvs k x r s f hk rfl hx hs hf hfk
    obtain ⟨l, hl, hm⟩ := patterns_of hc hp (dep := dep) hk
    exact (truth_named hc hp (name := "patternProperties") (by simp) hk hs x).1
      (ht.patternProperties k x l _ _ f hx hl (hm r s hs) (by rw [regex_key hc hp L hops hk hs]; exact hf) hfk)
  · rintro s kvs k x hk rfl hx hl
    exact (additional_iff hc hp hb dep x).1 (ht.additional k x hx (fun hd => hl ((declared_iff hc hp L hops dep k).1 hd))) s hk
  · rintro rs kvs r hk rfl hr
    exact ht.required r ((required_iff dep r).2 ⟨rs, hk, hr⟩)
  · rintro n kvs hk rfl
    exact ht.minProperties n (bind_asSize.2 hk)
  · rintro n kvs hk rfl
    exact ht.maxProperties n (bind_asSize.2 hk)
  · rintro s kvs k hk rfl hm
    obtain ⟨he, hs⟩ := sub_means hc hp (H := H) (name := "propertyNames") (by simp) hk
    exact (hs _).1 (ht.propertyNames k _ hm he)
  · rintro ds kvs k rs r hk rfl hm hkk hr
    exact ht.dependentRequired k _ r ((dependents_iff dep k _).2 ⟨ds, rs, hk, hm, rfl⟩) hkk (mem_texts.2 hr)
  · rintro ds kvs k s hk rfl hs hkk
    exact (truth_named hc hp (name := "dependentSchemas") (by simp) hk hs _).1
      (ht.dependentSchemas k _ ((named_mem hc hp (name := "dependentSchemas") (by simp)).2 ⟨ds, s, hk, hs, rfl⟩) hkk)
  · intro ms s hk hs
    obtain ⟨l, hl, h1, _⟩ := list_means hc hp (H := H) (name := "allOf") (by simp) hk
    obtain ⟨i, hi⟩ := List.mem_iff_getElem?.1 hs
    obtain ⟨m, hm, hv⟩ := h1 i s hi
    exact (hv v).1 (ha.allOf l m hl (List.mem_of_getElem? hm))
  · intro ms hk
    obtain ⟨l, hl, _, h1⟩ := list_means hc hp (H := H) (name := "anyOf") (by simp) hk
    obtain ⟨m, hm, hv⟩ := ha.anyOf l hl
    obtain ⟨i, hi⟩ := List.mem_iff_getElem?.1 hm
    obtain ⟨s, hs, hv'⟩ := h1 i m hi
    exact ⟨s, List.mem_of_getElem? hs, (hv' v).1 hv⟩
  · intro ms hk
    obtain ⟨l, hl, h0, h1⟩ := list_means hc hp (H := H) (name := "oneOf") (by simp) hk
    obtain ⟨i, m, hm, hv, hu⟩ := ha.oneOf l hl
    obtain ⟨s, hs, hv'⟩ := h1 i m hm
    refine ⟨i, s, hs, (hv' v).1 hv, ?_⟩
    intro j s' hj hs'
    obtain ⟨m', hm', hv''⟩ := h0 j s' hj
    exact hu j m' hm' ((hv'' v).2 hs')
  · intro s hk
    obtain ⟨he, hs⟩ := sub_means hc hp (H := H) (name := "not") (by simp) hk
    exact fun h => ha.not _ he ((hs v).2 h)
  · intro c s hk hk' hcv
    obtain ⟨he, hs⟩ := sub_means hc hp (H := H) (name := "if") (by simp) hk
    obtain ⟨he', hs'⟩ := sub_means hc hp (H := H) (name := "then") (by simp) hk'
    refine (hs' v).1 (ha.thenS _ _ he ?_ ((hs v).2 hcv))
    show (sub root p o "if").bind (fun _ => sub root p o "then") = _
    rw [he]
    exact he'
  · intro c s hk hk' hcv
    obtain ⟨he, hs⟩ := sub_means hc hp (H := H) (name := "if") (by simp) hk
    obtain ⟨he', hs'⟩ := sub_means hc hp (H := H) (name := "else") (by simp) hk'
    refine (hs' v).1 (ha.elseS _ _ he ?_ (fun h => hcv ((hs v).1 h)))
    show (sub root p o "if").bind (fun _ => sub root p o "else") = _
    rw [he]
    exact he'

include hb in
theorem read_of_holds {dep : Bool} {v : Value} (h : Holds d L.compile H o v) :
    NodeHolds (fileEnv L root hops) (truth H root) (readNode d root p o dep) v := by
  refine ⟨(general_iff hc hp dep v).2 ⟨h.type, h.const, h.enum⟩, ?_, ?_⟩
  · cases v with
    | bool => trivial
    | int i =>
      exact ⟨fun m hm => h.minimum _ i (bind_asInt.1 hm) rfl, fun m hm => h.maximum _ i (bind_asInt.1 hm) rfl,
        fun m hm => h.exclusiveMinimum _ i (bind_asInt.1 hm) rfl, fun m hm => h.exclusiveMaximum _ i (bind_asInt.1 hm) rfl,
        fun m hm => h.multipleOf _ i (bind_asInt.1 hm) rfl⟩
    | str s =>
      refine ⟨fun m hm => h.minLength m s (bind_asSize.1 hm) rfl, fun m hm => h.maxLength m s (bind_asSize.1 hm) rfl, ?_⟩
      intro r f hr hf
      obtain ⟨t, ht, rfl⟩ := Option.map_eq_some_iff.1 (show ((kw o "pattern").bind asText).map (fun _ => 2 * idOf root p) = some r from hr)
      rw [regex_own hc hp, ht, Option.bind_some] at hf
      exact h.pattern t f s (bind_asText.1 ht) hf rfl
    | arr xs =>
      refine ⟨fun i x hx => (item_iff hc hp hb dep i x).2 (h.items xs i x rfl hx), ?_,
        fun m hm => h.minItems m xs (bind_asSize.1 hm) rfl, fun m hm => h.maxItems m xs (bind_asSize.1 hm) rfl,
        fun hu => h.uniqueItems xs ((uniqueItems_iff dep).1 hu) rfl⟩
      intro id hid
      obtain ⟨s, hk, hs⟩ := sub_from hc hp (H := H) (name := "contains") (by simp) hid
      obtain ⟨c, hcnt, h1, h2, h3⟩ := h.contains s xs hk rfl
      refine ⟨c, count_congr (fun x => (hs x).symm) hcnt, ?_, fun m hm => h3 m (bind_asSize.1 hm)⟩
      cases hm : kw o "minContains" with
      | none =>
        have e : (readNode d root p o dep).minContains = none := congrArg (Option.bind · asSize) hm
        rw [e]
        exact h2 hm
      | some j =>
        obtain ⟨n, rfl⟩ := form_at hc hp (name := "minContains") (f := .nat) (by simp [forms]) hm
        have e : (readNode d root p o dep).minContains = some n := bind_asSize.2 hm
        rw [e]
        exact h1 n hm
    | tbl kvs =>
      refine ⟨?_, ?_, ?_, ?_, fun m hm => h.minProperties m kvs (bind_asSize.1 hm) rfl,
        fun m hm => h.maxProperties m kvs (bind_asSize.1 hm) rfl, ?_, ?_, ?_⟩
      · intro k x id hx hl
        obtain ⟨ms, s, hk, hs, rfl⟩ := (named_lookup hc hp (name := "properties") (by simp)).1 hl
        exact (truth_named hc hp (name := "properties") (by simp) hk hs x).2 (h.properties ms kvs k x s hk rfl hx hs)
      · intro k x ps r id f hx hps hm hr hf
        obtain ⟨ms, hk, hi⟩ := patterns_iff hc hp hps
        obtain ⟨t, s, hs, rfl, rfl⟩ := (hi _ _).1 hm
        rw [regex_key hc hp L hops hk hs] at hr
        exact (truth_named hc hp (name := "patternProperties") (by simp) hk hs x).2
          (h.patternProperties ms kvs k x t s f hk rfl hx hs hr hf)
      · intro k x hx hd
        exact (additional_iff hc hp hb dep x).2 fun s hk => h.additionalProperties s kvs k x hk rfl hx fun hl =>
          hd ((declared_iff hc hp L hops dep k).2 hl)
      · intro r hr
        obtain ⟨rs, hk, hm⟩ := (required_iff dep r).1 hr
        exact h.required rs kvs r hk rfl hm
      · intro k id hk hid
        obtain ⟨s, hs, hv⟩ := sub_from hc hp (H := H) (name := "propertyNames") (by simp) hid
        exact (hv _).2 (h.propertyNames s kvs k hs rfl hk)
      · intro k rs r hm hk hr
        obtain ⟨ds, xs, hd, hx, rfl⟩ := (dependents_iff dep k rs).1 hm
        exact h.dependentRequired ds kvs k xs r hd rfl hx hk (mem_texts.1 hr)
      · intro k id hm hk
        obtain ⟨ms, s, hd, hs, rfl⟩ := (named_mem hc hp (name := "dependentSchemas") (by simp)).1 hm
        exact (truth_named hc hp (name := "dependentSchemas") (by simp) hd hs _).2 (h.dependentSchemas ms kvs k s hd rfl hs hk)
  · refine ⟨?_, ?_, ?_, ?_, ?_, ?_⟩
    · intro l m hl hm
      obtain ⟨xs, hk, hx⟩ := list_from hc hp (H := H) (name := "allOf") (by simp) hl
      obtain ⟨i, hi⟩ := List.mem_iff_getElem?.1 hm
      obtain ⟨s, hs, hv⟩ := hx i m hi
      exact (hv v).2 (h.allOf xs s hk (List.mem_of_getElem? hs))
    · intro l hl
      obtain ⟨xs, hk, hx⟩ := list_from hc hp (H := H) (name := "anyOf") (by simp) hl
      obtain ⟨l', hl', h1, _⟩ := list_means hc hp (H := H) (name := "anyOf") (by simp) hk
      have e : some l = some l' := hl.symm.trans hl'
      cases e
      obtain ⟨s, hs, hv⟩ := h.anyOf xs hk
      obtain ⟨i, hi⟩ := List.mem_iff_getElem?.1 hs
      obtain ⟨m, hm, hv'⟩ := h1 i s hi
      exact ⟨m, List.mem_of_getElem? hm, (hv' v).2 hv⟩
    · intro l hl
      obtain ⟨xs, hk, hx⟩ := list_from hc hp (H := H) (name := "oneOf") (by simp) hl
      obtain ⟨l', hl', h1, _⟩ := list_means hc hp (H := H) (name := "oneOf") (by simp) hk
      have e : some l = some l' := hl.symm.trans hl'
      cases e
      obtain ⟨i, s, hs, hv, hu⟩ := h.oneOf xs hk
      obtain ⟨m, hm, hv'⟩ := h1 i s hs
      refine ⟨i, m, hm, (hv' v).2 hv, ?_⟩
      intro j m' hj hm'
      obtain ⟨s', hs', hv''⟩ := hx j m' hj
      exact hu j s' hs' ((hv'' v).1 hm')
    · intro id hid
      obtain ⟨s, hk, hs⟩ := sub_from hc hp (H := H) (name := "not") (by simp) hid
      exact fun hh => h.not s hk ((hs v).1 hh)
    · intro i t hi ht
      obtain ⟨c, hk, hs⟩ := sub_from hc hp (H := H) (name := "if") (by simp) hi
      have ht : (sub root p o "if").bind (fun _ => sub root p o "then") = some t := ht
      rw [show sub root p o "if" = some i from hi, Option.bind_some] at ht
      obtain ⟨s, hk', hs'⟩ := sub_from hc hp (H := H) (name := "then") (by simp) ht
      exact fun hh => (hs' v).2 (h.thenIf c s hk hk' ((hs v).1 hh))
    · intro i t hi ht
      obtain ⟨c, hk, hs⟩ := sub_from hc hp (H := H) (name := "if") (by simp) hi
      have ht : (sub root p o "if").bind (fun _ => sub root p o "else") = some t := ht
      rw [show sub root p o "if" = some i from hi, Option.bind_some] at ht
      obtain ⟨s, hk', hs'⟩ := sub_from hc hp (H := H) (name := "else") (by simp) ht
      exact fun hh => (hs' v).2 (h.elseIf c s hk hk' fun hh' => hh ((hs v).2 hh'))

end
end Tombi.SchemaFile
