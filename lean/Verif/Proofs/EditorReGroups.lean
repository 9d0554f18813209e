import Verif.Proofs.EditorRe
import Verif.Proofs.EditorGroups
import Verif.Props.KeysOrder
/-! Sorting one group of a body is a step of `Re`. -/
namespace Tombi.Editing
open SyntaxKind
open Tombi.Format (AstKey)
open Tombi.Formatter (Node Body Section Doc Comma Text Word commentWords trailingWords commaWords)
open Tombi.Reading (Scalar keyOr commaComments)
open Tombi.Spec (ArrayItem IsGroup Reordered)

variable {C : Text → Prop} {arrays pairs : Bool}

/-! ### steps -/

theorem Re.under {rest rest' : Body} (h : Re C arrays pairs rest rest') (items : List GroupItem) : ∀ f,
    Re C arrays pairs (groupBody f items rest) (groupBody f items rest') := by
  induction items with
  | nil => exact fun _ => h
  | cons x items ih =>
    intro f
    have := ih none
    rw [groupBody_none, groupBody_none] at this
    exact .tail f x.1 x.2 this

theorem Re.perm (h : pairs = true ∨ arrays = true) (rest : Body) {items items' : List GroupItem} (hp : items.Perm items') : ∀ f,
    Re C arrays pairs (groupBody f items rest) (groupBody f items' rest) := by
  induction hp with
  | nil => exact fun _ => .refl _
  | cons x _ ih =>
    intro f
    have := ih none
    rw [groupBody_none, groupBody_none] at this
    exact .tail f x.1 x.2 this
  | swap x y l => exact fun f => .swap h f y.1 y.2 x.1 x.2 _
  | trans _ _ ih1 ih2 => exact fun f => (ih1 f).trans (ih2 f)

/-- An item after changes of commas and of its trailing comment. -/
def Touched (C : Text → Prop) (x y : GroupItem) : Prop :=
  (y.1 = x.1 ∨ y.1 = dropTrailing x.1) ∧ ∀ f t, Word.comment f t ∈ commaWords y.2 → C t

theorem Re.touched (rest : Body) (l : List (GroupItem × GroupItem)) (h : ∀ z ∈ l, Touched C z.1 z.2) : ∀ f,
    Re C arrays pairs (groupBody f (l.map (·.1)) rest) (groupBody f (l.map (·.2)) rest) := by
  induction l with
  | nil => exact fun _ => .refl _
  | cons z l ih =>
    intro f
    have h1 := ih (fun z hz => h z (List.mem_cons_of_mem _ hz)) none
    rw [groupBody_none, groupBody_none] at h1
    obtain ⟨h2, h3⟩ := h z List.mem_cons_self
    exact (Re.tail f z.1.1 z.1.2 h1).trans (.commas f z.1.2 _ h2 h3)

/-! ### comments -/

theorem comma_comment {c : Option Comma} {f : Bool} {t : Text} (h : Word.comment f t ∈ commaWords c) : t ∈ commaComments c := by
  cases c with
  | none => cases h
  | some c =>
    obtain ⟨l, tr⟩ := c
    simp only [commaWords, List.mem_append, commaComments] at h ⊢
    rcases h with h | h
    · left
      cases l with
      | nil => cases h
      | cons x l =>
        simp only [commentWords, List.mem_cons, List.mem_map] at h ⊢
        rcases h with h | ⟨y, hy, h⟩
        · left; cases h; rfl
        · right; cases h; exact hy
    · right
      cases tr with
      | none => cases h
      | some x =>
        simp only [trailingWords, List.mem_singleton] at h
        cases h; simp

theorem comment_comma {c : Option Comma} {t : Text} (h : t ∈ commaComments c) : ∃ f, Word.comment f t ∈ commaWords c := by
  cases c with
  | none => cases h
  | some c =>
    obtain ⟨l, tr⟩ := c
    simp only [commaWords, List.mem_append, commaComments] at h ⊢
    rcases h with h | h
    · cases l with
      | nil => cases h
      | cons x l =>
        rcases List.mem_cons.mp h with rfl | h
        · exact ⟨true, by simp [commentWords]⟩
        · exact ⟨false, by simp [commentWords, h]⟩
    · cases tr with
      | none => cases h
      | some x =>
        simp only [Option.toList_some, List.mem_singleton] at h
        exact ⟨true, by simp [trailingWords, h]⟩

/-- The comments of the items are in `C`. -/
def ItemsIn (C : Text → Prop) (items : List GroupItem) : Prop :=
  ∀ x ∈ items, (∀ t, x.1.trailing = some t → C t) ∧ ∀ t ∈ commaComments x.2, C t

/-- The comments of a body are in `C`. -/
def BodyIn (C : Text → Prop) (b : Body) : Prop := ∀ f t, Word.comment f t ∈ b.words → C t

theorem trailing_word {n : Node} {t : Text} (h : n.trailing = some t) : Word.comment true t ∈ n.words := by
  rw [dropTrailing_words n, h]
  simp [trailingWords]

theorem BodyIn.items {f : Option Nat} {rest : Body} : {items : List GroupItem} → BodyIn C (groupBody f items rest) →
    ItemsIn C items ∧ BodyIn C rest
  | [], h => ⟨fun x hx => (nomatch hx), h⟩
  | x :: items, h => by
    have h' : BodyIn C (groupBody none items rest) := fun g t ht => h g t (by
      rw [groupBody_none] at ht
      simp only [groupBody, Body.words, List.mem_append]
      exact .inr ht)
    obtain ⟨h1, h2⟩ := h'.items
    refine ⟨fun y hy => ?_, h2⟩
    rcases List.mem_cons.mp hy with rfl | hy
    · refine ⟨fun t ht => h true t ?_, fun t ht => ?_⟩
      · simp only [groupBody, Body.words, List.mem_append]
        exact .inl (.inl (trailing_word ht))
      · obtain ⟨g, hg⟩ := comment_comma ht
        refine h g t ?_
        simp only [groupBody, Body.words, List.mem_append]
        exact .inl (.inr hg)
    · exact h1 y hy

/-- The comments of a comma node are in `C`. -/
def NodeIn (C : Text → Prop) (c : CommaNode Text) : Prop := ∀ t ∈ c.leading ++ c.trailing.toList, C t

theorem nodeIn_makeComma : NodeIn C makeComma := fun t ht => by simp [makeComma] at ht

theorem nodeIn_make {t : Text} (h : C t) : NodeIn C (makeCommaWithTrailingComment t) := fun x hx => by
  simp [makeCommaWithTrailingComment] at hx
  rw [hx]; exact h

theorem nodeIn_extra {tr : Option Text} (ht : ∀ t, tr = some t → C t) (c : Option (CommaNode Text)) (a : Bool) :
    ∀ r ∈ extra tr c a, NodeIn C r.2 := by
  intro r hr
  cases c with
  | none =>
    cases tr with
    | none =>
      simp only [extra] at hr
      split at hr
      · rw [List.mem_singleton] at hr; subst hr; exact nodeIn_makeComma
      · cases hr
    | some t =>
      simp only [extra] at hr
      split at hr
      · rw [List.mem_singleton] at hr; subst hr; exact nodeIn_make (ht t rfl)
      · cases hr
  | some c =>
    cases tr with
    | none => simp only [extra] at hr; cases hr
    | some t =>
      simp only [extra] at hr
      split at hr
      · rw [List.mem_singleton] at hr; subst hr; exact nodeIn_make (ht t rfl)
      · cases hr

theorem trailOf_in {items : List GroupItem} (h : ItemsIn C items) (i : Nat) (t : Text) (ht : trailOf (arrayItems items) i = some t) : C t := by
  unfold trailOf at ht
  rw [arrayItems_get] at ht
  cases hx : items[i]? with
  | none => rw [hx] at ht; cases ht
  | some x =>
    rw [hx] at ht
    exact (h x (List.mem_of_getElem? hx)).1 t ht

theorem commaOf_in {items : List GroupItem} (h : ItemsIn C items) (i : Nat) (c : CommaNode Text)
    (hc : commaOf (arrayItems items) i = some c) : NodeIn C c := by
  unfold commaOf at hc
  rw [arrayItems_get] at hc
  cases hx : items[i]? with
  | none => rw [hx] at hc; cases hc
  | some x =>
    rw [hx] at hc
    simp only [Option.map_some, Option.bind_some] at hc
    obtain ⟨c', hc', rfl⟩ := Option.map_eq_some_iff.mp hc
    intro t ht
    refine (h x (List.mem_of_getElem? hx)).2 t ?_
    rw [hc']
    exact ht

theorem final_in {items : List GroupItem} (h : ItemsIn C items) (lastGroup hasComma lastComma : Bool) (l : Nat)
    {sorted : List (Nat × Option (CommaRef Text))} (hr : Reordered (arrayItems items) sorted) (v : Nat × Option (CommaRef Text))
    (hv : v ∈ sorted) : ∀ r ∈ finalCommas (arrayItems items) lastGroup hasComma lastComma l v, NodeIn C r.2 := by
  have hvc : ∀ r, v.2 = some r → NodeIn C r.2 := by
    intro r hr'
    have hm : v.1 < (arrayItems items).length := List.mem_range.mp (hr.perm.mem_iff.mp (List.mem_map.mpr ⟨v, hv, rfl⟩))
    have hi := List.getElem?_eq_getElem hm
    rcases hr.commas v hv _ hi with e | ⟨-, e⟩
    · rw [hr'] at e
      cases hc : ((arrayItems items)[v.1]).comma with
      | none => rw [hc] at e; cases e
      | some c =>
        rw [hc] at e
        cases e
        exact commaOf_in h v.1 c (by unfold commaOf; rw [hi]; exact hc)
    · rw [hr'] at e
      cases e
      exact nodeIn_makeComma
  have hk : ∀ r, keptComma lastComma l v = some r → NodeIn C r.2 := by
    intro r hr'
    unfold keptComma at hr'
    split at hr'
    · cases hv2 : v.2 with
      | none => rw [hv2] at hr'; cases hr'
      | some r' =>
        rw [hv2] at hr'
        simp only [Option.bind_some] at hr'
        split at hr'
        · cases hr'
        · cases hr'; exact hvc _ hv2
    · exact hvc r hr'
  intro r hm
  unfold finalCommas at hm
  rcases List.mem_append.mp hm with hm | hm
  · exact nodeIn_extra (fun t ht => trailOf_in h _ t ht) _ _ r hm
  · rcases List.mem_append.mp hm with hm | hm
    · exact hk r (by simpa [Option.mem_toList] using hm)
    · split at hm
      · exact nodeIn_extra (fun t ht => trailOf_in h _ t ht) _ _ r hm
      · cases hm

/-! ### one group -/

theorem filterMap_range {α : Type} (xs : List α) : (List.range xs.length).filterMap (xs[·]?) = xs := by
  have := range_filterMap xs (fun _ x => x)
  rw [show xs.mapIdx (fun _ x => x) = xs from by simp [List.mapIdx_eq_iff]] at this
  refine Eq.trans (filterMap_congr' fun i _ => ?_) this
  cases xs[i]? <;> rfl

theorem pick_perm {α : Type} (xs : List α) {rs : List Nat} (h : rs.Perm (List.range xs.length)) : (pick xs (some rs)).Perm xs := by
  have := h.filterMap (xs[·]?)
  rwa [filterMap_range] at this

/-- A group is edited: its items are permuted, and commas and trailing comments change. -/
theorem editGroup_touched {items : List GroupItem} (h : ItemsIn C items) (lastGroup hasComma : Bool)
    (sort : List (Nat × Option (CommaRef Text)) → Option (List (Nat × Option (CommaRef Text))))
    (hs : sort (sourceValues (arrayItems items)) = none ∨
      ∃ sorted, sort (sourceValues (arrayItems items)) = some sorted ∧ Reordered (arrayItems items) sorted) :
    ∃ l : List (GroupItem × GroupItem), (l.map (·.1)).Perm items ∧ l.map (·.2) = editGroup lastGroup hasComma sort items ∧
      (∀ z ∈ l, Touched C z.1 z.2) ∧ (sort (sourceValues (arrayItems items)) = none → l.map (·.1) = items) ∧
      ∀ sorted, sort (sourceValues (arrayItems items)) = some sorted → l.map (·.1) = (sorted.map (·.1)).filterMap (items[·]?) := by
  have hlen : (arrayItems items).length = items.length := List.length_map ..
  have key : ∃ vs : List (Nat × Option (CommaRef Text)), withComma none ((groupOf items).edit lastGroup hasComma sort).children = vs ∧
      (vs.map (·.1)).Perm (List.range items.length) ∧ (∀ v ∈ vs, ∀ r, v.2 = some r → NodeIn C r.2) ∧
      (sort (sourceValues (arrayItems items)) = none → vs.map (·.1) = List.range items.length) ∧
      ∀ sorted, sort (sourceValues (arrayItems items)) = some sorted → vs.map (·.1) = sorted.map (·.1) := by
    rcases hs with hs | ⟨sorted, hs, hr⟩
    · obtain ⟨h1, -⟩ := edit_unsorted (isGroup_groupOf items) lastGroup hasComma hs
      refine ⟨_, h1, ?_, ?_, ?_, fun sorted e => by rw [hs] at e; cases e⟩
      · rw [List.map_map, hlen]
        exact .of_eq (List.map_id _)
      · intro v hv r hr
        obtain ⟨i, hi, rfl⟩ := List.mem_map.mp hv
        have hm := List.mem_of_head? hr
        rcases List.mem_append.mp hm with hm | hm
        · exact nodeIn_extra (fun t ht => trailOf_in h _ t ht) _ _ r hm
        · cases hc : commaOf (arrayItems items) i with
          | none => rw [hc] at hm; cases hm
          | some c =>
            rw [hc] at hm
            simp only [Option.map_some, Option.toList_some, List.mem_singleton] at hm
            subst hm
            exact commaOf_in h i c hc
      · intro _
        rw [List.map_map, hlen]
        exact List.map_id _
    · by_cases hne : sorted = []
      · subst hne
        have hz : items = [] := by
          have := hr.perm.length_eq
          rw [hlen] at this
          simp at this
          exact List.length_eq_zero_iff.mp this.symm
        subst hz
        have : (groupOf []).edit lastGroup hasComma sort = groupOf [] := by
          have hv : withComma none (groupOf []).children = [] := rfl
          unfold ValueGroup.edit
          simp only []
          rw [hv]
          have hs' : sort [] = some [] := hs
          rw [hs']; rfl
        rw [this]
        exact ⟨[], rfl, .refl _, fun v hv => (nomatch hv), fun _ => rfl, fun sorted e => by rw [hs] at e; cases e; rfl⟩
      · have hsplit := (List.dropLast_concat_getLast hne).symm
        rw [hsplit] at hs hr
        obtain ⟨h1, -⟩ := edit_sorted (isGroup_groupOf items) lastGroup hasComma hr hs _ rfl
        refine ⟨_, h1, ?_, ?_, fun e => by (rw [hs] at e; cases e), fun sorted' e => ?_⟩
        · rw [List.map_map]
          have := hr.perm
          rw [hlen] at this
          exact this
        · intro v hv r hr'
          obtain ⟨u, hu, rfl⟩ := List.mem_map.mp hv
          exact final_in h lastGroup hasComma _ _ hr u hu r (List.mem_of_head? hr')
        · rw [hs] at e
          cases e
          rw [List.map_map]
          rfl
  obtain ⟨vs, h1, h2, h3, h4, h5⟩ := key
  have e0 : (vs.filterMap fun v => ((items[v.1]?).map fun x => (x,
      ((if (((groupOf items).edit lastGroup hasComma sort).trailing v.1).isSome then x.1 else dropTrailing x.1,
        v.2.map fun c => ⟨c.2.leading, c.2.trailing⟩) : GroupItem))).map (·.1)) = (vs.map (·.1)).filterMap (items[·]?) := by
    rw [List.filterMap_map]
    exact filterMap_congr' fun v _ => by simp only [Function.comp]; cases items[v.1]? <;> rfl
  refine ⟨vs.filterMap fun v => (items[v.1]?).map fun x => (x,
    (if (((groupOf items).edit lastGroup hasComma sort).trailing v.1).isSome then x.1 else dropTrailing x.1,
      v.2.map fun c => ⟨c.2.leading, c.2.trailing⟩)), ?_, ?_, ?_, ?_, ?_⟩
  · rw [List.map_filterMap, e0]
    exact pick_perm items h2
  · rw [List.map_filterMap, editGroup, readGroup, h1]
    exact filterMap_congr' fun v _ => by cases items[v.1]? <;> rfl
  · intro z hz
    obtain ⟨v, hv, hx⟩ := List.mem_filterMap.mp hz
    obtain ⟨x, hx, rfl⟩ := Option.map_eq_some_iff.mp hx
    refine ⟨?_, fun f t ht => ?_⟩
    · simp only
      split
      · exact .inl rfl
      · exact .inr rfl
    · have ht := comma_comment ht
      simp only at ht
      cases hc : v.2 with
      | none => rw [hc] at ht; cases ht
      | some r =>
        rw [hc] at ht
        exact h3 v hv r hc t ht
  · intro hn
    rw [List.map_filterMap, e0, h4 hn]
    exact filterMap_range items
  · intro sorted hn
    rw [List.map_filterMap, e0, h5 sorted hn]

theorem editGroup_re {items : List GroupItem} (h : ItemsIn C items) (lastGroup hasComma : Bool)
    (sort : List (Nat × Option (CommaRef Text)) → Option (List (Nat × Option (CommaRef Text))))
    (hs : sort (sourceValues (arrayItems items)) = none ∨ (pairs = true ∨ arrays = true) ∧
      ∃ sorted, sort (sourceValues (arrayItems items)) = some sorted ∧ Reordered (arrayItems items) sorted) (f : Option Nat) (rest : Body) :
    Re C arrays pairs (groupBody f items rest) (groupBody f (editGroup lastGroup hasComma sort items) rest) := by
  obtain ⟨l, h1, h2, h3, h4, -⟩ := editGroup_touched h lastGroup hasComma sort (hs.imp id (·.2))
  rw [← h2]
  refine .trans ?_ (.touched rest l h3 f)
  rcases hs with hs | ⟨hp, -⟩
  · rw [h4 hs]
    exact .refl _
  · exact .perm hp rest h1.symm f

theorem groupBody_append (f : Option Nat) (items : List GroupItem) (hne : items ≠ []) (more : List GroupItem) (rest : Body) :
    groupBody f (items ++ more) rest = groupBody f items (groupBody none more rest) := by
  have key : ∀ items : List GroupItem, itemsBefore (items ++ more) rest = itemsBefore items (itemsBefore more rest) := by
    intro items
    induction items with
    | nil => rfl
    | cons x items ih => rw [List.cons_append, itemsBefore, itemsBefore, ih]
  cases items with
  | nil => exact absurd rfl hne
  | cons x items =>
    rw [List.cons_append, groupBody, groupBody, key, groupBody_none]

theorem editGroup_nil {items : List GroupItem} (lastGroup hasComma : Bool)
    (sort : List (Nat × Option (CommaRef Text)) → Option (List (Nat × Option (CommaRef Text))))
    (hs : sort (sourceValues (arrayItems items)) = none ∨
      ∃ sorted, sort (sourceValues (arrayItems items)) = some sorted ∧ Reordered (arrayItems items) sorted) :
    (editGroup lastGroup hasComma sort items).length = items.length := by
  obtain ⟨l, h1, h2, -⟩ := editGroup_touched (C := fun _ => True) (fun x _ => ⟨fun _ _ => trivial, fun _ _ => trivial⟩)
    lastGroup hasComma sort hs
  rw [← h2, ← h1.length_eq, List.length_map, List.length_map]

theorem editValues_re {items : List GroupItem} (h : ItemsIn C items) (lastGroup hasComma : Bool) (n : Nat)
    (sort : List (Nat × Option (CommaRef Text)) → Option (List (Nat × Option (CommaRef Text))))
    (hs : sort (sourceValues (arrayItems (items.take n))) = none ∨ (pairs = true ∨ arrays = true) ∧
      ∃ sorted, sort (sourceValues (arrayItems (items.take n))) = some sorted ∧ Reordered (arrayItems (items.take n)) sorted)
    (f : Option Nat) (rest : Body) :
    Re C arrays pairs (groupBody f items rest) (groupBody f (editValues lastGroup hasComma n sort items) rest) := by
  unfold editValues
  generalize hl : (lastGroup && decide (items.length ≤ n)) = last
  have hlen := editGroup_nil last hasComma sort (hs.imp id (·.2))
  by_cases hne : items.take n = []
  · have : editGroup last hasComma sort (items.take n) = [] := List.length_eq_zero_iff.mp (by rw [hlen, hne]; rfl)
    rw [this, List.nil_append]
    have e := List.take_append_drop n items
    rw [hne, List.nil_append] at e
    rw [e]
    exact .refl _
  · have hne2 : editGroup last hasComma sort (items.take n) ≠ [] := by
      intro e
      rw [e] at hlen
      exact hne (List.length_eq_zero_iff.mp hlen.symm)
    rw [groupBody_append _ _ hne2]
    have e := List.take_append_drop n items
    conv => arg 4; rw [← e]
    rw [groupBody_append _ _ hne]
    exact editGroup_re (fun x hx => h x (List.mem_of_mem_take hx)) last hasComma sort hs f _

/-! ### all groups -/

theorem mapGroups_re (f : Bool → Nat → List GroupItem → List GroupItem)
    (hf : ∀ last start g items rest, ItemsIn C items →
      Re C arrays pairs (groupBody g items rest) (groupBody g (f last start items) rest)) :
    (chunks : List Chunk) → ∀ start, BodyIn C (bodyOf chunks) →
    Re C arrays pairs (bodyOf chunks) (bodyOf (mapGroups f start chunks))
  | [], _, _ => .refl _
  | .dangling n cs :: rest, start, h => by
    rw [mapGroups, bodyOf, bodyOf]
    refine .dangling n cs (mapGroups_re f hf rest start fun g t ht => h g t ?_)
    simp only [bodyOf, Body.words, List.mem_append]
    exact .inr ht
  | .group g items :: rest, start, h => by
    rw [bodyOf_group] at h
    obtain ⟨h1, h2⟩ := h.items
    rw [mapGroups, bodyOf_group, bodyOf_group]
    exact (hf _ _ g items _ h1).trans (.under (mapGroups_re f hf rest _ h2) _ g)

theorem sorted_re {b : Body} (f : Bool → Nat → List GroupItem → List GroupItem)
    (hf : ∀ last start g items rest, ItemsIn C items →
      Re C arrays pairs (groupBody g items rest) (groupBody g (f last start items) rest)) (start : Nat) (h : BodyIn C b) :
    Re C arrays pairs b (bodyOf (mapGroups f start (chunksOf b))) := by
  have := mapGroups_re f hf (chunksOf b) start (by rw [bodyOf_chunksOf]; exact h)
  rwa [bodyOf_chunksOf] at this

/-! ### orders -/

variable {S : Type}

theorem itemAccessors_keys (v : TomlVersion) (x : GroupItem) : ∀ a ∈ itemAccessors v x, a.isKey = true := by
  intro a ha
  unfold itemAccessors at ha
  split at ha
  · obtain ⟨k, -, rfl⟩ := List.mem_map.mp ha
    rfl
  · cases ha

theorem inlineOrder_perm {w : EditWorld S} {fuel : Nat} {v : TomlVersion} {t : DValue Scalar} {acc : List Accessor} {schema : Option S}
    {directive : Option OrderOverride} {items : List GroupItem} {rs : List Nat}
    (h : inlineOrder w fuel v t acc schema directive items = some rs) : rs.Perm (List.range items.length) := by
  unfold inlineOrder at h
  split at h
  · cases h
  · have := (C30_keys_permuted _ fuel t acc (items.map (itemAccessors v)) schema _ rs (fun p hp => by
      obtain ⟨x, -, rfl⟩ := List.mem_map.mp hp
      exact itemAccessors_keys v x) h).1
    rwa [List.length_map] at this

theorem tableOrder_perm {w : EditWorld S} {fuel : Nat} {v : TomlVersion} {t : DValue Scalar} {acc : List Accessor} {schema : Option S}
    {directive : Option OrderOverride} {items : List GroupItem} {rs : List Nat}
    (h : tableOrder w fuel v t acc schema directive items = some rs) : rs.Perm (List.range items.length) := by
  unfold tableOrder at h
  split at h
  · cases h
  · exact inlineOrder_perm h

theorem sourceValues_count (items : List (ArrayItem Text)) : (sourceValues items).length = items.length := by
  have := congrArg List.length (sourceValues_ids items)
  simpa using this

/-- Key-values of an inline table in a new order. -/
theorem pick_reordered (items : List (ArrayItem Text)) {rs : List Nat} (h : rs.Perm (List.range items.length)) :
    Reordered items (pick (sourceValues items) (some rs)) := by
  have hp := pick_perm (sourceValues items) (rs := rs) (by rw [sourceValues_count]; exact h)
  exact SameValues.reordered ⟨hp.map _, fun v hv => ⟨v, hp.mem_iff.mp hv, rfl, .inl rfl⟩⟩

/-- The elements of an array in a new order. -/
theorem arrayOrder_reordered {w : EditWorld S} {acc : List Accessor} {schema item : Option S} {directive : Option ArrayOverride}
    {values : List (Node × DValue Scalar)} {items : List (ArrayItem Text)} {sorted : List (Nat × Option (CommaRef Text))}
    (h : arrayOrder w acc schema item directive values (sourceValues items) = some sorted) : Reordered items sorted := by
  unfold arrayOrder at h
  simp only at h
  split at h
  · cases h
  · split at h
    · cases h
    · exact (sortAll_same h).reordered
    · split at h
      · cases h
      · cases h
        exact (SameValues.refl _).reordered
      · cases h
        exact (sortByGroups_same _ _).reordered

end Tombi.Editing
