import Verif.Proofs.SameData
import Verif.Props.EditorTokens
/-! A document that is sorted denotes the same. -/
namespace Tombi.Editing
open SyntaxKind
open Tombi.Format (AstKey)
open Tombi.Formatter (Node Body Section Doc Comma Text Word docOf)
open Tombi.Reading (Scalar keyOr rawKey convert headComments astRoot keyValuesOf itemsOf valueOf nodeKeys itemKeys pairKeys docKeys)
open Tombi.Spec (KeysApart docNodes)

variable {C : Text → Prop} {arrays pairs : Bool} {b b' : Body} {S : Type}

/-! ### items -/

/-- The key-value of an item. -/
def kvOf (v : TomlVersion) : Node → List (AstKeyValue Scalar)
  | .pair _ ks _ n => [.mk (some (ks.map (keyOr v))) (some (valueOf v n))]
  | _ => []

/-- The element of an item. -/
def elementOf (v : TomlVersion) : Node → AstItem Scalar
  | .pair _ ks _ n => .keyValue (.mk (some (ks.map (keyOr v))) (some (valueOf v n)))
  | n => .value (valueOf v n)

/-- The keys of an item of a table. -/
def pairKeysOf : Node → List AstKey
  | .pair _ ks _ n => ks ++ nodeKeys n
  | _ => []

/-- The keys of an item of an array. -/
def itemKeysOf : Node → List AstKey
  | .pair _ ks _ n => ks ++ nodeKeys n
  | n => nodeKeys n

theorem keyValues_item (v : TomlVersion) (f : Option Nat) (n : Node) (c : Option Comma) (b : Body) :
    keyValuesOf v (.item f n c b) = kvOf v n ++ keyValuesOf v b := by
  cases n <;> rw [keyValuesOf] <;> first | rfl | simp

theorem items_item (v : TomlVersion) (f : Option Nat) (n : Node) (c : Option Comma) (b : Body) :
    itemsOf v (.item f n c b) = elementOf v n :: itemsOf v b := by
  cases n <;> rw [itemsOf] <;> first | rfl | simp

theorem pairKeys_item (f : Option Nat) (n : Node) (c : Option Comma) (b : Body) : pairKeys (.item f n c b) = pairKeysOf n ++ pairKeys b := by
  cases n <;> rw [pairKeys] <;> first | rfl | simp

theorem itemKeys_item (f : Option Nat) (n : Node) (c : Option Comma) (b : Body) : itemKeys (.item f n c b) = itemKeysOf n ++ itemKeys b := by
  cases n <;> rw [itemKeys] <;> first | rfl | simp

theorem drop_value (v : TomlVersion) : (n : Node) → valueOf v (dropTrailing n) = valueOf v n
  | .lit .. | .array .. | .table .. | .pair .. => by simp only [dropTrailing, valueOf]

theorem drop_nodeKeys : (n : Node) → nodeKeys (dropTrailing n) = nodeKeys n
  | .lit .. | .array .. | .table .. | .pair .. => by simp only [dropTrailing, nodeKeys]

theorem drop_kv (v : TomlVersion) (n : Node) : kvOf v (dropTrailing n) = kvOf v n := by
  cases n <;> simp only [dropTrailing, kvOf, drop_value]

theorem drop_element (v : TomlVersion) (n : Node) : elementOf v (dropTrailing n) = elementOf v n := by
  cases n <;> simp only [dropTrailing, elementOf, drop_value, valueOf]

theorem drop_pairKeys (n : Node) : pairKeysOf (dropTrailing n) = pairKeysOf n := by
  cases n <;> simp only [dropTrailing, pairKeysOf, drop_nodeKeys]

theorem drop_itemKeys (n : Node) : itemKeysOf (dropTrailing n) = itemKeysOf n := by
  cases n <;> simp only [dropTrailing, itemKeysOf, drop_nodeKeys, nodeKeys]

theorem SameKvs.append (l : List (AstKeyValue Scalar)) {a b : List (AstKeyValue Scalar)} (h : SameKvs a b) : SameKvs (l ++ a) (l ++ b) := by
  induction l with
  | nil => exact h
  | cons x l ih => exact .cons x ih

theorem kv_swap (v : TomlVersion) (a b : Node) (l : List (AstKeyValue Scalar)) :
    SameKvs (kvOf v a ++ (kvOf v b ++ l)) (kvOf v b ++ (kvOf v a ++ l)) := by
  cases a <;> cases b <;> first | exact .refl _ | exact .swap _ _ _

/-- What `Re` is about when arrays are not sorted. -/
theorem Re.same (v : TomlVersion) (h : Re C arrays pairs b b') : arrays = false →
    (pairs = true → SameKvs (keyValuesOf v b) (keyValuesOf v b')) ∧ (pairs = false → SameItems (itemsOf v b) (itemsOf v b')) := by
  intro harr
  induction h with
  | refl => exact ⟨fun _ => .refl _, fun _ => .refl _⟩
  | trans _ _ ih1 ih2 => exact ⟨fun e => (ih1.1 e).trans (ih2.1 e), fun e => (ih1.2 e).trans (ih2.2 e)⟩
  | swap h f a ca b cb rest =>
    refine ⟨fun _ => ?_, fun e => ?_⟩
    · simp only [keyValues_item]
      exact kv_swap v a b _
    · rcases h with h | h
      · rw [e] at h; cases h
      · rw [harr] at h; cases h
  | tail f n c _ ih =>
    refine ⟨fun e => ?_, fun e => ?_⟩
    · rw [keyValues_item, keyValues_item]
      exact SameKvs.append _ (ih.1 e)
    · rw [items_item, items_item]
      exact .cons _ (ih.2 e)
  | dangling k cs _ ih =>
    refine ⟨fun e => ?_, fun e => ?_⟩
    · rw [keyValuesOf, keyValuesOf]
      exact ih.1 e
    · rw [itemsOf, itemsOf]
      exact ih.2 e
  | commas f c rest hn hc =>
    refine ⟨fun e => ?_, fun e => ?_⟩
    · rw [keyValues_item, keyValues_item]
      rcases hn with rfl | rfl
      · exact .refl _
      · rw [drop_kv]; exact .refl _
    · rw [items_item, items_item]
      rcases hn with rfl | rfl
      · exact .refl _
      · rw [drop_element]; exact .refl _
  | array f l s tr c rest h ih =>
    refine ⟨fun e => (by cases e), fun _ => ?_⟩
    rw [items_item, items_item]
    simp only [elementOf, valueOf]
    exact .head _ (ih.2 rfl).array
  | table f l s tr c rest h ih =>
    refine ⟨fun e => (by cases e), fun _ => ?_⟩
    rw [items_item, items_item]
    simp only [elementOf, valueOf]
    exact .head _ (ih.1 rfl).table
  | pairArray f lp ks src l s tr c rest h ih =>
    refine ⟨fun _ => ?_, fun e => (by cases e)⟩
    rw [keyValues_item, keyValues_item]
    simp only [kvOf, valueOf]
    exact .head _ _ (ih.2 rfl).array
  | pairTable f lp ks src l s tr c rest h ih =>
    refine ⟨fun _ => ?_, fun e => (by cases e)⟩
    rw [keyValues_item, keyValues_item]
    simp only [kvOf, valueOf]
    exact .head _ _ (ih.1 rfl).table

/-- The keys stay. -/
theorem Re.docKeys (h : Re C arrays pairs b b') :
    (pairs = true → (pairKeys b').Perm (pairKeys b)) ∧ (pairs = false → (itemKeys b').Perm (itemKeys b)) := by
  have sw : ∀ x y z : List AstKey, (y ++ (x ++ z)).Perm (x ++ (y ++ z)) := fun x y z => by
    rw [← List.append_assoc, ← List.append_assoc]
    exact List.perm_append_comm.append_right _
  induction h with
  | refl => exact ⟨fun _ => .refl _, fun _ => .refl _⟩
  | trans _ _ ih1 ih2 => exact ⟨fun e => (ih2.1 e).trans (ih1.1 e), fun e => (ih2.2 e).trans (ih1.2 e)⟩
  | swap h f a ca b cb rest =>
    refine ⟨fun _ => ?_, fun e => ?_⟩
    · simp only [pairKeys_item]
      exact sw _ _ _
    · simp only [itemKeys_item]
      exact sw _ _ _
  | tail f n c _ ih =>
    refine ⟨fun e => ?_, fun e => ?_⟩
    · rw [pairKeys_item, pairKeys_item]
      exact (ih.1 e).append_left _
    · rw [itemKeys_item, itemKeys_item]
      exact (ih.2 e).append_left _
  | dangling k cs _ ih =>
    refine ⟨fun e => ?_, fun e => ?_⟩
    · rw [pairKeys, pairKeys]
      exact ih.1 e
    · rw [itemKeys, itemKeys]
      exact ih.2 e
  | commas f c rest hn hc =>
    refine ⟨fun e => ?_, fun e => ?_⟩
    · rw [pairKeys_item, pairKeys_item]
      rcases hn with rfl | rfl
      · exact .refl _
      · rw [drop_pairKeys]
    · rw [itemKeys_item, itemKeys_item]
      rcases hn with rfl | rfl
      · exact .refl _
      · rw [drop_itemKeys]
  | array f l s tr c rest h ih =>
    refine ⟨fun e => (by cases e), fun _ => ?_⟩
    rw [itemKeys_item, itemKeys_item]
    simp only [itemKeysOf, nodeKeys]
    exact (ih.2 rfl).append_right _
  | table f l s tr c rest h ih =>
    refine ⟨fun e => (by cases e), fun _ => ?_⟩
    rw [itemKeys_item, itemKeys_item]
    simp only [itemKeysOf, nodeKeys]
    exact (ih.1 rfl).append_right _
  | pairArray f lp ks src l s tr c rest h ih =>
    refine ⟨fun _ => ?_, fun e => (by cases e)⟩
    rw [pairKeys_item, pairKeys_item]
    simp only [pairKeysOf, nodeKeys]
    exact ((ih.2 rfl).append_left _).append_right _
  | pairTable f lp ks src l s tr c rest h ih =>
    refine ⟨fun _ => ?_, fun e => (by cases e)⟩
    rw [pairKeys_item, pairKeys_item]
    simp only [pairKeysOf, nodeKeys]
    exact ((ih.1 rfl).append_left _).append_right _

/-! ### documents -/

theorem ReL.same (v : TomlVersion) {ss ss' : List Section} (h : ReL C false ss ss') :
    SameSections (ss.map (astSection v)) (ss'.map (astSection v)) := by
  induction h with
  | nil => exact .nil
  | cons h _ ih =>
    refine .cons ?_ ih
    cases h with
    | mk h => exact ⟨rfl, rfl, (h.same v rfl).1 rfl⟩

/-- The keys of sections. -/
def sectionKeys (ss : List Section) : List AstKey := ss.flatMap fun s => s.header ++ pairKeys s.body

theorem ReL.keys {ss ss' : List Section} (h : ReL C arrays ss ss') : (sectionKeys ss').Perm (sectionKeys ss) := by
  induction h with
  | nil => exact .refl _
  | cons h _ ih =>
    unfold sectionKeys at ih ⊢
    rw [List.flatMap_cons, List.flatMap_cons]
    cases h with
    | mk h => exact ((h.docKeys.1 rfl).append_left _).append ih

theorem placed_sections (v : TomlVersion) (old ss : List Section) : (placeSections old ss).map (astSection v) = ss.map (astSection v) ∧
    sectionKeys (placeSections old ss) = sectionKeys ss := by
  cases ss with
  | nil => exact ⟨rfl, rfl⟩
  | cons s ss =>
    simp only [placeSections, sectionKeys, List.map_cons, List.map_map, List.flatMap_cons, List.flatMap_map, and_true]
    rfl

theorem pick_map {α β : Type} (f : α → β) (xs : List α) (rs : List Nat) :
    (pick xs (some rs)).map f = rs.filterMap ((xs.map f)[·]?) := by
  unfold pick
  rw [List.map_filterMap]
  congr 1
  funext i
  simp

theorem tree_section (v : TomlVersion) (d : Doc) : astRoot v d = ⟨keyValuesOf v d.body, d.sections.map (astSection v)⟩ := rfl

/-- What sorting keeps of a document. -/
structure SameDoc (v : TomlVersion) (d d' : Doc) : Prop where
  valid : Spec.Valid (astRoot v d')
  regular : Spec.Regular (astRoot v d')
  accepted : (astRoot v d').tree.2 = []
  nodes : ∀ x, x ∈ docNodes (astRoot v d') ↔ x ∈ docNodes (astRoot v d)
  keys : ∀ k ∈ docKeys d', k ∈ docKeys d

theorem valid_headers {root : AstRoot Scalar} (h : Spec.Valid root) : Spec.HasHeaders root.sections := by
  have : ∀ (ss : List (AstSection Scalar)) done opened, Spec.AllFollow done opened ss → Spec.HasHeaders ss := by
    intro ss
    induction ss with
    | nil => exact fun _ _ _ s hs => (nomatch hs)
    | cons s ss ih =>
      intro done opened h t ht
      rw [Spec.AllFollow] at h
      rcases List.mem_cons.1 ht with rfl | ht
      · obtain ⟨keys, h1, h2⟩ := h.1.header
        cases keys with
        | nil => exact absurd rfl h2
        | cons k ks => exact ⟨k, ks, h1⟩
      · exact ih _ _ h.2 t ht
  exact this _ _ _ h.2.2

theorem validKvs_named {l : List (AstKeyValue Scalar)} (h : Spec.ValidKvs l) : ∀ kv ∈ l, ∀ x, kv ≠ .mk (some []) x := by
  induction l with
  | nil => exact fun _ h => (nomatch h)
  | cons y l ih =>
    rw [Spec.ValidKvs] at h
    intro kv hkv x e
    rcases List.mem_cons.1 hkv with rfl | hkv
    · subst e
      have := h.1
      cases x with
      | none => rw [Spec.ValidKv] at this; exact this; simp
      | some x => rw [Spec.ValidKv] at this; exact this.1 rfl
    · exact ih h.2 kv hkv x e

theorem valid_keys {root : AstRoot Scalar} (h : Spec.Valid root) : Spec.HasKeys root := by
  refine ⟨fun s hs e => ?_, validKvs_named h.1, ?_⟩
  · obtain ⟨k, ks, hk⟩ := valid_headers h s hs
    rw [hk] at e
    cases e
  · have : ∀ (ss : List (AstSection Scalar)) done opened, Spec.AllFollow done opened ss → ∀ s ∈ ss, Spec.ValidKvs s.kvs := by
      intro ss
      induction ss with
      | nil => exact fun _ _ _ s hs => (nomatch hs)
      | cons s ss ih =>
        intro done opened h t ht
        rw [Spec.AllFollow] at h
        rcases List.mem_cons.1 ht with rfl | ht
        · exact h.1.kvs.1
        · exact ih _ _ h.2 t ht
    exact fun s hs => validKvs_named (this _ _ _ h.2.2 s hs)

/-- The sections of a document. -/
theorem orderRoot_same {w : EditWorld S} {fuel : Nat} {v : TomlVersion} {schema : Option S} {directive : Option OrderOverride}
    {d0 d : Doc} (hv : Spec.Valid (astRoot v d0)) (hf : Spec.Flat (astRoot v d0).sections) (hn : Spec.Near (astRoot v d0).sections)
    (hb : schema = none ∨ ∀ s ∈ (astRoot v d0).sections, ∀ header, s.header = some header → ∀ k ∈ header, TomlText.toKeyString k = k)
    (hc : DocIn C d) (hk : SameKvs (keyValuesOf v d0.body) (keyValuesOf v d.body))
    (hs : SameSections (d0.sections.map (astSection v)) (d.sections.map (astSection v))) (hks : ∀ k ∈ docKeys d, k ∈ docKeys d0) :
    SameDoc v d0 (orderRoot w fuel v schema directive d0.sections d) := by
  have hh : Spec.HasHeaders (astRoot v d0).sections := valid_headers hv
  have stay : ∀ {b : Body}, SameKvs (keyValuesOf v d0.body) (keyValuesOf v b) → (∀ k ∈ pairKeys b, k ∈ pairKeys d.body) →
      SameDoc v d0 ⟨b, d.sections⟩ := by
    intro b hkb hkk
    have h1 := same_valid hkb hs hv
    have e := hs.heads
    obtain ⟨h2, h3⟩ := near_accepted h1 (flat_heads e hf) (near_heads e hn) (headers_heads e hh)
    refine ⟨h1, h2, h3, fun x => (same_nodes hkb hs x).symm, fun k hk => hks k ?_⟩
    unfold docKeys at hk ⊢
    rcases List.mem_append.1 hk with hk | hk
    · exact List.mem_append_left _ (hkk k hk)
    · exact List.mem_append_right _ hk
  unfold orderRoot
  split
  · exact stay hk fun k h => h
  · have hbody : Re C false true d.body (orderTable (fun items => tableOrder w fuel v (groupTree v items) [] schema directive items) d.body) :=
      orderTable_re _ (fun items rs hr => tableOrder_perm hr) ((docIn_iff d).mp hc).1
    generalize orderTable (fun items => tableOrder w fuel v (groupTree v items) [] schema directive items) d.body = b at hbody
    have hkb := hk.trans ((hbody.same v rfl).1 rfl)
    have hkk := fun k => ((hbody.docKeys.1 rfl).mem_iff (a := k)).1
    cases ho : sectionOrder w fuel v schema directive d0.sections with
    | none => exact stay hkb hkk
    | some rs =>
      unfold sectionOrder at ho
      simp only at ho
      split at ho
      · cases ho
      · obtain ⟨h1, h2, h3, h4, h5⟩ := sorted_same hv hf hn hh hb ho hkb hs
        obtain ⟨h6, h7⟩ := near_accepted h1 h2 h3 h4
        have e : astRoot v ⟨b, placeSections d.sections (pick d.sections (some rs))⟩ =
            ⟨keyValuesOf v b, rs.filterMap ((d.sections.map (astSection v))[·]?)⟩ := by
          rw [tree_section]
          simp only
          rw [(placed_sections v _ _).1, pick_map]
        refine ⟨by rw [e]; exact h1, by rw [e]; exact h6, by rw [e]; exact h7, fun x => by rw [e]; exact h5 x, fun k hk => hks k ?_⟩
        unfold docKeys at hk ⊢
        rcases List.mem_append.1 hk with hk | hk
        · exact List.mem_append_left _ (hkk k hk)
        · refine List.mem_append_right _ ?_
          have hk' : k ∈ sectionKeys (placeSections d.sections (pick d.sections (some rs))) := hk
          rw [(placed_sections v _ _).2] at hk'
          obtain ⟨s, hm, hk'⟩ := List.mem_flatMap.1 hk'
          refine List.mem_flatMap.2 ⟨s, ?_, hk'⟩
          obtain ⟨i, -, hi⟩ := List.mem_filterMap.1 hm
          exact List.mem_of_getElem? hi

theorem sortTree_same {w : EditWorld S} (hA : ArraysOk false w) {fuel : Nat} {v : TomlVersion} {schema : Option S} {root : Green} {d : Doc}
    (hw : (docOf root).WF) (h : sortTree w fuel v schema root = .ok d) (hv : Spec.Valid (astRoot v (docOf root)))
    (hf : Spec.Flat (astRoot v (docOf root)).sections) (hn : Spec.Near (astRoot v (docOf root)).sections)
    (hb : schema = none ∨ ∀ s ∈ (astRoot v (docOf root)).sections, ∀ header, s.header = some header → ∀ k ∈ header, TomlText.toKeyString k = k) :
    SameDoc v (docOf root) d := by
  have hc : DocIn (fun _ => True) (docOf root) := fun _ _ _ => trivial
  unfold sortTree at h
  simp only at h
  split at h
  · cases h1 : sortEntries w fuel v [] schema (convert v (docOf root)).1.value (docOf root).body with
    | error e => rw [h1] at h; cases h
    | ok b =>
      rw [h1] at h
      simp only at h
      cases h2 : sortEach w fuel v schema (convert v (docOf root)).1.value [] (docOf root).sections with
      | error e => rw [h2] at h; cases h
      | ok ss =>
        rw [h2] at h
        cases h
        have hd := (docIn_iff _).mp hc
        have r1 := sortEntries_re w (arrays := false) hA fuel v _ _ _ _ _ _ b hw.body hd.1 h1
        have r2 := sortEach_re w (arrays := false) hA _ _ ss (fun s hs => ⟨hw.sections s hs, section_bodyIn (hd.2 s hs)⟩) h2
        obtain ⟨m1, m2⟩ := moveTop_value (topBreaks (Formatter.childrenOf root)) v ⟨b, ss⟩
        have m1' := m1
        rw [tree_section, tree_section] at m1'
        simp only [AstRoot.mk.injEq] at m1'
        refine orderRoot_same (C := fun _ => True) hv hf hn hb (fun _ _ _ => trivial) ?_ ?_ ?_
        · rw [m1'.1]; exact (r1.same v rfl).1 rfl
        · rw [m1'.2]; exact r2.same v
        · rw [m2]
          intro k hk
          unfold docKeys at hk ⊢
          rcases List.mem_append.1 hk with hk | hk
          · exact List.mem_append_left _ ((r1.docKeys.1 rfl).mem_iff.1 hk)
          · exact List.mem_append_right _ (r2.keys.mem_iff.1 hk)
  · cases h
    obtain ⟨h2, h3⟩ := near_accepted hv hf hn (valid_headers hv)
    exact ⟨hv, h2, h3, fun _ => Iff.rfl, fun _ h => h⟩

end Tombi.Editing
