import Verif.Proofs.SerializeNodes
/-!
The document that a value becomes.
-/
namespace Tombi.Serializing
open Spec
open Tombi.Reading

/-! ### kinds do not matter -/

mutual
theorem astVal_force : ∀ (v : Value), astVal (forceInline v) = astVal v
  | .scalar _ => rfl
  | .array _ vs => by simp only [forceInline, astVal, astItems_force vs]
  | .table _ es => by simp only [forceInline, astVal, astEntries_force es]
theorem astItems_force : ∀ (vs : List Value), astItems (forceInlines vs) = astItems vs
  | [] => rfl
  | v :: vs => by simp only [forceInlines, astItems, astVal_force v, astItems_force vs]
theorem astEntries_force : ∀ (es : List Entry), astEntries (forceEntries es) = astEntries es
  | [] => rfl
  | .mk k v :: es => by simp only [forceEntries, astEntries, astVal_force v, astEntries_force es]
end

mutual
theorem vdepth_force : ∀ (v : Value), vdepth (forceInline v) = vdepth v
  | .scalar _ => rfl
  | .array _ vs => by simp only [forceInline, vdepth, vdepthItems_force vs]
  | .table _ es => by simp only [forceInline, vdepth, vdepthEntries_force es]
theorem vdepthItems_force : ∀ (vs : List Value), vdepthItems (forceInlines vs) = vdepthItems vs
  | [] => rfl
  | v :: vs => by simp only [forceInlines, vdepthItems, vdepth_force v, vdepthItems_force vs]
theorem vdepthEntries_force : ∀ (es : List Entry), vdepthEntries (forceEntries es) = vdepthEntries es
  | [] => rfl
  | .mk k v :: es => by simp only [forceEntries, vdepthEntries, vdepth_force v, vdepthEntries_force es]
end

mutual
theorem force_force : ∀ (v : Value), forceInline (forceInline v) = forceInline v
  | .scalar _ => rfl
  | .array _ vs => by simp only [forceInline, forces_force vs]
  | .table _ es => by simp only [forceInline, forceE_force es]
theorem forces_force : ∀ (vs : List Value), forceInlines (forceInlines vs) = forceInlines vs
  | [] => rfl
  | v :: vs => by simp only [forceInlines, force_force v, forces_force vs]
theorem forceE_force : ∀ (es : List Entry), forceEntries (forceEntries es) = forceEntries es
  | [] => rfl
  | .mk k v :: es => by simp only [forceEntries, force_force v, forceE_force es]
end

theorem names_force : ∀ (es : List Entry), names (forceEntries es) = names es
  | [] => rfl
  | .mk k v :: es => by
    show k.value :: names (forceEntries es) = k.value :: names es
    rw [names_force es]

theorem place_same (kind : ArrayKind) (v : Value) :
    forceInline (place kind v).2 = forceInline v ∧ astVal (place kind v).2 = astVal v ∧ vdepth (place kind v).2 = vdepth v := by
  cases v <;> simp [place, forceInline, astVal, vdepth]

theorem place_inl {kind : ArrayKind} {v : Value} (h : Inl v) : (place kind v).2 = v := by
  cases v with
  | scalar s => rfl
  | array k vs => cases k <;> simp_all [Inl, place]
  | table k es => cases k <;> simp_all [Inl, place]

/-! ### the entries of a table -/

theorem insertEntry_new : ∀ (acc : List Entry) (k : Key) (v : Value), k.value ∉ names acc → insertEntry acc k v = acc ++ [.mk k v]
  | [], _, _, _ => rfl
  | .mk k' v' :: acc, k, v, h => by
    simp only [names, List.map_cons, List.mem_cons, not_or, Entry.key] at h
    rw [insertEntry, if_neg (Ne.symm h.1), insertEntry_new acc k v h.2]
    rfl

theorem insert_all : ∀ (es acc : List Entry), (names (acc ++ es)).Nodup →
    es.foldl (fun acc e => insertEntry acc e.key e.value) acc = acc ++ es
  | [], acc, _ => by simp
  | .mk k v :: es, acc, h => by
    have h1 : k.value ∉ names acc := by
      intro hm
      simp only [names, List.map_append, List.map_cons] at h
      exact (List.nodup_append.mp h).2.2 _ hm _ List.mem_cons_self rfl
    rw [List.foldl_cons]
    show List.foldl _ (insertEntry acc k v) es = _
    rw [insertEntry_new acc k v h1, insert_all es _ (by simpa using h)]
    simp

theorem absent_ser : ∀ (d : Data), isAbsent d = true → serialize d = .ok none ∧ dataNodes d = []
  | .none, _ => ⟨by simp [serialize], by simp [dataNodes]⟩
  | .some d, h => by
    simp only [isAbsent] at h
    simpa [serialize, dataNodes] using absent_ser d h
  | .inline d, h => by
    simp only [isAbsent] at h
    obtain ⟨h1, h2⟩ := absent_ser d h
    simp [serialize, dataNodes, h1, h2]
  | .scalar _, h => by simp [isAbsent] at h
  | .uint _, h => by simp [isAbsent] at h
  | .unit, h => by simp [isAbsent] at h
  | .seq _, h => by simp [isAbsent] at h
  | .record _, h => by simp [isAbsent] at h
  | .variant _ _, h => by simp [isAbsent] at h

theorem asI64_small {n : Nat} (h : n < 2 ^ 63) : asI64 n = n := by unfold asI64; rw [if_pos h]

theorem plain_uint {n : Nat} (h : n < 2 ^ 63) : PlainScalar (.integer (asI64 n)) := by
  rw [asI64_small h]
  simp only [PlainScalar, InI64]
  omega

/-- What a value becomes: `Q` is what the document's value is like. -/
def Becomes (d : Data) (Q : Value → Prop) : Prop :=
  ∃ v, serialize d = .ok (some v) ∧ Q v ∧ valueNodes (astVal v) = dataNodes d ∧ vdepth v ≤ depth d

def BecomesItems (kind : ArrayKind) (ds : List Data) (Q : ArrayKind → List Value → Prop) : Prop :=
  ∃ k vs, serializeItems kind ds = .ok (k, vs) ∧ Q k vs ∧ (∀ i, itemsNodes i (astItems vs) = itemNodes i ds) ∧ vdepthItems vs ≤ depthItems ds

def BecomesFields (fs : List (Text × Data)) (Q : List Entry → Prop) : Prop :=
  ∃ es, serializeFields fs = .ok es ∧ (names es).Sublist (fs.map (·.1)) ∧ Q es ∧
    kvsNodes (kvsOf (astEntries es)) = fieldNodes fs ∧ vdepthEntries es ≤ depthFields fs

theorem Becomes.mono {d : Data} {Q R : Value → Prop} (h : Becomes d Q) (hq : ∀ v, Q v → R v) : Becomes d R := by
  obtain ⟨v, h1, h2, h3⟩ := h
  exact ⟨v, h1, hq v h2, h3⟩

theorem becomes_some {d : Data} {Q : Value → Prop} (h : Becomes d Q) : Becomes (.some d) Q := by
  obtain ⟨v, h1, h2, h3, h4⟩ := h
  exact ⟨v, by rw [serialize, h1], h2, by rw [h3, dataNodes], by rw [depth]; exact h4⟩

theorem becomes_scalar {s : Scalar} (h : PlainScalar s) : Becomes (.scalar s) fun v => v = .scalar s :=
  ⟨.scalar s, by rw [serialize, serializeScalar_plain h], rfl, by simp [astVal, valueNodes, dataNodes], by simp [vdepth]⟩

theorem becomes_uint {n : Nat} (h : n < 2 ^ 63) : Becomes (.uint n) fun v => v = .scalar (.integer (asI64 n)) :=
  ⟨.scalar (.integer (asI64 n)), by rw [serialize], rfl, by simp [astVal, valueNodes, dataNodes, asI64_small h], by simp [vdepth]⟩

theorem becomes_inline {d : Data} {Q : Value → Prop} (h : Becomes d fun v => Q (forceInline v)) : Becomes (.inline d) Q := by
  obtain ⟨v, h1, h2, h3, h4⟩ := h
  exact ⟨forceInline v, by rw [serialize, h1], h2, by rw [astVal_force, h3, dataNodes], by rw [vdepth_force, depth]; exact h4⟩

theorem becomes_seq {ds : List Data} {Q : ArrayKind → List Value → Prop} (h : BecomesItems .arrayOfTable ds Q) :
    Becomes (.seq ds) fun v => ∃ k vs, v = .array k vs ∧ Q k vs := by
  obtain ⟨k, vs, h1, h2, h3, h4⟩ := h
  exact ⟨.array k vs, by rw [serialize, h1], ⟨k, vs, rfl, h2⟩, by rw [astVal, valueNodes, dataNodes, h3], by rw [vdepth, depth]; omega⟩

theorem becomes_record {fs : List (Text × Data)} (hn : (fs.map (·.1)).Nodup) {Q : List Entry → Prop} (h : BecomesFields fs Q) :
    Becomes (.record fs) fun v => ∃ es, v = .table .table es ∧ (names es).Nodup ∧ Q es := by
  obtain ⟨es, h1, h2, h3, h4, h5⟩ := h
  have h6 := hn.sublist h2
  refine ⟨.table .table es, ?_, ⟨es, rfl, h6, h3⟩, by rw [astVal, valueNodes, dataNodes, h4], by rw [vdepth, depth]; omega⟩
  rw [serialize, h1]
  simp only
  rw [insert_all es [] (by simpa using h6)]
  rfl

theorem items_nil (kind : ArrayKind) : BecomesItems kind [] fun k vs => k = kind ∧ vs = [] :=
  ⟨kind, [], by rw [serializeItems], ⟨rfl, rfl⟩, by simp [astItems, itemsNodes, itemNodes], by simp [vdepthItems]⟩

theorem items_cons {kind : ArrayKind} {d : Data} {ds : List Data} {Q : Value → Prop} {R : ArrayKind → ArrayKind → List Value → Prop}
    (h1 : Becomes d Q) (h2 : ∀ k, BecomesItems k ds (R k)) :
    BecomesItems kind (d :: ds) fun k vs => ∃ v ws, Q v ∧ vs = (place kind v).2 :: ws ∧ R (place kind v).1 k ws := by
  obtain ⟨v, a1, a2, a3, a4⟩ := h1
  obtain ⟨k, ws, b1, b2, b3, b4⟩ := h2 (place kind v).1
  refine ⟨k, (place kind v).2 :: ws, by rw [serializeItems, a1]; simp only; rw [b1], ⟨v, ws, a2, rfl, b2⟩, fun i => ?_, ?_⟩
  · rw [astItems, itemsNodes, Spec.itemNodes, itemNodes, b3, (place_same kind v).2.1, a3]
  · rw [vdepthItems, depthItems, (place_same kind v).2.2]
    omega

theorem fields_nil : BecomesFields [] fun es => es = [] :=
  ⟨[], by rw [serializeFields], by simp [names], rfl, by simp [astEntries, kvsOf, kvsNodes, fieldNodes], by simp [vdepthEntries]⟩

theorem fields_absent {k : Text} {d : Data} {fs : List (Text × Data)} {Q : List Entry → Prop} (h : isAbsent d = true) (h2 : BecomesFields fs Q) :
    BecomesFields ((k, d) :: fs) Q := by
  obtain ⟨a1, a2⟩ := absent_ser d h
  obtain ⟨es, b1, b2, b3, b4, b5⟩ := h2
  refine ⟨es, by rw [serializeFields, a1]; simp only; rw [b1], by rw [List.map_cons]; exact b2.cons _, b3, ?_, ?_⟩
  · rw [b4, fieldNodes, a2]; rfl
  · rw [depthFields]; omega

theorem fields_cons {k : Text} {d : Data} {fs : List (Text × Data)} {Q : Value → Prop} {R : List Entry → Prop} (h : Becomes d Q)
    (h2 : BecomesFields fs R) : BecomesFields ((k, d) :: fs) fun es => ∃ v fs, es = .mk (keyFrom k) v :: fs ∧ Q v ∧ R fs := by
  obtain ⟨v, a1, a2, a3, a4⟩ := h
  obtain ⟨es, b1, b2, b3, b4, b5⟩ := h2
  refine ⟨.mk (keyFrom k) v :: es, by rw [serializeFields, a1]; simp only; rw [b1], ?_, ⟨v, es, rfl, a2, b3⟩, ?_, ?_⟩
  · simp only [names, List.map_cons, Entry.key, keyFrom_value]
    exact b2.cons_cons _
  · rw [fieldNodes, astEntries, kvsOf, List.map_cons, kvsNodes, kvNodes, assignNodes, a3, keyFrom_value]
    congr 1
  · rw [vdepthEntries, depthFields]; omega

/-! ### what is written on one line -/

theorem BecomesItems.mono {kind : ArrayKind} {ds : List Data} {Q R : ArrayKind → List Value → Prop} (h : BecomesItems kind ds Q)
    (hq : ∀ k v, Q k v → R k v) : BecomesItems kind ds R := by
  obtain ⟨k, v, h1, h2, h3⟩ := h
  exact ⟨k, v, h1, hq k v h2, h3⟩

theorem BecomesFields.mono {ds : List (Text × Data)} {Q R : List Entry → Prop} (h : BecomesFields ds Q)
    (hq : ∀ v, Q v → R v) : BecomesFields ds R := by
  obtain ⟨v, h1, h0, h2, h3⟩ := h
  exact ⟨v, h1, h0, hq v h2, h3⟩

def isScalarValue : Value → Bool
  | .scalar _ => true
  | _ => false

mutual
theorem inline_ser : ∀ (d : Data), Inline d →
    Becomes d fun v => Inl (forceInline v) ∧ (isScalar d = true → isScalarValue v = true)
  | .scalar s, h => by
    simp only [Inline] at h
    refine (becomes_scalar h).mono ?_
    rintro _ rfl
    exact ⟨by simpa [forceInline, Inl] using h, fun _ => rfl⟩
  | .uint n, h => by
    simp only [Inline] at h
    refine (becomes_uint h).mono ?_
    rintro _ rfl
    exact ⟨by simpa [forceInline, Inl] using plain_uint h, fun _ => rfl⟩
  | .some d, h => by
    simp only [Inline] at h
    simp only [isScalar]
    exact becomes_some (inline_ser d h)
  | .inline d, h => by
    simp only [Inline] at h
    simp only [isScalar]
    refine becomes_inline ((inline_ser d h).mono ?_)
    rintro v ⟨h1, h2⟩
    rw [force_force]
    refine ⟨h1, fun hs => ?_⟩
    have := h2 hs
    cases v <;> simp_all [isScalarValue, forceInline]
  | .seq ds, h => by
    simp only [Inline] at h
    refine (becomes_seq (inlineItems_ser ds .arrayOfTable h)).mono ?_
    rintro _ ⟨k, vs, rfl, h1⟩
    exact ⟨by simpa [forceInline, Inl] using h1, fun hs => by simp [isScalar] at hs⟩
  | .record fs, h => by
    simp only [Inline] at h
    refine (becomes_record h.1 (inlineFields_ser fs h.2)).mono ?_
    rintro _ ⟨es, rfl, h1, h2⟩
    refine ⟨?_, fun hs => by simp [isScalar] at hs⟩
    simp only [forceInline, Inl]
    exact ⟨by rw [names_force]; exact h1, h2⟩
  | .unit, h => by simp [Inline] at h
  | .none, h => by simp [Inline] at h
  | .variant _ _, h => by simp [Inline] at h
theorem inlineItems_ser : ∀ (ds : List Data) (kind : ArrayKind), InlineItems ds → BecomesItems kind ds fun _ vs => Inls (forceInlines vs)
  | [], kind, _ => (items_nil kind).mono (by rintro _ _ ⟨rfl, rfl⟩; simp [forceInlines, Inls])
  | d :: ds, kind, h => by
    simp only [InlineItems] at h
    refine (items_cons (inline_ser d h.1) fun k => inlineItems_ser ds k h.2).mono ?_
    rintro _ _ ⟨v, ws, h1, rfl, h2⟩
    simp only [forceInlines, Inls]
    exact ⟨by rw [(place_same kind v).1]; exact h1.1, h2⟩
theorem inlineFields_ser : ∀ (fs : List (Text × Data)), InlineFields fs → BecomesFields fs fun es => InlE (forceEntries es)
  | [], _ => fields_nil.mono (by rintro _ rfl; simp [forceEntries, InlE])
  | (k, d) :: fs, h => by
    simp only [InlineFields] at h
    rcases h.1 with h1 | ⟨h1, h2⟩
    · exact fields_absent h1 (inlineFields_ser fs h.2)
    · refine (fields_cons (inline_ser d h2) (inlineFields_ser fs h.2)).mono ?_
      rintro _ ⟨v, es, rfl, h3, h4⟩
      simp only [forceEntries, InlE]
      exact ⟨fieldName_fine h1, h3.1, h4⟩
end

theorem place_kind_array (v : Value) : (place .array v).1 = .array := by cases v <;> rfl
theorem place_kind_scalar {kind : ArrayKind} {v : Value} (h : isScalarValue v = true) : (place kind v).1 = .array := by
  cases v <;> simp_all [isScalarValue, place]

mutual
theorem flat_ser : ∀ (d : Data), Flat d → Becomes d fun v => Inl v ∧ (isScalar d = true → isScalarValue v = true)
  | .scalar s, h => by
    simp only [Flat] at h
    refine (becomes_scalar h).mono ?_
    rintro _ rfl
    exact ⟨by simpa [Inl] using h, fun _ => rfl⟩
  | .uint n, h => by
    simp only [Flat] at h
    refine (becomes_uint h).mono ?_
    rintro _ rfl
    exact ⟨by simpa [Inl] using plain_uint h, fun _ => rfl⟩
  | .some d, h => by
    simp only [Flat] at h
    simp only [isScalar]
    exact becomes_some (flat_ser d h)
  | .inline d, h => by
    simp only [Flat] at h
    simp only [isScalar]
    refine becomes_inline ((inline_ser d h).mono ?_)
    rintro v ⟨h1, h2⟩
    refine ⟨h1, fun hs => ?_⟩
    have := h2 hs
    cases v <;> simp_all [isScalarValue, forceInline]
  | .seq ds, h => by
    simp only [Flat] at h
    refine (becomes_seq (flatItems_ser ds .arrayOfTable h.2)).mono ?_
    rintro _ ⟨k, vs, rfl, h1, h2⟩
    have : k = .array := h2 (.inr h.1)
    subst this
    exact ⟨by simpa [Inl] using h1, fun hs => by simp [isScalar] at hs⟩
  | .record fs, h => by simp [Flat] at h
  | .unit, h => by simp [Flat] at h
  | .none, h => by simp [Flat] at h
  | .variant _ _, h => by simp [Flat] at h
theorem flatItems_ser : ∀ (ds : List Data) (kind : ArrayKind), FlatItems ds → BecomesItems kind ds fun k vs =>
    Inls vs ∧ (kind = .array ∨ (∃ d ∈ ds, isScalar d = true) → k = .array)
  | [], kind, _ => (items_nil kind).mono (by
      rintro _ _ ⟨rfl, rfl⟩
      refine ⟨by simp [Inls], ?_⟩
      rintro (h | ⟨d, hd, -⟩)
      · exact h
      · cases hd)
  | d :: ds, kind, h => by
    simp only [FlatItems] at h
    refine (items_cons (flat_ser d h.1) fun k => flatItems_ser ds k h.2).mono ?_
    rintro k _ ⟨v, ws, h1, rfl, h2, h3⟩
    rw [place_inl h1.1]
    refine ⟨by simp only [Inls]; exact ⟨h1.1, h2⟩, ?_⟩
    rintro (rfl | ⟨d', hd, hs⟩)
    · exact h3 (.inl (place_kind_array v))
    · rcases List.mem_cons.mp hd with rfl | hd
      · exact h3 (.inl (place_kind_scalar (h1.2 hs)))
      · exact h3 (.inr ⟨d', hd, hs⟩)
end

/-! ### what is written as tables -/

theorem flatFields_ser : ∀ (fs : List (Text × Data)), FlatFields fs → BecomesFields fs InlE
  | [], _ => fields_nil.mono (by rintro _ rfl; simp [InlE])
  | (k, d) :: fs, h => by
    have ih := flatFields_ser fs fun f hf => h f (List.mem_cons_of_mem _ hf)
    rcases h (k, d) List.mem_cons_self with h1 | ⟨h1, h2⟩
    · exact fields_absent h1 ih
    · refine (fields_cons (flat_ser d h2) ih).mono ?_
      rintro _ ⟨v, es, rfl, h3, h4⟩
      simp only [InlE]
      exact ⟨fieldName_fine h1, h3.1, h4⟩

theorem element_ser : ∀ (d : Data), Element d → Becomes d ElementFine
  | .record fs, h => by
    simp only [Element] at h
    exact becomes_record h.1 (flatFields_ser fs h.2)
  | .some d, h => by
    simp only [Element] at h
    exact becomes_some (element_ser d h)
  | .scalar _, h => by simp [Element] at h
  | .uint _, h => by simp [Element] at h
  | .unit, h => by simp [Element] at h
  | .none, h => by simp [Element] at h
  | .seq _, h => by simp [Element] at h
  | .variant _ _, h => by simp [Element] at h
  | .inline _, h => by simp [Element] at h

theorem place_element {v : Value} (h : ElementFine v) : place .arrayOfTable v = (.arrayOfTable, v) := by
  obtain ⟨es, rfl, -⟩ := h
  rfl

theorem elements_ser : ∀ (ds : List Data), (∀ d ∈ ds, Element d) → BecomesItems .arrayOfTable ds fun k vs =>
    k = .arrayOfTable ∧ (∀ v ∈ vs, ElementFine v) ∧ (ds ≠ [] → vs ≠ [])
  | [], _ => (items_nil _).mono (by rintro _ _ ⟨rfl, rfl⟩; simp)
  | d :: ds, h => by
    obtain ⟨v, a1, a2, a3, a4⟩ := element_ser d (h d List.mem_cons_self)
    obtain ⟨k, ws, b1, ⟨b2, b3, -⟩, b4, b5⟩ := elements_ser ds fun x hx => h x (List.mem_cons_of_mem _ hx)
    have hp := place_element a2
    refine ⟨k, v :: ws, by rw [serializeItems, a1]; simp only [hp]; rw [b1], ⟨b2, ?_, by simp⟩, fun i => ?_, ?_⟩
    · intro x hx
      rcases List.mem_cons.mp hx with rfl | hx
      · exact a2
      · exact b3 x hx
    · rw [astItems, itemsNodes, Spec.itemNodes, itemNodes, b4, a3]
    · rw [vdepthItems, depthItems]; omega

theorem inl_notTable {v : Value} (h : Inl v) : ¬ Tab v := fun h' => by
  have h1 := inl_notSection h
  rw [tab_section h'] at h1
  cases h1

mutual
theorem field_ser : ∀ (d : Data), Field d → Becomes d fun v => (Inl v ∨ Tab v) ∧ (Tab v → isTable v = true → isRecord d = true) ∧
    (isRecord d = true → ∃ es, v = .table .table es ∧ Tab v)
  | .scalar s, h => by
    simp only [Field] at h
    refine (becomes_scalar h).mono ?_
    rintro _ rfl
    exact ⟨.inl (by simpa [Inl] using h), fun h => by simp [Tab] at h, fun h => by simp [isRecord] at h⟩
  | .uint n, h => by
    simp only [Field] at h
    refine (becomes_uint h).mono ?_
    rintro _ rfl
    exact ⟨.inl (by simpa [Inl] using plain_uint h), fun h => by simp [Tab] at h, fun h => by simp [isRecord] at h⟩
  | .some d, h => by
    simp only [Field] at h
    simp only [isRecord]
    exact becomes_some (field_ser d h)
  | .inline d, h => by
    simp only [Field] at h
    refine becomes_inline ((inline_ser d h).mono ?_)
    rintro v ⟨h1, -⟩
    exact ⟨.inl h1, fun h => absurd h (inl_notTable h1), fun h => by simp [isRecord] at h⟩
  | .seq ds, h => by
    simp only [Field] at h
    rcases h with h | ⟨h1, h2⟩
    · refine (flat_ser _ h).mono ?_
      rintro v ⟨h1, -⟩
      exact ⟨.inl h1, fun h => absurd h (inl_notTable h1), fun h => by simp [isRecord] at h⟩
    · refine (becomes_seq (elements_ser ds h2)).mono ?_
      rintro _ ⟨k, vs, rfl, rfl, h3, h4⟩
      exact ⟨.inr (by simp only [Tab]; exact ⟨h4 h1, h3⟩), fun _ h => by simp [isTable] at h, fun h => by simp [isRecord] at h⟩
  | .record fs, h => by
    simp only [Field] at h
    refine (becomes_record h.1 (tableFields_ser fs h.2)).mono ?_
    rintro _ ⟨es, rfl, h1, h2⟩
    have ht : Tab (.table .table es) := by simp only [Tab]; exact ⟨h1, h2⟩
    exact ⟨.inr ht, fun _ _ => rfl, fun _ => ⟨es, rfl, ht⟩⟩
  | .unit, h => by simp [Field] at h
  | .none, h => by simp [Field] at h
  | .variant _ _, h => by simp [Field] at h
theorem tableFields_ser : ∀ (fs : List (Text × Data)), TableFields fs → BecomesFields fs TabE
  | [], _ => fields_nil.mono (by rintro _ rfl; simp [TabE])
  | (k, d) :: fs, h => by
    simp only [TableFields] at h
    rcases h.1 with h1 | ⟨h1, h2⟩
    · exact fields_absent h1 (tableFields_ser fs h.2)
    · refine (fields_cons (field_ser d h2) (tableFields_ser fs h.2)).mono ?_
      rintro _ ⟨v, es, rfl, ⟨h3, h4, -⟩, h5⟩
      simp only [TabE]
      have hk : NameFine (keyFrom k) ∧ (isRecord d = true → PathFine (keyFrom k)) := by
        by_cases hr : isRecord d = true
        · rw [if_pos hr] at h1
          exact ⟨(tableName_fine h1).2, fun _ => (tableName_fine h1).1⟩
        · rw [if_neg hr] at h1
          exact ⟨fieldName_fine h1, fun h => absurd h hr⟩
      refine ⟨⟨hk.1, ?_⟩, h5⟩
      rcases h3 with h3 | h3
      · exact .inl h3
      · exact .inr ⟨h3, fun ht => hk.2 (h4 h3 ht)⟩
end

/-- The document of a record. -/
theorem record_document {d : Data} (hr : isRecord d = true) (h : Field d) : ∃ es, toDocument d = .ok es ∧ (names es).Nodup ∧ TabE es ∧
    valueNodes (astVal (.table .table es)) = dataNodes d ∧ vdepthEntries es ≤ depth d := by
  obtain ⟨v, h1, ⟨-, -, h2⟩, h3, h4⟩ := field_ser d h
  obtain ⟨es, rfl, h5⟩ := h2 hr
  simp only [Tab] at h5
  refine ⟨es, by rw [toDocument, h1], h5.1, h5.2, h3, ?_⟩
  rw [vdepth] at h4
  omega

/-! ### nesting -/

theorem vdepth_mem : ∀ {es : List Entry} {e : Entry}, e ∈ es → vdepth e.value ≤ vdepthEntries es
  | .mk k v :: es, e, h => by
    rw [vdepthEntries]
    rcases List.mem_cons.mp h with rfl | h
    · simp only [Entry.value]; omega
    · have := vdepth_mem h; omega

theorem vdepthEntries_le : ∀ {es : List Entry} {n : Nat}, (∀ e ∈ es, vdepth e.value ≤ n) → vdepthEntries es ≤ n
  | [], n, _ => by simp [vdepthEntries]
  | .mk k v :: es, n, h => by
    rw [vdepthEntries]
    have h1 := h _ List.mem_cons_self
    have h2 := vdepthEntries_le (es := es) fun e he => h e (List.mem_cons_of_mem _ he)
    simp only [Entry.value] at h1
    omega

theorem vdepth_plain (es : List Entry) : vdepthEntries (plain es) ≤ vdepthEntries es :=
  vdepthEntries_le fun _ he => vdepth_mem (mem_plain.mp he).1

theorem vdepthItems_mem : ∀ {vs : List Value} {v : Value}, v ∈ vs → vdepth v ≤ vdepthItems vs
  | w :: vs, v, h => by
    rw [vdepthItems]
    rcases List.mem_cons.mp h with rfl | h
    · omega
    · have := vdepthItems_mem h; omega

mutual
theorem parts_depth : ∀ (v : Value) (P : List Key), ∀ p ∈ parts P v, vdepthEntries p.entries ≤ vdepth v
  | .scalar s, P, p, hp => by simp [parts] at hp
  | .array .array vs, P, p, hp => by simp [parts] at hp
  | .array .arrayOfTable vs, P, p, hp => by
    simp only [parts, List.mem_map] at hp
    obtain ⟨v, hv, rfl⟩ := hp
    have h1 := vdepthItems_mem hv
    rw [vdepth]
    have h2 : vdepthEntries (entriesOf v) ≤ vdepth v := by
      cases v with
      | table k es => simp only [entriesOf, vdepth]; omega
      | _ => simp [entriesOf, vdepthEntries]
    show vdepthEntries (entriesOf v) ≤ _
    omega
  | .table .inlineTable es, P, p, hp => by simp [parts] at hp
  | .table .keyValue es, P, p, hp => by simp [parts] at hp
  | .table .table es, P, p, hp => by
    rw [vdepth]
    simp only [parts, List.mem_append] at hp
    rcases hp with hp | hp
    · split at hp
      · cases hp
      · rw [List.mem_singleton] at hp
        subst hp
        have := vdepth_plain es
        show vdepthEntries (plain es) ≤ _
        omega
    · have := partsE_depth es P p hp
      omega
theorem partsE_depth : ∀ (es : List Entry) (P : List Key), ∀ p ∈ partsE P es, vdepthEntries p.entries ≤ vdepthEntries es
  | [], P, p, hp => by simp [partsE] at hp
  | .mk k v :: es, P, p, hp => by
    rw [vdepthEntries]
    simp only [partsE, List.mem_append] at hp
    rcases hp with hp | hp
    · have := parts_depth v (P ++ [k]) p hp; omega
    · have := partsE_depth es P p hp; omega
end

end Tombi.Serializing
