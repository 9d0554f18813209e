import Verif.Spec.Offers
/-! Completion tests a literal as JSON Schema says, and its candidates are all the literals. -/
namespace Tombi.Offer
open Tombi.Validate (Ty)
open Tombi.Spec

section
variable {F : Type} [DecidableEq F]

/-! ### equality -/

mutual
theorem beq_iff : (a b : J F) → (J.beq a b = true ↔ a = b)
  | .null, b => by cases b <;> simp [J.beq]
  | .bool x, b => by cases b <;> simp [J.beq]
  | .int x, b => by cases b <;> simp [J.beq]
  | .float x, b => by cases b <;> simp [J.beq]
  | .str x, b => by cases b <;> simp [J.beq]
  | .arr xs, b => by
    cases b with
    | arr ys => simp only [J.beq, J.arr.injEq]; exact beqs_iff xs ys
    | _ => simp [J.beq]
  | .obj xs, b => by
    cases b with
    | obj ys => simp only [J.beq, J.obj.injEq]; exact beqms_iff xs ys
    | _ => simp [J.beq]
theorem beqs_iff : (a b : List (J F)) → (J.beqs a b = true ↔ a = b)
  | [], b => by cases b <;> simp [J.beqs]
  | x :: xs, b => by
    cases b with
    | nil => simp [J.beqs]
    | cons y ys => simp only [J.beqs, Bool.and_eq_true, List.cons.injEq]; rw [beq_iff x y, beqs_iff xs ys]
theorem beqms_iff : (a b : List (Text × J F)) → (J.beqms a b = true ↔ a = b)
  | [], b => by cases b <;> simp [J.beqms]
  | (k, x) :: xs, b => by
    cases b with
    | nil => simp [J.beqms]
    | cons y ys =>
      obtain ⟨l, y⟩ := y
      simp only [J.beqms, Bool.and_eq_true, List.cons.injEq, Prod.mk.injEq, beq_iff_eq]
      rw [beq_iff x y, beqms_iff xs ys]
end

theorem eq_iff (a b : J F) : J.eq a b = true ↔ SameJson a b := beq_iff _ _

omit [DecidableEq F] in
theorem same_scalar {a b : J F} (h : SameJson a b) :
    (∀ s, a = .str s → b = .str s) ∧ (∀ i, a = .int i → b = .int i) ∧ (∀ f, a = .float f → b = .float f) ∧
    (∀ n, OfType n a → OfType n b) := by
  unfold SameJson at h
  refine ⟨?_, ?_, ?_, ?_⟩
  · rintro s rfl; cases b <;> simp_all [J.sorted]
  · rintro s rfl; cases b <;> simp_all [J.sorted]
  · rintro s rfl; cases b <;> simp_all [J.sorted]
  · intro n hn
    cases hn with
    | null => cases b <;> first | exact .null | (simp [J.sorted] at h)
    | bool x => cases b <;> first | exact .bool _ | (simp [J.sorted] at h)
    | int x => cases b <;> first | exact .int _ | (simp [J.sorted] at h)
    | intNumber x => cases b <;> first | exact .intNumber _ | (simp [J.sorted] at h)
    | number x => cases b <;> first | exact .number _ | (simp [J.sorted] at h)
    | str x => cases b <;> first | exact .str _ | (simp [J.sorted] at h)
    | arr x => cases b <;> first | exact .arr _ | (simp [J.sorted] at h)
    | obj x => cases b <;> first | exact .obj _ | (simp [J.sorted] at h)

/-! ### what is allowed is the same for equal values -/

omit [DecidableEq F] in
theorem plain_same {fl : Floats F} {m : Text → Text → Prop} {k : Text} {v x y : J F} (h : SameJson x y) (hp : PlainKeyword fl m k v x) :
    PlainKeyword fl m k v y := by
  have hb := same_scalar (show SameJson y x from h.symm)
  have hn : ∀ b, NumberIs fl y b → NumberIs fl x b := by
    intro b hb'
    cases hb' with
    | int i => rw [hb.2.1 i rfl]; exact .int i
    | float => rw [hb.2.2.1 b rfl]; exact .float b
  refine ⟨fun e => ?_, fun e => (hp.const e).trans h, fun e => ?_, fun e a b h1 h2 => hp.minimum e a b h1 (hn b h2),
    fun e a b h1 h2 => hp.maximum e a b h1 (hn b h2), fun e a b h1 h2 => hp.exclusiveMinimum e a b h1 (hn b h2),
    fun e a b h1 h2 => hp.exclusiveMaximum e a b h1 (hn b h2), fun e a b h1 h2 => hp.multipleOf e a b h1 (hn b h2),
    fun e n s h1 h2 => hp.minLength e n s h1 (hb.1 s h2), fun e n s h1 h2 => hp.maxLength e n s h1 (hb.1 s h2),
    fun e p s h1 h2 => hp.pattern e p s h1 (hb.1 s h2)⟩
  · obtain ⟨name, h1, h2⟩ := hp.type e
    exact ⟨name, h1, (same_scalar h).2.2.2 name h2⟩
  · obtain ⟨vs, h1, c, hc, h2⟩ := hp.enum e
    exact ⟨vs, h1, c, hc, h2.trans h⟩

omit [DecidableEq F] in
theorem plain_same_iff {fl : Floats F} {m : Text → Text → Prop} {k : Text} {v x y : J F} (h : SameJson x y) :
    PlainKeyword fl m k v x ↔ PlainKeyword fl m k v y := ⟨plain_same h, plain_same h.symm⟩

end
variable {F : Type}
mutual
theorem allows_same {fl : Floats F} {m : Text → Text → Prop} {x y : J F} (h : SameJson x y) :
    (s : J F) → (Allows fl m x s ↔ Allows fl m y s)
  | .bool b => by rw [Allows, Allows]
  | .obj ms => by
    rw [Allows, Allows, keywords_same h ms, has_same h _ ms, each_same h _ ms, hasNot_same h _ ms, each_same h _ ms]
  | .null => by rw [Allows, Allows] <;> exact fun _ e => (nomatch e)
  | .int _ => by rw [Allows, Allows] <;> exact fun _ e => (nomatch e)
  | .float _ => by rw [Allows, Allows] <;> exact fun _ e => (nomatch e)
  | .str _ => by rw [Allows, Allows] <;> exact fun _ e => (nomatch e)
  | .arr _ => by rw [Allows, Allows] <;> exact fun _ e => (nomatch e)
theorem keywords_same {fl : Floats F} {m : Text → Text → Prop} {x y : J F} (h : SameJson x y) :
    (ms : List (Text × J F)) → (Keywords fl m x ms ↔ Keywords fl m y ms)
  | [] => by rw [Keywords, Keywords]
  | (k, v) :: ms => by
    rw [Keywords, Keywords, plain_same_iff h, all_same h v, any_same h v, one_same h v, allows_same h v, keywords_same h ms]
theorem has_same {fl : Floats F} {m : Text → Text → Prop} {x y : J F} (h : SameJson x y) (name : Text) :
    (ms : List (Text × J F)) → (Has fl m x name ms ↔ Has fl m y name ms)
  | [] => by rw [Has, Has]
  | (k, v) :: ms => by rw [Has, Has, allows_same h v, has_same h name ms]
theorem hasNot_same {fl : Floats F} {m : Text → Text → Prop} {x y : J F} (h : SameJson x y) (name : Text) :
    (ms : List (Text × J F)) → (HasNot fl m x name ms ↔ HasNot fl m y name ms)
  | [] => by rw [HasNot, HasNot]
  | (k, v) :: ms => by rw [HasNot, HasNot, allows_same h v, hasNot_same h name ms]
theorem each_same {fl : Floats F} {m : Text → Text → Prop} {x y : J F} (h : SameJson x y) (name : Text) :
    (ms : List (Text × J F)) → (Each fl m x name ms ↔ Each fl m y name ms)
  | [] => by rw [Each, Each]
  | (k, v) :: ms => by rw [Each, Each, allows_same h v, each_same h name ms]
theorem all_same {fl : Floats F} {m : Text → Text → Prop} {x y : J F} (h : SameJson x y) : (s : J F) → (AllOf fl m x s ↔ AllOf fl m y s)
  | .arr ss => by rw [AllOf, AllOf]; exact allIn_same h ss
  | .null => by rw [AllOf, AllOf] <;> exact fun _ e => (nomatch e)
  | .bool _ => by rw [AllOf, AllOf] <;> exact fun _ e => (nomatch e)
  | .int _ => by rw [AllOf, AllOf] <;> exact fun _ e => (nomatch e)
  | .float _ => by rw [AllOf, AllOf] <;> exact fun _ e => (nomatch e)
  | .str _ => by rw [AllOf, AllOf] <;> exact fun _ e => (nomatch e)
  | .obj _ => by rw [AllOf, AllOf] <;> exact fun _ e => (nomatch e)
theorem any_same {fl : Floats F} {m : Text → Text → Prop} {x y : J F} (h : SameJson x y) : (s : J F) → (AnyOf fl m x s ↔ AnyOf fl m y s)
  | .arr ss => by rw [AnyOf, AnyOf]; exact anyIn_same h ss
  | .null => by rw [AnyOf, AnyOf] <;> exact fun _ e => (nomatch e)
  | .bool _ => by rw [AnyOf, AnyOf] <;> exact fun _ e => (nomatch e)
  | .int _ => by rw [AnyOf, AnyOf] <;> exact fun _ e => (nomatch e)
  | .float _ => by rw [AnyOf, AnyOf] <;> exact fun _ e => (nomatch e)
  | .str _ => by rw [AnyOf, AnyOf] <;> exact fun _ e => (nomatch e)
  | .obj _ => by rw [AnyOf, AnyOf] <;> exact fun _ e => (nomatch e)
theorem one_same {fl : Floats F} {m : Text → Text → Prop} {x y : J F} (h : SameJson x y) : (s : J F) → (OneOf fl m x s ↔ OneOf fl m y s)
  | .arr ss => by rw [OneOf, OneOf]; exact oneIn_same h ss
  | .null => by rw [OneOf, OneOf] <;> exact fun _ e => (nomatch e)
  | .bool _ => by rw [OneOf, OneOf] <;> exact fun _ e => (nomatch e)
  | .int _ => by rw [OneOf, OneOf] <;> exact fun _ e => (nomatch e)
  | .float _ => by rw [OneOf, OneOf] <;> exact fun _ e => (nomatch e)
  | .str _ => by rw [OneOf, OneOf] <;> exact fun _ e => (nomatch e)
  | .obj _ => by rw [OneOf, OneOf] <;> exact fun _ e => (nomatch e)
theorem allIn_same {fl : Floats F} {m : Text → Text → Prop} {x y : J F} (h : SameJson x y) :
    (ss : List (J F)) → (AllIn fl m x ss ↔ AllIn fl m y ss)
  | [] => by rw [AllIn, AllIn]
  | s :: ss => by rw [AllIn, AllIn, allows_same h s, allIn_same h ss]
theorem anyIn_same {fl : Floats F} {m : Text → Text → Prop} {x y : J F} (h : SameJson x y) :
    (ss : List (J F)) → (AnyIn fl m x ss ↔ AnyIn fl m y ss)
  | [] => by rw [AnyIn, AnyIn]
  | s :: ss => by rw [AnyIn, AnyIn, allows_same h s, anyIn_same h ss]
theorem oneIn_same {fl : Floats F} {m : Text → Text → Prop} {x y : J F} (h : SameJson x y) :
    (ss : List (J F)) → (OneIn fl m x ss ↔ OneIn fl m y ss)
  | [] => by rw [OneIn, OneIn]
  | s :: ss => by rw [OneIn, OneIn, allows_same h s, anyIn_same h ss, oneIn_same h ss]
end

/-! ### the members of a schema -/

/-- What one keyword asks for. -/
def Keyword (fl : Floats F) (m : Text → Text → Prop) (x : J F) (k : Text) (v : J F) : Prop :=
  PlainKeyword fl m k v x ∧ (k = "allOf".toList → AllOf fl m x v) ∧ (k = "anyOf".toList → AnyOf fl m x v) ∧
    (k = "oneOf".toList → OneOf fl m x v) ∧ (k = "not".toList → ¬ Allows fl m x v)

theorem keywords_iff {fl : Floats F} {m : Text → Text → Prop} {x : J F} :
    (ms : List (Text × J F)) → (Keywords fl m x ms ↔ ∀ k v, (k, v) ∈ ms → Keyword fl m x k v)
  | [] => by simp [Keywords]
  | (k, v) :: ms => by
    rw [Keywords, keywords_iff ms]
    constructor
    · rintro ⟨h1, h2, h3, h4, h5, h6⟩ l w hm
      rcases List.mem_cons.1 hm with h | h
      · cases h; exact ⟨h1, h2, h3, h4, h5⟩
      · exact h6 l w h
    · intro h
      obtain ⟨h1, h2, h3, h4, h5⟩ := h k v (by simp)
      exact ⟨h1, h2, h3, h4, h5, fun l w hm => h l w (by simp [hm])⟩

theorem has_none {fl : Floats F} {m : Text → Text → Prop} {x : J F} {name : Text} :
    (ms : List (Text × J F)) → (∀ k v, (k, v) ∈ ms → k ≠ name) → ¬ Has fl m x name ms ∧ ¬ HasNot fl m x name ms
  | [], _ => by simp [Has, HasNot]
  | (k, v) :: ms, h => by
    have h1 := has_none (fl := fl) (m := m) (x := x) ms fun l w hm => h l w (by simp [hm])
    have h2 := h k v (by simp)
    rw [Has, HasNot]
    exact ⟨fun e => e.elim (fun e => h2 e.1) h1.1, fun e => e.elim (fun e => h2 e.1) h1.2⟩

/-- The part that is made of a member. -/
def partOf (fl : Floats F) (v : J F) : Part F := ⟨v, sem fl v, semItems fl v⟩

theorem parts_map (fl : Floats F) : (ms : List (Text × J F)) → parts fl ms = ms.map fun p => (p.1, partOf fl p.2)
  | [] => by simp [parts]
  | (k, v) :: ms => by rw [parts, parts_map fl ms]; rfl

theorem get_iff {fl : Floats F} {name : String} {p : Part F} :
    (ms : List (Text × J F)) → (ms.map (·.1)).Nodup →
    (get name (parts fl ms) = some p ↔ ∃ v, (name.toList, v) ∈ ms ∧ p = partOf fl v)
  | [], _ => by simp [get, parts]
  | (k, v) :: ms, hn => by
    simp only [List.map_cons, List.nodup_cons] at hn
    have ih := get_iff (fl := fl) (name := name) (p := p) ms hn.2
    simp only [get, parts, List.find?_cons] at ih ⊢
    by_cases he : k = name.toList
    · subst he
      simp only [beq_self_eq_true, Option.map_some, Option.some.injEq, List.mem_cons, Prod.mk.injEq, true_and]
      constructor
      · intro h; exact ⟨v, .inl rfl, h.symm⟩
      · rintro ⟨w, hw | hw, h⟩
        · rw [h, hw]; rfl
        · exact absurd (List.mem_map.2 ⟨_, hw, rfl⟩) hn.1
    · simp only [show (k == name.toList) = false from by simpa using he, List.mem_cons, Prod.mk.injEq]
      rw [ih]
      constructor
      · rintro ⟨w, hw, h⟩; exact ⟨w, .inr hw, h⟩
      · rintro ⟨w, hw | hw, h⟩
        · exact absurd hw.1.symm he
        · exact ⟨w, hw, h⟩

theorem value_iff {fl : Floats F} {name : String} {v : J F} {ms : List (Text × J F)} (hn : (ms.map (·.1)).Nodup) :
    (get name (parts fl ms)).map (·.value) = some v ↔ (name.toList, v) ∈ ms := by
  constructor
  · intro h
    obtain ⟨p, hp, e⟩ := Option.map_eq_some_iff.1 h
    obtain ⟨w, hw, rfl⟩ := (get_iff ms hn).1 hp
    cases e; exact hw
  · intro h
    rw [(get_iff (p := partOf fl v) ms hn).2 ⟨v, h, rfl⟩]; rfl

/-! ### types -/

theorem ofType_null (n : Text) : OfType n (.null : J F) ↔ n = "null".toList := ⟨fun h => by cases h; rfl, fun h => h ▸ .null⟩
theorem ofType_bool (n : Text) (b : Bool) : OfType n (.bool b : J F) ↔ n = "boolean".toList := ⟨fun h => by cases h; rfl, fun h => h ▸ .bool b⟩
theorem ofType_int (n : Text) (i : Int) : OfType n (.int i : J F) ↔ n = "integer".toList ∨ n = "number".toList :=
  ⟨fun h => by cases h with
    | int => exact .inl rfl
    | intNumber => exact .inr rfl, fun h => h.elim (fun h => h ▸ .int i) (fun h => h ▸ .intNumber i)⟩
theorem ofType_float (n : Text) (f : F) : OfType n (.float f : J F) ↔ n = "number".toList := ⟨fun h => by cases h; rfl, fun h => h ▸ .number f⟩
theorem ofType_str (n : Text) (s : Text) : OfType n (.str s : J F) ↔ n = "string".toList := ⟨fun h => by cases h; rfl, fun h => h ▸ .str s⟩
theorem ofType_arr (n : Text) (s : List (J F)) : OfType n (.arr s : J F) ↔ n = "array".toList := ⟨fun h => by cases h; rfl, fun h => h ▸ .arr s⟩
theorem ofType_obj (n : Text) (s : List (Text × J F)) : OfType n (.obj s : J F) ↔ n = "object".toList := ⟨fun h => by cases h; rfl, fun h => h ▸ .obj s⟩

theorem hasType_iff {n : Text} {t : Ty} (h : tyOfName n = some t) (x : J F) : hasType x t = true ↔ OfType n x := by
  unfold tyOfName at h
  cases x <;> simp only [ofType_null, ofType_bool, ofType_int, ofType_float, ofType_str, ofType_arr, ofType_obj] <;>
    (split at h
     · next e => cases h; subst e; simp [hasType]
     split at h
     · next e => cases h; subst e; simp [hasType]
     split at h
     · next e => cases h; subst e; simp [hasType]
     split at h
     · next e => cases h; subst e; simp [hasType]
     split at h
     · next e => cases h; subst e; simp [hasType]
     split at h
     · next e => cases h; subst e; simp [hasType]
     split at h
     · next e => cases h; subst e; simp [hasType]
     cases h)

theorem tyOfName_some {n : Text} (h : n ∈ typeNames) : ∃ t, tyOfName n = some t := by
  simp only [typeNames, List.map_cons, List.map_nil, List.mem_cons, List.not_mem_nil, or_false] at h
  rcases h with rfl | rfl | rfl | rfl | rfl | rfl | rfl <;> exact ⟨_, rfl⟩

theorem typeAssertion_iff {v : J F} {x : J F}
    (hs : (∃ n ∈ typeNames, v = .str n) ∨ (∃ ns, v = .arr ns ∧ ns ≠ [] ∧ ∀ x ∈ ns, ∃ n ∈ typeNames, x = .str n)) :
    ∃ ts, typeAssertion (some v) = some ts ∧
      (ts.any (hasType x) = true ↔ ∃ name, (v = .str name ∨ ∃ names, v = .arr names ∧ .str name ∈ names) ∧ OfType name x) := by
  rcases hs with ⟨n, hn, rfl⟩ | ⟨ns, rfl, hne, hall⟩
  · obtain ⟨t, ht⟩ := tyOfName_some hn
    refine ⟨[t], by simp [typeAssertion, ht], ?_⟩
    simp only [List.any_cons, List.any_nil, Bool.or_false]
    rw [hasType_iff ht]
    constructor
    · intro h; exact ⟨n, .inl rfl, h⟩
    · rintro ⟨k, hk | ⟨l, hl, _⟩, h⟩
      · cases hk; exact h
      · cases hl
  · have hne' : ns.filterMap nameTy ≠ [] := by
      cases ns with
      | nil => exact absurd rfl hne
      | cons a as =>
        obtain ⟨n, hn, rfl⟩ := hall a (by simp)
        obtain ⟨t, ht⟩ := tyOfName_some hn
        simp [List.filterMap_cons, nameTy, ht]
    refine ⟨ns.filterMap nameTy, by simp [typeAssertion, hne', List.isEmpty_iff], ?_⟩
    simp only [List.any_eq_true, List.mem_filterMap]
    constructor
    · rintro ⟨t, ⟨a, ha, e⟩, h⟩
      obtain ⟨n, hn, rfl⟩ := hall a ha
      exact ⟨n, .inr ⟨ns, rfl, ha⟩, (hasType_iff e x).1 h⟩
    · rintro ⟨k, hk | ⟨l, hl, hm⟩, h⟩
      · cases hk
      · cases hl
        obtain ⟨n, hn, e⟩ := hall _ hm
        cases e
        obtain ⟨t, ht⟩ := tyOfName_some hn
        exact ⟨t, ⟨_, hm, ht⟩, (hasType_iff ht x).2 h⟩

/-! ### the plain keywords -/

theorem asFloat_iff {fl : Floats F} {x : J F} {a : F} : asFloat fl x = some a ↔ NumberIs fl x a := by
  constructor
  · intro h
    cases x <;> simp only [asFloat, Option.some.injEq, reduceCtorEq] at h
    · subst h; exact .int _
    · subst h; exact .float _
  · intro h
    cases h <;> rfl

theorem passes_iff {A : Type} {o : Option A} {test : A → Bool} : Passes o test = true ↔ ∀ a, o = some a → test a = true := by
  cases o <;> simp [Passes]

theorem bind_passes {A B : Type} {o : Option A} {g : A → Option B} {test : B → Bool} :
    Passes (o.bind g) test = true ↔ ∀ a b, o = some a → g a = some b → test b = true := by
  rw [passes_iff]
  constructor
  · intro h a b ha hb; exact h b (by rw [ha]; exact hb)
  · intro h b hb
    obtain ⟨a, ha, hb⟩ := Option.bind_eq_some_iff.1 hb
    exact h a b ha hb

theorem local_iff [DecidableEq F] {fl : Floats F} {l : Local F} {x : J F} : l.accepts fl x = true ↔
    Passes l.types (·.any (hasType x)) = true ∧ Passes l.const (J.eq · x) = true ∧ Passes l.enum (·.any (J.eq · x)) = true ∧
    (∀ s, x = .str s → Passes l.minLength (fun n => decide (n ≤ s.length)) = true ∧ Passes l.maxLength (fun n => decide (s.length ≤ n)) = true) ∧
    (∀ a, asFloat fl x = some a → Passes l.minimum (fl.le · a) = true ∧ Passes l.maximum (fl.le a ·) = true ∧
      Passes l.exclusiveMinimum (fl.lt · a) = true ∧ Passes l.exclusiveMaximum (fl.lt a ·) = true ∧
      Passes l.multipleOf (fl.multiple · a) = true) := by
  unfold Local.accepts
  have hs : ∀ {A : Type} (a : A) (t : A → Bool), Passes (some a) t = t a := fun _ _ => rfl
  have hn : ∀ {A : Type} (t : A → Bool), Passes none t = true := fun _ => rfl
  cases x <;> simp only [asFloat, hs, hn, Bool.and_eq_true, and_assoc, Bool.and_true, Option.some.injEq, forall_eq', J.str.injEq, reduceCtorEq,
    false_imp_iff, implies_true, and_true, true_and]

theorem plain_iff [DecidableEq F] {fl : Floats F} {m : Text → Text → Prop} {x : J F} {ms : List (Text × J F)}
    (hn : (ms.map (·.1)).Nodup) (hs : ∀ k v, (k, v) ∈ ms → KeywordShape k v) {l : Local F} {a b c : List (Sem F)} {d : Option (Sem F)}
    (hb : build fl (parts fl ms) = .object l a b c d) :
    l.accepts fl x = true ↔ ∀ k v, (k, v) ∈ ms → PlainKeyword fl m k v x := by
  unfold build at hb
  simp only [Sem.object.injEq] at hb
  obtain ⟨rfl, -⟩ := hb
  rw [local_iff]
  simp only [bind_passes]
  simp only [passes_iff, value_iff hn]
  constructor
  · rintro ⟨h1, h2, h3, h4, h5⟩ k v hm
    refine ⟨?_, ?_, ?_, ?_, ?_, ?_, ?_, ?_, ?_, ?_, ?_⟩
    · rintro rfl
      obtain ⟨ts, e, h⟩ := typeAssertion_iff (x := x) ((hs _ v hm).type rfl)
      exact h.1 (h1 ts (by rw [(value_iff (fl := fl) hn).2 hm]; exact e))
    · rintro rfl; exact (eq_iff v x).1 (h2 v hm)
    · rintro rfl
      obtain ⟨vs, rfl⟩ := (hs _ v hm).enum rfl
      obtain ⟨c, hc, e⟩ := List.any_eq_true.1 (h3 _ vs hm rfl)
      exact ⟨vs, rfl, c, hc, (eq_iff c x).1 e⟩
    · rintro rfl a b ha hb; exact (h5 b (asFloat_iff.2 hb)).1 v a hm (asFloat_iff.2 ha)
    · rintro rfl a b ha hb; exact (h5 b (asFloat_iff.2 hb)).2.1 v a hm (asFloat_iff.2 ha)
    · rintro rfl a b ha hb; exact (h5 b (asFloat_iff.2 hb)).2.2.1 v a hm (asFloat_iff.2 ha)
    · rintro rfl a b ha hb; exact (h5 b (asFloat_iff.2 hb)).2.2.2.1 v a hm (asFloat_iff.2 ha)
    · rintro rfl a b ha hb; exact (h5 b (asFloat_iff.2 hb)).2.2.2.2 v a hm (asFloat_iff.2 ha)
    · rintro rfl n s rfl rfl
      by_cases hp : 0 ≤ n
      · have := (h4 s rfl).1 _ n.toNat hm (by simp [asSize, hp])
        simp only [decide_eq_true_eq] at this
        omega
      · omega
    · rintro rfl n s rfl rfl
      have hp := (hs _ _ hm).maxLength rfl n rfl
      have := (h4 s rfl).2 _ n.toNat hm (by simp [asSize, hp])
      simp only [decide_eq_true_eq] at this
      omega
    · rintro rfl; exact absurd (by decide) (hs _ v hm).tested
  · intro h
    refine ⟨?_, ?_, ?_, ?_, ?_⟩
    · intro ts e
      cases hv : (get "type" (parts fl ms)).map (·.value) with
      | none => rw [hv] at e; simp [typeAssertion] at e
      | some v =>
        rw [hv] at e
        have hm := (value_iff hn).1 hv
        obtain ⟨ts', e', ht⟩ := typeAssertion_iff (x := x) ((hs _ v hm).type rfl)
        rw [e'] at e; cases e
        exact ht.2 ((h _ v hm).type rfl)
    · intro c hm; exact (eq_iff c x).2 ((h _ c hm).const rfl)
    · intro v vs hm e
      obtain ⟨us, rfl, c, hc, he⟩ := (h _ v hm).enum rfl
      cases e
      exact List.any_eq_true.2 ⟨c, hc, (eq_iff c x).2 he⟩
    · rintro s rfl
      constructor
      · intro v n hm e
        cases v <;> simp only [asSize, reduceCtorEq] at e
        next i =>
        split at e
        · cases e
          have := (h _ _ hm).minLength rfl i s rfl rfl
          simp only [decide_eq_true_eq]; omega
        · cases e
      · intro v n hm e
        cases v <;> simp only [asSize, reduceCtorEq] at e
        next i =>
        split at e
        · cases e
          have := (h _ _ hm).maxLength rfl i s rfl rfl
          simp only [decide_eq_true_eq]; omega
        · cases e
    · intro a ha
      have ha := asFloat_iff.1 ha
      exact ⟨fun v b hm hb => (h _ v hm).minimum rfl b a (asFloat_iff.1 hb) ha,
        fun v b hm hb => (h _ v hm).maximum rfl b a (asFloat_iff.1 hb) ha,
        fun v b hm hb => (h _ v hm).exclusiveMinimum rfl b a (asFloat_iff.1 hb) ha,
        fun v b hm hb => (h _ v hm).exclusiveMaximum rfl b a (asFloat_iff.1 hb) ha,
        fun v b hm hb => (h _ v hm).multipleOf rfl b a (asFloat_iff.1 hb) ha⟩

/-! ### the test is what JSON Schema says -/

theorem testedMembers_shape : (ms : List (Text × J F)) → TestedMembers ms → ∀ k v, (k, v) ∈ ms → KeywordShape k v
  | [], _, _, _, h => nomatch h
  | (l, w) :: ms, ht, k, v, h => by
    rw [TestedMembers] at ht
    rcases List.mem_cons.1 h with h | h
    · cases h; exact ht.1
    · exact testedMembers_shape ms ht.2.2.2 k v h

theorem sem_some (fl : Floats F) : (s : J F) → Tested s → ∃ t, sem fl s = some t
  | .bool b, _ => ⟨_, rfl⟩
  | .obj ms, _ => ⟨_, by rw [sem]⟩
  | .null, h => by simp [Tested] at h
  | .int _, h => by simp [Tested] at h
  | .float _, h => by simp [Tested] at h
  | .str _, h => by simp [Tested] at h
  | .arr _, h => by simp [Tested] at h

theorem sems_ne (fl : Floats F) : (ss : List (J F)) → ss ≠ [] → TestedAll ss → sems fl ss ≠ []
  | [], h, _ => absurd rfl h
  | s :: ss, _, ht => by
    rw [TestedAll] at ht
    obtain ⟨t, e⟩ := sem_some fl s ht.1
    rw [sems, e]; simp

/-- The tests of a list of schemas. -/
def ListTests [DecidableEq F] (fl : Floats F) (m : Text → Text → Prop) (x : J F) (ss : List (J F)) : Prop :=
  (acceptsAll fl x (sems fl ss) = true ↔ AllIn fl m x ss) ∧ (acceptsAny fl x (sems fl ss) = true ↔ AnyIn fl m x ss) ∧
  (acceptsCount fl x (sems fl ss) = 0 ↔ ¬ AnyIn fl m x ss) ∧ (acceptsCount fl x (sems fl ss) = 1 ↔ OneIn fl m x ss)

/-- The tests of a member. -/
structure MemberTests [DecidableEq F] (fl : Floats F) (m : Text → Text → Prop) (x : J F) (k : Text) (v : J F) : Prop where
  items : k = "allOf".toList ∨ k = "anyOf".toList ∨ k = "oneOf".toList →
    semItems fl v ≠ [] ∧ (acceptsAll fl x (semItems fl v) = true ↔ AllOf fl m x v) ∧
      (acceptsAny fl x (semItems fl v) = true ↔ AnyOf fl m x v) ∧ (acceptsCount fl x (semItems fl v) = 1 ↔ OneOf fl m x v)
  not : k = "not".toList → ∃ t, sem fl v = some t ∧ (accepts fl x t = true ↔ Allows fl m x v)

mutual
theorem accepts_iff [DecidableEq F] (fl : Floats F) (m : Text → Text → Prop) (x : J F) :
    (s : J F) → Tested s → ∀ t, sem fl s = some t → (accepts fl x t = true ↔ Allows fl m x s)
  | .bool b, _, t, e => by
    rw [sem] at e; cases e
    rw [accepts, Allows]
  | .obj ms, h, t, e => by
    rw [sem] at e; cases e
    rw [Tested] at h
    have hm := members_tests fl m x ms h.2
    have hs := testedMembers_shape ms h.2
    have hif := has_none (fl := fl) (m := m) (x := x) (name := "if".toList) ms
      (fun k v hk e => (hs k v hk).tested (by rw [e]; decide))
    rw [Allows]
    have : (Keywords fl m x ms ∧ (Has fl m x "if".toList ms → Each fl m x "then".toList ms) ∧
      (HasNot fl m x "if".toList ms → Each fl m x "else".toList ms)) ↔ Keywords fl m x ms :=
      ⟨fun h => h.1, fun h => ⟨h, fun e => absurd e hif.1, fun e => absurd e hif.2⟩⟩
    rw [this, keywords_iff]
    obtain ⟨l, a, b, c, d, hb⟩ : ∃ l a b c d, build fl (parts fl ms) = .object l a b c d := ⟨_, _, _, _, _, rfl⟩
    rw [hb, accepts]
    have hp := plain_iff (m := m) (x := x) h.1 hs hb
    have hparts := hb
    unfold build at hparts
    simp only [Sem.object.injEq] at hparts
    obtain ⟨-, ha, hb', hc, hd⟩ := hparts
    have items : ∀ name : String, (name.toList = "allOf".toList ∨ name.toList = "anyOf".toList ∨ name.toList = "oneOf".toList) →
        ∀ ss, (match get name (parts fl ms) with
          | some p => p.items
          | none => []) = ss →
        (acceptsAll fl x ss = true ↔ ∀ v, (name.toList, v) ∈ ms → AllOf fl m x v) ∧
        ((ss.isEmpty || acceptsAny fl x ss) = true ↔ ∀ v, (name.toList, v) ∈ ms → AnyOf fl m x v) ∧
        ((ss.isEmpty || acceptsCount fl x ss == 1) = true ↔ ∀ v, (name.toList, v) ∈ ms → OneOf fl m x v) := by
      intro name hname ss hss
      cases hg : get name (parts fl ms) with
      | none =>
        have hno : ∀ v, (name.toList, v) ∉ ms := fun v hv => by
          rw [(get_iff (p := partOf fl v) ms h.1).2 ⟨v, hv, rfl⟩] at hg; cases hg
        rw [hg] at hss; cases hss
        refine ⟨?_, ?_, ?_⟩
        · simp only [acceptsAll, true_iff]; exact fun v hv => absurd hv (hno v)
        · simp only [List.isEmpty_nil, Bool.true_or, true_iff]; exact fun v hv => absurd hv (hno v)
        · simp only [List.isEmpty_nil, Bool.true_or, true_iff]; exact fun v hv => absurd hv (hno v)
      | some p =>
        obtain ⟨v, hv, rfl⟩ := (get_iff ms h.1).1 hg
        rw [hg] at hss
        have hss : semItems fl v = ss := hss
        obtain ⟨h1, h2, h3, h4⟩ := (hm _ v hv).items hname
        rw [hss] at h1 h2 h3 h4
        have hu : ∀ w, (name.toList, w) ∈ ms → w = v := fun w hw => by
          have e := (value_iff (fl := fl) h.1).2 hw
          rw [(value_iff (fl := fl) h.1).2 hv] at e
          exact (Option.some.inj e).symm
        have hne : ss.isEmpty = false := by cases ss with
          | nil => exact absurd rfl h1
          | cons _ _ => rfl
        refine ⟨?_, ?_, ?_⟩
        · rw [h2]; exact ⟨fun e w hw => hu w hw ▸ e, fun e => e v hv⟩
        · rw [hne, Bool.false_or, h3]; exact ⟨fun e w hw => hu w hw ▸ e, fun e => e v hv⟩
        · rw [hne, Bool.false_or, beq_iff_eq, h4]; exact ⟨fun e w hw => hu w hw ▸ e, fun e => e v hv⟩
    have hnot : acceptsNot fl x d = true ↔ ∀ v, ("not".toList, v) ∈ ms → ¬ Allows fl m x v := by
      cases hg : get "not" (parts fl ms) with
      | none =>
        rw [hg] at hd; cases hd
        simp only [Option.bind_none, acceptsNot, true_iff]
        intro v hv
        rw [(get_iff (p := partOf fl v) ms h.1).2 ⟨v, hv, rfl⟩] at hg; cases hg
      | some p =>
        obtain ⟨v, hv, rfl⟩ := (get_iff ms h.1).1 hg
        rw [hg] at hd
        have hd : sem fl v = d := hd
        obtain ⟨t, e, ht⟩ := (hm _ v hv).not rfl
        rw [← hd, e]
        simp only [acceptsNot]
        have : (!accepts fl x t) = true ↔ ¬ Allows fl m x v := by rw [← ht]; simp
        rw [this]
        refine ⟨fun e w hw => ?_, fun e => e v hv⟩
        have e' := (value_iff (fl := fl) h.1).2 hw
        rw [(value_iff (fl := fl) h.1).2 hv] at e'
        exact (Option.some.inj e') ▸ e
    have i1 := (items "allOf" (.inl rfl) a ha).1
    have i2 := (items "anyOf" (.inr (.inl rfl)) b hb').2.1
    have i3 := (items "oneOf" (.inr (.inr rfl)) c hc).2.2
    rw [Bool.and_eq_true, Bool.and_eq_true, Bool.and_eq_true, Bool.and_eq_true, hp, i1, i2, i3, hnot]
    constructor
    · rintro ⟨⟨⟨⟨h1, h2⟩, h3⟩, h4⟩, h5⟩ k v hk
      exact ⟨h1 k v hk, (fun e => h2 v (e ▸ hk)), (fun e => h3 v (e ▸ hk)), (fun e => h4 v (e ▸ hk)), (fun e => h5 v (e ▸ hk))⟩
    · intro h
      exact ⟨⟨⟨⟨fun k v hk => (h k v hk).1, fun v hk => (h _ v hk).2.1 rfl⟩, fun v hk => (h _ v hk).2.2.1 rfl⟩,
        fun v hk => (h _ v hk).2.2.2.1 rfl⟩, fun v hk => (h _ v hk).2.2.2.2 rfl⟩
  | .null, h, _, _ => by simp [Tested] at h
  | .int _, h, _, _ => by simp [Tested] at h
  | .float _, h, _, _ => by simp [Tested] at h
  | .str _, h, _, _ => by simp [Tested] at h
  | .arr _, h, _, _ => by simp [Tested] at h
theorem members_tests [DecidableEq F] (fl : Floats F) (m : Text → Text → Prop) (x : J F) :
    (ms : List (Text × J F)) → TestedMembers ms → ∀ k v, (k, v) ∈ ms → MemberTests fl m x k v
  | [], _, _, _, h => nomatch h
  | (l, w) :: ms, ht, k, v, h => by
    rw [TestedMembers] at ht
    rcases List.mem_cons.1 h with h | h
    · have hk : k = l := congrArg (·.1) h
      have hv : v = w := congrArg (·.2) h
      rw [hk, hv]
      refine ⟨fun e => items_tests fl m x w (ht.2.1 e), fun e => ?_⟩
      obtain ⟨t, et⟩ := sem_some fl w (ht.2.2.1 e)
      exact ⟨t, et, accepts_iff fl m x w (ht.2.2.1 e) t et⟩
    · exact members_tests fl m x ms ht.2.2.2 k v h
theorem items_tests [DecidableEq F] (fl : Floats F) (m : Text → Text → Prop) (x : J F) :
    (v : J F) → TestedItems v → semItems fl v ≠ [] ∧ (acceptsAll fl x (semItems fl v) = true ↔ AllOf fl m x v) ∧
      (acceptsAny fl x (semItems fl v) = true ↔ AnyOf fl m x v) ∧ (acceptsCount fl x (semItems fl v) = 1 ↔ OneOf fl m x v)
  | .arr ss, h => by
    rw [TestedItems] at h
    obtain ⟨h1, h2, -, h3⟩ := list_tests fl m x ss h.2
    rw [semItems, AllOf, AnyOf, OneOf]
    exact ⟨sems_ne fl ss h.1 h.2, h1, h2, h3⟩
  | .bool _, h => by simp [TestedItems] at h
  | .null, h => by simp [TestedItems] at h
  | .int _, h => by simp [TestedItems] at h
  | .float _, h => by simp [TestedItems] at h
  | .str _, h => by simp [TestedItems] at h
  | .obj _, h => by simp [TestedItems] at h
theorem list_tests [DecidableEq F] (fl : Floats F) (m : Text → Text → Prop) (x : J F) :
    (ss : List (J F)) → TestedAll ss → ListTests fl m x ss
  | [], _ => by
    unfold ListTests
    rw [sems, AllIn, AnyIn, OneIn]; simp [acceptsAll, acceptsAny, acceptsCount]
  | s :: ss, h => by
    rw [TestedAll] at h
    obtain ⟨t, e⟩ := sem_some fl s h.1
    have h1 := accepts_iff fl m x s h.1 t e
    obtain ⟨a1, a2, a3, a4⟩ := list_tests fl m x ss h.2
    unfold ListTests
    rw [sems, e, AllIn, AnyIn, OneIn]
    simp only [Option.toList_some, List.singleton_append, acceptsAll, acceptsAny, acceptsCount, Bool.and_eq_true, Bool.or_eq_true]
    rw [← h1, ← a1, ← a4, ← a2]
    rw [← a2] at a3
    by_cases ha : accepts fl x t = true
    · refine ⟨Iff.rfl, Iff.rfl, ?_, ?_⟩
      · simp [ha]
      · rw [← a3]; simp only [ha, if_true]; simp; 
    · refine ⟨Iff.rfl, Iff.rfl, ?_, ?_⟩
      · simp only [ha, if_false]; simp [a3]
      · simp [ha]
end

/-! ### the candidates -/

theorem hasType_same {x y : J F} (h : SameJson x y) (t : Ty) : hasType x t = hasType y t := by
  unfold SameJson at h
  cases x <;> cases y <;> first | (simp [J.sorted] at h; done) | (cases t <;> rfl)

theorem asFloat_same {fl : Floats F} {x y : J F} (h : SameJson x y) : asFloat fl x = asFloat fl y := by
  unfold SameJson at h
  cases x <;> cases y <;> first | rfl | (simp [J.sorted] at h; try simp [asFloat, h])

theorem local_same [DecidableEq F] {fl : Floats F} {l : Local F} {x y : J F} (h : SameJson x y) (ha : l.accepts fl x = true) :
    l.accepts fl y = true := by
  rw [local_iff] at ha ⊢
  obtain ⟨h1, h2, h3, h4, h5⟩ := ha
  have he : ∀ c, J.eq c y = J.eq c x := fun c => by unfold J.eq; rw [show x.sorted = y.sorted from h]
  refine ⟨?_, ?_, ?_, ?_, ?_⟩
  · rw [show hasType y = hasType x from funext fun t => (hasType_same h t).symm]; exact h1
  · simpa only [he] using h2
  · simpa only [he] using h3
  · intro s hs; exact h4 s ((same_scalar (show SameJson y x from h.symm)).1 s hs)
  · intro a e; exact h5 a (by rw [asFloat_same h]; exact e)

mutual
theorem accepts_same [DecidableEq F] {fl : Floats F} {x y : J F} (h : SameJson x y) : (t : Sem F) → accepts fl x t = accepts fl y t
  | .boolean b => by rw [accepts, accepts]
  | .object l a b c d => by
    rw [accepts, accepts, acceptsAll_same h a, acceptsAny_same h b, acceptsCount_same h c, acceptsNot_same h d]
    rw [show l.accepts fl x = l.accepts fl y from Bool.eq_iff_iff.2 ⟨local_same h, local_same h.symm⟩]
  | .composite .oneOf ss => by rw [accepts, accepts, acceptsCount_same h ss]
  | .composite .anyOf ss => by rw [accepts, accepts, acceptsAny_same h ss]
  | .composite .allOf ss => by rw [accepts, accepts, acceptsAll_same h ss]
theorem acceptsAll_same [DecidableEq F] {fl : Floats F} {x y : J F} (h : SameJson x y) :
    (ss : List (Sem F)) → acceptsAll fl x ss = acceptsAll fl y ss
  | [] => by rw [acceptsAll, acceptsAll]
  | s :: ss => by rw [acceptsAll, acceptsAll, accepts_same h s, acceptsAll_same h ss]
theorem acceptsAny_same [DecidableEq F] {fl : Floats F} {x y : J F} (h : SameJson x y) :
    (ss : List (Sem F)) → acceptsAny fl x ss = acceptsAny fl y ss
  | [] => by rw [acceptsAny, acceptsAny]
  | s :: ss => by rw [acceptsAny, acceptsAny, accepts_same h s, acceptsAny_same h ss]
theorem acceptsCount_same [DecidableEq F] {fl : Floats F} {x y : J F} (h : SameJson x y) :
    (ss : List (Sem F)) → acceptsCount fl x ss = acceptsCount fl y ss
  | [] => by rw [acceptsCount, acceptsCount]
  | s :: ss => by rw [acceptsCount, acceptsCount, accepts_same h s, acceptsCount_same h ss]
theorem acceptsNot_same [DecidableEq F] {fl : Floats F} {x y : J F} (h : SameJson x y) :
    (o : Option (Sem F)) → acceptsNot fl x o = acceptsNot fl y o
  | none => by rw [acceptsNot, acceptsNot]
  | some s => by rw [acceptsNot, acceptsNot, accepts_same h s]
end

theorem holds_iff [DecidableEq F] {xs : List (J F)} {x : J F} : holds xs x = true ↔ ∃ c ∈ xs, SameJson c x := by
  simp only [holds, List.any_eq_true, eq_iff]

theorem distinct_holds [DecidableEq F] (xs : List (J F)) (x : J F) : holds (distinct xs) x = true ↔ holds xs x = true := by
  have h : ∀ (xs out : List (J F)),
      (holds (xs.foldl (fun out x => if holds out x then out else out ++ [x]) out) x = true ↔ holds out x = true ∨ holds xs x = true) := by
    intro xs
    induction xs with
    | nil => intro out; simp [holds]
    | cons y ys ih =>
      intro out
      rw [List.foldl_cons, ih]
      have hc : holds (y :: ys) x = true ↔ SameJson y x ∨ holds ys x = true := by
        simp only [holds, List.any_cons, Bool.or_eq_true, eq_iff]
      rw [hc]
      by_cases hy : holds out y = true
      · rw [if_pos hy]
        constructor
        · rintro (h | h)
          · exact .inl h
          · exact .inr (.inr h)
        · rintro (h | h | h)
          · exact .inl h
          · obtain ⟨c, hc, e⟩ := holds_iff.1 hy
            exact .inl (holds_iff.2 ⟨c, hc, e.trans h⟩)
          · exact .inr h
      · rw [if_neg hy]
        have : holds (out ++ [y]) x = true ↔ holds out x = true ∨ SameJson y x := by
          simp only [holds, List.any_append, List.any_cons, List.any_nil, Bool.or_false, Bool.or_eq_true, eq_iff]
        rw [this]
        constructor
        · rintro ((h | h) | h)
          · exact .inl h
          · exact .inr (.inl h)
          · exact .inr (.inr h)
        · rintro (h | h | h)
          · exact .inl (.inl h)
          · exact .inl (.inr h)
          · exact .inr h
  have := h xs []
  unfold distinct
  rw [this]; simp [holds]

theorem exactlyOne_holds [DecidableEq F] (ds : List (List (J F))) (x : J F) (hx : holds ds.flatten x = true)
    (hc : ds.countP (fun d => holds d x) = 1) : holds (exactlyOne ds) x = true := by
  have hgood : ∀ y, SameJson y x → ds.countP (fun d => holds d y) = 1 := by
    intro y hy
    rw [← hc]
    refine congrArg (fun p => ds.countP p) (funext fun d => ?_)
    exact Bool.eq_iff_iff.2 (by
      rw [holds_iff, holds_iff]
      exact ⟨fun ⟨c, h1, h2⟩ => ⟨c, h1, h2.trans hy⟩, fun ⟨c, h1, h2⟩ => ⟨c, h1, h2.trans hy.symm⟩⟩)
  have h : ∀ (xs out : List (J F)), (holds out x = true ∨ holds xs x = true) →
      holds (xs.foldl (fun out x => if holds out x then out
        else if ds.countP (fun d => holds d x) == 1 then out ++ [x] else out) out) x = true := by
    intro xs
    induction xs with
    | nil =>
      rintro out (h | h)
      · exact h
      · simp [holds] at h
    | cons y ys ih =>
      intro out h
      rw [List.foldl_cons]
      apply ih
      have hcy : holds (y :: ys) x = true ↔ SameJson y x ∨ holds ys x = true := by
        simp only [holds, List.any_cons, Bool.or_eq_true, eq_iff]
      rw [hcy] at h
      rcases h with h | h | h
      · left
        split
        · exact h
        · split
          · obtain ⟨c, hc, e⟩ := holds_iff.1 h
            exact holds_iff.2 ⟨c, by simp [hc], e⟩
          · exact h
      · left
        split
        · next hy =>
          obtain ⟨c, hc, e⟩ := holds_iff.1 hy
          exact holds_iff.2 ⟨c, hc, e.trans h⟩
        · rw [if_pos (by rw [hgood y h]; rfl)]
          exact holds_iff.2 ⟨y, by simp, h⟩
      · exact .inr h
  exact h _ [] (.inr hx)

/-- The candidates of a schema are the values that pass its test. -/
def Exact [DecidableEq F] (fl : Floats F) (t : Sem F) (cs : List (J F)) : Prop := ∀ x, accepts fl x t = true ↔ holds cs x = true

theorem finites_map [DecidableEq F] (fl : Floats F) : (ss : List (Sem F)) → finites fl ss = ss.map (finite fl)
  | [] => by simp [finites]
  | s :: ss => by rw [finites, finites_map fl ss]; rfl

theorem allSome_exact [DecidableEq F] {fl : Floats F} {x : J F} : (ss : List (Sem F)) →
    (∀ t ∈ ss, ∀ cs, finite fl t = some cs → Exact fl t cs) → ∀ ds, allSome (finites fl ss) = some ds →
    (acceptsAny fl x ss = true ↔ holds ds.flatten x = true) ∧ acceptsCount fl x ss = ds.countP (fun d => holds d x)
  | [], _, ds, h => by
    rw [finites] at h
    simp only [allSome, Option.some.injEq] at h
    subst h
    simp [acceptsAny, acceptsCount, holds]
  | t :: ss, ht, ds, h => by
    rw [finites] at h
    cases hf : finite fl t with
    | none => rw [hf] at h; simp [allSome] at h
    | some cs =>
      rw [hf] at h
      simp only [allSome] at h
      obtain ⟨es, he, rfl⟩ := Option.map_eq_some_iff.1 h
      obtain ⟨h1, h2⟩ := allSome_exact (x := x) ss (fun u hu => ht u (by simp [hu])) es he
      have h3 := ht t (by simp) cs hf x
      rw [acceptsAny, acceptsCount, Bool.or_eq_true, h1, h2, List.countP_cons]
      constructor
      · rw [h3]; simp [holds]
      · by_cases ha : accepts fl x t = true
        · rw [if_pos ha, if_pos (h3.1 ha)]; omega
        · rw [if_neg ha, if_neg (fun e => ha (h3.2 e))]; omega

theorem acceptsAll_mem [DecidableEq F] {fl : Floats F} {x : J F} : (ss : List (Sem F)) → acceptsAll fl x ss = true →
    ∀ t ∈ ss, accepts fl x t = true
  | [], _, _, h => nomatch h
  | s :: ss, ha, t, h => by
    rw [acceptsAll, Bool.and_eq_true] at ha
    rcases List.mem_cons.1 h with rfl | h
    · exact ha.1
    · exact acceptsAll_mem ss ha.2 t h

theorem findSome_mem [DecidableEq F] {fl : Floats F} {cs : List (J F)} : (ss : List (Sem F)) →
    (finites fl ss).findSome? id = some cs → ∃ t ∈ ss, finite fl t = some cs
  | [], h => by rw [finites] at h; simp at h
  | t :: ss, h => by
    rw [finites, List.findSome?_cons] at h
    cases hf : finite fl t with
    | none =>
      rw [hf] at h
      obtain ⟨u, hu, e⟩ := findSome_mem ss h
      exact ⟨u, by simp [hu], e⟩
    | some ds => rw [hf] at h; cases h; exact ⟨t, by simp, hf⟩

theorem filter_exact [DecidableEq F] {fl : Floats F} {t : Sem F} {cs : List (J F)} {test : J F → Bool}
    (he : ∀ x, test x = accepts fl x t) (h : ∀ x, accepts fl x t = true → holds cs x = true) : Exact fl t (cs.filter test) := by
  intro x
  constructor
  · intro hx
    obtain ⟨c, hc, e⟩ := holds_iff.1 (h x hx)
    refine holds_iff.2 ⟨c, List.mem_filter.2 ⟨hc, ?_⟩, e⟩
    rw [he, accepts_same e]; exact hx
  · intro hx
    obtain ⟨c, hc, e⟩ := holds_iff.1 hx
    rw [← accepts_same e, ← he]
    exact (List.mem_filter.1 hc).2

mutual
theorem finite_exact [DecidableEq F] (fl : Floats F) : (t : Sem F) → ∀ cs, finite fl t = some cs → Exact fl t cs
  | .boolean b, cs, h => by rw [finite] at h; cases h
  | .object l a b c d, cs, h => by
    rw [finite] at h
    obtain ⟨ds, hd, rfl⟩ := Option.map_eq_some_iff.1 h
    have ha := finites_exact fl a
    have hb := finites_exact fl b
    have hc := finites_exact fl c
    refine filter_exact (fun _ => rfl) fun x hx => ?_
    rw [accepts] at hx
    simp only [Bool.and_eq_true] at hx
    obtain ⟨⟨⟨⟨h1, h2⟩, h3⟩, h4⟩, -⟩ := hx
    rw [local_iff] at h1
    unfold domain at hd
    split at hd
    · next es heq =>
      cases hd
      split at heq
      · cases heq
      · next hne =>
        obtain ⟨fs, hf, rfl⟩ := Option.map_eq_some_iff.1 heq
        obtain ⟨i1, i2⟩ := allSome_exact (x := x) c hc fs hf
        have hcne : c.isEmpty = false := by
          cases c with
          | nil => rw [finites] at hne; exact absurd rfl hne
          | cons _ _ => rfl
        rw [hcne, Bool.false_or, beq_iff_eq, i2] at h4
        refine exactlyOne_holds fs x ?_ h4
        have : 0 < fs.countP (fun d => holds d x) := by omega
        obtain ⟨d, hd, hx⟩ := List.countP_pos_iff.1 this
        obtain ⟨z, hz, e⟩ := holds_iff.1 hx
        exact holds_iff.2 ⟨z, List.mem_flatten.2 ⟨d, hd, hz⟩, e⟩
    · split at hd
      · next cst he =>
        cases hd
        rw [he] at h1
        simp only [holds, List.any_cons, List.any_nil, Bool.or_false]
        exact h1.2.1
      · split at hd
        · next es he =>
          cases hd
          rw [he] at h1
          exact h1.2.2.1
        · split at hd
          · next es he =>
            cases hd
            obtain ⟨t, ht, hf⟩ := findSome_mem a he
            exact (ha t ht _ hf x).1 (acceptsAll_mem a h2 t ht)
          · split at hd
            · cases hd
            · next hne =>
              obtain ⟨fs, hf, rfl⟩ := Option.map_eq_some_iff.1 hd
              obtain ⟨i1, -⟩ := allSome_exact (x := x) b hb fs hf
              have hbne : b.isEmpty = false := by
                cases b with
                | nil => rw [finites] at hne; exact absurd rfl hne
                | cons _ _ => rfl
              rw [hbne, Bool.false_or, i1] at h3
              rw [distinct_holds]; exact h3
  | .composite .oneOf ss, cs, h => by
    rw [finite] at h
    obtain ⟨ds, hd, rfl⟩ := Option.map_eq_some_iff.1 h
    refine filter_exact (fun x => by rw [accepts]) fun x hx => ?_
    obtain ⟨-, i2⟩ := allSome_exact (x := x) ss (finites_exact fl ss) ds hd
    rw [accepts, beq_iff_eq, i2] at hx
    rw [distinct_holds]
    have : 0 < ds.countP (fun d => holds d x) := by omega
    obtain ⟨d, hd, hx⟩ := List.countP_pos_iff.1 this
    obtain ⟨z, hz, e⟩ := holds_iff.1 hx
    exact holds_iff.2 ⟨z, List.mem_flatten.2 ⟨d, hd, hz⟩, e⟩
  | .composite .anyOf ss, cs, h => by
    rw [finite] at h
    obtain ⟨ds, hd, rfl⟩ := Option.map_eq_some_iff.1 h
    refine filter_exact (fun x => by rw [accepts]) fun x hx => ?_
    obtain ⟨i1, -⟩ := allSome_exact (x := x) ss (finites_exact fl ss) ds hd
    rw [accepts, i1] at hx
    rw [distinct_holds]; exact hx
  | .composite .allOf ss, cs, h => by
    rw [finite] at h
    obtain ⟨ds, hd, rfl⟩ := Option.map_eq_some_iff.1 h
    refine filter_exact (fun x => by rw [accepts]) fun x hx => ?_
    obtain ⟨t, ht, hf⟩ := findSome_mem ss hd
    rw [accepts] at hx
    exact (finites_exact fl ss t ht _ hf x).1 (acceptsAll_mem ss hx t ht)
theorem finites_exact [DecidableEq F] (fl : Floats F) : (ss : List (Sem F)) → ∀ t ∈ ss, ∀ cs, finite fl t = some cs → Exact fl t cs
  | [], _, h => nomatch h
  | s :: ss, t, h => by
    rcases List.mem_cons.1 h with e | h
    · rw [e]; exact finite_exact fl s
    · exact finites_exact fl ss t h
end

end Tombi.Offer
