import Verif.Proofs.ValidateValue

/-!
# The type test of schemas
-/

namespace Tombi.Validate
open Tombi.Spec.Validate

theorem hasType_of_same {v w : Value} (h : Same v w) : litHasType (some w) (tyOf v) = true := by
  cases v <;> cases w <;> simp [Same] at h <;> rfl

/-- A valid value has an accepted type. -/
theorem acceptsNode_of_holds {E : Env} {H : Nat → Value → Prop} {sub : Nat → Ty → Bool} {n : Node}
    {v : Value} (hsub : ∀ m, H m v → sub m (tyOf v) = true) (h : NodeHolds E H n v) :
    acceptsNode sub n (tyOf v) = true := by
  obtain ⟨⟨ht, hc, he⟩, _, ha⟩ := h
  simp only [acceptsNode, Bool.and_eq_true]
  refine ⟨⟨⟨⟨⟨?_, ?_⟩, ?_⟩, ?_⟩, ?_⟩, ?_⟩
  · cases hn : n.types with
    | none => rfl
    | some ts =>
      obtain ⟨t, hmt, hv⟩ := ht ts hn
      simp only [List.any_eq_true]
      refine ⟨t, hmt, ?_⟩
      cases v <;> simp only [HasType] at hv
      case int => rcases hv with rfl | rfl <;> rfl
      all_goals subst hv; rfl
  · cases hn : n.const with
    | none => rfl
    | some l =>
      obtain ⟨w, rfl, hs⟩ := hc l hn
      exact hasType_of_same hs
  · cases hn : n.enum with
    | none => rfl
    | some ls =>
      obtain ⟨w, hm, hs⟩ := he ls hn
      simp only [List.any_eq_true]
      exact ⟨_, hm, hasType_of_same hs⟩
  · rw [List.all_eq_true]
    intro m hm
    cases hn : n.allOf with
    | none => rw [hn] at hm; cases hm
    | some ms => rw [hn] at hm; exact hsub m (ha.allOf ms m hn hm)
  · cases hn : n.anyOf with
    | none => rfl
    | some ms =>
      obtain ⟨m, hm, hv⟩ := ha.anyOf ms hn
      simp only [Option.getD_some, Bool.or_eq_true, List.any_eq_true]
      exact .inr ⟨m, hm, hsub m hv⟩
  · cases hn : n.oneOf with
    | none => rfl
    | some ms =>
      obtain ⟨i, m, hm, hv, _⟩ := ha.oneOf ms hn
      simp only [Option.getD_some, Bool.or_eq_true, List.any_eq_true]
      exact .inr ⟨m, List.mem_of_getElem? hm, hsub m hv⟩

theorem acceptsMember_of_holds {E : Env} {H : Nat → Value → Prop} (hH : Meaning E H) (v : Value) :
    ∀ (f m : Nat), H m v → acceptsMember E f m (tyOf v) = true
  | 0, _, _ => rfl
  | f + 1, m, h => by
    simp only [acceptsMember]
    split
    · rfl
    · have := (hH m v).1 h
      cases hs : (E.entry m).schema with
      | always b => simpa [hs] using this
      | obj n =>
        simp only [hs] at this
        exact acceptsNode_of_holds (acceptsMember_of_holds hH v f) this

theorem accepts_of_holds {E : Env} {H : Nat → Value → Prop} (hH : Meaning E H) {f : Nat} {n : Node}
    {v : Value} (h : NodeHolds E H n v) : accepts E f n (tyOf v) = true :=
  acceptsNode_of_holds (acceptsMember_of_holds hH v f) h

/-- What the type test says about the keywords of the object itself. -/
theorem accepts_types {E : Env} {f : Nat} {n : Node} {t : Ty} (h : accepts E f n t = true) :
    (∀ ts, n.types = some ts → t ∈ ts ∨ (t = .int ∧ .num ∈ ts)) ∧
    (∀ l, n.const = some l → litHasType l t = true) ∧
    (∀ ls, n.enum = some ls → ∃ l ∈ ls, litHasType l t = true) := by
  simp only [accepts, acceptsNode, Bool.and_eq_true] at h
  obtain ⟨⟨⟨⟨⟨ht, hc⟩, he⟩, _⟩, _⟩, _⟩ := h
  refine ⟨?_, ?_, ?_⟩
  · intro ts hn
    rw [hn] at ht
    simp only [List.any_eq_true, Bool.or_eq_true, beq_iff_eq, Bool.and_eq_true] at ht
    obtain ⟨a, ha, hat | ⟨h1, h2⟩⟩ := ht
    · subst hat
      exact .inl ha
    · subst h2
      exact .inr ⟨h1, ha⟩
  · intro l hn
    rw [hn] at hc
    exact hc
  · intro ls hn
    rw [hn] at he
    simpa only [List.any_eq_true] using he

/-- The `type` keyword holds for a value of an accepted type. -/
theorem types_of_accepts {E : Env} {f : Nat} {n : Node} {v : Value}
    (h : accepts E f n (tyOf v) = true) : ∀ ts, n.types = some ts → ∃ t ∈ ts, HasType v t := by
  intro ts hn
  rcases (accepts_types h).1 ts hn with h | ⟨h1, h2⟩
  · refine ⟨_, h, ?_⟩
    cases v <;> simp [HasType, tyOf]
  · refine ⟨_, h2, ?_⟩
    cases v <;> simp [tyOf] at h1
    simp [HasType]

theorem lit_num_int {l : Lit} (h : litHasType l .num = true) : litHasType l .int = true := by
  rcases l with _ | (_ | _ | _ | _ | _) <;> simp_all [litHasType]

theorem lit_int_num {l : Lit} (h : litHasType l .int = true) : litHasType l .num = true := by
  rcases l with _ | (_ | _ | _ | _ | _) <;> simp_all [litHasType]

/-- Whatever accepts numbers accepts integers. -/
theorem acceptsNode_num_int {sub : Nat → Ty → Bool} (hsub : ∀ m, sub m .num = true → sub m .int = true)
    {n : Node} (h : acceptsNode sub n .num = true) : acceptsNode sub n .int = true := by
  simp only [acceptsNode, Bool.and_eq_true] at h ⊢
  obtain ⟨⟨⟨⟨⟨h1, h2⟩, h3⟩, h4⟩, h5⟩, h6⟩ := h
  refine ⟨⟨⟨⟨⟨?_, ?_⟩, ?_⟩, ?_⟩, ?_⟩, ?_⟩
  · cases hn : n.types with
    | none => rfl
    | some ts =>
      rw [hn] at h1
      simp only [List.any_eq_true, Bool.or_eq_true, beq_iff_eq, Bool.and_eq_true] at h1 ⊢
      obtain ⟨a, ha, h | h⟩ := h1
      · exact ⟨a, ha, .inr ⟨trivial, h⟩⟩
      · cases h.1
  · cases hn : n.const with
    | none => rfl
    | some l =>
      rw [hn] at h2
      exact lit_num_int h2
  · cases hn : n.enum with
    | none => rfl
    | some ls =>
      rw [hn] at h3
      simp only [List.any_eq_true] at h3 ⊢
      obtain ⟨l, hl, h⟩ := h3
      exact ⟨l, hl, lit_num_int h⟩
  · rw [List.all_eq_true] at h4 ⊢
    exact fun m hm => hsub m (h4 m hm)
  · simp only [Bool.or_eq_true, List.any_eq_true] at h5 ⊢
    rcases h5 with h | ⟨m, hm, h⟩
    · exact .inl h
    · exact .inr ⟨m, hm, hsub m h⟩
  · simp only [Bool.or_eq_true, List.any_eq_true] at h6 ⊢
    rcases h6 with h | ⟨m, hm, h⟩
    · exact .inl h
    · exact .inr ⟨m, hm, hsub m h⟩

theorem acceptsMember_num_int (E : Env) : ∀ (f m : Nat), acceptsMember E f m .num = true →
    acceptsMember E f m .int = true
  | 0, _, _ => rfl
  | f + 1, m, h => by
    simp only [acceptsMember] at h ⊢
    split
    · rfl
    · rename_i hb
      rw [if_neg hb] at h
      cases hs : (E.entry m).schema with
      | always b => simpa [hs] using h
      | obj n =>
        simp only [hs] at h
        exact acceptsNode_num_int (acceptsMember_num_int E f) h

theorem accepts_num_int {E : Env} {f : Nat} {n : Node} (h : accepts E f n .num = true) :
    accepts E f n .int = true := acceptsNode_num_int (acceptsMember_num_int E f) h

/-- A schema of numbers without applicators that accepts integers accepts numbers. -/
theorem accepts_int_num {E : Env} {f : Nat} {n : Node} (hno : NoApplicator n)
    (hnum : n.numberOnly = true) (h : accepts E f n .int = true) : accepts E f n .num = true := by
  obtain ⟨h1, h2, h3⟩ := accepts_types h
  simp only [accepts, acceptsNode, Bool.and_eq_true, hno.1, hno.2.1, hno.2.2]
  refine ⟨⟨⟨⟨⟨?_, ?_⟩, ?_⟩, rfl⟩, rfl⟩, rfl⟩
  · cases hn : n.types with
    | none => rfl
    | some ts =>
      simp only [Node.numberOnly, hn, Bool.and_eq_true, List.contains_iff_mem] at hnum
      simp only [List.any_eq_true]
      exact ⟨.num, hnum.1, rfl⟩
  · cases hn : n.const with
    | none => rfl
    | some l => exact lit_int_num (h2 l hn)
  · cases hn : n.enum with
    | none => rfl
    | some ls =>
      obtain ⟨l, hl, h⟩ := h3 ls hn
      simp only [List.any_eq_true]
      exact ⟨l, hl, lit_int_num h⟩

/-- A view that fits is a view of a schema that accepts the type of the value. -/
theorem accepts_of_fits {E : Env} {f : Nat} {n : Node} {k : Kind} {v : Value}
    (hk : k ∈ views E f n) (hf : k.fits v = true) : accepts E f n (tyOf v) = true := by
  have h := (List.mem_filter.1 hk).2
  cases k <;> cases v <;> simp only [Kind.fits, Bool.false_eq_true] at hf <;>
    first
    | exact h
    | exact accepts_num_int h

theorem kindFor_fits (n : Node) (v : Value) : (kindFor n v).fits v = true := by
  cases v <;> simp only [kindFor] <;> try rfl
  split <;> rfl

theorem kindFor_num {n : Node} {v : Value} (h : kindFor n v = .num) : n.numberOnly = true := by
  cases v <;> simp only [kindFor] at h <;> try cases h
  split at h
  · assumption
  · cases h

theorem kindFor_mem {E : Env} {f : Nat} {n : Node} {v : Value}
    (hnum : n.numberOnly = true → NoApplicator n) (h : accepts E f n (tyOf v) = true) :
    kindFor n v ∈ views E f n := by
  refine List.mem_filter.2 ⟨?_, ?_⟩
  · simp only [kinds]
    split <;> cases v <;> simp [kindFor, *]
  · cases v <;> simp only [kindFor] <;> try exact h
    split
    · rename_i hn
      exact accepts_int_num (hnum hn) hn h
    · exact h

theorem typed_iff (n : Node) : n.typed = true ↔ Asserts n := by
  simp only [Node.typed, Asserts, Bool.or_eq_true, Option.isSome_iff_ne_none, or_assoc]

/-- In the fragment a schema object without typed views does not accept `null`. -/
theorem accepts_null {E : Env} {f : Nat} {byRef strict : Bool} {n : Node}
    (hs : Supported byRef strict n) (ha : Asserts n) (hv : views E f n = []) :
    accepts E f n .null = false := by
  cases hb : accepts E f n .null with
  | false => rfl
  | true =>
    exfalso
    obtain ⟨h1, h2, h3⟩ := accepts_types hb
    have hc : n.const = none := by
      cases hn : n.const with
      | none => rfl
      | some l =>
        obtain ⟨w, rfl, _⟩ := hs.const l hn
        have := h2 _ hn
        cases w <;> simp [litHasType] at this
    have he : n.enum = none := by
      cases hn : n.enum with
      | none => rfl
      | some ls =>
        obtain ⟨l, hl, h⟩ := h3 ls hn
        obtain ⟨w, rfl, _⟩ := hs.enum ls l hn hl
        cases w <;> simp [litHasType] at h
    rcases ha with ha | ha | ha
    case inr.inl => exact ha hc
    case inr.inr => exact ha he
    cases hn : n.types with
    | none => exact ha hn
    | some ts =>
      have hnull : Ty.null ∈ ts := by
        rcases h1 ts hn with h | h
        · exact h
        · cases h.1
      obtain ⟨_, _, hno, t, ht, htn⟩ := hs.null ts hn hnull
      have hacc : ∀ t ∈ ts, accepts E f n t = true := by
        intro t ht
        simp only [accepts, acceptsNode, Bool.and_eq_true, hno.1, hno.2.1, hno.2.2, hc, he, hn]
        refine ⟨⟨⟨⟨⟨?_, by trivial⟩, by trivial⟩, by trivial⟩, by trivial⟩, by trivial⟩
        simp only [List.any_eq_true]
        exact ⟨t, ht, by simp⟩
      have hview : ∀ k ∈ kinds n, k.ty ∈ ts → False := by
        intro k hk hkt
        have : k ∈ views E f n := List.mem_filter.2 ⟨hk, hacc _ hkt⟩
        rw [hv] at this
        cases this
      cases t with
      | null => exact htn rfl
      | bool => exact hview .bool (by simp only [kinds]; split <;> simp) ht
      | obj => exact hview .tbl (by simp only [kinds]; split <;> simp) ht
      | arr => exact hview .arr (by simp only [kinds]; split <;> simp) ht
      | num => exact hview .num (by simp only [kinds]; split <;> simp) ht
      | str => exact hview .str (by simp only [kinds]; split <;> simp) ht
      | int =>
        have : n.numberOnly = false := by
          simp [Node.numberOnly, hn, ht]
        exact hview .int (by simp [kinds, this]) ht

end Tombi.Validate
