import Verif.Spec.Deserialize
import Verif.Proofs.DocComplete
/-! The deserializer takes exactly the values that `Holds true` describes. -/
namespace Tombi.Deserializing
open Spec
open Tombi.Reading (Scalar Text)
open Tombi.Serializing (Value Entry Key)

/-! ### from the tree to the document -/

mutual
theorem intoValue_complete (v : DValue Scalar) (h : v.Complete) : ∃ w, intoValue v = Option.some w := by
  match v with
  | .scalar s => exact ⟨_, rfl⟩
  | .incomplete => exact h.elim
  | .array k vs =>
    obtain ⟨ws, hw⟩ := intoValues_complete vs (by simpa only [DValue.Complete] using h)
    exact ⟨_, by rw [intoValue, hw]; rfl⟩
  | .table k es =>
    obtain ⟨ws, hw⟩ := intoEntries_complete es (by simpa only [DValue.Complete] using h)
    exact ⟨_, by rw [intoValue, hw]; rfl⟩
theorem intoValues_complete (vs : List (DValue Scalar)) (h : CompleteItems vs) : ∃ ws, intoValues vs = Option.some ws := by
  match vs with
  | [] => exact ⟨_, rfl⟩
  | v :: vs =>
    simp only [CompleteItems] at h
    obtain ⟨w, hw⟩ := intoValue_complete v h.1
    obtain ⟨ws, hws⟩ := intoValues_complete vs h.2
    exact ⟨_, by rw [intoValues, hw, hws]⟩
theorem intoEntries_complete (es : List (DKey × DValue Scalar)) (h : CompleteEntries es) :
    ∃ ws, intoEntries es = Option.some ws := by
  match es with
  | [] => exact ⟨_, rfl⟩
  | (k, v) :: es =>
    simp only [CompleteEntries] at h
    obtain ⟨w, hw⟩ := intoValue_complete v h.1
    obtain ⟨ws, hws⟩ := intoEntries_complete es h.2
    exact ⟨_, by rw [intoEntries, hw, hws]⟩
end

theorem intoValues_cons {v : DValue Scalar} {vs : List (DValue Scalar)} {ws : List Value}
    (h : intoValues (v :: vs) = Option.some ws) :
    ∃ w ws', ws = w :: ws' ∧ intoValue v = Option.some w ∧ intoValues vs = Option.some ws' := by
  rw [intoValues] at h
  split at h
  · rename_i w ws' hw hws
    cases h
    exact ⟨w, ws', rfl, hw, hws⟩
  · cases h

theorem intoEntries_cons {k : DKey} {v : DValue Scalar} {es : List (DKey × DValue Scalar)} {ws : List Entry}
    (h : intoEntries ((k, v) :: es) = Option.some ws) :
    ∃ w ws', ws = .mk ⟨.bareKey, k⟩ w :: ws' ∧ intoValue v = Option.some w ∧ intoEntries es = Option.some ws' := by
  rw [intoEntries] at h
  split at h
  · rename_i w ws' hw hws
    cases h
    exact ⟨w, ws', rfl, hw, hws⟩
  · cases h

/-- The node of a value of a document. -/
def rootNode : Value → Node Scalar
  | .scalar s => .scalar s
  | .array _ _ => .array
  | .table _ _ => .table

theorem nodeAt_nil {V : DValue Scalar} {w : Value} (h : intoValue V = Option.some w) : nodeAt V [] = Option.some (rootNode w) := by
  cases V with
  | scalar s => rw [intoValue] at h; cases h; rfl
  | array k vs =>
    rw [intoValue] at h
    obtain ⟨ws, -, rfl⟩ := Option.map_eq_some_iff.1 h
    rfl
  | table k es =>
    rw [intoValue] at h
    obtain ⟨ws, -, rfl⟩ := Option.map_eq_some_iff.1 h
    rfl
  | incomplete => rw [intoValue] at h; cases h

theorem present_of {V : DValue Scalar} {w : Value} (h : intoValue V = Option.some w) : Nodes.Present (nodeAt V) := by
  unfold Nodes.Present
  rw [nodeAt_nil h]
  simp

theorem nodeAt_index (k : ArrayKind) (vs : List (DValue Scalar)) (i : Nat) (p : Path) :
    nodeAt (.array k vs) (.index i :: p) = (vs[i]?).bind (nodeAt · p) := by
  unfold nodeAt
  rw [lookup]
  simp only [child]
  cases vs[i]? <;> rfl

/-- The value of a key. -/
def valueOf (es : List (DKey × DValue Scalar)) (k : Text) : Option (DValue Scalar) :=
  (es.find? fun kv => kv.1 == k).map (·.2)

theorem nodeAt_key (kd : TableKind) (es : List (DKey × DValue Scalar)) (k : Text) (p : Path) :
    nodeAt (.table kd es) (.key k :: p) = (valueOf es k).bind (nodeAt · p) := by
  unfold nodeAt valueOf
  rw [lookup]
  simp only [child]
  cases (es.find? fun kv => kv.1 == k).map (·.2) <;> rfl

theorem valueOf_cons (k' : Text) (v : DValue Scalar) (es : List (DKey × DValue Scalar)) (k : Text) :
    valueOf ((k', v) :: es) k = if k' = k then Option.some v else valueOf es k := by
  unfold valueOf
  by_cases h : k' = k
  · rw [List.find?_cons_of_pos (by simpa using h), if_pos h]; rfl
  · rw [List.find?_cons_of_neg (by simpa using h), if_neg h]

theorem valueOf_mem {es : List (DKey × DValue Scalar)} {k : Text} {V : DValue Scalar} (h : valueOf es k = Option.some V) :
    (k, V) ∈ es := by
  induction es with
  | nil => cases h
  | cons e es ih =>
    obtain ⟨k', v⟩ := e
    rw [valueOf_cons] at h
    split at h
    · rename_i hk; cases h; rw [hk]; exact List.mem_cons_self
    · exact List.mem_cons_of_mem _ (ih h)

theorem valueOf_of_mem {es : List (DKey × DValue Scalar)} (hn : (es.map (·.1)).Nodup) {k : Text} {V : DValue Scalar}
    (h : (k, V) ∈ es) : valueOf es k = Option.some V := by
  induction es with
  | nil => cases h
  | cons e es ih =>
    obtain ⟨k', v⟩ := e
    rw [List.map_cons, List.nodup_cons] at hn
    rw [valueOf_cons]
    rcases List.mem_cons.1 h with h | h
    · cases h; exact if_pos rfl
    · rw [if_neg, ih hn.2 h]
      intro he
      subst he
      exact hn.1 (List.mem_map_of_mem (f := (·.1)) h)

theorem entryOf_eq {es : List (DKey × DValue Scalar)} {ws : List Entry} (h : intoEntries es = Option.some ws) (k : Text) :
    entryOf ws k = (valueOf es k).bind intoValue ∧
      ∀ V, valueOf es k = Option.some V → ∃ w, intoValue V = Option.some w := by
  induction es generalizing ws with
  | nil => rw [intoEntries] at h; cases h; exact ⟨rfl, fun V h => by cases h⟩
  | cons e es ih =>
    obtain ⟨k', v⟩ := e
    obtain ⟨w, ws', rfl, hw, hws⟩ := intoEntries_cons h
    rw [entryOf, valueOf_cons]
    by_cases hk : k' = k
    · rw [if_pos hk, if_pos (by exact hk)]
      refine ⟨hw.symm, fun V hV => ?_⟩
      cases hV
      exact ⟨w, hw⟩
    · rw [if_neg hk, if_neg (by exact hk)]
      exact ih hws

theorem intoEntries_value {es : List (DKey × DValue Scalar)} {ws : List Entry} (h : intoEntries es = Option.some ws)
    {k : Text} {V : DValue Scalar} (hm : (k, V) ∈ es) : ∃ w, intoValue V = Option.some w := by
  induction es generalizing ws with
  | nil => cases hm
  | cons e es ih =>
    obtain ⟨k', v⟩ := e
    obtain ⟨w, ws', rfl, hw, hws⟩ := intoEntries_cons h
    rcases List.mem_cons.1 hm with hm | hm
    · cases hm; exact ⟨w, hw⟩
    · exact ih hws hm

theorem intoValues_value {vs : List (DValue Scalar)} {ws : List Value} (h : intoValues vs = Option.some ws)
    {i : Nat} {V : DValue Scalar} (hm : vs[i]? = Option.some V) : ∃ w, intoValue V = Option.some w := by
  induction vs generalizing ws i with
  | nil => simp at hm
  | cons v vs ih =>
    obtain ⟨w, ws', rfl, hw, hws⟩ := intoValues_cons h
    cases i with
    | zero => simp at hm; subst hm; exact ⟨w, hw⟩
    | succ i => exact ih hws (i := i) (by simpa using hm)

/-! ### the parts of a value -/

/-- The nodes of a table with these entries. -/
def OfTable (N : Nodes) (es : List (DKey × DValue Scalar)) : Prop := ∀ k p, N (.key k :: p) = (valueOf es k).bind (nodeAt · p)

/-- The nodes of an array with these elements, from element `i` on. -/
def OfArray (N : Nodes) (i : Nat) (vs : List (DValue Scalar)) : Prop :=
  ∀ j p, N (.index (i + j) :: p) = (vs[j]?).bind (nodeAt · p)

theorem ofTable_some {N : Nodes} {es : List (DKey × DValue Scalar)} (h : OfTable N es) {k : Text} {V : DValue Scalar}
    (hv : valueOf es k = Option.some V) : N.down (.key k) = nodeAt V := by
  funext p
  show N (.key k :: p) = _
  rw [h, hv]; rfl

theorem ofTable_none {N : Nodes} {es : List (DKey × DValue Scalar)} (h : OfTable N es) {k : Text}
    (hv : valueOf es k = Option.none) : ¬ (N.down (.key k)).Present := by
  show ¬ (N (.key k :: []) ≠ _)
  rw [h, hv]; simp

theorem ofArray_cons {N : Nodes} {i : Nat} {V : DValue Scalar} {vs : List (DValue Scalar)} (h : OfArray N i (V :: vs)) :
    N.down (.index i) = nodeAt V ∧ OfArray N (i + 1) vs := by
  refine ⟨?_, fun j p => ?_⟩
  · funext p
    have := h 0 p
    simpa [Nodes.down] using this
  · have := h (j + 1) p
    rw [show i + 1 + j = i + (j + 1) by omega, this]
    simp

theorem ofArray_nil {N : Nodes} {i : Nat} (h : OfArray N i []) : ¬ (N.down (.index i)).Present := by
  have := h 0 []
  simp only [Nat.add_zero, List.getElem?_nil, Option.bind_none] at this
  simpa [Nodes.Present, Nodes.down] using this

theorem ofArray_present {N : Nodes} {vs : List (DValue Scalar)} {ws : List Value} (h : OfArray N 0 vs)
    (hw : intoValues vs = Option.some ws) (i : Nat) : (N.down (.index i)).Present ↔ i < vs.length := by
  have := h i []
  rw [Nat.zero_add] at this
  show N (.index i :: []) ≠ _ ↔ _
  rw [this]
  cases hv : vs[i]? with
  | none => simpa using List.getElem?_eq_none_iff.1 hv
  | some V =>
    obtain ⟨w, hw⟩ := intoValues_value hw hv
    have hi := (List.getElem?_eq_some_iff.1 hv).1
    simp [nodeAt_nil hw, hi]

theorem ofTable_present {N : Nodes} {es : List (DKey × DValue Scalar)} {ws : List Entry} (h : OfTable N es)
    (hw : intoEntries es = Option.some ws) (k : Text) : (N.down (.key k)).Present ↔ ∃ V, valueOf es k = Option.some V := by
  cases hv : valueOf es k with
  | none => simpa using ofTable_none h hv
  | some V =>
    obtain ⟨w, hw⟩ := (entryOf_eq hw k).2 V hv
    rw [ofTable_some h hv]
    simpa using present_of hw

theorem takeAll_iff {vs : List (DValue Scalar)} {ws : List Value} (hw : intoValues vs = Option.some ws)
    {f : Value → Option Val} {P : Val → DValue Scalar → Prop}
    (h : ∀ V ∈ vs, ∀ w x, intoValue V = Option.some w → (f w = Option.some x ↔ P x V)) (xs : List Val) :
    takeAll f ws = Option.some xs ↔
      xs.length = vs.length ∧ ∀ (i : Nat) y V, xs[i]? = Option.some y → vs[i]? = Option.some V → P y V := by
  induction vs generalizing ws xs with
  | nil =>
    rw [intoValues] at hw; cases hw
    rw [takeAll]
    cases xs <;> simp
  | cons V vs ih =>
    obtain ⟨w, ws', rfl, hw1, hws⟩ := intoValues_cons hw
    have ih := fun xs => ih hws (fun V' hV' => h V' (List.mem_cons_of_mem _ hV')) xs
    have h0 := fun x => h V List.mem_cons_self w x hw1
    rw [takeAll]
    constructor
    · intro hx
      split at hx
      · rename_i x xs' h1 h2
        cases hx
        have h2 := (ih xs').1 h2
        refine ⟨by simp [h2.1], fun i y V' hy hV' => ?_⟩
        cases i with
        | zero => simp at hy hV'; subst hy hV'; exact (h0 _).1 h1
        | succ i => exact h2.2 i y V' (by simpa using hy) (by simpa using hV')
      · cases hx
    · rintro ⟨hl, hx⟩
      cases xs with
      | nil => simp at hl
      | cons x xs' =>
        rw [(h0 x).2 (hx 0 x V (by simp) (by simp)), (ih xs').2 ⟨by simpa using hl, fun i y V' hy hV' => hx (i + 1) y V'
          (by simpa using hy) (by simpa using hV')⟩]

/-! ### maps -/

theorem text_lt_of {a b : Text} (h : ¬ a < b) (h' : a ≠ b) : b < a := Std.lt_of_le_of_ne (List.not_lt.1 h) (Ne.symm h')

theorem mem_insertSorted {k : Text} {x : Val} {l : List (Text × Val)} (h : k ∉ l.map (·.1)) (e : Text × Val) :
    e ∈ insertSorted k x l ↔ e = (k, x) ∨ e ∈ l := by
  induction l with
  | nil => simp [insertSorted]
  | cons a l ih =>
    obtain ⟨k', x'⟩ := a
    simp only [List.map_cons, List.mem_cons, not_or] at h
    rw [insertSorted]
    split
    · simp [List.mem_cons]
    · rw [if_neg h.1]
      simp only [List.mem_cons, ih h.2]
      constructor <;> (rintro (h | h | h) <;> simp [h])

theorem sorted_insertSorted {k : Text} {x : Val} {l : List (Text × Val)} (h : l.Pairwise (fun a b => a.1 < b.1))
    (hk : k ∉ l.map (·.1)) : (insertSorted k x l).Pairwise (fun a b => a.1 < b.1) := by
  induction l with
  | nil => simp [insertSorted]
  | cons a l ih =>
    obtain ⟨k', x'⟩ := a
    simp only [List.map_cons, List.mem_cons, not_or] at hk
    rw [List.pairwise_cons] at h
    rw [insertSorted]
    by_cases hlt : k < k'
    · rw [if_pos hlt]
      refine List.pairwise_cons.2 ⟨fun b hb => ?_, List.pairwise_cons.2 h⟩
      rcases List.mem_cons.1 hb with rfl | hb
      · exact hlt
      · exact List.lt_trans hlt (h.1 b hb)
    · rw [if_neg hlt, if_neg hk.1]
      refine List.pairwise_cons.2 ⟨fun b hb => ?_, ih h.2 hk.2⟩
      rcases (mem_insertSorted hk.2 b).1 hb with rfl | hb
      · exact text_lt_of hlt hk.1
      · exact h.1 b hb

theorem sorted_ext {l m : List (Text × Val)} (hl : l.Pairwise (fun a b => a.1 < b.1)) (hm : m.Pairwise (fun a b => a.1 < b.1))
    (h : ∀ e, e ∈ l ↔ e ∈ m) : l = m := by
  have nd : ∀ {l : List (Text × Val)}, l.Pairwise (fun a b => a.1 < b.1) → l.Nodup := fun h =>
    h.imp fun h e => by subst e; exact List.lt_irrefl _ h
  exact List.Perm.eq_of_pairwise (fun a b _ _ h1 h2 => (List.lt_irrefl _ (List.lt_trans h1 h2)).elim) hl hm
    ((List.perm_ext_iff_of_nodup (nd hl) (nd hm)).2 h)

theorem sorted_key {l : List (Text × Val)} (hl : l.Pairwise (fun a b => a.1 < b.1)) {k : Text} {x y : Val}
    (hx : (k, x) ∈ l) (hy : (k, y) ∈ l) : x = y := by
  induction l with
  | nil => cases hx
  | cons a l ih =>
    rw [List.pairwise_cons] at hl
    rcases List.mem_cons.1 hx with hx | hx <;> rcases List.mem_cons.1 hy with hy | hy
    · rw [← hx] at hy; cases hy; rfl
    · have := hl.1 _ hy; rw [← hx] at this; exact (List.lt_irrefl _ this).elim
    · have := hl.1 _ hx; rw [← hy] at this; exact (List.lt_irrefl _ this).elim
    · exact ih hl.2 hx hy

theorem takeEntries_some {es : List (DKey × DValue Scalar)} {ws : List Entry} (hw : intoEntries es = Option.some ws)
    {f : Value → Option Val} {acc r : List (Text × Val)} (hn : (es.map (·.1)).Nodup)
    (hd : ∀ k ∈ es.map (·.1), k ∉ acc.map (·.1)) (ha : acc.Pairwise (fun a b => a.1 < b.1))
    (hr : takeEntries f acc ws = Option.some r) :
    r.Pairwise (fun a b => a.1 < b.1) ∧ ∀ e, e ∈ r ↔
      e ∈ acc ∨ ∃ V w, (e.1, V) ∈ es ∧ intoValue V = Option.some w ∧ f w = Option.some e.2 := by
  induction es generalizing ws acc with
  | nil =>
    rw [intoEntries] at hw; cases hw
    rw [takeEntries] at hr; cases hr
    exact ⟨ha, by simp⟩
  | cons e es ih =>
    obtain ⟨k, v⟩ := e
    obtain ⟨w, ws', rfl, hw1, hws⟩ := intoEntries_cons hw
    rw [List.map_cons, List.nodup_cons] at hn
    rw [takeEntries] at hr
    split at hr
    · rename_i x hx
      have hk : k ∉ acc.map (·.1) := hd k (by simp)
      have := ih hws hn.2 (acc := insertSorted k x acc) (fun k' hk' hm => ?_) (sorted_insertSorted ha hk) hr
      · refine ⟨this.1, fun e => ?_⟩
        rw [this.2 e, mem_insertSorted hk]
        constructor
        · rintro ((rfl | h) | ⟨V, w', hm, h⟩)
          · exact .inr ⟨v, w, List.mem_cons_self, hw1, hx⟩
          · exact .inl h
          · exact .inr ⟨V, w', List.mem_cons_of_mem _ hm, h⟩
        · rintro (h | ⟨V, w', hm, h⟩)
          · exact .inl (.inr h)
          · rcases List.mem_cons.1 hm with hm | hm
            · simp only [Prod.mk.injEq] at hm
              obtain ⟨h1, h2⟩ := hm
              subst h2
              rw [hw1] at h
              obtain ⟨h3, h4⟩ := h
              cases h3
              rw [hx] at h4
              cases h4
              exact .inl (.inl (by rw [← h1]))
            · exact .inr ⟨V, w', hm, h⟩
      · obtain ⟨e, he, rfl⟩ := List.mem_map.1 hm
        rcases (mem_insertSorted hk e).1 he with rfl | he
        · exact hn.1 hk'
        · exact hd e.1 (List.mem_cons_of_mem _ hk') (List.mem_map_of_mem he)
    · cases hr

theorem takeEntries_isSome {es : List (DKey × DValue Scalar)} {ws : List Entry} (hw : intoEntries es = Option.some ws)
    {f : Value → Option Val} (acc : List (Text × Val))
    (h : ∀ k V w, (k, V) ∈ es → intoValue V = Option.some w → ∃ x, f w = Option.some x) :
    ∃ r, takeEntries f acc ws = Option.some r := by
  induction es generalizing ws acc with
  | nil => rw [intoEntries] at hw; cases hw; exact ⟨_, rfl⟩
  | cons e es ih =>
    obtain ⟨k, v⟩ := e
    obtain ⟨w, ws', rfl, hw1, hws⟩ := intoEntries_cons hw
    obtain ⟨x, hx⟩ := h k v w List.mem_cons_self hw1
    rw [takeEntries, hx]
    exact ih hws _ fun k' V w' hm => h k' V w' (List.mem_cons_of_mem _ hm)

theorem takeEntries_iff {es : List (DKey × DValue Scalar)} {ws : List Entry} (hw : intoEntries es = Option.some ws)
    (hn : (es.map (·.1)).Nodup) {N : Nodes} (hN : OfTable N es) {f : Value → Option Val} {P : Val → Nodes → Prop}
    (h : ∀ k V w x, (k, V) ∈ es → intoValue V = Option.some w → (f w = Option.some x ↔ P x (nodeAt V)))
    (m : List (Text × Val)) :
    takeEntries f [] ws = Option.some m ↔ m.Pairwise (fun a b => a.1 < b.1) ∧
      (∀ k, (N.down (.key k)).Present ↔ k ∈ m.map (·.1)) ∧ ∀ e ∈ m, P e.2 (N.down (.key e.1)) := by
  constructor
  · intro hm
    have := takeEntries_some hw hn (by simp) List.Pairwise.nil hm
    have hmem : ∀ e, e ∈ m ↔ ∃ V w, (e.1, V) ∈ es ∧ intoValue V = Option.some w ∧ f w = Option.some e.2 := fun e => by
      simpa using this.2 e
    refine ⟨this.1, fun k => ?_, fun e he => ?_⟩
    · rw [ofTable_present hN hw]
      constructor
      · rintro ⟨V, hV⟩
        obtain ⟨w, hw'⟩ := (entryOf_eq hw k).2 V hV
        -- the value was taken, because everything was
        have hmem' := valueOf_mem hV
        have : ∃ x, f w = Option.some x := by
          clear this hmem h hN hn hV
          revert hm
          generalize ([] : List (Text × Val)) = acc
          intro hm
          induction es generalizing ws acc with
          | nil => cases hmem'
          | cons e es ih =>
            obtain ⟨k', v⟩ := e
            obtain ⟨w1, ws', rfl, hw1, hws⟩ := intoEntries_cons hw
            rw [takeEntries] at hm
            split at hm
            · rename_i x hx
              rcases List.mem_cons.1 hmem' with hmem' | hmem'
              · cases hmem'; rw [hw1] at hw'; cases hw'; exact ⟨x, hx⟩
              · exact ih hws hmem' _ hm
            · cases hm
        obtain ⟨x, hx⟩ := this
        exact List.mem_map.2 ⟨(k, x), (hmem _).2 ⟨V, w, hmem', hw', hx⟩, rfl⟩
      · intro hk
        obtain ⟨e, he, rfl⟩ := List.mem_map.1 hk
        obtain ⟨V, w, h1, -⟩ := (hmem e).1 he
        exact ⟨V, valueOf_of_mem hn h1⟩
    · obtain ⟨V, w, h1, h2, h3⟩ := (hmem e).1 he
      rw [ofTable_some hN (valueOf_of_mem hn h1)]
      exact (h _ V w _ h1 h2).1 h3
  · rintro ⟨h1, h2, h3⟩
    have hval : ∀ k V w, (k, V) ∈ es → intoValue V = Option.some w → ∀ x, (k, x) ∈ m → f w = Option.some x := by
      intro k V w hm hw' x hx
      have := h3 _ hx
      rw [ofTable_some hN (valueOf_of_mem hn hm)] at this
      exact (h k V w x hm hw').2 this
    have hkey : ∀ k V, (k, V) ∈ es → ∃ x, (k, x) ∈ m := by
      intro k V hm
      have := (h2 k).1 ((ofTable_present hN hw k).2 ⟨V, valueOf_of_mem hn hm⟩)
      obtain ⟨e, he, rfl⟩ := List.mem_map.1 this
      exact ⟨e.2, he⟩
    obtain ⟨r, hr⟩ := takeEntries_isSome hw (f := f) [] fun k V w hm hw' => by
      obtain ⟨x, hx⟩ := hkey k V hm
      exact ⟨x, hval k V w hm hw' x hx⟩
    have hs := takeEntries_some hw hn (by simp) List.Pairwise.nil hr
    rw [hr, sorted_ext hs.1 h1 fun e => ?_]
    rw [hs.2 e]
    constructor
    · rintro (h | ⟨V, w, hm, hw', hf⟩)
      · cases h
      · obtain ⟨x, hx⟩ := hkey _ V hm
        have := hval _ V w hm hw' x hx
        rw [hf] at this
        cases this
        exact hx
    · intro he
      have := (h2 e.1).2 (List.mem_map_of_mem he)
      obtain ⟨V, hV⟩ := (ofTable_present hN hw e.1).1 this
      have hm := valueOf_mem hV
      obtain ⟨w, hw'⟩ := intoEntries_value hw hm
      exact .inr ⟨V, w, hm, hw', hval _ V w hm hw' _ he⟩

/-! ### all types -/

/-- Every table has each key once. -/
def Distinct (V : DValue Scalar) : Prop := ∀ p k es, lookup V p = Option.some (.table k es) → (es.map (·.1)).Nodup

theorem distinct_child {V W : DValue Scalar} (h : Distinct V) {s : Spec.Step} (hc : child V s = Option.some W) : Distinct W :=
  fun p k es hp => h (s :: p) k es (by rw [lookup, hc]; exact hp)

theorem distinct_elem {k : ArrayKind} {vs : List (DValue Scalar)} (h : Distinct (.array k vs)) : ∀ W ∈ vs, Distinct W := by
  intro W hW
  obtain ⟨i, hi⟩ := List.mem_iff_getElem?.1 hW
  exact distinct_child h (s := .index i) hi

theorem distinct_entry {k : TableKind} {es : List (DKey × DValue Scalar)} (h : Distinct (.table k es)) :
    ∀ kv ∈ es, Distinct kv.2 := by
  intro kv hkv
  have : valueOf es kv.1 = Option.some kv.2 := valueOf_of_mem (h [] k es rfl) hkv
  exact distinct_child h (s := .key kv.1) this

theorem missing_iff {N : Nodes} (hN : ¬ N.Present) (t : Ty) (x : Val) : missing t = Option.some x ↔ Holds true t x N := by
  have hN' : N [] = Option.none := by simpa [Nodes.Present] using hN
  match t with
  | .option t =>
    rw [missing, Holds]
    constructor
    · intro h; cases h; exact .inl ⟨rfl, hN⟩
    · rintro (⟨rfl, -⟩ | ⟨y, -, h, -⟩)
      · rfl
      · exact (hN h).elim
  | .inline t =>
    rw [missing, Holds]
    have ih := fun x => missing_iff hN t x
    constructor
    · intro h
      split at h
      · rename_i y hy; cases h; exact ⟨y, rfl, (ih y).1 hy⟩
      · cases h
    · rintro ⟨y, rfl, hy⟩
      rw [(ih y).2 hy]
  | .bool | .signed _ | .unsigned _ | .f64 | .string | .char => simp [missing, Holds, Nodes.IsScalar, hN']
  | .offsetDateTime | .localDateTime | .localDate | .localTime => simp [missing, Holds, Nodes.IsScalar, hN']
  | .newtype t => simp [missing, Holds, hN]
  | .seq _ | .tuple _ | .map _ | .struct _ => simp [missing, Holds, hN']
  | .enum _ _ => simp [missing, Holds, Nodes.IsScalar, hN']

theorem cases_array {V : DValue Scalar} {a : Serializing.ArrayKind} {ws : List Value}
    (h : intoValue V = Option.some (.array a ws)) : ∃ k vs, V = .array k vs ∧ intoValues vs = Option.some ws := by
  cases V with
  | scalar s => rw [intoValue] at h; cases h
  | array k vs =>
    rw [intoValue] at h
    obtain ⟨ws', h', he⟩ := Option.map_eq_some_iff.1 h
    cases he
    exact ⟨k, vs, rfl, h'⟩
  | table k es =>
    rw [intoValue] at h
    obtain ⟨ws', -, he⟩ := Option.map_eq_some_iff.1 h
    cases he
  | incomplete => rw [intoValue] at h; cases h

theorem cases_table {V : DValue Scalar} {a : Serializing.TableKind} {ws : List Entry}
    (h : intoValue V = Option.some (.table a ws)) : ∃ k es, V = .table k es ∧ intoEntries es = Option.some ws := by
  cases V with
  | scalar s => rw [intoValue] at h; cases h
  | array k vs =>
    rw [intoValue] at h
    obtain ⟨ws', -, he⟩ := Option.map_eq_some_iff.1 h
    cases he
  | table k es =>
    rw [intoValue] at h
    obtain ⟨ws', h', he⟩ := Option.map_eq_some_iff.1 h
    cases he
    exact ⟨k, es, rfl, h'⟩
  | incomplete => rw [intoValue] at h; cases h

theorem ofArray_nodeAt (k : ArrayKind) (vs : List (DValue Scalar)) : OfArray (nodeAt (.array k vs)) 0 vs := fun j p => by
  rw [Nat.zero_add]; exact nodeAt_index k vs j p

theorem ofTable_nodeAt (k : TableKind) (es : List (DKey × DValue Scalar)) : OfTable (nodeAt (.table k es)) es :=
  fun k' p => nodeAt_key k es k' p

theorem takeDate_iff {parse : Text → Option Scalar} {w : Value} {x : Val} :
    takeDate parse w = Option.some x ↔ ∃ s d, w = .scalar (.string s) ∧ parse s = Option.some d ∧ x = .date d := by
  constructor
  · intro h
    unfold takeDate at h
    split at h
    · rename_i s
      obtain ⟨d, hd, rfl⟩ := Option.map_eq_some_iff.1 h
      exact ⟨s, d, rfl, hd, rfl⟩
    · cases h
  · rintro ⟨s, d, rfl, hd, rfl⟩
    simp [takeDate, hd]

theorem rootNode_scalar {w : Value} {s : Scalar} : rootNode w = .scalar s ↔ w = .scalar s := by
  cases w <;> simp [rootNode]

mutual
theorem fromValue_iff (t : Ty) {V : DValue Scalar} {w : Value} (hV : Distinct V) (hw : intoValue V = Option.some w) (x : Val) :
    fromValue t w = Option.some x ↔ Holds true t x (nodeAt V) := by
  have hroot := nodeAt_nil hw
  have hsc : ∀ s, Nodes.IsScalar (nodeAt V) s ↔ w = .scalar s := fun s => by
    unfold Nodes.IsScalar; rw [hroot, Option.some.injEq, rootNode_scalar]
  match t with
  | .bool =>
    rw [fromValue, Holds]
    simp only [hsc]
    unfold takeBool
    split
    · simp [eq_comm]
    · rename_i h
      simp only [reduceCtorEq, false_iff]
      rintro ⟨b, -, rfl⟩; exact h b rfl
  | .signed bits =>
    rw [fromValue, Holds]
    simp only [hsc]
    unfold takeSigned
    split
    · rename_i n
      split
      · rename_i hn
        simp only [Option.some.injEq, Value.scalar.injEq, Scalar.integer.injEq]
        constructor
        · rintro rfl; exact ⟨n, rfl, hn, rfl⟩
        · rintro ⟨m, rfl, -, rfl⟩; rfl
      · rename_i hn
        simp only [Value.scalar.injEq, Scalar.integer.injEq, reduceCtorEq, false_iff]
        rintro ⟨m, -, hm, rfl⟩; exact hn hm
    · rename_i h; simp; rintro n - - - rfl; exact h n rfl
  | .unsigned bits =>
    rw [fromValue, Holds]
    simp only [hsc]
    unfold takeUnsigned
    split
    · rename_i n
      split
      · rename_i hn
        simp only [Option.some.injEq, Value.scalar.injEq, Scalar.integer.injEq]
        constructor
        · rintro rfl
          refine ⟨n.toNat, rfl, ?_, by omega⟩
          have := hn.2
          have h2 : (n.toNat : Int) = n := by omega
          have h3 : ((2 ^ bits : Nat) : Int) = 2 ^ bits := by norm_cast
          omega
        · rintro ⟨m, rfl, -, rfl⟩; simp
      · rename_i hn
        simp only [Value.scalar.injEq, Scalar.integer.injEq, reduceCtorEq, false_iff]
        rintro ⟨m, -, hm, rfl⟩
        refine hn ⟨by omega, ?_⟩
        have h3 : ((2 ^ bits : Nat) : Int) = 2 ^ bits := by norm_cast
        omega
    · rename_i h; simp; rintro n - - rfl; exact h n rfl
  | .f64 =>
    rw [fromValue, Holds]
    simp only [hsc]
    unfold takeFloat
    split
    · simp [eq_comm]
    · rename_i h; simp; rintro b - rfl; exact h b rfl
  | .string =>
    rw [fromValue, Holds]
    simp only [hsc]
    unfold takeString
    split
    · simp [eq_comm]
    · rename_i h; simp; rintro b - rfl; exact h b rfl
  | .char =>
    rw [fromValue, Holds]
    simp only [hsc]
    unfold takeChar
    split
    · simp [eq_comm]
    · rename_i h; simp; rintro b - rfl; exact h b rfl
  | .offsetDateTime =>
    rw [fromValue, Holds, takeDate_iff]
    simp only [hsc, if_true]
    constructor
    · rintro ⟨s, d, rfl, h, rfl⟩
      unfold parseOffsetDateTime at h
      split at h
      · rename_i d t o h'; cases h; exact ⟨d, t, o, rfl, s, rfl, h'⟩
      · cases h
    · rintro ⟨d, t, o, rfl, s, rfl, h⟩
      exact ⟨s, _, rfl, by unfold parseOffsetDateTime; rw [h], rfl⟩
  | .localDateTime =>
    rw [fromValue, Holds, takeDate_iff]
    simp only [hsc, if_true]
    constructor
    · rintro ⟨s, d, rfl, h, rfl⟩
      unfold parseLocalDateTime at h
      split at h
      · rename_i d t h'; cases h; exact ⟨d, t, rfl, s, rfl, h'⟩
      · cases h
    · rintro ⟨d, t, rfl, s, rfl, h⟩
      exact ⟨s, _, rfl, by unfold parseLocalDateTime; rw [h], rfl⟩
  | .localDate =>
    rw [fromValue, Holds, takeDate_iff]
    simp only [hsc, if_true]
    constructor
    · rintro ⟨s, d, rfl, h, rfl⟩
      unfold parseLocalDate at h
      split at h
      · rename_i d h'; cases h; exact ⟨d, rfl, s, rfl, h'⟩
      · cases h
    · rintro ⟨d, rfl, s, rfl, h⟩
      exact ⟨s, _, rfl, by unfold parseLocalDate; rw [h], rfl⟩
  | .localTime =>
    rw [fromValue, Holds, takeDate_iff]
    simp only [hsc, if_true]
    constructor
    · rintro ⟨s, d, rfl, h, rfl⟩
      unfold parseLocalTime at h
      split at h
      · rename_i d h'; cases h; exact ⟨d, rfl, s, rfl, h'⟩
      · cases h
    · rintro ⟨d, rfl, s, rfl, h⟩
      exact ⟨s, _, rfl, by unfold parseLocalTime; rw [h], rfl⟩
  | .option t =>
    rw [fromValue, Holds, Option.map_eq_some_iff]
    constructor
    · rintro ⟨y, hy, rfl⟩
      exact .inr ⟨y, rfl, present_of hw, (fromValue_iff t hV hw y).1 hy⟩
    · rintro (⟨-, h⟩ | ⟨y, rfl, -, hy⟩)
      · exact (h (present_of hw)).elim
      · exact ⟨y, (fromValue_iff t hV hw y).2 hy, rfl⟩
  | .newtype t =>
    rw [fromValue, Holds, Option.map_eq_some_iff]
    constructor
    · rintro ⟨y, hy, rfl⟩
      exact ⟨y, rfl, present_of hw, (fromValue_iff t hV hw y).1 hy⟩
    · rintro ⟨y, rfl, -, hy⟩
      exact ⟨y, (fromValue_iff t hV hw y).2 hy, rfl⟩
  | .inline t =>
    rw [fromValue, Holds, Option.map_eq_some_iff]
    constructor
    · rintro ⟨y, hy, rfl⟩
      exact ⟨y, rfl, (fromValue_iff t hV hw y).1 hy⟩
    · rintro ⟨y, rfl, hy⟩
      exact ⟨y, (fromValue_iff t hV hw y).2 hy, rfl⟩
  | .seq t =>
    rw [Holds, hroot]
    cases w with
    | scalar s => simp [fromValue, rootNode]
    | table k es => simp [fromValue, rootNode]
    | array a ws =>
      obtain ⟨k, vs, rfl, hws⟩ := cases_array hw
      have hN := ofArray_nodeAt k vs
      simp only [fromValue, Option.map_eq_some_iff, rootNode, true_and, ofArray_present hN hws]
      have key := takeAll_iff hws (f := fromValue t) (P := fun x V => Holds true t x (nodeAt V))
        (fun V hVm w x hw' => fromValue_iff t (distinct_elem hV V hVm) hw' x)
      have hdown : ∀ (i : Nat) V, vs[i]? = Option.some V → Nodes.down (nodeAt (.array k vs)) (.index i) = nodeAt V := by
        intro i V hi; funext p
        show nodeAt (.array k vs) (.index i :: p) = _
        rw [nodeAt_index, hi]; rfl
      constructor
      · rintro ⟨xs, hxs, rfl⟩
        have hxs := (key xs).1 hxs
        refine ⟨xs, rfl, fun i => by rw [hxs.1], fun i y hy => ?_⟩
        have hi : i < vs.length := by rw [← hxs.1]; exact (List.getElem?_eq_some_iff.1 hy).1
        have hvi : vs[i]? = Option.some vs[i] := List.getElem?_eq_getElem hi
        rw [hdown i _ hvi]
        exact hxs.2 i y _ hy hvi
      · rintro ⟨xs, rfl, hlen, hxs⟩
        refine ⟨xs, (key xs).2 ⟨?_, fun i y V hy hi => ?_⟩, rfl⟩
        · have h1 := hlen xs.length
          have h2 := hlen vs.length
          omega
        · rw [← hdown i V hi]; exact hxs i y hy
  | .tuple ts =>
    rw [Holds, hroot]
    cases w with
    | scalar s => simp [fromValue, rootNode]
    | table k es => simp [fromValue, rootNode]
    | array a ws =>
      obtain ⟨k, vs, rfl, hws⟩ := cases_array hw
      have key := fromTuple_iff ts 0 (distinct_elem hV) hws (ofArray_nodeAt k vs)
      simp only [fromValue, Option.map_eq_some_iff, rootNode, true_and, true_or, implies_true]
      constructor
      · rintro ⟨xs, hxs, rfl⟩; exact ⟨xs, rfl, (key xs).1 hxs⟩
      · rintro ⟨xs, rfl, hxs⟩; exact ⟨xs, (key xs).2 hxs, rfl⟩
  | .map t =>
    rw [Holds, hroot]
    cases w with
    | scalar s => simp [fromValue, rootNode]
    | array k es => simp [fromValue, rootNode]
    | table a ws =>
      obtain ⟨k, es, rfl, hws⟩ := cases_table hw
      have key := takeEntries_iff hws (hV [] k es rfl) (ofTable_nodeAt k es) (f := fromValue t)
        (P := fun x N => Holds true t x N) (fun k V w x hm hw' => fromValue_iff t (distinct_entry hV _ hm) hw' x)
      simp only [fromValue, Option.map_eq_some_iff, rootNode, true_and]
      constructor
      · rintro ⟨m, hm, rfl⟩; exact ⟨m, rfl, (key m).1 hm⟩
      · rintro ⟨m, rfl, hm⟩; exact ⟨m, (key m).2 hm, rfl⟩
  | .struct fs =>
    rw [Holds, hroot]
    cases w with
    | scalar s => simp [fromValue, rootNode]
    | array a ws =>
      obtain ⟨k, vs, rfl, hws⟩ := cases_array hw
      have key := fromElements_iff fs 0 (distinct_elem hV) hws (ofArray_nodeAt k vs)
      simp only [fromValue, Option.map_eq_some_iff, rootNode, Option.some.injEq, reduceCtorEq, false_and, false_or, true_and]
      constructor
      · rintro ⟨xs, hxs, rfl⟩; exact ⟨xs, rfl, (key xs).1 hxs⟩
      · rintro ⟨xs, rfl, hxs⟩; exact ⟨xs, (key xs).2 hxs, rfl⟩
    | table a ws =>
      obtain ⟨k, es, rfl, hws⟩ := cases_table hw
      have key := fromFields_iff fs (distinct_entry hV) hws (ofTable_nodeAt k es)
      simp only [fromValue, Option.map_eq_some_iff, rootNode, Option.some.injEq, reduceCtorEq, false_and, and_false, or_false, true_and]
      constructor
      · rintro ⟨xs, hxs, rfl⟩; exact ⟨xs, rfl, (key xs).1 hxs⟩
      · rintro ⟨xs, rfl, hxs⟩; exact ⟨xs, (key xs).2 hxs, rfl⟩
  | .enum us ps =>
    rw [Holds, hroot]
    simp only [hsc]
    cases w with
    | array k es => simp [fromValue, rootNode]
    | scalar s =>
      cases s with
      | string s =>
        simp only [fromValue, rootNode, Option.some.injEq, reduceCtorEq, false_and, and_false, exists_const, or_false,
          Value.scalar.injEq, Scalar.string.injEq]
        constructor
        · intro h
          split at h
          · rename_i hs; cases h; exact .inl ⟨s, rfl, hs, rfl⟩
          · cases h
        · rintro (⟨s', rfl, hs, rfl⟩ | ⟨_, h⟩)
          · rw [if_pos hs]
          · exact h.elim
      | _ => simp [fromValue, rootNode]
    | table a ws =>
      obtain ⟨k, es, rfl, hws⟩ := cases_table hw
      have hN := ofTable_nodeAt k es
      have hnd := hV [] k es rfl
      simp only [rootNode, reduceCtorEq, and_false, exists_const, false_or, true_and, ofTable_present hN hws]
      match es, hws with
      | [], hws =>
        rw [intoEntries] at hws; cases hws
        simp only [fromValue, reduceCtorEq, false_iff]
        rintro ⟨n, y, rfl, h, -⟩
        obtain ⟨V, hV'⟩ := (h n).2 rfl
        cases hV'
      | [(n, v)], hws =>
        obtain ⟨w', ws', rfl, hw', hws'⟩ := intoEntries_cons hws
        rw [intoEntries] at hws'; cases hws'
        have key := fromVariant_iff ps n (distinct_entry hV _ List.mem_cons_self) hw'
        simp only [fromValue, Option.map_eq_some_iff]
        have hdown : Nodes.down (nodeAt (.table k [(n, v)])) (.key n) = nodeAt v :=
          ofTable_some hN (by rw [valueOf_cons, if_pos rfl])
        constructor
        · rintro ⟨y, hy, rfl⟩
          refine ⟨n, y, rfl, fun k' => ?_, by rw [hdown]; exact (key y).1 hy⟩
          rw [valueOf_cons]
          by_cases hk : n = k'
          · simp [hk]
          · rw [if_neg hk]; simp [valueOf, Ne.symm hk]
        · rintro ⟨n', y, rfl, hk, hy⟩
          have : n' = n := by
            obtain ⟨V, hV'⟩ := (hk n').2 rfl
            rw [valueOf_cons] at hV'
            split at hV'
            · rename_i h; exact h.symm
            · cases hV'
          subst this
          rw [hdown] at hy
          exact ⟨y, (key y).2 hy, rfl⟩
      | (n, v) :: (n', v') :: es, hws =>
        obtain ⟨w', ws', rfl, hw', hws'⟩ := intoEntries_cons hws
        obtain ⟨w'', ws'', rfl, hw'', hws''⟩ := intoEntries_cons hws'
        simp only [fromValue, reduceCtorEq, false_iff]
        rintro ⟨m, y, rfl, h, -⟩
        have h1 := (h n).1 ⟨v, by rw [valueOf_cons, if_pos rfl]⟩
        have h2 := (h n').1 ⟨v', valueOf_of_mem hnd (by simp)⟩
        subst h1
        simp [h2] at hnd
theorem fromTuple_iff (ts : List Ty) (i : Nat) {vs : List (DValue Scalar)} {ws : List Value} {N : Nodes}
    (hV : ∀ W ∈ vs, Distinct W) (hws : intoValues vs = Option.some ws) (hN : OfArray N i vs) (xs : List Val) :
    fromTuple ts ws = Option.some xs ↔ HoldsTuple true i ts xs N := by
  match ts with
  | [] => rw [HoldsTuple]; unfold fromTuple; simp [eq_comm]
  | t :: ts =>
    rw [HoldsTuple]
    cases vs with
    | nil =>
      rw [intoValues] at hws; cases hws
      rw [fromTuple]
      simp only [reduceCtorEq, false_iff]
      rintro ⟨y, ys, -, h, -⟩
      exact ofArray_nil hN h
    | cons V vs =>
      obtain ⟨w, ws', rfl, hw, hws'⟩ := intoValues_cons hws
      have hN' := ofArray_cons hN
      have h1 := fun y => fromValue_iff t (hV V List.mem_cons_self) hw y
      have h2 := fun ys => fromTuple_iff ts (i + 1) (fun W h => hV W (List.mem_cons_of_mem _ h)) hws' hN'.2 ys
      rw [fromTuple, hN'.1]
      constructor
      · intro h
        split at h
        · rename_i y ys hy hys
          cases h
          exact ⟨y, ys, rfl, present_of hw, (h1 y).1 hy, (h2 ys).1 hys⟩
        · cases h
      · rintro ⟨y, ys, rfl, -, hy, hys⟩
        rw [(h1 y).2 hy, (h2 ys).2 hys]
theorem fromFields_iff (fs : List (Text × Ty)) {es : List (DKey × DValue Scalar)} {ws : List Entry} {N : Nodes}
    (hV : ∀ kv ∈ es, Distinct kv.2) (hws : intoEntries es = Option.some ws) (hN : OfTable N es) (xs : List (Text × Val)) :
    fromFields fs ws = Option.some xs ↔ HoldsFields true fs xs N := by
  match fs with
  | [] => rw [HoldsFields, fromFields]; simp [eq_comm]
  | (k, t) :: fs =>
    have h2 := fun ys => fromFields_iff fs hV hws hN ys
    have h1 : ∀ y, takeField (fromValue t) (missing t) (entryOf ws k) = Option.some y ↔ Holds true t y (N.down (.key k)) := by
      intro y
      rw [(entryOf_eq hws k).1]
      cases hv : valueOf es k with
      | none => exact missing_iff (ofTable_none hN hv) t y
      | some V =>
        obtain ⟨w, hw⟩ := (entryOf_eq hws k).2 V hv
        rw [Option.bind_some, hw, ofTable_some hN hv]
        exact fromValue_iff t (hV _ (valueOf_mem hv)) hw y
    rw [HoldsFields, fromFields]
    constructor
    · intro h
      split at h
      · rename_i y ys hy hys
        cases h
        exact ⟨y, ys, rfl, (h1 y).1 hy, (h2 ys).1 hys⟩
      · cases h
    · rintro ⟨y, ys, rfl, hy, hys⟩
      rw [(h1 y).2 hy, (h2 ys).2 hys]
theorem fromElements_iff (fs : List (Text × Ty)) (i : Nat) {vs : List (DValue Scalar)} {ws : List Value} {N : Nodes}
    (hV : ∀ W ∈ vs, Distinct W) (hws : intoValues vs = Option.some ws) (hN : OfArray N i vs) (xs : List (Text × Val)) :
    fromElements fs ws = Option.some xs ↔ HoldsElements true i fs xs N := by
  match fs with
  | [] => rw [HoldsElements]; unfold fromElements; simp [eq_comm]
  | (k, t) :: fs =>
    rw [HoldsElements]
    cases vs with
    | nil =>
      rw [intoValues] at hws; cases hws
      rw [fromElements]
      simp only [reduceCtorEq, false_iff]
      rintro ⟨y, ys, -, h, -⟩
      exact ofArray_nil hN h
    | cons V vs =>
      obtain ⟨w, ws', rfl, hw, hws'⟩ := intoValues_cons hws
      have hN' := ofArray_cons hN
      have h1 := fun y => fromValue_iff t (hV V List.mem_cons_self) hw y
      have h2 := fun ys => fromElements_iff fs (i + 1) (fun W h => hV W (List.mem_cons_of_mem _ h)) hws' hN'.2 ys
      rw [fromElements, hN'.1]
      constructor
      · intro h
        split at h
        · rename_i y ys hy hys
          cases h
          exact ⟨y, ys, rfl, present_of hw, (h1 y).1 hy, (h2 ys).1 hys⟩
        · cases h
      · rintro ⟨y, ys, rfl, -, hy, hys⟩
        rw [(h1 y).2 hy, (h2 ys).2 hys]
theorem fromVariant_iff (ps : List (Text × Ty)) (name : Text) {V : DValue Scalar} {w : Value} (hV : Distinct V)
    (hw : intoValue V = Option.some w) (y : Val) :
    fromVariant ps name w = Option.some y ↔ HoldsVariant true ps name y (nodeAt V) := by
  match ps with
  | [] => rw [HoldsVariant, fromVariant]; simp
  | (k, t) :: ps =>
    have h1 := fromValue_iff t hV hw y
    have h2 := fromVariant_iff ps name hV hw y
    rw [HoldsVariant, fromVariant]
    by_cases hk : k = name
    · rw [if_pos hk, h1]; simp [hk]
    · rw [if_neg hk, h2]; simp [hk]
end

end Tombi.Deserializing
