import Verif.Proofs.Deserialize
/-! From the strict meaning to the loose one, and from written data to its meaning. -/
namespace Tombi.Deserializing
open Spec
open Tombi.Reading (Scalar Text)
open Tombi.Serializing (Value Entry Key Data dataNodes fieldNodes)

mutual
theorem loose_of_strict (t : Ty) (hd : NoDates t) {x : Val} {N : Nodes} (h : Holds false t x N) : Holds true t x N := by
  match t with
  | .bool | .signed _ | .unsigned _ | .f64 | .string | .char => simpa only [Holds] using h
  | .offsetDateTime | .localDateTime | .localDate | .localTime => exact (hd : False).elim
  | .option t =>
    rw [Holds] at h ⊢
    rw [NoDates] at hd
    rcases h with h | ⟨y, h1, h2, h3⟩
    · exact .inl h
    · exact .inr ⟨y, h1, h2, loose_of_strict t hd h3⟩
  | .newtype t =>
    rw [Holds] at h ⊢
    rw [NoDates] at hd
    obtain ⟨y, h1, h2, h3⟩ := h
    exact ⟨y, h1, h2, loose_of_strict t hd h3⟩
  | .inline t =>
    rw [Holds] at h ⊢
    rw [NoDates] at hd
    obtain ⟨y, h1, h3⟩ := h
    exact ⟨y, h1, loose_of_strict t hd h3⟩
  | .seq t =>
    rw [Holds] at h ⊢
    rw [NoDates] at hd
    obtain ⟨xs, h1, h2, h3, h4⟩ := h
    exact ⟨xs, h1, h2, h3, fun i y hy => loose_of_strict t hd (h4 i y hy)⟩
  | .tuple ts =>
    rw [Holds] at h ⊢
    rw [NoDates] at hd
    obtain ⟨xs, h1, h2, h3, h4⟩ := h
    exact ⟨xs, h1, h2, fun _ _ => .inl rfl, loose_tuple ts hd h4⟩
  | .map t =>
    rw [Holds] at h ⊢
    rw [NoDates] at hd
    obtain ⟨xs, h1, h2, h3, h4, h5⟩ := h
    exact ⟨xs, h1, h2, h3, h4, fun e he => loose_of_strict t hd (h5 e he)⟩
  | .struct fs =>
    rw [Holds] at h ⊢
    rw [NoDates] at hd
    obtain ⟨es, h1, h2 | h2⟩ := h
    · exact ⟨es, h1, .inl ⟨h2.1, loose_fields fs hd h2.2⟩⟩
    · cases h2.1
  | .enum us ps =>
    rw [Holds] at h ⊢
    rw [NoDates] at hd
    rcases h with h | ⟨k, y, h1, h2, h3, h4⟩
    · exact .inl h
    · exact .inr ⟨k, y, h1, h2, h3, loose_variant ps hd h4⟩
theorem loose_tuple (ts : List Ty) (hd : NoDatesAll ts) {i : Nat} {xs : List Val} {N : Nodes} (h : HoldsTuple false i ts xs N) :
    HoldsTuple true i ts xs N := by
  match ts with
  | [] => simpa only [HoldsTuple] using h
  | t :: ts =>
    rw [HoldsTuple] at h ⊢
    rw [NoDatesAll] at hd
    obtain ⟨y, ys, h1, h2, h3, h4⟩ := h
    exact ⟨y, ys, h1, h2, loose_of_strict t hd.1 h3, loose_tuple ts hd.2 h4⟩
theorem loose_fields (fs : List (Text × Ty)) (hd : NoDatesIn fs) {es : List (Text × Val)} {N : Nodes}
    (h : HoldsFields false fs es N) : HoldsFields true fs es N := by
  match fs with
  | [] => simpa only [HoldsFields] using h
  | (k, t) :: fs =>
    rw [HoldsFields] at h ⊢
    rw [NoDatesIn] at hd
    obtain ⟨y, ys, h1, h2, h3⟩ := h
    exact ⟨y, ys, h1, loose_of_strict t hd.1 h2, loose_fields fs hd.2 h3⟩
theorem loose_variant (ps : List (Text × Ty)) (hd : NoDatesIn ps) {k : Text} {y : Val} {N : Nodes}
    (h : HoldsVariant false ps k y N) : HoldsVariant true ps k y N := by
  match ps with
  | [] => simpa only [HoldsVariant] using h
  | (k', t) :: ps =>
    rw [HoldsVariant] at h ⊢
    rw [NoDatesIn] at hd
    rcases h with h | h
    · exact .inl ⟨h.1, loose_of_strict t hd.1 h.2⟩
    · exact .inr ⟨h.1, loose_variant ps hd.2 h.2⟩
end

/-! ### the nodes of data -/

theorem toDatas_eq (xs : List Val) : toDatas xs = xs.map toData := by
  induction xs with
  | nil => rfl
  | cons x xs ih => rw [toDatas, ih]; rfl

theorem toFields_eq (es : List (Text × Val)) : toFields es = es.map fun e => (e.1, toData e.2) := by
  induction es with
  | nil => rfl
  | cons e es ih => obtain ⟨k, x⟩ := e; rw [toFields, ih]; rfl

theorem mem_below {s : Spec.Step} {l : List (Path × Node Scalar)} {p : Path} {n : Node Scalar} :
    (p, n) ∈ below [s] l ↔ ∃ q, p = s :: q ∧ (q, n) ∈ l := by
  unfold below
  rw [List.mem_map]
  constructor
  · rintro ⟨⟨q, m⟩, hm, he⟩
    simp only [List.cons_append, List.nil_append, Prod.mk.injEq] at he
    obtain ⟨rfl, rfl⟩ := he
    exact ⟨q, rfl, hm⟩
  · rintro ⟨q, rfl, hm⟩
    exact ⟨(q, n), hm, rfl⟩

theorem mem_itemNodes {ds : List Data} {j : Nat} {p : Path} {n : Node Scalar} :
    (p, n) ∈ Serializing.itemNodes j ds ↔ ∃ i d q, ds[i]? = Option.some d ∧ p = .index (j + i) :: q ∧ (q, n) ∈ dataNodes d := by
  induction ds generalizing j with
  | nil => simp [Serializing.itemNodes]
  | cons d ds ih =>
    rw [Serializing.itemNodes, List.mem_append, mem_below, ih]
    constructor
    · rintro (⟨q, rfl, h⟩ | ⟨i, d', q, hd, rfl, h⟩)
      · exact ⟨0, d, q, by simp, rfl, h⟩
      · exact ⟨i + 1, d', q, by simpa using hd, by rw [show j + (i + 1) = j + 1 + i by omega], h⟩
    · rintro ⟨i, d', q, hd, rfl, h⟩
      cases i with
      | zero => simp at hd; subst hd; exact .inl ⟨q, rfl, h⟩
      | succ i => exact .inr ⟨i, d', q, by simpa using hd, by rw [show j + (i + 1) = j + 1 + i by omega], h⟩

theorem mem_fieldNodes {fs : List (Text × Data)} {p : Path} {n : Node Scalar} :
    (p, n) ∈ fieldNodes fs ↔ ∃ k d q, (k, d) ∈ fs ∧ p = .key k :: q ∧ (q, n) ∈ dataNodes d := by
  induction fs with
  | nil => simp [fieldNodes]
  | cons f fs ih =>
    obtain ⟨k, d⟩ := f
    rw [fieldNodes, List.mem_append, mem_below, ih]
    constructor
    · rintro (⟨q, rfl, h⟩ | ⟨k', d', q, hd, rfl, h⟩)
      · exact ⟨k, d, q, List.mem_cons_self, rfl, h⟩
      · exact ⟨k', d', q, List.mem_cons_of_mem _ hd, rfl, h⟩
    · rintro ⟨k', d', q, hd, rfl, h⟩
      rcases List.mem_cons.1 hd with hd | hd
      · cases hd; exact .inl ⟨q, rfl, h⟩
      · exact .inr ⟨k', d', q, hd, rfl, h⟩

theorem written_node (x : Val) (h : Written x) : ∃ n, ([], n) ∈ dataNodes (toData x) := by
  match x with
  | .bool _ | .int _ | .float _ | .string _ | .char _ | .date _ | .unitVariant _ => exact ⟨_, by rw [toData, dataNodes]; simp; rfl⟩
  | .uint _ => exact ⟨_, by rw [toData, dataNodes]; simp; rfl⟩
  | .none => exact (h : False).elim
  | .some x => rw [toData, dataNodes]; exact written_node x h
  | .newtype x => rw [toData]; exact written_node x h
  | .inline x => rw [toData, dataNodes]; exact written_node x h
  | .seq _ | .tuple _ => exact ⟨.array, by rw [toData, dataNodes]; exact List.mem_cons_self⟩
  | .map _ | .struct _ => exact ⟨.table, by rw [toData, dataNodes]; exact List.mem_cons_self⟩
  | .variant _ _ => exact ⟨.table, by rw [toData, dataNodes]; exact List.mem_cons_self⟩

/-- These are the nodes of a value. -/
def Says (N : Nodes) (x : Val) : Prop := ∀ p n, N p = Option.some n ↔ (p, n) ∈ dataNodes (toData x)

theorem says_present {N : Nodes} {x : Val} (h : Says N x) (hx : Written x) : N.Present := by
  obtain ⟨n, hn⟩ := written_node x hx
  unfold Nodes.Present
  rw [(h [] n).2 hn]
  simp

theorem says_scalar {N : Nodes} {x : Val} {s : Scalar} (h : Says N x) (hs : dataNodes (toData x) = [([], .scalar s)]) :
    N.IsScalar s := (h [] _).2 (by rw [hs]; exact List.mem_cons_self)

/-- The nodes of an array with these elements, from element `i` on. -/
def SaysItems (N : Nodes) (i : Nat) (xs : List Val) : Prop := ∀ (j : Nat) y, xs[j]? = Option.some y → Says (N.down (.index (i + j))) y

theorem says_seq {N : Nodes} {x : Val} {xs : List Val} (h : Says N x) (hx : toData x = .seq (toDatas xs))
    (hw : ∀ y ∈ xs, Written y) :
    N [] = Option.some .array ∧ SaysItems N 0 xs ∧ ∀ i, (N.down (.index i)).Present ↔ i < xs.length := by
  have h' : ∀ p n, N p = Option.some n ↔ (p, n) = ([], .array) ∨
      ∃ i y q, xs[i]? = Option.some y ∧ p = .index i :: q ∧ (q, n) ∈ dataNodes (toData y) := by
    intro p n
    rw [h p n, hx, dataNodes, List.mem_cons, mem_itemNodes, toDatas_eq]
    refine or_congr Iff.rfl ⟨?_, ?_⟩
    · rintro ⟨i, d, q, hd, rfl, hq⟩
      rw [List.getElem?_map, Option.map_eq_some_iff] at hd
      obtain ⟨y, hy, rfl⟩ := hd
      exact ⟨i, y, q, hy, by rw [Nat.zero_add], hq⟩
    · rintro ⟨i, y, q, hy, rfl, hq⟩
      exact ⟨i, toData y, q, by rw [List.getElem?_map, hy]; rfl, by rw [Nat.zero_add], hq⟩
  have hs : SaysItems N 0 xs := by
    intro j y hy p n
    show N (.index (0 + j) :: p) = _ ↔ _
    rw [h', Nat.zero_add]
    constructor
    · rintro (h | ⟨i, y', q, hy', he, hq⟩)
      · cases h
      · cases he; rw [hy] at hy'; cases hy'; exact hq
    · intro hq; exact .inr ⟨j, y, p, hy, rfl, hq⟩
  refine ⟨(h' _ _).2 (.inl rfl), hs, fun i => ⟨fun hp => ?_, fun hi => ?_⟩⟩
  · cases hn : N (.index i :: []) with
    | none => exact (hp hn).elim
    | some n =>
      rcases (h' _ _).1 hn with h | ⟨i', y, q, hy, he, -⟩
      · cases h
      · cases he; exact (List.getElem?_eq_some_iff.1 hy).1
  · have hy : xs[i]? = Option.some xs[i] := List.getElem?_eq_getElem hi
    have := hs i _ hy
    rw [Nat.zero_add] at this
    exact says_present this (hw _ (List.getElem_mem hi))

theorem nodup_value {es : List (Text × Val)} (hn : (es.map (·.1)).Nodup) {k : Text} {x y : Val} (hx : (k, x) ∈ es)
    (hy : (k, y) ∈ es) : x = y := by
  induction es with
  | nil => cases hx
  | cons a es ih =>
    rw [List.map_cons, List.nodup_cons] at hn
    rcases List.mem_cons.1 hx with hx | hx <;> rcases List.mem_cons.1 hy with hy | hy
    · rw [← hx] at hy; cases hy; rfl
    · exact (hn.1 (by rw [← hx]; exact List.mem_map_of_mem (f := (·.1)) hy)).elim
    · exact (hn.1 (by rw [← hy]; exact List.mem_map_of_mem (f := (·.1)) hx)).elim
    · exact ih hn.2 hx hy

theorem says_record {N : Nodes} {x : Val} {es : List (Text × Val)} (h : Says N x) (hx : toData x = .record (toFields es))
    (hn : (es.map (·.1)).Nodup) :
    N [] = Option.some .table ∧ (∀ e ∈ es, Says (N.down (.key e.1)) e.2) ∧
      ∀ k, (N.down (.key k)).Present → k ∈ es.map (·.1) := by
  have h' : ∀ p n, N p = Option.some n ↔ (p, n) = ([], .table) ∨
      ∃ k y q, (k, y) ∈ es ∧ p = .key k :: q ∧ (q, n) ∈ dataNodes (toData y) := by
    intro p n
    rw [h p n, hx, dataNodes, List.mem_cons, mem_fieldNodes, toFields_eq]
    refine or_congr Iff.rfl ⟨?_, ?_⟩
    · rintro ⟨k, d, q, hd, rfl, hq⟩
      obtain ⟨e, he, h1⟩ := List.mem_map.1 hd
      cases h1
      exact ⟨e.1, e.2, q, he, rfl, hq⟩
    · rintro ⟨k, y, q, hy, rfl, hq⟩
      exact ⟨k, toData y, q, List.mem_map.2 ⟨(k, y), hy, rfl⟩, rfl, hq⟩
  refine ⟨(h' _ _).2 (.inl rfl), fun e he p n => ?_, fun k hp => ?_⟩
  · show N (.key e.1 :: p) = _ ↔ _
    rw [h']
    constructor
    · rintro (h | ⟨k, y, q, hy, h, hq⟩)
      · cases h
      · cases h
        have : e.2 = y := nodup_value hn he hy
        rw [this]; exact hq
    · intro hq; exact .inr ⟨e.1, e.2, p, he, rfl, hq⟩
  · cases hn : N (.key k :: []) with
    | none => exact (hp hn).elim
    | some n =>
      rcases (h' _ _).1 hn with h | ⟨k', y, q, hy, he, -⟩
      · cases h
      · cases he; exact List.mem_map_of_mem (f := (·.1)) hy

theorem isTuple_written {ts : List Ty} {xs : List Val} (h : IsTuple ts xs) : xs.length = ts.length ∧ ∀ y ∈ xs, Written y := by
  induction ts generalizing xs with
  | nil => rw [IsTuple] at h; subst h; simp
  | cons t ts ih =>
    rw [IsTuple] at h
    obtain ⟨y, ys, rfl, h1, -, h3⟩ := h
    have := ih h3
    refine ⟨by simp [this.1], fun z hz => ?_⟩
    rcases List.mem_cons.1 hz with rfl | hz
    · exact h1
    · exact this.2 z hz

theorem isStruct_names {fs : List (Text × Ty)} {es : List (Text × Val)} (h : IsStruct fs es) : es.map (·.1) = fs.map (·.1) := by
  induction fs generalizing es with
  | nil => rw [IsStruct] at h; subst h; rfl
  | cons f fs ih =>
    obtain ⟨k, t⟩ := f
    rw [IsStruct] at h
    obtain ⟨y, ys, rfl, -, h3⟩ := h
    simp [ih h3]

theorem sorted_nodup {es : List (Text × Val)} (h : es.Pairwise (fun a b => a.1 < b.1)) : (es.map (·.1)).Nodup :=
  List.pairwise_map.2 (h.imp fun h e => by rw [e] at h; exact List.lt_irrefl _ h)

mutual
theorem holds_of_says (t : Ty) {x : Val} (hx : Is t x) {N : Nodes} (h : Says N x) : Holds false t x N := by
  match t with
  | .bool =>
    rw [Is] at hx; obtain ⟨b, rfl⟩ := hx; rw [Holds]
    exact ⟨b, rfl, says_scalar h (by rw [toData, dataNodes])⟩
  | .signed bits =>
    rw [Is] at hx; obtain ⟨b, rfl, hb⟩ := hx; rw [Holds]
    exact ⟨b, rfl, hb, says_scalar h (by rw [toData, dataNodes])⟩
  | .unsigned bits =>
    rw [Is] at hx; obtain ⟨b, rfl, hb⟩ := hx; rw [Holds]
    exact ⟨b, rfl, hb, says_scalar h (by rw [toData, dataNodes])⟩
  | .f64 =>
    rw [Is] at hx; obtain ⟨b, rfl⟩ := hx; rw [Holds]
    exact ⟨b, rfl, says_scalar h (by rw [toData, dataNodes])⟩
  | .string =>
    rw [Is] at hx; obtain ⟨b, rfl⟩ := hx; rw [Holds]
    exact ⟨b, rfl, says_scalar h (by rw [toData, dataNodes])⟩
  | .char =>
    rw [Is] at hx; obtain ⟨b, rfl⟩ := hx; rw [Holds]
    exact ⟨b, rfl, says_scalar h (by rw [toData, dataNodes])⟩
  | .offsetDateTime =>
    rw [Is] at hx; obtain ⟨d, t, o, rfl⟩ := hx; rw [Holds]
    exact ⟨d, t, o, rfl, by rw [if_neg (by simp)]; exact says_scalar h (by rw [toData, dataNodes])⟩
  | .localDateTime =>
    rw [Is] at hx; obtain ⟨d, t, rfl⟩ := hx; rw [Holds]
    exact ⟨d, t, rfl, by rw [if_neg (by simp)]; exact says_scalar h (by rw [toData, dataNodes])⟩
  | .localDate =>
    rw [Is] at hx; obtain ⟨d, rfl⟩ := hx; rw [Holds]
    exact ⟨d, rfl, by rw [if_neg (by simp)]; exact says_scalar h (by rw [toData, dataNodes])⟩
  | .localTime =>
    rw [Is] at hx; obtain ⟨d, rfl⟩ := hx; rw [Holds]
    exact ⟨d, rfl, by rw [if_neg (by simp)]; exact says_scalar h (by rw [toData, dataNodes])⟩
  | .option t =>
    rw [Is] at hx; rw [Holds]
    rcases hx with rfl | ⟨y, rfl, hw, hy⟩
    · refine .inl ⟨rfl, fun hp => hp ?_⟩
      cases hn : N [] with
      | none => rfl
      | some n => have := (h _ _).1 hn; rw [toData, dataNodes] at this; cases this
    · have h' : Says N y := fun p n => by rw [h p n, toData, dataNodes]
      exact .inr ⟨y, rfl, says_present h' hw, holds_of_says t hy h'⟩
  | .newtype t =>
    rw [Is] at hx; rw [Holds]
    obtain ⟨y, rfl, hw, hy⟩ := hx
    have h' : Says N y := fun p n => by rw [h p n, toData]
    exact ⟨y, rfl, says_present h' hw, holds_of_says t hy h'⟩
  | .inline t =>
    rw [Is] at hx; rw [Holds]
    obtain ⟨y, rfl, hy⟩ := hx
    have h' : Says N y := fun p n => by rw [h p n, toData, dataNodes]
    exact ⟨y, rfl, holds_of_says t hy h'⟩
  | .seq t =>
    rw [Is] at hx; rw [Holds]
    obtain ⟨xs, rfl, hxs⟩ := hx
    obtain ⟨h1, h2, h3⟩ := says_seq h (by rw [toData]) fun y hy => (hxs y hy).1
    refine ⟨xs, rfl, h1, h3, fun i y hy => holds_of_says t (hxs y (List.mem_of_getElem? hy)).2 ?_⟩
    have := h2 i y hy
    rwa [Nat.zero_add] at this
  | .tuple ts =>
    rw [Is] at hx; rw [Holds]
    obtain ⟨xs, rfl, hxs⟩ := hx
    obtain ⟨h1, h2, h3⟩ := says_seq h (by rw [toData]) (isTuple_written hxs).2
    refine ⟨xs, rfl, h1, fun i hi => .inr ?_, tuple_of_says ts hxs h2⟩
    rw [← (isTuple_written hxs).1]
    exact (h3 i).1 hi
  | .map t =>
    rw [Is] at hx; rw [Holds]
    obtain ⟨es, rfl, hs, hes⟩ := hx
    obtain ⟨h1, h2, h3⟩ := says_record h (by rw [toData]) (sorted_nodup hs)
    refine ⟨es, rfl, h1, hs, fun k => ⟨h3 k, fun hk => ?_⟩, fun e he => holds_of_says t (hes e he).2 (h2 e he)⟩
    obtain ⟨e, he, rfl⟩ := List.mem_map.1 hk
    exact says_present (h2 e he) (hes e he).1
  | .struct fs =>
    rw [Is] at hx; rw [Holds]
    obtain ⟨es, rfl, hn, hes⟩ := hx
    obtain ⟨h1, h2, -⟩ := says_record h (by rw [toData]) (by rw [isStruct_names hes]; exact hn)
    exact ⟨es, rfl, .inl ⟨h1, fields_of_says fs hes h2⟩⟩
  | .enum us ps =>
    rw [Is] at hx; rw [Holds]
    rcases hx with ⟨s, rfl, hs⟩ | ⟨k, y, rfl, hw, hy⟩
    · exact .inl ⟨s, rfl, hs, says_scalar h (by rw [toData, dataNodes])⟩
    · have h' : ∀ p n, N p = Option.some n ↔ (p, n) = ([], .table) ∨ ∃ q, p = .key k :: q ∧ (q, n) ∈ dataNodes (toData y) := by
        intro p n
        rw [h p n, toData, dataNodes, List.mem_cons, mem_below]
      have hy' : Says (N.down (.key k)) y := by
        intro p n
        show N (.key k :: p) = _ ↔ _
        rw [h']
        constructor
        · rintro (h | ⟨q, h, hq⟩)
          · cases h
          · cases h; exact hq
        · exact fun hq => .inr ⟨p, rfl, hq⟩
      refine .inr ⟨k, y, rfl, (h' _ _).2 (.inl rfl), fun k' => ⟨fun hp => ?_, fun hk => ?_⟩, variant_of_says ps hy hy'⟩
      · cases hn : N (.key k' :: []) with
        | none => exact (hp hn).elim
        | some n =>
          rcases (h' _ _).1 hn with h | ⟨q, h, -⟩
          · cases h
          · cases h; rfl
      · rw [hk]; exact says_present hy' hw
theorem tuple_of_says (ts : List Ty) {i : Nat} {xs : List Val} (hx : IsTuple ts xs) {N : Nodes} (h : SaysItems N i xs) :
    HoldsTuple false i ts xs N := by
  match ts with
  | [] => rw [IsTuple] at hx; rw [HoldsTuple]; exact hx
  | t :: ts =>
    rw [IsTuple] at hx; rw [HoldsTuple]
    obtain ⟨y, ys, rfl, hw, hy, hys⟩ := hx
    have h0 : Says (N.down (.index i)) y := h 0 y (by simp)
    refine ⟨y, ys, rfl, says_present h0 hw, holds_of_says t hy h0, tuple_of_says ts hys fun j z hz => ?_⟩
    have := h (j + 1) z (by simpa using hz)
    rwa [show i + (j + 1) = i + 1 + j by omega] at this
theorem fields_of_says (fs : List (Text × Ty)) {es : List (Text × Val)} (hx : IsStruct fs es) {N : Nodes}
    (h : ∀ e ∈ es, Says (N.down (.key e.1)) e.2) : HoldsFields false fs es N := by
  match fs with
  | [] => rw [IsStruct] at hx; rw [HoldsFields]; exact hx
  | (k, t) :: fs =>
    rw [IsStruct] at hx; rw [HoldsFields]
    obtain ⟨y, ys, rfl, hy, hys⟩ := hx
    exact ⟨y, ys, rfl, holds_of_says t hy (h _ List.mem_cons_self), fields_of_says fs hys fun e he => h e (List.mem_cons_of_mem _ he)⟩
theorem variant_of_says (ps : List (Text × Ty)) {k : Text} {y : Val} (hx : IsPayload ps k y) {N : Nodes} (h : Says N y) :
    HoldsVariant false ps k y N := by
  match ps with
  | [] => rw [IsPayload] at hx; exact hx.elim
  | (k', t) :: ps =>
    rw [IsPayload] at hx; rw [HoldsVariant]
    rcases hx with hx | hx
    · exact .inl ⟨hx.1, holds_of_says t hx.2 h⟩
    · exact .inr ⟨hx.1, variant_of_says ps hx.2 h⟩
end

end Tombi.Deserializing
