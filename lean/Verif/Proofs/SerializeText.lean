import Verif.Proofs.SerializeWords
import Verif.Proofs.SerializeFlat
/-!
The text of a document is a text of the TOML grammar, and means the document.
-/
namespace Tombi.Serializing
open Spec SyntaxKind
open Tombi.Reading
open Tombi.TomlFile (Val Pair Sec Ws Gap Newline OptComment KeyText HeaderText Lines itemsText pairsText itemsNested pairsNested TightGap)

/-! ### documents as documents of the grammar -/

mutual
/-- A value, whatever the kinds of its tables and arrays. -/
def astVal : Value → AstValue Scalar
  | .scalar s => .scalar s
  | .array _ vs => .array (astItems vs)
  | .table _ es => .inlineTable (kvsOf (astEntries es))
def astItems : List Value → List (AstItem Scalar)
  | [] => []
  | v :: vs => .value (astVal v) :: astItems vs
def astEntries : List Entry → List (DKey × AstValue Scalar)
  | [] => []
  | .mk k v :: es => (k.value, astVal v) :: astEntries es
end

mutual
/-- A value as it is written. -/
def gramVal : Value → Val
  | .scalar s => .lit (kindOf s) (scalarText s)
  | .array _ vs => .array (gramItems vs)
  | .table _ es => .table (gramEntries es)
def gramItems : List Value → List Val
  | [] => []
  | v :: vs => gramVal v :: gramItems vs
def gramEntries : List Entry → List Pair
  | [] => []
  | .mk k v :: es => .mk [astKey k] (gramVal v) :: gramEntries es
end

mutual
/-- How deep arrays and tables are nested. -/
def vdepth : Value → Nat
  | .scalar _ => 0
  | .array _ vs => vdepthItems vs + 1
  | .table _ es => vdepthEntries es + 1
def vdepthItems : List Value → Nat
  | [] => 0
  | v :: vs => max (vdepth v) (vdepthItems vs)
def vdepthEntries : List Entry → Nat
  | [] => 0
  | .mk _ v :: es => max (vdepth v) (vdepthEntries es)
end

/-- The names of a table. -/
def names (es : List Entry) : List Text := es.map (·.key.value)

mutual
/-- A value that is written on one line. -/
def Inl : Value → Prop
  | .scalar s => PlainScalar s
  | .array .array vs => Inls vs
  | .table .inlineTable es => (names es).Nodup ∧ InlE es
  | _ => False
def Inls : List Value → Prop
  | [] => True
  | v :: vs => Inl v ∧ Inls vs
def InlE : List Entry → Prop
  | [] => True
  | .mk k v :: es => NameFine k ∧ Inl v ∧ InlE es
end

theorem inl_notSection {v : Value} (h : Inl v) : isSection v = false := by
  cases v with
  | scalar s => rfl
  | array k vs => cases k <;> simp_all [Inl, isSection]
  | table k vs => cases k <;> simp_all [Inl, isSection]

theorem astEntries_names : ∀ (es : List Entry), (astEntries es).map (·.1) = names es
  | [] => rfl
  | .mk k v :: es => by
    have := astEntries_names es
    simp only [astEntries, names, List.map_cons, Entry.key, List.cons.injEq, true_and]
    exact this

mutual
theorem inl_valid : ∀ (v : Value), Inl v → ValidValue (astVal v)
  | .scalar s, _ => by simp [astVal, ValidValue]
  | .array k vs, h => by
    cases k with
    | arrayOfTable => simp [Inl] at h
    | array =>
      simp only [Inl] at h
      simp only [astVal, ValidValue]
      exact inls_valid vs h
  | .table k es, h => by
    cases k with
    | inlineTable =>
      simp only [Inl] at h
      have hv : (⟨false, [], astEntries es⟩ : Sect Scalar).Fine := ⟨by rw [astEntries_names]; exact h.1, inlE_valid es h.2⟩
      simp only [astVal, ValidValue]
      exact ⟨fine_validKvs _ hv.2, fine_keysApart hv⟩
    | table => simp [Inl] at h
    | keyValue => simp [Inl] at h
theorem inls_valid : ∀ (vs : List Value), Inls vs → ValidItems (astItems vs)
  | [], _ => by simp [astItems, ValidItems]
  | v :: vs, h => by
    simp only [Inls] at h
    simp only [astItems, ValidItems, ValidItem]
    exact ⟨inl_valid v h.1, inls_valid vs h.2⟩
theorem inlE_valid : ∀ (es : List Entry), InlE es → ∀ kv ∈ astEntries es, ValidValue kv.2
  | [], _ => by simp [astEntries]
  | .mk k v :: es, h => by
    simp only [InlE] at h
    intro kv hkv
    simp only [astEntries, List.mem_cons] at hkv
    rcases hkv with rfl | hkv
    · exact inl_valid v h.2.1
    · exact inlE_valid es h.2.2 kv hkv
end

mutual
theorem inl_means (ver : TomlVersion) : ∀ (v : Value), Inl v → ValMeans ver (gramVal v) (astVal v)
  | .scalar s, h => by
    simp only [Inl] at h
    simp only [gramVal, astVal, ValMeans]
    exact scalar_means h ver
  | .array k vs, h => by
    cases k with
    | arrayOfTable => simp [Inl] at h
    | array =>
      simp only [Inl] at h
      simp only [gramVal, astVal, ValMeans]
      exact inls_means ver vs h
  | .table k es, h => by
    cases k with
    | inlineTable =>
      simp only [Inl] at h
      simp only [gramVal, astVal, ValMeans]
      exact inlE_means ver es h.2
    | table => simp [Inl] at h
    | keyValue => simp [Inl] at h
theorem inls_means (ver : TomlVersion) : ∀ (vs : List Value), Inls vs → itemsMean ver (gramItems vs) (astItems vs)
  | [], _ => by simp [gramItems, astItems, itemsMean]
  | v :: vs, h => by
    simp only [Inls] at h
    simp only [gramItems, astItems, itemsMean]
    exact ⟨inl_means ver v h.1, inls_means ver vs h.2⟩
theorem inlE_means (ver : TomlVersion) : ∀ (es : List Entry), InlE es → pairsMean ver (gramEntries es) (kvsOf (astEntries es))
  | [], _ => by simp [gramEntries, astEntries, kvsOf, pairsMean]
  | .mk k v :: es, h => by
    simp only [InlE] at h
    simp only [gramEntries, astEntries, kvsOf, List.map_cons, pairsMean]
    exact ⟨⟨h.1.2 ver, trivial⟩, inl_means ver v h.2.1, inlE_means ver es h.2.2⟩
end

mutual
theorem gramVal_nested : ∀ (v : Value) (n : Nat), vdepth v ≤ n → (gramVal v).Nested n
  | .scalar s, n, _ => by simp [gramVal, Val.Nested]
  | .array k vs, n, h => by
    simp only [vdepth] at h
    cases n with
    | zero => omega
    | succ n =>
      simp only [gramVal, Val.Nested]
      exact gramItems_nested vs n (by omega)
  | .table k es, n, h => by
    simp only [vdepth] at h
    cases n with
    | zero => omega
    | succ n =>
      simp only [gramVal, Val.Nested]
      exact gramEntries_nested es n (by omega)
theorem gramItems_nested : ∀ (vs : List Value) (n : Nat), vdepthItems vs ≤ n → itemsNested n (gramItems vs)
  | [], n, _ => by simp [gramItems, itemsNested]
  | v :: vs, n, h => by
    simp only [vdepthItems] at h
    simp only [gramItems, itemsNested]
    exact ⟨gramVal_nested v n (by omega), gramItems_nested vs n (by omega)⟩
theorem gramEntries_nested : ∀ (es : List Entry) (n : Nat), vdepthEntries es ≤ n → pairsNested n (gramEntries es)
  | [], n, _ => by simp [gramEntries, pairsNested]
  | .mk k v :: es, n, h => by
    simp only [vdepthEntries] at h
    simp only [gramEntries, pairsNested, Pair.Nested]
    exact ⟨gramVal_nested v n (by omega), gramEntries_nested es n (by omega)⟩
end

/-! ### the texts -/

theorem ws_nil : Ws [] := by intro c hc; cases hc
theorem ws_blank : Ws [' '] := by intro c hc; rw [List.mem_singleton] at hc; exact .inl hc
theorem tight_nil : wordsReadable.beforeComma [] := .inl (.lines .nil)

theorem itemsText_blank : ∀ {vs : List Val} {t : List Char}, itemsText wordsReadable vs t → itemsText wordsReadable vs (' ' :: t)
  | [], t, h => by
    simp only [itemsText] at h ⊢
    exact .ws ws_blank h
  | v :: vs, t, h => by
    simp only [itemsText] at h ⊢
    obtain ⟨g, x, g', h1, h2, h3⟩ := h
    refine ⟨' ' :: g, x, g', .ws ws_blank h1, h2, ?_⟩
    rcases h3 with ⟨h3, h4, rfl⟩ | ⟨t', h3, h4, rfl⟩
    · exact .inl ⟨h3, h4, rfl⟩
    · exact .inr ⟨t', h3, h4, rfl⟩

theorem pairsText_blank : ∀ {vs : List Pair} {t : List Char}, pairsText wordsReadable vs t → pairsText wordsReadable vs (' ' :: t)
  | [], t, h => by
    simp only [pairsText] at h ⊢
    exact .ws ws_blank h
  | v :: vs, t, h => by
    simp only [pairsText] at h ⊢
    obtain ⟨g, x, g', h1, h2, h3⟩ := h
    refine ⟨' ' :: g, x, g', .ws ws_blank h1, h2, ?_⟩
    rcases h3 with ⟨h3, h4, rfl⟩ | ⟨t', h3, h4, rfl⟩
    · exact .inl ⟨h3, h4, rfl⟩
    · exact .inr ⟨t', h3, h4, rfl⟩

theorem name_text {k : Key} (h : NameFine k) : KeyText wordsReadable [astKey k] (keyText k) := by
  rw [← keyText_astKey]
  exact .last h.1

/-- `key = value`. -/
theorem pair_text {k : Key} (h : NameFine k) {v : Val} {t : List Char} (hv : v.Text wordsReadable t) :
    (Pair.mk [astKey k] v).Text wordsReadable (keyText k ++ (' ' :: '=' :: ' ' :: t)) := by
  simp only [Pair.Text]
  exact ⟨_, [' '], [' '], t, name_text h, ws_blank, ws_blank, hv, by simp⟩

theorem writeInlineEntry_inl {k : Key} {v : Value} (h : Inl v) :
    writeInlineEntry (.mk k v) = keyText k ++ (' ' :: '=' :: ' ' :: writeValue [] v) := by
  cases v with
  | scalar s => simp [writeInlineEntry]
  | array a vs => simp [writeInlineEntry]
  | table a vs => cases a <;> simp_all [writeInlineEntry, Inl]

theorem writePair_inl {k : Key} {v : Value} (h : Inl v) :
    writePair [] (.mk k v) = keyText k ++ (' ' :: '=' :: ' ' :: (writeValue [] v ++ ['\n'])) := by
  cases v with
  | scalar s => simp [writePair, dotted]
  | array a vs => simp [writePair, dotted]
  | table a vs => cases a <;> simp_all [writePair, Inl, dotted]

theorem writeElementEntry_inl {P : List Key} {k : Key} {v : Value} (h : Inl v) :
    writeElementEntry P (.mk k v) = keyText k ++ (' ' :: '=' :: ' ' :: writeValue (P ++ [k]) v) := by
  cases v with
  | scalar s => simp [writeElementEntry]
  | array a vs => simp [writeElementEntry]
  | table a vs => cases a <;> simp_all [writeElementEntry, Inl]

mutual
theorem inl_text : ∀ (v : Value) (P : List Key), Inl v → (gramVal v).Text wordsReadable (writeValue P v)
  | .scalar s, P, h => by
    simp only [Inl] at h
    simp only [gramVal, Val.Text, writeValue]
    exact ⟨scalar_literal h, trivial⟩
  | .array k vs, P, h => by
    cases k with
    | arrayOfTable => simp [Inl] at h
    | array =>
      simp only [Inl] at h
      simp only [gramVal, Val.Text, writeValue]
      exact ⟨_, inls_text vs P h, rfl⟩
  | .table k es, P, h => by
    cases k with
    | inlineTable =>
      simp only [Inl] at h
      simp only [gramVal, Val.Text, writeValue]
      exact ⟨_, inlE_text es h.2, rfl⟩
    | table => simp [Inl] at h
    | keyValue => simp [Inl] at h
theorem inls_text : ∀ (vs : List Value) (P : List Key), Inls vs → itemsText wordsReadable (gramItems vs) (writeItems P vs)
  | [], P, _ => by simp only [gramItems, itemsText, writeItems]; exact .nil
  | v :: vs, P, h => by
    simp only [Inls] at h
    have h1 := inl_text v P h.1
    have h2 := inls_text vs P h.2
    simp only [gramItems, itemsText]
    refine ⟨[], _, [], .nil, h1, ?_⟩
    cases vs with
    | nil => exact .inl ⟨rfl, .nil, by simp [writeItems]⟩
    | cons w vs => exact .inr ⟨_, tight_nil, itemsText_blank h2, by simp [writeItems]⟩
theorem inlE_text : ∀ (es : List Entry), InlE es → pairsText wordsReadable (gramEntries es) (writeInline es)
  | [], _ => by simp only [gramEntries, pairsText, writeInline]; exact .nil
  | .mk k v :: es, h => by
    simp only [InlE] at h
    have h1 := pair_text h.1 (inl_text v [] h.2.1)
    have h2 := inlE_text es h.2.2
    have h3 := writeInlineEntry_inl (k := k) h.2.1
    simp only [gramEntries, pairsText]
    refine ⟨[], _, [], .nil, h1, ?_⟩
    cases es with
    | nil => exact .inl ⟨rfl, .nil, by simp [writeInline, h3]⟩
    | cons e es => exact .inr ⟨_, tight_nil, pairsText_blank h2, by simp [writeInline, h3]⟩
end

/-! ### tables with headers -/

/-- A table or an element of an array of tables, as it is written: a header and key-values. -/
structure Part where
  arr : Bool
  header : List Key
  entries : List Entry

def Part.sec (p : Part) : Sec := ⟨p.arr, p.header.map astKey, gramEntries p.entries⟩
def Part.sect (p : Part) : Sect Scalar := ⟨p.arr, p.header.map (·.value), astEntries p.entries⟩

/-- The entries that are written behind the header of the table. -/
def plain : List Entry → List Entry
  | [] => []
  | .mk k v :: es => if isSection v then plain es else .mk k v :: plain es

/-- The only entry is a table or an array of tables: the table has no header of its own. -/
def isOnly : List Entry → Bool
  | [.mk _ v] => isSection v
  | _ => false

def entriesOf : Value → List Entry
  | .table _ es => es
  | _ => []

mutual
/-- The tables that a value is written as. -/
def parts (P : List Key) : Value → List Part
  | .table .table es => (if isOnly es then [] else [⟨false, P, plain es⟩]) ++ partsE P es
  | .array .arrayOfTable vs => vs.map fun v => ⟨true, P, entriesOf v⟩
  | _ => []
def partsE (P : List Key) : List Entry → List Part
  | [] => []
  | .mk k v :: es => parts (P ++ [k]) v ++ partsE P es
end

/-- Element of an array of tables. -/
def ElementFine (v : Value) : Prop := ∃ es, v = .table .table es ∧ (names es).Nodup ∧ InlE es

def isTable : Value → Bool
  | .table _ _ => true
  | _ => false

mutual
/-- A value that is written as tables. -/
def Tab : Value → Prop
  | .table .table es => (names es).Nodup ∧ TabE es
  | .array .arrayOfTable vs => vs ≠ [] ∧ ∀ v ∈ vs, ElementFine v
  | _ => False
def TabE : List Entry → Prop
  | [] => True
  | .mk k v :: es => (NameFine k ∧ (Inl v ∨ Tab v ∧ (isTable v = true → PathFine k))) ∧ TabE es
end

theorem tab_section {v : Value} (h : Tab v) : isSection v = true := by
  cases v with
  | scalar s => simp [Tab] at h
  | array k vs => cases k <;> simp_all [Tab, isSection]
  | table k vs => cases k <;> simp_all [Tab, isSection]

theorem parts_inl {P : List Key} {v : Value} (h : Inl v) : parts P v = [] := by
  cases v with
  | scalar s => simp [parts]
  | array k vs => cases k <;> simp_all [Inl, parts]
  | table k vs => cases k <;> simp_all [Inl, parts]

theorem plain_inlE : ∀ (es : List Entry), TabE es → InlE (plain es)
  | [], _ => by simp [plain, InlE]
  | .mk k v :: es, h => by
    simp only [TabE] at h
    obtain ⟨⟨h1, h2⟩, h3⟩ := h
    unfold plain
    rcases h2 with h2 | ⟨h2, -⟩
    · rw [inl_notSection h2]
      simp only [Bool.false_eq_true, if_false, InlE]
      exact ⟨h1, h2, plain_inlE es h3⟩
    · rw [tab_section h2, if_pos rfl]
      exact plain_inlE es h3

theorem newline_lf : Newline ['\n'] := .inl rfl

/-- The keys of a header. -/
structure HeadFine (P : List Key) : Prop where
  ne : P ≠ []
  names : ∀ k ∈ P, NameFine k
  paths : ∀ k ∈ P.dropLast, PathFine k

theorem head_text : ∀ (P : List Key), HeadFine P → KeyText wordsReadable (P.map astKey) (dotted P)
  | [], h => absurd rfl h.ne
  | [k], h => name_text (h.names k (by simp))
  | k :: k' :: ks, h => by
    have h1 := head_text (k' :: ks) ⟨by simp, fun x hx => h.names x (List.mem_cons_of_mem _ hx), fun x hx => h.paths x (by
      rw [List.dropLast_cons_cons]; exact List.mem_cons_of_mem _ hx)⟩
    have h2 : wordsReadable.keyBeforeDot (astKey k) := h.paths k (by simp)
    have := KeyText.dot h2 ws_nil ws_nil h1
    rw [keyText_astKey] at this
    exact this

theorem header_text {P : List Key} (h : HeadFine P) (arr : Bool) : HeaderText wordsReadable arr (P.map astKey)
    (if arr then '[' :: '[' :: (dotted P ++ [']', ']']) else '[' :: (dotted P ++ [']'])) :=
  ⟨[], dotted P, [], ws_nil, head_text P h, ws_nil, by simp⟩

theorem gramEntries_append : ∀ (a b : List Entry), gramEntries (a ++ b) = gramEntries a ++ gramEntries b
  | [], b => rfl
  | .mk k v :: a, b => by simp [gramEntries, gramEntries_append a b]

/-- The lines of the key-values of a table. -/
theorem plain_lines : ∀ (es : List Entry), TabE es → ∀ {ps ss t}, Lines wordsReadable ps ss t →
    Lines wordsReadable (gramEntries (plain es) ++ ps) ss (writePlain es ++ t)
  | [], _, ps, ss, t, ht => by simpa [plain, gramEntries, writePlain] using ht
  | .mk k v :: es, h, ps, ss, t, ht => by
    simp only [TabE] at h
    obtain ⟨⟨h1, h2⟩, h3⟩ := h
    have ih := plain_lines es h3 ht
    rcases h2 with h2 | ⟨h2, -⟩
    · have e1 : plain (.mk k v :: es) = .mk k v :: plain es := by simp [plain, inl_notSection h2]
      have e2 : writePlain (.mk k v :: es) = writePair [] (.mk k v) ++ writePlain es := by
        simp [writePlain, Entry.value, inl_notSection h2]
      rw [e1, e2, writePair_inl h2, gramEntries]
      have := Lines.pair (c := []) ws_nil (pair_text h1 (inl_text v [] h2)) ws_nil (.inl rfl) newline_lf ih
      simpa using this
    · have e1 : plain (.mk k v :: es) = plain es := by simp [plain, tab_section h2]
      have e2 : writePlain (.mk k v :: es) = writePlain es := by simp [writePlain, Entry.value, tab_section h2]
      rw [e1, e2]
      exact ih

/-- The lines of the elements of an array of tables. -/
theorem elementEntries_lines (P : List Key) : ∀ (es : List Entry), InlE es → ∀ {ps ss t}, Lines wordsReadable ps ss t →
    Lines wordsReadable (gramEntries es ++ ps) ss (writeElementEntries P es ++ t)
  | [], _, ps, ss, t, ht => by simpa [gramEntries, writeElementEntries] using ht
  | .mk k v :: es, h, ps, ss, t, ht => by
    simp only [InlE] at h
    have ih := elementEntries_lines P es h.2.2 ht
    simp only [writeElementEntries, gramEntries, writeElementEntry_inl h.2.1]
    have := Lines.pair (c := []) ws_nil (pair_text h.1 (inl_text v (P ++ [k]) h.2.1)) ws_nil (.inl rfl) newline_lf ih
    simpa using this

theorem elements_lines {P : List Key} (hP : HeadFine P) : ∀ (vs : List Value), (∀ v ∈ vs, ElementFine v) →
    ∀ {ss t}, Lines wordsReadable [] ss t →
    Lines wordsReadable [] ((vs.map fun v => (⟨true, P, entriesOf v⟩ : Part)).map Part.sec ++ ss) (writeElements P vs ++ t)
  | [], _, ss, t, ht => by simpa [writeElements] using ht
  | v :: vs, h, ss, t, ht => by
    obtain ⟨es, rfl, -, h1⟩ := h v List.mem_cons_self
    have ih := elements_lines hP vs (fun x hx => h x (List.mem_cons_of_mem _ hx)) ht
    have h2 := elementEntries_lines P es h1 ih
    have := Lines.header (c := []) ws_nil (header_text hP true) ws_nil (.inl rfl) newline_lf h2
    simpa [writeElements, elementHeader, writeElement, Part.sec, entriesOf] using this

theorem headFine_snoc {P : List Key} {k : Key} (h : ∀ x ∈ P, NameFine x ∧ PathFine x) (hk : NameFine k) : HeadFine (P ++ [k]) where
  ne := by simp
  names := by
    intro x hx
    rcases List.mem_append.mp hx with hx | hx
    · exact (h x hx).1
    · rw [List.mem_singleton] at hx; exact hx ▸ hk
  paths := by
    rw [List.dropLast_concat]
    exact fun x hx => (h x hx).2

theorem isOnly_cases (es : List Entry) : (∃ k v, es = [.mk k v] ∧ isSection v = true) ∨ isOnly es = false := by
  match es with
  | [] => exact .inr rfl
  | [.mk k v] =>
    cases h : isSection v with
    | true => exact .inl ⟨k, v, rfl, h⟩
    | false => exact .inr h
  | .mk _ _ :: _ :: _ => exact .inr rfl

theorem writeOnly_none {P : List Key} {es : List Entry} (h : isOnly es = false) : writeOnly P es = none := by
  match es, h with
  | [], _ => rfl
  | [.mk k v], h => simp only [isOnly] at h; simp [writeOnly, h]
  | .mk _ _ :: _ :: _, _ => simp [writeOnly]

mutual
/-- The lines of a value that is written as tables. -/
theorem tab_lines : ∀ (v : Value) (P : List Key), Tab v → HeadFine P → (isTable v = true → ∀ k ∈ P, PathFine k) →
    ∀ {ss t}, Lines wordsReadable [] ss t → Lines wordsReadable [] ((parts P v).map Part.sec ++ ss) (writeValue P v ++ t)
  | .scalar s, P, h, _, _, _, _, _ => by simp [Tab] at h
  | .array .array vs, P, h, _, _, _, _, _ => by simp [Tab] at h
  | .array .arrayOfTable vs, P, h, hP, _, _, _, ht => by
    simp only [Tab] at h
    simp only [parts, writeValue]
    exact elements_lines hP vs h.2 ht
  | .table .inlineTable es, P, h, _, _, _, _, _ => by simp [Tab] at h
  | .table .keyValue es, P, h, _, _, _, _, _ => by simp [Tab] at h
  | .table .table es, P, h, hP, hP2, ss, t, ht => by
    simp only [Tab] at h
    have hh : ∀ k ∈ P, NameFine k ∧ PathFine k := fun k hk => ⟨hP.names k hk, hP2 rfl k hk⟩
    have h1 := tabE_lines es P h.2 hh ht
    rcases isOnly_cases es with ⟨k, v, rfl, hv⟩ | ho
    · simpa [parts, isOnly, hv, partsE, writeValue, writeOnly, writeSections] using h1
    · have h2 := plain_lines es h.2 h1
      have h3 := Lines.header (c := []) ws_nil (header_text hP false) ws_nil (.inl rfl) newline_lf h2
      have h4 : P.isEmpty = false := by cases P with | nil => exact absurd rfl hP.ne | cons => rfl
      simpa [parts, ho, writeValue, writeOnly_none ho, tableHeader, h4, Part.sec] using h3
/-- The lines of the tables in a table. -/
theorem tabE_lines : ∀ (es : List Entry) (P : List Key), TabE es → (∀ k ∈ P, NameFine k ∧ PathFine k) →
    ∀ {ss t}, Lines wordsReadable [] ss t → Lines wordsReadable [] ((partsE P es).map Part.sec ++ ss) (writeSections P es ++ t)
  | [], P, _, _, _, _, ht => by simpa [partsE, writeSections] using ht
  | .mk k v :: es, P, h, hP, ss, t, ht => by
    simp only [TabE] at h
    obtain ⟨⟨h1, h2⟩, h3⟩ := h
    have ih := tabE_lines es P h3 hP ht
    rcases h2 with h2 | ⟨h2, h4⟩
    · simpa [partsE, writeSections, parts_inl h2, inl_notSection h2] using ih
    · have := tab_lines v (P ++ [k]) h2 (headFine_snoc hP h1) (fun e x hx => by
        rcases List.mem_append.mp hx with hx | hx
        · exact (hP x hx).2
        · rw [List.mem_singleton] at hx; exact hx ▸ h4 e) ih
      simpa [partsE, writeSections, tab_section h2] using this
end

theorem plain_only {k : Key} {v : Value} (h : isSection v = true) : plain [.mk k v] = [] := by simp [plain, h]

/-- The text of a document is a text of the grammar. -/
theorem document_lines {es : List Entry} (h : TabE es) :
    Lines wordsReadable (gramEntries (plain es)) ((partsE [] es).map Part.sec) (documentText es) := by
  have h0 : Lines wordsReadable [] [] [] := .end_ (w := []) (c := []) ws_nil (.inl rfl)
  have h1 := tabE_lines es [] h (by simp) h0
  unfold documentText
  rcases isOnly_cases es with ⟨k, v, rfl, hv⟩ | ho
  · simp only [plain_only hv, gramEntries]
    simpa [writeValue, writeOnly, writeSections, hv] using h1
  · have h2 := plain_lines es h h1
    simpa [writeValue, writeOnly_none ho, tableHeader] using h2

/-! ### what the parts mean -/

structure Part.Fine (p : Part) : Prop where
  header : ∀ k ∈ p.header, NameFine k
  entries : InlE p.entries

theorem keys_mean (ver : TomlVersion) : ∀ (P : List Key), (∀ k ∈ P, NameFine k) → keysMean ver (P.map astKey) (P.map (·.value))
  | [], _ => trivial
  | k :: ks, h => ⟨(h k List.mem_cons_self).2 ver, keys_mean ver ks fun x hx => h x (List.mem_cons_of_mem _ hx)⟩

theorem parts_mean (ver : TomlVersion) : ∀ (ps : List Part), (∀ p ∈ ps, p.Fine) →
    secsMean ver (ps.map Part.sec) ((ps.map Part.sect).map Sect.toSection)
  | [], _ => trivial
  | p :: ps, h => by
    have hp := h p List.mem_cons_self
    exact ⟨⟨rfl, ⟨_, rfl, keys_mean ver _ hp.header⟩, inlE_means ver _ hp.entries⟩,
      parts_mean ver ps fun x hx => h x (List.mem_cons_of_mem _ hx)⟩

mutual
theorem parts_fine : ∀ (v : Value) (P : List Key), Tab v → (∀ k ∈ P, NameFine k) → ∀ p ∈ parts P v, p.Fine
  | .scalar s, P, h, _, _, _ => by simp [Tab] at h
  | .array .array vs, P, h, _, _, _ => by simp [Tab] at h
  | .array .arrayOfTable vs, P, h, hP, p, hp => by
    simp only [Tab] at h
    simp only [parts, List.mem_map] at hp
    obtain ⟨v, hv, rfl⟩ := hp
    obtain ⟨es, rfl, -, h1⟩ := h.2 v hv
    exact ⟨hP, h1⟩
  | .table .inlineTable es, P, h, _, _, _ => by simp [Tab] at h
  | .table .keyValue es, P, h, _, _, _ => by simp [Tab] at h
  | .table .table es, P, h, hP, p, hp => by
    simp only [Tab] at h
    simp only [parts, List.mem_append] at hp
    rcases hp with hp | hp
    · split at hp
      · cases hp
      · rw [List.mem_singleton] at hp
        subst hp
        exact ⟨hP, plain_inlE es h.2⟩
    · exact partsE_fine es P h.2 hP p hp
theorem partsE_fine : ∀ (es : List Entry) (P : List Key), TabE es → (∀ k ∈ P, NameFine k) → ∀ p ∈ partsE P es, p.Fine
  | [], P, _, _, p, hp => by simp [partsE] at hp
  | .mk k v :: es, P, h, hP, p, hp => by
    simp only [TabE] at h
    obtain ⟨⟨h1, h2⟩, h3⟩ := h
    simp only [partsE, List.mem_append] at hp
    rcases hp with hp | hp
    · rcases h2 with h2 | ⟨h2, -⟩
      · rw [parts_inl h2] at hp; cases hp
      · exact parts_fine v (P ++ [k]) h2 (fun x hx => by
          rcases List.mem_append.mp hx with hx | hx
          · exact hP x hx
          · rw [List.mem_singleton] at hx; exact hx ▸ h1) p hp
    · exact partsE_fine es P h3 hP p hp
end

end Tombi.Serializing
