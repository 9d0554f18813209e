import Verif.Proofs.ReadLiteral
import Verif.Proofs.FileWords
import Verif.Proofs.FormatCalm
import Verif.Props.Parser
/-! Proofs for C70: a document of the grammar is converted to what it means; its comments are valid. -/
namespace Tombi.Reading
open SyntaxKind Spec TomlText
open Tombi.TomlFile
open Tombi.Formatter (TomlLiteral Node Body Section Doc Comma docOf)
open Tombi.Format (AstKey)

/-! ### the words of a document of the grammar -/

/-- The keys of a dotted key. -/
def KeysFine (L : Words) (ks : List AstKey) : Prop :=
  (ks ≠ [] ∧ ∀ k ∈ ks.dropLast, L.keyBeforeDot k) ∧ ∀ k ∈ ks, L.key k ∨ L.keyBeforeDot k

mutual
/-- The keys and literals of a value belong to the grammar. -/
def ValFine (L : Words) : Val → Prop
  | .lit k t => L.literal k t
  | .array items => itemsFine L items
  | .table pairs => pairsFine L pairs
def itemsFine (L : Words) : List Val → Prop
  | [] => True
  | v :: vs => ValFine L v ∧ itemsFine L vs
def pairsFine (L : Words) : List Pair → Prop
  | [] => True
  | .mk ks v :: ps => (KeysFine L ks ∧ ValFine L v) ∧ pairsFine L ps
end

variable {L : Words}

theorem keys_fine {ks : List AstKey} {t : TomlFile.Text} (h : KeyText L ks t) : KeysFine L ks := by
  refine ⟨⟨by cases h <;> simp, ?_⟩, ?_⟩
  · induction h with
    | last hk => simp
    | @dot k ks' _ _ _ hk _ _ h ih =>
      intro x hx
      have hne : ks' ≠ [] := by cases h <;> simp
      rw [List.dropLast_cons_of_ne_nil hne] at hx
      rcases List.mem_cons.mp hx with rfl | hx
      · exact hk
      · exact ih x hx
  induction h with
  | last hk => intro k hk'; simp at hk'; subst hk'; exact .inl hk
  | dot hk _ _ _ ih =>
    intro k hk'
    rcases List.mem_cons.mp hk' with rfl | h
    · exact .inr hk
    · exact ih k h

mutual
theorem val_fine : (v : Val) → (t : TomlFile.Text) → v.Text L t → ValFine L v
  | .lit k t, x, h => by rw [Val.Text] at h; rw [ValFine]; exact h.1
  | .array items, x, h => by
    rw [Val.Text] at h
    obtain ⟨t, h, -⟩ := h
    rw [ValFine]; exact items_fine items t h
  | .table pairs, x, h => by
    rw [Val.Text] at h
    obtain ⟨t, h, -⟩ := h
    rw [ValFine]; exact pairs_fine pairs t h
theorem items_fine : (vs : List Val) → (t : TomlFile.Text) → itemsText L vs t → itemsFine L vs
  | [], _, _ => by rw [itemsFine]; trivial
  | v :: rest, x, h => by
    rw [itemsText] at h
    rw [itemsFine]
    obtain ⟨g, t, g', -, hv, ⟨rfl, -⟩ | ⟨t', -, h2, -⟩⟩ := h
    · exact ⟨val_fine v t hv, by rw [itemsFine]; trivial⟩
    · exact ⟨val_fine v t hv, items_fine rest t' h2⟩
theorem pair_fine : (p : Pair) → (t : TomlFile.Text) → p.Text L t → pairsFine L [p]
  | .mk ks v, x, h => by
    rw [Pair.Text] at h
    obtain ⟨k, a, b, t, hk, -, -, hv, -⟩ := h
    rw [pairsFine, pairsFine]
    exact ⟨⟨keys_fine hk, val_fine v t hv⟩, trivial⟩
theorem pairs_fine : (ps : List Pair) → (t : TomlFile.Text) → pairsText L ps t → pairsFine L ps
  | [], _, _ => by rw [pairsFine]; trivial
  | p :: rest, x, h => by
    rw [pairsText] at h
    obtain ⟨g, t, g', -, hv, h⟩ := h
    have hp := pair_fine p t hv
    have hr : pairsFine L rest := by
      rcases h with ⟨rfl, -⟩ | ⟨t', -, h2, -⟩
      · rw [pairsFine]; trivial
      · exact pairs_fine rest t' h2
    cases p
    rw [pairsFine] at hp ⊢
    exact ⟨hp.1, hr⟩
end

theorem pairsFine_cons {p : Pair} {ps : List Pair} (h : pairsFine L [p]) (h' : pairsFine L ps) : pairsFine L (p :: ps) := by
  cases p
  rw [pairsFine] at h ⊢
  exact ⟨h.1, h'⟩

theorem lines_fine {ps : List Pair} {ss : List Sec} {t : TomlFile.Text} (h : Lines L ps ss t) :
    pairsFine L ps ∧ ∀ s ∈ ss, KeysFine L s.header ∧ pairsFine L s.pairs := by
  have nil : pairsFine L [] := by rw [pairsFine]; trivial
  induction h with
  | end_ => exact ⟨nil, nofun⟩
  | blank _ _ _ _ ih => exact ih
  | pairEnd _ hp _ _ => exact ⟨pair_fine _ _ hp, nofun⟩
  | pair _ hp _ _ _ _ ih => exact ⟨pairsFine_cons (pair_fine _ _ hp) ih.1, ih.2⟩
  | headerEnd _ hh _ _ =>
    obtain ⟨a, k, b, -, hk, -, -⟩ := hh
    refine ⟨nil, fun s hs => ?_⟩
    simp at hs; subst hs
    exact ⟨keys_fine hk, nil⟩
  | header _ hh _ _ _ _ ih =>
    obtain ⟨a, k, b, -, hk, -, -⟩ := hh
    refine ⟨nil, fun s hs => ?_⟩
    rcases List.mem_cons.mp hs with rfl | hs
    · exact ⟨keys_fine hk, ih.1⟩
    · exact ih.2 s hs

/-! ### conversion -/

theorem KeysFine.toml {ks : List AstKey} (h : KeysFine wordsReadable ks) : ∀ k ∈ ks, TomlKey k := by
  intro k hk
  rcases h.2 k hk with h | h
  · exact usual_key _ h
  · exact usual_key _ (before_key h)

theorem keys_read {v : TomlVersion} {ks : List AstKey} {ns : List DKey} (hk : ∀ k ∈ ks, TomlKey k) (hm : keysMean v ks ns) :
    ks.map (keyOr v) = ns ∧ ∀ k ∈ ks, (rawKey v k).isSome = true := by
  induction ks generalizing ns with
  | nil => cases ns with
    | nil => simp
    | cons => exact hm.elim
  | cons k ks ih => cases ns with
    | nil => exact hm.elim
    | cons n ns =>
      obtain ⟨h1, h2⟩ := ih (fun k' h => hk k' (by simp [h])) hm.2
      have h3 := key_read (hk k (by simp)) hm.1
      refine ⟨by simp [keyOr, h3, h1], fun k' h => ?_⟩
      rcases List.mem_cons.mp h with rfl | h
      · simp [h3]
      · exact h2 k' h

theorem not_pair {k : SyntaxKind} {t : Text} (h : ValFine wordsReadable (.lit k t)) : k ≠ KEY_VALUE := by
  rw [ValFine] at h
  rintro rfl
  cases h.1

/-- The keys can be decoded. -/
def Decoded (v : TomlVersion) (ks : List AstKey) : Prop := ∀ k ∈ ks, (rawKey v k).isSome = true

theorem Decoded.append {v : TomlVersion} {a b : List AstKey} (h : Decoded v a) (h' : Decoded v b) : Decoded v (a ++ b) := by
  intro k hk
  rcases List.mem_append.mp hk with hk | hk
  · exact h k hk
  · exact h' k hk

theorem Decoded.nil {v : TomlVersion} : Decoded v [] := nofun

mutual
theorem value_read (v : TomlVersion) : (n : Node) → (y : AstValue Scalar) → ValFine wordsReadable (valOf n) → ValMeans v (valOf n) y →
    valueOf v n = y ∧ Decoded v (nodeKeys n)
  | .lit _ k t _, y, hf, hm => by
    rw [valOf] at hf hm
    rw [ValFine] at hf
    cases y <;> rw [ValMeans] at hm <;> first | exact hm.elim | skip
    · rw [valueOf, scalar_read hf.1 hf.2 hm, nodeKeys]
      exact ⟨rfl, .nil⟩
    all_goals simp
  | .array _ _ b _, y, hf, hm => by
    rw [valOf] at hf hm
    rw [ValFine] at hf
    cases y <;> rw [ValMeans] at hm <;> first | exact hm.elim | skip
    · rw [valueOf, nodeKeys]
      obtain ⟨h1, h2⟩ := items_read v b _ hf hm
      exact ⟨by rw [h1], h2⟩
    all_goals simp
  | .table _ _ b _, y, hf, hm => by
    rw [valOf] at hf hm
    rw [ValFine] at hf
    cases y <;> rw [ValMeans] at hm <;> first | exact hm.elim | skip
    · rw [valueOf, nodeKeys]
      obtain ⟨h1, h2⟩ := pairs_read v b _ hf hm
      exact ⟨by rw [h1], h2⟩
    all_goals simp
  | .pair _ _ _ _, y, hf, hm => by
    rw [valOf] at hf
    exact absurd rfl (not_pair hf)
theorem items_read (v : TomlVersion) : (b : Body) → (xs : List (AstItem Scalar)) → itemsFine wordsReadable (valsOf b) →
    itemsMean v (valsOf b) xs → itemsOf v b = xs ∧ Decoded v (itemKeys b)
  | .nil, xs, hf, hm => by
    rw [valsOf] at hm
    cases xs with
    | nil => rw [itemsOf, itemKeys]; exact ⟨rfl, .nil⟩
    | cons x xs => simp [itemsMean] at hm
  | .dangling _ _ b, xs, hf, hm => by
    rw [valsOf] at hf hm
    rw [itemsOf, itemKeys]
    exact items_read v b xs hf hm
  | .item _ n _ b, xs, hf, hm => by
    rw [valsOf] at hf hm
    rw [itemsFine] at hf
    cases xs with
    | nil => simp [itemsMean] at hm
    | cons x xs =>
      cases x with
      | keyValue kv => simp [itemsMean] at hm
      | value x =>
        rw [itemsMean] at hm
        obtain ⟨h1, h2⟩ := value_read v n x hf.1 hm.1
        obtain ⟨h3, h4⟩ := items_read v b xs hf.2 hm.2
        cases n with
        | pair =>
          rw [valOf] at hf
          exact absurd rfl (not_pair hf.1)
        | lit => rw [itemsOf, itemKeys, h1, h3]; exact ⟨rfl, h2.append h4⟩; all_goals simp
        | array => rw [itemsOf, itemKeys, h1, h3]; exact ⟨rfl, h2.append h4⟩; all_goals simp
        | table => rw [itemsOf, itemKeys, h1, h3]; exact ⟨rfl, h2.append h4⟩; all_goals simp
theorem pairs_read (v : TomlVersion) : (b : Body) → (kvs : List (AstKeyValue Scalar)) → pairsFine wordsReadable (pairsOf b) →
    pairsMean v (pairsOf b) kvs → keyValuesOf v b = kvs ∧ Decoded v (pairKeys b)
  | .nil, xs, hf, hm => by
    rw [pairsOf] at hm
    cases xs with
    | nil => rw [keyValuesOf, pairKeys]; exact ⟨rfl, .nil⟩
    | cons x xs => simp [pairsMean] at hm
  | .dangling _ _ b, xs, hf, hm => by
    rw [pairsOf] at hf hm
    rw [keyValuesOf, pairKeys]
    exact pairs_read v b xs hf hm
  | .item _ (.pair _ ks _ n) _ b, xs, hf, hm => by
    rw [pairsOf] at hf hm
    rw [pairsFine] at hf
    cases xs with
    | nil => simp [pairsMean] at hm
    | cons x xs =>
      obtain ⟨ns, y⟩ := x
      cases ns with
      | none => simp [pairsMean] at hm
      | some ns =>
        cases y with
        | none => simp [pairsMean] at hm
        | some y =>
          rw [pairsMean] at hm
          obtain ⟨h1, h2⟩ := value_read v n y hf.1.2 hm.2.1
          obtain ⟨h3, h4⟩ := pairs_read v b xs hf.2 hm.2.2
          obtain ⟨h5, h6⟩ := keys_read hf.1.1.toml hm.1
          rw [keyValuesOf, pairKeys, h1, h3, h5]
          exact ⟨rfl, .append (.append h6 h2) h4⟩
  | .item _ (.lit ..) _ b, xs, hf, hm => by
    rw [pairsOf] at hf hm
    · rw [keyValuesOf, pairKeys]
      · exact pairs_read v b xs hf hm
      all_goals simp
    all_goals simp
  | .item _ (.array ..) _ b, xs, hf, hm => by
    rw [pairsOf] at hf hm
    · rw [keyValuesOf, pairKeys]
      · exact pairs_read v b xs hf hm
      all_goals simp
    all_goals simp
  | .item _ (.table ..) _ b, xs, hf, hm => by
    rw [pairsOf] at hf hm
    · rw [keyValuesOf, pairKeys]
      · exact pairs_read v b xs hf hm
      all_goals simp
    all_goals simp
end

theorem secs_read (v : TomlVersion) : (ss : List Section) → (xs : List (AstSection Scalar)) →
    (∀ s ∈ ss.map secOf, KeysFine wordsReadable s.header ∧ pairsFine wordsReadable s.pairs) → secsMean v (ss.map secOf) xs →
    (ss.map fun s => (⟨s.isArray, some (s.header.map (keyOr v)), keyValuesOf v s.body⟩ : AstSection Scalar)) = xs ∧
    Decoded v (ss.flatMap fun s => s.header ++ pairKeys s.body)
  | [], xs, hf, hm => by
    cases xs with
    | nil => exact ⟨rfl, .nil⟩
    | cons => exact hm.elim
  | s :: ss, xs, hf, hm => by
    cases xs with
    | nil => exact hm.elim
    | cons x xs =>
      obtain ⟨⟨h1, ⟨ns, h2, h3⟩, h4⟩, h5⟩ := hm
      obtain ⟨h6, h7⟩ := secs_read v ss xs (fun s' h => hf s' (by simp [h])) h5
      have hs := hf (secOf s) (by simp)
      obtain ⟨h8, h9⟩ := keys_read hs.1.toml h3
      obtain ⟨h10, h11⟩ := pairs_read v s.body x.kvs hs.2 h4
      obtain ⟨xa, xh, xk⟩ := x
      simp only [secOf] at h1 h2 h8
      subst h1 h2
      simp only [List.map_cons, List.flatMap_cons]
      refine ⟨by rw [h6, h8, h10], .append (.append h9 h11) h7⟩

theorem keys_ne {v : TomlVersion} {ks : List AstKey} {ns : List DKey} (h : ks ≠ []) (hm : keysMean v ks ns) : ns ≠ [] := by
  rintro rfl
  cases ks with
  | nil => exact h rfl
  | cons => exact hm

theorem kvs_hasKeys {v : TomlVersion} : (ps : List Pair) → (kvs : List (AstKeyValue Scalar)) → pairsFine wordsReadable ps → pairsMean v ps kvs →
    ∀ kv ∈ kvs, ∀ x, kv ≠ .mk (some []) x
  | [], [], _, _ => nofun
  | [], _ :: _, _, hm => by simp [pairsMean] at hm
  | .mk ks x :: ps, [], _, hm => by simp [pairsMean] at hm
  | .mk ks x :: ps, .mk none _ :: _, _, hm => by simp [pairsMean] at hm
  | .mk ks x :: ps, .mk (some _) none :: _, _, hm => by simp [pairsMean] at hm
  | .mk ks x :: ps, .mk (some ns) (some y) :: kvs, hf, hm => by
    rw [pairsFine] at hf
    rw [pairsMean] at hm
    intro kv hkv z e
    rcases List.mem_cons.mp hkv with rfl | hkv
    · cases e
      exact keys_ne hf.1.1.1.1 hm.1 rfl
    · exact kvs_hasKeys ps kvs hf.2 hm.2.2 kv hkv z e

theorem secs_hasKeys {v : TomlVersion} : (ss : List Sec) → (xs : List (AstSection Scalar)) →
    (∀ s ∈ ss, KeysFine wordsReadable s.header ∧ pairsFine wordsReadable s.pairs) → secsMean v ss xs →
    ∀ x ∈ xs, x.header ≠ some [] ∧ ∀ kv ∈ x.kvs, ∀ y, kv ≠ .mk (some []) y
  | [], [], _, _ => nofun
  | [], _ :: _, _, hm => hm.elim
  | _ :: _, [], _, hm => hm.elim
  | s :: ss, x :: xs, hf, hm => by
    obtain ⟨⟨-, ⟨ns, h2, h3⟩, h4⟩, h5⟩ := hm
    intro y hy
    rcases List.mem_cons.mp hy with rfl | hy
    · refine ⟨fun e => ?_, kvs_hasKeys _ _ (hf s (by simp)).2 h4⟩
      rw [h2] at e
      cases e
      exact keys_ne (hf s (by simp)).1.1.1 h3 rfl
    · exact secs_hasKeys ss xs (fun s hs => hf s (by simp [hs])) h5 y hy

/-- The keys of a document of the grammar are there. -/
theorem file_hasKeys {v : TomlVersion} {f : File} {t : Text} {root : AstRoot Scalar} (h : FileText wordsReadable f t)
    (hm : FileMeans v f root) : HasKeys root := by
  obtain ⟨h1, h2⟩ := lines_fine h
  have h3 := secs_hasKeys _ _ h2 hm.2
  exact ⟨fun s hs => (h3 s hs).1, kvs_hasKeys _ _ h1 hm.1, fun s hs => (h3 s hs).2⟩

/-- A document of the grammar is converted to what it means. -/
theorem root_read {v : TomlVersion} {d : Doc} {t : Text} {root : AstRoot Scalar}
    (h : FileText wordsReadable (fileOf d) t) (hm : FileMeans v (fileOf d) root) :
    astRoot v d = root ∧ Decoded v (docKeys d) := by
  obtain ⟨h1, h2⟩ := lines_fine h
  obtain ⟨h3, h4⟩ := pairs_read v d.body root.kvs h1 hm.1
  obtain ⟨h5, h6⟩ := secs_read v d.sections root.sections h2 hm.2
  obtain ⟨rk, rs⟩ := root
  exact ⟨by rw [astRoot, h3, h5], h4.append h6⟩

end Tombi.Reading
