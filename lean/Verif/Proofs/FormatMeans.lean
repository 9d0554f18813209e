import Verif.Proofs.NormWords
import Verif.Proofs.ReadComments
import Verif.Proofs.FormatCalm
import Verif.Props.Format
import Verif.Model.ReadDocument
/-! Proofs for C71: the document that is read back from a formatted source has the same keys and values. -/
namespace Tombi.Reading
open SyntaxKind
open Tombi.Formatter (Node Body Section Doc Comma Word Env NormN NormB NormF NormP NormS NormSs NormD keyWords commentWords)
open Tombi.Format (AstKey)

/-! ### keys -/

mutual
theorem nodeKeys_norm {E : Env} : (n : Node) → {n' : Node} → NormN E n n' → nodeKeys n' = (nodeKeys n).map E.rk
  | .lit l k t tr, n', h => by
    rw [NormN] at h
    subst h
    simp [nodeKeys]
  | .array l s b tr, n', h => by
    rw [NormN] at h
    obtain ⟨b', multi, rfl, -, -, h1, h2⟩ := h
    rw [nodeKeys, nodeKeys]
    cases multi with
    | true => exact (bodyKeys_normB b (h1 rfl)).1
    | false => exact (bodyKeys_normF b (h2 rfl)).1
  | .table l s b tr, n', h => by
    rw [NormN] at h
    obtain ⟨b', multi, rfl, -, -, h1, h2⟩ := h
    rw [nodeKeys, nodeKeys]
    cases multi with
    | true => exact (bodyKeys_normB b (h1 rfl)).2
    | false => exact (bodyKeys_normF b (h2 rfl)).2
  | .pair l ks s v, n', h => by
    rw [NormN] at h
    obtain ⟨_, v', rfl, hv⟩ := h
    simp [nodeKeys]
theorem itemKeys_norm {E : Env} : (n : Node) → {n' : Node} → NormN E n n' → (f f' : Option Nat) → (c c' : Option Comma) →
    (b b' : Body) → itemKeys b' = (itemKeys b).map E.rk → pairKeys b' = (pairKeys b).map E.rk →
    itemKeys (.item f' n' c' b') = (itemKeys (.item f n c b)).map E.rk ∧
      pairKeys (.item f' n' c' b') = (pairKeys (.item f n c b)).map E.rk
  | .lit l k t tr, n', h, f, f', c, c', b, b', e1, e2 => by
    rw [NormN] at h
    subst h
    simp [itemKeys, pairKeys, nodeKeys, e1, e2]
  | .array l s b0 tr, n', h, f, f', c, c', b, b', e1, e2 => by
    have h0 := nodeKeys_norm _ h
    rw [NormN] at h
    obtain ⟨b1, multi, rfl, -⟩ := h
    simp [itemKeys, pairKeys, h0, e1, e2]
  | .table l s b0 tr, n', h, f, f', c, c', b, b', e1, e2 => by
    have h0 := nodeKeys_norm _ h
    rw [NormN] at h
    obtain ⟨b1, multi, rfl, -⟩ := h
    simp [itemKeys, pairKeys, h0, e1, e2]
  | .pair l ks s v, n', h, f, f', c, c', b, b', e1, e2 => by
    rw [NormN] at h
    obtain ⟨_, v', rfl, hv⟩ := h
    simp [itemKeys, pairKeys, nodeKeys_norm v hv, e1, e2]
theorem bodyKeys_normB {E : Env} : {prev : Formatter.Prev} → (b : Body) → {b' : Body} → NormB E prev b b' →
    itemKeys b' = (itemKeys b).map E.rk ∧ pairKeys b' = (pairKeys b).map E.rk
  | _, .nil, b', h => by rw [NormB] at h; subst h; simp [itemKeys, pairKeys]
  | _, .dangling n cs rest, b', h => by
    rw [NormB] at h
    obtain ⟨rest', rfl, hr⟩ := h
    simpa [itemKeys, pairKeys] using bodyKeys_normB rest hr
  | _, .item f n c rest, b', h => by
    rw [NormB] at h
    obtain ⟨n', rest', rfl, hn, hr⟩ := h
    obtain ⟨e1, e2⟩ := bodyKeys_normB rest hr
    exact itemKeys_norm n hn _ _ _ _ _ _ e1 e2
theorem bodyKeys_normF {E : Env} : {first : Bool} → (b : Body) → {b' : Body} → NormF E first b b' →
    itemKeys b' = (itemKeys b).map E.rk ∧ pairKeys b' = (pairKeys b).map E.rk
  | _, .nil, b', h => by rw [NormF] at h; subst h; simp [itemKeys, pairKeys]
  | _, .dangling n cs rest, b', h => by
    rw [NormF] at h
    simpa [itemKeys, pairKeys] using bodyKeys_normF rest h
  | _, .item f n c rest, b', h => by
    rw [NormF] at h
    obtain ⟨n', rest', rfl, hn, hr⟩ := h
    obtain ⟨e1, e2⟩ := bodyKeys_normF rest hr
    exact itemKeys_norm n hn _ _ _ _ _ _ e1 e2
end

theorem addTrailing_keys (n : Node) (c : Option Text) (f : Option Nat) (cm : Option Comma) (b : Body) :
    nodeKeys (n.addTrailing c) = nodeKeys n ∧ pairKeys (.item f (n.addTrailing c) cm b) = pairKeys (.item f n cm b) := by
  match n with
  | .lit .. => simp [Node.addTrailing, nodeKeys, pairKeys]
  | .array .. => simp [Node.addTrailing, nodeKeys, pairKeys]
  | .table .. => simp [Node.addTrailing, nodeKeys, pairKeys]
  | .pair l ks s v => simp [Node.addTrailing, nodeKeys, pairKeys, (addTrailing_keys v c f cm b).1]

theorem pairKeys_normP {E : Env} : {prev : Formatter.Prev} → (b : Body) → {b' : Body} → NormP E prev b b' →
    pairKeys b' = (pairKeys b).map E.rk
  | _, .nil, b', h => by rw [NormP] at h; subst h; simp [pairKeys]
  | _, .dangling n cs rest, b', h => by
    rw [NormP] at h
    obtain ⟨rest', rfl, hr⟩ := h
    simpa [pairKeys] using pairKeys_normP rest hr
  | _, .item f n c rest, b', h => by
    rw [NormP] at h
    obtain ⟨n', rest', rfl, hn, hr⟩ := h
    have e := pairKeys_normP rest hr
    rw [(addTrailing_keys _ _ _ _ _).2]
    cases n with
    | pair l ks s v =>
      rw [NormN] at hn
      obtain ⟨_, v', rfl, hv⟩ := hn
      simp [pairKeys, nodeKeys_norm v hv, e]
    | lit => rw [NormN] at hn; subst hn; simp [pairKeys, e]
    | array => rw [NormN] at hn; obtain ⟨_, _, rfl, -⟩ := hn; simp [pairKeys, e]
    | table => rw [NormN] at hn; obtain ⟨_, _, rfl, -⟩ := hn; simp [pairKeys, e]

theorem docKeys_norm {E : Env} {d d' : Doc} (h : NormD E d d') : docKeys d' = (docKeys d).map E.rk := by
  unfold docKeys
  rw [List.map_append, pairKeys_normP _ h.1]
  congr 1
  have : ∀ (ss ss' : List Section), NormSs E ss ss' → (ss'.flatMap fun s => s.header ++ pairKeys s.body) =
      (ss.flatMap fun s => s.header ++ pairKeys s.body).map E.rk := by
    intro ss
    induction ss with
    | nil => intro ss' h; have h : ss' = [] := h; subst h; rfl
    | cons s ss ih =>
      intro ss' h
      obtain ⟨s', rest', rfl, ⟨h1, h2, h3, h4, h5⟩, hr⟩ := h
      simp [ih _ hr, h3, pairKeys_normP _ h5]
  exact this _ _ h.2.1

/-! ### values -/

/-- A word keeps its value when it is written. -/
def KeepsValue (E : Env) (v : TomlVersion) : Word → Prop
  | .literal k t => scalarOf v (E.litKind k t) (E.literalText k t) = scalarOf v k t
  | .key k => rawKey v (E.rk k) = rawKey v k
  | _ => True

theorem keys_mem {ks : List AstKey} {k : AstKey} (h : k ∈ ks) : Word.key k ∈ keyWords ks := by
  match ks with
  | [] => cases h
  | [a] => simp at h; subst h; simp [keyWords]
  | a :: b :: ks =>
    rw [keyWords]
    · rcases List.mem_cons.mp h with rfl | h
      · simp
      · simp [keys_mem h]
    · simp

theorem keyOr_kept {E : Env} {v : TomlVersion} {ks : List AstKey} (hd : Decoded v ks)
    (hk : ∀ w ∈ keyWords ks, KeepsValue E v w) : (ks.map E.rk).map (keyOr v) = ks.map (keyOr v) := by
  rw [List.map_map]
  refine List.map_congr_left fun k hm => ?_
  have h1 : rawKey v (E.rk k) = rawKey v k := hk _ (keys_mem hm)
  have h2 := hd k hm
  show (rawKey v (E.rk k)).getD _ = (rawKey v k).getD _
  rw [h1]
  cases h : rawKey v k with
  | none => rw [h] at h2; cases h2
  | some x => rfl

mutual
theorem node_key {k : AstKey} : (n : Node) → k ∈ nodeKeys n → Word.key k ∈ n.words
  | .lit .., h => by simp [nodeKeys] at h
  | .array l s b tr, h => by
    rw [nodeKeys] at h
    simp [Node.words, item_key b h]
  | .table l s b tr, h => by
    rw [nodeKeys] at h
    simp [Node.words, pair_key b h]
  | .pair .., h => by simp [nodeKeys] at h
theorem item_key {k : AstKey} : (b : Body) → k ∈ itemKeys b → Word.key k ∈ b.words
  | .nil, h => by simp [itemKeys] at h
  | .dangling n cs b, h => by
    rw [itemKeys] at h
    simp [Body.words, item_key b h]
  | .item f (.pair l ks s n) c b, h => by
    rw [itemKeys] at h
    simp only [List.mem_append] at h
    rcases h with (h | h) | h
    · simp [Body.words, Node.words, keys_mem h]
    · simp [Body.words, Node.words, node_key n h]
    · simp [Body.words, item_key b h]
  | .item f (.lit l k' t tr) c b, h => by
    rw [itemKeys] at h
    · rcases List.mem_append.mp h with h | h
      · simp [nodeKeys] at h
      · simp [Body.words, item_key b h]
    · nofun
  | .item f (.array l s b0 tr) c b, h => by
    rw [itemKeys] at h
    · rcases List.mem_append.mp h with h | h
      · have := node_key _ h
        simp only [Body.words, List.mem_append]
        exact .inl (.inl this)
      · simp [Body.words, item_key b h]
    · nofun
  | .item f (.table l s b0 tr) c b, h => by
    rw [itemKeys] at h
    · rcases List.mem_append.mp h with h | h
      · have := node_key _ h
        simp only [Body.words, List.mem_append]
        exact .inl (.inl this)
      · simp [Body.words, item_key b h]
    · nofun
theorem pair_key {k : AstKey} : (b : Body) → k ∈ pairKeys b → Word.key k ∈ b.words
  | .nil, h => by simp [pairKeys] at h
  | .dangling n cs b, h => by
    rw [pairKeys] at h
    simp [Body.words, pair_key b h]
  | .item f (.pair l ks s n) c b, h => by
    rw [pairKeys] at h
    simp only [List.mem_append] at h
    rcases h with (h | h) | h
    · simp [Body.words, Node.words, keys_mem h]
    · simp [Body.words, Node.words, node_key n h]
    · simp [Body.words, pair_key b h]
  | .item f (.lit l k' t tr) c b, h => by
    rw [pairKeys] at h
    · simp [Body.words, pair_key b h]
    · nofun
  | .item f (.array l s b0 tr) c b, h => by
    rw [pairKeys] at h
    · simp [Body.words, pair_key b h]
    · nofun
  | .item f (.table l s b0 tr) c b, h => by
    rw [pairKeys] at h
    · simp [Body.words, pair_key b h]
    · nofun
end

theorem key_words {d : Doc} {k : AstKey} (h : k ∈ docKeys d) : Word.key k ∈ d.words := by
  unfold docKeys at h
  unfold Doc.words
  rcases List.mem_append.mp h with h | h
  · exact List.mem_append_left _ (pair_key _ h)
  · obtain ⟨s, hs, h⟩ := List.mem_flatMap.mp h
    refine List.mem_append_right _ (List.mem_flatten.mpr ⟨s.words, List.mem_map_of_mem hs, ?_⟩)
    unfold Section.words
    rcases List.mem_append.mp h with h | h
    · simp [keys_mem h]
    · simp [pair_key _ h]

mutual
theorem valueOf_norm {E : Env} {v : TomlVersion} : (n : Node) → {n' : Node} → (∀ w ∈ n.words, KeepsValue E v w) → Decoded v (nodeKeys n) →
    NormN E n n' → valueOf v n' = valueOf v n
  | .lit l k t tr, n', hk, hd, h => by
    rw [NormN] at h
    subst h
    have : scalarOf v (E.litKind k t) (E.literalText k t) = scalarOf v k t := hk (.literal k t) (by simp [Node.words])
    rw [valueOf, valueOf, this]
  | .array l s b tr, n', hk, hd, h => by
    rw [NormN] at h
    obtain ⟨b', multi, rfl, -, -, h1, h2⟩ := h
    rw [nodeKeys] at hd
    have hk : ∀ w ∈ b.words, KeepsValue E v w := fun w hw => hk w (by simp [Node.words, hw])
    rw [valueOf, valueOf]
    cases multi with
    | true => rw [(body_normB b hk (h1 rfl)).1 hd]
    | false => rw [(body_normF b hk (h2 rfl)).1 hd]
  | .table l s b tr, n', hk, hd, h => by
    rw [NormN] at h
    obtain ⟨b', multi, rfl, -, -, h1, h2⟩ := h
    rw [nodeKeys] at hd
    have hk : ∀ w ∈ b.words, KeepsValue E v w := fun w hw => hk w (by simp [Node.words, hw])
    rw [valueOf, valueOf]
    cases multi with
    | true => rw [(body_normB b hk (h1 rfl)).2 hd]
    | false => rw [(body_normF b hk (h2 rfl)).2 hd]
  | .pair l ks s v, n', hk, hd, h => by
    rw [NormN] at h
    obtain ⟨_, v', rfl, hv⟩ := h
    simp [valueOf]
theorem item_norm {E : Env} {v : TomlVersion} : (n : Node) → {n' : Node} → (∀ w ∈ n.words, KeepsValue E v w) → NormN E n n' →
    (f f' : Option Nat) → (c c' : Option Comma) → (b b' : Body) →
    (Decoded v (itemKeys b) → itemsOf v b' = itemsOf v b) → (Decoded v (pairKeys b) → keyValuesOf v b' = keyValuesOf v b) →
    (Decoded v (itemKeys (.item f n c b)) → itemsOf v (.item f' n' c' b') = itemsOf v (.item f n c b)) ∧
      (Decoded v (pairKeys (.item f n c b)) → keyValuesOf v (.item f' n' c' b') = keyValuesOf v (.item f n c b))
  | .lit l k t tr, n', hk, h, f, f', c, c', b, b', e1, e2 => by
    have h0 := fun hd => valueOf_norm _ hk hd h
    rw [NormN] at h
    subst h
    constructor
    · intro hd
      rw [itemKeys] at hd
      · rw [itemsOf, itemsOf, h0 (fun k hk => hd k (by simp [hk])), e1 (fun k hk => hd k (by simp [hk]))]
        all_goals simp
      · simp
    · intro hd
      rw [pairKeys] at hd
      · rw [keyValuesOf, keyValuesOf, e2 (fun k hk => hd k (by simp [hk]))]
        all_goals simp
      · simp
  | .array l s b0 tr, n', hk, h, f, f', c, c', b, b', e1, e2 => by
    have h0 := fun hd => valueOf_norm _ hk hd h
    rw [NormN] at h
    obtain ⟨b1, multi, rfl, -⟩ := h
    constructor
    · intro hd
      rw [itemKeys] at hd
      · rw [itemsOf, itemsOf, h0 (fun k hk => hd k (by simp [hk])), e1 (fun k hk => hd k (by simp [hk]))]
        all_goals simp
      · simp
    · intro hd
      rw [pairKeys] at hd
      · rw [keyValuesOf, keyValuesOf, e2 (fun k hk => hd k (by simp [hk]))]
        all_goals simp
      · simp
  | .table l s b0 tr, n', hk, h, f, f', c, c', b, b', e1, e2 => by
    have h0 := fun hd => valueOf_norm _ hk hd h
    rw [NormN] at h
    obtain ⟨b1, multi, rfl, -⟩ := h
    constructor
    · intro hd
      rw [itemKeys] at hd
      · rw [itemsOf, itemsOf, h0 (fun k hk => hd k (by simp [hk])), e1 (fun k hk => hd k (by simp [hk]))]
        all_goals simp
      · simp
    · intro hd
      rw [pairKeys] at hd
      · rw [keyValuesOf, keyValuesOf, e2 (fun k hk => hd k (by simp [hk]))]
        all_goals simp
      · simp
  | .pair l ks s n, n', hk, h, f, f', c, c', b, b', e1, e2 => by
    rw [NormN] at h
    obtain ⟨_, v', rfl, hv⟩ := h
    have hkw : ∀ w ∈ keyWords ks, KeepsValue E v w := fun w hw => hk w (by simp [Node.words, hw])
    have hkn : ∀ w ∈ n.words, KeepsValue E v w := fun w hw => hk w (by simp [Node.words, hw])
    constructor
    · intro hd
      rw [itemKeys] at hd
      rw [itemsOf, itemsOf, keyOr_kept (fun k hk => hd k (by simp [hk])) hkw,
        valueOf_norm n hkn (fun k hk => hd k (by simp [hk])) hv, e1 (fun k hk => hd k (by simp [hk]))]
    · intro hd
      rw [pairKeys] at hd
      rw [keyValuesOf, keyValuesOf, keyOr_kept (fun k hk => hd k (by simp [hk])) hkw,
        valueOf_norm n hkn (fun k hk => hd k (by simp [hk])) hv, e2 (fun k hk => hd k (by simp [hk]))]
theorem body_normB {E : Env} {v : TomlVersion} : {prev : Formatter.Prev} → (b : Body) → {b' : Body} → (∀ w ∈ b.words, KeepsValue E v w) →
    NormB E prev b b' → (Decoded v (itemKeys b) → itemsOf v b' = itemsOf v b) ∧
      (Decoded v (pairKeys b) → keyValuesOf v b' = keyValuesOf v b)
  | _, .nil, b', hk, h => by rw [NormB] at h; subst h; exact ⟨fun _ => rfl, fun _ => rfl⟩
  | _, .dangling n cs rest, b', hk, h => by
    rw [NormB] at h
    obtain ⟨rest', rfl, hr⟩ := h
    simpa [itemsOf, keyValuesOf, itemKeys, pairKeys] using body_normB rest (fun w hw => hk w (by simp [Body.words, hw])) hr
  | _, .item f n c rest, b', hk, h => by
    rw [NormB] at h
    obtain ⟨n', rest', rfl, hn, hr⟩ := h
    obtain ⟨e1, e2⟩ := body_normB rest (fun w hw => hk w (by simp [Body.words, hw])) hr
    exact item_norm n (fun w hw => hk w (by simp [Body.words, hw])) hn _ _ _ _ _ _ e1 e2
theorem body_normF {E : Env} {v : TomlVersion} : {first : Bool} → (b : Body) → {b' : Body} → (∀ w ∈ b.words, KeepsValue E v w) →
    NormF E first b b' → (Decoded v (itemKeys b) → itemsOf v b' = itemsOf v b) ∧
      (Decoded v (pairKeys b) → keyValuesOf v b' = keyValuesOf v b)
  | _, .nil, b', hk, h => by rw [NormF] at h; subst h; exact ⟨fun _ => rfl, fun _ => rfl⟩
  | _, .dangling n cs rest, b', hk, h => by
    rw [NormF] at h
    simpa [itemsOf, keyValuesOf, itemKeys, pairKeys] using body_normF rest (fun w hw => hk w (by simp [Body.words, hw])) h
  | _, .item f n c rest, b', hk, h => by
    rw [NormF] at h
    obtain ⟨n', rest', rfl, hn, hr⟩ := h
    obtain ⟨e1, e2⟩ := body_normF rest (fun w hw => hk w (by simp [Body.words, hw])) hr
    exact item_norm n (fun w hw => hk w (by simp [Body.words, hw])) hn _ _ _ _ _ _ e1 e2
end

theorem addTrailing_value (v : TomlVersion) (n : Node) (c : Option Text) (f : Option Nat) (cm : Option Comma) (b : Body) :
    valueOf v (n.addTrailing c) = valueOf v n ∧
      keyValuesOf v (.item f (n.addTrailing c) cm b) = keyValuesOf v (.item f n cm b) := by
  match n with
  | .lit .. => simp [Node.addTrailing, valueOf, keyValuesOf]
  | .array .. => simp [Node.addTrailing, valueOf, keyValuesOf]
  | .table .. => simp [Node.addTrailing, valueOf, keyValuesOf]
  | .pair l ks s n => simp [Node.addTrailing, valueOf, keyValuesOf, (addTrailing_value v n c f cm b).1]

theorem keyValues_normP {E : Env} {v : TomlVersion} : {prev : Formatter.Prev} → (b : Body) → {b' : Body} →
    (∀ w ∈ b.words, KeepsValue E v w) → Decoded v (pairKeys b) → NormP E prev b b' → keyValuesOf v b' = keyValuesOf v b
  | _, .nil, b', hk, hd, h => by rw [NormP] at h; subst h; rfl
  | _, .dangling n cs rest, b', hk, hd, h => by
    rw [NormP] at h
    obtain ⟨rest', rfl, hr⟩ := h
    rw [pairKeys] at hd
    rw [keyValuesOf, keyValuesOf]
    exact keyValues_normP rest (fun w hw => hk w (by simp [Body.words, hw])) hd hr
  | _, .item f n c rest, b', hk, hd, h => by
    rw [NormP] at h
    obtain ⟨n', rest', rfl, hn, hr⟩ := h
    rw [(addTrailing_value v _ _ _ _ _).2]
    have hkn : ∀ w ∈ n.words, KeepsValue E v w := fun w hw => hk w (by simp [Body.words, hw])
    have e : Decoded v (pairKeys rest) → keyValuesOf v rest' = keyValuesOf v rest := fun hd' =>
      keyValues_normP rest (fun w hw => hk w (by simp [Body.words, hw])) hd' hr
    cases n with
    | pair l ks s n =>
      rw [NormN] at hn
      obtain ⟨_, v', rfl, hv⟩ := hn
      rw [pairKeys] at hd
      rw [keyValuesOf, keyValuesOf, keyOr_kept (fun k hk => hd k (by simp [hk])) (fun w hw => hkn w (by simp [Node.words, hw])),
        valueOf_norm n (fun w hw => hkn w (by simp [Node.words, hw])) (fun k hk => hd k (by simp [hk])) hv,
        e (fun k hk => hd k (by simp [hk]))]
    | lit => rw [NormN] at hn; subst hn; simp [pairKeys] at hd; simp [keyValuesOf, e hd]
    | array => rw [NormN] at hn; obtain ⟨_, _, rfl, -⟩ := hn; simp [pairKeys] at hd; simp [keyValuesOf, e hd]
    | table => rw [NormN] at hn; obtain ⟨_, _, rfl, -⟩ := hn; simp [pairKeys] at hd; simp [keyValuesOf, e hd]

theorem astRoot_norm {E : Env} {v : TomlVersion} {d d' : Doc} (hk : ∀ w ∈ d.words, KeepsValue E v w) (hd : Decoded v (docKeys d))
    (h : NormD E d d') : astRoot v d' = astRoot v d := by
  have hk1 : ∀ w ∈ d.body.words, KeepsValue E v w := fun w hw => hk w (List.mem_append_left _ hw)
  have hk2 : ∀ w ∈ (d.sections.map Section.words).flatten, KeepsValue E v w := fun w hw => hk w (List.mem_append_right _ hw)
  have hd1 : Decoded v (pairKeys d.body) := fun k h => hd k (List.mem_append_left _ h)
  have hd2 : Decoded v (d.sections.flatMap fun s => s.header ++ pairKeys s.body) := fun k h => hd k (List.mem_append_right _ h)
  unfold astRoot
  rw [keyValues_normP _ hk1 hd1 h.1]
  congr 1
  have : ∀ (ss ss' : List Section), (∀ w ∈ (ss.map Section.words).flatten, KeepsValue E v w) →
      Decoded v (ss.flatMap fun s => s.header ++ pairKeys s.body) → NormSs E ss ss' →
      (ss'.map fun s => (⟨s.isArray, some (s.header.map (keyOr v)), keyValuesOf v s.body⟩ : AstSection Scalar)) =
      ss.map fun s => ⟨s.isArray, some (s.header.map (keyOr v)), keyValuesOf v s.body⟩ := by
    intro ss
    induction ss with
    | nil => intro ss' _ _ h; have h : ss' = [] := h; subst h; rfl
    | cons s ss ih =>
      intro ss' hk hd h
      obtain ⟨s', rest', rfl, ⟨h1, h2, h3, h4, h5⟩, hr⟩ := h
      rw [List.map_cons, List.map_cons, ih _ (fun w hw => hk w (by
        rw [List.map_cons, List.flatten_cons]; exact List.mem_append_right _ hw))
        (fun k hk => hd k (by rw [List.flatMap_cons]; exact List.mem_append_right _ hk)) hr, h1, h3,
        keyOr_kept (fun k hk => hd k (by simp [hk])) (fun w hw => hk w (by simp [Section.words, hw])),
        keyValues_normP _ (fun w hw => hk w (by simp [Section.words, hw])) (fun k hk => hd k (by simp [hk])) h5]
  exact this _ _ hk2 hd2 h.2.1

/-! ### comments -/

/-- `t` is one of the comments `cs` as it is printed. -/
def Rendered (E : Env) (cs : List Text) (t : Text) : Prop := ∃ f, ∃ c ∈ cs, t = E.renderComment f c

theorem Rendered.mono {E : Env} {cs cs' : List Text} {t : Text} (h : Rendered E cs t) (hs : ∀ c ∈ cs, c ∈ cs') : Rendered E cs' t := by
  obtain ⟨f, c, hc, e⟩ := h
  exact ⟨f, c, hs c hc, e⟩

theorem Rendered.app {E : Env} {a b a' b' : List Text} (ha : ∀ t ∈ a', Rendered E a t) (hb : ∀ t ∈ b', Rendered E b t) :
    ∀ t ∈ a' ++ b', Rendered E (a ++ b) t := by
  intro t ht
  rcases List.mem_append.mp ht with ht | ht
  · exact (ha t ht).mono fun c hc => by simp [hc]
  · exact (hb t ht).mono fun c hc => by simp [hc]

theorem rl_rendered (E : Env) (cs : List Text) : ∀ t ∈ E.rl cs, Rendered E cs t := by
  intro t ht
  cases cs with
  | nil => cases ht
  | cons c cs =>
    rcases List.mem_cons.mp ht with rfl | ht
    · exact ⟨true, c, by simp, rfl⟩
    · obtain ⟨d, hd, rfl⟩ := List.mem_map.mp ht
      exact ⟨false, d, by simp [hd], rfl⟩

theorem rt_rendered (E : Env) (c : Option Text) : ∀ t ∈ (E.rt c).toList, Rendered E c.toList t := by
  intro t ht
  cases c with
  | none => cases ht
  | some c =>
    have : t = E.renderComment true c := by simpa [Env.rt] using ht
    exact ⟨true, c, by simp, this⟩

theorem rc_rendered (E : Env) (c : Option Comma) : ∀ t ∈ commaComments (c.map E.rc), Rendered E (commaComments c) t := by
  cases c with
  | none => nofun
  | some c => exact Rendered.app (rl_rendered E _) (rt_rendered E _)

theorem headComments_normB {E : Env} : {prev : Formatter.Prev} → (b : Body) → {b' : Body} → NormB E prev b b' →
    ∀ t ∈ headComments b', Rendered E (headComments b) t
  | _, .nil, b', h => by rw [NormB] at h; subst h; nofun
  | _, .dangling n cs rest, b', h => by
    rw [NormB] at h
    obtain ⟨rest', rfl, hr⟩ := h
    exact Rendered.app (rl_rendered E _) (headComments_normB rest hr)
  | _, .item f n c rest, b', h => by
    rw [NormB] at h
    obtain ⟨n', rest', rfl, hn, hr⟩ := h
    nofun

theorem headComments_normF {E : Env} : {first : Bool} → (b : Body) → {b' : Body} → NormF E first b b' → headComments b' = []
  | _, .nil, b', h => by rw [NormF] at h; subst h; rfl
  | _, .dangling n cs rest, b', h => by
    rw [NormF] at h
    exact headComments_normF rest h
  | _, .item f n c rest, b', h => by
    rw [NormF] at h
    obtain ⟨n', rest', rfl, hn, hr⟩ := h
    rfl

mutual
theorem nodeComments_norm {E : Env} : (n : Node) → {n' : Node} → NormN E n n' →
    ∀ t ∈ nodeComments n', Rendered E (nodeComments n) t
  | .lit l k t tr, n', h => by
    rw [NormN] at h
    subst h
    rw [nodeComments, nodeComments]
    exact Rendered.app (rl_rendered E _) (rt_rendered E _)
  | .array l s b tr, n', h => by
    rw [NormN] at h
    obtain ⟨b', multi, rfl, -, -, h1, h2⟩ := h
    rw [nodeComments, nodeComments]
    cases multi with
    | true =>
      exact Rendered.app (Rendered.app (Rendered.app (Rendered.app (rl_rendered E _) (rt_rendered E _))
        (headComments_normB b (h1 rfl))) (rt_rendered E _)) (bodyComments_normB b (h1 rfl))
    | false =>
      exact Rendered.app (Rendered.app (Rendered.app (Rendered.app (rl_rendered E _) (rt_rendered E _))
        (by rw [headComments_normF b (h2 rfl)]; nofun)) (rt_rendered E _)) (bodyComments_normF b (h2 rfl))
  | .table l s b tr, n', h => by
    rw [NormN] at h
    obtain ⟨b', multi, rfl, -, -, h1, h2⟩ := h
    rw [nodeComments, nodeComments]
    cases multi with
    | true =>
      exact Rendered.app (Rendered.app (Rendered.app (Rendered.app (rl_rendered E _) (rt_rendered E _))
        (headComments_normB b (h1 rfl))) (rt_rendered E _)) (bodyComments_normB b (h1 rfl))
    | false =>
      exact Rendered.app (Rendered.app (Rendered.app (Rendered.app (rl_rendered E _) (rt_rendered E _))
        (by rw [headComments_normF b (h2 rfl)]; nofun)) (rt_rendered E _)) (bodyComments_normF b (h2 rfl))
  | .pair l ks s n, n', h => by
    rw [NormN] at h
    obtain ⟨_, v', rfl, hv⟩ := h
    rw [nodeComments, nodeComments]
    exact Rendered.app (rl_rendered E _) (nodeComments_norm n hv)
theorem bodyComments_normB {E : Env} : {prev : Formatter.Prev} → (b : Body) → {b' : Body} → NormB E prev b b' →
    ∀ t ∈ bodyComments b', Rendered E (bodyComments b) t
  | _, .nil, b', h => by rw [NormB] at h; subst h; simp [bodyComments]
  | _, .dangling n cs rest, b', h => by
    rw [NormB] at h
    obtain ⟨rest', rfl, hr⟩ := h
    rw [bodyComments, bodyComments]
    exact bodyComments_normB rest hr
  | _, .item f n c rest, b', h => by
    rw [NormB] at h
    obtain ⟨n', rest', rfl, hn, hr⟩ := h
    rw [bodyComments, bodyComments]
    exact Rendered.app (Rendered.app (nodeComments_norm n hn) (rc_rendered E c)) (bodyComments_normB rest hr)
theorem bodyComments_normF {E : Env} : {first : Bool} → (b : Body) → {b' : Body} → NormF E first b b' →
    ∀ t ∈ bodyComments b', Rendered E (bodyComments b) t
  | _, .nil, b', h => by rw [NormF] at h; subst h; simp [bodyComments]
  | _, .dangling n cs rest, b', h => by
    rw [NormF] at h
    rw [bodyComments]
    exact bodyComments_normF rest h
  | _, .item f n c rest, b', h => by
    rw [NormF] at h
    obtain ⟨n', rest', rfl, hn, hr⟩ := h
    rw [bodyComments, bodyComments]
    refine Rendered.app (Rendered.app (nodeComments_norm n hn) ?_) (bodyComments_normF rest hr)
    split <;> nofun
end

theorem addTrailing_comments (n : Node) (c : Option Text) : ∀ t ∈ nodeComments (n.addTrailing c), t ∈ nodeComments n ∨ c = some t := by
  have or : ∀ (tr : Option Text) (t : Text), t ∈ (tr.or c).toList → t ∈ tr.toList ∨ c = some t := by
    intro tr t h
    cases tr with
    | none => right; simpa using h
    | some x => left; simpa using h
  intro t ht
  match n with
  | .lit l k x tr =>
    rw [Node.addTrailing, nodeComments] at ht
    rw [nodeComments]
    rcases List.mem_append.mp ht with h | h
    · simp [h]
    · rcases or _ _ h with h | h <;> simp [h]
  | .array l s b tr =>
    rw [Node.addTrailing, nodeComments] at ht
    rw [nodeComments]
    simp only [List.mem_append] at ht ⊢
    rcases ht with (((h | h) | h) | h) | h
    · simp [h]
    · simp [h]
    · simp [h]
    · rcases or _ _ h with h | h <;> simp [h]
    · simp [h]
  | .table l s b tr =>
    rw [Node.addTrailing, nodeComments] at ht
    rw [nodeComments]
    simp only [List.mem_append] at ht ⊢
    rcases ht with (((h | h) | h) | h) | h
    · simp [h]
    · simp [h]
    · simp [h]
    · rcases or _ _ h with h | h <;> simp [h]
    · simp [h]
  | .pair l ks s n =>
    rw [Node.addTrailing, nodeComments] at ht
    rw [nodeComments]
    rcases List.mem_append.mp ht with h | h
    · simp [h]
    · rcases addTrailing_comments n c t h with h | h <;> simp [h]

theorem tc_rendered (E : Env) (b : Bool) (c : Option Comma) :
    (∀ t, (E.tc b c).1 = some t → Rendered E (commaComments c) t) ∧
      ∀ t ∈ commaComments (E.tc b c).2, Rendered E (commaComments c) t := by
  cases c with
  | none => exact ⟨nofun, nofun⟩
  | some c =>
    have hkeep := rc_rendered E (some c)
    unfold Env.tc
    simp only []
    split
    · rename_i t ht
      split
      · refine ⟨fun x hx => ?_, nofun⟩
        cases hx
        exact ⟨true, t, by simp [commaComments, ht], rfl⟩
      · exact ⟨nofun, hkeep⟩
    · split
      · exact ⟨nofun, nofun⟩
      · exact ⟨nofun, hkeep⟩

theorem headComments_normP {E : Env} : {prev : Formatter.Prev} → (b : Body) → {b' : Body} → NormP E prev b b' →
    ∀ t ∈ headComments b', Rendered E (headComments b) t
  | _, .nil, b', h => by rw [NormP] at h; subst h; nofun
  | _, .dangling n cs rest, b', h => by
    rw [NormP] at h
    obtain ⟨rest', rfl, hr⟩ := h
    exact Rendered.app (rl_rendered E _) (headComments_normP rest hr)
  | _, .item f n c rest, b', h => by
    rw [NormP] at h
    obtain ⟨n', rest', rfl, hn, hr⟩ := h
    nofun

theorem bodyComments_normP {E : Env} : {prev : Formatter.Prev} → (b : Body) → {b' : Body} → NormP E prev b b' →
    ∀ t ∈ bodyComments b', Rendered E (bodyComments b) t
  | _, .nil, b', h => by rw [NormP] at h; subst h; simp [bodyComments]
  | _, .dangling n cs rest, b', h => by
    rw [NormP] at h
    obtain ⟨rest', rfl, hr⟩ := h
    rw [bodyComments, bodyComments]
    exact bodyComments_normP rest hr
  | _, .item f n c rest, b', h => by
    rw [NormP] at h
    obtain ⟨n', rest', rfl, hn, hr⟩ := h
    rw [bodyComments, bodyComments]
    refine Rendered.app (fun t ht => ?_) (bodyComments_normP rest hr)
    obtain ⟨h1, h2⟩ := tc_rendered E n.trailing.isSome c
    rcases List.mem_append.mp ht with ht | ht
    · rcases addTrailing_comments _ _ t ht with ht | ht
      · exact (nodeComments_norm n hn t ht).mono fun c hc => by simp [hc]
      · exact (h1 t ht).mono fun c hc => by simp [hc]
    · exact (h2 t ht).mono fun c hc => by simp [hc]

theorem docComments_norm {E : Env} {d d' : Doc} (h : NormD E d d') : ∀ t ∈ docComments d', Rendered E (docComments d) t := by
  unfold docComments
  refine Rendered.app (Rendered.app (headComments_normP _ h.1) (bodyComments_normP _ h.1)) ?_
  have : ∀ (ss ss' : List Section), NormSs E ss ss' →
      ∀ t ∈ ss'.flatMap (fun s => s.leading ++ s.trailing.toList ++ headComments s.body ++ bodyComments s.body),
        Rendered E (ss.flatMap fun s => s.leading ++ s.trailing.toList ++ headComments s.body ++ bodyComments s.body) t := by
    intro ss
    induction ss with
    | nil => intro ss' h; have h : ss' = [] := h; subst h; nofun
    | cons s ss ih =>
      intro ss' h
      obtain ⟨s', rest', rfl, ⟨h1, h2, h3, h4, h5⟩, hr⟩ := h
      rw [List.flatMap_cons, List.flatMap_cons, h2, h4]
      exact Rendered.app (Rendered.app (Rendered.app (Rendered.app (rl_rendered E _) (rt_rendered E _))
        (headComments_normP _ h5)) (bodyComments_normP _ h5)) (ih _ hr)
  exact this _ _ h.2.1

theorem commentOk_iff (u : Text) : commentOk ('#' :: u) = true ↔ ∀ c ∈ u, CommentChar c := by
  refine ⟨fun h => ?_, commentOk_of⟩
  have h2 : byteDrop 1 ('#' :: u) = some u := by
    have := byteDrop_append ['#'] u
    simpa [utf8Len, show '#'.utf8Size = 1 from rfl] using this
  unfold commentOk at h
  rw [h2] at h
  simp only [Option.map_some, TomlText.parseLiteralString] at h
  cases ho : TomlText.literalLoop false [] u with
  | error e => rw [ho] at h; cases h
  | ok o => exact (C15_single_line_ok u).mp ((literalLoop_ok false [] u o).mp ho).2

theorem CommentChar.drop {s : Text} (p : Char → Bool) (h : ∀ c ∈ s, CommentChar c) : ∀ c ∈ s.dropWhile p, CommentChar c :=
  fun c hc => h c ((List.dropWhile_sublist _).mem hc)

theorem CommentChar.trim {s : Text} (h : ∀ c ∈ s, CommentChar c) : ∀ c ∈ Format.trim s, CommentChar c := by
  intro c hc
  unfold Format.trim Format.trimStart at hc
  exact h c ((List.dropWhile_sublist _).mem (List.mem_reverse.mp ((List.dropWhile_sublist _).mem (List.mem_reverse.mp hc))))

theorem CommentChar.text {strip : Bool} {c : Char} {s : Text} (h : ∀ x ∈ c :: s, CommentChar x) :
    ∀ x ∈ Format.commentText strip c s, CommentChar x := by
  have hb : CommentChar ' ' := .inr (by decide)
  have hs : ∀ x ∈ s, CommentChar x := fun x hx => h x (by simp [hx])
  unfold Format.commentText
  split
  · intro x hx
    rcases List.mem_cons.mp hx with rfl | hx
    · exact hb
    · exact h x hx
  · split
    · intro x hx
      rcases List.mem_cons.mp hx with rfl | hx
      · exact hb
      · exact CommentChar.drop _ hs x hx
    · intro x hx
      rcases List.mem_cons.mp hx with rfl | hx
      · exact hb
      · exact hs x hx

theorem CommentChar.hashes {strip : Bool} (s : Text) : (c : Char) → (∀ x ∈ c :: s, CommentChar x) →
    ∀ x ∈ Format.commentHashes strip c s, CommentChar x := by
  have hb : CommentChar '#' := .inr (by decide)
  induction s with
  | nil =>
    intro c h
    rw [Format.commentHashes]
    split
    · intro x hx; simp at hx; rw [hx]; exact hb
    · exact CommentChar.text h
  | cons d s ih =>
    intro c h
    rw [Format.commentHashes]
    split
    · intro x hx
      rcases List.mem_cons.mp hx with rfl | hx
      · exact hb
      · exact ih d (fun x hx => h x (by simp [List.mem_cons.mp hx])) x hx
    · exact CommentChar.text h

theorem CommentChar.plain {strip : Bool} {s : Text} (h : ∀ x ∈ s, CommentChar x) : ∀ x ∈ Format.plainComment strip s, CommentChar x := by
  cases s with
  | nil => nofun
  | cons c s =>
    unfold Format.plainComment
    split
    · have hb : CommentChar '!' := .inr (by decide)
      cases s with
      | nil => intro x hx; simp at hx; rw [hx]; exact hb
      | cons d s =>
        intro x hx
        rcases List.mem_cons.mp hx with rfl | hx
        · exact hb
        · exact CommentChar.text (fun x hx => h x (by simp [List.mem_cons.mp hx])) x hx
    · split
      · exact CommentChar.hashes s c h
      · exact CommentChar.text h

/-- A valid comment is printed as a valid comment, if the formatter of directives does the same. -/
theorem comment_rendered {preserve : Bool} {fmt : Text → Option Text} {strip : Bool} {u : Text} {out : Text}
    (hf : ∀ content out, fmt content = some out → (∀ c ∈ content, CommentChar c) → ∀ c ∈ out, CommentChar c)
    (h : ∀ c ∈ u, CommentChar c) (ho : Format.formatComment preserve fmt strip ('#' :: u) = some out) :
    ∀ c ∈ out, CommentChar c := by
  have hh : ∀ c ∈ '#' :: u, CommentChar c := by
    intro c hc
    rcases List.mem_cons.mp hc with rfl | hc
    · exact .inr (by decide)
    · exact h c hc
  have hdc : ∀ s, (∀ c ∈ s, CommentChar c) → ∀ c ∈ Format.directiveContent fmt s, CommentChar c := by
    intro s hs
    unfold Format.directiveContent
    split
    · exact CommentChar.trim hs
    · exact hf _ _ ‹_› hs
  have strip_mem : ∀ (p s r : Text), Format.stripPrefix p s = some r → ∀ c ∈ r, c ∈ s := by
    intro p s r h c hc
    rw [stripPrefix_some.mp h]
    simp [hc]
  have app : ∀ {a b : Text}, (∀ c ∈ a, CommentChar c) → (∀ c ∈ b, CommentChar c) → ∀ c ∈ a ++ b, CommentChar c := by
    intro a b ha hb c hc
    rcases List.mem_append.mp hc with hc | hc
    · exact ha c hc
    · exact hb c hc
  unfold Format.formatComment at ho
  split at ho
  · cases ho; exact hh
  · split at ho
    · rename_i uri hu
      cases ho
      exact app (by unfold CommentChar Format.schemaPrefix; decide) (CommentChar.trim fun c hc => hh c (strip_mem _ _ _ hu c hc))
    · split at ho
      · rename_i content hu
        cases ho
        exact app (by unfold CommentChar Format.documentPrefix; decide) (hdc _ fun c hc => hh c (strip_mem _ _ _ hu c hc))
      · split at ho
        · cases ho
        · rename_i content hv
          cases ho
          refine app (by unfold CommentChar Format.valuePrefix; decide) (hdc _ fun c hc => ?_)
          rw [valueDirective_hash] at hv
          simp only [Option.some.injEq] at hv
          exact h c ((List.dropWhile_sublist _).mem (strip_mem _ _ _ hv c hc))
        · unfold Format.formatPlain at ho
          have ht : ∀ c ∈ Format.trimAsciiEnd ('#' :: u), CommentChar c := by
            intro c hc
            unfold Format.trimAsciiEnd at hc
            exact hh c (List.mem_reverse.mp ((List.dropWhile_sublist _).mem (List.mem_reverse.mp hc)))
          split at ho
          · cases ho
          · rename_i x t hx
            rw [hx] at ht
            cases ho
            intro c hc
            rcases List.mem_cons.mp hc with rfl | hc
            · exact ht _ (by simp)
            · exact CommentChar.plain (fun c hc => ht c (by simp [hc])) c hc

/-! ### literals and keys -/

theorem literal_kept (E : Env) (hd : DelimiterSetting E.defs.dateTimeDelimiter) (v : TomlVersion) {k : SyntaxKind} {t : Text}
    (h : Formatter.TomlLiteral k t) : KeepsValue E v (.literal k t) := by
  have same : E.literalText k t = t → (k = BASIC_STRING → Spec.BasicString t) → (k = LITERAL_STRING → Spec.LiteralString t) →
      KeepsValue E v (.literal k t) := by
    intro h hb hl
    have hk : E.litKind k t = k := by
      unfold Env.litKind
      rw [h]
      by_cases h1 : k = BASIC_STRING
      · rw [Formatter.written_basic (hb h1) k (.inl h1), h1]
      · by_cases h2 : k = LITERAL_STRING
        · rw [Formatter.written_literal (hl h2) k (.inr h2), h2]
        · unfold Formatter.writtenKind
          split
          · exact absurd rfl h1
          · exact absurd rfl h2
          · rfl
    show scalarOf v (E.litKind k t) (E.literalText k t) = scalarOf v k t
    rw [hk, h]
  cases h with
  | basic h =>
    obtain ⟨out, h1, h2⟩ := C33_basic_string t h E.defs.stringQuoteStyle v
    have hkt : E.literalText BASIC_STRING t = out := by
      show (Format.formatBasicString t E.defs.stringQuoteStyle).getD t = out
      rw [h1]; rfl
    rcases h2 with ⟨-, -, -, hl, he⟩ | ⟨-, rfl⟩
    · show scalarOf v (Formatter.writtenKind (E.literalText BASIC_STRING t) BASIC_STRING) (E.literalText BASIC_STRING t) = _
      rw [hkt, Formatter.written_literal hl BASIC_STRING (.inl rfl)]
      show (okOf _).map _ = (okOf _).map _
      rw [he]
    · exact same hkt (fun _ => h) (fun e => by cases e)
  | literal h =>
    obtain ⟨out, h1, h2⟩ := C33_literal_string t h E.defs.stringQuoteStyle v
    have hkt : E.literalText LITERAL_STRING t = out := by
      show (Format.formatLiteralString t E.defs.stringQuoteStyle).getD t = out
      rw [h1]; rfl
    rcases h2 with ⟨-, -, -, hl, he⟩ | ⟨-, rfl⟩
    · show scalarOf v (Formatter.writtenKind (E.literalText LITERAL_STRING t) LITERAL_STRING) (E.literalText LITERAL_STRING t) = _
      rw [hkt, Formatter.written_basic hl LITERAL_STRING (.inr rfl)]
      show (okOf _).map _ = (okOf _).map _
      rw [he]
    · exact same hkt (fun e => by cases e) (fun _ => h)
  | offsetDateTime h =>
    obtain ⟨wd, v1, rfl, g1, u2, v2, rfl, g2, u3, v3, rfl, g3, u4, v4, rfl, g4, rfl⟩ := h
    obtain ⟨hl, ha⟩ := date_ascii g1
    obtain ⟨c, rfl, hc⟩ := sep_of g2
    obtain ⟨hm, r, rfl, hl2, ha2⟩ := time_ascii (time_of_toml g3)
    have e : wd ++ ([c] ++ (hm ++ r ++ (u4 ++ []))) = wd ++ c :: (hm ++ (r ++ u4)) := by simp
    rw [e]
    obtain ⟨c', k1, k2, -, -⟩ := formatDateTime_eq hd (r := hm ++ (r ++ u4)) hl ha hc
    have ht : E.literalText OFFSET_DATE_TIME (wd ++ c :: (hm ++ (r ++ u4))) = wd ++ c' :: (hm ++ (r ++ u4)) := by
      show (Format.formatDateTime E.defs.dateTimeDelimiter _).getD _ = _
      rw [k2]; rfl
    show scalarOf v (Formatter.writtenKind _ OFFSET_DATE_TIME) _ = _
    rw [show ∀ x, Formatter.writtenKind x OFFSET_DATE_TIME = OFFSET_DATE_TIME from fun _ => rfl, ht]
    show (DateTime.tryNewOffsetDateTime v _).toOption.map _ = (DateTime.tryNewOffsetDateTime v _).toOption.map _
    unfold DateTime.tryNewOffsetDateTime
    rw [makeDatetimeStr_eq hl ha hl2 ha2 hc, makeDatetimeStr_eq hl ha hl2 ha2 k1]
  | localDateTime h =>
    obtain ⟨wd, v1, rfl, g1, u2, v2, rfl, g2, u3, v3, rfl, g3, rfl⟩ := h
    obtain ⟨hl, ha⟩ := date_ascii g1
    obtain ⟨c, rfl, hc⟩ := sep_of g2
    obtain ⟨hm, r, rfl, hl2, ha2⟩ := time_ascii (time_of_toml g3)
    have e : wd ++ ([c] ++ (hm ++ r ++ [])) = wd ++ c :: (hm ++ r) := by simp
    rw [e]
    obtain ⟨c', k1, k2, -, -⟩ := formatDateTime_eq hd (r := hm ++ r) hl ha hc
    have ht : E.literalText LOCAL_DATE_TIME (wd ++ c :: (hm ++ r)) = wd ++ c' :: (hm ++ r) := by
      show (Format.formatDateTime E.defs.dateTimeDelimiter _).getD _ = _
      rw [k2]; rfl
    show scalarOf v (Formatter.writtenKind _ LOCAL_DATE_TIME) _ = _
    rw [show ∀ x, Formatter.writtenKind x LOCAL_DATE_TIME = LOCAL_DATE_TIME from fun _ => rfl, ht]
    show (DateTime.tryNewLocalDateTime v _).toOption.map _ = (DateTime.tryNewLocalDateTime v _).toOption.map _
    unfold DateTime.tryNewLocalDateTime
    rw [makeDatetimeStr_eq hl ha hl2 ha2 hc, makeDatetimeStr_eq hl ha hl2 ha2 k1]
  | _ => exact same rfl (fun e => by cases e) (fun e => by cases e)

theorem key_kept (E : Env) (v : TomlVersion) {k : AstKey} (h : Formatter.TomlWord (.key k)) : KeepsValue E v (.key k) := by
  cases k with
  | bare t => exact rfl
  | basic t =>
    have h : Spec.BasicString t := h
    obtain ⟨out, h1, h2⟩ := C33_basic_string t h E.defs.keyQuoteStyle v
    have hkt : E.keyText (.basic t) = out := by
      show (Format.formatBasicString t E.defs.keyQuoteStyle).getD t = out
      rw [h1]; rfl
    rcases h2 with ⟨-, -, -, hl, he⟩ | ⟨-, rfl⟩
    · have hrk := (Formatter.rk_requoted hkt).2 hl (by simp [Formatter.keyKind])
      show rawKey v (E.rk _) = _
      rw [hrk]
      show okOf _ = okOf _
      rw [he]
    · have hrk := (Formatter.rk_requoted hkt).1 h (by simp [Formatter.keyKind])
      show rawKey v (E.rk _) = _
      rw [hrk]
  | literal t =>
    have h : Spec.LiteralString t := h
    obtain ⟨out, h1, h2⟩ := C33_literal_string t h E.defs.keyQuoteStyle v
    have hkt : E.keyText (.literal t) = out := by
      show (Format.formatLiteralString t E.defs.keyQuoteStyle).getD t = out
      rw [h1]; rfl
    rcases h2 with ⟨-, -, -, hl, he⟩ | ⟨-, rfl⟩
    · have hrk := (Formatter.rk_requoted hkt).1 hl (by simp [Formatter.keyKind])
      show rawKey v (E.rk _) = _
      rw [hrk]
      show okOf _ = okOf _
      rw [he]
    · have hrk := (Formatter.rk_requoted hkt).2 h (by simp [Formatter.keyKind])
      show rawKey v (E.rk _) = _
      rw [hrk]

theorem word_kept (E : Env) (hd : DelimiterSetting E.defs.dateTimeDelimiter) (v : TomlVersion) {w : Word}
    (h : Formatter.TomlWord w) : KeepsValue E v w := by
  cases w with
  | key k => exact key_kept E v h
  | literal k t => exact literal_kept E hd v h
  | mark => trivial
  | comment => trivial

end Tombi.Reading
