import Verif.Proofs.KeysMeaning
import Verif.Props.DocumentTree

/-! Sorting sections that are flat and near does not change what the document denotes. -/
namespace Tombi
open Spec

variable {σ S : Type}

theorem perm_of_atPath {l l' : List Nat} (path : Nat → List Accessor) (h : ∀ q, atPath path q l = atPath path q l') : l.Perm l' := by
  rw [List.perm_iff_count]
  intro m
  have := congrArg (List.count m) (h (path m))
  unfold atPath at this
  rwa [List.count_filter (by simp), List.count_filter (by simp)] at this

theorem pathAt_zipIdx {paths : List (List Accessor)} {t : Target Nat} (h : t ∈ paths.zipIdx) : pathAt paths t.2 = t.1 := by
  obtain ⟨p, i⟩ := t
  have := List.mem_zipIdx_iff_getElem?.1 h
  unfold pathAt
  simp only at this ⊢
  rw [this]; rfl

theorem zipIdx_positions (paths : List (List Accessor)) : paths.zipIdx.map (·.2) = List.range paths.length := by
  rw [List.zipIdx_map_snd, ← List.range_eq_range']

/-! ### Places in the order of the document -/

/-- The places of sections, in the order of the document. -/
theorem sectionPath_before {sections a b c : List (AstSection σ)} {s s' : AstSection σ} (hh : HasHeaders sections)
    (hs : sections = a ++ s :: (b ++ s' :: c)) :
    (∀ q i j, q ++ [.index j] <+: sectionPath (openedBy [] a) s →
      q ++ [.index i] <+: sectionPath (openedBy [] (a ++ s :: b)) s' → j ≤ i) ∧
    ∀ q i, sectionPath (openedBy [] (a ++ s :: b)) s' = q ++ [.index i] →
      ¬ q ++ [.index i] <+: sectionPath (openedBy [] a) s := by
  have h1 : ∃ k ks, s.header = some (k :: ks) := hh s (by rw [hs]; simp)
  have h2 : ∃ k ks, s'.header = some (k :: ks) := hh s' (by rw [hs]; simp)
  have hle : ∀ q, (openedBy [] a).count q + (if s.isArray = true ∧ named (openedBy [] a) (s.header.getD []) = q then 1 else 0) ≤
      (openedBy [] (a ++ s :: b)).count q := by
    intro q
    rw [openedBy_append, openedBy, ← openedAfter_count]
    exact openedBy_count_le _ _ _
  constructor
  · intro q i j hj hi
    have hl := hle q
    rcases sectionPath_index h1 hj with e | ⟨e, e'⟩ <;> rcases sectionPath_index h2 hi with f | ⟨f, -⟩
    · split at hl <;> omega
    · split at hl <;> omega
    · rw [if_pos e'] at hl; omega
    · rw [if_pos e'] at hl; omega
  · intro q i he hi
    have hl := hle q
    have hc : (openedBy [] (a ++ s :: b)).count q = i := by
      obtain ⟨k, ks, h2⟩ := h2
      obtain ⟨ks', last, hl⟩ : ∃ ks' last, k :: ks = ks' ++ [last] := by
        rcases List.eq_nil_or_concat (k :: ks) with h | ⟨a, b, h⟩
        · cases h
        · exact ⟨a, b, by rw [h, List.concat_eq_append]⟩
      rw [sectionPath_eq (h2.trans (congrArg some hl))] at he
      split at he
      · have he' : (resolve (openedBy [] (a ++ s :: b)) [] ks' ++ [Step.key last]) ++
            [.index ((openedBy [] (a ++ s :: b)).count (resolve (openedBy [] (a ++ s :: b)) [] ks' ++ [.key last]))] =
            q ++ [.index i] := by rw [← he]; simp
        have e1 := List.append_inj_left' he' rfl
        have e2 := List.append_inj_right' he' rfl
        injection e2 with e2
        injection e2 with e2
        rw [← e1, e2]
      · have := List.append_inj_right' he rfl
        injection this with this
        cases this
    rcases sectionPath_index h1 hi with e | ⟨e, e'⟩
    · split at hl <;> omega
    · rw [if_pos e'] at hl; omega

theorem split_at {α : Type} {l : List α} {i : Nat} {x : α} (h : l[i]? = some x) : l = l.take i ++ x :: l.drop (i + 1) := by
  obtain ⟨hi, hx⟩ := List.getElem?_eq_some_iff.1 h
  rw [← hx]
  simp

theorem pathAt_eq {sections : List (AstSection σ)} (hf : Flat sections) (hn : Near sections) (hh : HasHeaders sections)
    {i : Nat} {s : AstSection σ} (hi : sections[i]? = some s) :
    (pathAt (sectionAccessors [] sections) i).map stepOf = sectionPath (openedBy [] (sections.take i)) s := by
  have hp : (sectionAccessors [] sections).map (List.map stepOf) = sectionPaths (openedBy [] []) sections :=
    sectionAccessors_paths [] sections hf hn hh
  have h1 : ((sectionAccessors [] sections).map (List.map stepOf))[i]? =
      some (sectionPath (openedBy [] (sections.take i)) s) := by
    have hlt := (List.getElem?_eq_some_iff.1 hi).1
    rw [hp]
    conv => lhs; rw [split_at hi]
    rw [openedBy, sectionPaths_append, sectionPaths, List.getElem?_append_right (by rw [sectionPaths_length, List.length_take]; omega),
      sectionPaths_length, List.length_take, Nat.min_eq_left (by omega), Nat.sub_self]
    rfl
  rw [List.getElem?_map] at h1
  unfold pathAt
  cases hx : (sectionAccessors [] sections)[i]? with
  | none => rw [hx] at h1; cases h1
  | some p => rw [hx] at h1; injection h1

/-- Two positions in the order of the document. -/
theorem pathAt_before {sections : List (AstSection σ)} (hf : Flat sections) (hn : Near sections) (hh : HasHeaders sections)
    {i j : Nat} (hij : i < j) (hj : j < sections.length) :
    Before (pathAt (sectionAccessors [] sections) i) (pathAt (sectionAccessors [] sections) j) ∧
    ∀ c k, pathAt (sectionAccessors [] sections) j = c ++ [.index k] →
      ¬ pathAt (sectionAccessors [] sections) j <+: pathAt (sectionAccessors [] sections) i := by
  obtain ⟨s, hs⟩ : ∃ s, sections[i]? = some s := ⟨_, List.getElem?_eq_getElem (by omega)⟩
  obtain ⟨s', hs'⟩ : ∃ s', sections[j]? = some s' := ⟨_, List.getElem?_eq_getElem hj⟩
  have hpi := pathAt_eq hf hn hh hs
  have hpj := pathAt_eq hf hn hh hs'
  have hti : (sections.take j)[i]? = some s := by rw [List.getElem?_take, if_pos hij]; exact hs
  have hsplit := split_at hti
  rw [List.take_take, Nat.min_eq_left (by omega)] at hsplit
  have hall : sections = sections.take i ++ s :: (((sections.take j).drop (i + 1)) ++ s' :: sections.drop (j + 1)) := by
    conv => lhs; rw [split_at hs', hsplit]
    simp
  have hb := sectionPath_before hh hall
  rw [← hsplit] at hb
  have hmap : ∀ {c : List Accessor} {a : Accessor} {p : List Accessor}, c ++ [a] <+: p → c.map stepOf ++ [stepOf a] <+: p.map stepOf := by
    rintro c a p ⟨r, rfl⟩
    exact ⟨r.map stepOf, by simp⟩
  have hstrict : ∀ c k, pathAt (sectionAccessors [] sections) j = c ++ [.index k] →
      ¬ pathAt (sectionAccessors [] sections) j <+: pathAt (sectionAccessors [] sections) i := by
    intro c k he hp
    rw [he] at hp hpj
    refine hb.2 (c.map stepOf) k (by rw [← hpj]; simp [stepOf]) ?_
    rw [← hpi]
    exact hmap hp
  refine ⟨⟨fun c i' j' h1 h2 => ?_, fun c k he hp => absurd hp (hstrict c k he)⟩, hstrict⟩
  refine hb.1 (c.map stepOf) i' j' ?_ ?_
  · rw [← hpi]; exact hmap h1
  · rw [← hpj]; exact hmap h2

theorem targets_before {sections : List (AstSection σ)} (hf : Flat sections) (hn : Near sections) (hh : HasHeaders sections) :
    (sectionAccessors [] sections).zipIdx.Pairwise fun x y => Before x.1 y.1 := by
  have hlen := sectionAccessors_length [] sections
  rw [List.pairwise_iff_getElem]
  intro i j hi hj hij
  rw [List.length_zipIdx] at hi hj
  have := (pathAt_before hf hn hh hij (by omega)).1
  unfold pathAt at this
  rw [List.getElem?_eq_getElem hi, List.getElem?_eq_getElem hj] at this
  simpa using this

/-! ### The same places -/

theorem resolve_congr {names names' : List (List DKey)} {header : List DKey} (h : ∀ n, n <+: header → n ≠ [] → names.count n = names'.count n)
    (ks done : List DKey) (hk : done ++ ks <+: header) :
    resolve (names.map keyPath) (keyPath done) ks = resolve (names'.map keyPath) (keyPath done) ks := by
  induction ks generalizing done with
  | nil => rfl
  | cons k ks ih =>
    have hk' : (done ++ [k]) ++ ks <+: header := by simpa using hk
    have hn : done ++ [k] <+: header := (List.prefix_append _ _).trans hk'
    have hc := h _ hn (by simp)
    rw [resolve, resolve, show keyPath done ++ [Step.key k] = keyPath (done ++ [k]) by simp [keyPath]]
    unfold enter
    rw [count_keyPath, count_keyPath, ← hc]
    cases names.count (done ++ [k]) with
    | zero => exact ih _ hk'
    | succ n => simp only []; rw [resolve_after_index, resolve_after_index]

theorem sectionPath_congr {names names' : List (List DKey)} {s : AstSection σ} {header : List DKey} (hs : s.header = some header)
    (h0 : header ≠ []) (h : ∀ n, n <+: header → n ≠ [] → names.count n = names'.count n)
    (hpre : ∀ n, n <+: header → n ≠ header → s.isArray = true → names.count n = 0) :
    sectionPath (names.map keyPath) s = sectionPath (names'.map keyPath) s := by
  obtain ⟨ks', last, hl⟩ : ∃ ks' last, header = ks' ++ [last] := by
    rcases List.eq_nil_or_concat header with h | ⟨a, b, h⟩
    · exact absurd h h0
    · exact ⟨a, b, by rw [h, List.concat_eq_append]⟩
  rw [sectionPath_eq (hs.trans (congrArg some hl)), sectionPath_eq (hs.trans (congrArg some hl))]
  have hr : resolve (names.map keyPath) [] ks' = resolve (names'.map keyPath) [] ks' :=
    resolve_congr h ks' [] (by rw [hl]; exact List.prefix_append _ _)
  rw [hr]
  split
  · rename_i ha
    -- nothing on the way is an array of tables
    have hplain : ∀ (ks1 d : List DKey), (d ++ ks1) <+: ks' →
        resolve (names.map keyPath) (keyPath d) ks1 = keyPath (d ++ ks1) := by
      intro ks1
      induction ks1 with
      | nil => intro d _; simp [resolve]
      | cons a ks1 ih1 =>
        intro d hd
        have hd' : (d ++ [a]) ++ ks1 <+: ks' := by simpa using hd
        rw [resolve, show keyPath d ++ [Step.key a] = keyPath (d ++ [a]) by simp [keyPath], enter_zero, ih1 _ hd']
        · simp
        · rw [count_keyPath]
          refine hpre _ ?_ ?_ ha
          · rw [hl]; exact ((List.prefix_append _ _).trans hd').trans (List.prefix_append _ _)
          · intro he
            have h1 := ((List.prefix_append (d ++ [a]) ks1).trans hd').length_le
            have h2 := congrArg List.length (he.trans hl)
            simp only [List.length_append, List.length_singleton] at h1 h2
            omega
    have hp : resolve (names'.map keyPath) [] ks' ++ [Step.key last] = keyPath header := by
      rw [← hr, show resolve (names.map keyPath) [] ks' = keyPath ks' from hplain ks' [] (List.prefix_refl _), hl]
      simp [keyPath]
    rw [hp, count_keyPath, count_keyPath, h header (List.prefix_refl _) h0]
  · rfl

theorem mem_sectionsNodes (sections : List (AstSection σ)) (opened : List Path) (x : Path × Node σ) :
    x ∈ sectionsNodes opened sections ↔ ∃ a s b, sections = a ++ s :: b ∧
      x ∈ wayNodes [] (sectionPath (openedBy opened a) s) ++ below (sectionPath (openedBy opened a) s) (kvsNodes s.kvs) := by
  constructor
  · induction sections generalizing opened with
    | nil => intro h; cases h
    | cons s rest ih =>
      intro h
      rw [sectionsNodes, List.mem_append] at h
      rcases h with h | h
      · exact ⟨[], s, rest, rfl, h⟩
      · obtain ⟨a, s', b, h1, h2⟩ := ih _ h
        exact ⟨s :: a, s', b, by rw [h1]; rfl, h2⟩
  · rintro ⟨a, s, b, h1, h2⟩
    exact sectionsNodes_mem sections opened a b s h1 x h2

/-- Is the section at a position an array of tables of this name? -/
def isArrayAt (sections : List (AstSection σ)) (n : List DKey) (i : Nat) : Bool :=
  match sections[i]? with
  | some s => s.isArray && s.header == some n
  | none => false

theorem arrayNames_count (sections : List (AstSection σ)) (n : List DKey) (l : List Nat) :
    (arrayNames (l.filterMap (sections[·]?))).count n = (l.filter (isArrayAt sections n)).length := by
  induction l with
  | nil => rfl
  | cons i l ih =>
    cases hi : sections[i]? with
    | none =>
      rw [List.filterMap_cons_none (by exact hi), ih, List.filter_cons, if_neg]
      unfold isArrayAt; rw [hi]; simp
    | some s =>
      rw [List.filterMap_cons_some (by exact hi)]
      rw [show s :: l.filterMap (sections[·]?) = [s] ++ l.filterMap (sections[·]?) from rfl, arrayNames_append, List.count_append, ih]
      have : isArrayAt sections n i = (s.isArray && s.header == some n) := by unfold isArrayAt; rw [hi]
      rw [List.filter_cons, this]
      unfold arrayNames
      by_cases ha : s.isArray = true
      · cases hh : s.header with
        | none => simp [ha, hh]
        | some h =>
          by_cases hn : h = n
          · subst hn; simp [ha, hh]; omega
          · simp [ha, hh, hn]
      · simp [ha]

theorem take_positions (sections : List (AstSection σ)) (m : Nat) (h : m ≤ sections.length) :
    (List.range m).filterMap (sections[·]?) = sections.take m := by
  induction m with
  | zero => rfl
  | succ m ih =>
    rw [List.range_succ, List.filterMap_append, ih (by omega), List.take_add_one, List.getElem?_eq_getElem (by omega)]
    simp [List.getElem?_eq_getElem (show m < sections.length by omega)]

theorem mem_wayNodes_table {r p rest : Path} {k : List Char} (h : r = p ++ .key k :: rest) :
    ((p, Node.table) : Path × Node σ) ∈ wayNodes [] r :=
  (mem_wayNodes _ _ _ _).2 (Or.inr ⟨p, .key k, rest, h, by simp, rfl⟩)

theorem mem_wayNodes_array {r p rest : Path} {i : Nat} (h : r = p ++ .index i :: rest) :
    ((p, Node.array) : Path × Node σ) ∈ wayNodes [] r :=
  (mem_wayNodes _ _ _ _).2 (Or.inr ⟨p, .index i, rest, h, by simp, rfl⟩)

theorem resolve_plain {names : List (List DKey)} (ks done : List DKey)
    (h : ∀ d, d <+: done ++ ks → done.length < d.length → d ∉ names) :
    resolve (names.map keyPath) (keyPath done) ks = keyPath (done ++ ks) := by
  induction ks generalizing done with
  | nil => simp [resolve]
  | cons a ks ih =>
    rw [resolve, show keyPath done ++ [Step.key a] = keyPath (done ++ [a]) by simp [keyPath], enter_zero, ih (done ++ [a])]
    · simp
    · intro d hd hlen
      refine h d (by simpa using hd) ?_
      simp only [List.length_append, List.length_singleton] at hlen
      omega
    · rw [count_keyPath, List.count_eq_zero]
      exact h _ ⟨ks, by simp⟩ (by simp)

theorem resolve_cat (opened : List Path) (cur : Path) (a b : List DKey) :
    resolve opened cur (a ++ b) = resolve opened (resolve opened cur a) b := by
  induction a generalizing cur with
  | nil => rfl
  | cons k a ih => exact ih _

/-- The way to a place through at most one array of tables. -/
theorem resolve_flat {names : List (List DKey)} {n r : List DKey} (hn : n ≠ []) (h : ∀ n', n' <+: n ++ r → n' ∈ names → n' = n) :
    resolve (names.map keyPath) [] (n ++ r) =
      keyPath n ++ (match names.count n with | 0 => [] | c + 1 => [.index c]) ++ keyPath r := by
  obtain ⟨n0, k, rfl⟩ : ∃ n0 k, n = n0 ++ [k] := by
    rcases List.eq_nil_or_concat n with h | ⟨a, b, h⟩
    · exact absurd h hn
    · exact ⟨a, b, by rw [h, List.concat_eq_append]⟩
  have h0 : resolve (names.map keyPath) [] n0 = keyPath n0 := by
    refine resolve_plain n0 [] fun d hd hlen hm => ?_
    rw [List.nil_append] at hd
    have := h d ((hd.trans (List.prefix_append _ [k])).trans (List.prefix_append _ _)) hm
    have h1 := hd.length_le
    rw [this] at h1
    simp at h1
    omega
  rw [resolve_cat, resolve_append, h0, show keyPath n0 ++ [Step.key k] = keyPath (n0 ++ [k]) by simp [keyPath]]
  unfold enter
  rw [count_keyPath]
  cases hc : names.count (n0 ++ [k]) with
  | zero =>
    simp only []
    rw [resolve_plain]
    · simp [keyPath]
    · intro d hd _ hm
      have := h d hd hm
      rw [this] at hm
      exact List.count_eq_zero.1 hc hm
  | succ c =>
    simp only []
    rw [resolve_after_index]

theorem map_key_stepOf (n : List DKey) : (n.map Accessor.key).map stepOf = keyPath n := by
  simp [keyPath, Function.comp_def, stepOf]

theorem map_stepOf_inj {p q : List Accessor} (h : p.map stepOf = q.map stepOf) : p = q :=
  List.map_inj_right (fun _ _ h => stepOf_inj h) |>.1 h

/-- The place of an element of an array of tables. -/
theorem pathAt_array {sections : List (AstSection σ)} (hf : Flat sections) (hn : Near sections) (hh : HasHeaders sections)
    {x : Nat} {n : List DKey} (hx : isArrayAt sections n x = true) :
    ∃ k, pathAt (sectionAccessors [] sections) x = n.map .key ++ [.index k] := by
  unfold isArrayAt at hx
  split at hx
  · rename_i s hs
    rw [Bool.and_eq_true, beq_iff_eq] at hx
    obtain ⟨ha, hd⟩ := hx
    have hsp := split_at hs
    have hf' := hf
    have hh' := hh
    rw [hsp] at hf' hh'
    have hp := pathAt_eq hf hn hh hs
    unfold sectionPath at hp
    simp only [] at hp
    rw [if_pos ha, hd, Option.getD_some, flat_opened hf' hh', flat_named hf' hh' (by simp) ha hd] at hp
    exact ⟨_, map_stepOf_inj (q := n.map .key ++ [.index ((List.map keyPath (arrayNames (sections.take x))).count (keyPath n))])
      (by rw [hp, List.map_append, map_key_stepOf]; rfl)⟩
  · cases hx

/-- The place of a section whose header begins with the name of an array of tables. -/
theorem pathAt_below {sections : List (AstSection σ)} (hf : Flat sections) (hn : Near sections) (hh : HasHeaders sections)
    (he : (AstRoot.tree ⟨[], sections⟩).2 = []) {x m : Nat} {n header : List DKey} (hx : isArrayAt sections n x = true)
    {s : AstSection σ} (hs : sections[m]? = some s) (hd : s.header = some header) (hp : n <+: header) (hn0 : n ≠ []) :
    ∃ j, n.map .key ++ [.index j] <+: pathAt (sectionAccessors [] sections) m := by
  by_cases hm : isArrayAt sections n m = true
  · obtain ⟨k, hk⟩ := pathAt_array hf hn hh hm
    exact ⟨k, by rw [hk]; exact List.prefix_refl _⟩
  · have hx' := hx
    unfold isArrayAt at hm hx
    rw [hs] at hm
    simp only [] at hm
    split at hx
    · rename_i sx hsx
      rw [Bool.and_eq_true, beq_iff_eq] at hx
      have hmem : s ∈ sections := List.mem_of_getElem? hs
      have hmemx : sx ∈ sections := List.mem_of_getElem? hsx
      have hiff := hf sx hmemx s hmem hx.1 n header hx.2 hd hp
      have hne : s.isArray = false := by
        cases ha : s.isArray with
        | false => rfl
        | true =>
          exfalso
          refine hm ?_
          rw [Bool.and_eq_true, beq_iff_eq]
          exact ⟨ha, by rw [hd, hiff.1 ha]⟩
      have hnh : n ≠ header := fun h => by rw [hiff.2 h] at hne; cases hne
      obtain ⟨r, hr⟩ := hp
      obtain ⟨r', last, hl⟩ : ∃ r' last, r = r' ++ [last] := by
        rcases List.eq_nil_or_concat r with h | ⟨a, b, h⟩
        · rw [h, List.append_nil] at hr; exact absurd hr hnh
        · exact ⟨a, b, by rw [h, List.concat_eq_append]⟩
      have hsp := split_at hs
      have hf' := hf
      have hh' := hh
      rw [hsp] at hf' hh'
      have hopen := flat_opened hf' hh'
      have hflat : ∀ n', n' <+: n ++ r' → n' ∈ arrayNames (sections.take m) → n' = n := by
        intro n' hp' hm'
        obtain ⟨s', h1, h2, h3⟩ := mem_arrayNames.1 hm'
        have hs' : s' ∈ sections := List.mem_of_mem_take h1
        rcases List.prefix_or_prefix_of_prefix hp' (List.prefix_append n r') with h | h
        · exact (hf s' hs' sx hmemx h2 n' n h3 hx.2 h).1 hx.1
        · exact ((hf sx hmemx s' hs' hx.1 n n' hx.2 h3 h).1 h2).symm
      have hpath : sectionPath (openedBy [] (sections.take m)) s =
          keyPath n ++ (match (arrayNames (sections.take m)).count n with | 0 => [] | c + 1 => [.index c]) ++ keyPath r' ++
            [.key last] := by
        rw [sectionPath_eq (ks := n ++ r') (last := last) (by rw [hd, ← hr, hl]; simp), if_neg (by rw [hne]; simp), hopen,
          resolve_flat hn0 hflat]
      have hpm := pathAt_eq hf hn hh hs
      cases hc : (arrayNames (sections.take m)).count n with
      | succ c =>
        refine ⟨c, map_prefix_inj ?_⟩
        rw [hpm, hpath, hc, List.map_append, map_key_stepOf]
        exact ⟨keyPath r' ++ [.key last], by simp [stepOf]⟩
      | zero =>
        exfalso
        -- the place would be both a table and an array
        rw [hc] at hpath
        obtain ⟨k, hk⟩ := pathAt_array hf hn hh hx'
        have hpx := pathAt_eq hf hn hh hsx
        rw [hk, List.map_append, map_key_stepOf] at hpx
        have hreg : Regular (AstRoot.mk [] sections) := flat_regular [] sections hf hh
        have hboth : ∀ node, (keyPath n, node) ∈ docNodes (AstRoot.mk ([] : List (AstKeyValue σ)) sections) →
            nodeAt (AstRoot.tree ⟨[], sections⟩).1.value (keyPath n) = some node := by
          intro node hnode
          unfold AstRoot.tree at he ⊢
          simp only [List.append_eq_nil_iff] at he
          obtain ⟨h1, h2⟩ := he
          obtain ⟨r1, r2, r3⟩ := root_start h1
          simp only []
          rw [sections_nodes sections [] _ [] r1 r2 (fun s hs => by obtain ⟨k, ks, h⟩ := hh s hs; rw [h]; simp) hreg h2, r3]
          unfold docNodes at hnode
          rw [List.mem_append] at hnode
          exact hnode
        have t1 := hboth .table (by
          unfold docNodes
          refine List.mem_append_right _ ((mem_sectionsNodes _ _ _).2 ⟨_, s, _, hsp, List.mem_append_left _ ?_⟩)
          obtain ⟨k1, rest1, hk1⟩ : ∃ k1 rest1, keyPath r' ++ [Step.key last] = .key k1 :: rest1 := by
            cases r' with
            | nil => exact ⟨last, [], rfl⟩
            | cons a r' => exact ⟨a, keyPath r' ++ [.key last], rfl⟩
          refine mem_wayNodes_table (k := k1) (rest := rest1) ?_
          rw [hpath, ← hk1]
          simp)
        have t2 := hboth .array (by
          unfold docNodes
          refine List.mem_append_right _ ((mem_sectionsNodes _ _ _).2 ⟨_, sx, _, split_at hsx, List.mem_append_left _ ?_⟩)
          exact mem_wayNodes_array (i := k) (rest := []) (by rw [← hpx]; rfl))
        rw [t1] at t2
        cases t2
    · cases hx

/-- A section keeps its place when the sections are put in another order that keeps the elements of arrays in order. -/
theorem same_place {sections : List (AstSection σ)} (hf : Flat sections) (hn : Near sections) (hh : HasHeaders sections)
    (he : (AstRoot.tree ⟨[], sections⟩).2 = []) {rs : List Nat} (hperm : rs.Perm (List.range sections.length))
    (hb : rs.Pairwise fun x y => Before (pathAt (sectionAccessors [] sections) x) (pathAt (sectionAccessors [] sections) y))
    {B A : List Nat} {m : Nat} {s : AstSection σ} (hrs : rs = B ++ m :: A) (hs : sections[m]? = some s) :
    sectionPath (openedBy [] (B.filterMap (sections[·]?))) s = sectionPath (openedBy [] (sections.take m)) s := by
  have hnd : rs.Nodup := hperm.nodup_iff.2 List.nodup_range
  have hlt : ∀ x ∈ rs, x < sections.length := fun x hx => List.mem_range.1 (hperm.mem_iff.1 hx)
  have hm : m < sections.length := hlt m (by rw [hrs]; simp)
  obtain ⟨k, ks, hd⟩ := hh s (List.mem_of_getElem? hs)
  rw [hrs] at hnd hb
  obtain ⟨hndB, hndA, hdis⟩ := List.nodup_append.1 hnd
  obtain ⟨hbB, hbA, hbc⟩ := List.pairwise_append.1 hb
  -- the arrays of tables before the section
  have hcount : ∀ n, n <+: k :: ks → n ≠ [] →
      (arrayNames (B.filterMap (sections[·]?))).count n = (arrayNames (sections.take m)).count n := by
    intro n hp hn0
    rw [← take_positions sections m (by omega), arrayNames_count, arrayNames_count]
    refine List.Perm.length_eq ((List.perm_ext_iff_of_nodup (hndB.filter _) (List.nodup_range.filter _)).2 fun x => ?_)
    rw [List.mem_filter, List.mem_filter, List.mem_range]
    constructor
    · rintro ⟨hx, hq⟩
      refine ⟨?_, hq⟩
      apply Classical.byContradiction
      intro hge
      have hxm : x ≠ m := hdis x hx m List.mem_cons_self
      have hxl := hlt x (by rw [hrs]; exact List.mem_append_left _ hx)
      obtain ⟨i, hi⟩ := pathAt_array hf hn hh hq
      obtain ⟨j, hj⟩ := pathAt_below hf hn hh he hq hs hd hp hn0
      have h1 := (hbc x hx m List.mem_cons_self).1 (n.map .key) j i (by rw [hi]; exact List.prefix_refl _) hj
      have h2 := pathAt_before hf hn hh (show m < x by omega) hxl
      have h3 := h2.1.1 (n.map .key) i j hj (by rw [hi]; exact List.prefix_refl _)
      have : i = j := by omega
      subst this
      exact h2.2 _ _ hi (by rw [hi]; exact hj)
    · rintro ⟨hx, hq⟩
      refine ⟨?_, hq⟩
      apply Classical.byContradiction
      intro hxB
      have hxA : x ∈ A := by
        have : x ∈ rs := hperm.mem_iff.2 (List.mem_range.2 (by omega))
        rw [hrs, List.mem_append, List.mem_cons] at this
        rcases this with h | h | h
        · exact absurd h hxB
        · omega
        · exact h
      obtain ⟨i, hi⟩ := pathAt_array hf hn hh hq
      obtain ⟨j, hj⟩ := pathAt_below hf hn hh he hq hs hd hp hn0
      have h1 := (List.pairwise_cons.1 hbA).1 x hxA
      have h2 := pathAt_before hf hn hh hx hm
      have h3 := h1.1 (n.map .key) i j hj (by rw [hi]; exact List.prefix_refl _)
      have h4 := h2.1.1 (n.map .key) j i (by rw [hi]; exact List.prefix_refl _) hj
      have : i = j := by omega
      subst this
      have h5 := h1.2 _ _ hi (by rw [hi]; exact hj)
      exact h2.2 _ _ (h5.trans hi) (by rw [h5]; exact List.prefix_refl _)
  have hsub : ∀ y ∈ B.filterMap (sections[·]?), y ∈ sections := by
    intro y hy
    obtain ⟨i, _, hi⟩ := List.mem_filterMap.1 hy
    exact List.mem_of_getElem? hi
  have ho1 : openedBy [] (B.filterMap (sections[·]?)) = (arrayNames (B.filterMap (sections[·]?))).map keyPath :=
    flat_opened (rest := []) (fun a ha b hb' => hf a (hsub a (by simpa using ha)) b (hsub b (by simpa using hb')))
      (fun a ha => hh a (hsub a (by simpa using ha)))
  have hsp := split_at hs
  have hf' := hf
  have hh' := hh
  rw [hsp] at hf' hh'
  rw [ho1, flat_opened hf' hh']
  refine sectionPath_congr hd (by simp) hcount ?_
  intro n hp hne ha
  rw [List.count_eq_zero]
  intro hmem
  obtain ⟨s', h1, h2, h3⟩ := mem_arrayNames.1 hmem
  exact hne ((hf s' (hsub s' h1) s (List.mem_of_getElem? hs) h2 n _ h3 hd hp).1 ha)

/-- Sections in another order that keeps the elements of arrays in order denote the same. -/
theorem sections_meaning {sections : List (AstSection σ)} (hf : Flat sections) (hn : Near sections) (hh : HasHeaders sections)
    (he : (AstRoot.tree ⟨[], sections⟩).2 = []) {rs : List Nat} (hperm : rs.Perm (List.range sections.length))
    (hb : rs.Pairwise fun x y => Before (pathAt (sectionAccessors [] sections) x) (pathAt (sectionAccessors [] sections) y))
    (x : Path × Node σ) : x ∈ sectionsNodes [] (rs.filterMap (sections[·]?)) ↔ x ∈ sectionsNodes [] sections := by
  rw [mem_sectionsNodes, mem_sectionsNodes]
  constructor
  · rintro ⟨a, s, b, h1, h2⟩
    obtain ⟨l1, l2, e1, e2, e3⟩ := List.filterMap_eq_append_iff.1 h1
    obtain ⟨c1, m, c2, f1, f2, f3, f4⟩ := List.filterMap_eq_cons_iff.1 e3
    have hB : (l1 ++ c1).filterMap (sections[·]?) = a := by
      rw [List.filterMap_append, e2, List.filterMap_eq_nil_iff.2 f2, List.append_nil]
    have := same_place hf hn hh he hperm hb (B := l1 ++ c1) (m := m) (A := c2) (s := s) (by rw [e1, f1]; simp) f3
    rw [hB] at this
    rw [this] at h2
    exact ⟨_, s, _, split_at f3, h2⟩
  · rintro ⟨a, s, b, h1, h2⟩
    have hm : sections[a.length]? = some s := by rw [h1]; simp
    have hlt : a.length < sections.length := (List.getElem?_eq_some_iff.1 hm).1
    obtain ⟨B, A, hrs⟩ := List.append_of_mem (hperm.mem_iff.2 (List.mem_range.2 hlt))
    have := same_place hf hn hh he hperm hb hrs hm
    have ht : sections.take a.length = a := by rw [h1]; simp
    rw [ht] at this
    rw [← this] at h2
    refine ⟨_, s, A.filterMap (sections[·]?), ?_, h2⟩
    rw [hrs, List.filterMap_append, List.filterMap_cons_some (by exact hm)]

end Tombi
