import Verif.Proofs.KeysOrder4
import Verif.Proofs.DocSteps

/-! The accessors of headers: where arrays of tables are flat and near, they are the places of the tables. -/
namespace Tombi
open Spec

variable {σ S : Type}

/-! ### Arrays of tables that are not nested -/

theorem keyPath_append (a b : List DKey) : keyPath (a ++ b) = keyPath a ++ keyPath b := List.map_append

theorem keyPath_inj {a b : List DKey} (h : keyPath a = keyPath b) : a = b := by
  unfold keyPath at h
  exact List.map_inj_right (fun x y h => by injection h) |>.1 h

theorem index_not_keyPath {p rest : Path} {i : Nat} {n : List DKey} : p ++ .index i :: rest ≠ keyPath n := by
  intro h
  have : Step.index i ∈ keyPath n := by rw [← h]; simp
  unfold keyPath at this
  obtain ⟨k, -, hk⟩ := List.mem_map.1 this
  cases hk

theorem count_keyPath (names : List (List DKey)) (n : List DKey) : (names.map keyPath).count (keyPath n) = names.count n := by
  induction names with
  | nil => rfl
  | cons a rest ih =>
    rw [List.map_cons, List.count_cons, List.count_cons, ih]
    by_cases h : a = n
    · subst h; simp
    · rw [if_neg (by simpa using fun hc => h (keyPath_inj hc)), if_neg (by simpa using h)]

theorem count_not_keyPath (names : List (List DKey)) {p rest : Path} {i : Nat} :
    (names.map keyPath).count (p ++ .index i :: rest) = 0 := by
  refine List.count_eq_zero.2 fun h => ?_
  obtain ⟨n, -, hn⟩ := List.mem_map.1 h
  exact index_not_keyPath hn.symm

theorem resolve_after_index (names : List (List DKey)) (ks : List DKey) (p rest : Path) (i : Nat) :
    resolve (names.map keyPath) (p ++ .index i :: rest) ks = p ++ .index i :: rest ++ keyPath ks := by
  induction ks generalizing rest with
  | nil => simp [resolve, keyPath]
  | cons k ks ih =>
    rw [resolve, show p ++ Step.index i :: rest ++ [Step.key k] = p ++ .index i :: (rest ++ [.key k]) by simp,
      enter_zero (count_not_keyPath names), ih]
    simp [keyPath]

/-- The place reached through keys is given by the accessors, if at most one of the names is an array of tables. -/
theorem resolve_accessors (names arrays : List (List DKey)) (header : List DKey) (ks done : List DKey)
    (hk : done ++ ks <+: header) (hcount : ∀ n, n <+: header → n ≠ [] → arrays.count n = names.count n)
    (hflat : ∀ n n', n <+: header → n' <+: header → 0 < names.count n → 0 < names.count n' → n = n') :
    resolve (names.map keyPath) (keyPath done) ks = keyPath done ++ (headerAccessors arrays true done ks).map stepOf := by
  induction ks generalizing done with
  | nil => simp [resolve, headerAccessors]
  | cons k ks ih =>
    have hk' : (done ++ [k]) ++ ks <+: header := by simpa using hk
    have hn : done ++ [k] <+: header := (List.prefix_append _ _).trans hk'
    have hc := hcount (done ++ [k]) hn (by simp)
    rw [resolve, headerAccessors]
    simp only [Bool.not_true, Bool.and_false, Bool.false_eq_true, if_false]
    rw [show keyPath done ++ [Step.key k] = keyPath (done ++ [k]) by simp [keyPath]]
    rw [hc]
    unfold enter
    rw [count_keyPath]
    cases hcn : names.count (done ++ [k]) with
    | zero =>
      simp only []
      rw [ih (done ++ [k]) hk']
      simp [keyPath, stepOf]
    | succ n =>
      simp only []
      rw [resolve_after_index]
      have hrest : ∀ (ks done' : List DKey), done' ++ ks <+: header → done ++ [k] <+: done' →
          headerAccessors arrays true done' ks = ks.map Accessor.key := by
        intro ks
        induction ks with
        | nil => intro done' _ _; rfl
        | cons k' ks ih' =>
          intro done' hp hd
          have hp' : (done' ++ [k']) ++ ks <+: header := by simpa using hp
          have hn' : done' ++ [k'] <+: header := (List.prefix_append _ _).trans hp'
          have hz : arrays.count (done' ++ [k']) = 0 := by
            rw [hcount _ hn' (by simp)]
            apply Classical.byContradiction
            intro hne
            have := hflat _ _ hn hn' (by omega) (by omega)
            have h1 := hd.length_le
            have h2 := congrArg List.length this
            simp only [List.length_append, List.length_singleton] at h1 h2
            omega
          rw [headerAccessors]
          simp only [Bool.not_true, Bool.and_false, Bool.false_eq_true, if_false, hz]
          rw [ih' _ hp' (hd.trans (List.prefix_append _ _))]
          rfl
      rw [hrest ks (done ++ [k]) hk' (List.prefix_refl _)]
      simp only [List.map_cons, List.map_append, List.map_map, keyPath, stepOf]
      simp [Function.comp_def, stepOf]

theorem headerAccessors_last (arrays : List (List DKey)) (b : Bool) (ks : List DKey) (last : DKey) (done : List DKey) :
    headerAccessors arrays b done (ks ++ [last]) = headerAccessors arrays true done ks ++
      (.key last :: if b then (match arrays.count (done ++ ks ++ [last]) with | 0 => [] | n + 1 => [.index n]) else []) := by
  induction ks generalizing done with
  | nil =>
    simp only [List.nil_append, headerAccessors, List.isEmpty_nil, Bool.true_and, List.append_nil]
    cases b
    · rfl
    · simp only [Bool.not_true, Bool.false_eq_true, if_false]; rfl
  | cons k ks ih =>
    have hne : (ks ++ [last]).isEmpty = false := by cases ks <;> rfl
    rw [List.cons_append, headerAccessors, headerAccessors, ih, hne]
    simp [List.append_assoc]

/-! ### Names and sections -/

theorem mem_arrayNames {sections : List (AstSection σ)} {n : List DKey} :
    n ∈ arrayNames sections ↔ ∃ s ∈ sections, s.isArray = true ∧ s.header = some n := by
  unfold arrayNames
  rw [List.mem_filterMap]
  constructor
  · rintro ⟨s, hs, h⟩
    split at h
    · rename_i ha; exact ⟨s, hs, ha, h⟩
    · cases h
  · rintro ⟨s, hs, ha, h⟩
    exact ⟨s, hs, by rw [if_pos ha]; exact h⟩

theorem arrayNames_append (a b : List (AstSection σ)) : arrayNames (a ++ b) = arrayNames a ++ arrayNames b :=
  List.filterMap_append ..

theorem openedBy_append (opened : List Path) (a b : List (AstSection σ)) :
    openedBy opened (a ++ b) = openedBy (openedBy opened a) b := by
  induction a generalizing opened with
  | nil => rfl
  | cons s a ih => exact ih _

/-- The arrays of tables opened by flat sections. -/
theorem openedBy_flat (done rest : List (AstSection σ)) (hf : Flat (done ++ rest)) (hh : HasHeaders (done ++ rest)) :
    openedBy ((arrayNames done).map keyPath) rest = (arrayNames (done ++ rest)).map keyPath := by
  induction rest generalizing done with
  | nil => simp [openedBy]
  | cons s rest ih =>
    have happ : done ++ s :: rest = (done ++ [s]) ++ rest := by simp
    have hstep : openedAfter ((arrayNames done).map keyPath) s = (arrayNames (done ++ [s])).map keyPath := by
      rw [arrayNames_append, List.map_append]
      unfold openedAfter
      by_cases ha : s.isArray = true
      · rw [if_pos ha]
        obtain ⟨k, ks, hs⟩ := hh s (by simp)
        have harr : arrayNames [s] = [k :: ks] := by simp [arrayNames, ha, hs]
        rw [harr, hs]
        simp only [Option.getD_some, List.map_cons, List.map_nil]
        congr 2
        obtain ⟨ks', last, hl⟩ : ∃ ks' last, k :: ks = ks' ++ [last] := by
          rcases List.eq_nil_or_concat (k :: ks) with h | ⟨a, b, h⟩
          · cases h
          · exact ⟨a, b, by rw [h, List.concat_eq_append]⟩
        rw [hl, named_append]
        have hplain : ∀ (ks1 d : List DKey), (d ++ ks1) <+: ks' →
            resolve ((arrayNames done).map keyPath) (keyPath d) ks1 = keyPath (d ++ ks1) := by
          intro ks1
          induction ks1 with
          | nil => intro d _; simp [resolve]
          | cons a ks1 ih1 =>
            intro d hd
            have hd' : (d ++ [a]) ++ ks1 <+: ks' := by simpa using hd
            rw [resolve, show keyPath d ++ [Step.key a] = keyPath (d ++ [a]) by simp [keyPath], enter_zero, ih1 _ hd']
            · simp
            · rw [count_keyPath, List.count_eq_zero]
              intro hm
              obtain ⟨s', hs', ha', hh'⟩ := mem_arrayNames.1 hm
              have hpre : d ++ [a] <+: k :: ks := by
                rw [hl]; exact ((List.prefix_append _ _).trans hd').trans (List.prefix_append _ _)
              have := (hf s' (by simp [hs']) s (by simp) ha' _ _ hh' hs hpre).1 ha
              have h1 := ((List.prefix_append (d ++ [a]) ks1).trans hd').length_le
              have h2 := congrArg List.length (this.trans hl)
              simp only [List.length_append, List.length_singleton] at h1 h2
              omega
        rw [show resolve ((arrayNames done).map keyPath) [] ks' = keyPath ks' from hplain ks' [] (List.prefix_refl _)]
        simp [keyPath]
      · rw [if_neg ha]
        simp [arrayNames, ha]
    rw [openedBy, hstep, happ]
    exact ih (done ++ [s]) (by rw [← happ]; exact hf) (by rw [← happ]; exact hh)

theorem parentArrayKeys_count {done rest : List (AstSection σ)} {s : AstSection σ} {k : DKey} {ks : List DKey}
    (hn : Near (done ++ s :: rest)) (hs : s.header = some (k :: ks)) (n : List DKey) (hp : n <+: k :: ks) (hne : n ≠ []) :
    (parentArrayKeys done.reverse (k :: ks)).count n = (arrayNames done).count n := by
  have hhead : n.head? = some k := by
    cases n with
    | nil => exact absurd rfl hne
    | cons a n => obtain ⟨rfl, -⟩ := List.cons_prefix_cons.1 hp; rfl
  let P : List DKey → Bool := fun keys => match (k :: ks).head?, keys.head? with
    | some a, some b => a == b
    | _, _ => false
  have hP : ∀ m : List DKey, P m = true ↔ m.head? = some k := by
    intro m
    cases m with
    | nil => exact ⟨fun h => (nomatch h), fun h => (nomatch h)⟩
    | cons a m =>
      show (k == a) = true ↔ _
      simp only [beq_iff_eq, List.head?_cons, Option.some.injEq]
      exact eq_comm
  have hval : parentArrayKeys done.reverse (k :: ks) =
      ((arrayNames done.reverse).takeWhile P).filter fun keys => keys.isPrefixOf (k :: ks) := rfl
  rw [hval, List.count_filter (by exact List.isPrefixOf_iff_prefix.2 hp)]
  have hrev : (arrayNames done).count n = (arrayNames done.reverse).count n := by
    unfold arrayNames
    rw [List.filterMap_reverse, List.count_reverse]
  rw [hrev]
  conv => rhs; rw [← List.takeWhile_append_dropWhile (p := P) (l := arrayNames done.reverse)]
  rw [List.count_append]
  have : ((arrayNames done.reverse).dropWhile P).count n = 0 := by
    rw [List.count_eq_zero]
    intro hm
    -- the first name that is not near
    cases hd : (arrayNames done.reverse).dropWhile P with
    | nil => rw [hd] at hm; cases hm
    | cons x l =>
      have hx : P x = false := by
        have := List.head?_dropWhile_not P (arrayNames done.reverse)
        rw [hd] at this
        simpa using this
      rw [hd] at hm
      rcases List.mem_cons.1 hm with rfl | hm
      · rw [(hP n).2 hhead] at hx; cases hx
      · -- `x` lies between an array of tables `n` and the section
        obtain ⟨l1, l2, hl⟩ := List.append_of_mem hm
        have hsplit : arrayNames done.reverse = ((arrayNames done.reverse).takeWhile P ++ [x] ++ l1) ++ n :: l2 := by
          conv => lhs; rw [← List.takeWhile_append_dropWhile (p := P) (l := arrayNames done.reverse), hd, hl]
          simp
        unfold arrayNames at hsplit
        obtain ⟨a1, a2, e1, e2, e3⟩ := List.filterMap_eq_append_iff.1 hsplit
        obtain ⟨b1, y, b2, f1, f2, f3, f4⟩ := List.filterMap_eq_cons_iff.1 e3
        have hxa : x ∈ arrayNames a1 := by unfold arrayNames; rw [e2]; simp
        obtain ⟨z, hz, hza, hzh⟩ := mem_arrayNames.1 hxa
        have hy : y.isArray = true ∧ y.header = some n := by
          split at f3
          · rename_i ha; exact ⟨ha, f3⟩
          · cases f3
        have hdone : done = b2.reverse ++ y :: ((a1 ++ b1).reverse) := by
          have := congrArg List.reverse e1
          rw [List.reverse_reverse, f1] at this
          rw [this]; simp
        have := hn b2.reverse y (a1 ++ b1).reverse s rest (by rw [hdone]; simp) hy.1 n (k :: ks) hy.2 hs
          (by rw [hhead]; rfl) z (by simp [hz]) hza x hzh
        rw [(hP x).2 this] at hx
        cases hx
  omega

/-- The accessors of the header of a section are the place of its table. -/
theorem header_path {done rest : List (AstSection σ)} {s : AstSection σ} (hf : Flat (done ++ s :: rest))
    (hn : Near (done ++ s :: rest)) (hh : HasHeaders (done ++ s :: rest)) :
    ∃ acc, s.headerAccessors done.reverse = some acc ∧ acc.map stepOf = sectionPath (openedBy [] done) s := by
  obtain ⟨k, ks, hs⟩ := hh s (by simp)
  have hopen : openedBy [] done = (arrayNames done).map keyPath := by
    have hsub : ∀ x ∈ done, x ∈ done ++ s :: rest := fun x hx => List.mem_append_left _ hx
    have := openedBy_flat [] done (fun a ha b hb => hf a (hsub a ha) b (hsub b hb)) (fun x hx => hh x (hsub x hx))
    simpa [arrayNames] using this
  obtain ⟨ks', last, hl⟩ : ∃ ks' last, k :: ks = ks' ++ [last] := by
    rcases List.eq_nil_or_concat (k :: ks) with h | ⟨a, b, h⟩
    · cases h
    · exact ⟨a, b, by rw [h, List.concat_eq_append]⟩
  have hcount : ∀ n, n <+: k :: ks → n ≠ [] → (parentArrayKeys done.reverse (k :: ks)).count n = (arrayNames done).count n :=
    fun n hp hne => parentArrayKeys_count hn hs n hp hne
  have hflat : ∀ n n', n <+: k :: ks → n' <+: k :: ks → 0 < (arrayNames done).count n → 0 < (arrayNames done).count n' → n = n' := by
    intro n n' hp hp' hc hc'
    obtain ⟨a, ha, ha1, ha2⟩ := mem_arrayNames.1 (List.count_pos_iff.1 hc)
    obtain ⟨b, hb, hb1, hb2⟩ := mem_arrayNames.1 (List.count_pos_iff.1 hc')
    rcases List.prefix_or_prefix_of_prefix hp hp' with h | h
    · exact (hf a (by simp [ha]) b (by simp [hb]) ha1 _ _ ha2 hb2 h).1 hb1
    · exact ((hf b (by simp [hb]) a (by simp [ha]) hb1 _ _ hb2 ha2 h).1 ha1).symm
  have hres := resolve_accessors (arrayNames done) (parentArrayKeys done.reverse (k :: ks)) (k :: ks) ks' []
    (by rw [hl]; exact List.prefix_append _ _) hcount hflat
  rw [hopen, sectionPath_eq (hs.trans (congrArg some hl))]
  unfold AstSection.headerAccessors
  rw [hs]
  simp only []
  have hres' : resolve ((arrayNames done).map keyPath) [] ks' =
      (headerAccessors (parentArrayKeys done.reverse (k :: ks)) true [] ks').map stepOf := hres
  by_cases ha : s.isArray = true
  · rw [if_pos ha, if_pos ha]
    refine ⟨_, rfl, ?_⟩
    -- no proper prefix of the header is an array of tables
    have hpre : ∀ n, n <+: k :: ks → 0 < (arrayNames done).count n → n = k :: ks := by
      intro n hp hc
      obtain ⟨a, ha0, ha1, ha2⟩ := mem_arrayNames.1 (List.count_pos_iff.1 hc)
      exact (hf a (by simp [ha0]) s (by simp) ha1 _ _ ha2 hs hp).1 ha
    have hz : headerAccessors (parentArrayKeys done.reverse (k :: ks)) true [] ks' = ks'.map Accessor.key := by
      have : ∀ (ks1 d : List DKey), d ++ ks1 <+: ks' → headerAccessors (parentArrayKeys done.reverse (k :: ks)) true d ks1 =
          ks1.map Accessor.key := by
        intro ks1
        induction ks1 with
        | nil => intro d _; rfl
        | cons a ks1 ih1 =>
          intro d hd
          have hd' : (d ++ [a]) ++ ks1 <+: ks' := by simpa using hd
          have hz : (parentArrayKeys done.reverse (k :: ks)).count (d ++ [a]) = 0 := by
            have hp1 : d ++ [a] <+: k :: ks := by
              rw [hl]; exact ((List.prefix_append _ _).trans hd').trans (List.prefix_append _ _)
            rw [hcount _ hp1 (by simp)]
            apply Classical.byContradiction
            intro hne
            have h1 := ((List.prefix_append (d ++ [a]) ks1).trans hd').length_le
            have h2 := congrArg List.length ((hpre _ hp1 (by omega)).trans hl)
            simp only [List.length_append, List.length_singleton] at h1 h2
            omega
          rw [headerAccessors]
          simp only [Bool.not_true, Bool.and_false, Bool.false_eq_true, if_false, hz]
          rw [ih1 _ hd']; rfl
      exact this ks' [] (List.prefix_refl _)
    rw [hres', hz]
    rw [hl, headerAccessors_last, ← hl, hz]
    have hkp : (ks'.map Accessor.key).map stepOf ++ [Step.key last] = keyPath (k :: ks) := by
      rw [hl]; simp [keyPath, Function.comp_def, stepOf]
    rw [hkp, count_keyPath, hcount _ (List.prefix_refl _) (by simp)]
    simp [stepOf]
  · rw [if_neg ha, if_neg ha]
    refine ⟨_, rfl, ?_⟩
    have hz : (parentArrayKeys done.reverse (k :: ks)).count (k :: ks) = 0 := by
      rw [hcount _ (List.prefix_refl _) (by simp)]
      rw [List.count_eq_zero]
      intro hm
      obtain ⟨a, ha0, ha1, ha2⟩ := mem_arrayNames.1 hm
      exact ha ((hf a (by simp [ha0]) s (by simp) ha1 _ _ ha2 hs (List.prefix_refl _)).2 rfl)
    rw [hl, headerAccessors_last, List.nil_append, ← hl, hz, hres']
    simp [stepOf]

theorem sectionAccessors_paths (done rest : List (AstSection σ)) (hf : Flat (done ++ rest))
    (hn : Near (done ++ rest)) (hh : HasHeaders (done ++ rest)) :
    (sectionAccessors done.reverse rest).map (List.map stepOf) = sectionPaths (openedBy [] done) rest := by
  induction rest generalizing done with
  | nil => rfl
  | cons s rest ih =>
    obtain ⟨acc, h1, h2⟩ := header_path hf hn hh
    rw [sectionAccessors, sectionPaths, List.map_cons, h1, Option.getD_some, h2]
    congr 1
    have := ih (done ++ [s]) (by simpa using hf) (by simpa using hn) (by simpa using hh)
    rw [List.reverse_append, openedBy_append] at this
    exact this

end Tombi
