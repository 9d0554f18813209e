import Verif.Spec.ConfigFile
/-! Lemmas for the search of the configuration. -/
namespace Tombi.ConfigFile

variable {T C : Type} {env : Env T C} {disk : Disk T}

theorem last_iff (p : Path) : (∃ d, p = d ++ ["pyproject.toml".toList]) ↔ p.getLast? = some pyproject := by
  constructor
  · rintro ⟨d, rfl⟩
    rw [List.getLast?_append]
    rfl
  · intro h
    obtain ⟨d, hd⟩ := List.getLast?_eq_some_iff.1 h
    exact ⟨d, hd⟩

theorem names_differ : pyproject ≠ dotTombi ∧ pyproject ≠ tombi ∧ pyproject ≠ configToml := by decide

theorem holds_unique {p : Path} {a b : C} (ha : Holds env disk p a) (hb : Holds env disk p b) : a = b := by
  obtain ⟨t, h, h1, h2⟩ := ha
  obtain ⟨t', h', h1', h2'⟩ := hb
  rw [h] at h'
  cases h'
  by_cases hp : ∃ d, p = d ++ ["pyproject.toml".toList]
  · have := (h1 hp).symm.trans (h1' hp)
    cases this
    rfl
  · have := (h2 hp).symm.trans (h2' hp)
    cases this
    rfl

theorem read_plain {p : Path} {n : Name} (hl : p.getLast? = some n) (hn : n = dotTombi ∨ n = tombi ∨ n = configToml) :
    (∃ c, tryFromPath env disk p = .ok (some c) ∧ Holds env disk p c) ∨ (∃ e, tryFromPath env disk p = .error e ∧ ∀ c, ¬ Holds env disk p c) := by
  have hp : ¬ ∃ d, p = d ++ ["pyproject.toml".toList] := by
    rw [last_iff, hl]
    rintro h
    cases h
    rcases hn with h | h | h
    · exact names_differ.1 h
    · exact names_differ.2.1 h
    · exact names_differ.2.2 h
  cases hd : disk p with
  | none => exact .inr ⟨.notFound, by rw [tryFromPath, hd], by rintro c ⟨t, h, _⟩; rw [hd] at h; cases h⟩
  | some o =>
    cases o with
    | none => exact .inr ⟨.readFailed, by rw [tryFromPath, hd], by rintro c ⟨t, h, _⟩; rw [hd] at h; cases h⟩
    | some t =>
      cases ht : env.parse t with
      | some c => exact .inl ⟨c, by simp only [tryFromPath, hd, hl, if_pos hn, ht], t, hd, fun h => absurd h hp, fun _ => ht⟩
      | none =>
        refine .inr ⟨.parseFailed, by simp only [tryFromPath, hd, hl, if_pos hn, ht], ?_⟩
        rintro c ⟨t', h, _, h2⟩
        rw [hd] at h
        cases h
        rw [h2 hp] at ht
        cases ht

theorem read_pyproject {p : Path} (hl : p.getLast? = some pyproject) :
    (∃ c, tryFromPath env disk p = .ok (some c) ∧ Holds env disk p c) ∨
    ((∀ c, tryFromPath env disk p ≠ .ok (some c)) ∧ ∀ c, ¬ Holds env disk p c) := by
  have hp := (last_iff p).2 hl
  have hn : ¬ (pyproject = dotTombi ∨ pyproject = tombi ∨ pyproject = configToml) := by
    rintro (h | h | h)
    · exact names_differ.1 h
    · exact names_differ.2.1 h
    · exact names_differ.2.2 h
  cases hd : disk p with
  | none => exact .inr ⟨(fun c h => by rw [tryFromPath, hd] at h; cases h), by rintro c ⟨t, h, _⟩; rw [hd] at h; cases h⟩
  | some o =>
    cases o with
    | none => exact .inr ⟨(fun c h => by rw [tryFromPath, hd] at h; cases h), by rintro c ⟨t, h, _⟩; rw [hd] at h; cases h⟩
    | some t =>
      have no : (∀ c, env.parsePyproject t ≠ some (some c)) → ∀ c, ¬ Holds env disk p c := by
        rintro ht c ⟨t', h, h1, _⟩
        rw [hd] at h
        cases h
        exact ht c (h1 hp)
      cases ht : env.parsePyproject t with
      | none =>
        refine .inr ⟨fun c h => ?_, no (fun c h => by rw [ht] at h; cases h)⟩
        simp only [tryFromPath, hd, hl, if_neg hn, if_true, ht] at h
        cases h
      | some r =>
        cases r with
        | none =>
          refine .inr ⟨fun c h => ?_, no (fun c h => by rw [ht] at h; cases h)⟩
          simp only [tryFromPath, hd, hl, if_neg hn, if_true, ht] at h
          cases h
        | some c => exact .inl ⟨c, by simp only [tryFromPath, hd, hl, if_neg hn, if_true, ht], t, hd, fun _ => ht, fun h => absurd hp h⟩

theorem files_spec : (ps : List Path) → (∀ p ∈ ps, ∃ n, p.getLast? = some n ∧ (n = dotTombi ∨ n = tombi ∨ n = configToml)) →
    (tryFiles env disk ps = none ∧ ∀ p ∈ ps, ∀ c, ¬ Holds env disk p c) ∨
    ∃ pre p post c, ps = pre ++ p :: post ∧ tryFiles env disk ps = some (.found c (some p) .project) ∧ Holds env disk p c ∧
      ∀ q ∈ pre, ∀ c, ¬ Holds env disk q c
  | [], _ => .inl ⟨rfl, by simp⟩
  | p :: ps, h => by
    obtain ⟨n, hn, hk⟩ := h p List.mem_cons_self
    have next : (∀ c, ¬ Holds env disk p c) → tryFiles env disk (p :: ps) = tryFiles env disk ps →
        (tryFiles env disk (p :: ps) = none ∧ ∀ q ∈ p :: ps, ∀ c, ¬ Holds env disk q c) ∨
        ∃ pre q post c, p :: ps = pre ++ q :: post ∧ tryFiles env disk (p :: ps) = some (.found c (some q) .project) ∧ Holds env disk q c ∧
          ∀ q ∈ pre, ∀ c, ¬ Holds env disk q c := fun hno heq => by
      rcases files_spec ps (fun q hq => h q (List.mem_cons_of_mem _ hq)) with ⟨h1, h2⟩ | ⟨pre, q, post, c, h1, h2, h3, h4⟩
      · refine Or.inl ⟨heq.trans h1, ?_⟩
        intro q hq
        rcases List.mem_cons.1 hq with rfl | hq
        · exact hno
        · exact h2 q hq
      · refine Or.inr ⟨p :: pre, q, post, c, by rw [h1]; rfl, heq.trans h2, h3, ?_⟩
        intro q hq
        rcases List.mem_cons.1 hq with rfl | hq
        · exact hno
        · exact h4 q hq
    by_cases hs : (disk p).isSome = true
    · rcases read_plain (env := env) (disk := disk) hn hk with ⟨c, h1, h2⟩ | ⟨e, h1, h2⟩
      · exact .inr ⟨[], p, ps, c, rfl, by rw [tryFiles, if_pos hs, h1], h2, by simp⟩
      · exact next h2 (by rw [tryFiles, if_pos hs, h1])
    · refine next ?_ (by rw [tryFiles, if_neg hs])
      rintro c ⟨t, ht, _⟩
      rw [ht] at hs
      exact hs rfl

theorem directory_spec (dir : Path) :
    (inDirectory env disk dir = none ∧ ∀ q ∈ places, ∀ c, ¬ Holds env disk (dir ++ q) c) ∨
    ∃ (i : Nat) (place : Path) (c : C), places[i]? = some place ∧ inDirectory env disk dir = some (.found c (some (dir ++ place)) .project) ∧
      Holds env disk (dir ++ place) c ∧ ∀ j q, j < i → places[j]? = some q → ∀ c, ¬ Holds env disk (dir ++ q) c := by
  have hps : ∀ p ∈ [dir ++ [dotTombi], dir ++ [tombi], dir ++ [".config".toList] ++ [tombi]],
      ∃ n, p.getLast? = some n ∧ (n = dotTombi ∨ n = tombi ∨ n = configToml) := by
    intro p hp
    simp only [List.mem_cons, List.not_mem_nil, or_false] at hp
    rcases hp with rfl | rfl | rfl
    · exact ⟨dotTombi, by rw [List.getLast?_append]; rfl, .inl rfl⟩
    · exact ⟨tombi, by rw [List.getLast?_append]; rfl, .inr (.inl rfl)⟩
    · exact ⟨tombi, by rw [List.getLast?_append]; rfl, .inr (.inl rfl)⟩
  have e3 : dir ++ [".config".toList] ++ [tombi] = dir ++ [".config".toList, "tombi.toml".toList] := by rw [List.append_assoc]; rfl
  rcases files_spec (env := env) (disk := disk) _ hps with ⟨h1, h2⟩ | ⟨pre, p, post, c, h1, h2, h3, h4⟩
  · have n0 := h2 (dir ++ [".tombi.toml".toList]) (by exact List.mem_cons_self)
    have n1 := h2 (dir ++ ["tombi.toml".toList]) (by exact List.mem_cons_of_mem _ List.mem_cons_self)
    have n2 := h2 (dir ++ [".config".toList, "tombi.toml".toList])
      (by rw [← e3]; exact List.mem_cons_of_mem _ (List.mem_cons_of_mem _ List.mem_cons_self))
    have none3 : (∀ c, ¬ Holds env disk (dir ++ [pyproject]) c) → ∀ q ∈ places, ∀ c, ¬ Holds env disk (dir ++ q) c := by
      intro n3 q hq
      simp only [places, List.mem_cons, List.not_mem_nil, or_false] at hq
      rcases hq with rfl | rfl | rfl | rfl
      · exact n0
      · exact n1
      · exact n2
      · exact n3
    by_cases hs : (disk (dir ++ [pyproject])).isSome = true
    · rcases read_pyproject (env := env) (disk := disk) (p := dir ++ [pyproject]) (by rw [List.getLast?_append]; rfl) with ⟨c, h3, h4⟩ | ⟨h3, h4⟩
      · refine .inr ⟨3, ["pyproject.toml".toList], c, rfl, ?_, h4, ?_⟩
        · simp only [inDirectory, h1, hs, if_true, h3]
          rfl
        · intro j q hj hq
          match j, hj with
          | 0, _ => cases hq; exact n0
          | 1, _ => cases hq; exact n1
          | 2, _ => cases hq; exact n2
      · refine .inl ⟨?_, none3 h4⟩
        simp only [inDirectory, h1, hs, if_true]
    · refine .inl ⟨?_, none3 ?_⟩
      · simp only [inDirectory, h1, if_neg hs]
      · rintro c ⟨t, ht, _⟩
        rw [ht] at hs
        exact hs rfl
  · have hi : inDirectory env disk dir = some (.found c (some p) .project) := by simp only [inDirectory, h2]
    match pre, h1 with
    | [], h1 =>
      cases h1
      exact .inr ⟨0, [".tombi.toml".toList], c, rfl, hi, h3, fun j _ hj => by omega⟩
    | [a], h1 =>
      cases h1
      refine .inr ⟨1, ["tombi.toml".toList], c, rfl, hi, h3, ?_⟩
      intro j q hj hq
      match j, hj with
      | 0, _ => cases hq; exact h4 _ List.mem_cons_self
    | [a, b], h1 =>
      cases h1
      refine .inr ⟨2, [".config".toList, "tombi.toml".toList], c, rfl, e3 ▸ hi, e3 ▸ h3, ?_⟩
      intro j q hj hq
      match j, hj with
      | 0, _ => cases hq; exact h4 _ List.mem_cons_self
      | 1, _ => cases hq; exact h4 _ (List.mem_cons_of_mem _ List.mem_cons_self)
    | a :: b :: c' :: pre, h1 =>
      have := congrArg List.length h1
      simp only [List.length_append, List.length_cons, List.length_nil] at this
      omega

theorem prefix_concat {d a : Path} {n : Name} (h : d <+: a ++ [n]) : d = a ++ [n] ∨ d <+: a := by
  obtain ⟨t, ht⟩ := h
  rcases List.eq_nil_or_concat t with rfl | ⟨t', x, rfl⟩
  · exact .inl (by rw [List.append_nil] at ht; exact ht)
  · refine .inr ⟨t', ?_⟩
    rw [List.concat_eq_append, ← List.append_assoc] at ht
    exact (List.append_inj' ht rfl).1

theorem search_spec : (ns : List Name) →
    (searchUp env disk ns = none ∧ NoProject env disk ns.reverse) ∨
    ∃ p c, searchUp env disk ns = some (.found c (some p) .project) ∧ Nearest env disk ns.reverse p c
  | [] => by
    rw [searchUp]
    rcases directory_spec (env := env) (disk := disk) [] with ⟨h1, h2⟩ | ⟨i, place, c, h1, h2, h3, h4⟩
    · refine .inl ⟨h1, fun d hd => ?_⟩
      rw [List.reverse_nil, List.prefix_nil] at hd
      subst hd
      exact h2
    · refine .inr ⟨_, c, h2, h3, [], i, place, by rw [List.reverse_nil]; exact List.prefix_rfl, h1, rfl, ?_, h4⟩
      intro d' hd' hl
      rw [List.reverse_nil, List.prefix_nil] at hd'
      subst hd'
      exact absurd hl (by simp)
  | n :: ns => by
    rw [searchUp]
    rcases directory_spec (env := env) (disk := disk) (n :: ns).reverse with ⟨h1, h2⟩ | ⟨i, place, c, h1, h2, h3, h4⟩
    · rw [h1]
      rcases search_spec ns with ⟨h5, h6⟩ | ⟨p, c, h5, h6, d, i, place, h7, h8, h9, h10, h11⟩
      · refine .inl ⟨h5, fun d hd => ?_⟩
        rw [List.reverse_cons] at hd
        rcases prefix_concat hd with rfl | hd
        · rw [List.reverse_cons] at h2; exact h2
        · exact h6 d hd
      · refine .inr ⟨p, c, h5, h6, d, i, place, ?_, h8, h9, ?_, h11⟩
        · rw [List.reverse_cons]
          exact h7.trans (List.prefix_append _ _)
        · intro d' hd' hl
          rw [List.reverse_cons] at hd'
          rcases prefix_concat hd' with rfl | hd'
          · rw [List.reverse_cons] at h2; exact h2
          · exact h10 d' hd' hl
    · rw [h2]
      refine .inr ⟨_, c, rfl, h3, _, i, place, List.prefix_rfl, h1, rfl, ?_, h4⟩
      intro d' hd' hl
      exact absurd hd'.length_le (by omega)

theorem place_mem {i : Nat} {place : Path} (h : places[i]? = some place) : place ∈ places := by
  obtain ⟨hi, he⟩ := List.getElem?_eq_some_iff.1 h
  exact he ▸ List.getElem_mem hi

theorem nearest_unique {dir p p' : Path} {c c' : C} (h : Nearest env disk dir p c) (h' : Nearest env disk dir p' c') : p = p' ∧ c = c' := by
  obtain ⟨hc, d, i, place, h1, h2, h3, h4, h5⟩ := h
  obtain ⟨hc', d', i', place', h1', h2', h3', h4', h5'⟩ := h'
  have hl : d.length = d'.length := by
    rcases Nat.lt_trichotomy d.length d'.length with hl | hl | hl
    · exact absurd (h3' ▸ hc') (h4 d' h1' hl place' (place_mem h2') c')
    · exact hl
    · exact absurd (h3 ▸ hc) (h4' d h1 hl place (place_mem h2) c)
  have hd : d = d' := by
    obtain ⟨a, ha⟩ := h1
    obtain ⟨b, hb⟩ := h1'
    exact (List.append_inj (ha.trans hb.symm) hl).1
  subst hd
  have hi : i = i' := by
    rcases Nat.lt_trichotomy i i' with hl | hl | hl
    · exact absurd (h3 ▸ hc) (h5' i place hl h2 c)
    · exact hl
    · exact absurd (h3' ▸ hc') (h5 i' place' hl h2' c')
  subst hi
  rw [h2] at h2'
  cases h2'
  subst h3
  subst h3'
  exact ⟨rfl, holds_unique hc hc'⟩

theorem not_nearest {dir p : Path} {c : C} (h : NoProject env disk dir) : ¬ Nearest env disk dir p c := by
  rintro ⟨hc, d, i, place, h1, h2, h3, _⟩
  exact h d h1 place (place_mem h2) c (h3 ▸ hc)

theorem userPlaces_eq : userPlaces env = commonPlaces env := by
  rw [userPlaces, commonPlaces]
  cases env.xdg <;> cases env.home <;> simp only [Option.toList, List.map_nil, List.map_cons, List.append_assoc] <;> rfl

theorem first_spec (disk : Disk T) : (ps : List (Path × Level)) →
    (ps.find? (fun p => (disk p.1).isSome) = none ∧ ∀ q ∈ ps, disk q.1 = none) ∨
    ∃ p l, ps.find? (fun p => (disk p.1).isSome) = some (p, l) ∧ FirstThere disk ps p l
  | [] => .inl ⟨rfl, by simp⟩
  | (p, l) :: ps => by
    rw [List.find?_cons]
    cases hd : disk p with
    | some o => exact .inr ⟨p, l, by simp only [Option.isSome_some], [], ps, rfl, by rw [hd]; simp, by simp⟩
    | none =>
      simp only [Option.isSome_none]
      rcases first_spec disk ps with ⟨h1, h2⟩ | ⟨q, l', h1, pre, post, h2, h3, h4⟩
      · refine .inl ⟨h1, ?_⟩
        intro q hq
        rcases List.mem_cons.1 hq with rfl | hq
        · exact hd
        · exact h2 q hq
      · refine .inr ⟨q, l', h1, (p, l) :: pre, post, by rw [h2]; rfl, h3, ?_⟩
        intro q hq
        rcases List.mem_cons.1 hq with rfl | hq
        · exact hd
        · exact h4 q hq

theorem common_last {p : Path} {l : Level} (h : (p, l) ∈ commonPlaces env) : p.getLast? = some configToml := by
  simp only [commonPlaces, List.mem_append, List.mem_map, List.mem_singleton] at h
  rcases h with (⟨d, _, h⟩ | ⟨d, _, h⟩) | h
  · cases h; rw [List.getLast?_append]; rfl
  · cases h; rw [List.getLast?_append]; rfl
  · cases h; rfl

/-- Without a configuration of the project. -/
theorem load_common {dir : Option Path} (h : ∀ d, dir = some d → NoProject env disk d) :
    ((∀ q ∈ commonPlaces env, disk q.1 = none) ∧ load env disk dir = .found env.default none .default) ∨
    ∃ p l, FirstThere disk (commonPlaces env) p l ∧
      ((∃ c, Holds env disk p c ∧ load env disk dir = .found c (some p) l) ∨ ((∀ c, ¬ Holds env disk p c) ∧ load env disk dir = .panic)) := by
  have hn : (dir.bind fun d => searchUp env disk d.reverse) = none := by
    cases dir with
    | none => rfl
    | some d =>
      rw [Option.bind_some]
      rcases search_spec (env := env) (disk := disk) d.reverse with ⟨h1, _⟩ | ⟨p, c, _, h2⟩
      · exact h1
      · rw [List.reverse_reverse] at h2
        exact absurd h2 (not_nearest (h d rfl))
  rw [load, hn, userPlaces_eq]
  rcases first_spec disk (commonPlaces env) with ⟨h1, h2⟩ | ⟨p, l, h1, h2⟩
  · exact .inl ⟨h2, by rw [h1]⟩
  · refine .inr ⟨p, l, h2, ?_⟩
    have hl : p.getLast? = some configToml := by
      obtain ⟨pre, post, e, _⟩ := h2
      exact common_last (env := env) (l := l) (by rw [e]; simp)
    rcases read_plain (env := env) (disk := disk) hl (.inr (.inr rfl)) with ⟨c, h3, h4⟩ | ⟨e, h3, h4⟩
    · exact .inl ⟨c, h4, by simp only [h1, h3]⟩
    · exact .inr ⟨h4, by simp only [h1, h3]⟩

theorem load_project (dir : Path) :
    NoProject env disk dir ∨ ∃ p c, load env disk (some dir) = .found c (some p) .project ∧ Nearest env disk dir p c := by
  rcases search_spec (env := env) (disk := disk) dir.reverse with ⟨_, h2⟩ | ⟨p, c, h1, h2⟩
  · exact .inl (by rw [List.reverse_reverse] at h2; exact h2)
  · rw [List.reverse_reverse] at h2
    exact .inr ⟨p, c, by rw [load, Option.bind_some, h1], h2⟩

theorem common_level {p : Path} {l : Level} (h : (p, l) ∈ commonPlaces env) : l = .user ∨ l = .system := by
  simp only [commonPlaces, List.mem_append, List.mem_map, List.mem_singleton] at h
  rcases h with (⟨d, _, h⟩ | ⟨d, _, h⟩) | h
  · cases h; exact .inl rfl
  · cases h; exact .inl rfl
  · cases h; exact .inr rfl

/-- What is loaded from a file is in the file. -/
theorem load_holds {dir : Option Path} {c : C} {p : Path} {l : Level} (h : load env disk dir = .found c (some p) l) :
    tryFromPath env disk p = .ok (some c) ∧ Holds env disk p c := by
  have key : ∀ {p n}, p.getLast? = some n → (n = dotTombi ∨ n = tombi ∨ n = configToml ∨ n = pyproject) → ∀ {c}, Holds env disk p c →
      tryFromPath env disk p = .ok (some c) := by
    intro p n hl hn c hc
    rcases hn with hn | hn | hn | hn
    · rcases read_plain (env := env) (disk := disk) hl (.inl hn) with ⟨c', h1, h2⟩ | ⟨e, _, h2⟩
      · rw [holds_unique hc h2]; exact h1
      · exact absurd hc (h2 c)
    · rcases read_plain (env := env) (disk := disk) hl (.inr (.inl hn)) with ⟨c', h1, h2⟩ | ⟨e, _, h2⟩
      · rw [holds_unique hc h2]; exact h1
      · exact absurd hc (h2 c)
    · rcases read_plain (env := env) (disk := disk) hl (.inr (.inr hn)) with ⟨c', h1, h2⟩ | ⟨e, _, h2⟩
      · rw [holds_unique hc h2]; exact h1
      · exact absurd hc (h2 c)
    · subst hn
      rcases read_pyproject (env := env) (disk := disk) hl with ⟨c', h1, h2⟩ | ⟨_, h2⟩
      · rw [holds_unique hc h2]; exact h1
      · exact absurd hc (h2 c)
  by_cases hno : ∀ d, dir = some d → NoProject env disk d
  · rcases load_common hno with ⟨_, h2⟩ | ⟨q, l', hf, ⟨c', hc', h2⟩ | ⟨_, h2⟩⟩
    · rw [h2] at h; cases h
    · rw [h2] at h
      cases h
      obtain ⟨pre, post, e, _⟩ := hf
      have hl := common_last (env := env) (p := p) (l := l) (by rw [e]; simp)
      exact ⟨key hl (.inr (.inr (.inl rfl))) hc', hc'⟩
    · rw [h2] at h; cases h
  · cases dir with
    | none => exact absurd (fun d hd => by cases hd) hno
    | some d =>
      rcases load_project (env := env) (disk := disk) d with h1 | ⟨q, c', h1, h2⟩
      · exact absurd (fun e he => by cases he; exact h1) hno
      · rw [h1] at h
        cases h
        obtain ⟨hc, d', i, place, _, hp, rfl, _⟩ := h2
        have hl : ∃ n, (d' ++ place).getLast? = some n ∧ (n = dotTombi ∨ n = tombi ∨ n = configToml ∨ n = pyproject) := by
          have := place_mem hp
          simp only [places, List.mem_cons, List.not_mem_nil, or_false] at this
          rw [List.getLast?_append]
          rcases this with rfl | rfl | rfl | rfl
          · exact ⟨dotTombi, rfl, .inl rfl⟩
          · exact ⟨tombi, rfl, .inr (.inl rfl)⟩
          · exact ⟨tombi, rfl, .inr (.inl rfl)⟩
          · exact ⟨pyproject, rfl, .inr (.inr (.inr rfl))⟩
        obtain ⟨n, hl, hn⟩ := hl
        exact ⟨key hl hn hc, hc⟩

end Tombi.ConfigFile
