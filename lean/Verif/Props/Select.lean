import Verif.Model.Select
import Verif.Props.Cli
/-!
C75: which files tombi takes. C76: which settings a file gets.
-/
namespace Tombi.Cli

/-! ### C75: the files -/

/-- Some pattern of a list stands for the text. -/
def Matches (W : World) (patterns : List Text) (t : Text) : Prop := ∃ g ∈ patterns, g ≠ [] ∧ W.glob g t = true

theorem matchesAny_iff (W : World) (t : Text) (gs : List Text) : matchesAny W t gs = true ↔ Matches W gs t := by
  simp only [matchesAny, List.any_eq_true, List.mem_filter, Matches]
  constructor
  · rintro ⟨g, ⟨h1, h2⟩, h3⟩; exact ⟨g, h1, by simpa using h2, h3⟩
  · rintro ⟨g, h1, h2, h3⟩; exact ⟨g, ⟨h1, by simpa using h2⟩, h3⟩

theorem walkTakes_iff (W : World) (root : Path) (o : FilesOptions) (p : Path) :
    walkTakes W root o p = true ↔
      (o.incl.getD [] = [] ∨ Matches W (o.incl.getD []) (pathForPatterns p root)) ∧
        ¬ Matches W (o.excl.getD []) (pathForPatterns p root) := by
  simp only [walkTakes, Bool.and_eq_true, Bool.or_eq_true, List.isEmpty_iff, matchesAny_iff, Bool.not_eq_true', ← Bool.not_eq_true]

/-- **C75**: without arguments, tombi takes exactly the files below the directory of the settings that the walker shows, whose path from there
matches an include pattern (when there are any) and no exclude pattern. -/
theorem C75_project (W : World) (root : Path) (o : FilesOptions) (hd : W.isDir root = true) (hv : isVcsDir root = false) (p : Path) :
    ∃ es, fileSearch W root o [] = some es ∧ (Entry.found p ∈ es ↔ p ∈ W.walk root o.respectIgnore ∧
      (o.incl.getD [] = [] ∨ Matches W (o.incl.getD []) (pathForPatterns p root)) ∧
      ¬ Matches W (o.excl.getD []) (pathForPatterns p root)) ∧ Entry.error ∉ es := by
  refine ⟨_, rfl, ?_⟩
  simp only [searchMatched, hd, hv, if_true, Bool.false_eq_true, if_false, List.mem_map, List.mem_filter, ← walkTakes_iff]
  constructor
  · constructor
    · rintro ⟨q, h, e⟩; cases e; exact h
    · intro h; exact ⟨p, h, rfl⟩
  · rintro ⟨q, -, e⟩; cases e

/-- Every argument of the command line counts. -/
theorem fileSearch_args (W : World) (root : Path) (o : FilesOptions) {args : List Text} (hne : args ≠ []) (hs : args ≠ [['-']]) :
    fileSearch W root o args = some (args.flatMap (searchArgument W root o)) := by
  match args with
  | [] => exact absurd rfl hne
  | [a] =>
    have : a ≠ ['-'] := fun e => hs (by rw [e])
    simp [fileSearch, this]
  | a :: b :: cs => rfl

/-- **C75**: a file that is named on the command line is taken, unless an exclude pattern stands for the path as it is named; then it is counted as
skipped. -/
theorem C75_named (W : World) (root : Path) (o : FilesOptions) {args : List Text} (hs : args ≠ [['-']]) {a : Text} (ha : a ∈ args)
    (hg : isGlob a = false) (hf : W.isFile (W.pathOf a) = true) :
    ∃ es, fileSearch W root o args = some es ∧
      (¬ Matches W (o.excl.getD []) (pathForPatterns (W.pathOf a) root) → Entry.found (W.pathOf a) ∈ es) ∧
      (Matches W (o.excl.getD []) (pathForPatterns (W.pathOf a) root) → Entry.skipped (W.pathOf a) ∈ es) := by
  refine ⟨_, fileSearch_args W root o (fun e => by rw [e] at ha; cases ha) hs, ?_⟩
  have hx : (o.excl.map fun g => matchesAny W (pathForPatterns (W.pathOf a) root) g).getD false = true ↔
      Matches W (o.excl.getD []) (pathForPatterns (W.pathOf a) root) := by
    cases o.excl with
    | none => simp [Matches]
    | some gs => simp [matchesAny_iff]
  simp only [List.mem_flatMap]
  constructor
  · intro h
    refine ⟨a, ha, ?_⟩
    rw [searchArgument, if_neg (by simp [hg]), if_pos hf, if_neg (fun e => h (hx.mp e))]
    exact List.mem_cons_self
  · intro h
    refine ⟨a, ha, ?_⟩
    rw [searchArgument, if_neg (by simp [hg]), if_pos hf, if_pos (hx.mpr h)]
    exact List.mem_cons_self

/-- **C75**: an argument that is no pattern and names nothing is reported, and the exit code is 1. -/
theorem C75_missing (W : World) (root : Path) (o : FilesOptions) {args : List Text} (hs : args ≠ [['-']]) {a : Text} (ha : a ∈ args)
    (hg : isGlob a = false) (hf : W.isFile (W.pathOf a) = false) (hd : W.isDir (W.pathOf a) = false) :
    ∃ es, fileSearch W root o args = some es ∧ ∀ S rs, (summary S es rs).exitCode = 1 := by
  refine ⟨_, fileSearch_args W root o (fun e => by rw [e] at ha; cases ha) hs, ?_⟩
  intro S rs
  have hm : Entry.error ∈ args.flatMap (searchArgument W root o) := by
    simp only [List.mem_flatMap]
    refine ⟨a, ha, ?_⟩
    rw [searchArgument, if_neg (by simp [hg]), if_neg (by simp [hf]), if_neg (by simp [hd])]
    exact List.mem_cons_self
  have h0 : (summary S (args.flatMap (searchArgument W root o)) rs).exitCode ≠ 0 := fun e =>
    absurd (((exit_zero S _ rs).mp e).1 _ hm) (by simp [refused])
  unfold Summary.exitCode at h0 ⊢
  split at h0
  · rw [if_pos (by assumption)]
  · exact absurd rfl h0

/-- **C75**: when the directory of the settings is no directory, that is reported, and the exit code is 1. -/
theorem C75_no_root (W : World) (root : Path) (o : FilesOptions) (hd : W.isDir root = false) (S : Setup) (rs : List Outcome) :
    ∃ es, fileSearch W root o [] = some es ∧ (summary S es rs).exitCode = 1 := by
  refine ⟨_, rfl, ?_⟩
  simp only [searchMatched, hd, Bool.false_eq_true, if_false]
  have h0 : (summary S [.error] rs).exitCode ≠ 0 := fun e =>
    absurd (((exit_zero S _ rs).mp e).1 .error List.mem_cons_self) (by simp [refused])
  unfold Summary.exitCode at h0 ⊢
  split at h0
  · rw [if_pos (by assumption)]
  · exact absurd rfl h0

/-- **C75**: tombi takes no file that nobody asked for: a file is named on the command line, or it is below a directory that is named, or (for
patterns, and without arguments) below the directory of the settings; and no exclude pattern stands for its path from there. Missing: the
path from the directory of the settings, which the exclude patterns are about (`C75_excluded_false`). -/
theorem C75_asked_partial (W : World) (root : Path) (o : FilesOptions) {args : List Text} {es : List Entry}
    (h : fileSearch W root o args = some es) {p : Path} (hp : Entry.found p ∈ es) :
    ((∃ a ∈ args, W.pathOf a = p ∧ W.isFile p = true) ∧ ¬ Matches W (o.excl.getD []) (pathForPatterns p root)) ∨
    (∃ d, (d = root ∨ ∃ a ∈ args, W.pathOf a = d) ∧ W.isDir d = true ∧ p ∈ W.walk d o.respectIgnore ∧
      ¬ Matches W (o.excl.getD []) (pathForPatterns p d)) := by
  have hsearch : ∀ (d : Path) (o' : FilesOptions), Entry.found p ∈ searchMatched W d o' →
      W.isDir d = true ∧ p ∈ W.walk d o'.respectIgnore ∧ ¬ Matches W (o'.excl.getD []) (pathForPatterns p d) := by
    intro d o' hm
    unfold searchMatched at hm
    split at hm
    · rename_i hd
      split at hm
      · cases hm
      · obtain ⟨q, hq, e⟩ := List.mem_map.mp hm
        cases e
        obtain ⟨h1, h2⟩ := List.mem_filter.mp hq
        exact ⟨hd, h1, ((walkTakes_iff W d o' p).mp h2).2⟩
    · simp at hm
  have harg : ∀ a ∈ args, Entry.found p ∈ searchArgument W root o a →
      ((∃ a ∈ args, W.pathOf a = p ∧ W.isFile p = true) ∧ ¬ Matches W (o.excl.getD []) (pathForPatterns p root)) ∨
      (∃ d, (d = root ∨ ∃ a ∈ args, W.pathOf a = d) ∧ W.isDir d = true ∧ p ∈ W.walk d o.respectIgnore ∧
        ¬ Matches W (o.excl.getD []) (pathForPatterns p d)) := by
    intro a ha hm
    unfold searchArgument at hm
    split at hm
    · exact .inr ⟨root, .inl rfl, hsearch root { o with incl := some [a] } hm⟩
    · split at hm
      · rename_i hf
        split at hm
        · simp at hm
        · rename_i hx
          simp only [List.mem_cons, Entry.found.injEq, List.not_mem_nil, or_false] at hm
          subst hm
          refine .inl ⟨⟨a, ha, rfl, hf⟩, fun hmm => hx ?_⟩
          cases he : o.excl with
          | none => rw [he] at hmm; simp [Matches] at hmm
          | some gs => rw [he] at hmm; simpa [matchesAny_iff] using hmm
      · split at hm
        · exact .inr ⟨W.pathOf a, .inr ⟨a, ha, rfl⟩, hsearch _ o hm⟩
        · simp at hm
  match args, h with
  | [], h =>
    cases h
    exact .inr ⟨root, .inl rfl, hsearch root o hp⟩
  | [a], h =>
    unfold fileSearch at h
    simp only at h
    split at h
    · cases h
    · cases h
      exact harg a (by simp) hp
  | a :: b :: cs, h =>
    cases h
    simp only [List.mem_flatMap] at hp
    obtain ⟨x, hx, hm⟩ := hp
    exact harg x hx hm

/-- **C75**: the language server looks at a file that the walker shows exactly when `tombi format` without arguments takes it. The path from the directory
of the settings must be the same for both of them. Missing: an empty list of include patterns (`C75_server_false`). -/
theorem C75_server_partial (W : World) (root : Path) (o : FilesOptions) (config : Option Path)
    (hd : W.isDir root = true) (hv : isVcsDir root = false) {p : Path} (hw : p ∈ W.walk root o.respectIgnore)
    (hrel : relativeText W ((W.canon p).getD p) config = pathForPatterns p root)
    (hi : ∃ gs, o.incl = some gs ∧ gs ≠ []) (hne : ∀ g ∈ o.incl.getD [] ++ o.excl.getD [], g ≠ []) :
    ∃ es, fileSearch W root o [] = some es ∧ (Entry.found p ∈ es ↔ matchesFilePatterns W p config o = .matched) := by
  obtain ⟨es, h1, h2, -⟩ := C75_project W root o hd hv p
  refine ⟨es, h1, h2.trans ?_⟩
  obtain ⟨gs, hgs, hgne⟩ := hi
  have hany : ∀ l : List Text, (∀ g ∈ l, g ≠ []) →
      ((l.any fun g => W.glob g (pathForPatterns p root)) = true ↔ Matches W l (pathForPatterns p root)) := by
    intro l hl
    simp only [List.any_eq_true, Matches]
    exact ⟨fun ⟨g, a, b⟩ => ⟨g, a, hl g a, b⟩, fun ⟨g, a, _, b⟩ => ⟨g, a, b⟩⟩
  have hin := hany gs fun g hg => hne g (List.mem_append_left _ (by rw [hgs]; exact hg))
  have hex : ((o.excl.map fun l => l.any fun g => W.glob g (pathForPatterns p root)).getD false = true) ↔
      Matches W (o.excl.getD []) (pathForPatterns p root) := by
    cases he : o.excl with
    | none => simp [Matches]
    | some l => exact hany l fun g hg => hne g (List.mem_append_right _ (by rw [he]; exact hg))
  unfold matchesFilePatterns
  rw [hrel, hgs]
  simp only [Option.getD_some, Option.map_some, hw, true_and, hgne, false_or]
  by_cases hI : Matches W gs (pathForPatterns p root)
  · by_cases hX : Matches W (o.excl.getD []) (pathForPatterns p root)
    · rw [if_pos (hin.mpr hI), if_pos (hex.mpr hX)]
      simp [hX]
    · rw [if_pos (hin.mpr hI), if_neg (fun e => hX (hex.mp e))]
      simp [hI, hX]
  · rw [if_neg (fun e => hI (hin.mp e))]
    simp [hI]

/-- A directory with two files, where a pattern stands for a path only when they are the same text (`glob_match` for patterns without special
characters). -/
def sampleWorld : World where
  glob := fun g t => g = t
  isFile := fun p => p = [['s'], ['a']] || p = [['b']]
  isDir := fun p => p = [['.']] || p = [['s']]
  walk := fun d _ => if d = [['s']] then [[['s'], ['a']]] else [[['.'], ['s'], ['a']], [['.'], ['b']]]
  canon := fun p => some p
  pathOf := fun t => if t = "s/a".toList then [['s'], ['a']] else [t]

/-- **C75** is false when a directory is named on the command line: the exclude patterns are then about the path from that directory, so that tombi formats
`s/a`, which is excluded and which it leaves alone without arguments, or when the file itself is named. -/
theorem C75_excluded_false :
    let o : FilesOptions := { incl := none, excl := some ["s/a".toList] }
    fileSearch sampleWorld [['.']] o [] = some [.found [['.'], ['b']]] ∧
    fileSearch sampleWorld [['.']] o ["s/a".toList] = some [.skipped [['s'], ['a']]] ∧
    fileSearch sampleWorld [['.']] o ["s".toList] = some [.found [['s'], ['a']]] := by
  refine ⟨?_, ?_, ?_⟩ <;> decide

/-- **C75** is false with an empty list of include patterns: `tombi format` takes every file, the language server none. -/
theorem C75_server_false :
    let o : FilesOptions := { incl := some [], excl := none }
    fileSearch sampleWorld [['.']] o [] = some [.found [['.'], ['s'], ['a']], .found [['.'], ['b']]] ∧
    ∀ p config, matchesFilePatterns sampleWorld p config o = .includeNotMatched := by
  refine ⟨by decide, ?_⟩
  intro p config
  rfl

/-- A file that is named twice is taken twice: `C73_duplicate_false` is about what happens then. -/
theorem C75_duplicate_false :
    fileSearch sampleWorld [['.']] { incl := none, excl := none } ["b".toList, "b".toList] = some [.found [['b']], .found [['b']]] := by
  decide

/-! ### C76: the settings -/

/-- **C76**: the first override whose patterns stand for the file decides; without one, the settings of the project are used. -/
theorem C76_first {ρ : Type} (W : World) (base : Option (Rules ρ)) (p : Path) (config : Option Path) (pre post : List (OverrideItem ρ))
    (hpre : ∀ o ∈ pre, matchesOverride W p config o = false) :
    getOptions W base (some pre) (some p) config = some (base.getD fun _ => none) ∧
    ∀ o, matchesOverride W p config o = true →
      getOptions W base (some (pre ++ o :: post)) (some p) config =
        match o.options with
        | none => some (base.getD fun _ => none)
        | some f => if f.enabled = some false then none
            else some ((base.getD fun _ => none).merge (f.rules.getD fun _ => none)) := by
  have hmerge : ∀ (f : OverrideOptions ρ), mergeRules base (some f) = (base.getD fun _ => none).merge (f.rules.getD fun _ => none) := by
    intro f
    unfold mergeRules
    cases hr : f.rules with
    | none =>
      simp only [Option.bind_some, hr, Option.getD_none]
      funext x
      simp [Rules.merge]
    | some r => simp [hr]
  constructor
  · show firstOverride W base p config pre = _
    induction pre with
    | nil => rfl
    | cons o os ih =>
      rw [firstOverride, if_neg (by simp [hpre o List.mem_cons_self])]
      exact ih fun o' h' => hpre o' (List.mem_cons_of_mem _ h')
  · intro o ho
    show firstOverride W base p config (pre ++ o :: post) = _
    induction pre with
    | nil =>
      rw [List.nil_append, firstOverride, if_pos ho]
      cases o.options with
      | none => rfl
      | some f => simp only [hmerge]
    | cons o' os ih =>
      rw [List.cons_append, firstOverride, if_neg (by simp [hpre o' List.mem_cons_self])]
      exact ih fun o'' h' => hpre o'' (List.mem_cons_of_mem _ h')

theorem stripPath_append (d r : Path) : stripPath (d ++ r) d = some r := by
  induction d with
  | nil => cases r <;> rfl
  | cons c d ih => rw [List.cons_append, stripPath, if_pos rfl, ih]

theorem stripPath_eq {p d r : Path} (h : stripPath p d = some r) : p = d ++ r := by
  induction d generalizing p with
  | nil => cases p <;> (rw [stripPath] at h; cases h; rfl)
  | cons c d ih =>
    cases p with
    | nil => cases h
    | cons e p =>
      rw [stripPath] at h
      split at h
      · rename_i he; rw [he, ih h, List.cons_append]
      · cases h

/-- **C76**, the files of an override: some include pattern stands for the path of the file from the directory of the settings (or for its whole path,
when it is not below that directory), and no exclude pattern does. -/
theorem C76_files {ρ : Type} (W : World) (p : Path) (config : Path) (o : OverrideItem ρ) {real dir : Path}
    (hp : W.canon p = some real) (hd : configBaseDir ((W.canon config).getD config) = some dir) :
    ∃ t, (t = pathText real ∧ ¬ dir <+: real ∨ ∃ r, real = dir ++ r ∧ t = pathText r) ∧
      (matchesOverride W p (some config) o = true ↔
        (∃ g ∈ o.incl, W.glob g t = true) ∧ ∀ g ∈ o.excl.getD [], W.glob g t = false) := by
  refine ⟨relativeText W real (some config), ?_, ?_⟩
  · unfold relativeText
    simp only [hd]
    cases hs : stripPath real dir with
    | some r => exact .inr ⟨r, stripPath_eq hs, rfl⟩
    | none =>
      refine .inl ⟨rfl, ?_⟩
      rintro ⟨r, rfl⟩
      rw [stripPath_append] at hs
      cases hs
  · unfold matchesOverride
    rw [hp]
    simp

/-- The directory of the settings: the one that holds `tombi.toml`, `.tombi.toml` or `pyproject.toml`, and for `.config/tombi.toml` the one above. -/
theorem C76_directory (d : Path) (name : List Char) :
    (d.getLast? ≠ some ".config".toList → configBaseDir (d ++ [name]) = some d) ∧
    configBaseDir (d ++ [".config".toList, "tombi.toml".toList]) = some d := by
  constructor
  · intro h
    unfold configBaseDir
    simp only [List.getLast?_concat, List.dropLast_concat]
    rw [if_neg (fun e => h e.2)]
  · unfold configBaseDir
    rw [show d ++ [".config".toList, "tombi.toml".toList] = (d ++ [".config".toList]) ++ ["tombi.toml".toList] by simp]
    simp only [List.getLast?_concat, List.dropLast_concat]
    rw [if_pos ⟨trivial, trivial⟩]

/-- **C76**, the rules: a rule that the override does not set has the value of the project; a rule that only the override sets has the value of the
override. Missing: a rule that both of them set (`C76_override_false`). -/
theorem C76_rules_partial {ρ : Type} (W : World) (base : Rules ρ) (p : Path) (config : Option Path) (o : OverrideItem ρ)
    (post : List (OverrideItem ρ)) (f : OverrideOptions ρ) (r : Rules ρ)
    (ho : matchesOverride W p config o = true) (hf : o.options = some f) (he : f.enabled ≠ some false) (hr : f.rules = some r) :
    ∃ rules, getOptions W (some base) (some (o :: post)) (some p) config = some rules ∧
      ∀ x, (r x = none → rules x = base x) ∧ (base x = none → rules x = r x) := by
  have := (C76_first W (some base) p config [] post (by simp)).2 o ho
  rw [List.nil_append, hf] at this
  simp only [if_neg he, hr, Option.getD_some] at this
  refine ⟨_, this, fun x => ⟨fun h => ?_, fun h => ?_⟩⟩
  · simp [Rules.merge, h]
  · simp [Rules.merge, h]

/-- **C76** is false: a rule that an override sets to another value than the project keeps the value of the project. Here the project says 80 columns, the
override 120, and the file gets 80. -/
theorem C76_override_false :
    let base : Rules FormatRule := fun x => if x = .lineWidth then some "80".toList else none
    let over : Rules FormatRule := fun x => if x = .lineWidth then some "120".toList else none
    let item : OverrideItem FormatRule := ⟨["b".toList], none, some ⟨some true, some over⟩⟩
    matchesOverride sampleWorld [['b']] none item = true ∧
    (getOptions sampleWorld (some base) (some [item]) (some [['b']]) none).map (fun r => r .lineWidth) = some (some "80".toList) := by
  constructor <;> decide

/-- **C76**: the settings of a file do not depend on how its path is written: the command line and the language server use the same ones. -/
theorem C76_same_file {ρ : Type} (W : World) (base : Option (Rules ρ)) (os : Option (List (OverrideItem ρ))) (config : Option Path) {p q : Path}
    (h : (W.canon p).getD p = (W.canon q).getD q) : getOptions W base os (some p) config = getOptions W base os (some q) config := by
  have : ∀ o : OverrideItem ρ, matchesOverride W p config o = matchesOverride W q config o := by
    intro o; unfold matchesOverride; rw [h]
  show firstOverride W base p config _ = firstOverride W base q config _
  generalize os.getD [] = l
  induction l with
  | nil => rfl
  | cons o os ih => rw [firstOverride, firstOverride, this, ih]

/-! ### concrete cases -/

/-- The hypotheses of `C75_named`, `C75_missing` and `C75_server_partial`. -/
example : isGlob ['b'] = false ∧ sampleWorld.isFile (sampleWorld.pathOf ['b']) = true ∧
    sampleWorld.isFile (sampleWorld.pathOf ['c']) = false ∧ sampleWorld.isDir (sampleWorld.pathOf ['c']) = false := by decide

example : sampleWorld.isDir [['.']] = true ∧ isVcsDir [['.']] = false ∧ [['.'], ['s'], ['a']] ∈ sampleWorld.walk [['.']] true ∧
    relativeText sampleWorld [['.'], ['s'], ['a']] (some [['.'], "tombi.toml".toList]) = pathForPatterns [['.'], ['s'], ['a']] [['.']] := by
  decide

/-- Paths from a directory: the settings in `.config/tombi.toml` are about the directory above. -/
example : relativeText sampleWorld ["".toList, ['x'], ['a']] (some ["".toList, ['x'], ".config".toList, "tombi.toml".toList]) = ['a'] ∧
    pathText ["".toList, ['x'], ['a']] = "/x/a".toList := by decide

end Tombi.Cli
