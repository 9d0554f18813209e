import Verif.Spec.Cache
/-! Lemmas for C41 and C61. -/
namespace Tombi.Cache
open Spec.Cache

/-! ### file system -/

/-- every node but the root lies in a directory -/
def WF (fs : FS) : Prop := fs [] = some .dir ∧ ∀ p, p ≠ [] → fs p ≠ none → fs p.dropLast = some .dir

theorem wf_take {fs : FS} (h : WF fs) (p : Path) (hp : fs p ≠ none) : ∀ n, n < p.length →
    fs (p.take n) = some .dir := by
  intro n
  generalize hk : p.length = k
  induction k generalizing p with
  | zero => intro hn; omega
  | succ k ih =>
    intro hn
    have hne : p ≠ [] := by rintro rfl; simp at hk
    have hd := h.2 p hne hp
    by_cases hn' : n < k
    · have := ih p.dropLast (by rw [hd]; simp) (by simp [hk]) hn'
      rwa [List.dropLast_eq_take, List.take_take, Nat.min_eq_left (by omega)] at this
    · have : n = k := by omega
      subst this
      rw [List.dropLast_eq_take, hk] at hd
      simpa using hd

theorem isFile_iff (fs : FS) (p : Path) : isFile fs p = true ↔ ∃ b t, fs p = some (.file b t) := by
  unfold isFile
  split
  · next b t h => simp [h]
  · next h =>
    refine ⟨fun h => by simp at h, fun ⟨b, t, hb⟩ => ?_⟩
    exact absurd hb (by intro hb; exact h b t hb)

theorem prefix_dropLast {q p : Path} (h : q <+: p) (hq : q ≠ p) : q <+: p.dropLast := by
  obtain ⟨t, rfl⟩ := h
  have ht : t ≠ [] := by rintro rfl; simp at hq
  rw [List.dropLast_append_of_ne_nil ht]
  exact List.prefix_append _ _

theorem createDirAll_spec {fs fs' : FS} {p : Path} (h : createDirAll fs p = some fs') :
    (∀ q, q <+: p → isFile fs q = false) ∧ ∀ q, fs' q = if q <+: p then some .dir else fs q := by
  unfold createDirAll at h
  split at h
  · cases h
  · next hn =>
    have hn : ¬ ∃ n, n < p.length + 1 ∧ isFile fs (p.take n) = true := by
      simpa [List.any_eq_true, List.mem_range] using hn
    cases h
    refine ⟨fun q hq => ?_, fun q => ?_⟩
    · have := List.prefix_iff_eq_take.mp hq
      apply Bool.eq_false_iff.mpr
      intro hf
      exact hn ⟨q.length, by have := hq.length_le; omega, by rw [← this]; exact hf⟩
    · show (if List.isPrefixOf q p = true then some Node.dir else fs q) = _
      by_cases hq : q <+: p
      · rw [if_pos hq, if_pos (List.isPrefixOf_iff_prefix.mpr hq)]
      · rw [if_neg hq, if_neg (fun h => hq (List.isPrefixOf_iff_prefix.mp h))]

theorem createDirAll_wf {fs fs' : FS} {p : Path} (hw : WF fs) (h : createDirAll fs p = some fs') : WF fs' := by
  obtain ⟨_, h2⟩ := createDirAll_spec h
  refine ⟨by rw [h2, if_pos (List.nil_prefix)], fun q hq hne => ?_⟩
  rw [h2] at hne ⊢
  by_cases hp : q <+: p
  · rw [if_pos ((List.dropLast_prefix q).trans hp)]
  · rw [if_neg hp] at hne
    have := hw.2 q hq hne
    split
    · rfl
    · exact this

theorem writeFile_spec {fs fs' : FS} {p : Path} {b : Bytes} {now : Nat} (h : writeFile fs p b now = some fs') :
    fs p ≠ some .dir ∧ fs p.dropLast = some .dir
      ∧ ∀ q, fs' q = if q = p then some (.file b now) else fs q := by
  unfold writeFile at h
  split at h
  · cases h
  · next h2 h1 =>
    cases h
    exact ⟨fun h => h1 h, h2, fun q => rfl⟩
  · cases h

theorem writeFile_wf {fs fs' : FS} {p : Path} {b : Bytes} {now : Nat} (hw : WF fs)
    (h : writeFile fs p b now = some fs') : WF fs' := by
  obtain ⟨h1, h2, h3⟩ := writeFile_spec h
  have hp : p ≠ [] := by rintro rfl; exact h1 hw.1
  refine ⟨by rw [h3, if_neg (Ne.symm hp)]; exact hw.1, fun q hq hne => ?_⟩
  have key : ∀ q', fs q' = some .dir → fs' q' = some .dir := by
    intro q' hq'
    rw [h3, if_neg]
    · exact hq'
    · rintro rfl; exact h1 hq'
  apply key
  rw [h3] at hne
  by_cases hqp : q = p
  · subst hqp; exact h2
  · rw [if_neg hqp] at hne; exact hw.2 q hq hne

/-! ### saving -/

/-- the files of `fs'` are those of `fs` -/
def SameFiles (fs fs' : FS) : Prop := ∀ q b t, fs' q = some (.file b t) ↔ fs q = some (.file b t)

theorem createDirAll_files {fs fs' : FS} {p : Path} (h : createDirAll fs p = some fs') : SameFiles fs fs' := by
  obtain ⟨h1, h2⟩ := createDirAll_spec h
  intro q b t
  rw [h2]
  split
  · next hq =>
    refine ⟨fun h => by simp at h, fun h => ?_⟩
    have := h1 q hq
    rw [(isFile_iff fs q).mpr ⟨b, t, h⟩] at this; cases this
  · exact Iff.rfl

theorem save_ok {fs fs' : FS} {now : Nat} {p : Path} {b : Bytes} (hw : WF fs)
    (h : saveToCache fs now (some p) b = (.ok (), fs')) :
    WF fs' ∧ ∀ q b' t', fs' q = some (.file b' t')
      ↔ (q = p ∧ b' = b ∧ t' = now) ∨ (q ≠ p ∧ fs q = some (.file b' t')) := by
  have main : ∀ fs1 : FS, WF fs1 → SameFiles fs fs1 → writeFile fs1 p b now = some fs' →
      WF fs' ∧ ∀ q b' t', fs' q = some (.file b' t')
        ↔ (q = p ∧ b' = b ∧ t' = now) ∨ (q ≠ p ∧ fs q = some (.file b' t')) := by
    intro fs1 hw1 hs h
    refine ⟨writeFile_wf hw1 h, fun q b' t' => ?_⟩
    rw [(writeFile_spec h).2.2]
    by_cases hq : q = p
    · rw [if_pos hq]
      simp only [Option.some.injEq, Node.file.injEq, hq, true_and, ne_eq, not_true_eq_false, false_and, or_false]
      exact ⟨fun h => ⟨h.1.symm, h.2.symm⟩, fun h => ⟨h.1.symm, h.2.symm⟩⟩
    · rw [if_neg hq, hs q b' t']
      simp [hq]
  unfold saveToCache at h
  simp only at h
  split at h
  · split at h
    · cases h
    · next fs2 h2 => cases h; exact main fs hw (fun q b t => Iff.rfl) h2
  · split at h
    · cases h
    · split at h
      · cases h
      · next fs1 h1 =>
        split at h
        · cases h
        · next fs2 h2 =>
          cases h
          exact main fs1 (createDirAll_wf hw h1) (createDirAll_files h1) h2

theorem save_error {fs fs' : FS} {now : Nat} {p : Path} {b : Bytes} {e} (hw : WF fs)
    (h : saveToCache fs now (some p) b = (.error e, fs')) : WF fs' ∧ SameFiles fs fs' := by
  unfold saveToCache at h
  simp only at h
  split at h
  · split at h
    · cases h; exact ⟨hw, fun q b t => Iff.rfl⟩
    · cases h
  · split at h
    · cases h; exact ⟨hw, fun q b t => Iff.rfl⟩
    · split at h
      · cases h; exact ⟨hw, fun q b t => Iff.rfl⟩
      · next fs1 h1 =>
        split at h
        · cases h; exact ⟨createDirAll_wf hw h1, createDirAll_files h1⟩
        · cases h

/-! ### paths -/

theorem append_isSuffixOf_iff {s x : List Char} (y : List Char) (hs : ∀ c ∈ s, c ≠ '/') :
    s <:+ (y ++ '/' :: x) ↔ s <:+ x := by
  constructor
  · rintro ⟨t, ht⟩
    rcases List.append_eq_append_iff.mp ht with ⟨u, h1, h2⟩ | ⟨u, h1, h2⟩
    · cases u with
      | nil =>
        simp only [List.nil_append] at h2
        cases s with
        | nil => exact List.nil_suffix
        | cons c s => cases h2; exact absurd rfl (hs '/' (by simp))
      | cons d u =>
        have : d ∈ s := by rw [h2]; simp
        cases s with
        | nil => simp at h2
        | cons c s =>
          exfalso
          have h3 : '/' ∈ c :: s := by rw [h2]; simp
          exact hs '/' h3 rfl
    · cases u with
      | nil =>
        simp only [List.nil_append] at h2
        cases s with
        | nil => exact List.nil_suffix
        | cons c s => cases h2; exact absurd rfl (hs '/' (by simp))
      | cons d u =>
        simp only [List.cons_append, List.cons.injEq] at h2
        exact ⟨u, h2.2.symm⟩
  · rintro ⟨t, rfl⟩
    exact ⟨y ++ '/' :: t, by simp⟩

theorem remote_length {u : Uri} (h : Remote u) : 2 ≤ (cachePath u).length := by
  unfold cachePath
  by_cases hj : dotJson.isSuffixOf u.path = true
  · -- the last segment is not empty
    have hne : u.segments.filter (fun s => s ≠ []) ≠ [] := by
      intro hnil
      have hall : ∀ s ∈ u.segments, s = [] := by
        intro s hs
        have := List.filter_eq_nil_iff.mp hnil s hs
        simpa using this
      have hp : ∀ c ∈ u.path, c = '/' := by
        intro c hc
        simp only [Uri.path, List.mem_flatten, List.mem_map] at hc
        obtain ⟨l, ⟨s, hs, rfl⟩, hc⟩ := hc
        rw [hall s hs] at hc
        simpa using hc
      obtain ⟨t, ht⟩ := List.isSuffixOf_iff_suffix.mp hj
      have : '.' ∈ u.path := by rw [← ht]; simp [dotJson]
      exact absurd (hp _ this) (by decide)
    have := List.length_pos_iff.mpr hne
    simp only [List.length_append, List.length_cons, List.length_nil]
    omega
  · have : (u.scheme = http ∨ u.scheme = https) ∧ ¬ dotJson.isSuffixOf u.path = true := ⟨h, hj⟩
    rw [if_pos this]
    simp only [List.length_append, List.length_cons, List.length_nil]
    omega

/-! ### histories -/

/-- the last save to the file `p` -/
def lastAt (log : List Saved) (p : Path) : Option Saved := log.find? fun s => cachePath s.uri = p

theorem createDirAll_dirs {fs fs' : FS} {p q : Path} (h : createDirAll fs p = some fs')
    (hq : fs' q = some .dir) : q <+: p ∨ fs q = some .dir := by
  rw [(createDirAll_spec h).2] at hq
  by_cases hp : q <+: p
  · exact .inl hp
  · rw [if_neg hp] at hq; exact .inr hq

theorem writeFile_dirs {fs fs' : FS} {p q : Path} {b now} (h : writeFile fs p b now = some fs')
    (hq : fs' q = some .dir) : fs q = some .dir := by
  rw [(writeFile_spec h).2.2] at hq
  by_cases hp : q = p
  · rw [if_pos hp] at hq; cases hq
  · rwa [if_neg hp] at hq

theorem strict_of_dropLast {q p : Path} (hp : p ≠ []) (h : q <+: p.dropLast) : q <+: p ∧ q ≠ p := by
  refine ⟨h.trans (List.dropLast_prefix p), ?_⟩
  rintro rfl
  have := h.length_le
  have := List.length_pos_iff.mpr hp
  simp at *; omega

theorem save_ok_dirs {fs fs' : FS} {now : Nat} {p q : Path} {b : Bytes}
    (h : saveToCache fs now (some p) b = (.ok (), fs')) (hq : fs' q = some .dir) :
    fs q = some .dir ∨ (q <+: p ∧ q ≠ p) := by
  unfold saveToCache at h
  simp only at h
  split at h
  · split at h
    · cases h
    · next fs2 h2 => cases h; exact .inl (writeFile_dirs h2 hq)
  · split at h
    · cases h
    · next hp =>
      split at h
      · cases h
      · next fs1 h1 =>
        split at h
        · cases h
        · next fs2 h2 =>
          cases h
          rcases createDirAll_dirs h1 (writeFile_dirs h2 hq) with h | h
          · exact .inr (strict_of_dropLast hp h)
          · exact .inl h

theorem save_error_dirs {fs fs' : FS} {now : Nat} {p q : Path} {b : Bytes} {e} (hw : WF fs)
    (h : saveToCache fs now (some p) b = (.error e, fs')) (hq : fs' q = some .dir) : fs q = some .dir := by
  unfold saveToCache at h
  simp only at h
  split at h
  · split at h
    · cases h; exact hq
    · cases h
  · split at h
    · cases h; exact hq
    · next hp =>
      split at h
      · cases h; exact hq
      · next fs1 h1 =>
        split at h
        · next h2 =>
          cases h
          rcases createDirAll_dirs h1 hq with hpre | h
          · -- the write can only fail because `p` is a directory
            have hd : fs' p = some .dir := by
              unfold writeFile at h2
              split at h2
              · next h => exact h
              · cases h2
              · next h3 h4 =>
                exfalso
                have : fs' p.dropLast = some .dir := by
                  rw [(createDirAll_spec h1).2, if_pos (List.prefix_refl _)]
                first
                | exact h4 this
                | exact h3 this
                | simp_all
            have hd' : fs p = some .dir := by
              rcases createDirAll_dirs h1 hd with h | h
              · exact absurd rfl (strict_of_dropLast hp h).2
              · exact h
            have hs := strict_of_dropLast hp hpre
            have hlt : q.length < p.length := by
              have := hs.1.length_le
              rcases Nat.lt_or_eq_of_le this with h | h
              · exact h
              · exact absurd (hs.1.eq_of_length h) hs.2
            have := wf_take hw p (by rw [hd']; simp) q.length hlt
            rwa [← List.prefix_iff_eq_take.mp hs.1] at this
          · exact h
        · cases h

structure Inv (fs : FS) (log : List Saved) : Prop where
  wf : WF fs
  files : ∀ p b t, fs p = some (.file b t) ↔ ∃ s, lastAt log p = some s ∧ s.bytes = b ∧ s.time = t
  deep : ∀ s ∈ log, 2 ≤ (cachePath s.uri).length
  dirs : ∀ p, p ≠ [] → fs p = some .dir → ∃ s ∈ log, p <+: cachePath s.uri ∧ p ≠ cachePath s.uri

theorem lastAt_cons (s : Saved) (log : List Saved) (p : Path) :
    lastAt (s :: log) p = if cachePath s.uri = p then some s else lastAt log p := by
  unfold lastAt
  by_cases h : cachePath s.uri = p <;> simp [h]

theorem lastAt_mem {log : List Saved} {p : Path} {s : Saved} (h : lastAt log p = some s) :
    s ∈ log ∧ cachePath s.uri = p := by
  unfold lastAt at h
  exact ⟨List.mem_of_find?_eq_some h, by simpa using List.find?_some h⟩

theorem history_inv {fs : FS} {log : List Saved} (h : History fs log) : Inv fs log := by
  induction h with
  | start =>
    refine ⟨⟨rfl, ?_⟩, ?_, by simp, ?_⟩
    · intro p hp hne; exact absurd (if_neg hp) hne
    · intro p b t
      refine ⟨fun h => ?_, fun ⟨s, h, _⟩ => by simp [lastAt] at h⟩
      unfold emptyFS at h
      split at h <;> simp at h
    · intro p hp h
      unfold emptyFS at h
      rw [if_neg hp] at h; cases h
  | @saved fs fs' log u b now _ hr hs ih =>
    obtain ⟨hw, hf⟩ := save_ok ih.wf hs
    refine ⟨hw, fun p b' t' => ?_, ?_, ?_⟩
    · rw [hf, lastAt_cons]
      by_cases hp : cachePath u = p
      · subst hp
        simp only [if_pos]
        constructor
        · rintro (⟨_, rfl, rfl⟩ | ⟨hne, _⟩)
          · exact ⟨_, rfl, rfl, rfl⟩
          · exact absurd rfl hne
        · rintro ⟨s, hs, rfl, rfl⟩
          cases hs; exact .inl ⟨trivial, rfl, rfl⟩
      · rw [if_neg hp, ← ih.files p b' t']
        have : p ≠ cachePath u := fun h => hp h.symm
        simp [this]
    · intro s hs
      rcases List.mem_cons.mp hs with rfl | hs
      · exact remote_length hr
      · exact ih.deep s hs
    · intro p hp h
      rcases save_ok_dirs hs h with h | h
      · obtain ⟨s, h1, h2⟩ := ih.dirs p hp h
        exact ⟨s, List.mem_cons_of_mem _ h1, h2⟩
      · exact ⟨_, List.mem_cons_self, h⟩
  | @failed fs fs' log u b now e _ hr hs ih =>
    obtain ⟨hw, hf⟩ := save_error ih.wf hs
    exact ⟨hw, fun p b' t' => by rw [hf p b' t', ih.files], ih.deep,
      fun p hp h => ih.dirs p hp (save_error_dirs ih.wf hs h)⟩
  | @refreshed fs log _ ih =>
    have hnone : ∀ c p, refreshCache fs (c :: p) = none := by
      intro c p
      show (if fs [c] = some .dir then none else fs (c :: p)) = none
      split
      · rfl
      · next hd =>
        cases hn : fs (c :: p) with
        | none => rfl
        | some n =>
          exfalso
          cases p with
          | nil =>
            cases n with
            | dir => exact hd hn
            | file b t =>
              obtain ⟨s, h1, _⟩ := (ih.files _ _ _).mp hn
              obtain ⟨h2, h3⟩ := lastAt_mem h1
              have := ih.deep s h2
              rw [h3] at this; simp at this
          | cons d p =>
            have := wf_take ih.wf (c :: d :: p) (by rw [hn]; simp) 1 (by simp)
            exact hd (by simpa using this)
    refine ⟨⟨ih.wf.1, ?_⟩, ?_, by simp, ?_⟩
    · intro p hp hne
      cases p with
      | nil => exact absurd rfl hp
      | cons c p => exact absurd (hnone c p) hne
    · intro p b t
      refine ⟨fun h => ?_, fun ⟨s, h, _⟩ => by simp [lastAt] at h⟩
      cases p with
      | nil =>
        have : refreshCache fs [] = fs [] := rfl
        rw [this, ih.wf.1] at h; cases h
      | cons c p => rw [hnone] at h; cases h
    · intro p hp h
      cases p with
      | nil => exact absurd rfl hp
      | cons c p => rw [hnone] at h; cases h

theorem save_succeeds {fs : FS} {log : List Saved} (h : History fs log) (now : Nat) (p : Path) (b : Bytes)
    (hp : 2 ≤ p.length) (ha : ∀ s ∈ log, Apart p (cachePath s.uri)) :
    ∃ fs', saveToCache fs now (some p) b = (.ok (), fs') := by
  have hi := history_inv h
  have hpne : p ≠ [] := by rintro rfl; simp at hp
  have hnd : fs p ≠ some .dir := by
    intro hd
    obtain ⟨s, hs, ⟨t, ht⟩, hne⟩ := hi.dirs p hpne hd
    refine (ha s hs).1 t ?_ ht
    rintro rfl; simp at ht; exact hne ht
  have hwr : ∀ fs1 : FS, fs1 p ≠ some .dir → fs1 p.dropLast = some .dir → ∃ fs', writeFile fs1 p b now = some fs' := by
    intro fs1 h1 h2
    unfold writeFile
    split
    · next h => exact absurd h h1
    · exact ⟨_, rfl⟩
    · simp_all
  unfold saveToCache
  simp only
  split
  · next hf =>
    obtain ⟨b', t', hb⟩ := (isFile_iff fs p).mp hf
    have hd := hi.wf.2 p hpne (by rw [hb]; simp)
    obtain ⟨fs', hw⟩ := hwr fs hnd hd
    rw [hw]; exact ⟨_, rfl⟩
  · have hc : ∃ fs1, createDirAll fs p.dropLast = some fs1 := by
      unfold createDirAll
      rw [if_neg]
      · exact ⟨_, rfl⟩
      · simp only [List.any_eq_true, List.mem_range, not_exists, not_and]
        intro n hn hf
        obtain ⟨b', t', hb⟩ := (isFile_iff _ _).mp hf
        obtain ⟨s, h1, _⟩ := (hi.files _ _ _).mp hb
        obtain ⟨h2, h3⟩ := lastAt_mem h1
        have hpre : p.dropLast.take n <+: p.dropLast := List.take_prefix _ _
        obtain ⟨⟨t, ht⟩, hne⟩ := strict_of_dropLast hpne hpre
        refine (ha s h2).2 t ?_ (by rw [h3]; exact ht)
        rintro rfl; simp at ht; exact hne (by simp [ht])
    obtain ⟨fs1, hc⟩ := hc
    rw [hc]
    simp only
    have h1 : fs1 p ≠ some .dir := by
      intro hd
      rcases createDirAll_dirs hc hd with h | h
      · exact (strict_of_dropLast hpne h).2 rfl
      · exact hnd h
    have h2 : fs1 p.dropLast = some .dir := by rw [(createDirAll_spec hc).2, if_pos (List.prefix_refl _)]
    obtain ⟨fs', hw⟩ := hwr fs1 h1 h2
    rw [hw]; exact ⟨_, rfl⟩

/-- `find?` is the last save in the words of the specification -/
theorem lastAt_iff (log : List Saved) (p : Path) (s : Saved) :
    lastAt log p = some s ↔ Last (fun v => cachePath v = p) log s := by
  unfold lastAt Last
  rw [List.find?_eq_some_iff_append]
  constructor
  · rintro ⟨h1, as, bs, rfl, h2⟩
    exact ⟨as, bs, rfl, by simpa using h1, fun s' hs' => by simpa using h2 s' hs'⟩
  · rintro ⟨as, bs, rfl, h1, h2⟩
    exact ⟨by simpa using h1, as, bs, rfl, fun s' hs' => by simpa using h2 s' hs'⟩

theorem not_tooOld_iff (ttl : Option Nat) (saved now : Nat) : tooOld ttl saved now = false ↔ Fresh ttl saved now := by
  unfold tooOld Fresh
  cases ttl with
  | none => simp
  | some t =>
    simp only [Option.some.injEq, decide_eq_false_iff_not]
    constructor
    · rintro h _ rfl; omega
    · intro h; have := h t rfl; omega

/-! ### which URIs share a file -/

theorem suffix_path_iff {segs : List Name} {last : Name} (u : Uri) (h : u.segments = segs ++ [last]) :
    dotJson.isSuffixOf u.path = true ↔ dotJson <:+ last := by
  rw [List.isSuffixOf_iff_suffix, Uri.path, h, List.map_append, List.flatten_append]
  simp only [List.map_cons, List.map_nil, List.flatten_cons, List.flatten_nil, List.append_nil]
  exact append_isSuffixOf_iff _ (by decide)

theorem filter_plain {u : Uri} (h : PlainPath u) : (u.segments = [[]] ∧ u.segments.filter (fun s => s ≠ []) = [])
    ∨ (u.segments ≠ [[]] ∧ u.segments.filter (fun s => s ≠ []) = u.segments) := by
  rcases h.1 with h1 | h1
  · left; exact ⟨h1, by rw [h1]; rfl⟩
  · right
    refine ⟨?_, List.filter_eq_self.mpr fun s hs => by simpa using h1 s hs⟩
    intro he
    exact h1 [] (by rw [he]; simp) rfl

theorem cachePath_injective {u v : Uri} (hu : Remote u) (hv : Remote v) (hhu : u.host.isSome) (hhv : v.host.isSome)
    (pu : PlainPath u) (pv : PlainPath v) (h : cachePath u = cachePath v) :
    u.scheme = v.scheme ∧ u.host = v.host ∧ u.segments = v.segments := by
  obtain ⟨hu', hhu⟩ := Option.isSome_iff_exists.mp hhu
  obtain ⟨hv', hhv⟩ := Option.isSome_iff_exists.mp hhv
  unfold cachePath at h
  rw [hhu, hhv] at h
  simp only [Option.toList_some, List.cons_append, List.nil_append, List.cons.injEq] at h
  obtain ⟨h1, h2, h3⟩ := h
  refine ⟨h1, by rw [hhu, hhv, h2], ?_⟩
  have idx : ∀ w : Uri, Remote w → PlainPath w → ∀ l : Path,
      w.segments.filter (fun s => s ≠ []) ++ (if (w.scheme = http ∨ w.scheme = https)
        ∧ ¬ dotJson.isSuffixOf w.path = true then [indexFileName] else []) = l →
      (l.getLast? = some indexFileName ∧ l.dropLast = w.segments.filter (fun s => s ≠ []))
        ∨ (l.getLast? ≠ some indexFileName ∧ l = w.segments.filter (fun s => s ≠ [])) := by
    intro w hw pw l hl
    split at hl
    · left; subst hl; simp
    · right
      rw [List.append_nil] at hl
      subst hl
      refine ⟨fun hg => ?_, rfl⟩
      exact pw.2.2 (List.mem_filter.mp (List.mem_of_getLast? hg)).1
  have e : u.segments.filter (fun s => s ≠ []) = v.segments.filter (fun s => s ≠ []) := by
    rcases idx u hu pu _ rfl with ⟨a1, a2⟩ | ⟨a1, a2⟩ <;> rcases idx v hv pv _ rfl with ⟨b1, b2⟩ | ⟨b1, b2⟩
    · rw [← a2, ← b2]; exact congrArg List.dropLast h3
    · exact absurd (by rw [← h3]; exact a1) b1
    · exact absurd (by rw [h3]; exact b1) a1
    · rw [← a2, ← b2]; exact h3
  rcases filter_plain pu with ⟨a1, a2⟩ | ⟨a1, a2⟩ <;> rcases filter_plain pv with ⟨b1, b2⟩ | ⟨b1, b2⟩
  · rw [a1, b1]
  · rw [a2, b2] at e; exact absurd e.symm pv.2.1
  · rw [a2, b2] at e; exact absurd e pu.2.1
  · rw [a2, b2] at e; exact e

end Tombi.Cache
