import Verif.Proofs.Cache
/-! C41, C61: the cache of remote schemas. -/
namespace Tombi.Cache
open Spec.Cache

private theorem enabled_iff (options : Option Options) : isDisabled options = false ↔ Enabled options := by
  unfold isDisabled Enabled
  cases options with
  | none => simp
  | some o =>
    cases h : o.noCache with
    | none => simp [h]
    | some b => cases b <;> simp [h]

private theorem ttl_eq (dflt : Option Nat) (options : Option Options) : ttlOf dflt options = Ttl dflt options := by
  cases options <;> rfl

private theorem read_eq {utf8 : Bytes → Option (List Char)} {dflt : Option Nat} {fs : FS} {log : List Saved}
    (h : History fs log) (now : Nat) (p : Path) (options : Option Options) (text : List Char) :
    readFromCache utf8 dflt fs now (some p) options = .ok (some text)
      ↔ Enabled options ∧ ∃ s, lastAt log p = some s ∧ Fresh (Ttl dflt options) s.time now
          ∧ utf8 s.bytes = some text := by
  have hi := history_inv h
  rw [← enabled_iff, ← ttl_eq]
  unfold readFromCache
  cases hd : isDisabled options with
  | true => simp
  | false =>
    simp only [Bool.false_eq_true, if_false, true_and]
    split
    · next b t hb =>
      obtain ⟨s, h1, h2, h3⟩ := (hi.files _ _ _).mp hb
      cases ho : tooOld (ttlOf dflt options) t now with
      | true =>
        simp only [if_true]
        refine ⟨fun h => by simp at h, fun ⟨s', h1', hf, _⟩ => ?_⟩
        rw [h1] at h1'; cases h1'
        rw [h3, ← not_tooOld_iff, ho] at hf; cases hf
      | false =>
        have hf := (not_tooOld_iff _ _ _).mp ho
        simp only [Bool.false_eq_true, if_false]
        constructor
        · intro hr
          refine ⟨s, h1, by rw [h3]; exact hf, ?_⟩
          rw [h2]
          cases hu : utf8 b with
          | none => rw [hu] at hr; simp at hr
          | some x => rw [hu] at hr; simpa using hr
        · rintro ⟨s', h1', _, h5⟩
          rw [h1] at h1'; cases h1'
          rw [h2] at h5; rw [h5]
    · next hb =>
      refine ⟨fun h => by simp at h, fun ⟨s, h1, _⟩ => ?_⟩
      exact absurd ((hi.files p s.bytes s.time).mpr ⟨s, h1, rfl, rfl⟩) (hb _ _)

/-- C41: After any history of saves and refreshes, a read gives a text exactly when caching is enabled, something
has been saved to the file of the URI since the last refresh, the last such save is not older than the time to
live, and the text is what was saved then. -/
theorem C41_read_iff (utf8 : Bytes → Option (List Char)) (dflt : Option Nat) {fs : FS} {log : List Saved}
    (h : History fs log) (now : Nat) (u : Uri) (options : Option Options) (text : List Char) :
    readFromCache utf8 dflt fs now (some (cachePath u)) options = .ok (some text)
      ↔ Enabled options ∧ ∃ s, Last (fun v => cachePath v = cachePath u) log s
          ∧ Fresh (Ttl dflt options) s.time now ∧ utf8 s.bytes = some text := by
  rw [read_eq h]
  simp only [lastAt_iff]

/-- C41: Where every URI is one of `http` or `https` with a host and a plain path, and all have the same user,
port, query and fragment, a read gives exactly what was last saved for this very URI. -/
theorem C41_read_own_partial (utf8 : Bytes → Option (List Char)) (dflt : Option Nat) {fs : FS} {log : List Saved}
    (h : History fs log) (now : Nat) (u : Uri) (options : Option Options) (text : List Char)
    (hlog : ∀ v, v = u ∨ v ∈ log.map (·.uri) → Remote v ∧ v.host.isSome ∧ PlainPath v ∧ v.rest = u.rest) :
    readFromCache utf8 dflt fs now (some (cachePath u)) options = .ok (some text)
      ↔ Enabled options ∧ ∃ s, Last (fun v => v = u) log s
          ∧ Fresh (Ttl dflt options) s.time now ∧ utf8 s.bytes = some text := by
  rw [C41_read_iff utf8 dflt h]
  have key : ∀ s ∈ log, cachePath s.uri = cachePath u ↔ s.uri = u := by
    intro s hs
    refine ⟨fun he => ?_, fun he => by rw [he]⟩
    obtain ⟨a1, a2, a3, a4⟩ := hlog s.uri (.inr (List.mem_map_of_mem hs))
    obtain ⟨b1, b2, b3, _⟩ := hlog u (.inl rfl)
    obtain ⟨c1, c2, c3⟩ := cachePath_injective a1 b1 a2 b2 a3 b3 he
    cases hsu : s.uri; cases u
    simp_all
  have hl : ∀ s, Last (fun v => cachePath v = cachePath u) log s ↔ Last (fun v => v = u) log s := by
    intro s
    unfold Last
    constructor
    · rintro ⟨n, o, rfl, h1, h2⟩
      exact ⟨n, o, rfl, (key s (by simp)).mp h1, fun s' hs' he =>
        h2 s' hs' ((key s' (by simp [hs'])).mpr he)⟩
    · rintro ⟨n, o, rfl, h1, h2⟩
      exact ⟨n, o, rfl, (key s (by simp)).mpr h1, fun s' hs' he =>
        h2 s' hs' ((key s' (by simp [hs'])).mp he)⟩
  simp only [hl]

/-- C41: After a save, a read within the time to live gives the saved bytes, decoded. -/
theorem C41_save_then_read (utf8 : Bytes → Option (List Char)) (dflt : Option Nat) {fs fs' : FS} {log : List Saved}
    (h : History fs log) (u : Uri) (hu : Remote u) (b : Bytes) (now now' : Nat) (options : Option Options)
    (hs : saveToCache fs now (some (cachePath u)) b = (.ok (), fs')) (he : Enabled options)
    (hf : Fresh (Ttl dflt options) now now') :
    readFromCache utf8 dflt fs' now' (some (cachePath u)) options
      = (match utf8 b with | some text => .ok (some text) | none => .error .readFailed) := by
  have hi := history_inv (.saved h hu hs)
  have hb : fs' (cachePath u) = some (.file b now) :=
    (hi.files _ _ _).mpr ⟨_, by rw [lastAt_cons, if_pos rfl], rfl, rfl⟩
  rw [← ttl_eq, ← not_tooOld_iff] at hf
  unfold readFromCache
  rw [(enabled_iff options).mpr he]
  simp only [hb, hf, Bool.false_eq_true, if_false]
  cases utf8 b <;> rfl

/-- C41: A save only fails when the file of another saved URI is a directory on its way, or the other way round. -/
theorem C41_save_succeeds {fs : FS} {log : List Saved} (h : History fs log) (u : Uri) (hu : Remote u) (b : Bytes)
    (now : Nat) (ha : ∀ s ∈ log, Apart (cachePath u) (cachePath s.uri)) :
    ∃ fs', saveToCache fs now (some (cachePath u)) b = (.ok (), fs') :=
  save_succeeds h now _ b (remote_length hu) ha

/-- C41: Saving for one URI does not change what is read for one with another file, nor does a failed save. -/
theorem C41_save_frame (utf8 : Bytes → Option (List Char)) (dflt : Option Nat) {fs : FS} {log : List Saved}
    (h : History fs log) (u v : Uri) (hu : Remote u) (b : Bytes) (now now' : Nat) (options : Option Options)
    (text : List Char) (hne : cachePath u ≠ cachePath v) :
    readFromCache utf8 dflt (saveToCache fs now (some (cachePath u)) b).2 now' (some (cachePath v)) options
        = .ok (some text)
      ↔ readFromCache utf8 dflt fs now' (some (cachePath v)) options = .ok (some text) := by
  cases hs : saveToCache fs now (some (cachePath u)) b with
  | mk r fs' =>
    cases r with
    | ok x =>
      rw [read_eq (.saved h hu hs), read_eq h]
      simp only [lastAt_cons, if_neg hne]
    | error e => rw [read_eq (.failed h hu hs), read_eq h]

/-- C41: URIs of `http` and `https` with a host and a plain path that differ in scheme, host or path use
different files. -/
theorem C41_different_files_partial (u v : Uri) (hu : Remote u) (hv : Remote v) (hhu : u.host.isSome)
    (hhv : v.host.isSome) (pu : PlainPath u) (pv : PlainPath v)
    (hd : u.scheme ≠ v.scheme ∨ u.host ≠ v.host ∨ u.segments ≠ v.segments) : cachePath u ≠ cachePath v := by
  intro h
  obtain ⟨h1, h2, h3⟩ := cachePath_injective hu hv hhu hhv pu pv h
  rcases hd with hd | hd | hd
  · exact hd h1
  · exact hd h2
  · exact hd h3

private def host : Name := ['h']
private def uri (segments : List Name) (rest : List Char := []) : Uri := ⟨https, some host, segments, rest⟩

/-- C41, in full, is false: URIs that differ in the query, in a slash at the end, in the name of the index file,
or in an empty segment share a file. -/
theorem C41_different_files_false :
    ∃ u1 u2 v1 v2 w1 w2 x1 x2 : Uri, u1 ≠ u2 ∧ cachePath u1 = cachePath u2 ∧ u1.segments = u2.segments
      ∧ v1 ≠ v2 ∧ cachePath v1 = cachePath v2 ∧ v2.segments = v1.segments ++ [[]]
      ∧ w1 ≠ w2 ∧ cachePath w1 = cachePath w2 ∧ w2.segments = w1.segments ++ [indexFileName]
      ∧ x1 ≠ x2 ∧ cachePath x1 = cachePath x2 ∧ x2.segments = [] :: x1.segments :=
  ⟨uri [['a']] ['?', 'v', '=', '1'], uri [['a']] ['?', 'v', '=', '2'],
   uri [['a']], uri [['a'], []], uri [['a']], uri [['a'], indexFileName],
   uri [['a']], uri [[], ['a']], by decide⟩

private def b1 : Bytes := [123, 125]
private def ascii (b : Bytes) : Option (List Char) := some (b.map fun n => Char.ofNat n.toNat)
private def aJson : Uri := uri [['a', '.', 'j', 's', 'o', 'n']]

/-- C41 does not survive a crash: the process may end while a file is being written, and a part of the answer,
which nobody saved, is then read as if it were fresh. -/
theorem C41_crash_false : ∃ (fs : FS) (log : List Saved) (u : Uri) (b : Bytes) (k now : Nat) (text : List Char),
    History fs log ∧ Remote u
      ∧ readFromCache ascii none (interruptedSave fs now (some (cachePath u)) b k) now (some (cachePath u)) none
          = .ok (some text)
      ∧ ascii b ≠ some text ∧ ∀ s ∈ log, ascii s.bytes ≠ some text :=
  ⟨emptyFS, [], aJson, b1, 1, 0, ['{'], .start, .inr rfl, by decide, by decide, by simp⟩

/-- C41: a save fails although nothing is wrong with it when the file of another URI is on its way. -/
theorem C41_save_conflict : ∃ (fs : FS) (log : List Saved) (u : Uri) (b : Bytes), History fs log ∧ Remote u
    ∧ (saveToCache fs 0 (some (cachePath u)) b).1 = .error .saveFailed :=
  ⟨_, _, uri [['a', '.', 'j', 's', 'o', 'n'], ['b']], b1,
    .saved (u := aJson) (b := b1) (now := 0) .start (.inr rfl) rfl, .inr rfl, by decide⟩

example : ∃ fs, History fs [⟨aJson, b1, 5⟩]
    ∧ readFromCache ascii none fs 9 (some (cachePath aJson)) (some ⟨none, some 4⟩) = .ok (some ['{', '}'])
    ∧ readFromCache ascii none fs 10 (some (cachePath aJson)) (some ⟨none, some 4⟩) = .ok none
    ∧ readFromCache ascii none fs 9 (some (cachePath aJson)) (some ⟨some true, some 4⟩) = .ok none :=
  ⟨_, .saved .start (.inr rfl) rfl, by decide, by decide, by decide⟩

example : PlainPath aJson ∧ PlainPath (uri [[]]) ∧ aJson.host.isSome :=
  ⟨⟨.inr (by decide), by decide, by decide⟩, ⟨.inl rfl, by decide, by decide⟩, rfl⟩

/-! ### loading -/

section
variable {α : Type} (utf8 : Bytes → Option (List Char)) (parse : List Char → Option α) (dflt : Option Nat)

private theorem load_some {fs : FS} {now : Nat} {p : Path} {options : Option Options} {a : α} :
    loadFromCache utf8 parse dflt fs now p options = some a
      ↔ ∃ text, readFromCache utf8 dflt fs now (some p) options = .ok (some text) ∧ parse text = some a := by
  unfold loadFromCache
  split
  · next text h => rw [h]; simp
  · next h =>
    refine ⟨fun h => by simp at h, fun ⟨t, ht, _⟩ => absurd ht (h t)⟩

/-- C61: Offline, nothing is asked from the network and the cache stays as it is. -/
theorem C61_offline (options : Option Options) (net : Uri → Option Bytes) (fs : FS) (now : Nat) (u : Uri) :
    (loadRemote utf8 parse dflt true options net fs now u).requests = []
      ∧ (loadRemote utf8 parse dflt true options net fs now u).fs = fs := by
  unfold loadRemote
  split
  · exact ⟨rfl, rfl⟩
  · simp only [if_true]
    split <;> exact ⟨rfl, rfl⟩

/-- C61: The network is asked exactly when the program is online and the cache has no fresh copy that parses,
and then it is asked once, for this URI. -/
theorem C61_requests (offline : Bool) (options : Option Options) (net : Uri → Option Bytes) {fs : FS}
    {log : List Saved} (h : History fs log) (now : Nat) (u : Uri) :
    ((offline = false ∧ ¬ ∃ s text, Enabled options ∧ Last (fun v => cachePath v = cachePath u) log s
        ∧ Fresh (Ttl dflt options) s.time now ∧ utf8 s.bytes = some text ∧ (parse text).isSome)
      → (loadRemote utf8 parse dflt offline options net fs now u).requests = [u])
    ∧ (¬ (offline = false ∧ ¬ ∃ s text, Enabled options ∧ Last (fun v => cachePath v = cachePath u) log s
        ∧ Fresh (Ttl dflt options) s.time now ∧ utf8 s.bytes = some text ∧ (parse text).isSome)
      → (loadRemote utf8 parse dflt offline options net fs now u).requests = []) := by
  have hc : (∃ s text, Enabled options ∧ Last (fun v => cachePath v = cachePath u) log s
        ∧ Fresh (Ttl dflt options) s.time now ∧ utf8 s.bytes = some text ∧ (parse text).isSome)
      ↔ ∃ a, loadFromCache utf8 parse dflt fs now (cachePath u) options = some a := by
    simp only [load_some, C41_read_iff utf8 dflt h]
    constructor
    · rintro ⟨s, text, h1, h2, h3, h4, h5⟩
      obtain ⟨a, ha⟩ := Option.isSome_iff_exists.mp h5
      exact ⟨a, text, ⟨h1, s, h2, h3, h4⟩, ha⟩
    · rintro ⟨a, text, ⟨h1, s, h2, h3, h4⟩, ha⟩
      exact ⟨s, text, h1, h2, h3, h4, by rw [ha]; rfl⟩
  rw [hc]
  unfold loadRemote
  constructor
  · rintro ⟨ho, hn⟩
    split
    · next a ha => exact absurd ⟨a, ha⟩ hn
    · rw [ho]
      simp only [Bool.false_eq_true, if_false]
      split
      · split <;> rfl
      · split <;> rfl
  · intro hn
    split
    · rfl
    · next hnone =>
      cases offline with
      | true =>
        simp only [if_true]
        split <;> rfl
      | false => exact absurd ⟨rfl, by rw [hnone]; simp⟩ hn

/-- C61: A fresh copy that parses is the result. -/
theorem C61_fresh_copy (offline : Bool) (options : Option Options) (net : Uri → Option Bytes) {fs : FS}
    {log : List Saved} (h : History fs log) (now : Nat) (u : Uri) (s : Saved) (text : List Char) (a : α)
    (he : Enabled options) (hl : Last (fun v => cachePath v = cachePath u) log s)
    (hf : Fresh (Ttl dflt options) s.time now) (ht : utf8 s.bytes = some text) (hp : parse text = some a) :
    (loadRemote utf8 parse dflt offline options net fs now u).result = .schema a := by
  have : loadFromCache utf8 parse dflt fs now (cachePath u) options = some a :=
    (load_some utf8 parse dflt).mpr ⟨text, (C41_read_iff utf8 dflt h now u options text).mpr ⟨he, s, hl, hf, ht⟩, hp⟩
  unfold loadRemote
  rw [this]

/-- C61: An answer of the network is the result, whatever the cache has that is not fresh, and it is saved. -/
theorem C61_answer (options : Option Options) (net : Uri → Option Bytes) (fs : FS) (now : Nat) (u : Uri)
    (b : Bytes) (text : List Char) (a : α) (hn : net u = some b) (ht : utf8 b = some text) (hp : parse text = some a)
    (hr : (loadRemote utf8 parse dflt false options net fs now u).requests ≠ []) :
    (loadRemote utf8 parse dflt false options net fs now u).result = .schema a
      ∧ (loadRemote utf8 parse dflt false options net fs now u).fs
          = (saveToCache fs now (some (cachePath u)) b).2 := by
  unfold loadRemote at hr ⊢
  split
  · next h => rw [h] at hr; exact absurd rfl hr
  · simp only [Bool.false_eq_true, if_false, hn, ht, Option.bind_some, hp, and_self]

/-- C61: Where the network is not available or does not answer, a copy in the cache is the result however old it
is, unless caching is switched off. -/
theorem C61_stale_copy (offline : Bool) (options : Option Options) (net : Uri → Option Bytes) {fs : FS}
    {log : List Saved} (h : History fs log) (now : Nat) (u : Uri) (s : Saved) (text : List Char) (a : α)
    (hoff : offline = true ∨ net u = none)
    (he : Enabled options) (hl : Last (fun v => cachePath v = cachePath u) log s)
    (ht : utf8 s.bytes = some text) (hp : parse text = some a) :
    (loadRemote utf8 parse dflt offline options net fs now u).result = .schema a
      ∧ (loadRemote utf8 parse dflt offline options net fs now u).fs = fs := by
  have hstale : loadIgnoringTtl utf8 parse dflt fs now (cachePath u) options = some a := by
    unfold loadIgnoringTtl
    refine (load_some utf8 parse dflt).mpr ⟨text, (C41_read_iff utf8 dflt h now u _ text).mpr
      ⟨?_, s, hl, fun t ht => by simp [Ttl] at ht, ht⟩, hp⟩
    intro o ho
    cases ho
    cases options with
    | none => simp
    | some o => exact he o rfl
  unfold loadRemote
  split
  · next a' ha' =>
    obtain ⟨text', hr, hp'⟩ := (load_some utf8 parse dflt).mp ha'
    obtain ⟨_, s', hl', _, ht'⟩ := (C41_read_iff utf8 dflt h now u options text').mp hr
    have : s' = s := by
      have h1 := (lastAt_iff log (cachePath u) s').mpr hl'
      have h2 := (lastAt_iff log (cachePath u) s).mpr hl
      rw [h1] at h2; exact Option.some.inj h2
    subst this
    rw [ht] at ht'; cases ht'
    rw [hp] at hp'; cases hp'
    exact ⟨rfl, rfl⟩
  · rcases hoff with rfl | hn
    · simp only [if_true, hstale, and_self]
    · cases offline <;> simp [hn, hstale]

/-- C61: With caching switched off, the result does not depend on what is in the cache. -/
theorem C61_no_cache (offline : Bool) (ttl : Option Nat) (net : Uri → Option Bytes) (fs : FS)
    (now : Nat) (u : Uri) :
    (loadRemote utf8 parse dflt offline (some ⟨some true, ttl⟩) net fs now u).result
      = if offline then .nothing
        else match net u with
          | none => .fetchFailed
          | some b => match (utf8 b).bind parse with
            | some a => .schema a
            | none => .parseFailed := by
  unfold loadRemote
  have h1 : ∀ t, loadFromCache utf8 parse dflt fs now (cachePath u) (some ⟨some true, t⟩) = none := fun t => rfl
  have h2 : loadIgnoringTtl utf8 parse dflt fs now (cachePath u) (some ⟨some true, ttl⟩) = none := rfl
  rw [h1, h2]
  cases offline with
  | true => rfl
  | false =>
    simp only [Bool.false_eq_true, if_false]
    cases net u with
    | none => rfl
    | some b =>
      simp only
      cases (utf8 b).bind parse <;> rfl

/-- C61: A schema that has just been loaded and saved is loaded again within the time to live without asking the
network, and it is the same. -/
theorem C61_second_load (options : Option Options) (net net' : Uri → Option Bytes) {fs : FS}
    {log : List Saved} (h : History fs log) (now now' : Nat) (u : Uri) (hu : Remote u) (offline : Bool)
    (he : Enabled options) (b : Bytes) (text : List Char) (a : α) (hn : net u = some b) (ht : utf8 b = some text)
    (hp : parse text = some a)
    (hr : (loadRemote utf8 parse dflt false options net fs now u).requests ≠ [])
    (ha : ∀ s ∈ log, Apart (cachePath u) (cachePath s.uri)) (hf : Fresh (Ttl dflt options) now now') :
    let first := loadRemote utf8 parse dflt false options net fs now u
    let second := loadRemote utf8 parse dflt offline options net' first.fs now' u
    second.result = first.result ∧ second.requests = [] ∧ second.fs = first.fs := by
  intro first second
  obtain ⟨h1, h2⟩ := C61_answer utf8 parse dflt options net fs now u b text a hn ht hp hr
  obtain ⟨fs', hs⟩ := C41_save_succeeds h u hu b now ha
  have hread := C41_save_then_read utf8 dflt h u hu b now now' options hs he hf
  rw [ht] at hread
  have hload : loadFromCache utf8 parse dflt fs' now' (cachePath u) options = some a :=
    (load_some utf8 parse dflt).mpr ⟨text, hread, hp⟩
  have hfs : first.fs = fs' := by show (loadRemote utf8 parse dflt false options net fs now u).fs = fs'; rw [h2, hs]
  have hres : first.result = .schema a := h1
  have : second = ⟨.schema a, [], fs'⟩ := by
    show loadRemote utf8 parse dflt offline options net' first.fs now' u = _
    rw [hfs]
    unfold loadRemote
    rw [hload]
  rw [this, hres, hfs]
  exact ⟨rfl, rfl, rfl⟩

end

/-- online with an empty cache: one request, and the answer -/
example : (loadRemote (α := List Char) ascii some none false none (fun _ => some b1) emptyFS 3 aJson).requests
      = [aJson]
    ∧ (loadRemote (α := List Char) ascii some none false none (fun _ => some b1) emptyFS 3 aJson).result
      = .schema ['{', '}'] := by decide

/-- a network that does not answer: the old copy -/
example : (loadRemote (α := List Char) ascii some none false (some ⟨none, some 4⟩) (fun _ => none)
      (saveToCache emptyFS 0 (some (cachePath aJson)) b1).2 100 aJson).result = .schema ['{', '}'] := by decide

end Tombi.Cache
