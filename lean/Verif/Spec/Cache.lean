import Verif.Model.Cache
/-! Specification for C41 and C61: what has been saved, and which URIs share a file. -/
namespace Tombi.Spec.Cache
open Tombi.Cache

/-- the URIs whose content is cached: those of the schemes `http` and `https` -/
def Remote (u : Uri) : Prop := u.scheme = http ∨ u.scheme = https

/-- one successful save -/
structure Saved where
  uri : Uri
  bytes : Bytes
  time : Nat

/-- The histories of the cache: any sequence of saves, successful or not, and refreshes, starting with an empty
cache directory; `log` is what has been saved since the last refresh, the newest first. -/
inductive History : FS → List Saved → Prop
  | start : History emptyFS []
  | saved {fs fs' log u b now} : History fs log → Remote u →
      saveToCache fs now (some (cachePath u)) b = (.ok (), fs') → History fs' (⟨u, b, now⟩ :: log)
  | failed {fs fs' log u b now e} : History fs log → Remote u →
      saveToCache fs now (some (cachePath u)) b = (.error e, fs') → History fs' log
  | refreshed {fs log} : History fs log → History (refreshCache fs) []

/-- `s` is the last save of the log for which `P` holds -/
def Last (P : Uri → Prop) (log : List Saved) (s : Saved) : Prop :=
  ∃ newer older, log = newer ++ s :: older ∧ P s.uri ∧ ∀ s' ∈ newer, ¬ P s'.uri

/-- not older than the time to live (no limit for `none`) -/
def Fresh (ttl : Option Nat) (saved now : Nat) : Prop := ∀ t, ttl = some t → now ≤ saved + t

/-- caching is not switched off -/
def Enabled (options : Option Options) : Prop := ∀ o, options = some o → o.noCache ≠ some true

/-- the time to live the caller asks for, or the default -/
def Ttl (dflt : Option Nat) (options : Option Options) : Option Nat := options.elim dflt fun o => o.cacheTtl

/-- neither path is that of a directory the other lies in -/
def Apart (p q : Path) : Prop := (∀ t, t ≠ [] → p ++ t ≠ q) ∧ (∀ t, t ≠ [] → q ++ t ≠ p)

/-- no empty segment, except for the root, and no segment that is the name of the index file -/
def PlainPath (u : Uri) : Prop :=
  (u.segments = [[]] ∨ ∀ s ∈ u.segments, s ≠ []) ∧ u.segments ≠ [] ∧ indexFileName ∉ u.segments

end Tombi.Spec.Cache
