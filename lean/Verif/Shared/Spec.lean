/-
The vocabulary of the properties of a shared cache.
-/
import Verif.Shared.Model
namespace LJ.Shared
open LJ.Codec (Bytes Texts Url)

variable {t : Texts}

/-- Servers whose content does not change -/
structure Site (t : Texts) where
  docs : Url t → Bytes
  dirs : Url t → List (Url t)
  heads : Url t → Bool

/-- The answer is the one of the servers; a body may come in any pieces. -/
inductive Tells (site : Site t) : Job t → Answer t → Prop
  | body (base url r) : r.rest = site.docs url → Tells site (.content base url) (.body r)
  | urls (url) : Tells site (.listing url) (.urls (site.dirs url))
  | status (base url) : Tells site (.head base url) (.status (site.heads url))

/-- The result of a job is what the servers have, or an error. -/
inductive Right (site : Site t) : Job t → Result t → Prop
  | data (base url) : Right site (.content base url) (.data (site.docs url))
  | urls (url) : Right site (.listing url) (.urls (site.dirs url))
  | status (base url) : Right site (.head base url) (.status (site.heads url))
  | error (j) : Right site j .error

/-- What is asked of the events of a schedule -/
def Along (g : Gz) (P : State t → Event t → Prop) : List (Event t) → State t → Prop
  | [], _ => True
  | e :: es, s => P s e ∧ Along g P es (step g s e)

/-- The network answers what the servers have. -/
def Honest (site : Site t) (s : State t) : Event t → Prop
  | .reply a (some ans) => ∀ j, s.jobs a = some (j, .missing) → Tells site j ans
  | _ => True

/-- What is downloaded is read to its end, or the process is killed. -/
def Patient (s : State t) : Event t → Prop
  | .reply _ (some (.body r)) => .fail ∉ r.grants
  | .close a | .fault a _ => ∀ j i pos given r, s.jobs a ≠ some (j, .filling i pos given r)
  | _ => True

/-- A file whose download failed or was abandoned is left as it is: nothing more is written to it by its process. -/
def Careful (s : State t) : Event t → Prop
  | .emit a _ => ∀ j i pos out, s.jobs a ≠ some (j, .flushing i pos out .error)
  | _ => True

/-- A file which was created since the check of a job is not created again by this job. -/
def NoRace (s : State t) : Event t → Prop
  | .call a => ∀ j ans k, s.jobs a = some (j, .checked ans) → j.makes ans = some k → s.names k = none
  | _ => True

/-- What is assumed of flate2: what is handed over does not change when more data comes; the whole file gives the data, and a part of
it does not end without an error. -/
structure GoodGz (g : Gz) : Prop where
  flow : ∀ d e, g.flow d <+: g.flow (d ++ e)
  round : ∀ d, g.dec (g.enc d) = (d, true)
  cut : ∀ d p, p <+: g.enc d → p ≠ g.enc d → (g.dec p).2 = false

/-- Bytes of a file, some of which are replaced by zeros -/
def Mix (raw full : Bytes) : Prop := raw.length ≤ full.length ∧ ∀ (i : Nat) (x : UInt8), raw[i]? = some x → x = 0 ∨ full[i]? = some x

/-- The checksum tells when bytes of a compressed file are replaced by zeros. -/
def Checked (g : Gz) : Prop := ∀ d raw x, Mix raw (g.enc d) → g.dec raw = (x, true) → x = d

/-- The listings can be saved: they have less than 2^64 entries. -/
def Savable (site : Site t) : Prop := ∀ url, ((LJ.Codec.listing t).enc (site.dirs url)).isSome = true

/-- The file which is made of what the servers have -/
def full (g : Gz) (site : Site t) : Key t → Bytes
  | .content _ url => g.enc (site.docs url)
  | .listing url => ((LJ.Codec.listing t).enc (site.dirs url)).getD []
  | _ => []

end LJ.Shared
