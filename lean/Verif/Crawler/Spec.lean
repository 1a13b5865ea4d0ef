/-
Specification of a crawl, without workers nor schedules.
-/
import Verif.Crawler.Model
namespace LJ.Crawler.Spec
open LJ.Crawler

variable {O E : Type}

/-- What a link is: ignored, a directory to visit, or a file. -/
inductive Kind (O : Type) where
  | ignored
  | directory (url : Url O)
  | file
deriving DecidableEq, Repr

/-- Paths ending with `/etc/` are ignored, the other paths ending with a slash are directories and so are
the paths of an `index.html`; all the others are files. -/
def kind (url : Url O) : Kind O :=
  if "/etc/".toList <:+ url.path then .ignored
  else if ['/'] <:+ url.path then .directory url
  else if "/index.html".toList <:+ url.path then .directory { url with path := url.path.take (url.path.length - "index.html".length) }
  else .file

/-- The pages which must be visited: the root, and the directories linked by a visited page, when their path
is longer than the path of the page. -/
inductive Visited (site : Url O → Page O E) (root : Url O) : Url O → Prop where
  | root : 0 < root.path.length → Visited site root root
  | link {page dir : Url O} {links : List (Url O)} {link : Url O} : Visited site root page → site page = .links links → link ∈ links →
      kind link = .directory dir → page.path.length < dir.path.length → Visited site root dir

/-- The files which must be listed: those linked by a visited page. -/
def Listed (site : Url O → Page O E) (root file : Url O) : Prop :=
  ∃ page links, Visited site root page ∧ site page = .links links ∧ file ∈ links ∧ kind file = .file

/-- What a page produces. -/
inductive Event (O E : Type) where
  | file (url : Url O)
  | error (e : E)
  | panic
deriving DecidableEq, Repr

/-- A sequential crawl: `Crawl site n links out` when going through the links of a page whose path has length
`n`, visiting each directory as soon as it is met, produces `out`. -/
inductive Crawl (site : Url O → Page O E) : Nat → List (Url O) → List (Event O E) → Prop where
  | nil {n} : Crawl site n [] []
  | ignored {n l ls out} : kind l = .ignored → Crawl site n ls out → Crawl site n (l :: ls) out
  | file {n l ls out} : kind l = .file → Crawl site n ls out → Crawl site n (l :: ls) (.file l :: out)
  | short {n l ls out d} : kind l = .directory d → d.path.length ≤ n → Crawl site n ls out → Crawl site n (l :: ls) out
  | page {n l ls out d sub out'} : kind l = .directory d → n < d.path.length → site d = .links sub →
      Crawl site d.path.length sub out' → Crawl site n ls out → Crawl site n (l :: ls) (out' ++ out)
  | error {n l ls out d e} : kind l = .directory d → n < d.path.length → site d = .error e → Crawl site n ls out →
      Crawl site n (l :: ls) (.error e :: out)
  | panic {n l ls out d} : kind l = .directory d → n < d.path.length → site d = .panic → Crawl site n ls out →
      Crawl site n (l :: ls) (.panic :: out)

/-- The crawl from a root. -/
inductive CrawlRoot (site : Url O → Page O E) (root : Url O) : List (Event O E) → Prop where
  | empty : root.path = [] → CrawlRoot site root []
  | page {links out} : root.path ≠ [] → site root = .links links → Crawl site root.path.length links out → CrawlRoot site root out
  | error {e} : root.path ≠ [] → site root = .error e → CrawlRoot site root [.error e]
  | panic : root.path ≠ [] → site root = .panic → CrawlRoot site root [.panic]

end LJ.Crawler.Spec
