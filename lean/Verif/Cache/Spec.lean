/-
The vocabulary of the cache properties.
-/
import Verif.Cache.Model
namespace LJ.Cache
open LJ.Codec (Bytes Texts Url)

variable {t : Texts} (digest : String → List Char)

/-- What is assumed of SHA-256 in hexadecimal: 64 characters which are not slashes, and no collision among the URLs
`U` which are used. -/
structure GoodDigest (U : String → Prop) : Prop where
  length : ∀ s, (digest s).length = 64
  slash : ∀ s, '/' ∉ digest s
  inj : ∀ a b, U a → U b → digest a = digest b → a = b

/-- the URLs whose digests an operation uses -/
def Op.urls : Op t → List (Url t)
  | .headSet b u _ | .headUrl b u _ | .remoteAdd b u _ | .remoteDrop b u => [b, u]
  | .httpdirAdd u _ | .httpdirDrop u | .crashInAdd u _ _ _ => [u]
  | .read _ _ | .close _ | .crash _ => []

/-- All the URLs of a history are in `U`. -/
def Within (U : String → Prop) (ops : List (Op t)) : Prop := ∀ op ∈ ops, ∀ u ∈ op.urls, U u.val

/-- What a cache file is for -/
inductive Key (t : Texts) where
  | listing (url : Url t)
  | content (base url : Url t)
  | headYes (base url : Url t)
  | headNo (base url : Url t)

/-- its URLs -/
def Key.urls : Key t → List (Url t)
  | .listing u => [u]
  | .content b u | .headYes b u | .headNo b u => [b, u]

/-- its name -/
def Key.name : Key t → Name
  | .listing u => httpdirName digest u
  | .content b u => httpName digest b u
  | .headYes b u => headSuccessName digest b u
  | .headNo b u => headFailureName digest b u

/-- The bytes that the reads of a reader returned in a history, in order -/
def delivered (id : Nat) : List (Op t × Out) → Bytes
  | [] => []
  | (.read j _, .bytes b) :: tr => if j = id then b ++ delivered id tr else delivered id tr
  | _ :: tr => delivered id tr

/-- The states of the cache, starting without one -/
def Reachable (U : String → Prop) (s : State) : Prop := ∃ ops : List (Op t), Within U ops ∧ (run digest ops State.empty).2 = s

end LJ.Cache
