/- C45: the names of the sources which are listed from a URL, in the comparisons of remote logs. -/
import Verif.Remote.Model
import Verif.Paths.Props
namespace LJ.Remote
open LJ.Codec (Texts Url Source)
variable {t : Texts} {N D E : Type}

/-- C45. Every source which is listed from a URL is a URL with the length of the listed one, its final slashes replaced by one: its relative
name is what follows, if it is below. (A URL of 2^64 bytes is out of reach.)  The part that is missing is false, `C45_false`. -/
theorem C45_listed_partial (S : Setup t N D E) (net : Nat → Net t) (url : Url t) (s : Sys) (source : Source t)
    (h : Except.ok source ∈ (S.httpdir net url s).1)
    (hlen : LJ.Paths.byteLen (LJ.Paths.trimEnd (· == '/') url.val.toList) + 1 < 2 ^ 64) :
    ∃ n u, source = .remote n u ∧ LJ.Paths.Source.remote n.toNat u.val.toList = LJ.Paths.httpdirSource url.val.toList u.val.toList ∧
      ∀ name, u.val.toList = LJ.Paths.trimEnd (· == '/') url.val.toList ++ '/' :: name →
        (LJ.Paths.Source.remote n.toNat u.val.toList).getRelative = some name := by
  unfold Setup.httpdir at h
  rcases hc : LJ.Cache.httpdirIter S.digest url ((net s.asked).list url) s.cache with ⟨_ | urls, c⟩
  · rw [hc] at h; simp at h
  · rw [hc] at h
    simp only [List.mem_map, Except.ok.injEq] at h
    obtain ⟨u, _, rfl⟩ := h
    have hn : (UInt64.ofNat (baseLen url)).toNat = LJ.Paths.byteLen (LJ.Paths.trimEnd (· == '/') url.val.toList) + 1 := by
      rw [UInt64.toNat_ofNat_of_lt' (by unfold baseLen; exact hlen)]
      rfl
    have hs : LJ.Paths.Source.remote (UInt64.ofNat (baseLen url)).toNat u.val.toList = LJ.Paths.httpdirSource url.val.toList u.val.toList := by
      rw [hn]; rfl
    refine ⟨_, u, rfl, hs, fun name hu => ?_⟩
    rw [hs, hu]
    exact LJ.Paths.C45_remote_partial _ _

example : LJ.Paths.byteLen (LJ.Paths.trimEnd (· == '/') "http://logs/a/".toList) + 1 = 14 ∧
    (LJ.Paths.httpdirSource "http://logs/a/".toList "http://logs/a/b/c.log".toList).getRelative = some "b/c.log".toList := by decide +kernel

end LJ.Remote
