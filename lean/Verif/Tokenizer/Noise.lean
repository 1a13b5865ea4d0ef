/-
The global filter is exactly the declarative `Spec.Noise`.
-/
import Verif.Tokenizer.Recog
namespace LJ.Tokenizer
open LJ.Regex
variable {wd : Char → Bool} {w : Str}

theorem any_ws : (!w.any isWs) = true ↔ ∀ c ∈ w, ¬ Spec.Ws c := by
  simp [← isWs_iff]

def noiseREs : List RE := [
  seqs [lit "GET / HTTP/1", dot, lit "1"],
  seqs [lit "* ", plus (.cls isAlpha), lit ": ",
    .star (.cls fun c => isAlpha c || isDigit c || c == '.' || c == '-'), .eol],
  seqs [lit "Trying other mirror", dot],
  seqs [lit "ovs-ofctl ", .star dot, lit " ",
    alts [lit "dump-ports", lit "dump-flows", lit "show"], .wordb],
  seqs [alts [lit "ip", lit "eb"], lit "tables ", .star dot, lit " -L", .wordb],
  seqs [.bol, lit "^", oneOf "+*-", lit " ",
    repMin 5 (.cls fun c => isLower c || isDigit c || c == '.' || c == '>' || c == '-'),
    lit " ", .cls isDigit],
  seqs [.bol, plus (.cls fun c => ('a' ≤ c && c ≤ 'f') || isDigit c || c == 's' || c == '/'),
    lit ">", plus (.cls isDigit), lit " "],
  seqs [.bol, lit "++ echo ", plus (.cls (· != ' ')), .eol],
  seqs [.bol, .star (oneOf " '\","), lit "|", rep 17 dot, lit "|", .star (oneOf " '\","), .eol]]

theorem globalFilterRE_eq : globalFilterRE = alts noiseREs := rfl

theorem alts_lit {l : List String} {pre t post : Str} :
    At wd (alts (l.map lit)) pre t post ↔ ∃ k ∈ l, t = k.toList := by
  rw [at_alts]
  constructor
  · rintro ⟨r, hr, h⟩
    obtain ⟨k, hk, rfl⟩ := List.mem_map.1 hr
    exact ⟨k, hk, at_lit.1 h⟩
  · rintro ⟨k, hk, h⟩
    exact ⟨_, List.mem_map.2 ⟨k, hk, rfl⟩, at_lit.2 h⟩

theorem getLast?_any_append {a b : Str} (h : b ≠ []) : (a ++ b).getLast?.any wd = b.getLast?.any wd := by
  rw [List.getLast?_append]
  cases b with
  | nil => exact absurd rfl h
  | cons c b => simp [List.getLast?_cons]

theorem noise_of_match {pre t post : Str} {r : RE} (hr : r ∈ noiseREs) (h : At wd r pre t post) :
    Spec.Noise wd (pre ++ t ++ post) := by
  simp only [noiseREs, List.mem_cons, List.not_mem_nil, or_false] at hr
  rcases hr with rfl | rfl | rfl | rfl | rfl | rfl | rfl | rfl | rfl
  · simp only [at_seqs_cons, at_seqs_nil, at_lit, at_dot] at h
    obtain ⟨_, _, rfl, rfl, _, _, rfl, ⟨c, rfl, hc⟩, _, _, rfl, rfl, rfl⟩ := h
    have := Spec.Noise.httpGet (wd := wd) pre c post hc
    simpa using this
  · simp only [at_seqs_cons, at_seqs_nil, at_lit, at_plus_cls, at_star_cls, at_eol] at h
    obtain ⟨_, _, rfl, rfl, name, _, rfl, ⟨hn, hn'⟩, _, _, rfl, rfl, host, _, rfl, hh, _, _, rfl, ⟨rfl, hp⟩, rfl⟩ := h
    simp at hp; subst hp
    have := Spec.Noise.yumMirror (wd := wd) pre name host hn (fun c hc => isAlpha_eq c ▸ hn' c hc)
      (fun c hc => by
        have := hh c hc
        simp [isAlpha_eq, isDigit_eq] at this
        simp [Char.isAlphanum]
        rcases this with ((h | h) | h) | h <;> simp [h])
    simpa using this
  · simp only [at_seqs_cons, at_seqs_nil, at_lit, at_dot] at h
    obtain ⟨_, _, rfl, rfl, _, _, rfl, ⟨c, rfl, hc⟩, rfl⟩ := h
    have := Spec.Noise.yumRetry (wd := wd) pre c post hc
    simpa using this
  · rw [show [lit "dump-ports", lit "dump-flows", lit "show"] = ["dump-ports", "dump-flows", "show"].map lit from rfl] at h
    simp only [at_seqs_cons, at_seqs_nil, at_lit, dot, at_star_cls, alts_lit, at_wordb] at h
    obtain ⟨_, _, rfl, rfl, x, _, rfl, hx, _, _, rfl, rfl, _, _, rfl, ⟨cmd, hcmd, rfl⟩, _, _, rfl, ⟨rfl, hb⟩, rfl⟩ := h
    have hne : cmd.toList ≠ [] := by
      simp only [List.mem_cons, List.not_mem_nil, or_false] at hcmd
      rcases hcmd with rfl | rfl | rfl <;> decide
    have := Spec.Noise.ovs (wd := wd) pre x cmd post (fun h => by simpa using hx _ h) hcmd (by
      rw [getLast?_any_append hne] at hb; simpa [Spec.WordBoundary] using hb)
    simpa using this
  · rw [show [lit "ip", lit "eb"] = ["ip", "eb"].map lit from rfl] at h
    simp only [at_seqs_cons, at_seqs_nil, at_lit, dot, at_star_cls, alts_lit, at_wordb] at h
    obtain ⟨_, _, rfl, ⟨prog, hprog, rfl⟩, _, _, rfl, rfl, x, _, rfl, hx, _, _, rfl, rfl, _, _, rfl, ⟨rfl, hb⟩, rfl⟩ := h
    have := Spec.Noise.tables (wd := wd) pre prog x post hprog (fun h => by simpa using hx _ h) (by
      rw [getLast?_any_append (by decide)] at hb; simpa [Spec.WordBoundary] using hb)
    simpa using this
  · simp only [at_seqs_cons, at_seqs_nil, at_lit, at_bol, at_oneOf, at_repMin_cls, at_cls] at h
    obtain ⟨_, _, rfl, ⟨rfl, rfl⟩, _, _, rfl, rfl, _, _, rfl, ⟨c, rfl, hc⟩, _, _, rfl, rfl, host, _, rfl, ⟨hl, hh⟩, _, _, rfl, rfl,
      _, _, rfl, ⟨d, rfl, hd⟩, rfl⟩ := h
    have := Spec.Noise.chrony (wd := wd) c host d post (by simpa using hc) hl (fun x hx => by
      have := hh x hx
      simp [isLower_eq, isDigit_eq] at this
      rcases this with (((h | h) | h) | h) | h <;> simp [h]) (isDigit_eq d ▸ hd)
    simpa using this
  · simp only [at_seqs_cons, at_seqs_nil, at_lit, at_bol, at_plus_cls] at h
    obtain ⟨_, _, rfl, ⟨rfl, rfl⟩, x, _, rfl, ⟨hx, hx'⟩, _, _, rfl, rfl, n, _, rfl, ⟨hn, hn'⟩, _, _, rfl, rfl, rfl⟩ := h
    have := Spec.Noise.memcached (wd := wd) x n post hx (fun c hc => by
      have := hx' c hc
      simp [isDigit_eq, digit_iff, Char.le_def, UInt32.le_iff_toNat_le, char_eq_iff] at this ⊢
      omega) hn (fun c hc => isDigit_eq c ▸ hn' c hc)
    simpa using this
  · simp only [at_seqs_cons, at_seqs_nil, at_lit, at_bol, at_plus_cls, at_eol] at h
    obtain ⟨_, _, rfl, ⟨rfl, rfl⟩, _, _, rfl, rfl, x, _, rfl, ⟨hx, hx'⟩, _, _, rfl, ⟨rfl, hp⟩, rfl⟩ := h
    simp at hp; subst hp
    have := Spec.Noise.echo (wd := wd) x hx (fun h => by simpa using hx' _ h)
    simpa using this
  · simp only [at_seqs_cons, at_seqs_nil, at_lit, at_bol, oneOf, at_star_cls, dot, at_rep_cls, at_eol] at h
    obtain ⟨_, _, rfl, ⟨rfl, rfl⟩, a, _, rfl, ha, _, _, rfl, rfl, x, _, rfl, ⟨hx, hx'⟩, _, _, rfl, rfl, b, _, rfl, hb,
      _, _, rfl, ⟨rfl, hp⟩, rfl⟩ := h
    simp at hp; subst hp
    have := Spec.Noise.randomart (wd := wd) a x b (fun c hc => by simpa using ha c hc)
      (fun c hc => by simpa using hb c hc) hx (fun h => by simpa using hx' _ h)
    simpa using this

theorem match_of_noise (h : Spec.Noise wd w) : (!w.any isWs) = true ∨
    ∃ pre t post, w = pre ++ t ++ post ∧ ∃ r ∈ noiseREs, At wd r pre t post := by
  cases h with
  | single _ h => exact .inl (any_ws.2 h)
  | httpGet a c b hc =>
    refine .inr ⟨a, "GET / HTTP/1".toList ++ ([c] ++ ("1".toList ++ [])), b, by simp,
      noiseREs[0], by simp [noiseREs], ?_⟩
    simp only [noiseREs, List.getElem_cons_zero, at_seqs_cons, at_seqs_nil, at_lit, at_dot]
    exact ⟨_, _, rfl, rfl, _, _, rfl, ⟨c, rfl, hc⟩, _, _, rfl, rfl, rfl⟩
  | yumMirror a name host hn hn' hh =>
    refine .inr ⟨a, "* ".toList ++ (name ++ (": ".toList ++ (host ++ ([] ++ [])))), [], by simp,
      noiseREs[1], by simp [noiseREs], ?_⟩
    simp only [noiseREs, List.getElem_cons_zero, List.getElem_cons_succ, at_seqs_cons, at_seqs_nil, at_lit,
      at_plus_cls, at_star_cls, at_eol]
    refine ⟨_, _, rfl, rfl, name, _, rfl, ⟨hn, fun c hc => (isAlpha_eq c).trans (hn' c hc)⟩, _, _, rfl, rfl,
      host, _, rfl, fun c hc => ?_, _, _, rfl, ⟨rfl, rfl⟩, rfl⟩
    have := hh c hc
    simp [Char.isAlphanum] at this
    simp [isAlpha_eq, isDigit_eq]
    rcases this with (h | h) | h | h <;> simp [h]
  | yumRetry a c b hc =>
    refine .inr ⟨a, "Trying other mirror".toList ++ ([c] ++ []), b, by simp, noiseREs[2], by simp [noiseREs], ?_⟩
    simp only [noiseREs, List.getElem_cons_zero, List.getElem_cons_succ, at_seqs_cons, at_seqs_nil, at_lit, at_dot]
    exact ⟨_, _, rfl, rfl, _, _, rfl, ⟨c, rfl, hc⟩, rfl⟩
  | ovs a x cmd b hx hcmd hb =>
    refine .inr ⟨a, "ovs-ofctl ".toList ++ (x ++ (" ".toList ++ (cmd.toList ++ ([] ++ [])))), b, by simp,
      noiseREs[3], by simp [noiseREs], ?_⟩
    simp only [noiseREs, List.getElem_cons_zero, List.getElem_cons_succ]
    rw [show [lit "dump-ports", lit "dump-flows", lit "show"] = ["dump-ports", "dump-flows", "show"].map lit from rfl]
    simp only [at_seqs_cons, at_seqs_nil, at_lit, dot, at_star_cls, alts_lit, at_wordb]
    have hne : cmd.toList ≠ [] := by
      simp only [List.mem_cons, List.not_mem_nil, or_false] at hcmd
      rcases hcmd with rfl | rfl | rfl <;> decide
    refine ⟨_, _, rfl, rfl, x, _, rfl, fun c hc => ?_, _, _, rfl, rfl, _, _, rfl, ⟨cmd, hcmd, rfl⟩,
      _, _, rfl, ⟨rfl, ?_⟩, rfl⟩
    · simp; rintro rfl; exact hx hc
    · rw [getLast?_any_append hne]; simpa [Spec.WordBoundary] using hb
  | tables a prog x b hprog hx hb =>
    refine .inr ⟨a, prog.toList ++ ("tables ".toList ++ (x ++ (" -L".toList ++ ([] ++ [])))), b, by simp,
      noiseREs[4], by simp [noiseREs], ?_⟩
    simp only [noiseREs, List.getElem_cons_zero, List.getElem_cons_succ]
    rw [show [lit "ip", lit "eb"] = ["ip", "eb"].map lit from rfl]
    simp only [at_seqs_cons, at_seqs_nil, at_lit, dot, at_star_cls, alts_lit, at_wordb]
    refine ⟨_, _, rfl, ⟨prog, hprog, rfl⟩, _, _, rfl, rfl, x, _, rfl, fun c hc => ?_, _, _, rfl, rfl,
      _, _, rfl, ⟨rfl, ?_⟩, rfl⟩
    · simp; rintro rfl; exact hx hc
    · rw [getLast?_any_append (by decide)]; simpa [Spec.WordBoundary] using hb
  | chrony c host d b hc hl hh hd =>
    refine .inr ⟨[], [] ++ ("^".toList ++ ([c] ++ (" ".toList ++ (host ++ (" ".toList ++ ([d] ++ [])))))), b, by simp,
      noiseREs[5], by simp [noiseREs], ?_⟩
    simp only [noiseREs, List.getElem_cons_zero, List.getElem_cons_succ, at_seqs_cons, at_seqs_nil, at_lit, at_bol,
      at_oneOf, at_repMin_cls, at_cls]
    refine ⟨_, _, rfl, ⟨rfl, trivial⟩, _, _, rfl, rfl, _, _, rfl, ⟨c, rfl, by simpa using hc⟩, _, _, rfl, rfl,
      host, _, rfl, ⟨hl, fun x hx => ?_⟩, _, _, rfl, rfl, _, _, rfl, ⟨d, rfl, (isDigit_eq d).trans hd⟩, rfl⟩
    have := hh x hx
    simp [isLower_eq, isDigit_eq] at this ⊢
    rcases this with h | h | h | h | h <;> simp [h]
  | memcached x n b hx hx' hn hn' =>
    refine .inr ⟨[], [] ++ (x ++ (">".toList ++ (n ++ (" ".toList ++ [])))), b, by simp,
      noiseREs[6], by simp [noiseREs], ?_⟩
    simp only [noiseREs, List.getElem_cons_zero, List.getElem_cons_succ, at_seqs_cons, at_seqs_nil, at_lit, at_bol,
      at_plus_cls]
    refine ⟨_, _, rfl, ⟨rfl, trivial⟩, x, _, rfl, ⟨hx, fun c hc => ?_⟩, _, _, rfl, rfl, n, _, rfl,
      ⟨hn, fun c hc => (isDigit_eq c).trans (hn' c hc)⟩, _, _, rfl, rfl, rfl⟩
    have := hx' c hc
    simp [isDigit_eq, digit_iff, Char.le_def, UInt32.le_iff_toNat_le, char_eq_iff] at this ⊢
    omega
  | echo x hx hx' =>
    refine .inr ⟨[], [] ++ ("++ echo ".toList ++ (x ++ ([] ++ []))), [], by simp,
      noiseREs[7], by simp [noiseREs], ?_⟩
    simp only [noiseREs, List.getElem_cons_zero, List.getElem_cons_succ, at_seqs_cons, at_seqs_nil, at_lit, at_bol,
      at_plus_cls, at_eol]
    refine ⟨_, _, rfl, ⟨rfl, trivial⟩, _, _, rfl, rfl, x, _, rfl, ⟨hx, fun c hc => ?_⟩, _, _, rfl, ⟨rfl, rfl⟩, rfl⟩
    simp; rintro rfl; exact hx' hc
  | randomart a x b ha hb hx hx' =>
    refine .inr ⟨[], [] ++ (a ++ ("|".toList ++ (x ++ ("|".toList ++ (b ++ ([] ++ [])))))), [], by simp,
      noiseREs[8], by simp [noiseREs], ?_⟩
    simp only [noiseREs, List.getElem_cons_zero, List.getElem_cons_succ, at_seqs_cons, at_seqs_nil, at_lit, at_bol,
      oneOf, at_star_cls, dot, at_rep_cls, at_eol]
    refine ⟨_, _, rfl, ⟨rfl, trivial⟩, a, _, rfl, fun c hc => by simpa using ha c hc, _, _, rfl, rfl, x, _, rfl,
      ⟨hx, fun c hc => ?_⟩, _, _, rfl, rfl, b, _, rfl, fun c hc => by simpa using hb c hc,
      _, _, rfl, ⟨rfl, rfl⟩, rfl⟩
    simp; rintro rfl; exact hx' hc

theorem globalFilter_iff : globalFilter wd w = true ↔ Spec.Noise wd w := by
  show (!w.any isWs || isMatch wd globalFilterRE w) = true ↔ _
  rw [Bool.or_eq_true, globalFilterRE_eq, isMatch_iff_at]
  constructor
  · rintro (h | ⟨pre, t, post, rfl, h⟩)
    · exact .single _ (any_ws.1 h)
    · obtain ⟨r, hr, h⟩ := at_alts.1 h
      exact noise_of_match hr h
  · intro h
    rcases match_of_noise h with h | ⟨pre, t, post, rfl, r, hr, h⟩
    · exact .inl h
    · exact .inr ⟨pre, t, post, rfl, at_alts.2 ⟨r, hr, h⟩⟩

end LJ.Tokenizer
