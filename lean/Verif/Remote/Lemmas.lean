/-
What one reading and one listing leave in the cache, and what the cache gives after them.
-/
import Verif.Remote.Consume
import Verif.Remote.Spec
import Verif.Cache.Lemmas
import Verif.Codec.Props
namespace LJ.Remote
open LJ.Codec (Bytes Texts Url Source Content)
open LJ.Cache (State Remote Response Opened File)
open LJ.Process (Str Ev Env Trainer St AnomalyContext Stop)
open LJ.Report (Index Model Report ListErr Fail LogReport ReadErr World)
open LJ.Iterator.Spec (Blocks NoOverflow pieces)

/-! ### The reads of a body -/

theorem steady_read {r : Remote} (h : Steady r) (n : Nat) : ∃ c r', r.read n = (some c, r') ∧ Steady r' ∧
    c ++ r'.rest = r.rest ∧ c.length ≤ n ∧ (0 < n → r.rest ≠ [] → c ≠ []) ∧ r'.grants.length ≤ r.grants.length := by
  obtain ⟨rest, grants⟩ := r
  unfold Remote.read
  cases grants with
  | nil =>
    refine ⟨_, _, rfl, h, List.take_append_drop _ _, by simp, ?_, Nat.le_refl _⟩
    intro hn hr he
    cases rest with
    | nil => exact hr rfl
    | cons c cs => cases n with | zero => omega | succ n => simp at he
  | cons g gs =>
    cases g with
    | fail => exact absurd (List.mem_cons_self) h
    | short k =>
      refine ⟨_, _, rfl, fun h' => h (List.mem_cons_of_mem _ h'), List.take_append_drop _ _, by simp, ?_, Nat.le_succ _⟩
      intro hn hr he
      cases rest with
      | nil => exact hr rfl
      | cons c cs =>
        obtain ⟨m, hm⟩ : ∃ m, min n (k + 1) = m + 1 := ⟨min n (k + 1) - 1, by omega⟩
        rw [hm] at he
        simp at he

theorem bodyReads_steady (n : Nat) (r : Remote) (h : Steady r) (hn : r.rest.length < n) :
    ∃ blocks, bodyReads n r = LJ.Iterator.fromReads blocks ∧ Blocks blocks ∧ blocks.flatten = r.rest := by
  induction n generalizing r with
  | zero => omega
  | succ n ih =>
    obtain ⟨c, r', e, h1, h2, h3, h4, h5⟩ := steady_read h 8192
    unfold bodyReads
    rw [e]
    cases c with
    | nil =>
      refine ⟨[], rfl, by intro b hb; simp at hb, ?_⟩
      by_contra hne
      exact h4 (by omega) (fun h => hne (by simp [h])) rfl
    | cons c cs =>
      obtain ⟨bs, g1, g2, g3⟩ := ih r' h1 (by rw [← h2] at hn; simp at hn; omega)
      refine ⟨(c :: cs) :: bs, ?_, ?_, ?_⟩
      · simp only [g1]; rfl
      · intro b hb
        rcases List.mem_cons.1 hb with rfl | hb
        · exact ⟨by simp, h3⟩
        · exact g2 b hb
      · rw [List.flatten_cons, g3, h2]

theorem reads_steady (r : Remote) (h : Steady r) : ∃ blocks, reads r = LJ.Iterator.fromReads blocks ∧ Blocks blocks ∧ blocks.flatten = r.rest :=
  bodyReads_steady _ r h (by omega)

/-! ### The file a reader fills -/

theorem append_append (a b : Bytes) (f : File) : LJ.Cache.append b (LJ.Cache.append a f) = LJ.Cache.append (a ++ b) f := by
  cases f with
  | raw x => rfl
  | gz d f => simp [LJ.Cache.append]

theorem append_nil (f : File) : LJ.Cache.append [] f = f := by cases f <;> simp [LJ.Cache.append]

theorem readMany_spec (id i m n : Nat) (r : Remote) (blocks : List Bytes) (s : State) (hr : Steady r) (hb : bodyReads n r = LJ.Iterator.fromReads blocks)
    (hm : m ≤ blocks.length) (hs : s.readers[id]? = some (some ⟨r, i⟩)) :
    (readMany id m s).names = s.names ∧ (readMany id m s).files = s.files.modify i (LJ.Cache.append (blocks.take m).flatten) ∧
      ∃ r', (readMany id m s).readers[id]? = some (some ⟨r', i⟩) := by
  induction m generalizing n r blocks s with
  | zero =>
    refine ⟨rfl, ?_, r, hs⟩
    show s.files = _
    rw [List.take_zero, List.flatten_nil]
    have e : (LJ.Cache.append [] : File → File) = fun f => f := by funext f; exact append_nil f
    rw [e]
    exact (List.modify_id _ _).symm
  | succ m ih =>
    cases blocks with
    | nil => simp at hm
    | cons b bs =>
      cases n with
      | zero => simp [bodyReads, LJ.Iterator.fromReads] at hb
      | succ n =>
        obtain ⟨c, r', e, h1, h2, h3, h4, h5⟩ := steady_read hr 8192
        unfold bodyReads at hb
        rw [e] at hb
        cases c with
        | nil => simp [LJ.Iterator.fromReads] at hb
        | cons c cs =>
          simp only [LJ.Iterator.fromReads, List.map_cons, List.cons.injEq, LJ.Iterator.ReadRes.data.injEq] at hb
          obtain ⟨rfl, hb⟩ := hb
          have hlen : id < s.readers.length := by
            by_contra hge
            rw [List.getElem?_eq_none (by omega)] at hs
            cases hs
          have est : (LJ.Cache.readerRead id 8192 s).2 = { s with readers := s.readers.set id (some ⟨r', i⟩), files := s.files.modify i (LJ.Cache.append (c :: cs)) } := by
            unfold LJ.Cache.readerRead
            rw [hs]
            simp only [e]
          have g := ih n r' bs { s with readers := s.readers.set id (some ⟨r', i⟩), files := s.files.modify i (LJ.Cache.append (c :: cs)) } h1
            hb (by simpa using hm) (by simp [hlen])
          unfold readMany
          rw [est]
          refine ⟨g.1, ?_, g.2.2⟩
          rw [g.2.1]
          simp only
          rw [List.modify_modify_eq]
          congr 1
          funext f
          simp [Function.comp, append_append]

/-! ### Growth of the cache -/

/-- Every number of the cache is the one of a file. -/
def Sound (c : State) : Prop := ∀ n i, c.names n = some i → i < c.files.length

/-- `f` has all the files of `c`, with the same content. -/
def Ext (c f : State) : Prop := ∀ n i, c.names n = some i → f.names n = some i ∧ f.files[i]? = c.files[i]?

theorem Ext.refl (c : State) : Ext c c := fun _ _ h => ⟨h, rfl⟩

theorem Ext.trans {a b c : State} (h1 : Ext a b) (h2 : Ext b c) : Ext a c := by
  intro n i h
  obtain ⟨g1, g2⟩ := h1 n i h
  obtain ⟨g3, g4⟩ := h2 n i g1
  exact ⟨g3, g4.trans g2⟩

theorem Ext.get {c f : State} (h : Ext c f) {n : LJ.Cache.Name} {x : File} (hx : LJ.Cache.get n c = some x) : LJ.Cache.get n f = some x := by
  unfold LJ.Cache.get at *
  cases hn : c.names n with
  | none => rw [hn] at hx; cases hx
  | some i =>
    rw [hn] at hx
    obtain ⟨g1, g2⟩ := h n i hn
    rw [g1, Option.bind_some, g2]
    exact hx

/-- A file is added under a new name. -/
theorem ext_add {c c' : State} {n : LJ.Cache.Name} {x : File} (hs : Sound c) (hn : c.names n = none)
    (hn' : c'.names = fun m => if m = n then some c.files.length else c.names m) (hf : c'.files = c.files ++ [x]) :
    Sound c' ∧ Ext c c' ∧ LJ.Cache.get n c' = some x := by
  refine ⟨?_, ?_, ?_⟩
  · intro m i h
    rw [hn'] at h
    rw [hf]
    simp only at h
    split at h
    · cases h; simp
    · have := hs m i h
      simp; omega
  · intro m i h
    rw [hn', hf]
    refine ⟨?_, ?_⟩
    · simp only
      rw [if_neg (fun e => by rw [e, hn] at h; cases h), h]
    · rw [List.getElem?_append_left (hs m i h)]
  · unfold LJ.Cache.get
    rw [hn', hf]
    simp

/-! ### Reading -/

section
variable {t : Texts} {N D E : Type} {S : Setup t N D E}

theorem noOverflow_take {json : Bool} {blocks : List Bytes} (h : NoOverflow json 6000 blocks) (m : Nat) : NoOverflow json 6000 (blocks.take m) := by
  intro k hk
  rw [List.take_take]
  have : min k m ≤ k := Nat.min_le_left _ _
  simp at hk
  rw [Nat.min_eq_left (by omega)]
  exact h k (by omega)

/-- The lines of the start of a body are the same whatever the reads. -/
theorem lines_cut (hc : CutOk S) (json : Bool) (blocks : List Bytes) (hb : Blocks blocks) (hs : Short blocks.flatten) (m : Nat) :
    S.lines json (S.gzReads (blocks.take m).flatten true) = S.lines json (LJ.Iterator.fromReads (blocks.take m)) := by
  obtain ⟨c1, c2⟩ := hc (blocks.take m).flatten
  have hno := LJ.Iterator.noOverflow_of_short (hs json)
  have hno2 : NoOverflow json 6000 (S.cut (blocks.take m).flatten) := by
    have h1 : NoOverflow json 6000 (S.cut (blocks.take m).flatten ++ blocks.drop m) := by
      apply LJ.Iterator.noOverflow_of_short
      rw [List.flatten_append, c2, ← List.flatten_append, List.take_append_drop]
      exact hs json
    have h2 := noOverflow_take h1 (S.cut (blocks.take m).flatten).length
    rw [List.take_left'] at h2
    · exact h2
    · rfl
  unfold Setup.lines Setup.gzReads Setup.cfg
  rw [if_pos rfl, List.append_nil]
  congr 1
  exact LJ.Iterator.C01_schedule_independent Unit S.checks json _ _ c2 c1 (fun b h => hb b (List.mem_of_mem_take h)) hno2 (noOverflow_take hno m)

/-- The lines a consumer got are those of what was read for it. -/
theorem lines_agree (hc : CutOk S) (json : Bool) (blocks : List Bytes) (hb : Blocks blocks) (hs : Short blocks.flatten) (n : Nat) :
    Agree n (S.lines json (LJ.Iterator.fromReads blocks))
      (S.lines json (S.gzReads (blocks.take (S.readsMade json (LJ.Iterator.fromReads blocks) n)).flatten true)) := by
  rw [lines_cut hc json blocks hb hs]
  have hlen : (LJ.Iterator.fromReads (ε := Unit) blocks).length = blocks.length := by simp [LJ.Iterator.fromReads]
  have hle := nexts_reader_len S.cfg n (LJ.Iterator.BL.new (LJ.Iterator.fromReads (ε := Unit) blocks) json)
  have e : (LJ.Iterator.BL.new (LJ.Iterator.fromReads (ε := Unit) blocks) json).reader = LJ.Iterator.fromReads blocks := rfl
  rw [e, hlen] at hle
  unfold Setup.readsMade
  rw [hlen]
  generalize hm : blocks.length - (nexts S.cfg n (LJ.Iterator.BL.new (LJ.Iterator.fromReads (ε := Unit) blocks) json)).reader.length = m
  refine drain_local S.cfg n (LJ.Iterator.BL.new (LJ.Iterator.fromReads blocks) json) (LJ.Iterator.fromReads (blocks.take m)) (LJ.Iterator.fromReads (blocks.drop m)) ?_ ?_ ?_
  · rw [e]
    unfold LJ.Iterator.fromReads
    rw [← List.map_append, List.take_append_drop]
  · intro bs h
    simp only [LJ.Iterator.fromReads, List.mem_map, LJ.Iterator.ReadRes.data.injEq, exists_eq_right] at h
    exact (hb bs (List.mem_of_mem_drop h)).2
  · simp only [LJ.Iterator.fromReads, List.length_map, List.length_drop] at hm ⊢
    omega

/-- The sources of a listing in the cache `f` -/
def Setup.cachedList (S : Setup t N D E) (f : State) (url : Url t) : List (Except E (Source t)) :=
  match LJ.Cache.httpdirGet S.digest url f with
  | some (some urls) => urls.map fun u => .ok (.remote (UInt64.ofNat (baseLen url)) u)
  | _ => [.error S.netError]

/-- What the program gets when everything comes from the cache `f` -/
def Setup.world (S : Setup t N D E) (f : State) : World (Content t) (Source t) N D E Unit where
  list c := match c with
    | .file source => [.ok source]
    | .directory (.loc n path) => S.localList (.loc n path)
    | .directory (.remote _ url) => S.cachedList f url
    | .zuul b => S.cachedList f b.logUrl
  valid := S.valid
  nameOf := S.nameOf
  isJson := S.isJson
  openSource source := match source with
    | .loc n path => S.localOpen (.loc n path)
    | .remote pre url =>
      match baseOf pre.toNat url with
      | .ok base =>
        match LJ.Cache.remoteGet S.digest base url f with
        | some (data, finished) => .ok fun json => S.lines json (S.gzReads data finished)
        | none => .error S.netError
      | _ => .error S.netError
  decode := S.decode
  tokenize := S.tokenize
  search := S.search
  over := S.over

end
end LJ.Remote
