/-
Exactly which contexts are shown, whatever the reader returns: the processor against a description without positions, coordinates and
slices.
-/
import Verif.Process.Exact
namespace LJ.Process

/-! ### The specification -/
namespace Spec
variable {D ε : Type}

/-- The last three lines. -/
def last3 (l : List Str) : List Str := l.drop (l.length - 3)

/-- What is shown. -/
structure View (D : Type) where
  /-- the contexts which are complete, and not yet reported -/
  done : List (AnomalyContext D)
  /-- the last anomaly, when lines can be added after it -/
  last : Option (AnomalyContext D)
  /-- the lines left by the previous chunk, until a line is shown -/
  left : List Str
  /-- the lines of this chunk since the last one which is shown -/
  unseen : List Str

/-- A line which is not an anomaly: it is shown after the last anomaly, when this one has less than three lines. -/
def View.line (v : View D) (t : Str) : View D :=
  match v.last with
  | some a =>
    if a.after.length + 1 < 3 then { v with last := some { a with after := a.after ++ [t] }, left := [], unseen := [] }
    else { done := v.done ++ [{ a with after := a.after ++ [t] }], last := none, left := [], unseen := [] }
  | none => { v with unseen := v.unseen ++ [t] }

/-- An anomaly: it is shown after the last three lines which are not shown. -/
def View.anomaly (v : View D) (a : Anomaly D) : View D :=
  { done := v.done ++ v.last.toList, last := some ⟨last3 (v.left ++ v.unseen), a, []⟩, left := [], unseen := [] }

/-- How far the report of a source is. -/
structure Display (D : Type) where
  /-- the tokens met so far, in this source and the previous ones -/
  seen : List Str
  /-- the lines with new tokens, since the last chunk ended -/
  new : Nat
  /-- all the lines, since the last chunk ended -/
  lines : Nat
  /-- what is shown, up to the last new line -/
  view : View D
  /-- the lines of this chunk after the last new line -/
  waiting : List Str
  /-- the lines and the bytes counted -/
  read : Nat
  bytes : Nat

/-- Before the first line, when `seen` are the tokens of the previous sources. -/
def Display.start (seen : List Str) : Display D := ⟨seen, 0, 0, ⟨[], none, [], []⟩, [], 0, 0⟩

/-- One more line: a line with known tokens waits for the next new line. -/
def Display.line (tok : Str → Str) (dist : Str → D) (over : D → Bool) (p : Display D) (l : Line) : Display D :=
  if tok l.text ∈ p.seen then { p with lines := p.lines + 1, waiting := p.waiting ++ [l.text] }
  else
    let v := p.waiting.foldl View.line p.view
    { p with seen := tok l.text :: p.seen, new := p.new + 1, lines := p.lines + 1, waiting := [],
             view := if over (dist (tok l.text)) then v.anomaly ⟨dist (tok l.text), l.num, l.text⟩ else v.line l.text }

/-- The line ends a chunk: it is the 512th new line, or a repeated line after 5120 lines. -/
def Display.ends (tok : Str → Str) (p : Display D) (l : Line) : Bool :=
  if tok l.text ∈ p.seen then decide (5120 < p.lines + 1) else decide (p.new + 1 = 512)

/-- The chunk ends: the lines which wait are shown after the last anomaly, but they are left to be shown again before the next one. -/
def Display.next (p : Display D) : Display D :=
  let v := p.waiting.foldl View.line p.view
  { p with new := 0, lines := 0, waiting := [], view := ⟨v.done, v.last, last3 (p.view.unseen ++ p.waiting), []⟩ }

/-- The chunk ends if it has a new line, else nothing is done with it. -/
def Display.finish (p : Display D) : Display D := if p.new = 0 then p else p.next

/-- What is reported in the end: everything. -/
def Display.all (p : Display D) : List (AnomalyContext D) := p.finish.view.done ++ p.finish.view.last.toList

/-- After what is complete has been reported. -/
def Display.told (p : Display D) : Display D := { p with view := { p.view with done := [] } }

/-- After everything has been reported. -/
def Display.marker (p : Display D) : Display D := { p.finish with view := { p.finish.view with done := [], last := none } }

/-- A line was read. -/
def Display.count (p : Display D) (l : LogLine) : Display D := { p with read := p.read + 1, bytes := p.bytes + l.1.length }

/-- The contexts reported for the results `r` of the reader, how the report ends, and how far it is then: it ends at the end of the source, at
a failure, and at a marker line when nothing was found since the last report. -/
def shown (tok : Str → Str) (dist : Str → D) (over : D → Bool) (decode : Bytes → Option Str) :
    Display D → List (Ev ε) → List (AnomalyContext D) × Stop ε × Display D
  | p, [] => (p.all, .finished, p.marker)
  | p, .error e :: _ => ([], .failed (.io e), p)
  | p, .ok l :: r =>
    match decode l.1 with
    | none => ([], .failed .utf8, p)
    | some t =>
      if "TASK [log-classify".toList <:+: t then
        if p.all = [] then ([], .finished, (p.count l).marker)
        else
          let rest := shown tok dist over decode (p.count l).marker r
          (p.all ++ rest.1, rest.2)
      else
        let p' := (p.count l).line tok dist over ⟨t, l.2⟩
        if p.ends tok ⟨t, l.2⟩ then
          let rest := shown tok dist over decode p'.next.told r
          (p'.next.view.done ++ rest.1, rest.2)
        else shown tok dist over decode p' r

end Spec

open Spec (View Display shown last3)
variable {D ε : Type} {env : Env D} {dist : Str → D}

/-! ### One chunk -/

/-- the flush has shown `done` -/
structure Displays (env : Env D) (left : List Str) (f : Flush D) (v : View D) (done : List Entry) : Prop where
  pos : f.bufferPos = done.length
  cur : f.currentAnomaly = v.last
  anoms : f.anomalies = v.done
  le : f.lastContextPos ≤ done.length
  left_ : v.left = if f.lastContextPos = 0 then left else []
  unseen : v.unseen = (done.drop f.lastContextPos).map (txt env)
  last : v.last.isSome → f.lastContextPos = done.length

theorem decode_txt {e : Entry} (h : (env.decode e.1.1).isSome) : env.decode e.1.1 = some (txt env e) := by
  obtain ⟨x, hx⟩ := Option.isSome_iff_exists.1 h
  simp [txt, hx]

theorem feed_shows {left : List Str} {f : Flush D} {v : View D} {done : List Entry} (h : Displays env left f v done) {e : Entry}
    (hd : (env.decode e.1.1).isSome) :
    ∃ f', Flush.feed env { f with bufferPos := f.bufferPos + 1 } e.1.1 = some f' ∧ Displays env left f' (v.line (txt env e)) (done ++ [e]) := by
  obtain ⟨h1, h2, h3, h4, h5, h6, h7⟩ := h
  unfold Flush.feed View.line
  cases hv : v.last with
  | none =>
    rw [hv] at h2
    simp only [h2]
    refine ⟨_, rfl, by simp [h1], by simp, h3, by simp; omega, h5, ?_, by simp⟩
    simp only [h6]
    rw [List.drop_append_of_le_length h4, List.map_append]
    rfl
  | some a =>
    rw [hv] at h2
    simp only [h2, decode_txt hd, Option.bind_eq_bind, Option.bind_some, List.length_append, List.length_singleton, CTX_DISTANCE]
    by_cases hl : a.after.length + 1 < 3
    · rw [if_neg (by omega), if_pos hl]
      refine ⟨_, rfl, by simp [h1], rfl, h3, by simp [h1], by simp, by simp [h1], by simp [h1]⟩
    · rw [if_pos (by omega), if_neg hl]
      refine ⟨_, rfl, by simp [h1], rfl, by simp [h3], by simp [h1], by simp, by simp [h1], by simp⟩

/-- the lines before the target are fed, and the target is reached -/
theorem scan_shows {left : List Str} (isAnomaly : Bool) (e : Entry) (rest : List Entry) (he : (env.decode e.1.1).isSome) :
    ∀ (seg : List Entry) (f : Flush D) (v : View D) (done : List Entry), Displays env left f v done →
      (∀ x ∈ seg, (env.decode x.1.1).isSome ∧ x.2 ≠ e.2) →
      ∃ f1, Displays env left f1 ((seg.map (txt env)).foldl View.line v) (done ++ seg) ∧
        (isAnomaly = true → scan env isAnomaly e.2 (seg ++ e :: rest) f = some ({ f1 with bufferPos := f1.bufferPos + 1 }, some (txt env e, e.1.2))) ∧
        (isAnomaly = false → ∃ f2, scan env isAnomaly e.2 (seg ++ e :: rest) f = some (f2, none) ∧
          Displays env left f2 (((seg.map (txt env)).foldl View.line v).line (txt env e)) (done ++ seg ++ [e])) := by
  intro seg
  induction seg with
  | nil =>
    intro f v done h _
    refine ⟨f, by simpa using h, ?_, ?_⟩
    · intro hi
      obtain ⟨⟨bytes, num⟩, c⟩ := e
      simp [scan, hi, decode_txt he]
    · intro hi
      obtain ⟨f2, g1, g2⟩ := feed_shows h he
      refine ⟨f2, ?_, by simpa using g2⟩
      obtain ⟨⟨bytes, num⟩, c⟩ := e
      simp only at g1
      simp [scan, hi, g1]
  | cons x seg ih =>
    intro f v done h hx
    obtain ⟨hxd, hxc⟩ := hx x (by simp)
    obtain ⟨f0, g1, g2⟩ := feed_shows h hxd
    obtain ⟨f1, i1, i2, i3⟩ := ih f0 _ _ g2 (fun y hy => hx y (by simp [hy]))
    have hstep : scan env isAnomaly e.2 (x :: seg ++ e :: rest) f = scan env isAnomaly e.2 (seg ++ e :: rest) f0 := by
      obtain ⟨⟨bytes, num⟩, c⟩ := x
      simp only at hxc g1
      rw [List.cons_append, scan]
      simp [hxc, g1]
    rw [hstep]
    refine ⟨f1, by simpa using i1, i2, ?_⟩
    intro hi
    obtain ⟨f2, j1, j2⟩ := i3 hi
    exact ⟨f2, j1, by simpa using j2⟩

theorem last3_append {a b : List Str} (h : 3 ≤ b.length) : last3 (a ++ b) = last3 b := by
  unfold last3
  rw [List.length_append, List.drop_append]
  have : a.drop (a.length + b.length - 3) = [] := List.drop_eq_nil_of_le (by omega)
  rw [this, List.nil_append]
  congr 1; omega

theorem collectBefore_shows (left : List Str) (done rest : List Entry) (pos : Nat) (hpos : pos ≤ done.length)
    (hd : ∀ x ∈ done, (env.decode x.1.1).isSome) :
    collectBefore env done.length pos (done ++ rest) left =
      some (last3 ((if pos = 0 then left else []) ++ (done.drop pos).map (txt env))) := by
  unfold collectBefore
  have hmin : (if done.length < CTX_DISTANCE then 0 else done.length - CTX_DISTANCE) = done.length - 3 := by
    unfold CTX_DISTANCE; split <;> omega
  simp only [hmin]
  have hsl : slice (done ++ rest) (max pos (done.length - 3)) done.length = some (done.drop (max pos (done.length - 3))) := by
    unfold slice
    rw [if_pos ⟨by omega, by simp⟩, List.take_left]
  rw [hsl]
  simp only [Option.bind_eq_bind, Option.bind_some]
  rw [texts_ok env _ (fun x hx => hd x (List.mem_of_mem_drop hx))]
  simp only [Option.bind_some, List.length_map, List.length_drop, CTX_DISTANCE]
  by_cases hc : max pos (done.length - 3) = 0 ∧ done.length - max pos (done.length - 3) < 3
  · obtain ⟨c1, c2⟩ := hc
    have hp0 : pos = 0 := by omega
    rw [if_pos ⟨c1, c2⟩]
    simp only [c1, Nat.sub_zero, List.drop_zero] at c2 ⊢
    unfold sliceFrom
    rw [if_pos (by omega)]
    simp only [Option.bind_some]
    unfold rotateRight
    have hlen : (left.drop (left.length - min (3 - done.length) left.length)).length = min (3 - done.length) left.length := by
      rw [List.length_drop]; omega
    rw [if_pos (by simp only [List.length_append, hlen]; omega)]
    have e1 : (List.map (txt env) done ++ left.drop (left.length - min (3 - done.length) left.length)).length - min (3 - done.length) left.length =
        (List.map (txt env) done).length := by simp only [List.length_append, hlen]; omega
    rw [e1, List.drop_left, List.take_left, hp0]
    simp only [if_true, List.drop_zero, last3]
    rw [List.length_append, List.length_map, List.drop_append]
    have e2 : left.length + done.length - 3 - left.length = 0 := by omega
    rw [e2, List.drop_zero]
    congr 3
    omega
  · rw [if_neg hc]
    congr 1
    by_cases hp0 : pos = 0
    · subst hp0
      have h3 : 3 ≤ done.length := by omega
      rw [if_pos rfl, List.drop_zero, last3_append (by simpa using h3), last3, List.length_map, ← List.map_drop]
      congr 2
    · rw [if_neg hp0, List.nil_append, last3, List.length_map, List.length_drop, ← List.map_drop, List.drop_drop]
      congr 2; omega

/-- one line of a chunk, `true` for a new one: what is shown, and the lines which wait -/
def chunkStep (env : Env D) (dist : Str → D) (x : View D × List Str) (i : Entry × Bool) : View D × List Str :=
  if i.2 then
    let v := x.2.foldl View.line x.1
    (if overE env dist i.1 then v.anomaly (anomE env dist i.1) else v.line (txt env i.1), [])
  else (x.1, x.2 ++ [txt env i.1])

theorem onTarget_shows {left : List Str} {f : Flush D} {v : View D} {done seg : List Entry} {e : Entry} {rest : List Entry}
    (h : Displays env left f v done) (hd : ∀ x ∈ done ++ seg ++ [e], (env.decode x.1.1).isSome) (hc : ∀ x ∈ seg, x.2 ≠ e.2) :
    ∃ f', onTarget env (done ++ (seg ++ e :: rest)) left f (dist (tokE env e), e.2) = some f' ∧
      Displays env left f' (chunkStep env dist (v, seg.map (txt env)) (e, true)).1 (done ++ seg ++ [e]) := by
  have he : (env.decode e.1.1).isSome := hd e (by simp)
  obtain ⟨f1, s1, s2, s3⟩ := scan_shows (left := left) (env.over (dist (tokE env e))) e rest he seg f v done h
    (fun x hx => ⟨hd x (by simp [hx]), hc x hx⟩)
  have hsl : sliceFrom (done ++ (seg ++ e :: rest)) f.bufferPos = some (seg ++ e :: rest) := by
    unfold sliceFrom
    rw [h.pos, if_pos (by simp), List.drop_left]
  unfold onTarget
  simp only [hsl, Option.bind_eq_bind, Option.bind_some]
  unfold chunkStep
  simp only [if_true]
  cases ho : env.over (dist (tokE env e)) with
  | false =>
    obtain ⟨f2, g1, g2⟩ := s3 ho
    rw [ho] at g1
    have : overE env dist e = false := ho
    rw [g1]
    simp only [Option.bind_some, Bool.false_eq_true, if_false, this]
    exact ⟨f2, rfl, g2⟩
  | true =>
    have g1 := s2 ho
    rw [ho] at g1
    have : overE env dist e = true := ho
    rw [g1]
    simp only [Option.bind_some, if_true, this]
    have hb := collectBefore_shows (env := env) left (done ++ seg) (e :: rest) f1.lastContextPos s1.le
      (fun x hx => hd x (by rw [List.mem_append] at hx ⊢; exact .inl (by simpa using hx)))
    rw [← s1.pos, List.append_assoc, ← s1.left_, ← s1.unseen] at hb
    cases hcur : f1.currentAnomaly with
    | none =>
      simp only [Nat.add_sub_cancel, hb, Option.bind_some]
      rw [if_neg (by omega)]
      have hl : ((seg.map (txt env)).foldl View.line v).last = none := by rw [← s1.cur, hcur]
      refine ⟨_, rfl, by simp [s1.pos]; omega, rfl, ?_, by simp [s1.pos]; omega, by simp [View.anomaly], by simp [View.anomaly, s1.pos, Nat.add_assoc], by simp [s1.pos]; omega⟩
      simp [View.anomaly, hl, s1.anoms]
    | some a =>
      simp only [Nat.add_sub_cancel, hb, Option.bind_some]
      rw [if_neg (by omega)]
      have hl : ((seg.map (txt env)).foldl View.line v).last = some a := by rw [← s1.cur, hcur]
      refine ⟨_, rfl, by simp [s1.pos]; omega, rfl, ?_, by simp [s1.pos]; omega, by simp [View.anomaly], by simp [View.anomaly, s1.pos, Nat.add_assoc], by simp [s1.pos]; omega⟩
      simp [View.anomaly, hl, s1.anoms]

/-- the new lines -/
def news (items : List (Entry × Bool)) : List Entry := (items.filter (·.2)).map (·.1)

theorem targets_shows {left : List Str} {buffer : List Entry} (hd : ∀ x ∈ buffer, (env.decode x.1.1).isSome)
    (hc : (buffer.map Prod.snd).Pairwise (· < ·)) : ∀ (items : List (Entry × Bool)) (f : Flush D) (v : View D) (done seg : List Entry),
      Displays env left f v done → buffer = done ++ (seg ++ items.map (·.1)) →
      ∃ f' done' seg', ((news items).map fun e => (dist (tokE env e), e.2)).foldlM (onTarget env buffer left) f = some f' ∧
        Displays env left f' (items.foldl (chunkStep env dist) (v, seg.map (txt env))).1 done' ∧
        (items.foldl (chunkStep env dist) (v, seg.map (txt env))).2 = seg'.map (txt env) ∧ buffer = done' ++ seg' := by
  intro items
  induction items with
  | nil =>
    intro f v done seg h hb
    exact ⟨f, done, seg, rfl, h, rfl, by simpa using hb⟩
  | cons i items ih =>
    intro f v done seg h hb
    obtain ⟨e, isNew⟩ := i
    cases isNew with
    | false =>
      obtain ⟨f', done', seg', g1, g2, g3, g4⟩ := ih f v done (seg ++ [e]) h (by simpa using hb)
      have e1 : chunkStep env dist (v, seg.map (txt env)) (e, false) = (v, (seg ++ [e]).map (txt env)) := by simp [chunkStep]
      refine ⟨f', done', seg', g1, ?_, ?_, g4⟩
      · rw [List.foldl_cons, e1]; exact g2
      · rw [List.foldl_cons, e1]; exact g3
    | true =>
      have hseg : ∀ x ∈ seg, x.2 ≠ e.2 := by
        intro x hx
        rw [hb] at hc
        simp only [List.map_append, List.map_cons, List.pairwise_append, List.pairwise_cons] at hc
        exact Nat.ne_of_lt (hc.2.1.2.2 x.2 (List.mem_map_of_mem hx) e.2 (by simp))
      obtain ⟨f1, o1, o2⟩ := onTarget_shows (dist := dist) (e := e) (rest := items.map (·.1)) h
        (fun x hx => hd x (by rw [hb]; simp at hx ⊢; tauto)) hseg
      have e1 : chunkStep env dist (v, seg.map (txt env)) (e, true) =
          ((chunkStep env dist (v, seg.map (txt env)) (e, true)).1, ([] : List Entry).map (txt env)) := by simp [chunkStep]
      obtain ⟨f', done', seg', g1, g2, g3, g4⟩ := ih f1 _ (done ++ seg ++ [e]) [] o2 (by simpa using hb)
      refine ⟨f', done', seg', ?_, ?_, ?_, g4⟩
      · have : news ((e, true) :: items) = e :: news items := by simp [news]
        rw [this, List.map_cons, List.foldlM_cons]
        have hb' : buffer = done ++ (seg ++ e :: items.map (·.1)) := by simpa using hb
        rw [← hb'] at o1
        rw [o1]
        exact g1
      · rw [List.foldl_cons, e1]; exact g2
      · rw [List.foldl_cons, e1]; exact g3

theorem line_none {v : View D} (h : v.last = none) (t : Str) : (v.line t).last = none ∧ (v.line t).done = v.done := by
  unfold View.line; rw [h]; exact ⟨rfl, rfl⟩

theorem lines_none : ∀ (ts : List Str) (v : View D), v.last = none → (ts.foldl View.line v).last = none ∧ (ts.foldl View.line v).done = v.done := by
  intro ts
  induction ts with
  | nil => intro v h; exact ⟨h, rfl⟩
  | cons t ts ih =>
    intro v h
    obtain ⟨h1, h2⟩ := line_none h t
    obtain ⟨h3, h4⟩ := ih _ h1
    exact ⟨h3, h4.trans h2⟩

theorem tail_shows : ∀ (B : List Entry) (f : Flush D) (v : View D), (∀ x ∈ B, (env.decode x.1.1).isSome) → f.currentAnomaly = v.last →
    f.anomalies = v.done →
    ∃ f', tail env B f = some f' ∧ f'.lastContextPos = f.lastContextPos ∧ f'.currentAnomaly = ((B.map (txt env)).foldl View.line v).last ∧
      f'.anomalies = ((B.map (txt env)).foldl View.line v).done := by
  intro B
  induction B with
  | nil => intro f v _ h1 h2; exact ⟨f, by simp [tail], rfl, h1, h2⟩
  | cons e B ih =>
    intro f v hd h1 h2
    have he := decode_txt (hd e (by simp))
    rw [List.map_cons, List.foldl_cons]
    cases hv : v.last with
    | none =>
      rw [hv] at h1
      obtain ⟨g1, g2⟩ := line_none hv (txt env e)
      obtain ⟨g3, g4⟩ := lines_none (B.map (txt env)) _ g1
      refine ⟨f, ?_, rfl, by rw [g3, h1], by rw [g4, g2, h2]⟩
      obtain ⟨⟨b, n⟩, c⟩ := e
      simp [tail, h1]
    | some a =>
      rw [hv] at h1
      by_cases hl : a.after.length + 1 < 3
      · have e1 : v.line (txt env e) = { v with last := some { a with after := a.after ++ [txt env e] }, left := [], unseen := [] } := by
          unfold View.line; rw [hv]; simp only; rw [if_pos hl]
        obtain ⟨f', g1, g2, g3, g4⟩ := ih { f with currentAnomaly := some { a with after := a.after ++ [txt env e] } } (v.line (txt env e))
          (fun x hx => hd x (by simp [hx])) (by rw [e1]) (by rw [e1]; exact h2)
        refine ⟨f', ?_, g2, g3, g4⟩
        rw [← g1]
        obtain ⟨⟨b, n⟩, c⟩ := e
        rw [tail]
        simp only [h1, he, Option.bind_eq_bind, Option.bind_some, List.length_append, List.length_singleton, CTX_DISTANCE]
        rw [if_neg (by omega)]
      · have e1 : v.line (txt env e) = ⟨v.done ++ [{ a with after := a.after ++ [txt env e] }], none, [], []⟩ := by
          unfold View.line; rw [hv]; simp only; rw [if_neg hl]
        obtain ⟨g3, g4⟩ := lines_none (B.map (txt env)) (v.line (txt env e)) (by rw [e1])
        refine ⟨{ f with anomalies := f.anomalies ++ [{ a with after := a.after ++ [txt env e] }], currentAnomaly := none }, ?_, rfl, g3.symm, ?_⟩
        · obtain ⟨⟨b, n⟩, c⟩ := e
          rw [tail]
          simp only [h1, he, Option.bind_eq_bind, Option.bind_some, List.length_append, List.length_singleton, CTX_DISTANCE]
          rw [if_pos (by omega)]
        · rw [g4, e1, h2]

/-- A search, for the lines `items` of the chunk. -/
theorem doSearch_shows (hsearch : ∀ ts, env.search ts = ts.map dist) (s : St D) (items : List (Entry × Bool))
    (hb : s.buffer = items.map (·.1)) (hd : ∀ x ∈ s.buffer, (env.decode x.1.1).isSome) (hc : (s.buffer.map Prod.snd).Pairwise (· < ·))
    (ht : s.targets = (news items).map (tokE env)) (htc : s.targetsCoord = (news items).map Prod.snd) :
    let x := items.foldl (chunkStep env dist) (⟨s.anomalies, s.currentAnomaly, s.leftOvers, []⟩, [])
    s.doSearch env = some { s with
      currentAnomaly := (x.2.foldl View.line x.1).last, anomalies := (x.2.foldl View.line x.1).done
      leftOvers := last3 (x.1.unseen ++ x.2), targets := [], targetsCoord := [], buffer := [] } := by
  intro x
  obtain ⟨f, done, seg, g1, g2, g3, g4⟩ := targets_shows (dist := dist) (left := s.leftOvers) hd hc items
    ⟨0, 0, s.currentAnomaly, s.anomalies⟩ ⟨s.anomalies, s.currentAnomaly, s.leftOvers, []⟩ [] []
    ⟨rfl, rfl, rfl, Nat.le_refl _, rfl, rfl, fun _ => rfl⟩ (by simpa using hb)
  have hx : items.foldl (chunkStep env dist) (⟨s.anomalies, s.currentAnomaly, s.leftOvers, []⟩, ([] : List Entry).map (txt env)) = x := rfl
  rw [hx] at g2 g3
  unfold St.doSearch
  have hz : (env.search s.targets).zip s.targetsCoord = (news items).map fun e => (dist (tokE env e), e.2) := by
    rw [hsearch, ht, htc]
    generalize news items = l
    induction l with
    | nil => rfl
    | cons a l ih => simpa using ih
  simp only [hz, g1, Option.bind_eq_bind, Option.bind_some]
  have hdseg : ∀ y ∈ seg, (env.decode y.1.1).isSome := fun y hy => hd y (by rw [g4]; simp [hy])
  obtain ⟨f', k1, k2, k3, k4⟩ : ∃ f', lastAfter env s.buffer f = some f' ∧ f'.lastContextPos = f.lastContextPos ∧
      f'.currentAnomaly = (x.2.foldl View.line x.1).last ∧ f'.anomalies = (x.2.foldl View.line x.1).done := by
    rw [g3]
    unfold lastAfter
    cases hl : x.1.last with
    | none =>
      obtain ⟨q1, q2⟩ := lines_none (seg.map (txt env)) x.1 hl
      rw [if_neg (by rw [g2.cur, hl]; simp)]
      exact ⟨f, rfl, rfl, by rw [q1, g2.cur, hl], by rw [q2, g2.anoms]⟩
    | some a =>
      have hlast := g2.last (by rw [hl]; rfl)
      have hdrop : s.buffer.drop f.lastContextPos = seg := by rw [g4, hlast, List.drop_left]
      by_cases hlt : f.lastContextPos < s.buffer.length
      · rw [if_pos ⟨by rw [g2.cur, hl]; rfl, hlt⟩, hdrop]
        exact tail_shows seg f x.1 hdseg g2.cur g2.anoms
      · have : seg = [] := by
          have := congrArg List.length g4
          rw [List.length_append] at this
          exact List.length_eq_zero_iff.1 (by omega)
        rw [if_neg (fun h => hlt h.2), this]
        exact ⟨f, rfl, rfl, g2.cur, g2.anoms⟩
  rw [k1]
  simp only [Option.bind_some, k2, k3, k4]
  unfold St.reset
  have hmin : (if s.buffer.length < CTX_DISTANCE then 0 else s.buffer.length - CTX_DISTANCE) = s.buffer.length - 3 := by
    unfold CTX_DISTANCE; split <;> omega
  have hle : f.lastContextPos ≤ s.buffer.length := by
    have := congrArg List.length g4
    rw [List.length_append] at this
    have := g2.le; omega
  simp only [hmin, Option.bind_eq_bind]
  have hsl : sliceFrom s.buffer (max f.lastContextPos (s.buffer.length - 3)) = some (s.buffer.drop (max f.lastContextPos (s.buffer.length - 3))) := by
    unfold sliceFrom; rw [if_pos (by omega)]
  rw [hsl]
  simp only [Option.bind_some]
  rw [texts_ok env _ (fun y hy => hd y (List.mem_of_mem_drop hy))]
  simp only [Option.bind_some]
  have hleft : (s.buffer.drop (max f.lastContextPos (s.buffer.length - 3))).map (txt env) = last3 (x.1.unseen ++ x.2) := by
    have e1 : x.1.unseen ++ x.2 = (s.buffer.drop f.lastContextPos).map (txt env) := by
      rw [g2.unseen, g3, ← List.map_append, g4, List.drop_append_of_le_length g2.le]
    rw [e1, last3, List.length_map, List.length_drop, ← List.map_drop, List.drop_drop]
    congr 2; omega
  rw [hleft]

/-! ### The simulation -/

/-- The contexts of a view. -/
def View.size (v : View D) : Nat := v.done.length + v.last.toList.length

theorem line_size (v : View D) (t : Str) : View.size (v.line t) = View.size v := by
  unfold View.line View.size
  cases h : v.last with
  | none => simp
  | some a => simp only; split <;> simp

theorem lines_size : ∀ (ts : List Str) (v : View D), View.size (ts.foldl View.line v) = View.size v := by
  intro ts
  induction ts with
  | nil => intro v; rfl
  | cons t ts ih => intro v; rw [List.foldl_cons, ih, line_size]

theorem chunk_size : ∀ (items : List (Entry × Bool)) (x : View D × List Str),
    View.size (items.foldl (chunkStep env dist) x).1 ≤ View.size x.1 + (news items).length := by
  intro items
  induction items with
  | nil => intro x; exact Nat.le_add_right _ _
  | cons i items ih =>
    intro x
    obtain ⟨e, b⟩ := i
    rw [List.foldl_cons]
    refine Nat.le_trans (ih _) ?_
    cases b with
    | false => simp [chunkStep, news]
    | true =>
      have h1 : (news ((e, true) :: items)).length = (news items).length + 1 := by simp [news]
      have h2 : View.size (chunkStep env dist x (e, true)).1 ≤ View.size x.1 + 1 := by
        have h3 := lines_size x.2 x.1
        unfold chunkStep
        simp only [if_true]
        split
        · have : View.size ((x.2.foldl View.line x.1).anomaly (anomE env dist e)) = View.size (x.2.foldl View.line x.1) + 1 := by
            simp [View.size, View.anomaly]
          omega
        · rw [line_size]; omega
      omega

/-- The display `p` describes the state `s`. -/
def Live (env : Env D) (dist : Str → D) (p : Display D) (s : St D) : Prop :=
  ∃ items : List (Entry × Bool), s.buffer = items.map (·.1) ∧ (∀ x ∈ s.buffer, (env.decode x.1.1).isSome) ∧
    (s.buffer.map Prod.snd).Pairwise (· < ·) ∧ (∀ x ∈ s.buffer, x.2 ≤ s.coord) ∧
    s.targets = (news items).map (tokE env) ∧ s.targetsCoord = (news items).map Prod.snd ∧ s.anomalies = [] ∧
    (∀ x, x ∈ p.seen ↔ x ∈ s.skipLines) ∧ p.new = s.targets.length ∧ p.lines = s.buffer.length ∧
    (p.view, p.waiting) = items.foldl (chunkStep env dist) (⟨[], s.currentAnomaly, s.leftOvers, []⟩, []) ∧
    p.read = s.lineCount ∧ p.bytes = s.byteCount

theorem Live.start (skip : List Str) : Live env dist (Display.start skip) (St.new skip) :=
  ⟨[], rfl, by simp [St.new], by simp [St.new], by simp [St.new], rfl, rfl, rfl, fun _ => Iff.rfl, rfl, rfl, rfl, rfl, rfl⟩

theorem Live.count {p : Display D} {s : St D} (h : Live env dist p s) (l : LogLine) : Live env dist (p.count l) (s.count l) := by
  obtain ⟨items, h1, h2, h3, h4, h5, h6, h7, h8, h9, h10, h11, h12, h13⟩ := h
  exact ⟨items, h1, h2, h3, fun x hx => Nat.le_succ_of_le (h4 x hx), h5, h6, h7, h8, h9, h10, h11, congrArg (· + 1) h12, congrArg (· + l.1.length) h13⟩

theorem Live.none_left {p : Display D} {s : St D} (h : Live env dist p s) : s.anomalies = [] := by
  obtain ⟨items, h1, h2, h3, h4, h5, h6, h7, _⟩ := h
  exact h7

/-- a line enters the buffer -/
theorem Live.push {p : Display D} {s : St D} (h : Live env dist p s) (l : LogLine) (raw : Str) (hd : env.decode l.1 = some raw) :
    Live env dist ((p.count l).line env.tokenize dist env.over ⟨raw, l.2⟩) ((s.count l).push env l raw) := by
  obtain ⟨items, h1, h2, h3, h4, h5, h6, h7, h8, h9, h10, h11, h12, h13⟩ := h
  generalize he : ((l, s.coord + 1) : Entry) = e
  have htxt : txt env e = raw := by rw [← he]; simp [txt, hd]
  have htok : tokE env e = env.tokenize raw := by rw [tokE, htxt]
  have hdec : (env.decode e.1.1).isSome := by rw [← he]; simp [hd]
  have hco : (s.count l).coord = s.coord + 1 := rfl
  have hb : ((s.count l).push env l raw).buffer = s.buffer ++ [e] := by
    rw [← he]; unfold St.push; simp only; split <;> rfl
  have hco' : ((s.count l).push env l raw).coord = s.coord + 1 := by unfold St.push; simp only; split <;> rfl
  have ha : ((s.count l).push env l raw).anomalies = s.anomalies := by unfold St.push; simp only; split <;> rfl
  have hcu : ((s.count l).push env l raw).currentAnomaly = s.currentAnomaly := by unfold St.push; simp only; split <;> rfl
  have hle : ((s.count l).push env l raw).leftOvers = s.leftOvers := by unfold St.push; simp only; split <;> rfl
  have hlc : ((s.count l).push env l raw).lineCount = s.lineCount + 1 := by unfold St.push; simp only; split <;> rfl
  have hbc : ((s.count l).push env l raw).byteCount = s.byteCount + l.1.length := by unfold St.push; simp only; split <;> rfl
  have hcoords : ((s.buffer ++ [e]).map Prod.snd).Pairwise (· < ·) := by
    rw [List.map_append, List.pairwise_append]
    refine ⟨h3, by simp, ?_⟩
    intro a ha b hb
    obtain ⟨x, hx, rfl⟩ := List.mem_map.1 ha
    simp only [List.map_cons, List.map_nil, List.mem_singleton] at hb
    rw [hb, ← he]
    exact Nat.lt_succ_of_le (h4 x hx)
  have hall : ∀ x ∈ s.buffer ++ [e], (env.decode x.1.1).isSome := by
    intro x hx
    rcases List.mem_append.1 hx with hx | hx
    · exact h2 x hx
    · rw [List.mem_singleton.1 hx]; exact hdec
  have hcle : ∀ x ∈ s.buffer ++ [e], x.2 ≤ s.coord + 1 := by
    intro x hx
    rcases List.mem_append.1 hx with hx | hx
    · exact Nat.le_succ_of_le (h4 x hx)
    · rw [List.mem_singleton.1 hx, ← he]; exact Nat.le_refl _
  have hskc : (s.count l).skipLines = s.skipLines := rfl
  by_cases hm : env.tokenize raw ∈ s.skipLines
  · have hpl : (p.count l).line env.tokenize dist env.over ⟨raw, l.2⟩ = { p.count l with lines := p.lines + 1, waiting := p.waiting ++ [raw] } := by
      unfold Display.line
      exact if_pos ((h8 _).2 hm)
    have hps : ((s.count l).push env l raw) = { s.count l with buffer := s.buffer ++ [e] } := by
      rw [← he]; unfold St.push; simp only [hskc]; rw [if_pos hm]; rfl
    have hn : news (items ++ [(e, false)]) = news items := by simp [news]
    refine ⟨items ++ [(e, false)], by rw [hb, h1]; simp, by rw [hb]; exact hall, by rw [hb]; exact hcoords, by rw [hb, hco']; exact hcle,
      by rw [hps, hn]; exact h5, by rw [hps, hn]; exact h6, by rw [ha]; exact h7, by rw [hpl, hps]; exact h8, by rw [hpl, hps]; exact h9,
      by rw [hpl, hb, List.length_append, ← h10]; rfl, ?_, by rw [hpl, hlc, ← h12]; rfl, by rw [hpl, hbc, ← h13]; rfl⟩
    rw [hcu, hle, List.foldl_append, ← h11, hpl]
    simp [chunkStep, htxt, Display.count]
  · have hnotin : env.tokenize raw ∉ p.seen := fun h => hm ((h8 _).1 h)
    have hpl : (p.count l).line env.tokenize dist env.over ⟨raw, l.2⟩ = { p.count l with
        seen := env.tokenize raw :: p.seen, new := p.new + 1, lines := p.lines + 1, waiting := []
        view := if env.over (dist (env.tokenize raw)) then (p.waiting.foldl View.line p.view).anomaly ⟨dist (env.tokenize raw), l.2, raw⟩
          else (p.waiting.foldl View.line p.view).line raw } := by
      unfold Display.line
      exact if_neg hnotin
    have hps : ((s.count l).push env l raw) = { s.count l with
        buffer := s.buffer ++ [e], skipLines := env.tokenize raw :: s.skipLines, targets := s.targets ++ [env.tokenize raw]
        targetsCoord := s.targetsCoord ++ [s.coord + 1] } := by
      rw [← he]; unfold St.push; simp only [hskc]; rw [if_neg hm]; rfl
    have hn : news (items ++ [(e, true)]) = news items ++ [e] := by simp [news]
    refine ⟨items ++ [(e, true)], by rw [hb, h1]; simp, by rw [hb]; exact hall, by rw [hb]; exact hcoords, by rw [hb, hco']; exact hcle,
      by rw [hps, hn]; simp [h5, htok], by rw [hps, hn]; simp [h6, ← he], by rw [ha]; exact h7, ?_, by rw [hpl, hps]; simp [h9],
      by rw [hpl, hb, List.length_append, ← h10]; rfl, ?_, by rw [hpl, hlc, ← h12]; rfl, by rw [hpl, hbc, ← h13]; rfl⟩
    · intro x
      rw [hpl, hps]
      simp only [List.mem_cons, h8]
    · rw [hcu, hle, List.foldl_append, ← h11, hpl]
      have hov : overE env dist e = env.over (dist (env.tokenize raw)) := by rw [overE, htok]
      have han : anomE env dist e = ⟨dist (env.tokenize raw), l.2, raw⟩ := by rw [anomE, htok, htxt, ← he]
      simp [chunkStep, htxt, hov, han]

/-- a chunk is searched -/
theorem Live.search (hsearch : ∀ ts, env.search ts = ts.map dist) {p : Display D} {s : St D} (h : Live env dist p s) :
    ∃ s', s.doSearch env = some s' ∧ pend s' ≤ pend s ∧ s'.targets = [] ∧ s'.anomalies = p.next.view.done ∧ s'.currentAnomaly = p.next.view.last ∧
      Live env dist p.next.told { s' with anomalies := [] } := by
  obtain ⟨items, h1, h2, h3, h4, h5, h6, h7, h8, h9, h10, h11, h12, h13⟩ := h
  have hs := doSearch_shows hsearch s items h1 h2 h3 h5 h6
  simp only [h7] at hs
  rw [← h11] at hs
  refine ⟨_, hs, ?_, rfl, rfl, rfl, [], rfl, by simp, by simp, by simp, rfl, rfl, rfl, h8, rfl, rfl, rfl, h12, h13⟩
  have hsz := chunk_size (env := env) (dist := dist) items (⟨[], s.currentAnomaly, s.leftOvers, []⟩, [])
  rw [← h11, ← lines_size p.waiting] at hsz
  have hl : (news items).length = s.targets.length := by rw [h5, List.length_map]
  unfold View.size at hsz
  unfold pend
  simp only [List.length_nil] at hsz ⊢
  omega

theorem no_news : ∀ (items : List (Entry × Bool)) (v : View D) (w : List Str), news items = [] →
    items.foldl (chunkStep env dist) (v, w) = (v, w ++ items.map fun i => txt env i.1) := by
  intro items
  induction items with
  | nil => intro v w _; simp
  | cons i items ih =>
    intro v w hn
    obtain ⟨e, b⟩ := i
    cases b with
    | true => simp [news] at hn
    | false =>
      have e1 : chunkStep env dist (v, w) (e, false) = (v, w ++ [txt env e]) := by simp [chunkStep]
      rw [List.foldl_cons, e1, ih _ _ (by simpa [news] using hn)]
      simp

/-- the end of the source, or a marker -/
theorem Live.finish (hsearch : ∀ ts, env.search ts = ts.map dist) {p : Display D} {s : St D} (h : Live env dist p s) :
    ∃ s', s.finish env = some s' ∧ pend s' ≤ pend s ∧ s'.targets = [] ∧ s'.currentAnomaly = none ∧ s'.anomalies = p.all ∧
      Live env dist p.marker { s' with anomalies := [] } := by
  by_cases ht : s.targets = []
  · obtain ⟨items, h1, h2, h3, h4, h5, h6, h7, h8, h9, h10, h11, h12, h13⟩ := h
    have hn : p.new = 0 := by rw [h9, ht]; rfl
    have hnn : news items = [] := by rw [ht] at h5; simpa using h5.symm
    rw [no_news _ _ _ hnn] at h11
    have hv := (Prod.mk.inj h11).1
    have hw := (Prod.mk.inj h11).2
    have hf : p.finish = p := by unfold Display.finish; rw [if_pos hn]
    have hfin : s.finish env = some { s with anomalies := s.currentAnomaly.toList, currentAnomaly := none } := by
      unfold St.finish St.flushTargets
      rw [if_pos ht]
      obtain ⟨_, _, _, _, cur, as, _, _, _, _⟩ := s
      simp only at h7; subst h7
      cases cur <;> rfl
    refine ⟨_, hfin, ?_, ht, rfl, ?_, items, h1, h2, h3, h4, h5, h6, rfl, ?_, ?_, ?_, ?_, ?_, ?_⟩
    · unfold pend; simp only [h7, Option.toList_none, List.length_nil]; omega
    · unfold Display.all; rw [hf, hv]; simp
    · unfold Display.marker; rw [hf]; exact h8
    · unfold Display.marker; rw [hf]; exact h9
    · unfold Display.marker; rw [hf]; exact h10
    · rw [no_news _ _ _ hnn]; unfold Display.marker; rw [hf, hv, hw]
    · unfold Display.marker; rw [hf]; exact h12
    · unfold Display.marker; rw [hf]; exact h13
  · have hn : p.new ≠ 0 := by
      obtain ⟨items, h1, h2, h3, h4, h5, h6, h7, h8, h9, _⟩ := h
      rw [h9]; intro h0; exact ht (List.length_eq_zero_iff.1 h0)
    have hf : p.finish = p.next := by unfold Display.finish; rw [if_neg hn]
    obtain ⟨s', g1, g2, g3, g4, g5, g6⟩ := h.search hsearch
    have hfin : s.finish env = some { s' with anomalies := s'.anomalies ++ s'.currentAnomaly.toList, currentAnomaly := none } := by
      unfold St.finish St.flushTargets
      rw [if_neg ht, g1]
      obtain ⟨_, _, _, _, cur, as, _, _, _, _⟩ := s'
      cases cur <;> simp
    obtain ⟨items, h1, h2, h3, h4, h5, h6, h7, h8, h9, h10, h11, h12, h13⟩ := g6
    have hnn : news items = [] := by
      have : (news items).map (tokE env) = [] := by rw [← h5]; exact g3
      simpa using this
    rw [no_news _ _ _ hnn] at h11
    refine ⟨_, hfin, ?_, g3, rfl, ?_, items, h1, h2, h3, h4, h5, h6, rfl, ?_, ?_, ?_, ?_, ?_, ?_⟩
    · unfold pend at g2 ⊢
      simp only [List.length_append, Option.toList_none, List.length_nil]; omega
    · unfold Display.all; rw [hf, g4, g5]
    · unfold Display.marker; rw [hf]; exact h8
    · unfold Display.marker; rw [hf]; exact h9
    · unfold Display.marker; rw [hf]; exact h10
    · rw [no_news _ _ _ hnn]; unfold Display.marker; rw [hf]
      have hv := (Prod.mk.inj h11).1
      have hw := (Prod.mk.inj h11).2
      rw [Prod.mk.injEq]
      refine ⟨?_, hw⟩
      unfold Display.told at hv
      have hv1 := congrArg View.left hv
      have hv2 := congrArg View.unseen hv
      show View.mk [] none p.next.view.left p.next.view.unseen = View.mk [] none s'.leftOvers []
      have e1 : p.next.view.left = s'.leftOvers := hv1
      have e2 : p.next.view.unseen = [] := hv2
      rw [e1, e2]
    · unfold Display.marker; rw [hf]; exact h12
    · unfold Display.marker; rw [hf]; exact h13

/-- the outcome `x` of the processor is the outcome `y` of the specification -/
def SameEnd (x : List (AnomalyContext D) × Stop ε × St D) (y : List (AnomalyContext D) × Stop ε × Display D) : Prop :=
  x.1 = y.1 ∧ x.2.1 = y.2.1 ∧ (∀ t, t ∈ x.2.2.skipLines ↔ t ∈ y.2.2.seen) ∧ x.2.2.lineCount = y.2.2.read ∧ x.2.2.byteCount = y.2.2.bytes

theorem Live.same {p : Display D} {s : St D} (h : Live env dist p s) (stop : Stop ε) :
    SameEnd (([] : List (AnomalyContext D)), stop, s) ([], stop, p) := by
  obtain ⟨items, h1, h2, h3, h4, h5, h6, h7, h8, h9, h10, h11, h12, h13⟩ := h
  exact ⟨rfl, rfl, fun t => (h8 t).symm, h12.symm, h13.symm⟩

theorem collect_shown (hsearch : ∀ ts, env.search ts = ts.map dist) :
    ∀ (r : List (Ev ε)) (n : Nat) (p : Display D) (s : St D), Live env dist p s → r.length + pend s < n →
      SameEnd (collect env n r s) (shown env.tokenize dist env.over env.decode p r) := by
  intro r
  induction r with
  | nil =>
    intro n p s h hn
    obtain ⟨s', f1, f2, f3, f4, f5, f6⟩ := h.finish hsearch
    have hlen : s'.anomalies.length < n := by simp at hn; unfold pend at f2 hn; omega
    rw [collect_eof n h.none_left f1 f3 f4 hlen]
    obtain ⟨_, _, g1, g2, g3⟩ := f6.same (ε := ε) .finished
    exact ⟨f5, rfl, g1, g2, g3⟩
  | cons ev r ih =>
    intro n p s h hn
    have h0 := h.none_left
    obtain ⟨n, rfl⟩ : ∃ n', n = n' + 1 := ⟨n - 1, by omega⟩
    rw [List.length_cons] at hn
    cases ev with
    | error e =>
      rw [collect_fail n (.error e :: r) r h0 (by unfold readAnomalies; rfl)]
      exact h.same _
    | ok l =>
      unfold shown
      cases hd : env.decode l.1 with
      | none =>
        have hr : readAnomalies env (.ok l :: r) s = some (.error .utf8, r, s) := by unfold readAnomalies; simp only [hd]
        rw [collect_fail n (.ok l :: r) r h0 hr]
        exact h.same _
      | some raw =>
        simp only
        have go : ∀ (s' : St D) (p' : Display D) (out : List (AnomalyContext D)), pend s' ≤ pend s + 1 → s'.anomalies = out →
            Live env dist p' { s' with anomalies := [] } →
            SameEnd (collect env (n + 1) r s') (out ++ (shown env.tokenize dist env.over env.decode p' r).1,
              (shown env.tokenize dist env.over env.decode p' r).2) := by
          intro s' p' out h1 h2 h3
          have hp : pend s' = pend { s' with anomalies := [] } + s'.anomalies.length := by unfold pend; simp
          have e : n + 1 = (n + 1 - s'.anomalies.length) + s'.anomalies.length := by omega
          rw [e, collect_popAll _ _ r s' rfl]
          obtain ⟨g1, g2, g3⟩ := ih (n + 1 - s'.anomalies.length) p' _ h3 (by omega)
          exact ⟨by simp only; rw [g1, h2], g2, g3⟩
        by_cases hm : contains MARKER raw = true
        · have hm' : "TASK [log-classify".toList <:+: raw := (contains_iff _ _).1 hm
          rw [if_pos hm']
          obtain ⟨s', f1, f2, f3, f4, f5, f6⟩ := (h.count l).finish hsearch
          have hall : (p.count l).all = p.all := by
            unfold Display.all Display.finish Display.count
            simp only
            split <;> rfl
          have hr : readAnomalies env (.ok l :: r) s = some (.ok (), r, s') := by
            unfold readAnomalies; simp only [hd, hm, if_true, f1]; rfl
          cases ha : s'.anomalies with
          | nil =>
            rw [ha, hall] at f5
            rw [if_pos f5.symm, collect_done n _ _ h0 hr ha]
            have e : s' = { s' with anomalies := [] } := by rw [← ha]
            rw [e]
            exact f6.same _
          | cons a as =>
            rw [if_neg (by rw [← hall, ← f5, ha]; simp), collect_read n _ _ h0 hr ha, ← collect_pop n r ha]
            exact go s' _ _ (Nat.le_succ_of_le f2) (f5.trans hall) f6
        · have hm' : ¬ "TASK [log-classify".toList <:+: raw := fun h => hm ((contains_iff _ _).2 h)
          rw [if_neg hm']
          rw [Bool.not_eq_true] at hm
          have hp := h.push l raw hd
          have hpend : pend ((s.count l).push env l raw) ≤ pend s + 1 := by
            unfold pend St.push
            simp only
            split
            · simp [St.count]
            · simp [St.count]; omega
          have hends : p.ends env.tokenize ⟨raw, l.2⟩ = ((s.count l).push env l raw).full (!decide (env.tokenize raw ∈ s.skipLines)) := by
            obtain ⟨items, h1, h2, h3, h4, h5, h6, h7, h8, h9, h10, h11, h12, h13⟩ := h
            unfold Display.ends St.full St.push
            have e : (s.count l).skipLines = s.skipLines := rfl
            simp only [e, h8, h9, h10]
            by_cases hmem : env.tokenize raw ∈ s.skipLines
            · simp [hmem, CHUNK_SIZE, St.count]
            · simp [hmem, CHUNK_SIZE, St.count]
              rw [Bool.eq_iff_iff]; simp
          have hline : s.line env l raw = if p.ends env.tokenize ⟨raw, l.2⟩ = true then ((s.count l).push env l raw).doSearch env
              else some ((s.count l).push env l raw) := by
            rw [hends]; rfl
          by_cases he : p.ends env.tokenize ⟨raw, l.2⟩ = true
          · obtain ⟨s', f1, f2, f3, f4, f5, f6⟩ := hp.search hsearch
            rw [if_pos he, f1] at hline
            rw [if_pos he, collect_line n h0 hd hm hline]
            exact go s' _ _ (by omega) f4 f6
          · rw [if_neg he] at hline
            rw [if_neg he, collect_line n h0 hd hm hline]
            have := go _ _ [] hpend hp.none_left (by
              have e : ({ (s.count l).push env l raw with anomalies := [] } : St D) = (s.count l).push env l raw := by
                have := hp.none_left
                generalize (s.count l).push env l raw = q at *
                obtain ⟨_, _, _, _, _, _, _, _, _, _⟩ := q
                simp only at this; rw [this]
              rw [e]; exact hp)
            simpa using this

end LJ.Process
