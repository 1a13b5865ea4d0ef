/-
What one search (`do_search_anomalies`) does, in terms of the positions of the lines in the source:
every context is a window of the source.
-/
import Verif.Process.Model
import Mathlib.Data.List.Forall2
import Mathlib.Tactic.ByContra
import Mathlib.Tactic.Set
namespace LJ.Process
variable {D : Type}

/-- the text of a buffered line -/
def txt (env : Env D) (e : Entry) : Str := (env.decode e.1.1).getD []

/-- The window of the source around line `i`: `b` lines before and `a` lines after. -/
structure Win where
  i : Nat
  b : Nat
  a : Nat
deriving DecidableEq, Repr

/-- The context `c` shows the window `w` of the lines `L`. -/
def Shows (env : Env D) (dist : Str → D) (L : List Entry) (c : AnomalyContext D) (w : Win) : Prop :=
  ∃ e, L[w.i]? = some e ∧ w.b ≤ w.i ∧ w.i + w.a < L.length ∧
    c.before = ((L.drop (w.i - w.b)).take w.b).map (txt env) ∧
    c.anomaly = ⟨dist (env.tokenize (txt env e)), e.1.2, txt env e⟩ ∧
    c.after = ((L.drop (w.i + 1)).take w.a).map (txt env)

/-- How the windows of consecutive anomalies are related. -/
def Rel (full : Prop) (cut : Nat → Prop) (w w' : Win) : Prop :=
  w.i + w'.b < w'.i ∧ w.i + w.a < w'.i ∧ w'.b ≤ 3 ∧
  (full → w.a = min 3 (w'.i - w.i - 1)) ∧
  (full → min 3 (w'.i - (w.i + w.a + 1)) ≤ w'.b) ∧
  (w.i + w.a + 1 + w'.b ≤ w'.i ∨ ∃ c, cut c ∧ w.i < c ∧ c ≤ w'.i)

/-- The windows, the most recent first. -/
def Good (full : Prop) (cut : Nat → Prop) : List Win → Prop
  | [] => True
  | [w] => w.b ≤ 3 ∧ w.b ≤ w.i ∧ (full → w.b = min 3 w.i)
  | w' :: w :: V => Rel full cut w w' ∧ Good full cut (w :: V)

/-- the end of the most recent window -/
def lastEnd : List Win → Nat
  | [] => 0
  | w :: _ => w.i + w.a + 1

theorem good_setA {full : Prop} {cut : Nat → Prop} {w : Win} {V : List Win} (a : Nat) (h : Good full cut (w :: V)) :
    Good full cut ({ w with a := a } :: V) := by
  cases V with
  | nil => exact h
  | cons v V => exact h

section
variable (env : Env D) (dist : Str → D) (L : List Entry) (full : Prop) (cut : Nat → Prop)

theorem texts_ok (l : List Entry) (h : ∀ e ∈ l, (env.decode e.1.1).isSome) : texts env l = some (l.map (txt env)) := by
  unfold texts
  induction l with
  | nil => rfl
  | cons e l ih =>
    obtain ⟨x, hx⟩ := Option.isSome_iff_exists.1 (h e (by simp))
    rw [List.mapM_cons, ih (fun e he => h e (by simp [he])), hx]
    simp [txt, hx]

theorem shows_feed {c : AnomalyContext D} {w : Win} (h : Shows env dist L c w) {e : Entry} (he : L[w.i + w.a + 1]? = some e) :
    Shows env dist L { c with after := c.after ++ [txt env e] } { w with a := w.a + 1 } := by
  obtain ⟨x, h1, h2, h3, h4, h5, h6⟩ := h
  have hlt : w.i + w.a + 1 < L.length := by
    by_contra hc
    rw [List.getElem?_eq_none (by omega)] at he
    cases he
  refine ⟨x, h1, h2, by show w.i + (w.a + 1) < _; omega, h4, h5, ?_⟩
  show c.after ++ [txt env e] = ((L.drop (w.i + 1)).take (w.a + 1)).map (txt env)
  rw [List.take_add_one, List.map_append, ← h6, List.getElem?_drop]
  have : w.i + 1 + w.a = w.i + w.a + 1 := by omega
  rw [this, he]
  rfl

theorem shows_after {c : AnomalyContext D} {w : Win} (h : Shows env dist L c w) : c.after.length = w.a := by
  obtain ⟨x, h1, h2, h3, h4, h5, h6⟩ := h
  rw [h6, List.length_map, List.length_take, List.length_drop]
  omega

/-- The invariant of `do_search_anomalies`: `base` is the position of the first line of the buffer,
`k` the number of lines left over, `em` the contexts returned earlier (the most recent first), `V`
the windows of all the contexts and `G` the anomalous lines, the most recent first. -/
structure J (base k : Nat) (em : List (AnomalyContext D)) (f : Flush D) (V : List Win) (G : List Entry) : Prop where
  shows_ : List.Forall₂ (Shows env dist L) (f.currentAnomaly.toList ++ f.anomalies.reverse ++ em) V
  idx : V.map (fun w => L[w.i]?) = G.map some
  good : Good full cut V
  a3 : ∀ w ∈ V, w.a ≤ 3
  k3 : k ≤ 3
  kbase : k ≤ base
  pos_le : base + f.bufferPos ≤ L.length
  last_le : f.lastContextPos ≤ f.bufferPos
  end_le : lastEnd V ≤ base + f.lastContextPos
  end_eq : 0 < f.lastContextPos → lastEnd V = base + f.lastContextPos
  cur : f.currentAnomaly.isSome → f.lastContextPos = f.bufferPos ∧ lastEnd V = base + f.bufferPos ∧
    ∀ w ∈ V.head?, w.a < 3
  noCur : f.currentAnomaly = none → full → ∀ w ∈ V.head?, w.a = 3
  zero : f.lastContextPos = 0 → (∀ w ∈ V.head?, w.i + 1 + k ≤ base) ∧ (full → min 3 (base - lastEnd V) ≤ k)

variable {env dist L full cut} {base k : Nat} {em : List (AnomalyContext D)}

theorem getElem?_of_drop {α : Type} {l : List α} {n : Nat} {x : α} {r : List α} (h : l.drop n = x :: r) : l[n]? = some x := by
  have := List.getElem?_drop (xs := l) (i := n) (j := 0)
  rw [h] at this
  simpa using this.symm

theorem drop_succ_of_drop {α : Type} {l : List α} {n : Nat} {x : α} {r : List α} (h : l.drop n = x :: r) : l.drop (n + 1) = r := by
  rw [← List.drop_drop, h]; rfl

theorem lt_of_drop {α : Type} {l : List α} {n : Nat} {x : α} {r : List α} (h : l.drop n = x :: r) : n < l.length := by
  by_contra hc
  rw [List.drop_eq_nil_of_le (by omega)] at h
  cases h

/-- one line of after context -/
theorem J.feed (hdec : ∀ e ∈ L, (env.decode e.1.1).isSome) {f : Flush D} {V : List Win} {G : List Entry}
    (h : J env dist L full cut base k em f V G) {e : Entry} {r : List Entry} (he : L.drop (base + f.bufferPos) = e :: r) :
    ∃ f' V', Flush.feed env { f with bufferPos := f.bufferPos + 1 } e.1.1 = some f' ∧
      f'.bufferPos = f.bufferPos + 1 ∧ J env dist L full cut base k em f' V' G ∧
      f'.currentAnomaly.toList.length + f'.anomalies.length = f.currentAnomaly.toList.length + f.anomalies.length := by
  have hlt := lt_of_drop he
  have hget := getElem?_of_drop he
  obtain ⟨pos, last, current, anoms⟩ := f
  cases current with
  | none =>
    refine ⟨⟨pos + 1, last, none, anoms⟩, V, rfl, rfl, ?_, rfl⟩
    exact { h with
      pos_le := by show base + (pos + 1) ≤ _; simp only at hlt; omega
      last_le := by have := h.last_le; show last ≤ pos + 1; simp only at this; omega
      cur := by intro h'; cases h' }
  | some c =>
    have hs := h.shows_
    simp only [Option.toList_some, List.cons_append, List.nil_append] at hs
    cases hs with
    | @cons _ w _ V' hc hrest =>
      obtain ⟨c1, c2, c3⟩ := h.cur rfl
      have c3 := c3 w (by simp)
      simp only [lastEnd] at c1 c2
      obtain ⟨x, hx⟩ := Option.isSome_iff_exists.1 (hdec e (List.mem_of_getElem? hget))
      have hx' : txt env e = x := by simp [txt, hx]
      have hfeed := shows_feed env dist L hc (e := e) (by rw [c2]; exact hget)
      have hlen := shows_after env dist L hc
      have hidx : ({ w with a := w.a + 1 } :: V').map (fun w => L[w.i]?) = G.map some := h.idx
      have ha3 : ∀ v ∈ ({ w with a := w.a + 1 } :: V'), v.a ≤ 3 := by
        intro v hv
        rcases List.mem_cons.1 hv with rfl | hv
        · show w.a + 1 ≤ 3; omega
        · exact h.a3 v (by simp [hv])
      by_cases h3 : CTX_DISTANCE ≤ w.a + 1
      · refine ⟨⟨pos + 1, pos + 1, none, anoms ++ [{ c with after := c.after ++ [x] }]⟩, { w with a := w.a + 1 } :: V', ?_, rfl, ?_, by simp; omega⟩
        · unfold Flush.feed
          simp only [hx, Option.bind_eq_bind, Option.bind_some]
          rw [if_pos (by simp only [List.length_append, List.length_singleton, hlen]; exact h3)]
        · refine ⟨?_, hidx, good_setA _ h.good, ha3, h.k3, h.kbase, ?_, ?_, ?_, ?_, ?_, ?_, ?_⟩
          · simp only [Option.toList_none, List.nil_append, List.reverse_append, List.reverse_singleton, List.cons_append]
            exact .cons (hx' ▸ hfeed) hrest
          · show base + (pos + 1) ≤ _; simp only at hlt; omega
          · exact Nat.le_refl _
          · simp only [lastEnd]; omega
          · intro _; simp only [lastEnd]; omega
          · intro h'; cases h'
          · intro _ _ v hv
            simp only [List.head?_cons, Option.mem_some_iff] at hv
            rw [← hv]
            show w.a + 1 = 3
            unfold CTX_DISTANCE at h3; omega
          · intro h'; simp at h'
      · refine ⟨⟨pos + 1, pos + 1, some { c with after := c.after ++ [x] }, anoms⟩, { w with a := w.a + 1 } :: V', ?_, rfl, ?_, by simp⟩
        · unfold Flush.feed
          simp only [hx, Option.bind_eq_bind, Option.bind_some]
          rw [if_neg (by simp only [List.length_append, List.length_singleton, hlen]; exact h3)]
        · refine ⟨?_, hidx, good_setA _ h.good, ha3, h.k3, h.kbase, ?_, ?_, ?_, ?_, ?_, ?_, ?_⟩
          · simp only [Option.toList_some, List.nil_append, List.cons_append]
            exact .cons (hx' ▸ hfeed) hrest
          · show base + (pos + 1) ≤ _; simp only at hlt; omega
          · exact Nat.le_refl _
          · simp only [lastEnd]; omega
          · intro _; simp only [lastEnd]; omega
          · intro _
            refine ⟨rfl, by simp only [lastEnd]; omega, ?_⟩
            intro v hv
            simp only [List.head?_cons, Option.mem_some_iff] at hv
            rw [← hv]
            show w.a + 1 < 3
            unfold CTX_DISTANCE at h3; omega
          · intro h'; cases h'
          · intro h'; simp at h'

/-- the loop over the buffer until the target -/
theorem scan_spec (hdec : ∀ e ∈ L, (env.decode e.1.1).isSome) (isAnomaly : Bool) (e : Entry) (B : List Entry) :
    ∀ (A : List Entry) (f : Flush D) (V : List Win) (G : List Entry), J env dist L full cut base k em f V G →
      L.drop (base + f.bufferPos) = A ++ e :: B → (∀ x ∈ A, x.2 ≠ e.2) →
      ∃ f' V', J env dist L full cut base k em f' V' G ∧ L.drop (base + f'.bufferPos) = e :: B ∧
        f'.currentAnomaly.toList.length + f'.anomalies.length = f.currentAnomaly.toList.length + f.anomalies.length ∧
        scan env isAnomaly e.2 (A ++ e :: B) f =
          if isAnomaly then some ({ f' with bufferPos := f'.bufferPos + 1 }, some (txt env e, e.1.2))
          else (Flush.feed env { f' with bufferPos := f'.bufferPos + 1 } e.1.1).bind fun f'' => some (f'', none) := by
  intro A
  induction A with
  | nil =>
    intro f V G h hd _
    refine ⟨f, V, h, hd, rfl, ?_⟩
    obtain ⟨⟨bytes, num⟩, coord⟩ := e
    obtain ⟨x, hx⟩ := Option.isSome_iff_exists.1 (hdec ((bytes, num), coord) (List.mem_of_getElem? (getElem?_of_drop hd)))
    simp only at hx
    unfold scan
    cases isAnomaly with
    | true => simp [hx, txt]
    | false => simp
  | cons x A ih =>
    intro f V G h hd hne
    rw [List.cons_append] at hd
    obtain ⟨f1, V1, e1, e2, h1, hc1⟩ := h.feed hdec hd
    obtain ⟨f', V', h2, h3, hc2, h4⟩ := ih f1 V1 G h1 (by rw [e2, ← Nat.add_assoc]; exact drop_succ_of_drop hd)
      (fun y hy => hne y (by simp [hy]))
    refine ⟨f', V', h2, h3, hc2.trans hc1, ?_⟩
    rw [← h4]
    obtain ⟨⟨bytes, num⟩, coord⟩ := x
    have hx := hne ((bytes, num), coord) (by simp)
    simp only at hx e1
    conv => lhs; rw [List.cons_append]; unfold scan
    simp [hx, e1]

variable {left : List Str}

theorem rotate_append {α : Type} (a b : List α) : rotateRight (a ++ b) b.length = some (b ++ a) := by
  unfold rotateRight
  have h1 : (a ++ b).length - b.length = a.length := by simp
  rw [if_pos (by simp), h1, List.drop_left, List.take_left]

/-- the text of the lines from `n` to `m` -/
theorem window_split (n m l : Nat) (h1 : n ≤ m) (h2 : m ≤ l) :
    (L.drop n).take (l - n) = (L.drop n).take (m - n) ++ (L.drop m).take (l - m) := by
  have e : l - n = (m - n) + (l - m) := by omega
  rw [e, List.take_add, List.drop_drop]
  congr 3
  omega

theorem collectBefore_spec (hdec : ∀ e ∈ L, (env.decode e.1.1).isSome) (hk3 : k ≤ 3) (hkb : k ≤ base)
    (hleft : left = ((L.drop (base - k)).take k).map (txt env))
    (pos last : Nat) (hpos : base + pos ≤ L.length) (hlast : last ≤ pos) :
    ∃ b, collectBefore env pos last (L.drop base) left = some (((L.drop (base + pos - b)).take b).map (txt env)) ∧
      b ≤ 3 ∧ b ≤ base + pos ∧
      (0 < last → b = min 3 (pos - last)) ∧ (last = 0 → b = min 3 (pos + k)) := by
  have hleftlen : left.length = k := by
    rw [hleft, List.length_map, List.length_take, List.length_drop]; omega
  have hmin : (if pos < CTX_DISTANCE then 0 else pos - CTX_DISTANCE) = pos - 3 := by
    unfold CTX_DISTANCE; split <;> omega
  have hslice : slice (L.drop base) (max last (pos - 3)) pos =
      some ((L.drop (base + max last (pos - 3))).take (pos - max last (pos - 3))) := by
    unfold slice
    rw [if_pos (by rw [List.length_drop]; omega)]
    rw [List.drop_take, List.drop_drop]
  have htexts : texts env ((L.drop (base + max last (pos - 3))).take (pos - max last (pos - 3))) =
      some (((L.drop (base + max last (pos - 3))).take (pos - max last (pos - 3))).map (txt env)) :=
    texts_ok env _ fun e he => hdec e (List.mem_of_mem_drop (List.mem_of_mem_take he))
  have hlen : (((L.drop (base + max last (pos - 3))).take (pos - max last (pos - 3))).map (txt env)).length =
      pos - max last (pos - 3) := by
    rw [List.length_map, List.length_take, List.length_drop]; omega
  unfold collectBefore
  simp only [hmin, hslice, htexts, Option.bind_eq_bind, Option.bind_some]
  by_cases hc : max last (pos - 3) = 0 ∧ pos < 3
  · obtain ⟨hc1, hc2⟩ := hc
    have hl0 : last = 0 := by omega
    have hp0 : pos - 3 = 0 := by omega
    refine ⟨pos + min (3 - pos) k, ?_, by omega, by omega, by omega, by omega⟩
    rw [if_pos ⟨hc1, by rw [hlen, hc1]; unfold CTX_DISTANCE; omega⟩]
    have hlen0 : (((L.drop (base + max last (pos - 3))).take (pos - max last (pos - 3))).map (txt env)).length = pos := by
      rw [hlen, hc1]; rfl
    rw [hlen0, hleftlen, hc1]
    set want := min (CTX_DISTANCE - pos) k with hw
    have hw' : want = min (3 - pos) k := hw
    have hextra : left.drop (k - want) = ((L.drop (base - want)).take want).map (txt env) := by
      rw [hleft, ← List.map_drop, List.drop_take, List.drop_drop]
      congr 3 <;> omega
    have hwl : (((L.drop (base - want)).take want).map (txt env)).length = want := by
      rw [List.length_map, List.length_take, List.length_drop]; omega
    unfold sliceFrom
    rw [if_pos (by rw [hleftlen]; omega), hextra]
    simp only [Option.bind_some]
    have := rotate_append (((L.drop (base + 0)).take (pos - 0)).map (txt env)) (((L.drop (base - want)).take want).map (txt env))
    rw [hwl] at this
    rw [this, ← List.map_append]
    congr 2
    have hsplit := window_split (L := L) (base - want) base (base + pos) (by omega) (by omega)
    have e1 : base + pos - (base - want) = pos + min (3 - pos) k := by omega
    have e2 : base - (base - want) = want := by omega
    have e3 : base + pos - base = pos := by omega
    have e4 : base + pos - (pos + min (3 - pos) k) = base - want := by omega
    rw [e1, e2, e3] at hsplit
    rw [e4, hsplit]
    rfl
  · refine ⟨pos - max last (pos - 3), ?_, by omega, by omega, by omega, by omega⟩
    rw [if_neg (by rw [hlen]; unfold CTX_DISTANCE; omega)]
    congr 4
    omega


theorem isSome_cases {α : Type} (o : Option α) : o = none ∨ o.isSome := by cases o <;> simp

/-- the invariant does not depend on where the completed contexts are kept -/
theorem J.close {f : Flush D} {V : List Win} {G : List Entry} (h : J env dist L full cut base k em f V G) :
    List.Forall₂ (Shows env dist L) ((match f.currentAnomaly with
      | some anomaly => { f with anomalies := f.anomalies ++ [anomaly], currentAnomaly := none }
      | none => f : Flush D).anomalies.reverse ++ em) V := by
  have := h.shows_
  obtain ⟨pos, last, current, anoms⟩ := f
  cases current with
  | none => simpa using this
  | some c => simpa using this

/-- one target -/
theorem onTarget_spec (hdec : ∀ e ∈ L, (env.decode e.1.1).isSome) (hcut : 0 < base → cut base)
    (hleft : left = ((L.drop (base - k)).take k).map (txt env))
    (hcoord : (L.map Prod.snd).Pairwise (· < ·))
    (e : Entry) (P : List Entry) (f : Flush D) (V : List Win) (G : List Entry) (h : J env dist L full cut base k em f V G)
    (hsub : (e :: P).Sublist (L.drop (base + f.bufferPos))) :
    ∃ f' V', onTarget env (L.drop base) left f (dist (env.tokenize (txt env e)), e.2) = some f' ∧
      P.Sublist (L.drop (base + f'.bufferPos)) ∧
      J env dist L full cut base k em f' V' (if env.over (dist (env.tokenize (txt env e))) then e :: G else G) ∧
      f'.currentAnomaly.toList.length + f'.anomalies.length ≤ f.currentAnomaly.toList.length + f.anomalies.length + 1 := by
  obtain ⟨r1, r2, hr, he, hP⟩ := List.cons_sublist_iff.1 hsub
  obtain ⟨A, B', rfl⟩ := List.append_of_mem he
  have hd : L.drop (base + f.bufferPos) = A ++ e :: (B' ++ r2) := by rw [hr]; simp
  have hP' : P.Sublist (B' ++ r2) := hP.trans (List.sublist_append_right _ _)
  have hA : ∀ x ∈ A, x.2 ≠ e.2 := by
    intro x hx
    have hc : ((L.drop (base + f.bufferPos)).map Prod.snd).Pairwise (· < ·) := by
      rw [List.map_drop]; exact List.Pairwise.sublist (List.drop_sublist _ _) hcoord
    rw [hd, List.map_append, List.pairwise_append] at hc
    exact Nat.ne_of_lt (hc.2.2 x.2 (List.mem_map_of_mem hx) e.2 (by simp))
  obtain ⟨f1, V1, hJ, hd1, hc1, hscan⟩ := scan_spec (dist := dist) hdec (env.over (dist (env.tokenize (txt env e)))) e (B' ++ r2) A f V G h hd hA
  have hlt := lt_of_drop hd1
  have hslice : sliceFrom (L.drop base) f.bufferPos = some (A ++ e :: (B' ++ r2)) := by
    unfold sliceFrom
    have := h.pos_le
    rw [if_pos (by rw [List.length_drop]; omega), List.drop_drop, hd]
  unfold onTarget
  simp only [hslice, Option.bind_eq_bind, Option.bind_some, hscan]
  cases hover : env.over (dist (env.tokenize (txt env e))) with
  | false =>
    obtain ⟨f2, V2, h2, h3, h4, hc2⟩ := hJ.feed hdec hd1
    refine ⟨f2, V2, ?_, ?_, by simpa using h4, by omega⟩
    · simp [h2]
    · rw [h3, ← Nat.add_assoc, drop_succ_of_drop hd1]; exact hP'
  | true =>
    simp only [if_true, Option.bind_some]
    have hclose := hJ.close
    have hpos1 := hJ.pos_le
    have hlast1 := hJ.last_le
    obtain ⟨b, hb, b3, bi, hbl, hb0⟩ := collectBefore_spec (left := left) hdec hJ.k3 hJ.kbase hleft f1.bufferPos f1.lastContextPos hpos1 hlast1
    refine ⟨⟨f1.bufferPos + 1, f1.bufferPos + 1, some ⟨((L.drop (base + f1.bufferPos - b)).take b).map (txt env),
        ⟨dist (env.tokenize (txt env e)), e.1.2, txt env e⟩, []⟩, (match f1.currentAnomaly with
      | some anomaly => { f1 with anomalies := f1.anomalies ++ [anomaly], currentAnomaly := none }
      | none => f1 : Flush D).anomalies⟩, ⟨base + f1.bufferPos, b, 0⟩ :: V1, ?_, ?_, ?_, ?_⟩
    · clear hclose hscan hc1
      obtain ⟨pos, last, current, anoms⟩ := f1
      cases current <;> simp [hb]
    · show P.Sublist (L.drop (base + (f1.bufferPos + 1)))
      rw [← Nat.add_assoc, drop_succ_of_drop hd1]; exact hP'
    · refine ⟨?_, ?_, ?_, ?_, hJ.k3, hJ.kbase, ?_, Nat.le_refl _, ?_, ?_, ?_, ?_, ?_⟩
      · simp only [Option.toList_some, List.cons_append, List.nil_append]
        refine .cons ⟨e, getElem?_of_drop hd1, bi, ?_, rfl, rfl, ?_⟩ hclose
        · show base + f1.bufferPos + 0 < _; omega
        · simp
      · simp only [List.map_cons, hJ.idx, getElem?_of_drop hd1]
      · -- the windows
        have hgood := hJ.good
        have hend := hJ.end_le
        have hendeq := hJ.end_eq
        have hcur := hJ.cur
        have hno := hJ.noCur
        have hz := hJ.zero
        have hkb := hJ.kbase
        have hk3 := hJ.k3
        have ha3 := hJ.a3
        clear hclose hscan hJ hc1
        cases V1 with
        | nil =>
          have hl0 : f1.lastContextPos = 0 := by
            by_contra hne
            have := hendeq (by omega)
            simp only [lastEnd] at this; omega
          have := (hz hl0).2
          simp only [lastEnd] at this
          refine ⟨b3, bi, fun hf => ?_⟩
          have := this hf
          have := hb0 hl0
          show b = min 3 (base + f1.bufferPos)
          omega
        | cons w V1 =>
          simp only [lastEnd, List.head?_cons, Option.mem_some_iff, forall_eq'] at hend hendeq hcur hno hz
          have hwa := ha3 w (by simp)
          refine ⟨?_, hgood⟩
          have hfull : full → w.a = min 3 (base + f1.bufferPos - w.i - 1) := by
            intro hf
            rcases isSome_cases f1.currentAnomaly with hn | hs
            · have := hno hn hf; omega
            · obtain ⟨q1, q2, q3⟩ := hcur hs; omega
          by_cases hl0 : f1.lastContextPos = 0
          · obtain ⟨z1, z2⟩ := hz hl0
            have hb' := hb0 hl0
            refine ⟨?_, ?_, b3, hfull, ?_, .inr ⟨base, hcut (by omega), by omega, by simp only; omega⟩⟩
            · simp only; omega
            · simp only; omega
            · intro hf; have := z2 hf; simp only; omega
          · have hb' := hbl (by omega)
            have he' := hendeq (by omega)
            refine ⟨?_, ?_, b3, hfull, ?_, .inl ?_⟩
            · simp only; omega
            · simp only; omega
            · intro hf; simp only; omega
            · simp only; omega
      · intro v hv
        rcases List.mem_cons.1 hv with rfl | hv
        · show 0 ≤ 3; omega
        · exact hJ.a3 v hv
      · show base + (f1.bufferPos + 1) ≤ _; omega
      · simp only [lastEnd]; omega
      · intro _; simp only [lastEnd]; omega
      · intro _
        refine ⟨rfl, by simp only [lastEnd]; omega, ?_⟩
        intro v hv
        simp only [List.head?_cons, Option.mem_some_iff] at hv
        rw [← hv]; show 0 < 3; omega
      · intro h'; cases h'
      · intro h'; simp at h'
    · obtain ⟨pos, last, current, anoms⟩ := f1
      simp only at hc1 ⊢
      cases current <;> simp at hc1 ⊢ <;> omega

/-- all the targets -/
theorem targets_spec (hdec : ∀ e ∈ L, (env.decode e.1.1).isSome) (hcut : 0 < base → cut base)
    (hleft : left = ((L.drop (base - k)).take k).map (txt env))
    (hcoord : (L.map Prod.snd).Pairwise (· < ·)) :
    ∀ (P : List Entry) (f : Flush D) (V : List Win) (G : List Entry), J env dist L full cut base k em f V G →
      P.Sublist (L.drop (base + f.bufferPos)) →
      ∃ f' V', (((P.map fun e => dist (env.tokenize (txt env e))).zip (P.map Prod.snd)).foldlM
          (onTarget env (L.drop base) left) f) = some f' ∧
        J env dist L full cut base k em f' V' ((P.filter fun e => env.over (dist (env.tokenize (txt env e)))).reverse ++ G) ∧
        f'.currentAnomaly.toList.length + f'.anomalies.length ≤ f.currentAnomaly.toList.length + f.anomalies.length + P.length := by
  intro P
  induction P with
  | nil =>
    intro f V G h _
    exact ⟨f, V, rfl, by simpa using h, by simp⟩
  | cons e P ih =>
    intro f V G h hsub
    obtain ⟨f1, V1, h1, h2, h3, hc1⟩ := onTarget_spec hdec hcut hleft hcoord e P f V G h hsub
    obtain ⟨f2, V2, h4, h5, hc2⟩ := ih f1 V1 _ h3 h2
    refine ⟨f2, V2, ?_, ?_, by simp only [List.length_cons]; omega⟩
    · rw [List.map_cons, List.map_cons, List.zip_cons_cons, List.foldlM_cons, h1]
      exact h4
    · rw [List.filter_cons]
      split at h5 <;> rename_i ho
      · rw [if_pos ho, List.reverse_cons, List.append_assoc]; exact h5
      · rw [if_neg ho]; exact h5

/-- The invariant after the loop on the lines which follow the last target. -/
structure T (env : Env D) (dist : Str → D) (L : List Entry) (full : Prop) (cut : Nat → Prop) (base last : Nat)
    (em : List (AnomalyContext D)) (pos : Nat) (cur : Option (AnomalyContext D)) (anoms : List (AnomalyContext D)) (V : List Win) (G : List Entry) : Prop where
  shows_ : List.Forall₂ (Shows env dist L) (cur.toList ++ anoms.reverse ++ em) V
  idx : V.map (fun w => L[w.i]?) = G.map some
  good : Good full cut V
  a3 : ∀ w ∈ V, w.a ≤ 3
  head : ∀ w ∈ V.head?, w.i + 1 ≤ base + last
  end_le : lastEnd V ≤ base + pos
  end_ge : base + last ≤ lastEnd V ∨ last = 0
  curEnd : cur.isSome → lastEnd V = base + pos ∧ ∀ w ∈ V.head?, w.a < 3
  noCur : cur = none → full → ∀ w ∈ V.head?, w.a = 3

theorem tail_spec (hdec : ∀ e ∈ L, (env.decode e.1.1).isSome) (last : Nat) :
    ∀ (B : List Entry) (pos : Nat) (f : Flush D) (V : List Win) (G : List Entry), f.lastContextPos = last →
      base + pos ≤ L.length → L.drop (base + pos) = B →
      T env dist L full cut base last em pos f.currentAnomaly f.anomalies V G → f.currentAnomaly.isSome →
      ∃ f' V', tail env B f = some f' ∧ f'.lastContextPos = last ∧
        f'.currentAnomaly.toList.length + f'.anomalies.length = f.currentAnomaly.toList.length + f.anomalies.length ∧
        T env dist L full cut base last em (L.length - base) f'.currentAnomaly f'.anomalies V' G := by
  intro B
  induction B with
  | nil =>
    intro pos f V G hl hle hd h _
    have : pos = L.length - base := by
      have := congrArg List.length hd
      simp at this; omega
    exact ⟨f, V, rfl, hl, rfl, this ▸ h⟩
  | cons e B ih =>
    intro pos f V G hl hle hd h hs
    have hlt := lt_of_drop hd
    have hget := getElem?_of_drop hd
    obtain ⟨p, l, current, anoms⟩ := f
    cases current with
    | none => cases hs
    | some c =>
      have hs := h.shows_
      simp only [Option.toList_some, List.cons_append, List.nil_append] at hs
      cases hs with
      | @cons _ w _ V' hc hrest =>
        obtain ⟨c2, c3⟩ := h.curEnd rfl
        have c3 := c3 w (by simp)
        simp only [lastEnd] at c2
        obtain ⟨x, hx⟩ := Option.isSome_iff_exists.1 (hdec e (List.mem_of_getElem? hget))
        have hx' : txt env e = x := by simp [txt, hx]
        have hfeed := shows_feed env dist L hc (e := e) (by rw [c2]; exact hget)
        have hlen := shows_after env dist L hc
        have hidx : ({ w with a := w.a + 1 } :: V').map (fun w => L[w.i]?) = G.map some := h.idx
        have ha3 : ∀ v ∈ ({ w with a := w.a + 1 } :: V'), v.a ≤ 3 := by
          intro v hv
          rcases List.mem_cons.1 hv with rfl | hv
          · show w.a + 1 ≤ 3; omega
          · exact h.a3 v (by simp [hv])
        have hhead : ∀ v ∈ ({ w with a := w.a + 1 } :: V').head?, v.i + 1 ≤ base + last := by
          intro v hv
          simp only [List.head?_cons, Option.mem_some_iff] at hv
          rw [← hv]; exact h.head w (by simp)
        have hge : base + last ≤ lastEnd ({ w with a := w.a + 1 } :: V') ∨ last = 0 := by
          rcases h.end_ge with h' | h'
          · left; simp only [lastEnd] at h' ⊢; omega
          · exact .inr h'
        obtain ⟨⟨bytes, num⟩, coord⟩ := e
        simp only at hx
        by_cases h3 : CTX_DISTANCE ≤ w.a + 1
        · refine ⟨⟨p, l, none, anoms ++ [{ c with after := c.after ++ [x] }]⟩, { w with a := w.a + 1 } :: V', ?_, hl, by simp; omega, ?_⟩
          · unfold tail
            simp only [hx, Option.bind_eq_bind, Option.bind_some]
            rw [if_pos (by simp only [List.length_append, List.length_singleton, hlen]; exact h3)]
          · refine ⟨?_, hidx, good_setA _ h.good, ha3, hhead, ?_, hge, ?_, ?_⟩
            · simp only [Option.toList_none, List.nil_append, List.reverse_append, List.reverse_singleton, List.cons_append]
              exact .cons (hx' ▸ hfeed) hrest
            · simp only [lastEnd]; omega
            · intro h'; cases h'
            · intro _ _ v hv
              simp only [List.head?_cons, Option.mem_some_iff] at hv
              rw [← hv]
              show w.a + 1 = 3
              unfold CTX_DISTANCE at h3; omega
        · obtain ⟨f', V2, r1, r2, r3, r4⟩ := ih (pos + 1) ⟨p, l, some { c with after := c.after ++ [x] }, anoms⟩
            ({ w with a := w.a + 1 } :: V') G hl (by omega) (drop_succ_of_drop hd) (by
              refine ⟨?_, hidx, good_setA _ h.good, ha3, hhead, ?_, hge, ?_, ?_⟩
              · simp only [Option.toList_some, List.nil_append, List.cons_append]
                exact .cons (hx' ▸ hfeed) hrest
              · simp only [lastEnd]; omega
              · intro _
                refine ⟨by simp only [lastEnd]; omega, ?_⟩
                intro v hv
                simp only [List.head?_cons, Option.mem_some_iff] at hv
                rw [← hv]
                show w.a + 1 < 3
                unfold CTX_DISTANCE at h3; omega
              · intro h'; cases h') rfl
          refine ⟨f', V2, ?_, r2, by simpa using r3, r4⟩
          unfold tail
          simp only [hx, Option.bind_eq_bind, Option.bind_some]
          rw [if_neg (by simp only [List.length_append, List.length_singleton, hlen]; exact h3)]
          exact r1

/-- The invariant between two searches: `k` lines are left over. -/
def Idle (env : Env D) (dist : Str → D) (L : List Entry) (full : Prop) (cut : Nat → Prop) (base k : Nat)
    (em : List (AnomalyContext D)) (cur : Option (AnomalyContext D)) (anoms : List (AnomalyContext D)) (V : List Win) (G : List Entry) : Prop :=
  J env dist L full cut base k em ⟨0, 0, cur, anoms⟩ V G

/-- One search: the buffer holds the lines from `base` to the end of `L`, the pending targets are `P`. -/
theorem doSearch_spec (hdec : ∀ e ∈ L, (env.decode e.1.1).isSome) (hcut : 0 < base → cut base)
    (hcoord : (L.map Prod.snd).Pairwise (· < ·)) (hsearch : ∀ ts, env.search ts = ts.map dist)
    (s : St D) (P : List Entry) (V : List Win) (G : List Entry)
    (hbuf : s.buffer = L.drop base) (hP : P.Sublist (L.drop base))
    (ht : s.targets = P.map fun e => env.tokenize (txt env e)) (htc : s.targetsCoord = P.map Prod.snd)
    (hleft : s.leftOvers = ((L.drop (base - k)).take k).map (txt env))
    (h : Idle env dist L full cut base k em s.currentAnomaly s.anomalies V G)
    :
    ∃ s' V' k', s.doSearch env = some s' ∧
      s' = { s with targets := [], targetsCoord := [], buffer := [], leftOvers := s'.leftOvers,
                    currentAnomaly := s'.currentAnomaly, anomalies := s'.anomalies } ∧
      s'.leftOvers = ((L.drop (L.length - k')).take k').map (txt env) ∧
      (∃ last, T env dist L full cut base last em (L.length - base) s'.currentAnomaly s'.anomalies V'
        ((P.filter fun e => env.over (dist (env.tokenize (txt env e)))).reverse ++ G)) ∧
      (∀ full' : Prop, (full' → full) → (full' → 3 ≤ L.length - base) →
        Idle env dist L full' cut L.length k' em s'.currentAnomaly s'.anomalies V'
          ((P.filter fun e => env.over (dist (env.tokenize (txt env e)))).reverse ++ G)) ∧
      s'.currentAnomaly.toList.length + s'.anomalies.length ≤
        s.currentAnomaly.toList.length + s.anomalies.length + P.length := by
  have hbase : base ≤ L.length := by have := h.pos_le; simpa using this
  obtain ⟨f1, V1, e1, h1, hc1⟩ := targets_spec (left := s.leftOvers) hdec hcut hleft hcoord P _ V G h (by simpa using hP)
  have hzip : (env.search s.targets).zip s.targetsCoord =
      (P.map fun e => dist (env.tokenize (txt env e))).zip (P.map Prod.snd) := by
    rw [hsearch, ht, htc, List.map_map]; rfl
  have hpos := h1.pos_le
  have hlast := h1.last_le
  -- the invariant before the tail
  have hT : T env dist L full cut base f1.lastContextPos em f1.bufferPos f1.currentAnomaly f1.anomalies V1
      ((P.filter fun e => env.over (dist (env.tokenize (txt env e)))).reverse ++ G) := by
    refine ⟨h1.shows_, h1.idx, h1.good, h1.a3, ?_, ?_, ?_, fun hs => ⟨(h1.cur hs).2.1, (h1.cur hs).2.2⟩, h1.noCur⟩
    · intro w hw
      by_cases hl : f1.lastContextPos = 0
      · have := (h1.zero hl).1 w hw; omega
      · have := h1.end_eq (by omega)
        cases V1 with
        | nil => cases hw
        | cons v V1 =>
          simp only [List.head?_cons, Option.mem_some_iff] at hw
          subst hw
          simp only [lastEnd] at this; omega
    · have := h1.end_le; omega
    · by_cases hl : f1.lastContextPos = 0
      · exact .inr hl
      · have := h1.end_eq (by omega); left; omega
  -- the tail
  obtain ⟨f2, V2, e2, hl2, hc2, h2⟩ : ∃ f2 V2,
      (if f1.currentAnomaly.isSome ∧ f1.lastContextPos < s.buffer.length then
        tail env (s.buffer.drop f1.lastContextPos) f1 else some f1) = some f2 ∧
      f2.lastContextPos = f1.lastContextPos ∧
      f2.currentAnomaly.toList.length + f2.anomalies.length = f1.currentAnomaly.toList.length + f1.anomalies.length ∧
      T env dist L full cut base f1.lastContextPos em (L.length - base) f2.currentAnomaly f2.anomalies V2
        ((P.filter fun e => env.over (dist (env.tokenize (txt env e)))).reverse ++ G) := by
    by_cases hs : f1.currentAnomaly.isSome
    · obtain ⟨q1, q2, q3⟩ := h1.cur hs
      by_cases hlt : f1.lastContextPos < s.buffer.length
      · rw [if_pos ⟨hs, hlt⟩, hbuf, List.drop_drop, q1]
        obtain ⟨f', V', r1, r2, r3, r4⟩ := tail_spec hdec f1.lastContextPos (L.drop (base + f1.bufferPos)) f1.bufferPos f1 V1 _ rfl hpos rfl hT hs
        exact ⟨f', V', r1, r2 ▸ q1, r3, q1 ▸ r4⟩
      · rw [if_neg (fun h => hlt h.2)]
        have : f1.bufferPos = L.length - base := by
          rw [hbuf, List.length_drop] at hlt; omega
        exact ⟨f1, V1, rfl, rfl, rfl, this ▸ hT⟩
    · rw [if_neg (fun h => hs h.1)]
      refine ⟨f1, V1, rfl, rfl, rfl, ?_⟩
      exact { hT with
        end_le := by have := hT.end_le; omega
        curEnd := fun h => absurd h hs }
  -- the reset
  have hbl : s.buffer.length = L.length - base := by rw [hbuf, List.length_drop]
  have hmin : (if s.buffer.length < CTX_DISTANCE then 0 else s.buffer.length - CTX_DISTANCE) = s.buffer.length - 3 := by
    unfold CTX_DISTANCE; split <;> omega
  have hslice : sliceFrom s.buffer (max f1.lastContextPos (s.buffer.length - 3)) =
      some (L.drop (base + max f1.lastContextPos (s.buffer.length - 3))) := by
    unfold sliceFrom
    rw [if_pos (by omega), hbuf, List.drop_drop]
  refine ⟨{ s with
      targets := [], targetsCoord := [], buffer := [],
      leftOvers := (L.drop (base + max f1.lastContextPos (s.buffer.length - 3))).map (txt env),
      currentAnomaly := f2.currentAnomaly, anomalies := f2.anomalies }, V2,
      L.length - (base + max f1.lastContextPos (s.buffer.length - 3)), ?_, rfl, ?_, ⟨_, h2⟩, ?_, ?_⟩
  · unfold St.doSearch
    simp only [hzip]
    rw [hbuf, e1, ← hbuf]
    simp only [Option.bind_eq_bind, Option.bind_some]
    have e3 : lastAfter env s.buffer f1 = some f2 := e2
    rw [e3]
    simp only [Option.bind_some]
    unfold St.reset
    simp only [hl2, hmin, hslice, Option.bind_eq_bind, Option.bind_some]
    rw [texts_ok env _ fun e he => hdec e (List.mem_of_mem_drop he)]
    rfl
  · simp only
    rw [List.take_of_length_le (by rw [List.length_drop]; omega)]
    congr 2
    omega
  · intro full' hf1 hf2
    have hg : ∀ V, Good full cut V → Good full' cut V := by
      intro V
      induction V with
      | nil => exact fun h => h
      | cons w V ih =>
        cases V with
        | nil => exact fun h => ⟨h.1, h.2.1, fun hf => h.2.2 (hf1 hf)⟩
        | cons v V => exact fun h => ⟨⟨h.1.1, h.1.2.1, h.1.2.2.1, fun hf => h.1.2.2.2.1 (hf1 hf), fun hf => h.1.2.2.2.2.1 (hf1 hf), h.1.2.2.2.2.2⟩, ih h.2⟩
    refine ⟨h2.shows_, h2.idx, hg _ h2.good, h2.a3, ?_, ?_, ?_, Nat.le_refl _, ?_, ?_, ?_, ?_, ?_⟩
    · omega
    · omega
    · simp
    · have := h2.end_le; simp only; omega
    · intro h'; simp at h'
    · intro hs
      obtain ⟨q1, q2⟩ := h2.curEnd hs
      exact ⟨rfl, by simp only; omega, q2⟩
    · exact fun hn hf => h2.noCur hn (hf1 hf)
    · intro _
      constructor
      · intro w hw
        have := h2.head w hw
        omega
      · intro hf
        have := hf2 hf
        have h3 := h2.end_ge
        omega
  · simp only at hc1
    simp only
    omega

end
end LJ.Process
