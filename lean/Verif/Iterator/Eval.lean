/- Fuel-bounded evaluation of the iterator, used only to evaluate concrete inputs in the kernel. -/
import Verif.Iterator.Refine
namespace LJ.Iterator

def runN {ε : Type} (cfg : Cfg) : Nat → Fn → BL ε → Option (BL ε × Outcome ε)
  | 0, _, _ => none
  | n + 1, f, s =>
    match body cfg f s with
    | .ret s o => some (s, o)
    | .call f' s' => runN cfg n f' s'

theorem runN_run {ε : Type} {cfg : Cfg} {n : Nat} {f : Fn} {s : BL ε} {r}
    (h : runN cfg n f s = some r) : run cfg f s = r := by
  induction n generalizing f s with
  | zero => simp [runN] at h
  | succ n ih =>
    rw [run_eq]
    rw [runN] at h
    split at h
    · rename_i hb; simpa [hb] using h
    · rename_i hb; rw [hb]; exact ih h

def nextN {ε : Type} (cfg : Cfg) (n : Nat) (s : BL ε) : Option (BL ε × Outcome ε) :=
  match s.state with
  | .eof => some (s, .done)
  | .scanning _ => if s.buf.isEmpty then runN cfg n .readSlice s else runN cfg n .getSlice s

theorem nextN_next {ε : Type} {cfg : Cfg} {n : Nat} {s : BL ε} {r}
    (h : nextN cfg n s = some r) : s.next cfg = r := by
  unfold nextN at h
  unfold BL.next
  split at h
  · rename_i hs; simpa [hs] using h
  · rename_i hs
    simp only [hs]
    split at h
    · rename_i hb; rw [if_pos hb]; exact runN_run h
    · rename_i hb; rw [if_neg hb]; exact runN_run h

theorem nextN_outcome {ε : Type} {cfg : Cfg} {n : Nat} {s : BL ε} {o}
    (h : (nextN cfg n s).map (·.2) = some o) : (s.next cfg).2 = o := by
  cases hn : nextN cfg n s with
  | none => simp [hn] at h
  | some r => rw [nextN_next hn]; simpa [hn] using h

def drainN {ε : Type} (cfg : Cfg) : Nat → BL ε → Option (List (Bytes × Nat) × End ε)
  | 0, _ => none
  | n + 1, s =>
    match nextN cfg (n + 1) s with
    | none => none
    | some (_, .done) => some ([], .finished)
    | some (_, .error e) => some ([], .failed e)
    | some (_, .panic) => some ([], .panicked)
    | some (s', .line bs nr) =>
      match drainN cfg n s' with
      | none => none
      | some r => some ((bs, nr) :: r.1, r.2)

theorem drainN_drain {ε : Type} {cfg : Cfg} {n : Nat} {s : BL ε} {r}
    (h : drainN cfg n s = some r) : drain cfg s = r := by
  induction n generalizing s r with
  | zero => simp [drainN] at h
  | succ n ih =>
    rw [drainN] at h
    rw [drain_eq]
    split at h
    · cases h
    · rename_i hn; rw [nextN_next hn]; simpa using h
    · rename_i hn; rw [nextN_next hn]; simpa using h
    · rename_i hn; rw [nextN_next hn]; simpa using h
    · rename_i hn
      rw [nextN_next hn]
      split at h
      · cases h
      · rename_i hd
        simp only [ih hd]
        simpa using h

theorem allLines_of_drainN {ε : Type} {cfg : Cfg} {n : Nat} {json : Bool} {rd : Reader ε} {r}
    (h : drainN cfg n (BL.new rd json) = some r) : allLines cfg json rd = r := drainN_drain h

theorem allLines_summary {ε α : Type} {cfg : Cfg} {n : Nat} {json : Bool} {rd : Reader ε}
    (g : List (Bytes × Nat) × End ε → α) {v : α}
    (h : (drainN cfg n (BL.new rd json)).map g = some v) : g (allLines cfg json rd) = v := by
  cases hd : drainN cfg n (BL.new rd json) with
  | none => simp [hd] at h
  | some r =>
    rw [allLines_of_drainN hd]
    simpa [hd] using h

/-- Bytes of an ASCII string. -/
def ascii (s : String) : Bytes := s.toList.map Char.toUInt8

end LJ.Iterator
