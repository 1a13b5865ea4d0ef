/-
The whole tokenization of a word, as rules: no regular expression, and nothing from `Tokenizer/Model.lean`.
-/
import Verif.Tokenizer.Spec
namespace LJ.Tokenizer.Spec

/-- `w` is cut in two at its first character among `seps`. -/
def Cut (seps : List Char) (w a b : Str) : Prop := ∃ c, c ∈ seps ∧ w = a ++ c :: b ∧ ∀ d ∈ a, d ∉ seps

/-- `w` has none of these characters. -/
def Without (seps : List Char) (w : Str) : Prop := ∀ c ∈ w, c ∉ seps

/-- `w` is `s` and a process id such as `[42` (the closing bracket is punctuation). -/
def Pid (w s : Str) : Prop := ∃ ds, w = s ++ '[' :: ds ∧ ∀ c ∈ ds, c.isDigit

/-- `w` is a `key=value` or `key:value`. -/
def Assign (w k v : Str) : Prop := Cut ['=', ':'] w k v ∧ ∃ d k', k = d :: k' ∧ (d.isAlpha ∨ d = '_')

/-- `w` has three dashes, with something between them and around them. -/
def ThreeDashes (w : Str) : Prop := ∃ a b c d r, w = a ++ '-' :: b ++ '-' :: c ++ '-' :: d :: r ∧
  (a ≠ [] ∧ InLine a) ∧ (b ≠ [] ∧ InLine b) ∧ (c ≠ [] ∧ InLine c) ∧ d ≠ '\n'

/-- `b'` is `b` without its closing brackets at the end. -/
def Unclosed (b b' : Str) : Prop := ∃ q, b = b' ++ q ∧ (∀ c ∈ q, c ∈ [']', ')']) ∧ ∀ c, b'.getLast? = some c → c ∉ [']', ')']

/-- `w` is neither a volatile value nor an error keyword. -/
def Common (wd : Char → Bool) (w : Str) : Prop := (∀ c, ¬ Looks wd w c) ∧ ¬ ErrorKeyword w

/-- `w` is common, has more than three bytes and no process id. -/
def Long (wd : Char → Bool) (w : Str) : Prop := Common wd w ∧ 3 < bytes w ∧ ¬ ∃ s, Pid w s

/-- and it has no odd character -/
def Readable (wd : Char → Bool) (w : Str) : Prop := Long wd w ∧ ∀ c ∈ w, ¬ Odd c

/-- and it is not an assignment -/
def Simple (wd : Char → Bool) (w : Str) : Prop := Readable wd w ∧ ¬ ∃ k v, Assign w k v

/-- Two readings with what separates them, unless there is nothing to keep of the first one. -/
def joined (a : Str) (kept : Bool) (sep : String) (b : Str) : Str := a ++ (if kept then sep.toList else []) ++ b

/-- `Reading wd x t kept`: the word `x` is read as the tokens `t`, and there is something to keep or not. -/
inductive Reading (wd : Char → Bool) : Str → Str → Bool → Prop
  /-- a volatile value is its class -/
  | value {x w c} : Strip x w → InClass wd c w → Reading wd x c.token.toList true
  /-- an error keyword counts five times -/
  | keyword {x w} : Strip x w → ErrorKeyword w → Reading wd x (amplified w) true
  /-- a short word is dropped -/
  | short {x w} : Strip x w → Common wd w → bytes w ≤ 3 → Reading wd x [] false
  | pid {x w s t k} : Strip x w → Common wd w → 3 < bytes w → Pid w s → Reading wd s t k → Reading wd x (t ++ "%PID".toList) true
  | odd {x w c} : Strip x w → Long wd w → c ∈ w → Odd c → Reading wd x "%ODD".toList true
  | secret {x w key v t k} : Strip x w → Readable wd w → Assign w key v → SecretKey key → Reading wd key t k →
      Reading wd x (t ++ "%EQ %VALUE_ID".toList) true
  | assign {x w key v t k t' k'} : Strip x w → Readable wd w → Assign w key v → ¬ SecretKey key → Reading wd key t k →
      Reading wd v t' k' → Reading wd x (t ++ "%EQ ".toList ++ t') k'
  | slash {x w a b t k t' k'} : Strip x w → Simple wd w → Cut ['/'] w a b → Reading wd a t k → Reading wd b t' k' →
      Reading wd x (joined t k "/ " t') k'
  /-- a word with four dashes or more -/
  | dashes {x w a b} : Strip x w → Simple wd w → Without ['/'] w → Cut ['-'] w a b → ThreeDashes b → Reading wd x "%DASH".toList true
  | dash {x w a b t k t' k'} : Strip x w → Simple wd w → Without ['/'] w → Cut ['-'] w a b → ¬ ThreeDashes b → Reading wd a t k →
      Reading wd b t' k' → Reading wd x (joined t k "- " t') k'
  | bar {x w a b t k t' k'} : Strip x w → Simple wd w → Without ['/', '-'] w → Cut ['|'] w a b → Reading wd a t k →
      Reading wd b t' k' → Reading wd x (joined t k "| " t') k'
  | big {x w} : Strip x w → Simple wd w → Without ['/', '-', '|'] w → 32 ≤ bytes w → Reading wd x "%BIG".toList true
  | two {x w a b b' t k t' k'} : Strip x w → Simple wd w → Without ['/', '-', '|'] w → bytes w < 32 →
      Cut ['[', '(', '\\', '@'] w a b → Unclosed b b' → Reading wd a t k → Reading wd b' t' k' → Reading wd x (joined t k " " t') k'
  /-- what is left is kept, with its numbers replaced -/
  | plain {x w s} : Strip x w → Simple wd w → Without ['/', '-', '|', '[', '(', '\\', '@'] w → bytes w < 32 → Numbers w s → 3 < bytes s →
      Reading wd x s true
  | little {x w s} : Strip x w → Simple wd w → Without ['/', '-', '|', '[', '(', '\\', '@'] w → bytes w < 32 → Numbers w s → bytes s ≤ 3 →
      Reading wd x [] false

end LJ.Tokenizer.Spec
