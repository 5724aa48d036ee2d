import Verif.Spec.Macro
import Verif.Spec.Source
import Verif.Spec.Files
import Verif.Model.Lex

/-!
# Files from source text

What is imported by what a macro says, and what it takes for a text to be one that is rendered as it
is written.
-/

set_option autoImplicit false

namespace Genco.Spec.Text

open Genco Macro Spec.MacroFile Spec.Template

variable {ι Env : Type}

/-- What is imported by what a macro says. -/
def imported (ms : List (Mark ι)) : List ι :=
  ms.flatMap (fun m =>
    match m with
    | .char _ => []
    | .call c => (callItems c).filterMap langOf)

/-- The text of a file, given its lines. -/
def fileText (cfg : Config) (ls : List Str) : Str := cfg.newline.intercalate ls ++ cfg.newline

/-- The value of a name is a block of code. -/
structure Known (K : Host ι Macro.Code Env) (ρ : Env) (L : Lang ι) (cfg : Config) (n : Str) (vs : List Str) : Prop where
  free : n ∉ keywords
  block : BlockOf L cfg (K.value ρ [n]) vs

/-- The imports of the names in a text, in the order of the text. -/
def uses (K : Host ι Macro.Code Env) (ρ : Env) (s : Str) : List ι := (names s).flatMap (fun n => inserted (K.value ρ [n]))

/-- A stream that has these imports and nothing else. -/
def merely (l : List ι) : Tokens ι := history (l.map .appendLang)

/-- Source text with names in it that is rendered line by line: it can be read, its brackets match, it
keeps to the off-side rule, something is on one of its lines, and the values of the names are blocks of
code with the lines `v`. The text starts at column `k`. -/
structure Written (K : Host ι Macro.Code Env) (ρ : Env) (L : Lang ι) (cfg : Config) (v : Str → List Str) (k : Nat)
    (ls : List Str) : Prop where
  lines : ∀ l ∈ ls, '\n' ∉ l
  holed : Holed (Macro.textOf ls)
  nested : nested [] (Macro.textOf ls) = true
  offside : offside [] (pad k ls) = true
  ink : ∃ l ∈ ls, blank l = false
  known : ∀ n ∈ names (Macro.textOf ls), Known K ρ L cfg n (v n)

/-- The lines of such a text with the values in the places of the names. -/
def written (cfg : Config) (v : Str → List Str) (k : Nat) (ls : List Str) : List Str :=
  (rendered cfg [] false (pad k ls)).flatMap (fill v)

/-- Rust code in a macro appends no empty constant text. -/
def Full (K : Host ι Macro.Code Env) : Prop :=
  (∀ ρ e, ∀ c ∈ K.value ρ e, ¬ EmptyCall c) ∧ ∀ ρ e, ∀ c ∈ K.scope ρ e, ¬ EmptyCall c

end Genco.Spec.Text
