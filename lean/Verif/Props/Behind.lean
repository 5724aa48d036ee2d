import Verif.Proofs.Behind
import Verif.Props.Simple

/-!
# C51: what stands behind a header, for any language and any two streams
-/

set_option autoImplicit false

namespace Genco

open Spec Tokens

variable {ι : Type}

/-- C51, any header and any body, for every language that writes something where a
string opens: behind a header `hd` with text, and a request for a blank line, stand
the lines of the body without the spaces that are asked for before a blank line
before the first text. What is left of the header besides its lines is a level of
indentation. -/
theorem C51_behind (L : Lang ι) (hL : ∀ e, (L.openQuote e).flatten ≠ []) (cfg : Config)
    (head : List (Item ι)) (hd : List Str) (h : toVec L cfg head = some hd) (hh : hd ≠ [[]]) :
    ∃ n : Int, ∀ body, toFileVec L cfg [head, [.line], body] =
      (toVec L cfg (.indentation n :: settled L.langItem body)).map (fileLines hd) :=
  behind_file L hL cfg head h hh

/-- C51: behind anything that was written, and before anything else, those spaces
do not matter. -/
theorem C51_settled (L : Lang ι) (hL : ∀ e, (L.openQuote e).flatten ≠ []) (cfg : Config)
    (head body : List (Item ι)) (rest : List (List (Item ι))) (hd : List Str)
    (h : toVec L cfg head = some hd) (hh : hd ≠ [[]]) :
    toFileVec L cfg (head :: settled L.langItem body :: rest) = toFileVec L cfg (head :: body :: rest) :=
  settled_file L hL cfg head body rest h hh

/-- C51: the condition of the claims on the languages is that there are no such
spaces. They can be taken out of any stream, and nothing else need be. -/
theorem C51_loses (f : ι → List Str) (l : List (Item ι)) :
    (losesSpace f l = false ↔ settled f l = l) ∧ losesSpace f (settled f l) = false ∧
    (settled f l).Sublist l ∧
    (settled f l).filter (fun i => !(i matches .space)) = l.filter (fun i => !(i matches .space)) :=
  ⟨⟨settled_eq f l, fun h => h ▸ settled_loses f l⟩, settled_loses f l, settled_sublist f l, settled_keeps f l⟩

/-- A body that starts with a space keeps it, also behind a header. With a blank line
between the space and the text, it keeps the space only if there is no header: the
condition cannot be left out. -/
example :
    losesSpace Go.lang.langItem (history (ι := Go.Import) [.space, .append (.literal (.box ['a']))]).items = false ∧
    toFileVec Go.lang ⟨.tab, ['\n']⟩ [[.literal (.box ['h'])], [.line],
      (history (ι := Go.Import) [.space, .append (.literal (.box ['a']))]).items] =
      some [['h'], [], [' ', 'a']] ∧
    (history (ι := Go.Import) [.space, .line, .append (.literal (.box ['a']))]).items =
      [.space, .line, .literal (.box ['a'])] ∧
    toVec Go.lang ⟨.tab, ['\n']⟩ [.space, .line, .literal (.box ['a'])] = some [[' ', 'a']] ∧
    toFileVec Go.lang ⟨.tab, ['\n']⟩ [[.literal (.box ['h'])], [.line], [.space, .line, .literal (.box ['a'])]] =
      some [['h'], [], ['a']] := by decide +kernel

/-- A header that leaves a level of indentation. -/
example : toFileVec Go.lang ⟨.tab, ['\n']⟩ [[.literal (.box ['h']), .indentation 1], [.line],
    [.push, .literal (.box ['a'])]] = some [['h'], [], ['\t', 'a']] ∧
    ∀ e, (Go.lang.openQuote e).flatten ≠ [] := by
  refine ⟨by decide +kernel, ?_⟩
  intro e; cases e <;> decide

end Genco
