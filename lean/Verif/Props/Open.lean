import Verif.Proofs.Open
import Verif.Props.Layout
import Verif.Props.Quoting

/-!
# Layout and text of any stream (C13, C16)
-/

set_option autoImplicit false

namespace Genco.Props
open Genco.Spec

variable {ι : Type}

/-- C13. Any stream is rendered as the layout specification says, also with strings and evaluations
left open; it is refused if it is malformed. -/
theorem C13_any_stream (L : Lang ι) (cfg : Config) (items : List (Item ι)) :
    toString L cfg items = (asks L cfg .blank [] items).map (render cfg) := by
  rw [toString_eq, asks_resolveItems, Option.map_map]
  rfl

theorem asks_streams (L : Lang ι) (cfg : Config) (ss : List (List (Item ι))) :
    (ss.mapM (asks L cfg .blank [])).map List.flatten =
      (resolveStreams L cfg ss).2.map (fun _ => (resolveStreams L cfg ss).1) := by
  induction ss with
  | nil => rfl
  | cons s ss ih =>
    simp only [List.mapM_cons, resolveStreams, asks_resolveItems]
    cases h1 : (resolveItems L cfg s).2 with
    | none => simp [h1]
    | some u =>
      cases h2 : ss.mapM (asks L cfg .blank []) with
      | none =>
        rw [h2] at ih
        have h3 : (resolveStreams L cfg ss).2 = none := by
          cases h3 : (resolveStreams L cfg ss).2 with
          | none => rfl
          | some u => rw [h3] at ih; cases ih
        simp [pre, h3]
      | some as =>
        rw [h2] at ih
        cases h3 : (resolveStreams L cfg ss).2 with
        | none => rw [h3] at ih; cases ih
        | some u =>
          rw [h3] at ih
          simp only [Option.map_some, Option.some.injEq] at ih
          simp [pre, h3, ih]

/-- C13. A file is rendered like the requests of its streams put together, with one newline behind. -/
theorem C13_any_file (L : Lang ι) (cfg : Config) (ss : List (List (Item ι))) :
    toFileString L cfg ss =
      (ss.mapM (asks L cfg .blank [])).map (fun as => render cfg as.flatten ++ cfg.newline) := by
  have h := asks_streams L cfg ss
  have e : (ss.mapM (asks L cfg .blank [])).map (fun as => render cfg as.flatten ++ cfg.newline) =
      ((ss.mapM (asks L cfg .blank [])).map List.flatten).map (fun a => render cfg a ++ cfg.newline) := by
    rw [Option.map_map]; rfl
  rw [e, h]
  simp only [toFileString]
  rw [show Fmt.out (σ := Str) = (fun f => id f.out) from rfl, okOf_eq, formatFile_eq]
  simp only [replay_string, evText_append]
  cases (resolveStreams L cfg ss).2 with
  | none => rfl
  | some u =>
    simp only [Option.map_some, ← renderActs_eq, renderActs, evText, List.append_nil]
    rfl

/-- C16. Removing spaces, tabs and line breaks, the output of any stream is the concatenation of the
texts it asks for. -/
theorem C16_any_stream (L : Lang ι) (cfg : Config) (hn : cfg.newline.filter inked = [])
    (items : List (Item ι)) :
    (toString L cfg items).map (List.filter inked) =
      (asks L cfg .blank [] items).map (fun a => (actTexts a).filter inked) := by
  rw [C13_any_stream, Option.map_map]
  congr 1
  funext a
  exact filter_pieces cfg hn [] a

/-- C16. The same for files. -/
theorem C16_any_file (L : Lang ι) (cfg : Config) (hn : cfg.newline.filter inked = [])
    (ss : List (List (Item ι))) :
    (toFileString L cfg ss).map (List.filter inked) =
      (ss.mapM (asks L cfg .blank [])).map (fun as => (actTexts as.flatten).filter inked) := by
  rw [C13_any_file, Option.map_map]
  congr 1
  funext as
  simp only [Function.comp, List.filter_append, hn, List.append_nil]
  exact filter_pieces cfg hn [] as.flatten

/-- On properly nested streams, this is what the tree says. -/
theorem C13_trees (L : Lang ι) (cfg : Config) (c : Code ι) (hc : c.plain = true) :
    asks L cfg .blank [] c.items = some (c.acts L cfg) := by
  rw [asks_resolveItems, resolveItems_code L cfg c hc]
  rfl

/-- A string in an evaluation that is left open when the evaluation ends, a string quoted inside a
string in which another one is left open, and evaluations left open at the end. -/
def ragged : List (Item Str) :=
  [lit "x", .indentation 1, .openQuote true, lit "a", .openEval, .openQuote false, lit "b", .closeEval,
    .push, .openQuote false, lit "c", .openQuote true, .openEval, lit "d", .push, lit "e", .closeQuote, .openEval,
    .space, lit "f"]

example : asks twoQuotes cfg2 .blank [] ragged = some [.text "x".toList, .indent 1, .text "`".toList,
    .text "a".toList, .text "${".toList, .text "\"".toList, .text "b".toList, .text "}".toList, .push,
    .text "\"c`${d\ne\"".toList, .text "${".toList, .space, .text "f".toList] := by decide

example : toString twoQuotes cfg2 ragged = some "x\n  `a${\"b}\n  \"c`${d\ne\"${ f".toList := by decide

example : toFileString twoQuotes cfg2 [ragged, [.line, lit "g"]] =
    some "x\n  `a${\"b}\n  \"c`${d\ne\"${ f\n\n  g\n".toList := by decide

example : cfg2.newline.filter inked = [] := by decide

example : asks twoQuotes cfg2 .blank [] (ragged ++ [.closeEval, .closeEval]) = none := by decide

end Genco.Props
