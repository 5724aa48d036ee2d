import Verif.Proofs.Shift
import Verif.Props.Gaps
import Mathlib.Data.List.Infix

/-!
# Properties of wrapped code (C63)
-/

set_option autoImplicit false

namespace Genco.Props

open Genco Spec Tokens

variable {ι : Type}

/-- C63. Between an opening text and a closing one, a stream that stands on lines of
its own renders to exactly its lines, each further in by one level more than the
opening line (blank lines stay blank), and the closing text is back on the level of
the opening one. Both streams may contain quoted strings and language items. -/
theorem C63_block (L : Lang ι) (cfg : Config) (as bs : List (Call ι)) (a b : Code ι)
    (ha : a.items = (history as).items) (hb : b.items = (history bs).items)
    (pa : a.plain = true) (pb : b.plain = true) (c : ItemStr) (hc : c.text ≠ [])
    (wa : ∀ i, (history as).items.getLast? = some i → isWs i = false)
    (wf : ∀ i, (history bs).items.head? = some i → isWs i = false)
    (wl : ∀ i, (history bs).items.getLast? = some i → isWs i = false)
    (hA : ∃ r s, a.acts L cfg = r ++ [.text s] ∧ s ≠ []) (k : Nat)
    (hk : ((a.acts L cfg).map actInd).sum = k) (hB : Whole (b.acts L cfg)) :
    ∃ la lb, toVec L cfg (history as).items = some la ∧ toVec L cfg (history bs).items = some lb ∧
      toVec L cfg (history (as ++ [.indent, .stream (history bs).items, .unindent,
        .append (.literal c)])).items =
        some (la ++ lb.map (movedIn cfg (k + 1)) ++ [marginText cfg k ++ c.text]) := by
  obtain ⟨la, lb, h1, h2, h3⟩ := wrap_vec L cfg a b pa pb c hc hA k hk hB
  rw [ha, hb] at h3
  rw [ha] at h1
  rw [hb] at h2
  refine ⟨la, lb, h1, h2, ?_⟩
  rw [← h3]
  refine toVec_congr L cfg ?_
  -- the pieces
  have hbne : (history bs).items ≠ [] := by
    intro e
    rw [← hb] at e
    obtain ⟨s, r, h, -⟩ := hB.first
    cases b with
    | nil => simp [Code.acts] at h
    | item i r => simp [Code.items] at e
    | quote e' i r => simp [Code.items] at e
  have hane : (history as).items ≠ [] := by
    intro e
    rw [← ha] at e
    obtain ⟨r, s, h, -⟩ := hA
    cases a with
    | nil => simp [Code.acts] at h
    | item i r => simp [Code.items] at e
    | quote e' i r => simp [Code.items] at e
  obtain ⟨w, x, ex⟩ := List.eq_nil_or_concat' (history as).items |>.resolve_left hane
  obtain ⟨w', z, ez⟩ := List.eq_nil_or_concat' (history bs).items |>.resolve_left hbne
  obtain ⟨y, m, ey⟩ := List.exists_cons_of_ne_nil hbne
  have hx : isWs x = false := wa x (by rw [ex]; simp)
  have hz : isWs z = false := wl z (by rw [ez]; simp)
  have hy : isWs y = false := wf y (by rw [ey]; rfl)
  have hw := wrap_items w x hx (bs.flatMap callItems) y z m w' hy hz
    (by rw [← history_eq]; exact ey) (by rw [← history_eq]; exact ez) c
  rw [← ex, ← history_eq] at hw
  have hi : fromIter (history as).items = history as := by rw [history_eq, fromIter_idem]
  rw [hi] at hw
  rw [← hw]
  refine congrArg (fun t : Tokens ι => t.items.map erase) ?_
  rw [history_append, List.append_assoc, List.append_assoc]
  conv_rhs => rw [fromIter, Genco.extend_append]
  rw [show (Tokens.new : Tokens ι).extend (history as).items = history as from hi]
  rw [Genco.extend_append, Genco.extend_append]
  rfl

/-- The body of the example: a nested block with a blank line and a string. -/
def shiftBody : List (Call Str) :=
  [.append (.literal (.static "if".toList)), .space, .append (.literal (.static "x {".toList)), .indent,
   .append (.literal (.static "a();".toList)), .line, .append (.openQuote false),
   .append (.literal (.static "s".toList)), .append .closeQuote,
   .append (.literal (.static ";".toList)), .unindent, .append (.literal (.static "}".toList))]

/-- The same as a tree. -/
def shiftCode : Code Str :=
  .item (.literal (.static "if".toList)) (.item .space (.item (.literal (.static "x {".toList))
    (.item (.indentation 1) (.item (.literal (.static "a();".toList)) (.item .line
      (.quote false (.item (.literal (.static "s".toList)) .nil)
        (.item (.literal (.static ";".toList)) (.item (.indentation (-1))
          (.item (.literal (.static "}".toList)) .nil)))))))))

/-- The opening line of the example. -/
def shiftOpen : List (Call Str) := [.append (.literal (.static "fn f() {".toList))]

/-- The example meets the hypotheses. -/
example : shiftCode.items = (history shiftBody).items ∧ shiftCode.plain = true ∧
    (∀ i, (history shiftBody).items.head? = some i → isWs i = false) ∧
    (∀ i, (history shiftBody).items.getLast? = some i → isWs i = false) ∧
    Whole (shiftCode.acts (rustLang (fun s : Str => [s])) ⟨.space 2, ['\n']⟩) := by
  refine ⟨by decide +kernel, by decide, ?_, ?_, ?_⟩
  · rintro i h; cases h; rfl
  · rintro i h; cases h; rfl
  · refine ⟨⟨_, _, rfl, by decide⟩,
      ⟨(shiftCode.acts (rustLang (fun s : Str => [s])) ⟨.space 2, ['\n']⟩).dropLast, "}".toList,
        by decide +kernel, by decide⟩, ?_, by decide +kernel⟩
    intro p hp
    rw [← List.mem_inits] at hp
    revert p
    decide +kernel

example : toVec (rustLang (fun s : Str => [s])) ⟨.space 2, ['\n']⟩
      (history (shiftOpen ++ [.indent, .stream (history shiftBody).items, .unindent,
        .append (.literal (.static "}".toList))])).items =
    some ["fn f() {".toList, "  if x {".toList, "    a();".toList, [], "    \"s\";".toList,
      "  }".toList, "}".toList] := by decide +kernel

end Genco.Props
