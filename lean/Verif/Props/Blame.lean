import Verif.Proofs.Blame
import Verif.Props.Advice

/-!
# Errors of any macro are errors of one of its blocks
-/

set_option autoImplicit false

namespace Genco.Props

open Spec Spec.MacroFile Spec.Blame Spec.Advice Macro

variable {ι E : Type}

/-- C103. Whether a macro is accepted: the pieces of each of its blocks, at any depth, have to be where
plain tokens might be, and each string with parts has to be on one line. -/
theorem C103_accepted (span : Option Cur) (ns : List (Node E)) :
    (∃ r ss, Macro.quote (ι := ι) span ns = .ok (r, ss)) ↔
    ∀ sp ms, Inside span ns sp ms → StringsOk ms ∧
      ∃ r ss, Macro.quote (ι := ι) (E := E) none (tokens (outline sp ms)) = .ok (r, ss) := by
  constructor
  · rintro ⟨r, ss, h⟩ sp ms hi
    obtain ⟨o, ho⟩ := quote_all hi ⟨_, h⟩
    obtain ⟨h1, o', h2⟩ := (quote_outline sp ms).2 o ho
    exact ⟨h1.2, o'.1, o'.2, h2⟩
  · intro h
    cases hq : Macro.quote (ι := ι) span ns with
    | ok o => exact ⟨o.1, o.2, rfl⟩
    | error x =>
      rcases quote_blame _ ns span x (Nat.lt_succ_self _) hq with ⟨sp, ms, h1, h2⟩ | ⟨-, sp, ms, h1, h2⟩
      · obtain ⟨-, r, ss, h3⟩ := h sp ms h1
        rw [h2] at h3
        cases h3
      · exact absurd (h sp ms h1).1 h2

/-- C103. The error of a macro is the one plain tokens at the places of the pieces of one of its blocks
make, or else is about a string with parts on several lines. -/
theorem C103_error (span : Option Cur) (ns : List (Node E)) (x : Err)
    (h : Macro.quote (ι := ι) span ns = .error x) :
    (∃ sp ms, Inside span ns sp ms ∧ Macro.quote (ι := ι) (E := E) none (tokens (outline sp ms)) = .error x) ∨
    (x = .lineBreak ∧ ∃ sp ms, Inside span ns sp ms ∧ ¬ StringsOk ms) :=
  quote_blame _ ns span x (Nat.lt_succ_self _) h

/-- C103. Errors about indentation are about the first piece of some block that cannot stay where it is.
They name a column at which it can begin. -/
theorem C103_column (span : Option Cur) (ns : List (Node E)) (at' column : Nat)
    (h : Macro.quote (ι := ι) span ns = .error (.indentation at' column)) :
    ∃ sp ms a t b, Inside span ns sp ms ∧ outline sp ms = a ++ t :: b ∧ t.1.start.column = at' ∧
      (∃ r ss, Macro.quote (ι := ι) (E := E) none (tokens a) = .ok (r, ss)) ∧
      (∀ r ss, Macro.quote (ι := ι) (E := E) none (tokens (a ++ [t])) ≠ .ok (r, ss)) ∧
      (∀ u, u.1.start = ⟨t.1.start.line, column⟩ →
        ∃ r ss, Macro.quote (ι := ι) (E := E) none (tokens (a ++ [u])) = .ok (r, ss)) := by
  rcases C103_error span ns _ h with ⟨sp, ms, h1, h2⟩ | ⟨h1, -⟩
  · obtain ⟨a, t, b, h3, h4, h5, h6, h7⟩ := C101_column _ _ _ h2
    refine ⟨sp, ms, a, t, b, h1, h3, h4, h5, fun r ss hr => ?_, fun u hu => h6 u [] hu trivial⟩
    rcases h7 with ⟨h8, h9⟩ | ⟨h8, h9⟩
    · obtain ⟨e, he⟩ := h9 t [] at' (by rw [← h4]) h8 (Nat.le_refl _)
      rw [he] at hr; cases hr
    · obtain ⟨e, he⟩ := h9 t [] at' (by rw [← h4]) h8
      rw [he] at hr; cases hr
  · cases h1

/-- C103. Each error about indentation has a message that leads from the column where the piece is to
the column named. -/
theorem C103_message (span : Option Cur) (ns : List (Node E)) (at' column : Nat)
    (h : Macro.quote (ι := ι) span ns = .error (.indentation at' column)) :
    ∃ m, Err.message (.indentation at' column) = some m ∧ Moves m at' column := by
  rcases C103_error span ns _ h with ⟨sp, ms, h1, h2⟩ | ⟨h1, -⟩
  · exact C101_message _ _ _ h2
  · cases h1

namespace BlameSample

/-- A place on line `l`. -/
def pl (l a b : Nat) : Cur := ⟨⟨l, a⟩, ⟨l, b⟩⟩

/-- ```text
a(
    $(for x in y =>
        b
            c
          d)
)
```
-/
def loop : List (Node Str) :=
  [.tree (pl 1 0 1) ['a'], .group ⟨⟨1, 1⟩, ⟨6, 1⟩⟩ .parenthesis
    [.loop ⟨⟨2, 4⟩, ⟨5, 12⟩⟩ ['x'] ['y'] [.tree (pl 3 8 9) ['b'], .tree (pl 4 12 13) ['c'], .tree (pl 5 10 11) ['d']]]]

example : Macro.quote (ι := Str) none loop = .error (.indentation 10 8) := of_isError (by decide +kernel)

example : Inside (E := Str) none loop none
    [.tree (pl 3 8 9) ['b'], .tree (pl 4 12 13) ['c'], .tree (pl 5 10 11) ['d']] :=
  .deeper (.group (List.mem_cons_of_mem _ (List.mem_singleton_self _)) (.here (List.mem_singleton_self _)))
    (.loop ..) (.self ..)

/-- `$[str](a $x` with the end on the next line. -/
def text : List (Node Str) :=
  [.str ⟨⟨1, 0⟩, ⟨2, 1⟩⟩ ⟨⟨1, 6⟩, ⟨2, 1⟩⟩ [.tt (pl 1 7 8) ['a'], .ident (pl 1 9 11) ['x']]]

example : Macro.quote (ι := Str) none text = .error .lineBreak := rfl

example : ¬ StringsOk text := fun h =>
  absurd (show (1 : Nat) = 2 from (h _ _ _ (.here (List.mem_singleton_self _))).2.2) (by decide)

/-- The inside of parentheses counts as a piece: `$(for x in y join (` and on the next line `, ) => z)`. -/
def joined : List (Node Str) :=
  [.joined (pl 1 0 30) ['x'] ['y'] ⟨⟨1, 19⟩, ⟨2, 10⟩⟩ [.tree (pl 2 7 8) [',']] [.tree (pl 2 15 16) ['z']]]

example : outline (E := Str) (some ⟨⟨1, 19⟩, ⟨2, 10⟩⟩) [.tree (pl 2 7 8) [',']] =
    [(pl 1 20 20, []), (pl 2 7 8, []), (pl 2 9 9, [])] := rfl

example : ∃ r ss, Macro.quote (ι := Str) none joined = .ok (r, ss) := ⟨_, _, rfl⟩

end BlameSample

end Genco.Props
