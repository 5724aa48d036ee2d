import Verif.Props.Writers
import Verif.Spec.Sinks

/-!
# C21: all sinks get the same pieces
-/

set_option autoImplicit false

namespace Genco.Props

open Genco Spec

variable {ι σ : Type}

/-- The pieces of events. -/
def piecesOf (nl : Str) (evs : List Ev) : List Str :=
  evs.map (fun e =>
    match e with
    | .str s => s
    | _ => nl)

theorem flatten_pieces (nl : Str) (evs : List Ev) : (piecesOf nl evs).flatten = evText nl evs := by
  induction evs with
  | nil => rfl
  | cons e r ih => cases e <;> simp_all [piecesOf, evText]

theorem replay_fmt (w : Str → σ → Except σ σ) (cfg : Config) (evs : List Ev) (o : σ) :
    replay (fmtWriter w) cfg evs o = feed w (piecesOf cfg.newline evs) o := by
  induction evs generalizing o with
  | nil => rfl
  | cons e r ih =>
    have key : ∀ s, (w s o).bind (replay (fmtWriter w) cfg r) = feed w (s :: piecesOf cfg.newline r) o := by
      intro s
      rw [feed]
      cases w s o with
      | ok o => exact ih o
      | error o => rfl
    cases e <;> exact key _

theorem replay_io (w : List UInt8 → σ → Except σ σ) (cfg : Config) (evs : List Ev) (o : σ) :
    replay (ioWriter w) cfg evs o = feed (fun s => w (utf8 s)) (piecesOf cfg.newline evs) o := by
  rw [← replay_fmt]
  rfl

theorem sink_eq (r : Except (Fmt σ) (Fmt σ)) : (view r).map Fmt.out = sink r := by cases r <;> rfl

/-- C21. Formatting a file hands over the same pieces of text whatever it writes to: they do not depend on
the sink, and their text is the file. A `core::fmt::Write` gets the pieces, an `io::Write` their UTF-8.
The first failure of the sink ends formatting. -/
theorem C21_pieces (L : Lang ι) (cfg : Config) (streams : List (List (Item ι))) (s : Str)
    (hs : toFileString L cfg streams = some s) :
    ∃ ps : List Str, ps.flatten = s ∧
      (∀ (σ : Type) (w : Str → σ → Except σ σ) (o : σ),
        sink (formatFile L cfg (fmtWriter w) streams (Fmt.new o)) = feed w ps o) ∧
      ∀ (σ : Type) (w : List UInt8 → σ → Except σ σ) (o : σ),
        sink (formatFile L cfg (ioWriter w) streams (Fmt.new o)) = feed (fun p => w (utf8 p)) ps o := by
  have h1 := formatFile_eq L cfg stringWriter streams (Fmt.new [])
  simp only [toFileString] at hs
  rw [show Fmt.out (σ := Str) = (fun f => id f.out) from rfl, okOf_eq, h1] at hs
  cases h : (resolveStreams L cfg streams).2 with
  | none => rw [h] at hs; simp [replay_string] at hs
  | some u =>
    rw [h] at hs
    simp only [replay_string, Fmt.new, List.nil_append, id, Option.some.injEq] at hs
    refine ⟨_, (flatten_pieces _ _).trans hs, fun σ w o => ?_, fun σ w o => ?_⟩
    · rw [← sink_eq, formatFile_eq, h]
      exact replay_fmt _ _ _ _
    · rw [← sink_eq, formatFile_eq, h]
      exact replay_io _ _ _ _

/-- C21. If a string cannot be written because the stream is malformed, nothing else can: all sinks get
the same pieces, and then formatting fails. -/
theorem C21_malformed (L : Lang ι) (cfg : Config) (streams : List (List (Item ι)))
    (hs : toFileString L cfg streams = none) :
    ∃ ps : List Str,
      (∀ (σ : Type) (w : Str → σ → Except σ σ) (o : σ),
        sink (formatFile L cfg (fmtWriter w) streams (Fmt.new o)) = thenFail (feed w ps o)) ∧
      ∀ (σ : Type) (w : List UInt8 → σ → Except σ σ) (o : σ),
        sink (formatFile L cfg (ioWriter w) streams (Fmt.new o)) = thenFail (feed (fun p => w (utf8 p)) ps o) := by
  have h1 := formatFile_eq L cfg stringWriter streams (Fmt.new [])
  simp only [toFileString] at hs
  rw [show Fmt.out (σ := Str) = (fun f => id f.out) from rfl, okOf_eq, h1] at hs
  cases h : (resolveStreams L cfg streams).2 with
  | some u => rw [h] at hs; simp [replay_string] at hs
  | none =>
    refine ⟨piecesOf cfg.newline (actsEv cfg .new (resolveStreams L cfg streams).1), fun σ w o => ?_, fun σ w o => ?_⟩
    · rw [← sink_eq, formatFile_eq, h]
      simp only
      rw [replay_fmt]
      rfl
    · rw [← sink_eq, formatFile_eq, h]
      simp only
      rw [replay_io]
      rfl

/-- A sink that counts the calls, and fails at the third. -/
example : toFileString plain cfg2 [[lit "abc", .push, lit "def"]] = some "abc\ndef\n".toList ∧
    sink (formatFile plain cfg2 (fmtWriter (fun _ n => if n < 2 then .ok (n + 1) else .error n))
      [[lit "abc", .push, lit "def"]] (Fmt.new 0)) = .error 2 ∧
    sink (formatFile plain cfg2 (fmtWriter (fun s o => .ok (o ++ [s]))) [[lit "abc", .push, lit "def"]] (Fmt.new [])) =
      .ok ["abc".toList, "\n".toList, "def".toList, "\n".toList] := ⟨by decide +kernel, rfl, rfl⟩

/-- A stream that ends inside of a string is malformed: all sinks get what is in front. -/
example : toFileString plain cfg2 [[lit "a", .closeEval]] = none ∧
    sink (formatFile plain cfg2 (fmtWriter (fun s o => .ok (o ++ s))) [[lit "a", .closeEval]] (Fmt.new [])) =
      .error "a".toList := ⟨by decide +kernel, rfl⟩

end Genco.Props
