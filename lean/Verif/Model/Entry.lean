import Verif.Model.Macro

/-!
# The three macros

`quote!`, `quote_in!` and `quote_fn!` around the code that `Quote::parse` generates.
-/

set_option autoImplicit false

namespace Genco.Macro

variable {ι E Env : Type}

/-- The languages of genco. -/
inductive Target where
  | c
  | csharp
  | dart
  | go
  | java
  | js
  | nix
  | python
  | rust
  | swift
  deriving DecidableEq, Repr

/-- The languages with an implementation of `LangSupportsEval`: src/lang/dart/mod.rs 55 and
src/lang/js.rs 65. -/
def Target.supportsEval : Target → Bool
  | .dart => true
  | .js => true
  | _ => false

/-- Why a macro does not compile: the macro itself reports an error, or the generated call of
`lang_supports_eval` is not there for streams of the language. -/
inductive Refusal where
  | macro (e : Err)
  | language
  deriving DecidableEq, Repr

/-- The generated code with the check `Requirements::into_check` adds to it,
genco-macros/src/requirements.rs 15-25. The check calls `lang_supports_eval`
(src/tokens/tokens.rs 674-682), which does nothing, and is only there if the language implements
`LangSupportsEval`. `supports` says if it does. -/
def expand (supports : Bool) (ns : List (Node E)) : Except Refusal (List (Stmt ι E)) :=
  match quote none ns with
  | .error e => .error (.macro e)
  | .ok (req, ss) => if req && !supports then .error .language else .ok ss

variable (H : Host ι E Env)

/-- `quote!`, genco-macros/src/lib.rs 48-77: the calls are made on a new stream. -/
def quoteMacro (supports : Bool) (ρ : Env) (ns : List (Node E)) : Except Refusal (Tokens ι) :=
  (expand supports ns).map (fun ss => (runBlock H ρ ss).foldl Call.run Tokens.new)

/-- `quote_in!`, genco-macros/src/lib.rs 79-83 and quote_in.rs 22-42: the calls are made on the
stream given. -/
def quoteInMacro (supports : Bool) (ρ : Env) (ns : List (Node E)) (t : Tokens ι) : Except Refusal (Tokens ι) :=
  (expand supports ns).map (fun ss => (runBlock H ρ ss).foldl Call.run t)

/-- `quote_fn!`, genco-macros/src/lib.rs 85-89 and quote_fn.rs 12-33, with `from_fn` and the
`format_into` of what it gives, src/tokens/from_fn.rs 26-53: what `append` does to a stream with the
value. -/
def quoteFnMacro (supports : Bool) (ρ : Env) (ns : List (Node E)) : Except Refusal (Tokens ι → Tokens ι) :=
  (expand supports ns).map (fun ss t => (runBlock H ρ ss).foldl Call.run t)

end Genco.Macro
