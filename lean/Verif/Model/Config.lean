import Verif.Model.Formatter

/-!
# Making configurations, and output with the default one

Mirrors `impl Config` of `src/fmt/config.rs` and the four shorthands of `src/tokens/tokens.rs`.
-/

set_option autoImplicit false

namespace Genco

variable {ι : Type}

/-- `Lang::default_indentation`, src/lang/mod.rs 63-65. No language of the crate has its own. -/
def defaultIndentation : Indentation := .space 4

/-- `Config::from_lang`, src/fmt/config.rs 53-61. -/
def Config.fromLang : Config := { indentation := defaultIndentation, newline := ['\n'] }

/-- `Config::with_indentation`, src/fmt/config.rs 64-69. -/
def Config.withIndentation (c : Config) (i : Indentation) : Config := { c with indentation := i }

/-- `Config::with_newline`, src/fmt/config.rs 72-74. -/
def Config.withNewline (c : Config) (nl : Str) : Config := { c with newline := nl }

/-- `Tokens::to_string` as it is called, src/tokens/tokens.rs 751-759: the configuration is the default one. -/
def plainString (L : Lang ι) (items : List (Item ι)) : Option Str := toString L .fromLang items

/-- `Tokens::to_vec` as it is called, src/tokens/tokens.rs 856-864. -/
def plainVec (L : Lang ι) (items : List (Item ι)) : Option (List Str) := toVec L .fromLang items

/-- `Tokens::to_file_string` as it is called, src/tokens/tokens.rs 716-723. -/
def plainFileString (L : Lang ι) (streams : List (List (Item ι))) : Option Str := toFileString L .fromLang streams

/-- `Tokens::to_file_vec` as it is called, src/tokens/tokens.rs 818-825. -/
def plainFileVec (L : Lang ι) (streams : List (List (Item ι))) : Option (List Str) := toFileVec L .fromLang streams

end Genco
