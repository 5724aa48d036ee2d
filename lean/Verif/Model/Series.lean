import Verif.Model.Formatter

/-!
# Several files written with one writer
-/

set_option autoImplicit false

namespace Genco

variable {ι σ : Type}

/-- `Tokens::format_file` (src/tokens/tokens.rs 638-642), called for one file after the other with the same
`Formatter`. -/
def formatFiles (L : Lang ι) (cfg : Config) (W : Writer σ) : List (List (List (Item ι))) → Fmt σ → Except (Fmt σ) (Fmt σ)
  | [], f => .ok f
  | s :: ss, f => do
    let f ← formatFile L cfg W s f
    formatFiles L cfg W ss f

/-- The same with a new `Formatter` for each file, made by `as_formatter` (src/fmt/fmt_writer.rs 52-54,
src/fmt/vec_writer.rs 56-58, src/fmt/io_writer.rs 54-56) from the same writer. -/
def formatFilesAnew (L : Lang ι) (cfg : Config) (W : Writer σ) : List (List (List (Item ι))) → Fmt σ → Except (Fmt σ) (Fmt σ)
  | [], f => .ok f
  | s :: ss, f => do
    let f ← formatFile L cfg W s (Fmt.new f.out)
    formatFilesAnew L cfg W ss f

end Genco
