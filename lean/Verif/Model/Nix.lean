import Verif.Model.Header

/-!
# Nix import headers, src/lang/nix.rs

The value of a variable is a token stream, which can contain imports again.
-/

set_option autoImplicit false

namespace Genco.Nix

/-- `Import`, src/lang/nix.rs 59-101. -/
inductive Import where
  | argument (name : ItemStr)
  | inherit (path name : ItemStr)
  | variable (name : ItemStr) (value : Tokens Import)
  | with (argument name : ItemStr)

/-- `LangItem::format`, src/lang/nix.rs 46-56. -/
def Import.format : Import → List Str
  | .argument n => [n.text]
  | .inherit _ n => [n.text]
  | .variable n _ => [n.text]
  | .with _ n => [n.text]

/-! ## The derived order

`Ord` is derived for `Import` (src/lang/nix.rs 59-101), `Item`
(src/tokens/item.rs 9-49) and `Tokens` (src/tokens/tokens.rs 72-86), which
contain each other. Comparing in the derived order is comparing the numbers
read off from front to back: the variant, then the fields; a vector compares
element by element, the shorter one first. `Proofs/NixOrd.lean` proves that the
order is the lexicographic one. -/

/-- A text, ended by a mark less than all characters. -/
def encStr (s : Str) : List Int := s.map (fun c => (c.toNat : Int) + 1) ++ [0]

/-- src/tokens/item_str.rs 15-21. -/
def encItemStr : ItemStr → List Int
  | .box s => 0 :: encStr s
  | .static s => 1 :: encStr s

mutual
/-- src/lang/nix.rs 59-101. -/
def Import.enc : Import → List Int
  | .argument n => 0 :: encItemStr n
  | .inherit p n => 1 :: (encItemStr p ++ encItemStr n)
  | .variable n v => 2 :: (encItemStr n ++ encTokens v)
  | .with a n => 3 :: (encItemStr a ++ encItemStr n)
/-- src/tokens/tokens.rs 72-86: the items, ended by a mark, and the position of
the last language item. -/
def encTokens : Tokens Import → List Int
  | ⟨rev, last⟩ => encRev rev ++ [0, (last : Int)]
/-- The items of a vector given last element first. -/
def encRev : List (Item Import) → List Int
  | [] => []
  | i :: r => encRev r ++ 1 :: encItem i
/-- src/tokens/item.rs 9-49. -/
def encItem : Item Import → List Int
  | .literal s => 0 :: encItemStr s
  | .lang p i => 1 :: (p : Int) :: i.enc
  | .register p i => 2 :: (p : Int) :: i.enc
  | .push => [3]
  | .line => [4]
  | .space => [5]
  | .indentation n => [6, n]
  | .openQuote b => [7, if b then 1 else 0]
  | .closeQuote => [8]
  | .openEval => [9]
  | .closeEval => [10]
end

/-- Derived order of streams, src/tokens/tokens.rs 72. -/
instance : Ord (Tokens Import) where
  compare a b := compare (encTokens a) (encTokens b)

/-! ## The header -/

/-- The names one import adds to the arguments, src/lang/nix.rs 126-158; only
one level of imports inside values is looked at. -/
def argumentsOf : Import → List Str
  | .argument n => [n.text]
  | .inherit p _ => [firstSeg1 '.' p.text]
  | .variable _ v => v.walkImports.flatMap (fun i =>
      match i with
      | .inherit p _ => [firstSeg1 '.' p.text]
      | .argument n => [n.text]
      | _ => [])
  | .with a _ => [firstSeg1 '.' a.text]

/-- `Nix::arguments`, src/lang/nix.rs 121-178. -/
def argumentCalls (imports : List Import) : List (Item Import) :=
  [Item.literal (.box "{".toList), .push, .indentation 1] ++
  (setOf (imports.flatMap argumentsOf)).flatMap (fun a => bitItems [.lit (.box a), word ","] ++ [Item.push]) ++
  [Item.literal (.box "...".toList), .push, .indentation (-1), .literal (.box "}:".toList), .push, .line]

/-- The scopes an import asks for, src/lang/nix.rs 183-187. -/
def withsOf : Import → List ItemStr
  | .with a _ => [a]
  | _ => []

/-- `Nix::withs`, src/lang/nix.rs 180-199. -/
def withCalls (imports : List Import) : List (Item Import) :=
  let withs := setOf (imports.flatMap withsOf)
  if withs.isEmpty then []
  else withs.flatMap (fun w => bitItems [word "with", .space, .lit w, word ";"] ++ [Item.push]) ++ [Item.line]

/-- The inherits of an import, src/lang/nix.rs 206-216; only one level of
imports inside values is looked at. -/
def inheritsOf : Import → List (ItemStr × ItemStr)
  | .inherit p n => [(p, n)]
  | .variable _ v => v.walkImports.flatMap (fun i =>
      match i with
      | .inherit p n => [(p, n)]
      | _ => [])
  | _ => []

/-- The variables of an import, src/lang/nix.rs 217. -/
def variablesOf : Import → List (ItemStr × Tokens Import)
  | .variable n v => [(n, v)]
  | _ => []

/-- `Nix::imports`, src/lang/nix.rs 201-246. -/
def letCalls (imports : List Import) : List (Item Import) :=
  let inherits := setOf (imports.flatMap inheritsOf)
  let variables := setOf (imports.flatMap variablesOf)
  if inherits.isEmpty && variables.isEmpty then []
  else
    [Item.literal (.box "let".toList), .push, .indentation 1] ++
    inherits.flatMap (fun e =>
      bitItems [word "inherit", .space, word "(", .lit e.1, word ")", .space, .lit e.2, word ";"] ++ [Item.push]) ++
    variables.flatMap (fun e =>
      bitItems [.lit e.1, .space, word "=", .space] ++ e.2.items ++ bitItems [word ";"] ++ [Item.push]) ++
    [Item.indentation (-1), .literal (.box "in".toList), .push, .line]

/-- The header of `format_file`, src/lang/nix.rs 32-38. `isScoped` is the field of
`Config`, src/lang/nix.rs 108-118. -/
def header (isScoped : Bool) (tokens : Tokens Import) : Tokens Import :=
  Tokens.new.extend ((if isScoped then [] else argumentCalls tokens.walkImports) ++
    withCalls tokens.walkImports ++ letCalls tokens.walkImports)

/-- The callbacks. -/
def lang : Lang Import := nixLang Import.format

/-- `format_file`, src/lang/nix.rs 27-43. -/
def file (isScoped : Bool) (tokens : Tokens Import) : List (List (Item Import)) :=
  [(header isScoped tokens).items, tokens.items]

end Genco.Nix
