import Verif.Model.ImportsB
import Verif.Spec.Simple

/-!
# Import statements of Python and the names they bind

As in the Python reference, "The import statement": `import a.b.c` loads the
module and binds the first segment; `import a.b.c as x` binds `x` to the module;
`from m import n as x` binds `x` to the attribute `n` of `m`. Values are named by
their full dotted path.
-/

set_option autoImplicit false

namespace Genco.Spec.PythonFile

open Genco.Python

inductive Stmt where
  | from_ (module : Str) (names : List (Str × Option Str))
  | import_ (module : Str) (alias : Option Str)
  deriving DecidableEq, Repr

/-- `name` or `name as alias`. -/
def asText (name : Str) : Option Str → Str
  | some a => name ++ " as ".toList ++ a
  | none => name

def Stmt.text : Stmt → Str
  | .from_ m ns => "from ".toList ++ m ++ " import ".toList ++
      ", ".toList.intercalate (ns.map (fun n => asText n.1 n.2))
  | .import_ m a => "import ".toList ++ asText m a

/-- The statement binds the name `n` to the value with the full path `f`. -/
def Stmt.Binds : Stmt → Str → Str → Prop
  | .from_ m ns, n, f => ∃ x ∈ ns, n = x.2.getD x.1 ∧ f = m ++ '.' :: x.1
  | .import_ m (some a), n, f => n = a ∧ f = m
  | .import_ m none, n, f => FirstPart '.' m n ∧ f = n

/-- The module the statement loads. -/
def Stmt.module : Stmt → Str
  | .from_ m _ => m
  | .import_ m _ => m

def Bound (ss : List Stmt) (n f : Str) : Prop := ∃ s ∈ ss, s.Binds n f

/-- The expression `ref` evaluates to the value with path `full`, found in
`module`: its first segment is bound, to one value only, the rest are attributes,
and the module is loaded. -/
def Resolves (ss : List Stmt) (ref module full : Str) : Prop :=
  (∃ seg rest p, ref = seg ++ rest ∧ '.' ∉ seg ∧ (rest = [] ∨ ∃ r, rest = '.' :: r) ∧
    Bound ss seg p ∧ full = p ++ rest ∧ ∀ p', Bound ss seg p' → p' = p) ∧
  ∃ s ∈ ss, s.module = module

/-- The module of an import. -/
def moduleOf : Import → Str
  | .object (.unqualified p) _ _ => p.text
  | .object (.qualified p _) _ _ => p.text
  | .module p _ => p.text

/-- What the import stands for. -/
def target : Import → Str
  | .object (.unqualified p) n _ => p.text ++ '.' :: n.text
  | .object (.qualified p _) n _ => p.text ++ '.' :: n.text
  | .module p _ => p.text

/-- The import claims the local name `n` for the value `f`. -/
def Claims : Import → Str → Str → Prop
  | .object (.unqualified p) x a, n, f => n = (a.getD x).text ∧ f = p.text ++ '.' :: x.text
  | .object (.qualified p (some b)) _ _, n, f => n = b.text ∧ f = p.text
  | .object (.qualified p none) _ _, n, f => FirstPart '.' p.text n ∧ f = n
  | .module p (some b), n, f => n = b.text ∧ f = p.text
  | .module p none, n, f => FirstPart '.' p.text n ∧ f = n

/-- The names of an import: its name and aliases. -/
def names : Import → List ItemStr
  | .object (.unqualified _) n a => n :: a.toList
  | .object (.qualified _ b) n a => n :: a.toList ++ b.toList
  | .module _ b => b.toList

/-- Names and aliases are identifiers as far as it matters here; modules are not
empty. -/
def Proper (i : Import) : Prop :=
  moduleOf i ≠ [] ∧ ∀ x ∈ names i, x.text ≠ [] ∧ '.' ∉ x.text

/-- The import does not ask for an alias of a name that is written with its
module, unless it is the name itself. -/
def Usual : Import → Prop
  | .object (.qualified _ _) n a => ∀ b ∈ a, b.text = n.text
  | _ => True

/-- The texts of an import. -/
def strs : Import → List ItemStr
  | .object (.unqualified p) n a => p :: n :: a.toList
  | .object (.qualified p b) n a => p :: n :: a.toList ++ b.toList
  | .module p b => p :: b.toList

end Genco.Spec.PythonFile
