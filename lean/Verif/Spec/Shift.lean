import Verif.Spec.Quoting

/-!
# Text moved in
-/

set_option autoImplicit false

namespace Genco.Spec

/-- A line moved in by `k` levels; blank lines stay blank. -/
def movedIn (cfg : Config) (k : Nat) (l : Str) : Str :=
  if l = [] then [] else marginText cfg k ++ l

/-- Code that stands on lines of its own: it starts and ends with visible text,
never goes further out than it starts, and ends on the level it starts on. -/
structure Whole (acts : List Act) : Prop where
  first : ∃ s r, acts = .text s :: r ∧ s ≠ []
  last : ∃ r s, acts = r ++ [.text s] ∧ s ≠ []
  inside : ∀ p, p <+: acts → 0 ≤ (p.map actInd).sum
  level : (acts.map actInd).sum = 0

/-- The requests without the empty texts, which do nothing. -/
def seen (acts : List Act) : List Act := acts.filter (fun a => a ≠ .text [])

/-- Lines with `p` in front of the first and `s` behind the last. -/
def attach (p s : Str) : List Str → List Str
  | [] => [p ++ s]
  | [l] => [p ++ l ++ s]
  | l :: r => (p ++ l) :: (r.dropLast ++ [r.getLast?.getD [] ++ s])

end Genco.Spec
