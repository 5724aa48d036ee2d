import Verif.Model.Item

/-!
# Ordered sets and maps

`alloc::collections::BTreeSet` and `BTreeMap` as the list of their elements in
iteration order. The order is the derived `Ord` of the element type, given here
by `compare`. Only the operations used by the `imports` functions of the
languages are modelled.
-/

set_option autoImplicit false

namespace Genco

variable {α κ ν : Type}

/-- Derived `Ord` for tuples: lexicographic. -/
instance instOrdPair [Ord α] [Ord κ] : Ord (α × κ) := lexOrd

/-- Derived `Ord` for `ItemStr`, src/tokens/item_str.rs 15: all `Box`ed texts
before all `Static` ones, texts by code points (the order of `str` is the order
of the UTF-8 bytes, which is the same). -/
instance : Ord ItemStr where
  compare
    | .box a, .box b => compare a b
    | .box _, .static _ => .lt
    | .static _, .box _ => .gt
    | .static a, .static b => compare a b

/-- `BTreeSet::insert`; an equal element is kept. -/
def setInsert [Ord α] (x : α) : List α → List α
  | [] => [x]
  | y :: r =>
    match compare x y with
    | .lt => x :: y :: r
    | .eq => y :: r
    | .gt => y :: setInsert x r

/-- A set filled by inserting elements one after the other. -/
def setOf [Ord α] (l : List α) : List α := l.foldl (fun s x => setInsert x s) []

/-- `BTreeMap::get`. -/
def mapGet [Ord κ] (k : κ) : List (κ × ν) → Option ν
  | [] => none
  | (j, v) :: r => if compare k j = .eq then some v else mapGet k r

/-- `BTreeMap::entry(k).or_insert(d)` followed by an update of the value in
place. -/
def mapModify [Ord κ] (k : κ) (d : ν) (f : ν → ν) : List (κ × ν) → List (κ × ν)
  | [] => [(k, f d)]
  | (j, v) :: r =>
    match compare k j with
    | .lt => (k, f d) :: (j, v) :: r
    | .eq => (j, f v) :: r
    | .gt => (j, v) :: mapModify k d f r

/-- `BTreeMap::insert`; the key is kept if there is one, the value replaced. -/
def mapInsert [Ord κ] (k : κ) (v : ν) : List (κ × ν) → List (κ × ν) :=
  mapModify k v (fun _ => v)

end Genco
